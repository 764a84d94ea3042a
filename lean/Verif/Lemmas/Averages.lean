import Verif.Lemmas.Ergodic
import Mathlib.Probability.Independence.Integration
import Mathlib.Analysis.PSeries
import Mathlib.Algebra.Order.Chebyshev
import Mathlib.MeasureTheory.Function.L2Space

/-! # Averages along iterated random contractions

A strong law of large numbers for averages of a Lipschitz quantity along the chain of `Verif.Lemmas.Ergodic`, with the rate
`1/N` in mean square. -/

namespace Pxmcmc
open MeasureTheory ProbabilityTheory Filter
open scoped ENNReal Topology

section Sums
variable {Ω : Type*} [MeasurableSpace Ω] {P : Measure Ω}

theorem ae_tendsto_zero_of_sq (F : ℕ → Ω → ℝ) (hm : ∀ k, AEMeasurable (F k) P) (hi : ∀ k, Integrable (fun ω => F k ω ^ 2) P) (C : ℝ)
    (hC : ∀ k, ∫ ω, F k ω ^ 2 ∂P ≤ C / ((k : ℝ) + 1) ^ 2) : ∀ᵐ ω ∂P, Tendsto (fun k => F k ω) atTop (𝓝 0) := by
  have hs : Summable fun k : ℕ => C / ((k : ℝ) + 1) ^ 2 := by
    have h1 : Summable fun k : ℕ => 1 / (k : ℝ) ^ 2 := Real.summable_one_div_nat_pow.mpr one_lt_two
    have h2 := ((summable_nat_add_iff 1).mpr h1).mul_left C
    refine h2.congr fun k => ?_
    push_cast
    ring
  have hint : ∫⁻ ω, ∑' k, ENNReal.ofReal (F k ω ^ 2) ∂P ≠ ⊤ := by
    rw [lintegral_tsum fun k => ((hm k).pow_const 2).ennreal_ofReal]
    have : ∀ k, ∫⁻ ω, ENNReal.ofReal (F k ω ^ 2) ∂P ≤ ENNReal.ofReal (C / ((k : ℝ) + 1) ^ 2) := by
      intro k
      rw [← ofReal_integral_eq_lintegral_ofReal (hi k) (Filter.Eventually.of_forall fun ω => sq_nonneg _)]
      exact ENNReal.ofReal_le_ofReal (hC k)
    refine ne_top_of_le_ne_top ?_ (ENNReal.tsum_le_tsum this)
    exact hs.tsum_ofReal_ne_top
  have hae := ae_lt_top' (AEMeasurable.tsum fun k => ((hm k).pow_const 2).ennreal_ofReal) hint
  filter_upwards [hae] with ω hω
  have h1 : Summable fun k => F k ω ^ 2 := by
    refine (ENNReal.summable_toReal hω.ne).congr fun k => ?_
    exact ENNReal.toReal_ofReal (sq_nonneg _)
  have h2 := (h1.tendsto_atTop_zero).sqrt
  simp only [Real.sqrt_zero, Real.sqrt_sq_eq_abs] at h2
  exact (tendsto_zero_iff_abs_tendsto_zero _).mpr h2

/-- Square-integrable variables with geometrically decaying covariances. -/
structure Decay (P : Measure Ω) (Z : ℕ → Ω → ℝ) (K ρ : ℝ) : Prop where
  nonneg : 0 ≤ ρ
  lt_one : ρ < 1
  memLp : ∀ k, MemLp (Z k) 2 P
  cov : ∀ k m, ∫ ω, Z k ω * Z (k + m) ω ∂P ≤ K * ρ ^ m

variable {Z : ℕ → Ω → ℝ} {K ρ : ℝ}

theorem Decay.mul_int (h : Decay P Z K ρ) (k l : ℕ) : Integrable (fun ω => Z k ω * Z l ω) P :=
  (h.memLp k).integrable_mul (h.memLp l)

theorem Decay.K_nonneg (h : Decay P Z K ρ) : 0 ≤ K := by
  have h1 := h.cov 0 0
  have h2 : 0 ≤ ∫ ω, Z 0 ω * Z (0 + 0) ω ∂P := integral_nonneg fun ω => mul_self_nonneg _
  simp only [pow_zero, mul_one] at h1
  exact h2.trans h1

theorem Decay.sum_memLp (h : Decay P Z K ρ) (N : ℕ) : MemLp (fun ω => ∑ k ∈ Finset.range N, Z k ω) 2 P :=
  memLp_finsetSum _ fun k _ => h.memLp k

theorem Decay.sum_sq (h : Decay P Z K ρ) (N : ℕ) :
    ∫ ω, (∑ k ∈ Finset.range N, Z k ω) ^ 2 ∂P ≤ (3 * K / (1 - ρ)) * N := by
  have hK := h.K_nonneg
  have h1ρ : 0 < 1 - ρ := by linarith [h.lt_one]
  induction N with
  | zero => simp
  | succ N ih =>
    have e : ∀ ω, (∑ k ∈ Finset.range (N + 1), Z k ω) ^ 2 =
        ((∑ k ∈ Finset.range N, Z k ω) ^ 2 + 2 * ∑ k ∈ Finset.range N, Z k ω * Z N ω) + Z N ω * Z N ω := by
      intro ω
      rw [Finset.sum_range_succ, ← Finset.sum_mul]
      ring
    have i1 : Integrable (fun ω => (∑ k ∈ Finset.range N, Z k ω) ^ 2) P := (h.sum_memLp N).integrable_sq
    have i2 : Integrable (fun ω => 2 * ∑ k ∈ Finset.range N, Z k ω * Z N ω) P :=
      (integrable_finsetSum _ fun k _ => h.mul_int k N).const_mul 2
    have i12 : Integrable (fun ω => (∑ k ∈ Finset.range N, Z k ω) ^ 2 + 2 * ∑ k ∈ Finset.range N, Z k ω * Z N ω) P := i1.add i2
    simp only [e]
    rw [integral_add i12 (h.mul_int N N), integral_add i1 i2, integral_const_mul,
      integral_finsetSum _ fun k _ => h.mul_int k N]
    have b1 : ∑ k ∈ Finset.range N, ∫ ω, Z k ω * Z N ω ∂P ≤ K / (1 - ρ) := by
      have : ∀ k ∈ Finset.range N, ∫ ω, Z k ω * Z N ω ∂P ≤ K * ρ ^ (N - 1 - k) := by
        intro k hk
        have hk' := Finset.mem_range.mp hk
        have h2 := h.cov k (N - k)
        rw [show k + (N - k) = N by omega] at h2
        refine h2.trans (mul_le_mul_of_nonneg_left ?_ hK)
        exact pow_le_pow_of_le_one h.nonneg h.lt_one.le (by omega)
      calc _ ≤ ∑ k ∈ Finset.range N, K * ρ ^ (N - 1 - k) := Finset.sum_le_sum this
        _ = K * ∑ k ∈ Finset.range N, ρ ^ k := by
          rw [← Finset.mul_sum, Finset.sum_range_reflect (fun k => ρ ^ k) N]
        _ ≤ K * (1 - ρ)⁻¹ := by
          refine mul_le_mul_of_nonneg_left ?_ hK
          rw [← tsum_geometric_of_lt_one h.nonneg h.lt_one]
          exact (summable_geometric_of_lt_one h.nonneg h.lt_one).sum_le_tsum _ fun k _ => pow_nonneg h.nonneg k
        _ = _ := by rw [div_eq_mul_inv]
    have b2 : ∫ ω, Z N ω * Z N ω ∂P ≤ K / (1 - ρ) := by
      have h2 := h.cov N 0
      simp only [add_zero, pow_zero, mul_one] at h2
      refine h2.trans ?_
      rw [le_div_iff₀ h1ρ]
      nlinarith [h.nonneg]
    push_cast
    have e3 : 3 * K / (1 - ρ) = 3 * (K / (1 - ρ)) := by ring
    rw [e3] at ih ⊢
    linarith

/-- Averages of such variables tend to zero almost surely. -/
theorem Decay.ae_average (h : Decay P Z K ρ) :
    ∀ᵐ ω ∂P, Tendsto (fun N : ℕ => (∑ k ∈ Finset.range N, Z k ω) / N) atTop (𝓝 0) := by
  have hK := h.K_nonneg
  have h1ρ : 0 < 1 - ρ := by linarith [h.lt_one]
  -- along the squares
  have t1 : ∀ᵐ ω ∂P, Tendsto (fun k : ℕ => (∑ l ∈ Finset.range ((k + 1) ^ 2), Z l ω) / ((k : ℝ) + 1) ^ 2) atTop (𝓝 0) := by
    refine ae_tendsto_zero_of_sq _ (fun k => ((h.sum_memLp _).aestronglyMeasurable.aemeasurable).div_const _) (fun k => ?_)
      (3 * K / (1 - ρ)) fun k => ?_
    · simp only [div_pow]
      exact (h.sum_memLp _).integrable_sq.div_const _
    · simp only [div_pow]
      rw [integral_div]
      have h2 := h.sum_sq ((k + 1) ^ 2)
      push_cast at h2
      have hp : (0 : ℝ) < ((k : ℝ) + 1) ^ 2 := by positivity
      rw [div_le_div_iff₀ (by positivity) hp]
      nlinarith
  -- between them
  have hZ : ∀ l, ∫ ω, Z l ω ^ 2 ∂P ≤ K := by
    intro l
    have h2 := h.cov l 0
    simp only [add_zero, pow_zero, mul_one, ← pow_two] at h2
    exact h2
  have t2 : ∀ᵐ ω ∂P, Tendsto (fun k : ℕ => (∑ l ∈ Finset.Ico ((k + 1) ^ 2) ((k + 2) ^ 2), |Z l ω|) / ((k : ℝ) + 1) ^ 2)
      atTop (𝓝 0) := by
    have hm : ∀ k : ℕ, MemLp (fun ω => ∑ l ∈ Finset.Ico ((k + 1) ^ 2) ((k + 2) ^ 2), |Z l ω|) 2 P := fun k =>
      memLp_finsetSum _ fun l _ => (h.memLp l).abs
    refine ae_tendsto_zero_of_sq _ (fun k => ((hm k).aestronglyMeasurable.aemeasurable).div_const _) (fun k => ?_)
      (9 * K) fun k => ?_
    · simp only [div_pow]
      exact (hm k).integrable_sq.div_const _
    · simp only [div_pow]
      rw [integral_div]
      have hcard : ((Finset.Ico ((k + 1) ^ 2) ((k + 2) ^ 2)).card : ℝ) = 2 * k + 3 := by
        rw [Nat.card_Ico]
        have : (k + 2) ^ 2 - (k + 1) ^ 2 = 2 * k + 3 := by
          have : (k + 2) ^ 2 = (k + 1) ^ 2 + (2 * k + 3) := by ring
          omega
        rw [this]
        push_cast
        ring
      have hb : ∫ ω, (∑ l ∈ Finset.Ico ((k + 1) ^ 2) ((k + 2) ^ 2), |Z l ω|) ^ 2 ∂P ≤ (2 * k + 3) * ((2 * k + 3) * K) := by
        calc _ ≤ ∫ ω, (2 * (k : ℝ) + 3) * ∑ l ∈ Finset.Ico ((k + 1) ^ 2) ((k + 2) ^ 2), Z l ω ^ 2 ∂P := by
              refine integral_mono (hm k).integrable_sq
                ((integrable_finsetSum _ fun l _ => (h.memLp l).integrable_sq).const_mul _) fun ω => ?_
              have := sq_sum_le_card_mul_sum_sq (s := Finset.Ico ((k + 1) ^ 2) ((k + 2) ^ 2)) (f := fun l => |Z l ω|)
              simp only [sq_abs] at this
              rw [hcard] at this
              exact this
          _ = (2 * k + 3) * ∑ l ∈ Finset.Ico ((k + 1) ^ 2) ((k + 2) ^ 2), ∫ ω, Z l ω ^ 2 ∂P := by
              rw [integral_const_mul, integral_finsetSum _ fun l _ => (h.memLp l).integrable_sq]
          _ ≤ (2 * k + 3) * ((2 * k + 3) * K) := by
              refine mul_le_mul_of_nonneg_left ?_ (by positivity)
              calc _ ≤ ∑ l ∈ Finset.Ico ((k + 1) ^ 2) ((k + 2) ^ 2), K := Finset.sum_le_sum fun l _ => hZ l
                _ = _ := by rw [Finset.sum_const, nsmul_eq_mul, hcard]
      have hp : (0 : ℝ) < (k : ℝ) + 1 := by positivity
      rw [div_le_div_iff₀ (by positivity) (by positivity)]
      have h3 : (2 * (k : ℝ) + 3) * ((2 * k + 3) * K) ≤ 9 * K * ((k : ℝ) + 1) ^ 2 := by
        have hk : (0 : ℝ) ≤ k := Nat.cast_nonneg k
        have : (2 * (k : ℝ) + 3) ^ 2 ≤ (3 * ((k : ℝ) + 1)) ^ 2 := pow_le_pow_left₀ (by positivity) (by linarith) 2
        nlinarith
      calc _ ≤ 9 * K * ((k : ℝ) + 1) ^ 2 * ((k : ℝ) + 1) ^ 2 := mul_le_mul_of_nonneg_right (hb.trans h3) (by positivity)
        _ = _ := by ring
  filter_upwards [t1, t2] with ω h1 h2
  have hsq : Tendsto (fun N : ℕ => Nat.sqrt N - 1) atTop atTop := by
    refine tendsto_atTop.mpr fun b => ?_
    filter_upwards [eventually_ge_atTop ((b + 1) ^ 2)] with N hN
    have : b + 1 ≤ Nat.sqrt N := Nat.le_sqrt'.mpr hN
    omega
  have h3 : Tendsto (fun N : ℕ => |(∑ l ∈ Finset.range ((Nat.sqrt N - 1 + 1) ^ 2), Z l ω) / (((Nat.sqrt N - 1 : ℕ) : ℝ) + 1) ^ 2| +
      (∑ l ∈ Finset.Ico ((Nat.sqrt N - 1 + 1) ^ 2) ((Nat.sqrt N - 1 + 2) ^ 2), |Z l ω|) / (((Nat.sqrt N - 1 : ℕ) : ℝ) + 1) ^ 2)
      atTop (𝓝 0) := by
    have := (h1.abs.add h2).comp hsq
    rw [abs_zero, add_zero] at this
    exact this
  refine squeeze_zero_norm' ?_ h3
  filter_upwards [eventually_ge_atTop 1] with N hN
  have hs1 : 1 ≤ Nat.sqrt N := Nat.le_sqrt'.mpr (by simpa using hN)
  obtain ⟨k, hk⟩ : ∃ k, Nat.sqrt N = k + 1 := ⟨Nat.sqrt N - 1, by omega⟩
  have hlo : (k + 1) ^ 2 ≤ N := by rw [← hk]; exact Nat.sqrt_le' N
  have hhi : N < (k + 2) ^ 2 := by
    have := Nat.lt_succ_sqrt' N
    rw [hk] at this
    exact this
  have e : Nat.sqrt N - 1 = k := by omega
  rw [e]
  have hp : (0 : ℝ) < ((k : ℝ) + 1) ^ 2 := by positivity
  have hN' : ((k : ℝ) + 1) ^ 2 ≤ N := by exact_mod_cast hlo
  rw [Real.norm_eq_abs, abs_div, abs_div, abs_of_pos hp, abs_of_pos (hp.trans_le hN'), ← add_div]
  refine (div_le_div_of_nonneg_left (abs_nonneg _) hp hN').trans (div_le_div_of_nonneg_right ?_ hp.le)
  rw [← Finset.sum_range_add_sum_Ico _ hlo]
  refine (abs_add_le _ _).trans (add_le_add le_rfl ?_)
  refine (Finset.abs_sum_le_sum_abs _ _).trans ?_
  exact Finset.sum_le_sum_of_subset_of_nonneg (Finset.Ico_subset_Ico_right hhi.le) fun l _ _ => abs_nonneg _

end Sums

section Chain
variable {E W : Type*} [MeasurableSpace W] [MetricSpace E] [CompleteSpace E] [MeasurableSpace E] [BorelSpace E]
  {ν : Measure W} [IsProbabilityMeasure ν] {f : E → W → E} {φ : E → E → ℝ} {ρ : ℝ} {x0 : E}

/-- The additional assumptions for averages: `φ` is a continuous distance and the displacement of `x0` has a second moment. -/
structure SquareContraction (ν : Measure W) (f : E → W → E) (φ : E → E → ℝ) (ρ : ℝ) (x0 : E) : Prop extends
    RandomContraction ν f φ ρ x0 where
  tri : ∀ x y z, φ x z ≤ φ x y + φ y z
  contφ : Continuous fun x => φ x x0
  self : φ x0 x0 = 0
  sq_int : Integrable (fun w => φ (f x0 w) x0 ^ 2) ν

/-- Independent noise of law `ν`. -/
structure Driven {Ω : Type*} [MeasurableSpace Ω] (P : Measure Ω) (V : ℕ → Ω → W) (ν : Measure W) : Prop where
  meas : ∀ k, Measurable (V k)
  indep : iIndepFun V P
  law : ∀ k, P.map (V k) = ν

variable {Ω : Type*} [MeasurableSpace Ω] {P : Measure Ω} [IsProbabilityMeasure P] {V : ℕ → Ω → W}

omit [IsProbabilityMeasure P] [IsProbabilityMeasure ν] in
theorem Driven.shift (hV : Driven P V ν) (i : ℕ) : Driven P (fun k => V (i + k)) ν :=
  ⟨fun k => hV.meas _, hV.indep.precomp (g := fun k => i + k) fun a b h => by simpa using h, fun k => hV.law _⟩

omit [MeasurableSpace W] [MetricSpace E] [CompleteSpace E] [MeasurableSpace E] [BorelSpace E] in
theorem fwState_add (f : E → W → E) (x0 : E) (w : ℕ → W) (i m : ℕ) :
    fwState f x0 w (i + m) = fwState f (fwState f x0 w i) (fun k => w (i + k)) m := by
  induction m with
  | zero => rfl
  | succ m ih =>
    show f (fwState f x0 w (i + m)) (w (i + m)) = _
    rw [ih]
    rfl

omit [MeasurableSpace W] [MetricSpace E] [CompleteSpace E] [MeasurableSpace E] [BorelSpace E] in
theorem fw_start (f : E → W → E) (φ : E → E → ℝ) (ρ : ℝ) (hρ : 0 ≤ ρ) (hφ : ∀ x y w, φ (f x w) (f y w) ≤ ρ * φ x y)
    (k : ℕ) (x y : E) (w : ℕ → W) : φ (fwState f x w k) (fwState f y w k) ≤ ρ ^ k * φ x y := by
  induction k with
  | zero => simp [fwState]
  | succ k ih =>
    calc _ ≤ _ := hφ _ _ _
      _ ≤ _ := mul_le_mul_of_nonneg_left ih hρ
      _ = _ := by rw [pow_succ]; ring

/-- A bound for the first two moments of the distance from the start. -/
noncomputable def momBound (ν : Measure W) (f : E → W → E) (φ : E → E → ℝ) (ρ : ℝ) (x0 : E) : ℝ :=
  1 + (∫ w, φ (f x0 w) x0 ^ 2 ∂ν) / (1 - ρ) ^ 2

omit [IsProbabilityMeasure ν] [CompleteSpace E] [BorelSpace E] in
theorem SquareContraction.nonnegφ (h : SquareContraction ν f φ ρ x0) (x y : E) : 0 ≤ φ x y := dist_nonneg.trans (h.dist_le x y)

omit [IsProbabilityMeasure ν] [CompleteSpace E] [BorelSpace E] [MetricSpace E] [MeasurableSpace E] in
theorem momBound_pos : 1 ≤ momBound ν f φ ρ x0 := by
  have : 0 ≤ (∫ w, φ (f x0 w) x0 ^ 2 ∂ν) / (1 - ρ) ^ 2 :=
    div_nonneg (integral_nonneg fun w => sq_nonneg _) (sq_nonneg _)
  unfold momBound
  linarith

omit [IsProbabilityMeasure ν] [CompleteSpace E] in
/-- The second moment of the distance from the start stays bounded. -/
theorem SquareContraction.moment2 (h : SquareContraction ν f φ ρ x0) (hV : Driven P V ν) (k : ℕ) :
    Integrable (fun ω => φ (fwState f x0 (fun j => V j ω) k) x0 ^ 2) P ∧
    ∫ ω, φ (fwState f x0 (fun j => V j ω) k) x0 ^ 2 ∂P ≤ (∫ w, φ (f x0 w) x0 ^ 2 ∂ν) / (1 - ρ) ^ 2 := by
  have h1ρ : 0 < 1 - ρ := by linarith [h.lt_one]
  have hD : 0 ≤ ∫ w, φ (f x0 w) x0 ^ 2 ∂ν := integral_nonneg fun w => sq_nonneg _
  induction k with
  | zero =>
    simp only [fwState, h.self]
    refine ⟨integrable_const _, ?_⟩
    simp only [ne_eq, OfNat.ofNat_ne_zero, not_false_eq_true, zero_pow, integral_zero]
    positivity
  | succ k ih =>
    have hd : Integrable (fun ω => φ (f x0 (V k ω)) x0 ^ 2) P := by
      have := h.sq_int
      rw [← hV.law k] at this
      exact this.comp_measurable (hV.meas k)
    have hde : ∫ ω, φ (f x0 (V k ω)) x0 ^ 2 ∂P = ∫ w, φ (f x0 w) x0 ^ 2 ∂ν := by
      rw [← hV.law k, integral_map (hV.meas k).aemeasurable]
      exact (h.start_meas.pow_const 2).aestronglyMeasurable
    have hle : ∀ ω, φ (fwState f x0 (fun j => V j ω) (k + 1)) x0 ^ 2 ≤
        ρ * φ (fwState f x0 (fun j => V j ω) k) x0 ^ 2 + φ (f x0 (V k ω)) x0 ^ 2 / (1 - ρ) := by
      intro ω
      have h1 := h.tri (f (fwState f x0 (fun j => V j ω) k) (V k ω)) (f x0 (V k ω)) x0
      have h2 := h.contract (fwState f x0 (fun j => V j ω) k) x0 (V k ω)
      have h0 := h.nonnegφ (f (fwState f x0 (fun j => V j ω) k) (V k ω)) x0
      show φ (f (fwState f x0 (fun j => V j ω) k) (V k ω)) x0 ^ 2 ≤ _
      set U := φ (fwState f x0 (fun j => V j ω) k) x0
      set d := φ (f x0 (V k ω)) x0
      have h3 := pow_le_pow_left₀ h0 (h1.trans (add_le_add h2 le_rfl)) 2
      refine h3.trans ?_
      have e : ρ * U ^ 2 + d ^ 2 / (1 - ρ) - (ρ * U + d) ^ 2 = ρ * ((1 - ρ) * U - d) ^ 2 / (1 - ρ) := by
        field_simp
        ring
      have : 0 ≤ ρ * ((1 - ρ) * U - d) ^ 2 / (1 - ρ) := div_nonneg (mul_nonneg h.nonneg (sq_nonneg _)) h1ρ.le
      linarith
    have hb : Integrable (fun ω => ρ * φ (fwState f x0 (fun j => V j ω) k) x0 ^ 2 + φ (f x0 (V k ω)) x0 ^ 2 / (1 - ρ)) P :=
      (ih.1.const_mul ρ).add (hd.div_const _)
    have hm : Measurable fun ω => φ (fwState f x0 (fun j => V j ω) (k + 1)) x0 :=
      h.contφ.measurable.comp (fwState_measurable f h.meas x0 _ hV.meas (k + 1))
    have hi : Integrable (fun ω => φ (fwState f x0 (fun j => V j ω) (k + 1)) x0 ^ 2) P := by
      refine hb.mono' (hm.pow_const 2).aestronglyMeasurable (Filter.Eventually.of_forall fun ω => ?_)
      rw [Real.norm_eq_abs, abs_of_nonneg (sq_nonneg _)]
      exact hle ω
    refine ⟨hi, (integral_mono hi hb hle).trans ?_⟩
    rw [integral_add (ih.1.const_mul ρ) (hd.div_const _), integral_const_mul, integral_div, hde]
    have h4 := mul_le_mul_of_nonneg_left ih.2 h.nonneg
    refine (add_le_add h4 le_rfl).trans (le_of_eq ?_)
    field_simp
    ring

omit [IsProbabilityMeasure ν] [CompleteSpace E] in
theorem SquareContraction.moment1 (h : SquareContraction ν f φ ρ x0) (hV : Driven P V ν) (k : ℕ) :
    Integrable (fun ω => φ (fwState f x0 (fun j => V j ω) k) x0) P ∧
    ∫ ω, φ (fwState f x0 (fun j => V j ω) k) x0 ∂P ≤ momBound ν f φ ρ x0 := by
  obtain ⟨i2, b2⟩ := h.moment2 hV k
  have hm : Measurable fun ω => φ (fwState f x0 (fun j => V j ω) k) x0 :=
    h.contφ.measurable.comp (fwState_measurable f h.meas x0 _ hV.meas k)
  have hle : ∀ ω, φ (fwState f x0 (fun j => V j ω) k) x0 ≤ 1 + φ (fwState f x0 (fun j => V j ω) k) x0 ^ 2 := fun ω => by
    nlinarith [sq_nonneg (φ (fwState f x0 (fun j => V j ω) k) x0 - 1), sq_nonneg (φ (fwState f x0 (fun j => V j ω) k) x0)]
  have hb : Integrable (fun ω => 1 + φ (fwState f x0 (fun j => V j ω) k) x0 ^ 2) P := (integrable_const 1).add i2
  have hi : Integrable (fun ω => φ (fwState f x0 (fun j => V j ω) k) x0) P := by
    refine hb.mono' hm.aestronglyMeasurable (Filter.Eventually.of_forall fun ω => ?_)
    rw [Real.norm_eq_abs, abs_of_nonneg (h.nonnegφ _ _)]
    exact hle ω
  refine ⟨hi, (integral_mono hi hb hle).trans ?_⟩
  rw [integral_add (integrable_const 1) i2]
  simp only [integral_const, probReal_univ, smul_eq_mul, mul_one]
  unfold momBound
  linarith

/-- The stationary law has a first moment. -/
theorem SquareContraction.stat_moment (h : SquareContraction ν f φ ρ x0) (hV : Driven P V ν) (π : Measure E)
    [IsProbabilityMeasure π] (hfix : stepLaw f ν π = π) :
    Integrable (fun y => φ y x0) π ∧ ∫ y, φ y x0 ∂π ≤ momBound ν f φ ρ x0 := by
  obtain ⟨π0, hp, hfix0, hlim⟩ := contraction_limit h.toRandomContraction
  obtain rfl := contraction_unique h.toRandomContraction π π0 hfix hfix0
  have hA := momBound_pos (ν := ν) (f := f) (φ := φ) (ρ := ρ) (x0 := x0)
  set A := momBound ν f φ ρ x0
  have hM : ∀ M : ℕ, ∫⁻ y, ENNReal.ofReal (min (φ y x0) M) ∂π ≤ ENNReal.ofReal A := by
    intro M
    have hcont : Continuous fun y => min (φ y x0) (M : ℝ) := h.contφ.min continuous_const
    let b : BoundedContinuousFunction E ℝ := BoundedContinuousFunction.ofNormedAddCommGroup (fun y => min (φ y x0) (M : ℝ)) hcont M
      fun y => by
        rw [Real.norm_eq_abs, abs_of_nonneg (le_min (h.nonnegφ _ _) (Nat.cast_nonneg M))]
        exact min_le_right _ _
    have hl := hlim (Measure.dirac x0) inferInstance b
    have hle : ∀ k, ∫ y, b y ∂((stepLaw f ν)^[k] (Measure.dirac x0)) ≤ A := by
      intro k
      rw [← fwState_law P V hV.meas hV.indep ν hV.law f h.meas x0 k,
        integral_map (fwState_measurable f h.meas x0 _ hV.meas k).aemeasurable b.continuous.aestronglyMeasurable]
      obtain ⟨i1, b1⟩ := h.moment1 hV k
      refine (integral_mono_of_nonneg (Filter.Eventually.of_forall fun ω => ?_) i1
        (Filter.Eventually.of_forall fun ω => ?_)).trans b1
      · exact le_min (h.nonnegφ _ _) (Nat.cast_nonneg M)
      · exact min_le_left _ _
    have h1 : ∫ y, b y ∂π ≤ A := le_of_tendsto' hl hle
    have hb : Integrable (fun y => min (φ y x0) (M : ℝ)) π := b.integrable π
    rw [← ofReal_integral_eq_lintegral_ofReal hb
      (Filter.Eventually.of_forall fun y => le_min (h.nonnegφ _ _) (Nat.cast_nonneg M))]
    exact ENNReal.ofReal_le_ofReal h1
  have hlin : ∫⁻ y, ENNReal.ofReal (φ y x0) ∂π ≤ ENNReal.ofReal A := by
    have hl : ∀ y, ENNReal.ofReal (φ y x0) = liminf (fun M : ℕ => ENNReal.ofReal (min (φ y x0) M)) atTop := by
      intro y
      refine (Tendsto.liminf_eq ?_).symm
      refine tendsto_const_nhds.congr' ?_
      obtain ⟨M0, hM0⟩ := exists_nat_ge (φ y x0)
      filter_upwards [eventually_ge_atTop M0] with M hMM
      rw [min_eq_left (hM0.trans (by exact_mod_cast hMM))]
    simp only [hl]
    refine (lintegral_liminf_le fun M => ((h.contφ.min continuous_const).measurable.ennreal_ofReal)).trans ?_
    exact (liminf_le_liminf (Filter.Eventually.of_forall hM)).trans (le_of_eq (liminf_const _))
  have hi : Integrable (fun y => φ y x0) π := by
    refine ⟨h.contφ.aestronglyMeasurable, ?_⟩
    rw [hasFiniteIntegral_iff_ofReal (Filter.Eventually.of_forall fun y => h.nonnegφ _ _)]
    exact hlin.trans_lt ENNReal.ofReal_lt_top
  refine ⟨hi, ?_⟩
  rw [← ofReal_integral_eq_lintegral_ofReal hi (Filter.Eventually.of_forall fun y => h.nonnegφ _ _)] at hlin
  exact (ENNReal.ofReal_le_ofReal_iff (by linarith)).mp hlin

omit [IsProbabilityMeasure ν] [CompleteSpace E] in
theorem SquareContraction.obs_int (h : SquareContraction ν f φ ρ x0) (hV : Driven P V ν) (g : E → ℝ) (hg : Continuous g) (L : ℝ)
    (hL : ∀ x y, |g x - g y| ≤ L * φ x y) (k : ℕ) : MemLp (fun ω => g (fwState f x0 (fun j => V j ω) k)) 2 P := by
  have hgm : Measurable fun ω => g (fwState f x0 (fun j => V j ω) k) :=
    hg.measurable.comp (fwState_measurable f h.meas x0 _ hV.meas k)
  have hφm : Measurable fun ω => φ (fwState f x0 (fun j => V j ω) k) x0 :=
    h.contφ.measurable.comp (fwState_measurable f h.meas x0 _ hV.meas k)
  have h1 : MemLp (fun ω => φ (fwState f x0 (fun j => V j ω) k) x0) 2 P :=
    (memLp_two_iff_integrable_sq hφm.aestronglyMeasurable).mpr (h.moment2 hV k).1
  have h1' : MemLp (fun ω => L * φ (fwState f x0 (fun j => V j ω) k) x0) 2 P := h1.const_mul L
  have hc : MemLp (fun _ : Ω => |g x0|) 2 P := memLp_const _
  refine (hc.add h1').mono' hgm.aestronglyMeasurable (Filter.Eventually.of_forall fun ω => ?_)
  have h3 := hL (fwState f x0 (fun j => V j ω) k) x0
  have h4 := abs_sub_abs_le_abs_sub (g (fwState f x0 (fun j => V j ω) k)) (g x0)
  rw [Real.norm_eq_abs, Pi.add_apply]
  linarith

/-- The mean of a Lipschitz quantity approaches its stationary mean geometrically. -/
theorem SquareContraction.bias (h : SquareContraction ν f φ ρ x0) (hV : Driven P V ν) (π : Measure E)
    [IsProbabilityMeasure π] (hfix : stepLaw f ν π = π) (g : E → ℝ) (hg : Continuous g) (L : ℝ) (hL0 : 0 ≤ L)
    (hL : ∀ x y, |g x - g y| ≤ L * φ x y) (k : ℕ) : Integrable g π ∧
    |∫ ω, g (fwState f x0 (fun j => V j ω) k) ∂P - ∫ y, g y ∂π| ≤ L * momBound ν f φ ρ x0 * ρ ^ k := by
  obtain ⟨iφ, bφ⟩ := h.stat_moment hV π hfix
  have ig : Integrable g π := by
    have h2 : Integrable (fun y => |g x0| + L * φ y x0) π := (integrable_const _).add (iφ.const_mul L)
    refine h2.mono' hg.aestronglyMeasurable (Filter.Eventually.of_forall fun y => ?_)
    have h3 := hL y x0
    have h4 := abs_sub_abs_le_abs_sub (g y) (g x0)
    rw [Real.norm_eq_abs]
    linarith
  refine ⟨ig, ?_⟩
  have hb := bk_measurable f h.meas k
  have hb0 : Measurable fun q : E × (ℕ → W) => bkState f k x0 q.2 := hb.comp (measurable_const.prodMk measurable_snd)
  have hs : MeasurePreserving (Prod.snd : E × (ℕ → W) → (ℕ → W)) (π.prod (seqLaw ν)) (seqLaw ν) := measurePreserving_snd
  have hf1 : MeasurePreserving (Prod.fst : E × (ℕ → W) → E) (π.prod (seqLaw ν)) π := measurePreserving_fst
  have l1 : P.map (fun ω => fwState f x0 (fun j => V j ω) k) = (π.prod (seqLaw ν)).map fun q => bkState f k x0 q.2 := by
    rw [fwState_law P V hV.meas hV.indep ν hV.law f h.meas x0 k, ← bk_law ν f h.meas (Measure.dirac x0) k, Measure.dirac_prod,
      Measure.map_map hb measurable_prodMk_left]
    conv_lhs => rw [← hs.map_eq, Measure.map_map (hb.comp measurable_prodMk_left) hs.measurable]
    rfl
  have l2 : π = (π.prod (seqLaw ν)).map fun q => bkState f k q.1 q.2 := by
    rw [bk_law ν f h.meas π k]
    exact (Function.iterate_fixed hfix k).symm
  have e1 : ∫ ω, g (fwState f x0 (fun j => V j ω) k) ∂P = ∫ q, g (bkState f k x0 q.2) ∂(π.prod (seqLaw ν)) := by
    rw [← integral_map (fwState_measurable f h.meas x0 _ hV.meas k).aemeasurable hg.aestronglyMeasurable, l1,
      integral_map hb0.aemeasurable hg.aestronglyMeasurable]
  have e2 : ∫ y, g y ∂π = ∫ q, g (bkState f k q.1 q.2) ∂(π.prod (seqLaw ν)) := by
    conv_lhs => rw [l2, integral_map hb.aemeasurable hg.aestronglyMeasurable]
  have i1 : Integrable (fun q : E × (ℕ → W) => g (bkState f k x0 q.2)) (π.prod (seqLaw ν)) := by
    have := (h.obs_int hV g hg L hL k).integrable one_le_two
    have h2 : Integrable g (P.map fun ω => fwState f x0 (fun j => V j ω) k) :=
      (integrable_map_measure hg.aestronglyMeasurable (fwState_measurable f h.meas x0 _ hV.meas k).aemeasurable).mpr this
    rw [l1] at h2
    exact (integrable_map_measure hg.aestronglyMeasurable hb0.aemeasurable).mp h2
  have i2 : Integrable (fun q : E × (ℕ → W) => g (bkState f k q.1 q.2)) (π.prod (seqLaw ν)) := by
    have h2 := ig
    rw [l2] at h2
    exact (integrable_map_measure hg.aestronglyMeasurable hb.aemeasurable).mp h2
  have iφ' : Integrable (fun q : E × (ℕ → W) => L * (ρ ^ k * φ q.1 x0)) (π.prod (seqLaw ν)) :=
    ((hf1.integrable_comp_of_integrable iφ).const_mul _).const_mul _
  rw [e1, e2, abs_sub_comm, ← integral_sub i2 i1]
  calc _ ≤ ∫ q, |g (bkState f k q.1 q.2) - g (bkState f k x0 q.2)| ∂(π.prod (seqLaw ν)) := abs_integral_le_integral_abs
    _ ≤ ∫ q, L * (ρ ^ k * φ q.1 x0) ∂(π.prod (seqLaw ν)) := by
      refine integral_mono (i2.sub i1).abs iφ' fun q => ?_
      exact (hL _ _).trans (mul_le_mul_of_nonneg_left (bk_start f φ ρ h.nonneg h.contract k q.1 x0 q.2) hL0)
    _ = L * (ρ ^ k * ∫ y, φ y x0 ∂π) := by
      rw [integral_const_mul, integral_const_mul]
      congr 2
      conv_rhs => rw [← hf1.map_eq, integral_map hf1.measurable.aemeasurable h.contφ.aestronglyMeasurable]
    _ ≤ L * (ρ ^ k * momBound ν f φ ρ x0) :=
      mul_le_mul_of_nonneg_left (mul_le_mul_of_nonneg_left bφ (pow_nonneg h.nonneg k)) hL0
    _ = _ := by ring

omit [IsProbabilityMeasure ν] [CompleteSpace E] [MetricSpace E] [BorelSpace E] in
/-- The state at time `i` and the chain restarted at time `i` are independent. -/
theorem restart_indep (f : E → W → E) (hf : Measurable (Function.uncurry f)) (x0 : E) (hV : Driven P V ν) (i m : ℕ) :
    IndepFun (fun ω => fwState f x0 (fun j => V j ω) i) (fun ω => fwState f x0 (fun j => V (i + j) ω) m) P := by
  obtain ⟨ω0⟩ : Nonempty Ω := nonempty_of_isProbabilityMeasure P
  have hX : (fun ω => fwState f x0 (fun j => V j ω) i) =
      (fun u : (Finset.range i → W) => fwState f x0 (fun j => if h : j ∈ Finset.range i then u ⟨j, h⟩ else V 0 ω0) i) ∘
        fun ω (j : Finset.range i) => V j ω := by
    funext ω
    refine fwState_congr _ _ _ _ _ fun j hj => ?_
    simp [hj]
  have hY : (fun ω => fwState f x0 (fun j => V (i + j) ω) m) =
      (fun u : (Finset.Ico i (i + m) → W) =>
        fwState f x0 (fun j => if h : i + j ∈ Finset.Ico i (i + m) then u ⟨i + j, h⟩ else V 0 ω0) m) ∘
        fun ω (j : Finset.Ico i (i + m)) => V j ω := by
    funext ω
    refine fwState_congr _ _ _ _ _ fun j hj => ?_
    simp [hj]
  rw [hX, hY]
  have hd : Disjoint (Finset.range i) (Finset.Ico i (i + m)) := by
    rw [Finset.disjoint_left]
    intro a ha hb
    have := Finset.mem_range.mp ha
    have := (Finset.mem_Ico.mp hb).1
    omega
  refine (hV.indep.indepFun_finset (Finset.range i) (Finset.Ico i (i + m)) hd hV.meas).comp ?_ ?_
  · refine fwState_measurable _ hf _ _ (fun j => ?_) _
    by_cases hj : j ∈ Finset.range i
    · simp only [hj, dif_pos]
      fun_prop
    · simp only [hj, dif_neg, not_false_eq_true]
      fun_prop
  · refine fwState_measurable _ hf _ _ (fun j => ?_) _
    by_cases hj : i + j ∈ Finset.Ico i (i + m)
    · simp only [hj, dif_pos]
      fun_prop
    · simp only [hj, dif_neg, not_false_eq_true]
      fun_prop

/-- Covariances along the chain decay geometrically. -/
theorem SquareContraction.covariance (h : SquareContraction ν f φ ρ x0) (hV : Driven P V ν) (π : Measure E)
    [IsProbabilityMeasure π] (hfix : stepLaw f ν π = π) (g : E → ℝ) (hg : Continuous g) (L : ℝ) (hL0 : 0 ≤ L)
    (hL : ∀ x y, |g x - g y| ≤ L * φ x y) (i m : ℕ) :
    ∫ ω, (g (fwState f x0 (fun j => V j ω) i) - ∫ y, g y ∂π) * (g (fwState f x0 (fun j => V j ω) (i + m)) - ∫ y, g y ∂π) ∂P ≤
      (3 * L ^ 2 * momBound ν f φ ρ x0 ^ 2) * ρ ^ m := by
  have hA := momBound_pos (ν := ν) (f := f) (φ := φ) (ρ := ρ) (x0 := x0)
  obtain ⟨i2, b2⟩ := h.moment2 hV i
  obtain ⟨i1, b1⟩ := h.moment1 hV i
  have b2' : ∫ ω, φ (fwState f x0 (fun j => V j ω) i) x0 ^ 2 ∂P ≤ momBound ν f φ ρ x0 := b2.trans (by unfold momBound; linarith)
  have hc0 : |g x0 - ∫ y, g y ∂π| ≤ L * momBound ν f φ ρ x0 := by
    have := (h.bias hV π hfix g hg L hL0 hL 0).2
    simpa [fwState] using this
  have hbi := (h.bias hV π hfix g hg L hL0 hL i).2
  have hbm := (h.bias (hV.shift i) π hfix g hg L hL0 hL m).2
  set A := momBound ν f φ ρ x0
  set a := ∫ y, g y ∂π
  have mi := h.obs_int hV g hg L hL i
  have mim := h.obs_int hV g hg L hL (i + m)
  have mr := h.obs_int (hV.shift i) g hg L hL m
  have yi : MemLp (fun ω => g (fwState f x0 (fun j => V j ω) i) - a) 2 P := mi.sub (memLp_const a)
  have d1 : MemLp (fun ω => g (fwState f x0 (fun j => V j ω) (i + m)) - g (fwState f x0 (fun j => V (i + j) ω) m)) 2 P := mim.sub mr
  have d2 : MemLp (fun ω => g (fwState f x0 (fun j => V (i + j) ω) m) - a) 2 P := mr.sub (memLp_const a)
  have e : ∀ ω, (g (fwState f x0 (fun j => V j ω) i) - a) * (g (fwState f x0 (fun j => V j ω) (i + m)) - a) =
      (g (fwState f x0 (fun j => V j ω) i) - a) *
        (g (fwState f x0 (fun j => V j ω) (i + m)) - g (fwState f x0 (fun j => V (i + j) ω) m)) +
      (g (fwState f x0 (fun j => V j ω) i) - a) * (g (fwState f x0 (fun j => V (i + j) ω) m) - a) := fun ω => by ring
  simp only [e]
  have j1 := yi.integrable_mul d1
  have j2 := yi.integrable_mul d2
  have hsplit := integral_add j1 j2
  simp only [Pi.mul_apply] at hsplit
  rw [hsplit]
  have t1 : ∫ ω, (g (fwState f x0 (fun j => V j ω) i) - a) *
      (g (fwState f x0 (fun j => V j ω) (i + m)) - g (fwState f x0 (fun j => V (i + j) ω) m)) ∂P ≤ 2 * L ^ 2 * A ^ 2 * ρ ^ m := by
    have hb : Integrable (fun ω => L * ρ ^ m * (L * φ (fwState f x0 (fun j => V j ω) i) x0 ^ 2 +
        L * A * φ (fwState f x0 (fun j => V j ω) i) x0)) P := ((i2.const_mul L).add (i1.const_mul (L * A))).const_mul _
    refine (integral_mono j1 hb fun ω => ?_).trans ?_
    · simp only [Pi.mul_apply]
      have h1 : |g (fwState f x0 (fun j => V j ω) i) - a| ≤ L * φ (fwState f x0 (fun j => V j ω) i) x0 + L * A := by
        have h2 := abs_sub_le (g (fwState f x0 (fun j => V j ω) i)) (g x0) a
        exact h2.trans (add_le_add (hL _ _) hc0)
      have h2 : |g (fwState f x0 (fun j => V j ω) (i + m)) - g (fwState f x0 (fun j => V (i + j) ω) m)| ≤
          L * (ρ ^ m * φ (fwState f x0 (fun j => V j ω) i) x0) := by
        rw [fwState_add]
        exact (hL _ _).trans (mul_le_mul_of_nonneg_left (fw_start f φ ρ h.nonneg h.contract m _ _ _) hL0)
      have hφ := h.nonnegφ (fwState f x0 (fun j => V j ω) i) x0
      refine (le_abs_self _).trans ?_
      rw [abs_mul]
      refine (mul_le_mul h1 h2 (abs_nonneg _) (by positivity)).trans (le_of_eq ?_)
      ring
    · rw [integral_const_mul, integral_add (i2.const_mul L) (i1.const_mul (L * A)), integral_const_mul, integral_const_mul]
      have hρm := pow_nonneg h.nonneg m
      have h3 : L * ∫ ω, φ (fwState f x0 (fun j => V j ω) i) x0 ^ 2 ∂P ≤ L * A ^ 2 :=
        mul_le_mul_of_nonneg_left (b2'.trans (by nlinarith)) hL0
      have h4 : L * A * ∫ ω, φ (fwState f x0 (fun j => V j ω) i) x0 ∂P ≤ L * A * A :=
        mul_le_mul_of_nonneg_left b1 (by positivity)
      calc _ ≤ L * ρ ^ m * (L * A ^ 2 + L * A * A) := mul_le_mul_of_nonneg_left (add_le_add h3 h4) (by positivity)
        _ = _ := by ring
  have t2 : ∫ ω, (g (fwState f x0 (fun j => V j ω) i) - a) * (g (fwState f x0 (fun j => V (i + j) ω) m) - a) ∂P ≤
      L ^ 2 * A ^ 2 * ρ ^ m := by
    have hind := (restart_indep f h.meas x0 hV i m).comp (φ := fun x => g x - a) (ψ := fun x => g x - a)
      (hg.measurable.sub_const a) (hg.measurable.sub_const a)
    have hprod := hind.integral_mul_eq_mul_integral (yi.aestronglyMeasurable) (d2.aestronglyMeasurable)
    have hprod' : ∫ ω, (g (fwState f x0 (fun j => V j ω) i) - a) * (g (fwState f x0 (fun j => V (i + j) ω) m) - a) ∂P =
        (∫ ω, (g (fwState f x0 (fun j => V j ω) i) - a) ∂P) * ∫ ω, (g (fwState f x0 (fun j => V (i + j) ω) m) - a) ∂P := hprod
    rw [hprod', integral_sub (mi.integrable one_le_two) (integrable_const a),
      integral_sub (mr.integrable one_le_two) (integrable_const a)]
    simp only [integral_const, probReal_univ, smul_eq_mul, one_mul]
    refine (le_abs_self _).trans ?_
    rw [abs_mul]
    have hρi : ρ ^ i ≤ 1 := pow_le_one₀ h.nonneg h.lt_one.le
    have hbi' : |∫ ω, g (fwState f x0 (fun j => V j ω) i) ∂P - a| ≤ L * A :=
      hbi.trans (mul_le_of_le_one_right (by positivity) hρi)
    refine (mul_le_mul hbi' hbm (abs_nonneg _) (by positivity)).trans (le_of_eq ?_)
    ring
  calc _ ≤ _ := add_le_add t1 t2
    _ = _ := by ring

/-- A Lipschitz quantity along an increasing sequence of times has geometrically decaying covariances. -/
theorem SquareContraction.decay (h : SquareContraction ν f φ ρ x0) (hV : Driven P V ν) (π : Measure E)
    [IsProbabilityMeasure π] (hfix : stepLaw f ν π = π) (g : E → ℝ) (hg : Continuous g) (L : ℝ) (hL0 : 0 ≤ L)
    (hL : ∀ x y, |g x - g y| ≤ L * φ x y) (t : ℕ → ℕ) (ht : StrictMono t) :
    Decay P (fun k ω => g (fwState f x0 (fun j => V j ω) (t k)) - ∫ y, g y ∂π) (3 * L ^ 2 * momBound ν f φ ρ x0 ^ 2) ρ := by
  refine ⟨h.nonneg, h.lt_one, fun k => (h.obs_int hV g hg L hL (t k)).sub (memLp_const _), fun k m => ?_⟩
  have hm : ∀ m, t k + m ≤ t (k + m) := by
    intro m
    induction m with
    | zero => simp
    | succ m ih =>
      have := ht (show k + m < k + (m + 1) by omega)
      omega
  obtain ⟨m', hm'⟩ := Nat.exists_eq_add_of_le (hm m)
  have h1 := h.covariance hV π hfix g hg L hL0 hL (t k) (m + m')
  rw [← add_assoc, ← hm'] at h1
  refine h1.trans (mul_le_mul_of_nonneg_left ?_ (by positivity))
  exact pow_le_pow_of_le_one h.nonneg h.lt_one.le (by omega)

/-- The mean-square error of averages of a Lipschitz quantity along an increasing sequence of times. -/
theorem SquareContraction.average_sq (h : SquareContraction ν f φ ρ x0) (hV : Driven P V ν) (π : Measure E)
    [IsProbabilityMeasure π] (hfix : stepLaw f ν π = π) (g : E → ℝ) (hg : Continuous g) (L : ℝ) (hL0 : 0 ≤ L)
    (hL : ∀ x y, |g x - g y| ≤ L * φ x y) (t : ℕ → ℕ) (ht : StrictMono t) (N : ℕ) (hN : 0 < N) :
    MemLp (fun ω => (∑ k ∈ Finset.range N, g (fwState f x0 (fun j => V j ω) (t k))) / N - ∫ y, g y ∂π) 2 P ∧
    ∫ ω, ((∑ k ∈ Finset.range N, g (fwState f x0 (fun j => V j ω) (t k))) / N - ∫ y, g y ∂π) ^ 2 ∂P ≤
      3 * (3 * L ^ 2 * momBound ν f φ ρ x0 ^ 2) / (1 - ρ) / N := by
  have hdec := h.decay hV π hfix g hg L hL0 hL t ht
  have e : ∀ ω : Ω, (∑ k ∈ Finset.range N, g (fwState f x0 (fun j => V j ω) (t k))) / N - ∫ y, g y ∂π =
      (∑ k ∈ Finset.range N, (g (fwState f x0 (fun j => V j ω) (t k)) - ∫ y, g y ∂π)) / N := by
    intro ω
    have : (N : ℝ) ≠ 0 := by exact_mod_cast hN.ne'
    rw [Finset.sum_sub_distrib, Finset.sum_const, Finset.card_range, nsmul_eq_mul]
    field_simp
  simp only [e]
  constructor
  · have := (hdec.sum_memLp N).const_mul (1 / (N : ℝ))
    refine this.congr_norm ?_ (Filter.Eventually.of_forall fun ω => ?_)
    · exact ((hdec.sum_memLp N).aestronglyMeasurable.aemeasurable.div_const _).aestronglyMeasurable
    · rw [one_div, div_eq_inv_mul]
  · simp only [div_pow]
    have hN' : (0 : ℝ) < N := by exact_mod_cast hN
    rw [integral_div, div_le_iff₀ (by positivity)]
    refine (hdec.sum_sq N).trans (le_of_eq ?_)
    field_simp

/-- The strong law of large numbers for a Lipschitz quantity along any increasing sequence of times, with its rate in mean
square. -/
theorem SquareContraction.averages (h : SquareContraction ν f φ ρ x0) (hV : Driven P V ν) (π : Measure E)
    [IsProbabilityMeasure π] (hfix : stepLaw f ν π = π) (g : E → ℝ) (hg : Continuous g) (L : ℝ) (hL0 : 0 ≤ L)
    (hL : ∀ x y, |g x - g y| ≤ L * φ x y) (t : ℕ → ℕ) (ht : StrictMono t) :
    (∃ C : ℝ, ∀ N : ℕ, 0 < N →
      MemLp (fun ω => (∑ k ∈ Finset.range N, g (fwState f x0 (fun j => V j ω) (t k))) / N - ∫ y, g y ∂π) 2 P ∧
      ∫ ω, ((∑ k ∈ Finset.range N, g (fwState f x0 (fun j => V j ω) (t k))) / N - ∫ y, g y ∂π) ^ 2 ∂P ≤ C / N) ∧
    ∀ᵐ ω ∂P, Tendsto (fun N : ℕ => (∑ k ∈ Finset.range N, g (fwState f x0 (fun j => V j ω) (t k))) / N) atTop
      (𝓝 (∫ y, g y ∂π)) := by
  have hdec := h.decay hV π hfix g hg L hL0 hL t ht
  have e : ∀ (N : ℕ) (ω : Ω), 0 < N → (∑ k ∈ Finset.range N, g (fwState f x0 (fun j => V j ω) (t k))) / N - ∫ y, g y ∂π =
      (∑ k ∈ Finset.range N, (g (fwState f x0 (fun j => V j ω) (t k)) - ∫ y, g y ∂π)) / N := by
    intro N ω hN
    have : (N : ℝ) ≠ 0 := by exact_mod_cast hN.ne'
    rw [Finset.sum_sub_distrib, Finset.sum_const, Finset.card_range, nsmul_eq_mul]
    field_simp
  refine ⟨⟨3 * (3 * L ^ 2 * momBound ν f φ ρ x0 ^ 2) / (1 - ρ), fun N hN => h.average_sq hV π hfix g hg L hL0 hL t ht N hN⟩, ?_⟩
  · filter_upwards [hdec.ae_average] with ω hω
    have h2 := hω.add_const (∫ y, g y ∂π)
    rw [zero_add] at h2
    refine h2.congr' ?_
    filter_upwards [eventually_gt_atTop 0] with N hN
    rw [← e N ω hN]
    ring

end Chain

end Pxmcmc
