import Verif.Lemmas.Ergodic
import Mathlib.Analysis.Normed.Group.Basic
import Mathlib.MeasureTheory.OuterMeasure.BorelCantelli
import Mathlib.Probability.Distributions.Gaussian.Real
import Mathlib.Analysis.Real.Pi.Bounds

/-! # Iterated random expanding maps escape to infinity

`x ↦ f x w` with independent `w` of law `ν`: if every map expands a distance-like function `φ` by a factor above one and `f x` is
expanding up to a constant, the state leaves every bounded set for good. -/

namespace Pxmcmc
open MeasureTheory ProbabilityTheory Filter
open scoped ENNReal Topology

/-- No ball of radius `ε` has mass above `C ε`. -/
def Spread {W : Type*} [PseudoMetricSpace W] [MeasurableSpace W] (ν : Measure W) (C : ℝ) : Prop :=
  ∀ (c : W) (ε : ℝ), 0 ≤ ε → ν (Metric.closedBall c ε) ≤ ENNReal.ofReal (C * ε)

theorem fwState_cons {E W : Type*} (f : E → W → E) (x : E) (w : ℕ → W) (k : ℕ) :
    fwState f x w (k + 1) = fwState f (f x (w 0)) (fun j => w (j + 1)) k := by
  induction k with
  | zero => rfl
  | succ k ih =>
    rw [fwState, ih]
    rfl

variable {E W : Type*} [NormedAddCommGroup E] [MeasurableSpace E] [BorelSpace E]
  [PseudoMetricSpace W] [MeasurableSpace W] (ν : Measure W) [IsProbabilityMeasure ν] (f : E → W → E) (φ : E → E → ℝ)

/-- The assumptions. -/
structure RandomExpansion (κ c B C : ℝ) : Prop where
  meas : Measurable (Function.uncurry f)
  gt_one : 1 < κ
  expand : ∀ x y w, κ * φ x y ≤ φ (f x w) (f y w)
  noise_pos : 0 < c
  noise : ∀ x w w', c * dist w w' ≤ φ (f x w) (f x w')
  bound_pos : 0 < B
  bound : ∀ x y, φ x y ≤ B * dist x y
  spread : Spread ν C

variable {ν f φ} {κ c B C : ℝ}

omit [IsProbabilityMeasure ν] [BorelSpace E] in
theorem RandomExpansion.iterate (h : RandomExpansion ν f φ κ c B C) (x y : E) (w : ℕ → W) (k : ℕ) :
    κ ^ k * φ x y ≤ φ (fwState f x w k) (fwState f y w k) := by
  induction k with
  | zero => simp [fwState]
  | succ k ih =>
    have h1 := h.expand (fwState f x w k) (fwState f y w k) (w k)
    have h2 := mul_le_mul_of_nonneg_left ih (by linarith [h.gt_one] : 0 ≤ κ)
    calc _ = κ * (κ ^ k * φ x y) := by rw [pow_succ]; ring
      _ ≤ _ := h2
      _ ≤ _ := h1

/-- The state is in a ball of radius `r` around the origin after `k + 1` steps with probability at most `O(r κ^{-k})`. -/
theorem RandomExpansion.escape (h : RandomExpansion ν f φ κ c B C) (x : E) (k : ℕ) (r : ℝ) (hr : 0 ≤ r) :
    seqLaw ν {w | ‖fwState f x w (k + 1)‖ ≤ r} ≤ ENNReal.ofReal (C * (2 * B * r / (c * κ ^ k))) := by
  have hκ : 0 < κ := by linarith [h.gt_one]
  have hc := h.noise_pos
  have hB := h.bound_pos
  set S : Set ((ℕ → W) × W) := {q | ‖fwState f (f x q.2) q.1 k‖ ≤ r} with hS
  have hf1 : Measurable fun q : (ℕ → W) × W => f x q.2 := h.meas.comp (measurable_const.prodMk measurable_snd)
  have hfw : ∀ k, Measurable fun q : (ℕ → W) × W => fwState f (f x q.2) q.1 k := by
    intro k
    induction k with
    | zero => exact hf1
    | succ k ih => exact h.meas.comp (ih.prodMk ((measurable_pi_apply k).comp measurable_fst))
  have hSm : MeasurableSet S := measurableSet_le (hfw k).norm measurable_const
  have hpre : {w | ‖fwState f x w (k + 1)‖ ≤ r} = (fun ω : ℕ → W => ((fun k => ω (k + 1), ω 0) : (ℕ → W) × W)) ⁻¹' S := by
    ext w
    simp only [hS, Set.mem_ofPred_eq, Set.mem_preimage, fwState_cons]
  rw [hpre, (seqLaw_shift ν).measure_preimage hSm.nullMeasurableSet, Measure.prod_apply hSm]
  have hslice : ∀ w : ℕ → W, ν (Prod.mk w ⁻¹' S) ≤ ENNReal.ofReal (C * (2 * B * r / (c * κ ^ k))) := by
    intro w
    rcases (Prod.mk w ⁻¹' S).eq_empty_or_nonempty with he | ⟨v, hv⟩
    · rw [he]; simp
    · refine (measure_mono ?_).trans (h.spread v _ (by positivity))
      intro u hu
      rw [Metric.mem_closedBall, le_div_iff₀ (by positivity)]
      have h1 := h.iterate (f x u) (f x v) w k
      have h2 := h.noise x u v
      have h3 := h.bound (fwState f (f x u) w k) (fwState f (f x v) w k)
      have h4 : dist (fwState f (f x u) w k) (fwState f (f x v) w k) ≤ 2 * r := by
        rw [dist_eq_norm]
        refine (norm_sub_le _ _).trans ?_
        have a : ‖fwState f (f x u) w k‖ ≤ r := hu
        have b : ‖fwState f (f x v) w k‖ ≤ r := hv
        linarith
      have h5 := mul_le_mul_of_nonneg_left h2 (pow_pos hκ k).le
      have h6 := mul_le_mul_of_nonneg_left h4 hB.le
      nlinarith
  calc _ ≤ ∫⁻ _, ENNReal.ofReal (C * (2 * B * r / (c * κ ^ k))) ∂(seqLaw ν) := lintegral_mono hslice
    _ = _ := by simp

/-- No law is stationary. -/
theorem RandomExpansion.no_stationary (h : RandomExpansion ν f φ κ c B C) (π : Measure E) [IsProbabilityMeasure π] :
    stepLaw f ν π ≠ π := by
  intro hfix
  have hball : ∀ r : ℝ, 0 ≤ r → π {x | ‖x‖ ≤ r} = 0 := by
    intro r hr
    have hms : MeasurableSet {x : E | ‖x‖ ≤ r} := measurableSet_le measurable_norm measurable_const
    have hle : ∀ k : ℕ, π {x | ‖x‖ ≤ r} ≤ ENNReal.ofReal (C * (2 * B * r / (c * κ ^ k))) := by
      intro k
      have e : (stepLaw f ν)^[k + 1] π = π := Function.iterate_fixed hfix _
      have hbk := bk_measurable f h.meas (k + 1)
      have hsm := hbk hms
      have e2 : π {x | ‖x‖ ≤ r} = (π.prod (seqLaw ν)) ((fun q : E × (ℕ → W) => bkState f (k + 1) q.1 q.2) ⁻¹' {x | ‖x‖ ≤ r}) := by
        conv_lhs => rw [← e, ← bk_law ν f h.meas π (k + 1), Measure.map_apply hbk hms]
      rw [e2, Measure.prod_apply hsm]
      have hs : ∀ x : E, seqLaw ν (Prod.mk x ⁻¹' ((fun q : E × (ℕ → W) => bkState f (k + 1) q.1 q.2) ⁻¹' {x | ‖x‖ ≤ r})) ≤
          ENNReal.ofReal (C * (2 * B * r / (c * κ ^ k))) := by
        intro x
        have h1 := bk_law ν f h.meas (Measure.dirac x) (k + 1)
        have h2 := fwState_law (seqLaw ν) (fun j w => w j) (fun j => measurable_pi_apply j)
          (iIndepFun_infinitePi (P := fun _ : ℕ => ν) (X := fun _ w => w) fun _ => measurable_id) ν
          (fun j => (measurePreserving_eval_infinitePi (fun _ : ℕ => ν) j).map_eq) f h.meas x (k + 1)
        have h3 := h1.trans h2.symm
        have h4 := congrArg (fun m : Measure E => m {x | ‖x‖ ≤ r}) h3
        rw [Measure.map_apply hbk hms, Measure.map_apply (fwState_measurable f h.meas x _ (fun j => measurable_pi_apply j) _) hms,
          Measure.prod_apply hsm, lintegral_dirac' _ (measurable_measure_prodMk_left hsm)] at h4
        rw [h4]
        exact h.escape x k r hr
      calc _ ≤ ∫⁻ _, ENNReal.ofReal (C * (2 * B * r / (c * κ ^ k))) ∂π := lintegral_mono hs
        _ = _ := by simp
    have hlim : Tendsto (fun k : ℕ => ENNReal.ofReal (C * (2 * B * r / (c * κ ^ k)))) atTop (𝓝 0) := by
      have h1 : Tendsto (fun k : ℕ => (κ⁻¹) ^ k) atTop (𝓝 0) :=
        tendsto_pow_atTop_nhds_zero_of_lt_one (inv_nonneg.mpr (by linarith [h.gt_one])) (inv_lt_one_of_one_lt₀ h.gt_one)
      have h2 := h1.const_mul (C * (2 * B * r / c))
      rw [mul_zero] at h2
      have h3 := ENNReal.tendsto_ofReal h2
      rw [ENNReal.ofReal_zero] at h3
      refine h3.congr fun k => ?_
      congr 1
      rw [inv_pow, ← div_eq_mul_inv, mul_div_assoc, div_div]
    exact le_antisymm (ge_of_tendsto' hlim hle) (zero_le)
  have hu : (Set.univ : Set E) = ⋃ m : ℕ, {x | ‖x‖ ≤ m} := by
    ext x
    simp only [Set.mem_univ, Set.mem_iUnion, Set.mem_ofPred_eq, true_iff]
    exact exists_nat_ge _
  have h0 : π Set.univ = 0 := by
    rw [hu]
    exact measure_iUnion_null fun m => hball m (Nat.cast_nonneg m)
  rw [measure_univ] at h0
  exact one_ne_zero h0

section Noise
variable {Ω : Type*} [MeasurableSpace Ω] (P : Measure Ω) [IsProbabilityMeasure P] (V : ℕ → Ω → W)
  (hm : ∀ k, Measurable (V k)) (hi : iIndepFun V P) (hl : ∀ k, P.map (V k) = ν)
include hm hi hl

theorem RandomExpansion.escape' (h : RandomExpansion ν f φ κ c B C) (x : E) (k : ℕ) (r : ℝ) (hr : 0 ≤ r) :
    P {ω | ‖fwState f x (fun j => V j ω) (k + 1)‖ ≤ r} ≤ ENNReal.ofReal (C * (2 * B * r / (c * κ ^ k))) := by
  have hms : MeasurableSet {x : E | ‖x‖ ≤ r} := measurableSet_le measurable_norm measurable_const
  have h1 := fwState_law P V hm hi ν hl f h.meas x (k + 1)
  have h2 := fwState_law (seqLaw ν) (fun j w => w j) (fun j => measurable_pi_apply j)
    (iIndepFun_infinitePi (P := fun _ : ℕ => ν) (X := fun _ w => w) fun _ => measurable_id) ν
    (fun j => (measurePreserving_eval_infinitePi (fun _ : ℕ => ν) j).map_eq) f h.meas x (k + 1)
  have h4 := congrArg (fun m : Measure E => m {x | ‖x‖ ≤ r}) (h1.trans h2.symm)
  rw [Measure.map_apply (fwState_measurable f h.meas x _ hm _) hms,
    Measure.map_apply (fwState_measurable f h.meas x _ (fun j => measurable_pi_apply j) _) hms] at h4
  exact h4.trans_le (h.escape x k r hr)

/-- The norm of the state grows exponentially, with every rate below `κ`. -/
theorem RandomExpansion.diverges (h : RandomExpansion ν f φ κ c B C) (x : E) (a : ℝ) (ha : 0 ≤ a) (haκ : a < κ) (hC : 0 ≤ C) :
    ∀ᵐ ω ∂P, ∀ᶠ k in atTop, a ^ k < ‖fwState f x (fun j => V j ω) k‖ := by
  have hκ : 0 < κ := by linarith [h.gt_one]
  have hc := h.noise_pos
  have hB := h.bound_pos
  have hsum : ∑' k : ℕ, P {ω | ‖fwState f x (fun j => V j ω) (k + 1)‖ ≤ a ^ (k + 1)} ≠ ⊤ := by
    have hg : Summable fun k : ℕ => C * (2 * B * a / c) * (a / κ) ^ k :=
      (summable_geometric_of_lt_one (by positivity) ((div_lt_one hκ).mpr haκ)).mul_left _
    refine ne_top_of_le_ne_top (b := ∑' k : ℕ, ENNReal.ofReal (C * (2 * B * a / c) * (a / κ) ^ k)) ?_ ?_
    · rw [← ENNReal.ofReal_tsum_of_nonneg (fun k => by positivity) hg]
      exact ENNReal.ofReal_ne_top
    · refine ENNReal.tsum_le_tsum fun k => ?_
      refine (h.escape' P V hm hi hl x k _ (by positivity)).trans (ENNReal.ofReal_le_ofReal (le_of_eq ?_))
      rw [div_pow, pow_succ]
      field_simp
  filter_upwards [ae_eventually_notMem hsum] with ω hω
  have := (eventually_atTop.mp hω)
  obtain ⟨N, hN⟩ := this
  refine eventually_atTop.mpr ⟨N + 1, fun k hk => ?_⟩
  obtain ⟨j, rfl⟩ : ∃ j, k = j + 1 := ⟨k - 1, by omega⟩
  have := hN j (by omega)
  simpa using this

end Noise

/-! ## Normal noise is spread out -/

theorem gaussian_ball (c ε : ℝ) : gaussianReal 0 1 (Metric.closedBall c ε) ≤ ENNReal.ofReal (1 * ε) := by
  rw [gaussianReal_apply _ one_ne_zero]
  have hb : ∀ x : ℝ, gaussianPDF 0 1 x ≤ ENNReal.ofReal (1 / 2) := by
    intro x
    unfold gaussianPDF
    refine ENNReal.ofReal_le_ofReal ?_
    unfold gaussianPDFReal
    have h1 : Real.exp (-(x - 0) ^ 2 / (2 * ((1 : NNReal) : ℝ))) ≤ 1 := by
      rw [Real.exp_le_one_iff]
      have : 0 ≤ x ^ 2 := sq_nonneg x
      simp
      linarith
    have h2 : (2 : ℝ) ≤ √(2 * Real.pi * ((1 : NNReal) : ℝ)) := by
      refine Real.le_sqrt_of_sq_le ?_
      have := Real.pi_gt_three
      simp
      linarith
    have h3 : (√(2 * Real.pi * ((1 : NNReal) : ℝ)))⁻¹ ≤ 1 / 2 := by
      rw [one_div]
      exact inv_anti₀ (by norm_num) h2
    calc _ ≤ (√(2 * Real.pi * ((1 : NNReal) : ℝ)))⁻¹ * 1 := mul_le_mul_of_nonneg_left h1 (by positivity)
      _ ≤ 1 / 2 := by rw [mul_one]; exact h3
  calc _ ≤ ∫⁻ _ in Metric.closedBall c ε, ENNReal.ofReal (1 / 2) := lintegral_mono hb
    _ = ENNReal.ofReal (1 / 2) * ENNReal.ofReal (2 * ε) := by rw [setLIntegral_const, Real.volume_closedBall]
    _ = _ := by rw [← ENNReal.ofReal_mul (by norm_num)]; congr 1; ring

end Pxmcmc
