import Mathlib.Dynamics.BirkhoffSum.Basic
import Mathlib.MeasureTheory.Integral.DominatedConvergence
import Mathlib.Probability.StrongLaw

/-! # Pointwise convergence of averages along a measure-preserving map

The maximal inequality, and with it: averages that converge in mean to a constant converge to it almost everywhere. -/

namespace Pxmcmc
open MeasureTheory Filter
open scoped ENNReal Topology

variable {X : Type*} [MeasurableSpace X] {μ : Measure X} {T : X → X}

/-- The largest of the sums of the first `0, …, n` terms along the orbit. -/
noncomputable def maxSum (T : X → X) (g : X → ℝ) : ℕ → X → ℝ
  | 0, _ => 0
  | n + 1, x => max 0 (g x + maxSum T g n (T x))

omit [MeasurableSpace X] in
theorem maxSum_nonneg (T : X → X) (g : X → ℝ) (n : ℕ) (x : X) : 0 ≤ maxSum T g n x := by
  cases n with
  | zero => exact le_rfl
  | succ n => exact le_max_left _ _

omit [MeasurableSpace X] in
theorem maxSum_mono (T : X → X) (g : X → ℝ) (n : ℕ) (x : X) : maxSum T g n x ≤ maxSum T g (n + 1) x := by
  induction n generalizing x with
  | zero => exact maxSum_nonneg T g 1 x
  | succ n ih => exact max_le_max le_rfl (by linarith [ih (T x)])

omit [MeasurableSpace X] in
theorem le_maxSum (T : X → X) (g : X → ℝ) (n : ℕ) (x : X) : birkhoffSum T g n x ≤ maxSum T g n x := by
  induction n generalizing x with
  | zero => simp [maxSum]
  | succ n ih =>
    rw [birkhoffSum_succ']
    exact le_max_of_le_right (by linarith [ih (T x)])

theorem maxSum_measurable (hT : Measurable T) {g : X → ℝ} (hg : Measurable g) (n : ℕ) : Measurable (maxSum T g n) := by
  induction n with
  | zero => exact measurable_const
  | succ n ih => exact measurable_const.max (hg.add (ih.comp hT))

theorem maxSum_integrable (hT : MeasurePreserving T μ μ) {g : X → ℝ} (hg : Integrable g μ) (n : ℕ) :
    Integrable (maxSum T g n) μ := by
  induction n with
  | zero => exact integrable_zero X ℝ μ
  | succ n ih => exact (integrable_zero X ℝ μ).sup (hg.add (hT.integrable_comp_of_integrable ih))

/-- The maximal inequality. -/
theorem maxSum_integral (hT : MeasurePreserving T μ μ) {g : X → ℝ} (hgm : Measurable g) (hg : Integrable g μ) (n : ℕ) :
    0 ≤ ∫ x in {x | 0 < maxSum T g n x}, g x ∂μ := by
  have hD : MeasurableSet {x | 0 < maxSum T g n x} := measurableSet_lt measurable_const (maxSum_measurable hT.measurable hgm n)
  have hi := maxSum_integrable hT hg n
  have hiT : Integrable (fun x => maxSum T g n (T x)) μ := hT.integrable_comp_of_integrable hi
  have h1 : ∫ x, (maxSum T g n x - maxSum T g n (T x)) ∂μ ≤ ∫ x, {x | 0 < maxSum T g n x}.indicator g x ∂μ := by
    refine integral_mono (hi.sub hiT) (hg.indicator hD) fun x => ?_
    by_cases hx : 0 < maxSum T g n x
    · rw [Set.indicator_of_mem (show x ∈ {x | 0 < maxSum T g n x} from hx)]
      cases n with
      | zero => exact absurd hx (lt_irrefl _)
      | succ n =>
        have h2 : maxSum T g (n + 1) x = g x + maxSum T g n (T x) := by
          refine max_eq_right ?_
          by_contra h3
          have h4 : maxSum T g (n + 1) x = 0 := max_eq_left (not_le.mp h3).le
          exact hx.ne' h4
        show maxSum T g (n + 1) x - maxSum T g (n + 1) (T x) ≤ g x
        linarith [maxSum_mono T g n (T x)]
    · rw [Set.indicator_of_notMem (show x ∉ {x | 0 < maxSum T g n x} from hx)]
      show maxSum T g n x - maxSum T g n (T x) ≤ 0
      linarith [maxSum_nonneg T g n (T x)]
  rw [integral_indicator hD, integral_sub hi hiT] at h1
  have h2 : ∫ x, maxSum T g n (T x) ∂μ = ∫ x, maxSum T g n x ∂μ := by
    have h3 := integral_map hT.measurable.aemeasurable (μ := μ) (f := maxSum T g n) (by
      rw [hT.map_eq]
      exact hi.aestronglyMeasurable)
    rw [hT.map_eq] at h3
    exact h3.symm
  linarith

variable [IsProbabilityMeasure μ]

/-- Orbits along which some average of `|g|` exceeds `ε` are rare. -/
theorem maximal_rare (hT : MeasurePreserving T μ μ) {g : X → ℝ} (hgm : Measurable g) (hg : Integrable g μ) {ε : ℝ} (hε : 0 < ε) :
    μ {x | ∃ n, ε * n < birkhoffSum T (fun y => |g y|) n x} ≤ ENNReal.ofReal ((∫ x, |g x| ∂μ) / ε) := by
  set G : X → ℝ := fun x => |g x| - ε with hG
  have hGm : Measurable G := (continuous_abs.measurable.comp hgm).sub_const _
  have hGi : Integrable G μ := hg.abs.sub (integrable_const ε)
  have hsub : {x | ∃ n, ε * n < birkhoffSum T (fun y => |g y|) n x} ⊆ ⋃ n, {x | 0 < maxSum T G n x} := by
    rintro x ⟨n, hn⟩
    refine Set.mem_iUnion.mpr ⟨n, ?_⟩
    show 0 < maxSum T G n x
    refine lt_of_lt_of_le ?_ (le_maxSum T G n x)
    unfold birkhoffSum at hn ⊢
    rw [Finset.sum_sub_distrib, Finset.sum_const, Finset.card_range, nsmul_eq_mul]
    linarith
  refine (measure_mono hsub).trans ?_
  have hmono : Monotone fun n => {x | 0 < maxSum T G n x} :=
    monotone_nat_of_le_succ fun n x (hx : 0 < maxSum T G n x) => lt_of_lt_of_le hx (maxSum_mono T G n x)
  rw [hmono.measure_iUnion]
  refine iSup_le fun n => ?_
  have hD : MeasurableSet {x | 0 < maxSum T G n x} := measurableSet_lt measurable_const (maxSum_measurable hT.measurable hGm n)
  rw [← ofReal_measureReal]
  refine ENNReal.ofReal_le_ofReal ?_
  rw [le_div_iff₀ hε]
  have h1 := maxSum_integral hT hGm hGi n
  rw [hG, integral_sub hg.abs.integrableOn (integrable_const ε), setIntegral_const, smul_eq_mul] at h1
  have h2 : ∫ x in {x | 0 < maxSum T G n x}, |g x| ∂μ ≤ ∫ x, |g x| ∂μ :=
    setIntegral_le_integral hg.abs (Eventually.of_forall fun x => abs_nonneg _)
  linarith

/-- An integrable function grows slower than time along almost every orbit. -/
theorem orbit_sublinear (hT : MeasurePreserving T μ μ) {h : X → ℝ} (hm : Measurable h) (hi : Integrable h μ) :
    ∀ᵐ x ∂μ, Tendsto (fun n : ℕ => h (T^[n] x) / n) atTop (𝓝 0) := by
  have key : ∀ m : ℕ, ∀ᵐ x ∂μ, ∀ᶠ n : ℕ in atTop, (m : ℝ) * |h (T^[n] x)| ≤ n := by
    intro m
    let _ : MeasureSpace X := ⟨μ⟩
    have h1 := ProbabilityTheory.tsum_prob_mem_Ioi_lt_top (X := fun x => (m : ℝ) * |h x|) (hi.abs.const_mul _)
      (fun x => mul_nonneg (Nat.cast_nonneg m) (abs_nonneg _))
    have h2 : ∑' n : ℕ, μ {x | (m : ℝ) * |h (T^[n] x)| ∈ Set.Ioi (n : ℝ)} ≠ ∞ := by
      refine ne_of_lt (lt_of_le_of_lt (ENNReal.tsum_le_tsum fun n => ?_) h1)
      have hS : MeasurableSet {x | (m : ℝ) * |h x| ∈ Set.Ioi (n : ℝ)} :=
        (measurable_const.mul (continuous_abs.measurable.comp hm)) measurableSet_Ioi
      exact ((hT.iterate n).measure_preimage hS.nullMeasurableSet).le
    filter_upwards [ae_eventually_notMem h2] with x hx
    filter_upwards [hx] with n hn
    exact not_lt.mp hn
  filter_upwards [ae_all_iff.mpr key] with x hx
  rw [Metric.tendsto_atTop']
  intro ε hε
  obtain ⟨m, hm⟩ := exists_nat_gt (1 / ε)
  have hm0 : 0 < (m : ℝ) := lt_trans (one_div_pos.mpr hε) hm
  obtain ⟨N, hN⟩ := eventually_atTop.mp (hx m)
  refine ⟨N, fun n hn => ?_⟩
  have hn0 : (0 : ℝ) < n := by exact_mod_cast (Nat.zero_le N).trans_lt hn
  rw [Real.dist_eq, sub_zero, abs_div, abs_of_pos hn0, div_lt_iff₀ hn0]
  have h1 := hN n hn.le
  rw [div_lt_iff₀ hε] at hm
  have h2 : |h (T^[n] x)| * m ≤ n := by rw [mul_comm]; exact h1
  have h3 : |h (T^[n] x)| ≤ n / m := (le_div_iff₀ hm0).mpr h2
  refine lt_of_le_of_lt h3 ?_
  rw [div_lt_iff₀ hm0]
  nlinarith

omit [MeasurableSpace X] in
/-- Sums of a function and of its average over `N` steps differ by boundary terms. -/
theorem average_telescope (T : X → X) (g : X → ℝ) {N : ℕ} (hN : 0 < N) (n : ℕ) (x : X) :
    birkhoffSum T g n x - birkhoffSum T (fun y => birkhoffSum T g N y / N) n x =
      (∑ k ∈ Finset.range N, birkhoffSum T g k x) / N - (∑ k ∈ Finset.range N, birkhoffSum T g k (T^[n] x)) / N := by
  have hN' : (N : ℝ) ≠ 0 := by exact_mod_cast hN.ne'
  have h1 : ∀ k, birkhoffSum T g n x - birkhoffSum T g n (T^[k] x) = birkhoffSum T g k x - birkhoffSum T g k (T^[n] x) := by
    intro k
    have h2 := birkhoffSum_add T g n k x
    rw [add_comm n k, birkhoffSum_add] at h2
    linarith
  have h3 : birkhoffSum T (fun y => birkhoffSum T g N y / N) n x = (∑ k ∈ Finset.range N, birkhoffSum T g n (T^[k] x)) / N := by
    unfold birkhoffSum
    rw [← Finset.sum_div, Finset.sum_comm]
    congr 1
    refine Finset.sum_congr rfl fun k _ => Finset.sum_congr rfl fun i _ => ?_
    rw [← Function.iterate_add_apply, ← Function.iterate_add_apply, add_comm]
  rw [h3, ← sub_div, ← Finset.sum_sub_distrib, eq_div_iff hN', sub_mul, div_mul_cancel₀ _ hN', ← Finset.sum_congr rfl fun k _ => h1 k,
    Finset.sum_sub_distrib, Finset.sum_const, Finset.card_range, nsmul_eq_mul, mul_comm]

theorem birkhoff_measurable (hT : Measurable T) {g : X → ℝ} (hg : Measurable g) (n : ℕ) : Measurable (birkhoffSum T g n) :=
  Finset.measurable_sum _ fun k _ => hg.comp (hT.iterate k)

omit [IsProbabilityMeasure μ] in
theorem birkhoff_integrable (hT : MeasurePreserving T μ μ) {g : X → ℝ} (hg : Integrable g μ) (n : ℕ) :
    Integrable (birkhoffSum T g n) μ :=
  integrable_finsetSum _ fun k _ => (hT.iterate k).integrable_comp_of_integrable hg

/-- Averages that converge in mean to a constant converge to it along almost every orbit. -/
theorem pointwise_average (hT : MeasurePreserving T μ μ) {g : X → ℝ} (hgm : Measurable g) (hg : Integrable g μ) (c : ℝ)
    (hlim : Tendsto (fun n : ℕ => ∫ x, |birkhoffSum T g n x / n - c| ∂μ) atTop (𝓝 0)) :
    ∀ᵐ x ∂μ, Tendsto (fun n : ℕ => birkhoffSum T g n x / n) atTop (𝓝 c) := by
  have key : ∀ ε : ℝ, 0 < ε → ∀ᵐ x ∂μ, ∀ᶠ n : ℕ in atTop, |birkhoffSum T g n x / n - c| ≤ 2 * ε := by
    intro ε hε
    rw [ae_iff]
    refine le_antisymm (ENNReal.le_of_forall_pos_le_add fun δ hδ _ => ?_) zero_le
    rw [zero_add]
    have hεδ : 0 < ε * (δ : ℝ) := mul_pos hε (by exact_mod_cast hδ)
    obtain ⟨N, hN, hN0⟩ := (((tendsto_order.1 hlim).2 _ hεδ).and (eventually_gt_atTop 0)).exists
    set u : X → ℝ := fun x => birkhoffSum T g N x / N - c with hu
    set H : X → ℝ := fun x => (∑ k ∈ Finset.range N, birkhoffSum T g k x) / N with hH
    have hum : Measurable u := ((birkhoff_measurable hT.measurable hgm N).div_const _).sub_const _
    have hui : Integrable u μ := ((birkhoff_integrable hT hg N).div_const _).sub (integrable_const c)
    have hHm : Measurable H := (Finset.measurable_sum _ fun k _ => birkhoff_measurable hT.measurable hgm k).div_const _
    have hHi : Integrable H μ := (integrable_finsetSum _ fun k _ => birkhoff_integrable hT hg k).div_const _
    have hrare := maximal_rare hT hum hui hε
    have hbad : μ {x | ∃ n, ε * n < birkhoffSum T (fun y => |u y|) n x} ≤ δ := by
      refine hrare.trans ?_
      rw [← ENNReal.ofReal_coe_nnreal]
      refine ENNReal.ofReal_le_ofReal ?_
      rw [div_le_iff₀ hε, mul_comm]
      exact hN.le
    refine le_trans ?_ hbad
    have hsub := orbit_sublinear hT hHm hHi
    refine measure_mono_ae ?_
    filter_upwards [hsub] with x hx hbadx
    by_contra hgood
    apply hbadx
    have hgood : ∀ n, birkhoffSum T (fun y => |u y|) n x ≤ ε * n := fun n => not_lt.mp fun h => hgood ⟨n, h⟩
    have h0 : Tendsto (fun n : ℕ => H x / n - H (T^[n] x) / n) atTop (𝓝 (0 - 0)) :=
      (tendsto_const_div_atTop_nhds_zero_nat (H x)).sub hx
    rw [sub_zero] at h0
    filter_upwards [(Metric.tendsto_nhds.mp h0) ε hε, eventually_gt_atTop 0] with n hn hn0
    rw [Real.dist_eq, sub_zero] at hn
    have hn' : (0 : ℝ) < n := by exact_mod_cast hn0
    have h1 := average_telescope T g hN0 n x
    have h2 : birkhoffSum T u n x = birkhoffSum T (fun y => birkhoffSum T g N y / N) n x - n * c := by
      simp only [birkhoffSum, hu]
      rw [Finset.sum_sub_distrib, Finset.sum_const, Finset.card_range, nsmul_eq_mul]
    have h3 : birkhoffSum T g n x / n - c = birkhoffSum T u n x / n + (H x / n - H (T^[n] x) / n) := by
      rw [h2]
      have h4 : birkhoffSum T g n x = birkhoffSum T (fun y => birkhoffSum T g N y / N) n x + (H x - H (T^[n] x)) := by
        rw [← h1]; ring
      rw [h4]
      field_simp
      ring
    rw [h3]
    refine (abs_add_le _ _).trans ?_
    have h5 : |birkhoffSum T u n x / n| ≤ ε := by
      rw [abs_div, abs_of_pos hn', div_le_iff₀ hn']
      exact (Finset.abs_sum_le_sum_abs _ _).trans (hgood n)
    linarith
  have h1 := ae_all_iff.mpr fun m : ℕ => key (1 / ((m : ℝ) + 1)) Nat.one_div_pos_of_nat
  filter_upwards [h1] with x hx
  rw [Metric.tendsto_nhds]
  intro ε hε
  obtain ⟨m, hm⟩ := exists_nat_one_div_lt (half_pos hε)
  filter_upwards [hx m] with n hn
  rw [Real.dist_eq]
  exact lt_of_le_of_lt hn (by linarith)

end Pxmcmc
