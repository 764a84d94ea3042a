import Verif.Lemmas.Quantile
import Mathlib.Probability.CDF
import Mathlib.Topology.Order.IntermediateValue
import Mathlib.Topology.Instances.Real.Lemmas

/-! # Limits of sample quantiles -/

namespace Pxmcmc
open MeasureTheory ProbabilityTheory Filter Set
open scoped Topology

theorem ostat_gt_of_count (xs : List ℝ) (u : ℝ) (i : ℕ) (hi : i < xs.length) (h : xs.countP (fun x => decide (x ≤ u)) ≤ i) :
    u < ostat xs i := by
  by_contra hn
  push Not at hn
  rw [countP_ostat] at h
  have := countP_range_lt xs.length (i + 1) (fun j : ℕ => decide (ostat xs j ≤ u)) hi
    fun j hj => decide_eq_true ((ostat_mono xs (Nat.lt_succ_iff.mp hj) hi).trans hn)
  omega

theorem ostat_le_of_count (xs : List ℝ) (u : ℝ) (i : ℕ) (h : i < xs.countP (fun x => decide (x ≤ u))) : ostat xs i ≤ u := by
  by_contra hn
  push Not at hn
  rw [countP_ostat] at h
  have := countP_range_le xs.length i (fun j : ℕ => decide (ostat xs j ≤ u))
    fun j hj hij => decide_eq_false (not_le.mpr (hn.trans_le (ostat_mono xs hij hj)))
  omega

theorem tele_nat (f : ℕ → ℝ) (N j : ℕ) (hj : j ≤ N) : tele f N j = f j := by
  rcases hj.lt_or_eq with h | rfl
  · rw [tele_mid f N j j h le_rfl (by linarith)]
    ring
  · exact tele_last _ _ _ le_rfl

/-- One up to `s`, zero from `t` on, linear in between. -/
noncomputable def ramp (s t y : ℝ) : ℝ := clamp01 ((t - y) / (t - s))

theorem ramp_one {s t y : ℝ} (hst : s < t) (h : y ≤ s) : ramp s t y = 1 := by
  refine clamp01_of_one_le ?_
  rw [le_div_iff₀ (by linarith)]
  linarith

theorem ramp_zero {s t y : ℝ} (hst : s < t) (h : t ≤ y) : ramp s t y = 0 :=
  clamp01_of_nonpos (div_nonpos_of_nonpos_of_nonneg (by linarith) (by linarith))

theorem clamp01_lipschitz (x y : ℝ) : |clamp01 x - clamp01 y| ≤ |x - y| := by
  unfold clamp01
  refine (abs_min_sub_min_le_max 1 (max 0 x) 1 (max 0 y)).trans ?_
  rw [sub_self, abs_zero]
  refine max_le (abs_nonneg _) ?_
  refine (abs_max_sub_max_le_max 0 x 0 y).trans ?_
  rw [sub_self, abs_zero]
  exact max_le (abs_nonneg _) le_rfl

theorem ramp_lipschitz {s t : ℝ} (hst : s < t) (x y : ℝ) : |ramp s t x - ramp s t y| ≤ 1 / (t - s) * |x - y| := by
  refine (clamp01_lipschitz _ _).trans (le_of_eq ?_)
  rw [← sub_div, abs_div, abs_of_pos (show 0 < t - s by linarith), show t - x - (t - y) = -(x - y) by ring, abs_neg]
  ring

theorem ramp_continuous (s t : ℝ) : Continuous (ramp s t) := by
  unfold ramp clamp01
  fun_prop

theorem count_le_ramp {s t : ℝ} (hst : s < t) (xs : List ℝ) :
    (xs.countP (fun x => decide (x ≤ s)) : ℝ) ≤ (xs.map (ramp s t)).sum := by
  induction xs with
  | nil => simp
  | cons x xs ih =>
    rw [List.countP_cons, List.map_cons, List.sum_cons]
    by_cases h : x ≤ s
    · rw [ramp_one hst h]
      simp only [h, decide_true, if_true]
      push_cast
      linarith
    · simp only [h, decide_false, Bool.false_eq_true, if_false, add_zero]
      have : 0 ≤ ramp s t x := clamp01_nonneg _
      linarith

theorem ramp_le_count {s t : ℝ} (hst : s < t) (xs : List ℝ) :
    (xs.map (ramp s t)).sum ≤ (xs.countP (fun x => decide (x ≤ t)) : ℝ) := by
  induction xs with
  | nil => simp
  | cons x xs ih =>
    rw [List.countP_cons, List.map_cons, List.sum_cons]
    by_cases h : x ≤ t
    · simp only [h, decide_true, if_true]
      have : ramp s t x ≤ 1 := clamp01_le_one _
      push_cast
      linarith
    · rw [ramp_zero hst (not_le.mp h).le]
      simp only [h, decide_false, Bool.false_eq_true, if_false, add_zero, zero_add]
      exact ih

theorem ramp_integrable (μ : Measure ℝ) [IsProbabilityMeasure μ] (s t : ℝ) : Integrable (ramp s t) μ := by
  refine (integrable_const (1 : ℝ)).mono' (ramp_continuous s t).aestronglyMeasurable (Eventually.of_forall fun y => ?_)
  rw [Real.norm_of_nonneg (show 0 ≤ ramp s t y from clamp01_nonneg _)]
  exact clamp01_le_one _

theorem ramp_integral_le (μ : Measure ℝ) [IsProbabilityMeasure μ] {s t : ℝ} (hst : s < t) : ∫ y, ramp s t y ∂μ ≤ μ.real (Iic t) := by
  rw [← integral_indicator_one measurableSet_Iic]
  refine integral_mono (ramp_integrable μ s t) ((integrable_const _).indicator measurableSet_Iic) fun y => ?_
  by_cases h : y ≤ t
  · rw [indicator_of_mem (show y ∈ Iic t from h)]
    exact clamp01_le_one _
  · rw [indicator_of_notMem (show y ∉ Iic t from h)]
    exact (ramp_zero hst (not_le.mp h).le).le

theorem le_ramp_integral (μ : Measure ℝ) [IsProbabilityMeasure μ] {s t : ℝ} (hst : s < t) : μ.real (Iic s) ≤ ∫ y, ramp s t y ∂μ := by
  rw [← integral_indicator_one measurableSet_Iic]
  refine integral_mono ((integrable_const _).indicator measurableSet_Iic) (ramp_integrable μ s t) fun y => ?_
  by_cases h : y ≤ s
  · rw [indicator_of_mem (show y ∈ Iic s from h)]
    exact (ramp_one hst h).ge
  · rw [indicator_of_notMem (show y ∉ Iic s from h)]
    exact clamp01_nonneg _

/-- If the averages of ramp functions converge to their expectations, sample quantiles converge at every level where the
quantile of the limit law is unique. -/
theorem quantile_tendsto (x : ℕ → List ℝ) (hx : ∀ N, (x N).length = N) (μ : Measure ℝ) [IsProbabilityMeasure μ] (a q : ℝ)
    (hq0 : 0 ≤ q) (hq1 : q ≤ 1) (hlow : ∀ u < a, μ.real (Iic u) < q) (hup : ∀ u > a, q < μ.real (Iic u))
    (havl : ∀ m : ℕ, Tendsto (fun N : ℕ => ((x N).map (ramp (a - 1 / ((m : ℝ) + 1)) (a - 1 / ((m : ℝ) + 2)))).sum / N) atTop
      (𝓝 (∫ y, ramp (a - 1 / ((m : ℝ) + 1)) (a - 1 / ((m : ℝ) + 2)) y ∂μ)))
    (havr : ∀ m : ℕ, Tendsto (fun N : ℕ => ((x N).map (ramp (a + 1 / ((m : ℝ) + 2)) (a + 1 / ((m : ℝ) + 1)))).sum / N) atTop
      (𝓝 (∫ y, ramp (a + 1 / ((m : ℝ) + 2)) (a + 1 / ((m : ℝ) + 1)) y ∂μ))) :
    Tendsto (fun N : ℕ => tele (ostat (x (N + 1))) N (N * q)) atTop (𝓝 a) := by
  have hmono : ∀ N : ℕ, ∀ i < N, ostat (x (N + 1)) i ≤ ostat (x (N + 1)) (i + 1) :=
    fun N i hi => ostat_mono _ (Nat.le_succ i) (by rw [hx]; omega)
  have hlt : ∀ m : ℕ, (1 : ℝ) / (m + 2) < 1 / (m + 1) := fun m => by
    have : (0 : ℝ) ≤ m := Nat.cast_nonneg m
    exact one_div_lt_one_div_of_lt (by linarith) (by linarith)
  have hpos : ∀ m : ℕ, (0 : ℝ) < 1 / (m + 2) := fun m => by positivity
  have hNq : ∀ N : ℕ, 0 ≤ (N : ℝ) * q ∧ (N : ℝ) * q ≤ N := fun N =>
    ⟨by positivity, by have : (0 : ℝ) ≤ N := Nat.cast_nonneg N; nlinarith⟩
  refine tendsto_order.mpr ⟨fun u hu => ?_, fun u hu => ?_⟩
  · obtain ⟨m, hm⟩ := exists_nat_one_div_lt (sub_pos.mpr hu)
    have hst : a - 1 / ((m : ℝ) + 1) < a - 1 / ((m : ℝ) + 2) := by linarith [hlt m]
    have hl : ∫ y, ramp (a - 1 / ((m : ℝ) + 1)) (a - 1 / ((m : ℝ) + 2)) y ∂μ < q :=
      (ramp_integral_le μ hst).trans_lt (hlow _ (by linarith [hpos m]))
    obtain ⟨q', h1, h2⟩ := exists_between hl
    have hev := (tendsto_add_atTop_iff_nat 1).mpr (havl m) |>.eventually (eventually_lt_nhds h1)
    have hbig := tendsto_natCast_atTop_atTop (R := ℝ) |>.eventually (eventually_ge_atTop ((q' + 1) / (q - q')))
    filter_upwards [hev, hbig] with N hN hN2
    have hc := count_le_ramp hst (x (N + 1))
    have hp : (0 : ℝ) < ((N + 1 : ℕ) : ℝ) := by positivity
    rw [div_lt_iff₀ hp] at hN
    rw [div_le_iff₀ (by linarith)] at hN2
    have hf : (x (N + 1)).countP (fun y => decide (y ≤ a - 1 / ((m : ℝ) + 1))) ≤ ⌊(N : ℝ) * q⌋₊ := by
      refine Nat.le_floor ?_
      push_cast at hN
      linarith
    have hfl : ⌊(N : ℝ) * q⌋₊ ≤ N := Nat.floor_le_of_le (hNq N).2
    have h3 := ostat_gt_of_count _ _ _ (by rw [hx]; omega) hf
    have h4 := tele_mono _ N (hmono N) (Nat.floor_le (hNq N).1)
    rw [tele_nat _ _ _ hfl] at h4
    linarith
  · obtain ⟨m, hm⟩ := exists_nat_one_div_lt (sub_pos.mpr hu)
    have hst : a + 1 / ((m : ℝ) + 2) < a + 1 / ((m : ℝ) + 1) := by linarith [hlt m]
    have hl : q < ∫ y, ramp (a + 1 / ((m : ℝ) + 2)) (a + 1 / ((m : ℝ) + 1)) y ∂μ :=
      (hup _ (by linarith [hpos m])).trans_le (le_ramp_integral μ hst)
    obtain ⟨q', h1, h2⟩ := exists_between hl
    have hev := (tendsto_add_atTop_iff_nat 1).mpr (havr m) |>.eventually (eventually_gt_nhds h2)
    have hbig := tendsto_natCast_atTop_atTop (R := ℝ) |>.eventually (eventually_ge_atTop ((1 - q') / (q' - q)))
    filter_upwards [hev, hbig] with N hN hN2
    have hc := ramp_le_count hst (x (N + 1))
    have hp : (0 : ℝ) < ((N + 1 : ℕ) : ℝ) := by positivity
    rw [lt_div_iff₀ hp] at hN
    rw [div_le_iff₀ (by linarith)] at hN2
    have hf : ⌈(N : ℝ) * q⌉₊ < (x (N + 1)).countP (fun y => decide (y ≤ a + 1 / ((m : ℝ) + 1))) := by
      have h5 := Nat.ceil_lt_add_one (hNq N).1
      push_cast at hN
      have : ((⌈(N : ℝ) * q⌉₊ : ℕ) : ℝ) < ((x (N + 1)).countP (fun y => decide (y ≤ a + 1 / ((m : ℝ) + 1))) : ℝ) := by linarith
      exact_mod_cast this
    have hfl : ⌈(N : ℝ) * q⌉₊ ≤ N := Nat.ceil_le.mpr (hNq N).2
    have h3 := ostat_le_of_count _ _ _ hf
    have h4 := tele_mono _ N (hmono N) (Nat.le_ceil ((N : ℝ) * q))
    rw [tele_nat _ _ _ hfl] at h4
    linarith

/-- A law without atoms that charges every interval has exactly one quantile of every level strictly between 0 and 1. -/
theorem quantile_exists (μ : Measure ℝ) [IsProbabilityMeasure μ] (hat : ∀ t, μ {t} = 0) (hopen : ∀ s t, s < t → μ (Ioo s t) ≠ 0) (q : ℝ)
    (hq0 : 0 < q) (hq1 : q < 1) : ∃ a, μ.real (Iic a) = q ∧ (∀ u < a, μ.real (Iic u) < q) ∧ ∀ u > a, q < μ.real (Iic u) := by
  have hstrict : StrictMono fun t => μ.real (Iic t) := by
    intro s t hst
    have hd : Disjoint (Iic s) (Ioc s t) := Set.disjoint_left.mpr fun x hx hx' => absurd hx'.1 (not_lt.mpr hx)
    have h1 : μ.real (Iic s) + μ.real (Ioc s t) = μ.real (Iic t) := by
      rw [← measureReal_union hd measurableSet_Ioc, Iic_union_Ioc_eq_Iic hst.le]
    have h2 : 0 < μ.real (Ioc s t) := by
      refine ENNReal.toReal_pos ?_ (measure_ne_top _ _)
      exact fun h => hopen s t hst (measure_mono_null Ioo_subset_Ioc_self h)
    show μ.real (Iic s) < μ.real (Iic t)
    linarith
  have hE : (fun t => μ.real (Iic t)) = cdf μ := funext fun t => (cdf_eq_real μ t).symm
  have hcont : Continuous fun t => μ.real (Iic t) := by
    refine continuous_iff_continuousAt.mpr fun t => ?_
    rw [hE, (monotone_cdf μ).continuousAt_iff_leftLim_eq_rightLim, StieltjesFunction.rightLim_eq]
    refine le_antisymm ((monotone_cdf μ).leftLim_le le_rfl) ?_
    have h1 := (cdf μ).measure_singleton t
    rw [measure_cdf, hat] at h1
    have := ENNReal.ofReal_eq_zero.mp h1.symm
    linarith
  have hbot : Tendsto (fun t => μ.real (Iic t)) atBot (𝓝 0) := by rw [hE]; exact tendsto_cdf_atBot μ
  have htop : Tendsto (fun t => μ.real (Iic t)) atTop (𝓝 1) := by rw [hE]; exact tendsto_cdf_atTop μ
  obtain ⟨u, hu⟩ := (hbot.eventually (eventually_lt_nhds hq0)).exists
  obtain ⟨v, hv⟩ := (htop.eventually (eventually_gt_nhds hq1)).exists
  obtain ⟨a, ha⟩ := mem_range_of_exists_le_of_exists_ge hcont ⟨u, hu.le⟩ ⟨v, hv.le⟩
  refine ⟨a, ha, fun w hw => ?_, fun w hw => ?_⟩
  · rw [← ha]; exact hstrict hw
  · rw [← ha]; exact hstrict hw

end Pxmcmc
