import Verif.Lemmas.LangevinBias
import Verif.Lemmas.Coupling
import Mathlib.MeasureTheory.Measure.LevyProkhorovMetric

/-! # Gaussian noise smooths

The probability of any event after a step with Gaussian noise depends on the state before the noise in a Lipschitz way, with one constant
for all events.  Convergence of the means of Lipschitz quantities therefore gives convergence of the probabilities of all events. -/

namespace Pxmcmc
open MeasureTheory ProbabilityTheory Filter
open scoped ENNReal NNReal RealInnerProductSpace Topology

section Shift
variable {V : Type} [NormedAddCommGroup V] [InnerProductSpace ℝ V] [FiniteDimensional ℝ V] [MeasurableSpace V] [BorelSpace V]

theorem exp_neg_diff (s t : ℝ) : |Real.exp (-s) - Real.exp (-t)| ≤ |s - t| * (Real.exp (-s) + Real.exp (-t)) := by
  wlog h : s ≤ t generalizing s t
  · have := this t s (le_of_not_ge h)
    rw [abs_sub_comm, abs_sub_comm s t, add_comm]
    exact this
  have h1 : Real.exp (-t) ≤ Real.exp (-s) := Real.exp_le_exp.mpr (by linarith)
  rw [abs_of_nonneg (by linarith), abs_of_nonpos (by linarith)]
  have h2 := Real.add_one_le_exp (s - t)
  have h3 : Real.exp (-t) = Real.exp (-s) * Real.exp (s - t) := by rw [← Real.exp_add]; congr 1; ring
  have h4 := Real.exp_pos (-s)
  have h5 := Real.exp_pos (-t)
  have h6 : Real.exp (-s) - Real.exp (-t) ≤ Real.exp (-s) * (t - s) := by
    rw [h3]
    nlinarith
  have h7 : 0 ≤ (t - s) * Real.exp (-t) := mul_nonneg (by linarith) h5.le
  nlinarith

omit [InnerProductSpace ℝ V] [FiniteDimensional ℝ V] [MeasurableSpace V] [BorelSpace V] in
theorem gauss_pointwise (b : ℝ) (hb : 0 < b) (a c y : V) (hac : ‖a - c‖ ≤ 1) :
    |Real.exp (-b * ‖y - a‖ ^ 2) - Real.exp (-b * ‖y - c‖ ^ 2)| ≤
      b * ‖a - c‖ * ((2 * ‖y - a‖ + 1) * Real.exp (-b * ‖y - a‖ ^ 2) + (2 * ‖y - c‖ + 1) * Real.exp (-b * ‖y - c‖ ^ 2)) := by
  have h1 := exp_neg_diff (b * ‖y - a‖ ^ 2) (b * ‖y - c‖ ^ 2)
  rw [← neg_mul, ← neg_mul] at h1
  have t1 : ‖y - a‖ ≤ ‖y - c‖ + ‖a - c‖ := by
    have := norm_sub_le (y - c) (a - c)
    rwa [sub_sub_sub_cancel_right] at this
  have t2 : ‖y - c‖ ≤ ‖y - a‖ + ‖a - c‖ := by
    have := norm_add_le (y - a) (a - c)
    rwa [sub_add_sub_cancel] at this
  have h2 : |b * ‖y - a‖ ^ 2 - b * ‖y - c‖ ^ 2| ≤ b * ‖a - c‖ * (‖y - a‖ + ‖y - c‖) := by
    have e : b * ‖y - a‖ ^ 2 - b * ‖y - c‖ ^ 2 = b * ((‖y - a‖ - ‖y - c‖) * (‖y - a‖ + ‖y - c‖)) := by ring
    rw [e, abs_mul, abs_of_pos hb, abs_mul, abs_of_nonneg (add_nonneg (norm_nonneg _) (norm_nonneg _)), mul_assoc]
    refine mul_le_mul_of_nonneg_left (mul_le_mul_of_nonneg_right ?_ (by positivity)) hb.le
    rw [abs_le]
    constructor <;> linarith
  set A := Real.exp (-b * ‖y - a‖ ^ 2)
  set C := Real.exp (-b * ‖y - c‖ ^ 2)
  have hA : 0 < A := Real.exp_pos _
  have hC : 0 < C := Real.exp_pos _
  refine h1.trans ((mul_le_mul_of_nonneg_right h2 (by positivity)).trans ?_)
  rw [mul_assoc (b * ‖a - c‖)]
  refine mul_le_mul_of_nonneg_left ?_ (by positivity)
  have h3 : (‖y - a‖ + ‖y - c‖) * A ≤ (2 * ‖y - a‖ + 1) * A := mul_le_mul_of_nonneg_right (by linarith) hA.le
  have h4 : (‖y - a‖ + ‖y - c‖) * C ≤ (2 * ‖y - c‖ + 1) * C := mul_le_mul_of_nonneg_right (by linarith) hC.le
  linarith

theorem integrable_norm_gauss (b : ℝ) (hb : 0 < b) : Integrable fun v : V => (2 * ‖v‖ + 1) * Real.exp (-b * ‖v‖ ^ 2) := by
  have h1 := (integrable_exp_neg_sq (V := V) (b / 2) (by positivity)).const_mul (2 / b + 2)
  refine h1.mono' (Continuous.aestronglyMeasurable (by fun_prop)) (Eventually.of_forall fun v => ?_)
  rw [Real.norm_of_nonneg (by positivity)]
  have e : Real.exp (-b * ‖v‖ ^ 2) = Real.exp (-(b / 2) * ‖v‖ ^ 2) * Real.exp (-(b / 2) * ‖v‖ ^ 2) := by
    rw [← Real.exp_add]
    congr 1
    ring
  have h2 : (2 * ‖v‖ + 1) * Real.exp (-(b / 2) * ‖v‖ ^ 2) ≤ 2 / b + 2 := by
    have h3 := Real.add_one_le_exp (b / 2 * ‖v‖ ^ 2)
    have h4 : Real.exp (-(b / 2) * ‖v‖ ^ 2) * Real.exp (b / 2 * ‖v‖ ^ 2) = 1 := by
      rw [← Real.exp_add, neg_mul, neg_add_cancel, Real.exp_zero]
    have h5 := Real.exp_pos (-(b / 2) * ‖v‖ ^ 2)
    have h6 : 2 * ‖v‖ + 1 ≤ (2 / b + 2) * (b / 2 * ‖v‖ ^ 2 + 1) := by
      have h7 : (2 / b + 2) * (b / 2 * ‖v‖ ^ 2 + 1) = ‖v‖ ^ 2 + 2 + (b * ‖v‖ ^ 2 + 2 / b) := by
        field_simp
        ring
      rw [h7]
      have h8 : 0 ≤ b * ‖v‖ ^ 2 + 2 / b := by positivity
      nlinarith [sq_nonneg (‖v‖ - 1)]
    have h9 : 0 ≤ 2 / b + 2 := by positivity
    calc (2 * ‖v‖ + 1) * Real.exp (-(b / 2) * ‖v‖ ^ 2)
        ≤ (2 / b + 2) * Real.exp (b / 2 * ‖v‖ ^ 2) * Real.exp (-(b / 2) * ‖v‖ ^ 2) :=
          mul_le_mul_of_nonneg_right (h6.trans (mul_le_mul_of_nonneg_left h3 h9)) h5.le
      _ = _ := by rw [mul_assoc, mul_comm (Real.exp (b / 2 * ‖v‖ ^ 2)), h4, mul_one]
  rw [e, ← mul_assoc]
  exact mul_le_mul_of_nonneg_right h2 (Real.exp_pos _).le

/-- Shifting a Gaussian vector changes the probabilities of all events by at most a multiple of the shift. -/
theorem gauss_shift (s : ℝ) (hs : 0 < s) : ∃ K : ℝ, 0 ≤ K ∧ ∀ (a c : V) (A : Set V), MeasurableSet A →
    |(stdGaussian V).real {w | a + s • w ∈ A} - (stdGaussian V).real {w | c + s • w ∈ A}| ≤ K * ‖a - c‖ := by
  set b := 1 / (2 * s ^ 2) with hbd
  have hb : 0 < b := by positivity
  set Z := ∫ v : V, Real.exp (-b * ‖v‖ ^ 2) with hZ
  have hZ0 : 0 < Z := integral_gauss_pos b hb
  set m := ∫ v : V, (2 * ‖v‖ + 1) * Real.exp (-b * ‖v‖ ^ 2) with hm
  have hm0 : 0 ≤ m := integral_nonneg fun v => by positivity
  refine ⟨max 1 (b * (2 * m) / Z), le_max_of_le_left zero_le_one, fun a c A hA => ?_⟩
  have hprob : ∀ a : V, (stdGaussian V).real {w | a + s • w ∈ A} = ∫ y in A, Real.exp (-b * ‖y - a‖ ^ 2) / Z := by
    intro a
    have hme : Measurable fun w : V => a + s • w := by fun_prop
    have h1 : (stdGaussian V).real {w | a + s • w ∈ A} = ((stdGaussian V).map fun w => a + s • w).real A := by
      rw [measureReal_def, measureReal_def, Measure.map_apply hme hA]
      rfl
    have hi := integrable_exp_shift b hb a
    rw [h1, stdGaussian_affine a s hs, measureReal_def, tilted_apply' _ _ hA, integral_exp_shift,
      integral_eq_lintegral_of_nonneg_ae (Eventually.of_forall fun y => by positivity) ((hi.div_const Z).aestronglyMeasurable.restrict)]
  by_cases hac : ‖a - c‖ ≤ 1
  swap
  · have h1 : ∀ a : V, 0 ≤ (stdGaussian V).real {w | a + s • w ∈ A} ∧ (stdGaussian V).real {w | a + s • w ∈ A} ≤ 1 := fun a =>
      ⟨measureReal_nonneg, measureReal_le_one⟩
    have h2 : |(stdGaussian V).real {w | a + s • w ∈ A} - (stdGaussian V).real {w | c + s • w ∈ A}| ≤ 1 := by
      rw [abs_le]
      constructor <;> linarith [(h1 a).1, (h1 a).2, (h1 c).1, (h1 c).2]
    have h3 : 1 * ‖a - c‖ ≤ max 1 (b * (2 * m) / Z) * ‖a - c‖ := mul_le_mul_of_nonneg_right (le_max_left _ _) (norm_nonneg _)
    linarith [not_le.mp hac]
  rw [hprob, hprob]
  have hi := fun a : V => (integrable_exp_shift (V := V) b hb a).div_const Z
  rw [← integral_sub (hi a).restrict (hi c).restrict]
  have hj : ∀ a : V, Integrable fun y : V => (2 * ‖y - a‖ + 1) * Real.exp (-b * ‖y - a‖ ^ 2) := fun a =>
    (integrable_norm_gauss b hb).comp_sub_right a
  have hje : ∀ a : V, ∫ y : V, (2 * ‖y - a‖ + 1) * Real.exp (-b * ‖y - a‖ ^ 2) = m := fun a =>
    integral_sub_right_eq_self (fun v : V => (2 * ‖v‖ + 1) * Real.exp (-b * ‖v‖ ^ 2)) a
  calc |∫ y in A, (Real.exp (-b * ‖y - a‖ ^ 2) / Z - Real.exp (-b * ‖y - c‖ ^ 2) / Z)|
      ≤ ∫ y in A, |Real.exp (-b * ‖y - a‖ ^ 2) / Z - Real.exp (-b * ‖y - c‖ ^ 2) / Z| := abs_integral_le_integral_abs
    _ ≤ ∫ y, |Real.exp (-b * ‖y - a‖ ^ 2) / Z - Real.exp (-b * ‖y - c‖ ^ 2) / Z| :=
      setIntegral_le_integral ((hi a).sub (hi c)).abs (Eventually.of_forall fun y => abs_nonneg _)
    _ ≤ ∫ y, b * ‖a - c‖ / Z * ((2 * ‖y - a‖ + 1) * Real.exp (-b * ‖y - a‖ ^ 2) +
        (2 * ‖y - c‖ + 1) * Real.exp (-b * ‖y - c‖ ^ 2)) := by
      refine integral_mono ((hi a).sub (hi c)).abs (((hj a).add (hj c)).const_mul _) fun y => ?_
      dsimp only
      rw [← sub_div, abs_div, abs_of_pos hZ0, div_mul_eq_mul_div]
      exact div_le_div_of_nonneg_right (gauss_pointwise b hb a c y hac) hZ0.le
    _ = b * (2 * m) / Z * ‖a - c‖ := by
      rw [integral_const_mul, integral_add (hj a) (hj c), hje, hje]
      ring
    _ ≤ _ := mul_le_mul_of_nonneg_right (le_max_right _ _) (norm_nonneg _)

end Shift

section Weak
variable {E : Type*} [MetricSpace E] [TopologicalSpace.SeparableSpace E] [MeasurableSpace E] [BorelSpace E]

omit [MetricSpace E] [TopologicalSpace.SeparableSpace E] [BorelSpace E] in
theorem levels_integrable (μ : Measure E) [IsProbabilityMeasure μ] (g : E → ℝ) :
    IntegrableOn (fun t : ℝ => μ.real {x | t ≤ g x}) (Set.Ioc 0 1) := by
  have hanti : Antitone fun t : ℝ => μ.real {x | t ≤ g x} := fun s t hst => measureReal_mono fun x hx => hst.trans hx
  refine Measure.integrableOn_of_bounded (M := 1) (by simp) hanti.measurable.aestronglyMeasurable (Eventually.of_forall fun t => ?_)
  rw [Real.norm_of_nonneg measureReal_nonneg]
  exact measureReal_le_one

omit [TopologicalSpace.SeparableSpace E] in
theorem prokhorov_step (μ ν : Measure E) [IsProbabilityMeasure μ] [IsProbabilityMeasure ν] (η : ℝ) (hη : 0 < η)
    (h : levyProkhorovEDist μ ν < ENNReal.ofReal η) (K : ℝ) (hK : 0 ≤ K) (g : E → ℝ) (h0 : ∀ x, 0 ≤ g x) (h1 : ∀ x, g x ≤ 1)
    (hL : ∀ x y, |g x - g y| ≤ K * dist x y) : ∫ x, g x ∂μ ≤ ∫ x, g x ∂ν + (K + 1) * η := by
  have hgc : Continuous g := by
    refine (LipschitzWith.of_dist_le_mul (K := NNReal.mk K hK) fun x y => ?_).continuous
    rw [Real.dist_eq]
    exact hL x y
  set g' : E → ℝ := fun x => min 1 (g x + K * η) with hg'
  have hgc' : Continuous g' := by fun_prop
  have h0' : ∀ x, 0 ≤ g' x := fun x => le_min zero_le_one (add_nonneg (h0 x) (by positivity))
  have h1' : ∀ x, g' x ≤ 1 := fun x => min_le_left _ _
  have hint : ∀ (ρ : Measure E) [IsProbabilityMeasure ρ] (q : E → ℝ), Continuous q → (∀ x, 0 ≤ q x) → (∀ x, q x ≤ 1) → Integrable q ρ := by
    intro ρ _ q hq hq0 hq1
    refine (integrable_const (1 : ℝ)).mono' hq.aestronglyMeasurable (Eventually.of_forall fun x => ?_)
    rw [Real.norm_of_nonneg (hq0 x)]
    exact hq1 x
  have hi := hint μ g hgc h0 h1
  have hi' := hint ν g' hgc' h0' h1'
  have hstep : ∀ t ∈ Set.Ioc (0 : ℝ) 1, μ.real {x | t ≤ g x} ≤ ν.real {x | t ≤ g' x} + η := by
    intro t ht
    have hm : MeasurableSet {x | t ≤ g x} := (isClosed_le continuous_const hgc).measurableSet
    have h2 := left_measure_le_of_levyProkhorovEDist_lt h hm
    rw [ENNReal.toReal_ofReal hη.le] at h2
    have hsub : Metric.thickening η {x | t ≤ g x} ⊆ {x | t ≤ g' x} := by
      intro x hx
      obtain ⟨y, hy, hxy⟩ := Metric.mem_thickening_iff.mp hx
      refine le_min ht.2 ?_
      have h3 := hL y x
      have h4 := (le_abs_self _).trans h3
      rw [dist_comm] at h4
      have h5 := mul_le_mul_of_nonneg_left hxy.le hK
      have hy' : t ≤ g y := hy
      linarith
    have h3 := h2.trans (add_le_add (measure_mono hsub) le_rfl)
    have h4 := ENNReal.toReal_mono (ENNReal.add_ne_top.mpr ⟨measure_ne_top _ _, ENNReal.ofReal_ne_top⟩) h3
    rw [ENNReal.toReal_add (measure_ne_top _ _) ENNReal.ofReal_ne_top, ENNReal.toReal_ofReal hη.le] at h4
    exact h4
  rw [hi.integral_eq_integral_Ioc_meas_le (M := 1) (Eventually.of_forall h0) (Eventually.of_forall h1)]
  have h6 : IntegrableOn (fun t : ℝ => ν.real {x | t ≤ g' x} + η) (Set.Ioc 0 1) :=
    (levels_integrable ν g').add (integrableOn_const (by simp))
  calc ∫ t in Set.Ioc 0 1, μ.real {x | t ≤ g x} ≤ ∫ t in Set.Ioc (0 : ℝ) 1, (ν.real {x | t ≤ g' x} + η) :=
        setIntegral_mono_on (levels_integrable μ g) h6 measurableSet_Ioc hstep
    _ = ∫ x, g' x ∂ν + η := by
        rw [integral_add (levels_integrable ν g') (integrableOn_const (by simp)),
          hi'.integral_eq_integral_Ioc_meas_le (M := 1) (Eventually.of_forall h0') (Eventually.of_forall h1')]
        simp
    _ ≤ (∫ x, g x ∂ν + K * η) + η := by
        refine add_le_add ?_ le_rfl
        have h7 : ∫ x, (g x + K * η) ∂ν = ∫ x, g x ∂ν + K * η := by
          rw [integral_add (hint ν g hgc h0 h1) (integrable_const _)]
          simp
        rw [← h7]
        exact integral_mono hi' ((hint ν g hgc h0 h1).add (integrable_const _)) fun x => min_le_right _ _
    _ = _ := by ring

/-- Weak convergence is uniform over functions with values in `[0, 1]` and a common Lipschitz constant. -/
theorem weak_uniform (μ : ℕ → Measure E) (hμ : ∀ k, IsProbabilityMeasure (μ k)) (π : Measure E) [IsProbabilityMeasure π]
    (h : ∀ f : BoundedContinuousFunction E ℝ, Tendsto (fun k => ∫ x, f x ∂(μ k)) atTop (𝓝 (∫ x, f x ∂π))) (K : ℝ) (hK : 0 ≤ K)
    (ε : ℝ) (hε : 0 < ε) : ∀ᶠ k in atTop, ∀ g : E → ℝ, (∀ x, 0 ≤ g x) → (∀ x, g x ≤ 1) → (∀ x y, |g x - g y| ≤ K * dist x y) →
      |∫ x, g x ∂(μ k) - ∫ x, g x ∂π| ≤ ε := by
  let m : ℕ → ProbabilityMeasure E := fun k => ⟨μ k, hμ k⟩
  let pm : ProbabilityMeasure E := ⟨π, inferInstance⟩
  have hm : Tendsto m atTop (𝓝 pm) := ProbabilityMeasure.tendsto_iff_forall_integral_tendsto.mpr h
  have h2 := (LevyProkhorov.continuous_ofMeasure_probabilityMeasure (Ω := E)).continuousAt.tendsto.comp hm
  set η := ε / (K + 1) with hη
  have hη0 : 0 < η := by positivity
  have h3 := EMetric.tendsto_nhds.mp h2 (ENNReal.ofReal η) (ENNReal.ofReal_pos.mpr hη0)
  filter_upwards [h3] with k hk g h0 h1 hL
  have hd : levyProkhorovEDist (μ k) π < ENNReal.ofReal η := hk
  have hd' : levyProkhorovEDist π (μ k) < ENNReal.ofReal η := by rwa [levyProkhorovEDist_comm]
  have := hμ k
  have e : (K + 1) * η = ε := by rw [hη]; field_simp
  have a1 := prokhorov_step (μ k) π η hη0 hd K hK g h0 h1 hL
  have a2 := prokhorov_step π (μ k) η hη0 hd' K hK g h0 h1 hL
  rw [e] at a1 a2
  rw [abs_le]
  constructor <;> linarith

end Weak

section Events
variable {E W F : Type*} [MeasurableSpace E] [MeasurableSpace W] [MeasurableSpace F] {ν : Measure W} [IsProbabilityMeasure ν]
  {f : E → W → E} {T : E → F}

/-- The probability of an event after one step is the mean of its probability given the state before. -/
theorem event_step (hf : Measurable (Function.uncurry f)) (hT : Measurable T) (μ : Measure E) [IsProbabilityMeasure μ] (A : Set F)
    (hA : MeasurableSet A) : Integrable (fun x => ν.real {w | T (f x w) ∈ A}) μ ∧
      ∫ x, ν.real {w | T (f x w) ∈ A} ∂μ = (stepLaw f ν μ).real {x | T x ∈ A} := by
  have hB : MeasurableSet (Function.uncurry f ⁻¹' (T ⁻¹' A)) := hf (hT hA)
  have hm : Measurable fun x => ν {w | T (f x w) ∈ A} := measurable_measure_prodMk_left hB
  refine ⟨?_, ?_⟩
  · refine (integrable_const (1 : ℝ)).mono' hm.ennreal_toReal.aestronglyMeasurable (Eventually.of_forall fun x => ?_)
    rw [Real.norm_of_nonneg measureReal_nonneg]
    exact measureReal_le_one
  · have h1 : (stepLaw f ν μ) {x | T x ∈ A} = ∫⁻ x, ν {w | T (f x w) ∈ A} ∂μ := by
      unfold stepLaw
      rw [show {x | T x ∈ A} = T ⁻¹' A from rfl, Measure.map_apply hf (hT hA), Measure.prod_apply hB]
      rfl
    rw [measureReal_def, h1, ← integral_toReal hm.aemeasurable (Eventually.of_forall fun x => measure_lt_top _ _)]
    rfl

end Events

end Pxmcmc
