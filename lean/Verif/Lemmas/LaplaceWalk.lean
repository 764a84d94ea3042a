import Mathlib.Probability.Distributions.Gaussian.Real
import Mathlib.MeasureTheory.Integral.ExpDecay

/-! # A random walk with the Laplace law and its acceptance probability -/

namespace Pxmcmc
open MeasureTheory ProbabilityTheory
open scoped ENNReal

/-- The Laplace law with density `m/2 * exp(-m*|x|)`; for `m = 1` that of `scipy.stats.laplace`. -/
noncomputable def laplaceLaw (m : ℝ) : Measure ℝ := volume.withDensity fun x => ENNReal.ofReal (m / 2 * Real.exp (-m * |x|))

theorem laplaceLaw_prob {m : ℝ} (hm : 0 < m) : IsProbabilityMeasure (laplaceLaw m) := by
  have h1 : ∫ x : ℝ, m / 2 * Real.exp (-m * |x|) = 1 := by
    rw [integral_comp_abs (f := fun x => m / 2 * Real.exp (-m * x)), integral_const_mul, integral_exp_mul_Ioi (neg_neg_of_pos hm)]
    simp only [mul_zero, Real.exp_zero]
    field_simp
  have hint : Integrable fun x : ℝ => m / 2 * Real.exp (-m * |x|) := Integrable.of_integral_ne_zero (by rw [h1]; exact one_ne_zero)
  refine ⟨?_⟩
  rw [laplaceLaw, withDensity_apply _ MeasurableSet.univ, Measure.restrict_univ,
    ← ofReal_integral_eq_lintegral_ofReal hint (Filter.Eventually.of_forall fun x => by positivity), h1, ENNReal.ofReal_one]

/-- The probability of accepting the step `s*w` from `x`. -/
noncomputable def walkAcc (m s x w : ℝ) : ℝ≥0∞ := ENNReal.ofReal (min 1 (Real.exp (m * (|x| - |x + s * w|))))

theorem walkAcc_meas (m s : ℝ) : Measurable fun q : ℝ × ℝ => walkAcc m s q.1 q.2 := by
  unfold walkAcc
  have : Continuous fun q : ℝ × ℝ => min 1 (Real.exp (m * (|q.1| - |q.1 + s * q.2|))) := by fun_prop
  exact this.measurable.ennreal_ofReal

theorem gauss_neg (g : ℝ → ℝ≥0∞) : ∫⁻ w, g (-w) ∂(gaussianReal 0 1) = ∫⁻ w, g w ∂(gaussianReal 0 1) := by
  have h := gaussianReal_map_neg (μ := 0) (v := 1)
  rw [neg_zero] at h
  have h2 := lintegral_map_equiv g (MeasurableEquiv.neg ℝ) (μ := gaussianReal 0 1)
  have e : (gaussianReal 0 1).map (MeasurableEquiv.neg ℝ) = gaussianReal 0 1 := h
  rw [e] at h2
  exact h2.symm

theorem walkAcc_sym (m s x w : ℝ) :
    ENNReal.ofReal (m / 2 * Real.exp (-m * |x|)) * walkAcc m s x w =
    ENNReal.ofReal (m / 2 * Real.exp (-m * |x + s * w|)) * walkAcc m s (x + s * w) (-w) := by
  unfold walkAcc
  rw [← ENNReal.ofReal_mul' (le_min zero_le_one (Real.exp_pos _).le), ← ENNReal.ofReal_mul' (le_min zero_le_one (Real.exp_pos _).le)]
  congr 1
  have e : ∀ a b : ℝ, Real.exp (-m * a) * min 1 (Real.exp (m * (a - b))) = min (Real.exp (-m * a)) (Real.exp (-m * b)) := by
    intro a b
    rw [mul_min_of_nonneg _ _ (Real.exp_pos _).le, mul_one, ← Real.exp_add]
    congr 2
    ring
  have e2 : x + s * w + s * -w = x := by ring
  rw [e2, mul_assoc, mul_assoc, e, e, min_comm]

/-- The accepted steps are reversible. -/
theorem walk_reversible (m s : ℝ) (φ : ℝ → ℝ≥0∞) (hφ : Measurable φ) :
    ∫⁻ x, ∫⁻ w, walkAcc m s x w * φ (x + s * w) ∂(gaussianReal 0 1) ∂(laplaceLaw m) =
    ∫⁻ x, ∫⁻ w, walkAcc m s x w * φ x ∂(gaussianReal 0 1) ∂(laplaceLaw m) := by
  have hd : Measurable fun x : ℝ => ENNReal.ofReal (m / 2 * Real.exp (-m * |x|)) := by fun_prop
  have hm := walkAcc_meas m s
  have hφ2 : Measurable fun q : ℝ × ℝ => φ (q.1 + s * q.2) := hφ.comp (by fun_prop)
  have h1 : Measurable fun q : ℝ × ℝ => walkAcc m s q.1 q.2 * φ (q.1 + s * q.2) := hm.mul hφ2
  have h2 : Measurable fun q : ℝ × ℝ => walkAcc m s q.1 q.2 * φ q.1 := hm.mul (hφ.comp measurable_fst)
  set D : ℝ → ℝ≥0∞ := fun x => ENNReal.ofReal (m / 2 * Real.exp (-m * |x|)) with hD
  have step : ∀ G : ℝ × ℝ → ℝ≥0∞, Measurable G → ∫⁻ x, ∫⁻ w, G (x, w) ∂(gaussianReal 0 1) ∂(laplaceLaw m) =
      ∫⁻ w, (∫⁻ x, D x * G (x, w)) ∂(gaussianReal 0 1) := by
    intro G hG
    have hGm : Measurable fun x => ∫⁻ w, G (x, w) ∂(gaussianReal 0 1) := hG.lintegral_prod_right'
    rw [laplaceLaw, lintegral_withDensity_eq_lintegral_mul _ hd hGm]
    have e : ∀ x, ((fun x : ℝ => ENNReal.ofReal (m / 2 * Real.exp (-m * |x|))) * fun x => ∫⁻ w, G (x, w) ∂(gaussianReal 0 1)) x =
        ∫⁻ w, D x * G (x, w) ∂(gaussianReal 0 1) := by
      intro x
      rw [lintegral_const_mul _ (show Measurable fun w => G (x, w) from hG.comp measurable_prodMk_left)]
      rfl
    rw [lintegral_congr e]
    exact lintegral_lintegral_swap (f := fun x w => D x * G (x, w)) ((hd.comp measurable_fst).mul hG).aemeasurable
  rw [step _ h1, step _ h2]
  -- shift by the step, then reverse the noise
  have e1 : ∀ w : ℝ, ∫⁻ x, D x * (walkAcc m s x w * φ (x + s * w)) = ∫⁻ x, D x * (walkAcc m s x (-w) * φ x) := by
    intro w
    have e2 : ∀ x, D x * (walkAcc m s x w * φ (x + s * w)) = (fun z => D z * (walkAcc m s z (-w) * φ z)) (x + s * w) := by
      intro x
      simp only
      rw [← mul_assoc, ← mul_assoc, hD]
      simp only
      rw [walkAcc_sym]
    simp only [e2]
    exact lintegral_add_right_eq_self (μ := volume) (fun z => D z * (walkAcc m s z (-w) * φ z)) (s * w)
  simp only [e1]
  exact gauss_neg fun w => ∫⁻ x, D x * (walkAcc m s x w * φ x)

/-- The acceptance probability depends on `|x|`. -/
theorem walk_abs (m s x : ℝ) : ∫⁻ w, walkAcc m s x w ∂(gaussianReal 0 1) = ∫⁻ w, walkAcc m s |x| w ∂(gaussianReal 0 1) := by
  rcases le_total 0 x with h | h
  · rw [abs_of_nonneg h]
  · rw [abs_of_nonpos h, ← gauss_neg fun w => walkAcc m s (-x) w]
    refine lintegral_congr fun w => ?_
    unfold walkAcc
    have e : -x + s * -w = -(x + s * w) := by ring
    rw [abs_neg, e, abs_neg]

/-- It increases with `|x|`. -/
theorem walk_strict {m s : ℝ} (hm : 0 < m) (hs : 0 < s) {x y : ℝ} (h : |x| < |y|) :
    ∫⁻ w, walkAcc m s x w ∂(gaussianReal 0 1) < ∫⁻ w, walkAcc m s y w ∂(gaussianReal 0 1) := by
  rw [walk_abs m s x, walk_abs m s y]
  set a := |x| with ha
  set b := |y|
  have ha0 : 0 ≤ a := abs_nonneg _
  have hb0 : 0 ≤ b := abs_nonneg _
  have hmeas : ∀ z, Measurable fun w => walkAcc m s z w := fun z => (walkAcc_meas m s).comp measurable_prodMk_left
  have hle1 : ∀ z w, walkAcc m s z w ≤ 1 := fun z w => by
    unfold walkAcc
    rw [ENNReal.ofReal_le_one]
    exact min_le_left _ _
  have hdiff : ∀ t : ℝ, a - |a + t| ≤ b - |b + t| := by
    intro t
    rcases abs_cases (a + t) with h1 | h1 <;> rcases abs_cases (b + t) with h2 | h2 <;> linarith
  refine lintegral_strict_mono_of_ae_le_of_ae_lt_on (s := Set.Iio (-2 * a / s)) (hmeas b).aemeasurable ?_ ?_ ?_ ?_
  · refine ne_top_of_le_ne_top ENNReal.one_ne_top ((lintegral_mono fun w => hle1 a w).trans ?_)
    simp
  · refine Filter.Eventually.of_forall fun w => ?_
    unfold walkAcc
    rw [abs_of_nonneg ha0, abs_of_nonneg hb0]
    refine ENNReal.ofReal_le_ofReal (min_le_min le_rfl (Real.exp_le_exp.mpr (mul_le_mul_of_nonneg_left (hdiff _) hm.le)))
  · intro h0
    have := gaussianReal_absolutelyContinuous' (0 : ℝ) (v := 1) one_ne_zero h0
    simp at this
  · refine Filter.Eventually.of_forall fun w hw => ?_
    have hw : w < -2 * a / s := hw
    have hw2 : s * w < -2 * a := by
      rw [lt_div_iff₀ hs] at hw
      linarith
    have h1 : |a + s * w| = -(a + s * w) := abs_of_neg (by linarith)
    have h2 : a - |a + s * w| < 0 := by rw [h1]; linarith
    have h3 : a - |a + s * w| < b - |b + s * w| := by
      rw [h1]
      rcases abs_cases (b + s * w) with h4 | h4 <;> linarith
    unfold walkAcc
    rw [abs_of_nonneg ha0, abs_of_nonneg hb0]
    have h5 : Real.exp (m * (a - |a + s * w|)) < 1 := Real.exp_lt_one_iff.mpr (mul_neg_of_pos_of_neg hm h2)
    have h6 : Real.exp (m * (a - |a + s * w|)) < Real.exp (m * (b - |b + s * w|)) := Real.exp_lt_exp.mpr (mul_lt_mul_of_pos_left h3 hm)
    rw [min_eq_right h5.le]
    exact (ENNReal.ofReal_lt_ofReal_iff (lt_min one_pos (Real.exp_pos _))).mpr (lt_min h5 h6)

end Pxmcmc
