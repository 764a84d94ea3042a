import Mathlib.Probability.Distributions.Gaussian.Multivariate
import Mathlib.Analysis.SpecialFunctions.Gaussian.FourierTransform
import Mathlib.MeasureTheory.Measure.Tilted

/-! # The density of a Gaussian vector, and exponential moments -/

namespace Pxmcmc
open MeasureTheory ProbabilityTheory
open scoped ENNReal RealInnerProductSpace

variable {V : Type*} [NormedAddCommGroup V] [InnerProductSpace ℝ V] [FiniteDimensional ℝ V] [MeasurableSpace V] [BorelSpace V]

theorem integrable_exp_neg_sq (b : ℝ) (hb : 0 < b) : Integrable fun v : V => Real.exp (-b * ‖v‖ ^ 2) := by
  have h := (GaussianFourier.integrable_cexp_neg_mul_sq_norm_add (V := V) (b := (b : ℂ)) (by simpa using hb) 0 0).norm
  refine h.congr (Filter.Eventually.of_forall fun v => ?_)
  simp only [zero_mul, add_zero, Complex.norm_exp]
  congr 1
  rw [← Complex.ofReal_pow, ← Complex.ofReal_neg, ← Complex.ofReal_mul, Complex.ofReal_re]

theorem integrable_exp_shift (b : ℝ) (hb : 0 < b) (a : V) : Integrable fun v : V => Real.exp (-b * ‖v - a‖ ^ 2) :=
  (integrable_exp_neg_sq b hb).comp_sub_right a

theorem integral_exp_shift (b : ℝ) (a : V) : ∫ v : V, Real.exp (-b * ‖v - a‖ ^ 2) = ∫ v : V, Real.exp (-b * ‖v‖ ^ 2) :=
  integral_sub_right_eq_self (fun v : V => Real.exp (-b * ‖v‖ ^ 2)) a

theorem integral_gauss_pos (b : ℝ) (hb : 0 < b) : 0 < ∫ v : V, Real.exp (-b * ‖v‖ ^ 2) :=
  integral_exp_pos (integrable_exp_neg_sq b hb)

/-- The law of `a + s w` for a standard Gaussian vector `w` has density proportional to `exp (-‖y - a‖²/(2 s²))`. -/
theorem stdGaussian_affine (a : V) (s : ℝ) (hs : 0 < s) :
    (stdGaussian V).map (fun w => a + s • w) = (volume : Measure V).tilted fun y => -(1 / (2 * s ^ 2)) * ‖y - a‖ ^ 2 := by
  have hb : 0 < 1 / (2 * s ^ 2) := by positivity
  set b := 1 / (2 * s ^ 2) with hbd
  have hm : Measurable fun w : V => a + s • w := by fun_prop
  have : IsProbabilityMeasure ((volume : Measure V).tilted fun y => -b * ‖y - a‖ ^ 2) :=
    isProbabilityMeasure_tilted (integrable_exp_shift b hb a)
  have : IsProbabilityMeasure ((stdGaussian V).map (fun w => a + s • w)) := Measure.isProbabilityMeasure_map hm.aemeasurable
  refine Measure.ext_of_charFun ?_
  funext t
  have l : charFun ((stdGaussian V).map (fun w => a + s • w)) t =
      Complex.exp ((⟪a, t⟫ : ℝ) * Complex.I) * Complex.exp (-‖s • t‖ ^ 2 / 2) := by
    rw [← charFun_stdGaussian, charFun_apply, charFun_apply, integral_map hm.aemeasurable (by fun_prop), ← integral_const_mul]
    refine integral_congr_ae (Filter.Eventually.of_forall fun w => ?_)
    simp only [← Complex.exp_add, inner_add_left, real_inner_smul_left, real_inner_smul_right]
    congr 1
    push_cast
    ring
  have hc := GaussianFourier.integral_cexp_neg_mul_sq_norm_add (V := V) (b := (b : ℂ)) (by simpa using hb) Complex.I t
  have h0 := GaussianFourier.integral_cexp_neg_mul_sq_norm_add (V := V) (b := (b : ℂ)) (by simpa using hb) 0 t
  have hZ : ((∫ y : V, Real.exp (-b * ‖y - a‖ ^ 2) : ℝ) : ℂ) = ((Real.pi : ℂ) / b) ^ (Module.finrank ℝ V / 2 : ℂ) := by
    rw [integral_exp_shift, ← integral_complex_ofReal]
    simp only [zero_mul, add_zero, ne_eq, OfNat.ofNat_ne_zero, not_false_eq_true, zero_pow, zero_div, Complex.exp_zero, mul_one] at h0
    rw [← h0]
    refine integral_congr_ae (Filter.Eventually.of_forall fun w => ?_)
    push_cast
    rfl
  have hZ0 : (∫ y : V, Real.exp (-b * ‖y - a‖ ^ 2)) ≠ 0 := by
    rw [integral_exp_shift]
    exact (integral_gauss_pos b hb).ne'
  have r : charFun ((volume : Measure V).tilted fun y => -b * ‖y - a‖ ^ 2) t =
      Complex.exp ((⟪a, t⟫ : ℝ) * Complex.I) * Complex.exp (Complex.I ^ 2 * ‖t‖ ^ 2 / (4 * b)) := by
    rw [charFun_apply, integral_tilted]
    have e : ∀ y : V, (Real.exp (-b * ‖y - a‖ ^ 2) / ∫ z : V, Real.exp (-b * ‖z - a‖ ^ 2)) • Complex.exp ((⟪y, t⟫ : ℝ) * Complex.I) =
        Complex.exp ((⟪a, t⟫ : ℝ) * Complex.I) * ((((∫ z : V, Real.exp (-b * ‖z - a‖ ^ 2) : ℝ) : ℂ))⁻¹ *
          Complex.exp (-(b : ℂ) * ‖y - a‖ ^ 2 + Complex.I * (⟪t, y - a⟫ : ℝ))) := by
      intro y
      rw [Complex.real_smul, Complex.ofReal_div, Complex.exp_add, inner_sub_right, real_inner_comm y t, real_inner_comm a t]
      have : Complex.exp ((⟪y, t⟫ : ℝ) * Complex.I) = Complex.exp ((⟪a, t⟫ : ℝ) * Complex.I) *
          Complex.exp (Complex.I * ((⟪y, t⟫ - ⟪a, t⟫ : ℝ) : ℂ)) := by
        rw [← Complex.exp_add]
        congr 1
        push_cast
        ring
      rw [this]
      push_cast
      ring
    simp only [e]
    rw [integral_const_mul, integral_const_mul,
      integral_sub_right_eq_self (fun v : V => Complex.exp (-(b : ℂ) * ‖v‖ ^ 2 + Complex.I * (⟪t, v⟫ : ℝ))) a, hc, ← hZ,
      ← mul_assoc (_⁻¹), inv_mul_cancel₀ (Complex.ofReal_ne_zero.mpr hZ0), one_mul]
  rw [l, r]
  congr 2
  rw [norm_smul, Real.norm_eq_abs, abs_of_pos hs, Complex.I_sq, hbd]
  push_cast
  have : (s : ℂ) ≠ 0 := by exact_mod_cast hs.ne'
  field_simp
  ring

end Pxmcmc
