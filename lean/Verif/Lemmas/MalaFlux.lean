import Verif.Props.MalaTrace
import Mathlib.Probability.Distributions.Gaussian.Real
import Mathlib.MeasureTheory.Measure.Prod
import Mathlib.MeasureTheory.Integral.Lebesgue.Sub

/-! # Probability flux of the PxMALA accept/reject step in one dimension -/

namespace Pxmcmc
open MeasureTheory ProbabilityTheory Set
open scoped ENNReal NNReal

/-- The mean of the proposal from `x` for one datum `d` with standard deviation `s` and a flat prior. -/
noncomputable def propMean (d s δ x : ℝ) : ℝ := x + δ * (-((x - d) / s ^ 2))

/-- The log acceptance ratio of the code in this case. -/
noncomputable def fluxAlpha (d s δ x y : ℝ) : ℝ :=
  -(1 / 2 * δ) * (x - y - δ / 2 * -((y - d) / s ^ 2)) ^ 4 - (y - d) ^ 2 / s ^ 2 +
    1 / 2 * δ * (y - x - δ / 2 * -((x - d) / s ^ 2)) ^ 4 + (x - d) ^ 2 / s ^ 2

theorem fluxAlpha_neg (d s δ x y : ℝ) : fluxAlpha d s δ y x = -fluxAlpha d s δ x y := by
  unfold fluxAlpha
  ring

/-- Far from the datum the code moves less probability inwards than outwards. -/
theorem flux_exponent (d s δ v : ℝ) (hs : 0 < s) (hδ : 0 < δ) (hδ4 : δ < 4 * s ^ 2) :
    ∃ c : ℝ, 0 < c ∧ ∀ x y : ℝ, c < |x - d| → |y - d| ≤ c →
      -(x - d) ^ 2 / (2 * v) - (y - propMean d s δ x) ^ 2 / (2 * (2 * δ)) + fluxAlpha d s δ x y <
        -(y - d) ^ 2 / (2 * v) - (x - propMean d s δ y) ^ 2 / (2 * (2 * δ)) := by
  set e := δ / s ^ 2 with he
  have hs2 : 0 < s ^ 2 := by positivity
  have he0 : 0 < e := by positivity
  have he4 : e < 4 := by rw [he, div_lt_iff₀ hs2]; exact hδ4
  set κ := 1 - e / 2 with hκ
  have hκ1 : 0 < 1 - κ ^ 2 := by rw [hκ]; nlinarith
  set A := -1 / (2 * v) + (2 * e - e ^ 2) / (4 * δ) + 1 / s ^ 2 with hA
  set B := δ / 2 * (1 - κ ^ 2) with hB
  have hB0 : 0 < B := by positivity
  set L := (1 - κ ^ 2) ^ 2 / (1 + κ ^ 2) with hL
  have hL0 : 0 < L := by positivity
  refine ⟨√((|A| + 1) / (B * L)), Real.sqrt_pos.mpr (by positivity), fun x y hx hy => ?_⟩
  set X := x - d with hX
  set Y := y - d with hY
  have hXY : Y ^ 2 < X ^ 2 := sq_lt_sq.mpr (lt_of_le_of_lt hy hx)
  have hX2 : (|A| + 1) / (B * L) < X ^ 2 := by
    have h1 : √((|A| + 1) / (B * L)) ^ 2 < |X| ^ 2 := pow_lt_pow_left₀ hx (Real.sqrt_nonneg _) two_ne_zero
    rwa [Real.sq_sqrt (by positivity), sq_abs] at h1
  have hS : L * X ^ 2 ≤ (1 + κ ^ 2) * (X ^ 2 + Y ^ 2) - 4 * κ * X * Y := by
    have h1 : (0 : ℝ) < 1 + κ ^ 2 := by positivity
    rw [hL, div_mul_eq_mul_div, div_le_iff₀ h1]
    nlinarith [sq_nonneg ((1 + κ ^ 2) * Y - 2 * κ * X)]
  have hAB : A - B * ((1 + κ ^ 2) * (X ^ 2 + Y ^ 2) - 4 * κ * X * Y) < 0 := by
    have h1 : |A| + 1 < B * L * X ^ 2 := by rwa [div_lt_iff₀' (by positivity)] at hX2
    have h2 := mul_le_mul_of_nonneg_left hS hB0.le
    have h3 := le_abs_self A
    nlinarith
  have key : -(x - d) ^ 2 / (2 * v) - (y - propMean d s δ x) ^ 2 / (2 * (2 * δ)) + fluxAlpha d s δ x y -
      (-(y - d) ^ 2 / (2 * v) - (x - propMean d s δ y) ^ 2 / (2 * (2 * δ))) =
      (X ^ 2 - Y ^ 2) * (A - B * ((1 + κ ^ 2) * (X ^ 2 + Y ^ 2) - 4 * κ * X * Y)) := by
    have hm : ∀ z, propMean d s δ z = d + (1 - e) * (z - d) := by
      intro z
      simp only [propMean, he]
      ring
    have ha : fluxAlpha d s δ x y = -(δ / 2) * ((X - κ * Y) ^ 4 - (Y - κ * X) ^ 4) - (Y ^ 2 - X ^ 2) / s ^ 2 := by
      have h1 : x - y - δ / 2 * -((y - d) / s ^ 2) = X - κ * Y := by
        rw [hκ, he, hX, hY]
        ring
      have h2 : y - x - δ / 2 * -((x - d) / s ^ 2) = Y - κ * X := by
        rw [hκ, he, hX, hY]
        ring
      unfold fluxAlpha
      rw [h1, h2]
      ring
    rw [hm, hm, ha, show y - (d + (1 - e) * (x - d)) = Y - (1 - e) * X by rw [hX, hY]; ring,
      show x - (d + (1 - e) * (y - d)) = X - (1 - e) * Y by rw [hX, hY]; ring, hA, hB]
    have hδ' : δ ≠ 0 := hδ.ne'
    have hq : (2 * e - e ^ 2) / (4 * δ) * (X ^ 2 - Y ^ 2) = ((X - (1 - e) * Y) ^ 2 - (Y - (1 - e) * X) ^ 2) / (2 * (2 * δ)) := by
      field_simp
      ring
    have hv : -1 / (2 * v) * (X ^ 2 - Y ^ 2) = -X ^ 2 / (2 * v) + Y ^ 2 / (2 * v) := by ring
    linear_combination (-1 : ℝ) * hq - hv
  have := mul_neg_of_pos_of_neg (sub_pos.mpr hXY) hAB
  linarith

theorem min_one_exp (a : ℝ) : min 1 (Real.exp a) = Real.exp (min 0 a) := by
  rcases le_total a 0 with h | h
  · rw [min_eq_right h, min_eq_right (by rw [← Real.exp_zero]; exact Real.exp_le_exp.mpr h)]
  · rw [min_eq_left h, Real.exp_zero, min_eq_left (Real.one_le_exp h)]

/-- The same for the densities. -/
theorem flux_strict (d s δ : ℝ) (hs : 0 < s) (hδ : 0 < δ) (hδ4 : δ < 4 * s ^ 2) (v : ℝ≥0) (hv : v ≠ 0) :
    ∃ c : ℝ, 0 < c ∧ ∀ x y : ℝ, c < |x - d| → |y - d| ≤ c →
      gaussianPDFReal d v x * gaussianPDFReal (propMean d s δ x) (2 * δ).toNNReal y * min 1 (Real.exp (fluxAlpha d s δ x y)) <
      gaussianPDFReal d v y * gaussianPDFReal (propMean d s δ y) (2 * δ).toNNReal x * min 1 (Real.exp (fluxAlpha d s δ y x)) := by
  obtain ⟨c, hc, h⟩ := flux_exponent d s δ v hs hδ hδ4
  refine ⟨c, hc, fun x y hx hy => ?_⟩
  have h1 := h x y hx hy
  have hv0 : (0 : ℝ) < v := lt_of_le_of_ne v.2 fun h => hv (NNReal.eq h.symm)
  have h2δ : ((2 * δ).toNNReal : ℝ) = 2 * δ := Real.coe_toNNReal _ (by linarith)
  have hpi := Real.pi_pos
  have e : ∀ x y, gaussianPDFReal d v x * gaussianPDFReal (propMean d s δ x) (2 * δ).toNNReal y * min 1 (Real.exp (fluxAlpha d s δ x y)) =
      (√(2 * Real.pi * v))⁻¹ * (√(2 * Real.pi * (2 * δ)))⁻¹ * Real.exp (-(x - d) ^ 2 / (2 * v) -
        (y - propMean d s δ x) ^ 2 / (2 * (2 * δ)) + min 0 (fluxAlpha d s δ x y)) := by
    intro x y
    rw [min_one_exp, gaussianPDFReal, gaussianPDFReal, h2δ, Real.exp_add, Real.exp_sub, neg_div (2 * (2 * δ)), Real.exp_neg]
    ring
  rw [e, e]
  refine mul_lt_mul_of_pos_left (Real.exp_lt_exp.mpr ?_) (by positivity)
  rw [fluxAlpha_neg d s δ x y]
  have h3 : min 0 (fluxAlpha d s δ x y) = fluxAlpha d s δ x y + min 0 (-fluxAlpha d s δ x y) := by
    rcases le_total (fluxAlpha d s δ x y) 0 with h | h
    · rw [min_eq_right h, min_eq_left (by linarith), add_zero]
    · rw [min_eq_left h, min_eq_right (by linarith)]; ring
  linarith

theorem fluxAlpha_continuous (d s δ : ℝ) : Continuous fun p : ℝ × ℝ => fluxAlpha d s δ p.1 p.2 := by
  unfold fluxAlpha
  fun_prop

theorem propMean_continuous (d s δ : ℝ) : Continuous (propMean d s δ) := by
  unfold propMean
  fun_prop

/-- State, normal draw and uniform draw. -/
noncomputable def fluxLaw (d : ℝ) (v : ℝ≥0) : Measure (ℝ × ℝ × ℝ) :=
  (gaussianReal d v).prod ((gaussianReal 0 1).prod (volume.restrict (Ico (0 : ℝ) 1)))

/-- The proposal. -/
noncomputable def fluxProp (d s δ : ℝ) (q : ℝ × ℝ × ℝ) : ℝ := propMean d s δ q.1 + √(2 * δ) * q.2.1

/-- The acceptance event. -/
def fluxAcc (d s δ : ℝ) : Set (ℝ × ℝ × ℝ) := {q | acceptTest q.2.2 ((fluxAlpha d s δ q.1 (fluxProp d s δ q) : ℝ) : ℂ)}

theorem fluxProp_measurable (d s δ : ℝ) : Measurable (fluxProp d s δ) := by
  have := (propMean_continuous d s δ).measurable
  unfold fluxProp
  fun_prop

theorem acceptTest_real (u a : ℝ) : acceptTest u (a : ℂ) ↔ u = 0 ∨ Real.log u < a := by
  unfold acceptTest
  simp

theorem fluxAcc_measurable (d s δ : ℝ) : MeasurableSet (fluxAcc d s δ) := by
  have h1 : Measurable fun q : ℝ × ℝ × ℝ => fluxAlpha d s δ q.1 (fluxProp d s δ q) :=
    Measurable.comp (g := fun p : ℝ × ℝ => fluxAlpha d s δ p.1 p.2) (f := fun q : ℝ × ℝ × ℝ => (q.1, fluxProp d s δ q))
      (fluxAlpha_continuous d s δ).measurable (measurable_fst.prodMk (fluxProp_measurable d s δ))
  have h2 : Measurable fun q : ℝ × ℝ × ℝ => q.2.2 := measurable_snd.comp measurable_snd
  have e : fluxAcc d s δ = {q | q.2.2 = 0} ∪ {q | Real.log q.2.2 < fluxAlpha d s δ q.1 (fluxProp d s δ q)} := by
    ext q
    unfold fluxAcc
    simp only [mem_ofPred_eq, mem_union, acceptTest_real]
  rw [e]
  exact (h2 (measurableSet_singleton 0)).union (measurableSet_lt (Real.measurable_log.comp h2) h1)

instance : IsProbabilityMeasure (volume.restrict (Ico (0 : ℝ) 1)) := ⟨by simp⟩

instance (d : ℝ) (v : ℝ≥0) : IsProbabilityMeasure (fluxLaw d v) := by unfold fluxLaw; infer_instance

/-- The probability of an accepted move from `x` to `y` with `(x, y) ∈ S`. -/
theorem flux_apply (d s δ : ℝ) (hδ : 0 < δ) (v : ℝ≥0) (hv : v ≠ 0) (S : Set (ℝ × ℝ)) (hS : MeasurableSet S) :
    fluxLaw d v {q | (q.1, fluxProp d s δ q) ∈ S ∧ q ∈ fluxAcc d s δ} =
      ∫⁻ x, ∫⁻ y, S.indicator (fun q => ENNReal.ofReal (gaussianPDFReal d v q.1 *
        gaussianPDFReal (propMean d s δ q.1) (2 * δ).toNNReal q.2 * min 1 (Real.exp (fluxAlpha d s δ q.1 q.2)))) (x, y) := by
  have h2δ : (2 * δ).toNNReal ≠ 0 := by
    rw [Ne, Real.toNNReal_eq_zero]; linarith
  have hpm := fluxProp_measurable d s δ
  have hset : MeasurableSet {q : ℝ × ℝ × ℝ | (q.1, fluxProp d s δ q) ∈ S ∧ q ∈ fluxAcc d s δ} :=
    (measurable_fst.prodMk hpm hS).inter (fluxAcc_measurable d s δ)
  set F : ℝ × ℝ → ℝ≥0∞ := fun q => S.indicator (fun q => ENNReal.ofReal (min 1 (Real.exp (fluxAlpha d s δ q.1 q.2)))) q with hF
  have hFm : Measurable F := by
    refine Measurable.indicator ?_ hS
    exact ENNReal.measurable_ofReal.comp (measurable_const.min (Real.measurable_exp.comp (fluxAlpha_continuous d s δ).measurable))
  unfold fluxLaw
  rw [Measure.prod_apply hset]
  have h1 : ∀ x, ((gaussianReal 0 1).prod (volume.restrict (Ico (0 : ℝ) 1))) (Prod.mk x ⁻¹' {q | (q.1, fluxProp d s δ q) ∈ S ∧ q ∈ fluxAcc d s δ}) =
      ∫⁻ y, F (x, y) * ENNReal.ofReal (gaussianPDFReal (propMean d s δ x) (2 * δ).toNNReal y) := by
    intro x
    rw [Measure.prod_apply (measurable_prodMk_left hset)]
    have h2 : ∀ w : ℝ, (volume.restrict (Ico (0 : ℝ) 1)) (Prod.mk w ⁻¹' (Prod.mk x ⁻¹' {q | (q.1, fluxProp d s δ q) ∈ S ∧ q ∈ fluxAcc d s δ})) =
        F (x, propMean d s δ x + √(2 * δ) * w) := by
      intro w
      rw [Measure.restrict_apply (measurable_prodMk_left (measurable_prodMk_left hset))]
      by_cases hmem : (x, propMean d s δ x + √(2 * δ) * w) ∈ S
      · simp only [hF]
        rw [indicator_of_mem hmem]
        have h3 := C52_probability ((fluxAlpha d s δ x (propMean d s δ x + √(2 * δ) * w) : ℝ) : ℂ)
        rw [Complex.ofReal_re] at h3
        rw [← h3]
        congr 1
        ext u
        constructor
        · rintro ⟨⟨_, h5⟩, h6⟩
          exact ⟨h6, h5⟩
        · rintro ⟨h6, h5⟩
          exact ⟨⟨hmem, h5⟩, h6⟩
      · simp only [hF]
        rw [indicator_of_notMem hmem]
        convert measure_empty (μ := (volume : Measure ℝ))
        rw [eq_empty_iff_forall_notMem]
        rintro u ⟨⟨h4, -⟩, -⟩
        exact hmem h4
    simp only [h2]
    have hmap : (gaussianReal 0 1).map (fun w => propMean d s δ x + √(2 * δ) * w) = gaussianReal (propMean d s δ x) (2 * δ).toNNReal := by
      have h4 : (gaussianReal 0 1).map (fun w => √(2 * δ) * w) = gaussianReal 0 (2 * δ).toNNReal := by
        rw [gaussianReal_map_const_mul]
        congr 1
        · ring
        · rw [mul_one]
          ext
          rw [Real.coe_toNNReal _ (by positivity)]
          exact Real.sq_sqrt (by positivity)
      have h5 : (fun w => propMean d s δ x + √(2 * δ) * w) = (fun y => propMean d s δ x + y) ∘ fun w => √(2 * δ) * w := rfl
      rw [h5, ← Measure.map_map (by fun_prop) (by fun_prop), h4, gaussianReal_map_const_add, zero_add]
    have h6 : ∫⁻ w, F (x, propMean d s δ x + √(2 * δ) * w) ∂(gaussianReal 0 1) =
        ∫⁻ y, F (x, y) ∂((gaussianReal 0 1).map fun w => propMean d s δ x + √(2 * δ) * w) := by
      exact (lintegral_map (f := fun y => F (x, y)) (hFm.comp measurable_prodMk_left) (by fun_prop)).symm
    rw [h6, hmap, gaussianReal_of_var_ne_zero _ h2δ,
      lintegral_withDensity_eq_lintegral_mul _ (measurable_gaussianPDF _ _) (g := fun y => F (x, y)) (hFm.comp measurable_prodMk_left)]
    refine lintegral_congr fun y => ?_
    rw [Pi.mul_apply, mul_comm]
    rfl
  simp only [h1]
  have hgm : Measurable fun q : ℝ × ℝ => gaussianPDFReal (propMean d s δ q.1) (2 * δ).toNNReal q.2 := by
    have := (propMean_continuous d s δ).measurable
    unfold gaussianPDFReal
    fun_prop
  have hm : Measurable fun x => ∫⁻ y, F (x, y) * ENNReal.ofReal (gaussianPDFReal (propMean d s δ x) (2 * δ).toNNReal y) :=
    Measurable.lintegral_prod_right' (f := fun q : ℝ × ℝ => F q * ENNReal.ofReal (gaussianPDFReal (propMean d s δ q.1) (2 * δ).toNNReal q.2))
      (hFm.mul (ENNReal.measurable_ofReal.comp hgm))
  rw [gaussianReal_of_var_ne_zero _ hv, lintegral_withDensity_eq_lintegral_mul _ (measurable_gaussianPDF _ _) hm]
  refine lintegral_congr fun x => ?_
  rw [Pi.mul_apply, ← lintegral_const_mul' _ _ (by simp [gaussianPDF])]
  refine lintegral_congr fun y => ?_
  by_cases hmem : (x, y) ∈ S
  · simp only [hF]
    rw [indicator_of_mem hmem, indicator_of_mem hmem, gaussianPDF, mul_comm (ENNReal.ofReal (min _ _)), ← mul_assoc,
      ← ENNReal.ofReal_mul (gaussianPDFReal_nonneg _ _ _), ← ENNReal.ofReal_mul (mul_nonneg (gaussianPDFReal_nonneg _ _ _) (gaussianPDFReal_nonneg _ _ _))]
  · simp only [hF]
    rw [indicator_of_notMem hmem, indicator_of_notMem hmem, zero_mul, mul_zero]

open Classical in
/-- The state after the accept/reject step. -/
noncomputable def fluxNext (d s δ : ℝ) (q : ℝ × ℝ × ℝ) : ℝ := if q ∈ fluxAcc d s δ then fluxProp d s δ q else q.1

theorem fluxNext_measurable (d s δ : ℝ) : Measurable (fluxNext d s δ) := by
  classical
  exact Measurable.ite (fluxAcc_measurable d s δ) (fluxProp_measurable d s δ) measurable_fst

/-- No normal law centred at the datum is preserved by the accept/reject step. -/
theorem flux_not_stationary (d s δ : ℝ) (hs : 0 < s) (hδ : 0 < δ) (hδ4 : δ < 4 * s ^ 2) (v : ℝ≥0) (hv : v ≠ 0) :
    (fluxLaw d v).map (fluxNext d s δ) ≠ gaussianReal d v := by
  intro hstat
  obtain ⟨c, hc, hlt⟩ := flux_strict d s δ hs hδ hδ4 v hv
  set In : Set (ℝ × ℝ) := {q | c < |q.1 - d| ∧ |q.2 - d| ≤ c} with hIn
  set Out : Set (ℝ × ℝ) := {q | |q.1 - d| ≤ c ∧ c < |q.2 - d|} with hOut
  have ha1 : Measurable fun q : ℝ × ℝ => |q.1 - d| := by fun_prop
  have ha2 : Measurable fun q : ℝ × ℝ => |q.2 - d| := by fun_prop
  have hInm : MeasurableSet In := (measurableSet_lt measurable_const ha1).inter (measurableSet_le ha2 measurable_const)
  have hOutm : MeasurableSet Out := (measurableSet_le ha1 measurable_const).inter (measurableSet_lt measurable_const ha2)
  set SI : Set (ℝ × ℝ × ℝ) := {q | (q.1, fluxProp d s δ q) ∈ In ∧ q ∈ fluxAcc d s δ} with hSI
  set SO : Set (ℝ × ℝ × ℝ) := {q | (q.1, fluxProp d s δ q) ∈ Out ∧ q ∈ fluxAcc d s δ} with hSO
  have hSIm : MeasurableSet SI := (measurable_fst.prodMk (fluxProp_measurable d s δ) hInm).inter (fluxAcc_measurable d s δ)
  have hSOm : MeasurableSet SO := (measurable_fst.prodMk (fluxProp_measurable d s δ) hOutm).inter (fluxAcc_measurable d s δ)
  set Bx : Set (ℝ × ℝ × ℝ) := {q | |q.1 - d| ≤ c} with hBx
  set By : Set (ℝ × ℝ × ℝ) := {q | |fluxNext d s δ q - d| ≤ c} with hBy
  have hball : MeasurableSet {y : ℝ | |y - d| ≤ c} := measurableSet_le (by fun_prop) measurable_const
  have hBxm : MeasurableSet Bx := measurableSet_le (by fun_prop) measurable_const
  have hBym : MeasurableSet By := fluxNext_measurable d s δ hball
  have hprob : fluxLaw d v By = fluxLaw d v Bx := by
    have h1 : fluxLaw d v By = gaussianReal d v {y | |y - d| ≤ c} := by
      rw [← hstat, Measure.map_apply (fluxNext_measurable d s δ) hball]
      rfl
    have h2 : fluxLaw d v Bx = gaussianReal d v {y | |y - d| ≤ c} := by
      have h3 : (fluxLaw d v).map Prod.fst = gaussianReal d v := by
        unfold fluxLaw
        rw [Measure.map_fst_prod, measure_univ, one_smul]
      rw [← h3, Measure.map_apply measurable_fst hball]
      rfl
    rw [h1, h2]
  have hsplit : fluxLaw d v By + fluxLaw d v SO = fluxLaw d v Bx + fluxLaw d v SI := by
    have e : By ∪ SO = Bx ∪ SI := by
      ext q
      simp only [hBx, hBy, hSI, hSO, hIn, hOut, mem_union, mem_ofPred_eq, fluxNext]
      by_cases ha : q ∈ fluxAcc d s δ
      · simp only [ha, if_true, and_true]
        by_cases h1 : |q.1 - d| ≤ c <;> by_cases h2 : |fluxProp d s δ q - d| ≤ c <;> simp [h1, h2, not_le.mp, not_lt.mpr]
      · simp only [ha, if_false, and_false, or_false]
    have hd1 : Disjoint By SO := by
      rw [Set.disjoint_left]
      rintro q h1 ⟨⟨-, h2⟩, h3⟩
      simp only [hBy, mem_ofPred_eq, fluxNext, h3, if_true] at h1
      exact absurd h2 (not_lt.mpr h1)
    have hd2 : Disjoint Bx SI := by
      rw [Set.disjoint_left]
      rintro q h1 ⟨⟨h2, -⟩, -⟩
      exact absurd h2 (not_lt.mpr h1)
    rw [← measure_union hd1 hSOm, e, measure_union hd2 hSIm]
  have heq : fluxLaw d v SO = fluxLaw d v SI := by
    rw [hprob] at hsplit
    exact (ENNReal.add_right_inj (measure_ne_top _ _)).mp hsplit
  rw [hSO, hSI, flux_apply d s δ hδ v hv Out hOutm, flux_apply d s δ hδ v hv In hInm] at heq
  set f : ℝ × ℝ → ℝ≥0∞ := fun q => ENNReal.ofReal (gaussianPDFReal d v q.1 *
        gaussianPDFReal (propMean d s δ q.1) (2 * δ).toNNReal q.2 * min 1 (Real.exp (fluxAlpha d s δ q.1 q.2))) with hf
  have hfm : Measurable f := by
    have h1 : Measurable fun q : ℝ × ℝ => gaussianPDFReal (propMean d s δ q.1) (2 * δ).toNNReal q.2 := by
      have := (propMean_continuous d s δ).measurable
      unfold gaussianPDFReal
      fun_prop
    have h2 : Measurable fun q : ℝ × ℝ => gaussianPDFReal d v q.1 := (measurable_gaussianPDFReal d v).comp measurable_fst
    exact ENNReal.measurable_ofReal.comp ((h2.mul h1).mul (measurable_const.min (Real.measurable_exp.comp (fluxAlpha_continuous d s δ).measurable)))
  have hswap : ∫⁻ x, ∫⁻ y, Out.indicator f (x, y) = ∫⁻ q : ℝ × ℝ in In, f q.swap := by
    rw [← lintegral_indicator hInm, Measure.volume_eq_prod,
      ← lintegral_prod (fun q : ℝ × ℝ => Out.indicator f q) (hfm.indicator hOutm).aemeasurable, ← lintegral_prod_swap]
    refine lintegral_congr fun q => ?_
    by_cases hq : q ∈ In
    · rw [indicator_of_mem hq, indicator_of_mem (show q.swap ∈ Out from ⟨hq.2, hq.1⟩)]
    · rw [indicator_of_notMem hq, indicator_of_notMem (show q.swap ∉ Out from fun h => hq ⟨h.2, h.1⟩)]
  have hin : ∫⁻ x, ∫⁻ y, In.indicator f (x, y) = ∫⁻ q : ℝ × ℝ in In, f q := by
    rw [← lintegral_indicator hInm, Measure.volume_eq_prod]
    exact (lintegral_prod (fun q : ℝ × ℝ => In.indicator f q) (hfm.indicator hInm).aemeasurable).symm
  have hfin : ∫⁻ q : ℝ × ℝ in In, f q ≠ ⊤ := by
    rw [← hin, ← flux_apply d s δ hδ v hv In hInm]
    exact measure_ne_top _ _
  have hpos : (volume : Measure (ℝ × ℝ)) In ≠ 0 := by
    refine fun h0 => (isOpen_Ioi.prod isOpen_Ioo).measure_ne_zero volume (U := Ioi (d + c) ×ˢ Ioo (d - c) (d + c)) ?_ (measure_mono_null ?_ h0)
    · exact ⟨(d + c + 1, d), by simp, by constructor <;> linarith⟩
    · rintro ⟨x, y⟩ ⟨h1, h2, h3⟩
      simp only [mem_Ioi] at h1 h2 h3
      exact ⟨lt_of_lt_of_le (by linarith) (le_abs_self _), abs_le.mpr ⟨by linarith, by linarith⟩⟩
  have hstrict : ∫⁻ q : ℝ × ℝ in In, f q < ∫⁻ q : ℝ × ℝ in In, f q.swap := by
    refine setLIntegral_strict_mono hInm hpos (hfm.comp measurable_swap) hfin (Filter.Eventually.of_forall fun q hq => ?_)
    have h1 := hlt q.1 q.2 hq.1 hq.2
    refine (ENNReal.ofReal_lt_ofReal_iff (lt_of_le_of_lt ?_ h1)).mpr h1
    exact mul_nonneg (mul_nonneg (gaussianPDFReal_nonneg _ _ _) (gaussianPDFReal_nonneg _ _ _)) (le_min zero_le_one (Real.exp_pos _).le)
  rw [hswap, hin] at heq
  exact hstrict.ne heq.symm

end Pxmcmc
