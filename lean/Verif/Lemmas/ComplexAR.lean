import Mathlib.Probability.Independence.Integration
import Mathlib.MeasureTheory.Function.L2Space
import Mathlib.MeasureTheory.Integral.Pi
import Mathlib.Analysis.Complex.Basic
import Mathlib.Tactic.Ring
import Mathlib.Tactic.Linarith

/-! # First and second moments of complex autoregressions driven by independent noise -/

namespace Pxmcmc
open MeasureTheory ProbabilityTheory Filter
open scoped Topology ComplexConjugate

theorem norm_sq_add (a b : ℂ) : ‖a + b‖ ^ 2 = ‖a‖ ^ 2 + ‖b‖ ^ 2 + 2 * (a * conj b).re := by
  rw [← Complex.normSq_eq_norm_sq, ← Complex.normSq_eq_norm_sq, ← Complex.normSq_eq_norm_sq, Complex.normSq_add]

/-- `y_{k+1} = a y_k + s w_k` with independent centred noise of second moment `v`. -/
theorem ar_moments {Ω : Type} [MeasurableSpace Ω] (P : Measure Ω) [IsProbabilityMeasure P] (W : ℕ → Ω → ℂ)
    (hind : ∀ j k, j ≠ k → IndepFun (W j) (W k) P) (h2 : ∀ k, MemLp (W k) 2 P) (h0 : ∀ k, ∫ ω, W k ω ∂P = 0) (v : ℝ)
    (hv : ∀ k, ∫ ω, ‖W k ω‖ ^ 2 ∂P = v) (a s y0 : ℂ) (y : ℕ → Ω → ℂ) (hy0 : ∀ ω, y 0 ω = y0)
    (hy : ∀ k ω, y (k + 1) ω = a * y k ω + s * W k ω) (k : ℕ) :
    MemLp (y k) 2 P ∧ ∫ ω, y k ω ∂P = a ^ k * y0 ∧
      ∫ ω, ‖y k ω‖ ^ 2 ∂P = (‖a‖ ^ 2) ^ k * ‖y0‖ ^ 2 + ‖s‖ ^ 2 * v * ∑ j ∈ Finset.range k, (‖a‖ ^ 2) ^ j := by
  have hconj : ∀ k, ∫ ω, conj (W k ω) ∂P = 0 := by
    intro k
    rw [integral_conj, h0 k, map_zero]
  have h2c : ∀ k, MemLp (fun ω => conj (W k ω)) 2 P := by
    intro k
    refine (h2 k).of_le (Complex.continuous_conj.comp_aestronglyMeasurable (h2 k).1) (Eventually.of_forall fun ω => ?_)
    exact le_of_eq (Complex.norm_conj _)
  have hmem : ∀ k, MemLp (y k) 2 P := by
    intro k
    induction k with
    | zero =>
      rw [show y 0 = fun _ => y0 from funext hy0]
      exact memLp_const _
    | succ k ih =>
      rw [show y (k + 1) = fun ω => a * y k ω + s * W k ω from funext (hy k)]
      exact (ih.const_mul a).add ((h2 k).const_mul s)
  have hint : ∀ k, Integrable (y k) P := fun k => (hmem k).integrable (by norm_num)
  have hintW : ∀ k, Integrable (W k) P := fun k => (h2 k).integrable (by norm_num)
  have hprod : ∀ k m, Integrable (fun ω => y k ω * conj (W m ω)) P := fun k m => (hmem k).integrable_mul (h2c m)
  have hprodW : ∀ k m, Integrable (fun ω => W k ω * conj (W m ω)) P := fun k m => (h2 k).integrable_mul (h2c m)
  have horth : ∀ k m, k ≤ m → ∫ ω, y k ω * conj (W m ω) ∂P = 0 := by
    intro k
    induction k with
    | zero =>
      intro m _
      simp only [hy0]
      rw [integral_const_mul, hconj, mul_zero]
    | succ k ih =>
      intro m hm
      have e : (fun ω => y (k + 1) ω * conj (W m ω)) =
          fun ω => a * (y k ω * conj (W m ω)) + s * (W k ω * conj (W m ω)) := by
        funext ω
        rw [hy]
        ring
      rw [e, integral_add ((hprod k m).const_mul a) ((hprodW k m).const_mul s), integral_const_mul, integral_const_mul,
        ih m (by omega)]
      have hI : ∫ ω, W k ω * conj (W m ω) ∂P = (∫ ω, W k ω ∂P) * ∫ ω, conj (W m ω) ∂P := by
        have := (hind k m (by omega)).integral_fun_comp_mul_comp (f := fun z : ℂ => z) (g := fun z : ℂ => conj z)
          (h2 k).1.aemeasurable (h2 m).1.aemeasurable (by fun_prop) (by fun_prop)
        exact this
      rw [hI, h0 k]
      simp
  refine ⟨hmem k, ?_, ?_⟩
  · induction k with
    | zero => simp [hy0]
    | succ k ih =>
      simp only [hy]
      rw [integral_add ((hint k).const_mul a) ((hintW k).const_mul s), integral_const_mul, integral_const_mul, ih, h0 k, pow_succ]
      ring
  · induction k with
    | zero => simp [hy0]
    | succ k ih =>
      have e : (fun ω => ‖y (k + 1) ω‖ ^ 2) = fun ω => ‖a‖ ^ 2 * ‖y k ω‖ ^ 2 + ‖s‖ ^ 2 * ‖W k ω‖ ^ 2 +
          (2 * (a * conj s) * (y k ω * conj (W k ω))).re := by
        funext ω
        rw [hy, norm_sq_add, norm_mul, norm_mul, mul_pow, mul_pow, map_mul,
          show 2 * (a * conj s) * (y k ω * conj (W k ω)) = ((2 : ℝ) : ℂ) * (a * y k ω * (conj s * conj (W k ω))) by push_cast; ring,
          Complex.re_ofReal_mul]
      have i1 : Integrable (fun ω => ‖y k ω‖ ^ 2) P := (hmem k).integrable_norm_pow (by norm_num)
      have i2 : Integrable (fun ω => ‖W k ω‖ ^ 2) P := (h2 k).integrable_norm_pow (by norm_num)
      have i3 : Integrable (fun ω => 2 * (a * conj s) * (y k ω * conj (W k ω))) P := (hprod k k).const_mul _
      have i4 : ∫ ω, (2 * (a * conj s) * (y k ω * conj (W k ω))).re ∂P = 0 := by
        have h1 : ∫ ω, (2 * (a * conj s) * (y k ω * conj (W k ω))).re ∂P =
            (∫ ω, 2 * (a * conj s) * (y k ω * conj (W k ω)) ∂P).re := integral_re i3
        rw [h1, integral_const_mul, horth k k le_rfl]
        simp
      have i5 : Integrable (fun ω => ‖a‖ ^ 2 * ‖y k ω‖ ^ 2 + ‖s‖ ^ 2 * ‖W k ω‖ ^ 2) P := (i1.const_mul _).add (i2.const_mul _)
      have i6 : Integrable (fun ω => (2 * (a * conj s) * (y k ω * conj (W k ω))).re) P := i3.re
      rw [e, integral_add i5 i6, integral_add (i1.const_mul _) (i2.const_mul _), integral_const_mul, integral_const_mul, ih, hv k, i4, Finset.sum_range_succ']
      simp only [pow_succ, pow_zero, ← Finset.sum_mul, one_mul]
      ring

end Pxmcmc
