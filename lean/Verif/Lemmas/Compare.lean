import Verif.Lemmas.RealForm

/-! # Two densities that differ by a bounded factor, and expectations as quotients of integrals -/

namespace Pxmcmc
open MeasureTheory ProbabilityTheory Filter
open scoped ENNReal RealInnerProductSpace Topology

/-- If `U' ≤ U ≤ U' + K`, the expectations under the densities proportional to `exp (-U')` and `exp (-U)` differ by at most
`exp K - 1` times the mean deviation. -/
theorem compare_means {X : Type*} [MeasurableSpace X] (μ : Measure X) (U U' f s : X → ℝ) (K a : ℝ)
    (hU : ∀ x, U' x ≤ U x ∧ U x ≤ U' x + K) (hm : Measurable U) (hfm : Measurable f) (hsm : Measurable s)
    (hi : Integrable (fun x => Real.exp (-U' x)) μ) (his : Integrable (fun x => s x * Real.exp (-U' x)) μ)
    (hpos : 0 < ∫ x, Real.exp (-U x) ∂μ) (hf : ∀ x, |f x - a| ≤ s x) :
    |(∫ x, f x * Real.exp (-U' x) ∂μ) / (∫ x, Real.exp (-U' x) ∂μ) - (∫ x, f x * Real.exp (-U x) ∂μ) / ∫ x, Real.exp (-U x) ∂μ| ≤
      (Real.exp K - 1) * ((∫ x, s x * Real.exp (-U x) ∂μ) / ∫ x, Real.exp (-U x) ∂μ) := by
  have hs0 : ∀ x, 0 ≤ s x := fun x => (abs_nonneg _).trans (hf x)
  have hle : ∀ x, Real.exp (-U x) ≤ Real.exp (-U' x) := fun x => Real.exp_le_exp.mpr (by linarith [(hU x).1])
  have hge : ∀ x, Real.exp (-U' x) ≤ Real.exp K * Real.exp (-U x) := fun x => by
    rw [← Real.exp_add]
    exact Real.exp_le_exp.mpr (by linarith [(hU x).2])
  have hi0 : Integrable (fun x => Real.exp (-U x)) μ :=
    hi.mono' (by fun_prop) (Eventually.of_forall fun x => by rw [Real.norm_eq_abs, abs_of_pos (Real.exp_pos _)]; exact hle x)
  have his0 : Integrable (fun x => s x * Real.exp (-U x)) μ :=
    his.mono' (by fun_prop) (Eventually.of_forall fun x => by
      rw [Real.norm_eq_abs, abs_of_nonneg (mul_nonneg (hs0 x) (Real.exp_pos _).le)]
      exact mul_le_mul_of_nonneg_left (hle x) (hs0 x))
  set Z := ∫ x, Real.exp (-U x) ∂μ with hZ
  set Z' := ∫ x, Real.exp (-U' x) ∂μ with hZ'
  have hZZ : Z ≤ Z' := integral_mono hi0 hi hle
  have hZZ' : Z' ≤ Real.exp K * Z := by
    rw [hZ, ← integral_const_mul]
    exact integral_mono hi (hi0.const_mul _) hge
  have hpos' : 0 < Z' := hpos.trans_le hZZ
  have hgm : ∀ W : X → ℝ, Integrable (fun x => Real.exp (-W x)) μ → Integrable (fun x => s x * Real.exp (-W x)) μ →
      Integrable (fun x => (f x - a) * Real.exp (-W x)) μ := by
    intro W hW hsW
    refine hsW.mono' ((hfm.sub_const a).aestronglyMeasurable.mul hW.1) (Eventually.of_forall fun x => ?_)
    rw [Real.norm_eq_abs, abs_mul, abs_of_pos (Real.exp_pos _)]
    exact mul_le_mul_of_nonneg_right (hf x) (Real.exp_pos _).le
  have hsh : ∀ W : X → ℝ, Integrable (fun x => Real.exp (-W x)) μ → Integrable (fun x => s x * Real.exp (-W x)) μ →
      0 < ∫ x, Real.exp (-W x) ∂μ → (∫ x, f x * Real.exp (-W x) ∂μ) / (∫ x, Real.exp (-W x) ∂μ) =
        a + (∫ x, (f x - a) * Real.exp (-W x) ∂μ) / ∫ x, Real.exp (-W x) ∂μ := by
    intro W hW hsW hp
    have e : ∫ x, f x * Real.exp (-W x) ∂μ = (∫ x, (f x - a) * Real.exp (-W x) ∂μ) + a * ∫ x, Real.exp (-W x) ∂μ := by
      rw [← integral_const_mul, ← integral_add (hgm W hW hsW) (hW.const_mul a)]
      exact integral_congr_ae (Eventually.of_forall fun x => by ring)
    rw [e]
    field_simp
    ring
  rw [hsh U' hi his hpos', hsh U hi0 his0 hpos, add_sub_add_left_eq_sub]
  have e : (∫ x, (f x - a) * Real.exp (-U' x) ∂μ) / Z' - (∫ x, (f x - a) * Real.exp (-U x) ∂μ) / Z =
      ∫ x, (f x - a) * (Real.exp (-U' x) / Z' - Real.exp (-U x) / Z) ∂μ := by
    rw [div_eq_mul_inv, div_eq_mul_inv, ← integral_mul_const, ← integral_mul_const,
      ← integral_sub ((hgm U' hi his).mul_const _) ((hgm U hi0 his0).mul_const _)]
    exact integral_congr_ae (Eventually.of_forall fun x => by ring)
  rw [e]
  have hK : 1 ≤ Real.exp K := by
    by_contra hlt
    rw [not_le] at hlt
    nlinarith
  have hden : ∀ x, |Real.exp (-U' x) / Z' - Real.exp (-U x) / Z| ≤ (Real.exp K - 1) * (Real.exp (-U x) / Z) := by
    intro x
    have hx := Real.exp_pos (-U x)
    have h1 : Real.exp (-U' x) / Z' ≤ Real.exp K * (Real.exp (-U x) / Z) := by
      rw [← mul_div_assoc]
      exact div_le_div₀ (by positivity) (hge x) hpos hZZ
    have h2 : (2 - Real.exp K) * (Real.exp (-U x) / Z) ≤ Real.exp (-U' x) / Z' := by
      have h3 : Real.exp (-U x) / (Real.exp K * Z) ≤ Real.exp (-U' x) / Z' :=
        div_le_div₀ (Real.exp_pos _).le (hle x) hpos' hZZ'
      refine le_trans ?_ h3
      rw [show Real.exp (-U x) / (Real.exp K * Z) = (Real.exp K)⁻¹ * (Real.exp (-U x) / Z) by
        rw [div_mul_eq_div_div, div_div, mul_comm (Real.exp K), ← div_div]; ring]
      refine mul_le_mul_of_nonneg_right ?_ (by positivity)
      rw [← one_div, le_div_iff₀ (Real.exp_pos K)]
      nlinarith [sq_nonneg (Real.exp K - 1)]
    rw [abs_le]
    constructor <;> linarith
  have hfin : (Real.exp K - 1) * ((∫ x, s x * Real.exp (-U x) ∂μ) / Z) =
      ∫ x, s x * ((Real.exp K - 1) * (Real.exp (-U x) / Z)) ∂μ := by
    rw [div_eq_mul_inv, ← integral_mul_const, ← integral_const_mul]
    exact integral_congr_ae (Eventually.of_forall fun x => by ring)
  rw [hfin]
  refine norm_integral_le_of_norm_le (f := fun x => (f x - a) * (Real.exp (-U' x) / Z' - Real.exp (-U x) / Z))
    (((his0.mul_const Z⁻¹).const_mul (Real.exp K - 1)).congr (Eventually.of_forall fun x => by ring)) (Eventually.of_forall fun x => ?_)
  rw [Real.norm_eq_abs, abs_mul]
  exact mul_le_mul (hf x) (hden x) (abs_nonneg _) (hs0 x)

/-- An expectation under the target as a quotient of integrals over the real coordinates. -/
theorem gibbs_mean {ι : Type*} [Fintype ι] (U f : EuclideanSpace ℝ ι → ℝ) :
    ∫ x, f x ∂(gibbs U) = (∫ t : ι → ℝ, f (WithLp.toLp 2 t) * Real.exp (-U (WithLp.toLp 2 t))) /
      ∫ t : ι → ℝ, Real.exp (-U (WithLp.toLp 2 t)) := by
  have hp := PiLp.volume_preserving_toLp ι
  have he : MeasurableEmbedding (@WithLp.toLp 2 (ι → ℝ)) := (MeasurableEquiv.toLp 2 (ι → ℝ)).measurableEmbedding
  rw [hp.integral_comp he (fun x => f x * Real.exp (-U x)), hp.integral_comp he (fun x => Real.exp (-U x))]
  unfold gibbs
  rw [integral_tilted, div_eq_mul_inv, ← integral_mul_const]
  exact integral_congr_ae (Eventually.of_forall fun x => by simp only [smul_eq_mul]; ring)

end Pxmcmc
