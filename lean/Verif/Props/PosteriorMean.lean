import Verif.Props.PosteriorBias

/-! # The posterior expectations of C120 exist -/

namespace Pxmcmc
open MeasureTheory
variable {n p : ℕ}

theorem gauss_integrable {ι : Type} [Fintype ι] (a : ℝ) (ha : 0 < a) : Integrable fun t : ι → ℝ => Real.exp (-a * ∑ i, t i ^ 2) := by
  have h := Integrable.fintype_prod (f := fun _ : ι => fun x : ℝ => Real.exp (-a * x ^ 2)) (μ := fun _ => volume)
    fun _ => integrable_exp_neg_mul_sq ha
  refine h.congr (Filter.Eventually.of_forall fun t => ?_)
  show ∏ i, Real.exp (-a * t i ^ 2) = Real.exp (-a * ∑ i, t i ^ 2)
  rw [← Real.exp_sum, Finset.mul_sum]

theorem misfit_half (σ : Fin n → ℝ) (d y : Fin n → ℂ) : misfit σ 0 y / 2 - misfit σ 0 d ≤ misfit σ d y := by
  unfold misfit
  rw [Finset.sum_div, ← Finset.sum_sub_distrib]
  refine Finset.sum_le_sum fun i _ => ?_
  have h0 : 0 ≤ σ i ^ 2 := sq_nonneg _
  have h1 : ‖y i‖ ≤ ‖d i - y i‖ + ‖d i‖ := by
    have := norm_sub_le (d i) (d i - y i)
    rw [sub_sub_cancel] at this
    linarith
  have h2 : ‖y i‖ ^ 2 / 2 - ‖d i‖ ^ 2 ≤ ‖d i - y i‖ ^ 2 := by
    have := pow_le_pow_left₀ (norm_nonneg _) h1 2
    nlinarith [sq_nonneg (‖d i - y i‖ - ‖d i‖)]
  have h3 := div_le_div_of_nonneg_right h2 h0
  simp only [Pi.zero_apply, zero_sub, norm_neg]
  rw [sub_div] at h3
  refine le_trans (le_of_eq ?_) h3
  ring

theorem posterior_integrable {ι : Type} [Fintype ι] (e : (ι → ℝ) → Fin p → ℂ) (hec : Continuous e)
    (he : ∀ t, Spec.distSq (e t) 0 = ∑ i, t i ^ 2) (σ : Fin n → ℝ) (d : Fin n → ℂ) (A : (Fin p → ℂ) →ₗ[ℂ] (Fin n → ℂ)) (c : ℝ) (hc : 0 < c)
    (hlow : ∀ v, c * Spec.distSq v 0 ≤ misfit σ 0 (A v)) (pri : (Fin p → ℂ) → ℝ) (ell : ℝ)
    (hlip : ∀ x y, |pri x - pri y| ≤ ell * √(Spec.distSq x y)) (mu : ℝ) (hmu : 0 ≤ mu) (q : (Fin p → ℂ) → ℝ) (L : ℝ)
    (hq : ∀ x y, |q x - q y| ≤ L * √(Spec.distSq x y)) :
    Integrable fun t => q (e t) * Real.exp (-negLogPost σ d A pri mu (e t)) := by
  have hqc : Continuous q := lip_continuous q L hq
  have hpc : Continuous pri := lip_continuous pri ell hlip
  have hUc : Continuous fun t => negLogPost σ d A pri mu (e t) := by
    unfold negLogPost
    exact (((misfit_continuous σ d A).comp hec).div_const 2).add ((hpc.comp hec).const_mul mu)
  set K := misfit σ 0 d / 2 - mu * pri 0 + 2 * (mu * ell) ^ 2 / c with hK
  set C := |q 0| + |L| * (1 + 16 / c) with hC
  have hbound : ∀ t, ‖q (e t) * Real.exp (-negLogPost σ d A pri mu (e t))‖ ≤ C * Real.exp K * Real.exp (-(c / 16) * ∑ i, t i ^ 2) := by
    intro t
    rw [← he t]
    set s := Spec.distSq (e t) 0 with hs
    have hs0 : 0 ≤ s := Finset.sum_nonneg fun i _ => sq_nonneg _
    have hsq := Real.sq_sqrt hs0
    have hr0 := Real.sqrt_nonneg s
    have hU : c / 8 * s - K ≤ negLogPost σ d A pri mu (e t) := by
      have h1 := misfit_half σ d (A (e t))
      have h2 := hlow (e t)
      have h3 := mul_le_mul_of_nonneg_left (abs_le.mp (hlip (e t) 0)).1 hmu
      have h4 : mu * ell * √s ≤ c / 8 * s + 2 * (mu * ell) ^ 2 / c := by
        have h5 : 0 ≤ (c * √s - 4 * (mu * ell)) ^ 2 / (8 * c) := by positivity
        have h6 : (c * √s - 4 * (mu * ell)) ^ 2 / (8 * c) = c / 8 * √s ^ 2 + 2 * (mu * ell) ^ 2 / c - mu * ell * √s := by
          field_simp
          ring
        rw [hsq] at h6
        linarith
      unfold negLogPost
      rw [← hs] at h2 h3
      have h7 : mu * -(ell * √s) = -(mu * ell * √s) := by ring
      rw [h7, mul_sub] at h3
      rw [hK]
      linarith
    have hqs : |q (e t)| ≤ C * Real.exp (c / 16 * s) := by
      have h1 := hq (e t) 0
      have h2 := abs_sub_abs_le_abs_sub (q (e t)) (q 0)
      have h3 : √s ≤ 1 + s := by nlinarith [sq_nonneg (√s - 1)]
      have h4 : c / 16 * s ≤ Real.exp (c / 16 * s) := by linarith [Real.add_one_le_exp (c / 16 * s)]
      have h5 : 1 ≤ Real.exp (c / 16 * s) := Real.one_le_exp (by positivity)
      have h6 : s ≤ 16 / c * Real.exp (c / 16 * s) := by
        have := mul_le_mul_of_nonneg_left h4 (show 0 ≤ 16 / c by positivity)
        refine le_trans (le_of_eq ?_) this
        field_simp
      have h7 : L * √s ≤ |L| * ((1 + 16 / c) * Real.exp (c / 16 * s)) :=
        (mul_le_mul_of_nonneg_right (le_abs_self L) hr0).trans (mul_le_mul_of_nonneg_left (by linarith) (abs_nonneg L))
      have h8 := mul_le_mul_of_nonneg_left h5 (abs_nonneg (q 0))
      rw [← hs] at h1
      rw [hC, add_mul, mul_assoc]
      linarith
    rw [norm_mul, Real.norm_eq_abs, Real.norm_eq_abs, abs_of_pos (Real.exp_pos _)]
    have h9 : Real.exp (-negLogPost σ d A pri mu (e t)) ≤ Real.exp (K - c / 8 * s) := Real.exp_le_exp.mpr (by linarith)
    refine (mul_le_mul hqs h9 (Real.exp_pos _).le (by positivity)).trans (le_of_eq ?_)
    rw [mul_assoc, mul_assoc, ← Real.exp_add, ← Real.exp_add]
    congr 2
    ring
  exact ((gauss_integrable (c / 16) (by positivity)).const_mul _).mono' (Continuous.aestronglyMeasurable (by fun_prop))
    (Filter.Eventually.of_forall hbound)

/-- C120, the posterior expectation exists: with real parameters which the data determine and a Lipschitz prior, the posterior density of
the reference value in `C120_real` and `C120_denoising` can be normalised, and every Lipschitz quantity is integrable against it. -/
theorem C120_mean_real (σ : Fin n → ℝ) (d : Fin n → ℂ) (A : (Fin p → ℂ) →ₗ[ℂ] (Fin n → ℂ)) (c : ℝ) (hc : 0 < c)
    (hlow : ∀ v, c * Spec.distSq v 0 ≤ misfit σ 0 (A v)) (pri : (Fin p → ℂ) → ℝ) (ell : ℝ)
    (hlip : ∀ x y, |pri x - pri y| ≤ ell * √(Spec.distSq x y)) (mu : ℝ) (hmu : 0 ≤ mu) (q : (Fin p → ℂ) → ℝ) (L : ℝ)
    (hq : ∀ x y, |q x - q y| ≤ L * √(Spec.distSq x y)) :
    (Integrable fun t : Fin p → ℝ => Real.exp (-negLogPost σ d A pri mu (realVec t))) ∧
    0 < ∫ t : Fin p → ℝ, Real.exp (-negLogPost σ d A pri mu (realVec t)) ∧
    Integrable fun t : Fin p → ℝ => q (realVec t) * Real.exp (-negLogPost σ d A pri mu (realVec t)) := by
  have hcont : Continuous (realVec : (Fin p → ℝ) → Fin p → ℂ) := by unfold realVec; fun_prop
  have he : ∀ t : Fin p → ℝ, Spec.distSq (realVec t) 0 = ∑ i, t i ^ 2 := fun t =>
    Finset.sum_congr rfl fun i _ => by simp [realVec]
  have h1 := posterior_integrable realVec hcont he σ d A c hc hlow pri ell hlip mu hmu (fun _ => 1) 0 (by simp)
  simp only [one_mul] at h1
  exact ⟨h1, integral_exp_pos h1, posterior_integrable realVec hcont he σ d A c hc hlow pri ell hlip mu hmu q L hq⟩

/-- C120, the same with complex parameters (`C120_complex`). -/
theorem C120_mean_complex (σ : Fin n → ℝ) (d : Fin n → ℂ) (A : (Fin p → ℂ) →ₗ[ℂ] (Fin n → ℂ)) (c : ℝ) (hc : 0 < c)
    (hlow : ∀ v, c * Spec.distSq v 0 ≤ misfit σ 0 (A v)) (pri : (Fin p → ℂ) → ℝ) (ell : ℝ)
    (hlip : ∀ x y, |pri x - pri y| ≤ ell * √(Spec.distSq x y)) (mu : ℝ) (hmu : 0 ≤ mu) (q : (Fin p → ℂ) → ℝ) (L : ℝ)
    (hq : ∀ x y, |q x - q y| ≤ L * √(Spec.distSq x y)) :
    (Integrable fun t : Fin p ⊕ Fin p → ℝ => Real.exp (-negLogPost σ d A pri mu (cplxVec t))) ∧
    0 < ∫ t : Fin p ⊕ Fin p → ℝ, Real.exp (-negLogPost σ d A pri mu (cplxVec t)) ∧
    Integrable fun t : Fin p ⊕ Fin p → ℝ => q (cplxVec t) * Real.exp (-negLogPost σ d A pri mu (cplxVec t)) := by
  have hcont : Continuous (cplxVec : (Fin p ⊕ Fin p → ℝ) → Fin p → ℂ) := realForm_cplx.cont.comp (PiLp.continuous_toLp 2 _)
  have he : ∀ t : Fin p ⊕ Fin p → ℝ, Spec.distSq (cplxVec t) 0 = ∑ i, t i ^ 2 := fun t => by
    rw [Fintype.sum_sum_type, ← Finset.sum_add_distrib]
    refine Finset.sum_congr rfl fun i _ => ?_
    rw [Pi.zero_apply, sub_zero, Complex.sq_norm, Complex.normSq_apply]
    simp only [cplxVec]
    ring
  have h1 := posterior_integrable cplxVec hcont he σ d A c hc hlow pri ell hlip mu hmu (fun _ => 1) 0 (by simp)
  simp only [one_mul] at h1
  exact ⟨h1, integral_exp_pos h1, posterior_integrable cplxVec hcont he σ d A c hc hlow pri ell hlip mu hmu q L hq⟩

/-- The hypotheses are met by two pixels seen directly, the L1 norm of one of them as prior and the value of the other as quantity. -/
example : ∃ (σ : Fin 2 → ℝ) (A : (Fin 2 → ℂ) →ₗ[ℂ] (Fin 2 → ℂ)) (c : ℝ) (pri q : (Fin 2 → ℂ) → ℝ), 0 < c ∧
    (∀ v, c * Spec.distSq v 0 ≤ misfit σ 0 (A v)) ∧ (∀ x y, |pri x - pri y| ≤ 1 * √(Spec.distSq x y)) ∧
    (∀ x y, |q x - q y| ≤ 1 * √(Spec.distSq x y)) ∧ pri ![3, 4] = 3 ∧ q ![3, 4] = 4 := by
  have hn : ∀ (x y : Fin 2 → ℂ) (i : Fin 2), ‖x i - y i‖ ≤ √(Spec.distSq x y) := fun x y i =>
    Real.le_sqrt_of_sq_le (Finset.single_le_sum (f := fun i => ‖x i - y i‖ ^ 2) (fun _ _ => sq_nonneg _) (Finset.mem_univ i))
  refine ⟨fun _ => 2, LinearMap.id, 1 / 4, fun x => ‖x 0‖, fun x => (x 1).re, by norm_num, fun v => le_of_eq ?_, fun x y => ?_, fun x y => ?_,
    by simp, by simp⟩
  · unfold misfit Spec.distSq
    rw [Finset.mul_sum]
    refine Finset.sum_congr rfl fun i _ => ?_
    rw [LinearMap.id_apply, Pi.zero_apply, zero_sub, norm_neg, sub_zero]
    ring
  · rw [one_mul]
    exact (abs_norm_sub_norm_le _ _).trans (hn x y 0)
  · rw [one_mul, ← Complex.sub_re]
    exact (Complex.abs_re_le_norm _).trans (hn x y 1)

end Pxmcmc
