import Verif.Lemmas.Bias

/-! # The bias of a discretised Langevin chain -/

namespace Pxmcmc
open MeasureTheory ProbabilityTheory Filter
open scoped ENNReal RealInnerProductSpace Topology

variable {V : Type*} [NormedAddCommGroup V] [InnerProductSpace ℝ V] [FiniteDimensional ℝ V] [MeasurableSpace V] [BorelSpace V]

/-- The law with density proportional to `exp (-U)`. -/
noncomputable def gibbs (U : V → ℝ) : Measure V := (volume : Measure V).tilted fun x => -U x

namespace Potential
variable {U : V → ℝ} {G : V → V} {c L : ℝ}

omit [FiniteDimensional ℝ V] [MeasurableSpace V] [BorelSpace V] in
theorem tail (h : Potential U G c L) (k : ℕ) (x : V) :
    (1 + ‖x‖) ^ k * Real.exp (-U x) ≤ Real.exp ((‖G 0‖ + k) ^ 2 / c - U 0) * Real.exp (-(c / 4) * ‖x‖ ^ 2) := by
  have h1 : (1 + ‖x‖) ^ k ≤ Real.exp (k * ‖x‖) := by
    rw [Real.exp_nat_mul]
    refine pow_le_pow_left₀ (by positivity) ?_ k
    linarith [Real.add_one_le_exp ‖x‖]
  have h2 := h.lower 0 x
  rw [sub_zero] at h2
  have h3 : -(‖G 0‖ * ‖x‖) ≤ ⟪G 0, x⟫ := by
    have := abs_real_inner_le_norm (G 0) x
    linarith [neg_abs_le ⟪G 0, x⟫]
  have h4 : (‖G 0‖ + k) * ‖x‖ ≤ c / 4 * ‖x‖ ^ 2 + (‖G 0‖ + k) ^ 2 / c := by
    have hc := h.pos
    have : c / 4 * ‖x‖ ^ 2 + (‖G 0‖ + k) ^ 2 / c - (‖G 0‖ + k) * ‖x‖ = (c / 2 * ‖x‖ - (‖G 0‖ + k)) ^ 2 / c := by
      field_simp
      ring
    have h5 : 0 ≤ (c / 2 * ‖x‖ - (‖G 0‖ + k)) ^ 2 / c := by positivity
    linarith
  calc (1 + ‖x‖) ^ k * Real.exp (-U x) ≤ Real.exp (k * ‖x‖) * Real.exp (-U x) :=
        mul_le_mul_of_nonneg_right h1 (Real.exp_pos _).le
    _ = Real.exp (k * ‖x‖ - U x) := by rw [← Real.exp_add]; rfl
    _ ≤ Real.exp ((‖G 0‖ + k) ^ 2 / c - U 0 + -(c / 4) * ‖x‖ ^ 2) := by
      refine Real.exp_le_exp.mpr ?_
      nlinarith
    _ = _ := Real.exp_add _ _

theorem integrable_pow (h : Potential U G c L) (k : ℕ) : Integrable fun x => (1 + ‖x‖) ^ k * Real.exp (-U x) := by
  have hc := h.pos
  have hU := h.contU
  refine ((integrable_exp_neg_sq (V := V) (c / 4) (by positivity)).const_mul (Real.exp ((‖G 0‖ + k) ^ 2 / c - U 0))).mono'
    (Continuous.aestronglyMeasurable (by fun_prop)) (Eventually.of_forall fun x => ?_)
  rw [Real.norm_eq_abs, abs_of_nonneg (by positivity)]
  exact h.tail k x

theorem integrable_exp (h : Potential U G c L) : Integrable fun x => Real.exp (-U x) := by
  simpa using h.integrable_pow 0

theorem isProb (h : Potential U G c L) : IsProbabilityMeasure (gibbs U) := isProbabilityMeasure_tilted h.integrable_exp

/-- All moments of the target are finite. -/
theorem moment (h : Potential U G c L) (k : ℕ) : Integrable (fun x => (1 + ‖x‖) ^ k) (gibbs U) := by
  unfold gibbs
  rw [integrable_tilted_iff h.integrable_exp]
  refine (h.integrable_pow k).congr (Eventually.of_forall fun x => ?_)
  simp [mul_comm]

omit [FiniteDimensional ℝ V] [MeasurableSpace V] [BorelSpace V] in
/-- The gradient grows at most linearly. -/
theorem grad_le (h : Potential U G c L) (x : V) : ‖G x‖ ≤ (‖G 0‖ + L) * (1 + ‖x‖) := by
  have hL : 0 < L := h.pos.trans_le h.le
  have h1 := h.lip x 0
  rw [sub_zero] at h1
  have h2 : ‖G x‖ ≤ ‖G x - G 0‖ + ‖G 0‖ := by
    have := norm_add_le (G x - G 0) (G 0)
    rwa [sub_add_cancel] at this
  nlinarith [norm_nonneg x, norm_nonneg (G 0), mul_nonneg (norm_nonneg x) (norm_nonneg (G 0))]

end Potential

omit [FiniteDimensional ℝ V] [MeasurableSpace V] [BorelSpace V] in
/-- The parabola: its target is the standard Gaussian. -/
theorem parabola : Potential (fun x : V => ‖x‖ ^ 2 / 2) (fun x => x) 1 1 := by
  have e : ∀ x y : V, ‖x‖ ^ 2 / 2 + ⟪x, y - x⟫ + 1 / 2 * ‖y - x‖ ^ 2 = ‖y‖ ^ 2 / 2 := by
    intro x y
    rw [norm_sub_sq_real, inner_sub_right, real_inner_self_eq_norm_sq, real_inner_comm]
    ring
  exact ⟨one_pos, le_rfl, fun x y => (e x y).le, fun x y => (e x y).ge⟩

theorem stdGaussian_gibbs : stdGaussian V = gibbs fun x : V => ‖x‖ ^ 2 / 2 := by
  have h := stdGaussian_affine (0 : V) 1 one_pos
  simp only [zero_add, one_smul, Measure.map_id'] at h
  rw [h]
  unfold gibbs
  congr 1
  funext x
  rw [sub_zero]
  ring

theorem stdGaussian_moment (k : ℕ) : Integrable (fun x => (1 + ‖x‖) ^ k) (stdGaussian V) := by
  rw [stdGaussian_gibbs]
  exact parabola.moment k

/-- One step of the chain. -/
noncomputable def langevin (δ : ℝ) (G : V → V) (x w : V) : V := (x - δ • G x) + √(2 * δ) • w

/-- The density of a pair of successive states, the first drawn from the target. -/
noncomputable def pairDens (U : V → ℝ) (G : V → V) (δ : ℝ) (q : V × V) : ℝ :=
  Real.exp (-U q.1) / (∫ x, Real.exp (-U x)) *
    (Real.exp (-(1 / (4 * δ)) * ‖q.2 - (q.1 - δ • G q.1)‖ ^ 2) / ∫ y : V, Real.exp (-(1 / (4 * δ)) * ‖y‖ ^ 2))

variable {U : V → ℝ} {G : V → V} {c L : ℝ}

theorem pairDens_pos (h : Potential U G c L) (δ : ℝ) (hδ : 0 < δ) (q : V × V) : 0 < pairDens U G δ q := by
  have h1 := integral_exp_pos h.integrable_exp
  have h2 := integral_gauss_pos (V := V) (1 / (4 * δ)) (by positivity)
  unfold pairDens
  exact mul_pos (div_pos (Real.exp_pos _) h1) (div_pos (Real.exp_pos _) h2)

theorem pairDens_cont (h : Potential U G c L) (δ : ℝ) : Continuous (pairDens U G δ) := by
  have := h.contU
  have := h.contG
  unfold pairDens
  fun_prop

theorem pair_law (h : Potential U G c L) (δ : ℝ) (hδ : 0 < δ) :
    ((gibbs U).prod (stdGaussian V)).map (fun q => (q.1, langevin δ G q.1 q.2)) =
      ((volume : Measure V).prod volume).withDensity fun q => ENNReal.ofReal (pairDens U G δ q) := by
  have hG := h.contG
  have hU := h.contU
  have := h.isProb
  have hm : Measurable fun q : V × V => (q.1, langevin δ G q.1 q.2) := by
    unfold langevin
    exact Continuous.measurable (by fun_prop)
  have hdm : Measurable fun q => ENNReal.ofReal (pairDens U G δ q) := (pairDens_cont h δ).measurable.ennreal_ofReal
  refine Measure.ext fun S hS => ?_
  rw [Measure.map_apply hm hS, Measure.prod_apply (hm hS), withDensity_apply _ hS, ← lintegral_indicator hS,
    lintegral_prod _ ((hdm.indicator hS).aemeasurable)]
  unfold gibbs
  rw [lintegral_tilted]
  refine lintegral_congr fun x => ?_
  have hSx : MeasurableSet (Prod.mk x ⁻¹' S) := measurable_prodMk_left hS
  have hmx : Measurable fun w : V => (x - δ • G x) + √(2 * δ) • w := by fun_prop
  have e1 : Prod.mk x ⁻¹' ((fun q : V × V => (q.1, langevin δ G q.1 q.2)) ⁻¹' S) =
      (fun w : V => (x - δ • G x) + √(2 * δ) • w) ⁻¹' (Prod.mk x ⁻¹' S) := rfl
  have e2 : 1 / (2 * √(2 * δ) ^ 2) = 1 / (4 * δ) := by
    rw [Real.sq_sqrt (by positivity)]
    ring
  rw [e1, ← Measure.map_apply hmx hSx, stdGaussian_affine _ _ (Real.sqrt_pos.mpr (by positivity)), e2,
    tilted_apply' _ _ hSx, integral_exp_shift, ← lintegral_indicator hSx,
    ← lintegral_const_mul _ (Measurable.indicator (by fun_prop) hSx)]
  refine lintegral_congr fun y => ?_
  by_cases hy : (x, y) ∈ S
  · have hy' : y ∈ Prod.mk x ⁻¹' S := hy
    rw [Set.indicator_of_mem hy, Set.indicator_of_mem hy', ← ENNReal.ofReal_mul (by positivity)]
    rfl
  · have hy' : y ∉ Prod.mk x ⁻¹' S := hy
    rw [Set.indicator_of_notMem hy, Set.indicator_of_notMem hy', mul_zero]

/-- The imbalance of the flux between two points. -/
theorem flux_log (h : Potential U G c L) (δ : ℝ) (hδ : 0 < δ) (q : V × V) (hZ : 0 < ∫ x, Real.exp (-U x))
    (hZ' : 0 < ∫ y : V, Real.exp (-(1 / (4 * δ)) * ‖y‖ ^ 2)) :
    Real.log (pairDens U G δ q) - Real.log (pairDens U G δ q.swap) ≤
      L / 4 * ‖q.2 - q.1‖ ^ 2 + δ / 4 * (L * ‖q.2 - q.1‖ * (2 * ‖G q.1‖ + L * ‖q.2 - q.1‖)) := by
  obtain ⟨x, y⟩ := q
  have hL : 0 < L := h.pos.trans_le h.le
  have e : ∀ x y : V, Real.log (pairDens U G δ (x, y)) = -U x - Real.log (∫ x, Real.exp (-U x)) -
      1 / (4 * δ) * ‖y - (x - δ • G x)‖ ^ 2 - Real.log (∫ y : V, Real.exp (-(1 / (4 * δ)) * ‖y‖ ^ 2)) := by
    intro x y
    unfold pairDens
    rw [Real.log_mul (div_pos (Real.exp_pos _) hZ).ne' (div_pos (Real.exp_pos _) hZ').ne', Real.log_div (Real.exp_pos _).ne' hZ.ne',
      Real.log_div (Real.exp_pos _).ne' hZ'.ne', Real.log_exp, Real.log_exp]
    ring
  rw [Prod.swap_prod_mk, e, e]
  have n1 : ‖y - (x - δ • G x)‖ ^ 2 = ‖y - x‖ ^ 2 + 2 * δ * ⟪G x, y - x⟫ + δ ^ 2 * ‖G x‖ ^ 2 := by
    rw [show y - (x - δ • G x) = (y - x) + δ • G x by abel, norm_add_sq_real, norm_smul, real_inner_smul_right, Real.norm_eq_abs,
      abs_of_pos hδ, mul_pow, real_inner_comm]
    ring
  have n2 : ‖x - (y - δ • G y)‖ ^ 2 = ‖y - x‖ ^ 2 - 2 * δ * ⟪G y, y - x⟫ + δ ^ 2 * ‖G y‖ ^ 2 := by
    rw [show x - (y - δ • G y) = δ • G y - (y - x) by abel, norm_sub_sq_real, norm_smul, real_inner_smul_left, Real.norm_eq_abs,
      abs_of_pos hδ, mul_pow]
    ring
  have h1 := h.upper x y
  have h2 := h.convex y x
  rw [← neg_sub y x, inner_neg_right] at h2
  have h3 : ‖G y‖ ^ 2 - ‖G x‖ ^ 2 ≤ L * ‖y - x‖ * (2 * ‖G x‖ + L * ‖y - x‖) := by
    have k1 := h.lip y x
    have k2 : ‖G y‖ ≤ ‖G x‖ + ‖G y - G x‖ := by
      have := norm_add_le (G x) (G y - G x)
      rwa [add_sub_cancel] at this
    nlinarith [norm_nonneg (G y), norm_nonneg (G x), norm_nonneg (G y - G x), mul_nonneg hL.le (norm_nonneg (y - x))]
  rw [n1, n2]
  have e3 : -U x - Real.log (∫ x, Real.exp (-U x)) - 1 / (4 * δ) * (‖y - x‖ ^ 2 + 2 * δ * ⟪G x, y - x⟫ + δ ^ 2 * ‖G x‖ ^ 2) -
      Real.log (∫ y : V, Real.exp (-(1 / (4 * δ)) * ‖y‖ ^ 2)) -
      (-U y - Real.log (∫ x, Real.exp (-U x)) - 1 / (4 * δ) * (‖y - x‖ ^ 2 - 2 * δ * ⟪G y, y - x⟫ + δ ^ 2 * ‖G y‖ ^ 2) -
      Real.log (∫ y : V, Real.exp (-(1 / (4 * δ)) * ‖y‖ ^ 2))) =
      (U y - U x - ⟪G x, y - x⟫ / 2 - ⟪G y, y - x⟫ / 2) + δ / 4 * (‖G y‖ ^ 2 - ‖G x‖ ^ 2) := by
    field_simp
    ring
  rw [e3]
  have h4 := mul_le_mul_of_nonneg_left h3 (by positivity : 0 ≤ δ / 4)
  show _ ≤ L / 4 * ‖y - x‖ ^ 2 + δ / 4 * (L * ‖y - x‖ * (2 * ‖G x‖ + L * ‖y - x‖))
  linarith

/-- The size of a step, up to the factor `√δ`. -/
noncomputable def stepSize (G : V → V) (L : ℝ) (q : V × V) : ℝ := √(2 / L) * ‖G q.1‖ + √2 * ‖q.2‖

/-- The constant of the bias bound. -/
noncomputable def biasConst (U : V → ℝ) (G : V → V) (c L : ℝ) : ℝ :=
  5 * L / (4 * c) * ∫ q, stepSize G L q ^ 3 ∂((gibbs U).prod (stdGaussian V))

theorem stepSize_moment (h : Potential U G c L) (k : ℕ) :
    Integrable (fun q => stepSize G L q ^ k) ((gibbs U).prod (stdGaussian V)) := by
  have := h.isProb
  have hG := h.contG
  have hi := (h.moment k).mul_prod (stdGaussian_moment (V := V) k)
  have hL : 0 < L := h.pos.trans_le h.le
  set K := √(2 / L) * (‖G 0‖ + L) + √2 with hK
  refine (hi.const_mul (K ^ k)).mono' (Continuous.aestronglyMeasurable (by unfold stepSize; fun_prop)) (Eventually.of_forall fun q => ?_)
  have h0 : 0 ≤ stepSize G L q := by unfold stepSize; positivity
  rw [Real.norm_eq_abs, abs_of_nonneg (pow_nonneg h0 k), ← mul_pow, ← mul_pow]
  refine pow_le_pow_left₀ h0 ?_ k
  have h1 : √(2 / L) * ‖G q.1‖ ≤ √(2 / L) * ((‖G 0‖ + L) * (1 + ‖q.1‖)) := mul_le_mul_of_nonneg_left (h.grad_le q.1) (Real.sqrt_nonneg _)
  have h2 : 0 ≤ √(2 / L) * (‖G 0‖ + L) := by positivity
  have h3 : 0 ≤ √2 := Real.sqrt_nonneg 2
  have n1 := norm_nonneg q.1
  have n2 := norm_nonneg q.2
  have n3 := mul_nonneg n1 n2
  have e : K * ((1 + ‖q.1‖) * (1 + ‖q.2‖)) - (√(2 / L) * ((‖G 0‖ + L) * (1 + ‖q.1‖)) + √2 * ‖q.2‖) =
      √(2 / L) * (‖G 0‖ + L) * (‖q.2‖ + ‖q.1‖ * ‖q.2‖) + √2 * (1 + ‖q.1‖ + ‖q.1‖ * ‖q.2‖) := by
    rw [hK]
    ring
  have h4 : 0 ≤ √(2 / L) * (‖G 0‖ + L) * (‖q.2‖ + ‖q.1‖ * ‖q.2‖) := mul_nonneg h2 (by linarith)
  have h5 : 0 ≤ √2 * (1 + ‖q.1‖ + ‖q.1‖ * ‖q.2‖) := mul_nonneg h3 (by linarith)
  unfold stepSize
  linarith

omit [FiniteDimensional ℝ V] [MeasurableSpace V] [BorelSpace V] in
theorem langevin_size (h : Potential U G c L) (δ : ℝ) (hδ : 0 < δ) (hs : δ * L ≤ 2) (q : V × V) :
    ‖langevin δ G q.1 q.2 - q.1‖ ≤ √δ * stepSize G L q ∧ √δ * ‖G q.1‖ ≤ stepSize G L q := by
  have hL : 0 < L := h.pos.trans_le h.le
  have h1 : √δ ≤ √(2 / L) := Real.sqrt_le_sqrt (by rw [le_div_iff₀ hL]; exact hs)
  have h2 := mul_le_mul_of_nonneg_right h1 (norm_nonneg (G q.1))
  have h3 : 0 ≤ √2 * ‖q.2‖ := by positivity
  refine ⟨?_, by unfold stepSize; linarith⟩
  have e : langevin δ G q.1 q.2 - q.1 = √(2 * δ) • q.2 - δ • G q.1 := by unfold langevin; abel
  rw [e]
  refine (norm_sub_le _ _).trans ?_
  rw [norm_smul, norm_smul, Real.norm_eq_abs, Real.norm_eq_abs, abs_of_pos hδ, abs_of_nonneg (Real.sqrt_nonneg _),
    Real.sqrt_mul two_pos.le]
  have h4 : δ = √δ * √δ := (Real.mul_self_sqrt hδ.le).symm
  have h5 : δ * ‖G q.1‖ = √δ * (√δ * ‖G q.1‖) := by rw [← mul_assoc, ← h4]
  have h6 := mul_le_mul_of_nonneg_left h2 (Real.sqrt_nonneg δ)
  rw [h5]
  unfold stepSize
  nlinarith

/-- One step changes the expectation of a Lipschitz function under the target by at most `δ√δ` times a constant. -/
theorem one_step_bias (h : Potential U G c L) (δ : ℝ) (hδ : 0 < δ) (hs : δ * L ≤ 2) (f : V → ℝ)
    (hf : ∀ x y, |f x - f y| ≤ ‖x - y‖) :
    |∫ q, (f (langevin δ G q.1 q.2) - f q.1) ∂((gibbs U).prod (stdGaussian V))| ≤ δ * √δ * (c * biasConst U G c L) := by
  have hp := h.isProb
  have hG := h.contG
  have hL : 0 < L := h.pos.trans_le h.le
  have hfc : Continuous f := (LipschitzWith.of_dist_le_mul (K := 1) fun x y => by
    rw [Real.dist_eq, dist_eq_norm, NNReal.coe_one, one_mul]; exact hf x y).continuous
  set μ := (gibbs U).prod (stdGaussian V) with hμ
  set T : V × V → V × V := fun q => (q.1, langevin δ G q.1 q.2) with hT
  have hTc : Continuous T := by
    rw [hT]
    unfold langevin
    fun_prop
  set H : V × V → ℝ := fun q => f q.2 - f q.1 with hH
  set A : V × V → ℝ := fun q => L / 4 * ‖q.2 - q.1‖ ^ 2 + δ / 4 * (L * ‖q.2 - q.1‖ * (2 * ‖G q.1‖ + L * ‖q.2 - q.1‖)) with hA
  have hHc : Continuous H := by rw [hH]; fun_prop
  have hAc : Continuous A := by rw [hA]; fun_prop
  have hA0 : ∀ q, 0 ≤ A q := fun q => by simp only [hA]; positivity
  -- the pointwise bound of the right-hand side
  have hbd : ∀ q, |H (T q)| * A (T q) ≤ δ * √δ * (5 * L / 4 * stepSize G L q ^ 3) := by
    intro q
    obtain ⟨k1, k2⟩ := langevin_size h δ hδ hs q
    have k0 : 0 ≤ stepSize G L q := by unfold stepSize; positivity
    set B := stepSize G L q
    set D := ‖langevin δ G q.1 q.2 - q.1‖ with hD
    have d0 : 0 ≤ D := norm_nonneg _
    have r0 := Real.sqrt_nonneg δ
    have r2 : √δ * √δ = δ := Real.mul_self_sqrt hδ.le
    have m1 : |H (T q)| ≤ D := hf _ _
    have m2 : A (T q) ≤ δ * (5 * L / 4 * B ^ 2) := by
      show L / 4 * D ^ 2 + δ / 4 * (L * D * (2 * ‖G q.1‖ + L * D)) ≤ _
      have s1 : D ^ 2 ≤ δ * B ^ 2 := by
        have := pow_le_pow_left₀ d0 k1 2
        rwa [mul_pow, Real.sq_sqrt hδ.le] at this
      have s2 : D * ‖G q.1‖ ≤ B ^ 2 := by
        calc D * ‖G q.1‖ ≤ √δ * B * ‖G q.1‖ := mul_le_mul_of_nonneg_right k1 (norm_nonneg _)
          _ = B * (√δ * ‖G q.1‖) := by ring
          _ ≤ B * B := mul_le_mul_of_nonneg_left k2 k0
          _ = _ := by ring
      have s3 : δ / 4 * (L * D * (2 * ‖G q.1‖ + L * D)) = δ * L / 2 * (D * ‖G q.1‖) + δ * L * (L / 4) * D ^ 2 := by ring
      have s4 : δ * L / 2 * (D * ‖G q.1‖) ≤ δ * L / 2 * B ^ 2 := mul_le_mul_of_nonneg_left s2 (by positivity)
      have s5 : δ * L * (L / 4) * D ^ 2 ≤ 2 * (L / 4) * D ^ 2 := by
        refine mul_le_mul_of_nonneg_right (mul_le_mul_of_nonneg_right hs (by positivity)) (sq_nonneg D)
      have s6 : (3 * L / 4) * D ^ 2 ≤ (3 * L / 4) * (δ * B ^ 2) := mul_le_mul_of_nonneg_left s1 (by positivity)
      rw [s3]
      nlinarith
    calc |H (T q)| * A (T q) ≤ (√δ * B) * (δ * (5 * L / 4 * B ^ 2)) :=
          mul_le_mul (m1.trans k1) m2 (hA0 _) (by positivity)
      _ = _ := by ring
  have iB := stepSize_moment h 3
  have iHA : Integrable (fun q => |H (T q)| * A (T q)) μ := by
    refine ((iB.const_mul (5 * L / 4)).const_mul (δ * √δ)).mono' (Continuous.aestronglyMeasurable (by fun_prop))
      (Eventually.of_forall fun q => ?_)
    rw [Real.norm_eq_abs, abs_of_nonneg (mul_nonneg (abs_nonneg _) (hA0 _))]
    exact hbd q
  have iH : Integrable (fun q => H (T q)) μ := by
    refine ((stepSize_moment h 1).const_mul √δ).mono' (Continuous.aestronglyMeasurable (by fun_prop)) (Eventually.of_forall fun q => ?_)
    rw [Real.norm_eq_abs, pow_one]
    exact (hf _ _).trans (langevin_size h δ hδ hs q).1
  -- transfer to the density
  have hlaw := pair_law h δ hδ
  have hdm : Measurable fun q => ENNReal.ofReal (pairDens U G δ q) := (pairDens_cont h δ).measurable.ennreal_ofReal
  have hfin : ∀ᵐ q ∂((volume : Measure V).prod volume), ENNReal.ofReal (pairDens U G δ q) < ⊤ :=
    Eventually.of_forall fun q => ENNReal.ofReal_lt_top
  have tr : ∀ F : V × V → ℝ, Continuous F → ∫ q, F (T q) ∂μ = ∫ q, F q * pairDens U G δ q ∂((volume : Measure V).prod volume) := by
    intro F hF
    rw [← integral_map hTc.measurable.aemeasurable hF.aestronglyMeasurable, hlaw,
      integral_withDensity_eq_integral_toReal_smul hdm hfin]
    refine integral_congr_ae (Eventually.of_forall fun q => ?_)
    show (ENNReal.ofReal _).toReal • F q = _
    rw [ENNReal.toReal_ofReal (pairDens_pos h δ hδ q).le, smul_eq_mul, mul_comm]
  have ti : ∀ F : V × V → ℝ, Continuous F → Integrable (fun q => F (T q)) μ →
      Integrable (fun q => F q * pairDens U G δ q) ((volume : Measure V).prod volume) := by
    intro F hF hi
    have h2 : Integrable F (μ.map T) := (integrable_map_measure hF.aestronglyMeasurable hTc.measurable.aemeasurable).mpr hi
    rw [hlaw, integrable_withDensity_iff_integrable_smul' hdm hfin] at h2
    refine h2.congr (Eventually.of_forall fun q => ?_)
    show (ENNReal.ofReal _).toReal • F q = _
    rw [ENNReal.toReal_ofReal (pairDens_pos h δ hδ q).le, smul_eq_mul, mul_comm]
  have hmain := antisymm_bound (m := (volume : Measure V)) (pairDens U G δ) H A (pairDens_pos h δ hδ) (pairDens_cont h δ).measurable
    hHc.measurable (fun q => by simp only [hH, Prod.fst_swap, Prod.snd_swap]; ring) (ti H hHc iH)
    (fun q => flux_log h δ hδ q (integral_exp_pos h.integrable_exp) (integral_gauss_pos _ (by positivity))) hA0
    (ti (fun q => |H q| * A q) (by fun_prop) iHA)
  rw [← tr H hHc, ← tr (fun q => |H q| * A q) (by fun_prop)] at hmain
  refine hmain.trans ?_
  calc ∫ q, |H (T q)| * A (T q) ∂μ ≤ ∫ q, δ * √δ * (5 * L / 4 * stepSize G L q ^ 3) ∂μ :=
        integral_mono iHA ((iB.const_mul _).const_mul _) hbd
    _ = δ * √δ * (c * biasConst U G c L) := by
      rw [integral_const_mul, integral_const_mul]
      unfold biasConst
      have hc := h.pos.ne'
      rw [show c * (5 * L / (4 * c) * ∫ q, stepSize G L q ^ 3 ∂((gibbs U).prod (stdGaussian V))) =
        c / c * (5 * L / 4 * ∫ q, stepSize G L q ^ 3 ∂((gibbs U).prod (stdGaussian V))) by ring, div_self hc, one_mul]

/-- The same for Lipschitz constant `K`. -/
theorem one_step_bias_lip (h : Potential U G c L) (δ : ℝ) (hδ : 0 < δ) (hs : δ * L ≤ 2) (f : V → ℝ) (K : ℝ) (hK : 0 ≤ K)
    (hf : ∀ x y, |f x - f y| ≤ K * ‖x - y‖) :
    |∫ q, (f (langevin δ G q.1 q.2) - f q.1) ∂((gibbs U).prod (stdGaussian V))| ≤ K * (δ * √δ * (c * biasConst U G c L)) := by
  rcases hK.eq_or_lt with rfl | hK
  · have : ∀ x y, f x - f y = 0 := fun x y => abs_eq_zero.mp (le_antisymm (by simpa using hf x y) (abs_nonneg _))
    simp [this]
  · have h1 := one_step_bias h δ hδ hs (fun x => K⁻¹ * f x) fun x y => by
      rw [← mul_sub, abs_mul, abs_of_pos (inv_pos.mpr hK), inv_mul_le_iff₀ hK]
      exact hf x y
    simp only [← mul_sub] at h1
    rw [integral_const_mul, abs_mul, abs_of_pos (inv_pos.mpr hK), inv_mul_le_iff₀ hK] at h1
    exact h1

/-- The mean of `f` after one step from `x`. -/
noncomputable def stepMean (δ : ℝ) (G : V → V) (f : V → ℝ) (x : V) : ℝ := ∫ w, f (langevin δ G x w) ∂(stdGaussian V)

omit [InnerProductSpace ℝ V] [FiniteDimensional ℝ V] [MeasurableSpace V] [BorelSpace V] in
theorem lip_cont (f : V → ℝ) (K : ℝ) (hK : 0 ≤ K) (hf : ∀ x y, |f x - f y| ≤ K * ‖x - y‖) : Continuous f :=
  (LipschitzWith.of_dist_le_mul (K := ⟨K, hK⟩) fun x y => by rw [Real.dist_eq, dist_eq_norm]; exact hf x y).continuous

omit [InnerProductSpace ℝ V] [FiniteDimensional ℝ V] in
theorem lip_integrable (f : V → ℝ) (K : ℝ) (hK : 0 ≤ K) (hf : ∀ x y, |f x - f y| ≤ K * ‖x - y‖) (μ : Measure V) [IsFiniteMeasure μ]
    (hμ : Integrable (fun x => ‖x‖) μ) : Integrable f μ := by
  have h1 : Integrable (fun x => |f 0| + K * ‖x‖) μ := (integrable_const _).add (hμ.const_mul K)
  refine h1.mono' (lip_cont f K hK hf).aestronglyMeasurable (Eventually.of_forall fun x => ?_)
  have h2 := hf x 0
  rw [sub_zero] at h2
  rw [Real.norm_eq_abs]
  linarith [abs_sub_abs_le_abs_sub (f x) (f 0)]

theorem stdGaussian_norm : Integrable (fun w : V => ‖w‖) (stdGaussian V) := by
  refine (stdGaussian_moment (V := V) 1).mono' continuous_norm.aestronglyMeasurable (Eventually.of_forall fun w => ?_)
  rw [norm_norm, pow_one]
  linarith

theorem gibbs_norm (h : Potential U G c L) : Integrable (fun w : V => ‖w‖) (gibbs U) := by
  refine (h.moment 1).mono' continuous_norm.aestronglyMeasurable (Eventually.of_forall fun w => ?_)
  rw [norm_norm, pow_one]
  linarith

theorem langevin_integrable (h : Potential U G c L) (δ : ℝ) (hδ : 0 < δ) (hs : δ * (L + c) ≤ 2) (f : V → ℝ) (K : ℝ) (hK : 0 ≤ K)
    (hf : ∀ x y, |f x - f y| ≤ K * ‖x - y‖) (μ : Measure V) [IsProbabilityMeasure μ] (hμ : Integrable (fun x => ‖x‖) μ) :
    Integrable (fun q => f (langevin δ G q.1 q.2)) (μ.prod (stdGaussian V)) := by
  have hG := h.contG
  have hfc := lip_cont f K hK hf
  have i1 : Integrable (fun q : V × V => ‖q.1‖) (μ.prod (stdGaussian V)) := hμ.comp_fst _
  have i2 : Integrable (fun q : V × V => ‖q.2‖) (μ.prod (stdGaussian V)) := stdGaussian_norm.comp_snd _
  have i3 : Integrable (fun q : V × V => |f 0| + K * (‖q.1‖ + δ * ‖G 0‖ + √(2 * δ) * ‖q.2‖)) (μ.prod (stdGaussian V)) :=
    (integrable_const _).add (((i1.add (integrable_const _)).add (i2.const_mul _)).const_mul K)
  refine i3.mono' (Continuous.aestronglyMeasurable (by unfold langevin; fun_prop)) (Eventually.of_forall fun q => ?_)
  have h1 := hf (langevin δ G q.1 q.2) 0
  rw [sub_zero] at h1
  have h2 := h.contract δ hδ hs q.1 0
  have h3 : ‖langevin δ G q.1 q.2‖ ≤ ‖q.1‖ + δ * ‖G 0‖ + √(2 * δ) * ‖q.2‖ := by
    have e : langevin δ G q.1 q.2 = ((q.1 - δ • G q.1) - (0 - δ • G 0)) + (-(δ • G 0)) + √(2 * δ) • q.2 := by
      unfold langevin
      abel
    rw [e]
    refine (norm_add_le _ _).trans (add_le_add ((norm_add_le _ _).trans (add_le_add ?_ ?_)) ?_)
    · refine h2.trans ?_
      rw [sub_zero]
      have : 0 ≤ δ * c * ‖q.1‖ := by have := h.pos; positivity
      linarith
    · rw [norm_neg, norm_smul, Real.norm_eq_abs, abs_of_pos hδ]
    · rw [norm_smul, Real.norm_eq_abs, abs_of_nonneg (Real.sqrt_nonneg _)]
  have h4 := mul_le_mul_of_nonneg_left h3 hK
  rw [Real.norm_eq_abs]
  linarith [abs_sub_abs_le_abs_sub (f (langevin δ G q.1 q.2)) (f 0)]

theorem stepMean_lip (h : Potential U G c L) (δ : ℝ) (hδ : 0 < δ) (hs : δ * (L + c) ≤ 2) (f : V → ℝ) (K : ℝ) (hK : 0 ≤ K)
    (hf : ∀ x y, |f x - f y| ≤ K * ‖x - y‖) (x y : V) :
    |stepMean δ G f x - stepMean δ G f y| ≤ K * (1 - δ * c) * ‖x - y‖ := by
  have hfc := lip_cont f K hK hf
  have hi : ∀ x, Integrable (fun w => f (langevin δ G x w)) (stdGaussian V) := fun x => by
    have hlip : ∀ w w' : V, |f (langevin δ G x w) - f (langevin δ G x w')| ≤ K * √(2 * δ) * ‖w - w'‖ := by
      intro w w'
      refine (hf _ _).trans ?_
      have e : langevin δ G x w - langevin δ G x w' = √(2 * δ) • (w - w') := by
        unfold langevin
        rw [smul_sub]
        abel
      rw [e, norm_smul, Real.norm_eq_abs, abs_of_nonneg (Real.sqrt_nonneg _), mul_assoc]
    exact lip_integrable _ _ (by positivity) hlip _ stdGaussian_norm
  unfold stepMean
  rw [← integral_sub (hi x) (hi y)]
  have hb : ∀ w, |f (langevin δ G x w) - f (langevin δ G y w)| ≤ K * (1 - δ * c) * ‖x - y‖ := by
    intro w
    refine (hf _ _).trans ?_
    rw [mul_assoc]
    refine mul_le_mul_of_nonneg_left ?_ hK
    have e : langevin δ G x w - langevin δ G y w = (x - δ • G x) - (y - δ • G y) := by
      unfold langevin
      abel
    rw [e]
    exact h.contract δ hδ hs x y
  refine abs_integral_le_integral_abs.trans ?_
  refine (integral_mono ((hi x).sub (hi y)).abs (integrable_const _) hb).trans ?_
  simp

/-- The stationary law of the chain differs from the target, on functions with Lipschitz constant one, by at most `√δ` times a
constant that does not depend on `δ`. -/
theorem stationary_bias (h : Potential U G c L) (δ : ℝ) (hδ : 0 < δ) (hs : δ * (L + c) ≤ 2) (μ : Measure V) [IsProbabilityMeasure μ]
    (hμ : Integrable (fun x => ‖x‖) μ) (hfix : stepLaw (langevin δ G) (stdGaussian V) μ = μ) (f : V → ℝ)
    (hf : ∀ x y, |f x - f y| ≤ ‖x - y‖) :
    |∫ x, f x ∂μ - ∫ x, f x ∂(gibbs U)| ≤ √δ * biasConst U G c L := by
  have hp := h.isProb
  have hc := h.pos
  have hG := h.contG
  have hL : 0 < L := hc.trans_le h.le
  have hdc : 0 < δ * c := mul_pos hδ hc
  have hsL : δ * L ≤ 2 := by nlinarith
  have hr0 : 0 ≤ 1 - δ * c := by nlinarith [h.le]
  set ρ := 1 - δ * c with hρ
  set E := δ * √δ * (c * biasConst U G c L) with hE
  set B := ∫ x, ‖x‖ ∂μ + ∫ x, ‖x‖ ∂(gibbs U) with hB
  have hlang : Continuous (Function.uncurry (langevin δ G)) := by
    unfold Function.uncurry langevin
    fun_prop
  have key : ∀ (k : ℕ) (f : V → ℝ) (K : ℝ), 0 ≤ K → (∀ x y, |f x - f y| ≤ K * ‖x - y‖) →
      |∫ x, f x ∂μ - ∫ x, f x ∂(gibbs U)| ≤ K * (ρ ^ k * B + E * ∑ j ∈ Finset.range k, ρ ^ j) := by
    intro k
    induction k with
    | zero =>
      intro f K hK hf
      simp only [pow_zero, one_mul, Finset.range_zero, Finset.sum_empty, mul_zero, add_zero]
      have hb : ∀ (μ : Measure V) [IsProbabilityMeasure μ], Integrable (fun x => ‖x‖) μ → |∫ x, f x ∂μ - f 0| ≤ K * ∫ x, ‖x‖ ∂μ := by
        intro μ _ hμ
        have e : ∫ x, f x ∂μ - f 0 = ∫ x, (f x - f 0) ∂μ := by
          rw [integral_sub (lip_integrable f K hK hf μ hμ) (integrable_const _)]
          simp
        rw [e, ← integral_const_mul]
        refine abs_integral_le_integral_abs.trans (integral_mono ?_ (hμ.const_mul K) fun x => ?_)
        · exact ((lip_integrable f K hK hf μ hμ).sub (integrable_const _)).abs
        · have := hf x 0
          rwa [sub_zero] at this
      have h1 := hb μ hμ
      have h2 := hb (gibbs U) (gibbs_norm h)
      rw [hB, mul_add]
      rw [abs_le] at h1 h2 ⊢
      constructor <;> linarith
    | succ k ih =>
      intro f K hK hf
      have hfc := lip_cont f K hK hf
      have h1 := ih (stepMean δ G f) (K * ρ) (mul_nonneg hK hr0) (stepMean_lip h δ hδ hs f K hK hf)
      have e1 : ∫ x, f x ∂μ = ∫ x, stepMean δ G f x ∂μ := by
        conv_lhs => rw [← hfix]
        unfold stepLaw
        rw [integral_map hlang.measurable.aemeasurable hfc.aestronglyMeasurable]
        exact integral_prod _ (langevin_integrable h δ hδ hs f K hK hf μ hμ)
      have h2 := one_step_bias_lip h δ hδ hsL f K hK hf
      have i1 := langevin_integrable h δ hδ hs f K hK hf (gibbs U) (gibbs_norm h)
      have i2 : Integrable (fun q : V × V => f q.1) ((gibbs U).prod (stdGaussian V)) :=
        (lip_integrable f K hK hf _ (gibbs_norm h)).comp_fst _
      have e2 : ∫ q, (f (langevin δ G q.1 q.2) - f q.1) ∂((gibbs U).prod (stdGaussian V)) =
          ∫ x, stepMean δ G f x ∂(gibbs U) - ∫ x, f x ∂(gibbs U) := by
        rw [integral_sub i1 i2, integral_prod _ i1, integral_prod _ i2]
        simp [stepMean]
      rw [e2, ← hE] at h2
      rw [e1]
      have h3 : |∫ x, stepMean δ G f x ∂μ - ∫ x, f x ∂(gibbs U)| ≤ K * ρ * (ρ ^ k * B + E * ∑ j ∈ Finset.range k, ρ ^ j) + K * E := by
        rw [abs_le] at h1 h2 ⊢
        constructor <;> linarith
      refine h3.trans (le_of_eq ?_)
      rw [Finset.sum_range_succ', Finset.sum_congr rfl fun j _ => pow_succ ρ j, ← Finset.sum_mul, pow_zero, pow_succ]
      ring
  have hE0 : 0 ≤ E := by
    have : 0 ≤ biasConst U G c L := by
      unfold biasConst
      refine mul_nonneg (by positivity) (integral_nonneg fun q => ?_)
      have : 0 ≤ stepSize G L q := by unfold stepSize; positivity
      positivity
    positivity
  have hlim : Tendsto (fun k : ℕ => 1 * (ρ ^ k * B + E * (1 / (δ * c)))) atTop (𝓝 (1 * (0 * B + E * (1 / (δ * c))))) :=
    (((tendsto_pow_atTop_nhds_zero_of_lt_one hr0 (by linarith)).mul_const B).add_const _).const_mul _
  have hfin := ge_of_tendsto' hlim fun k => (key k f 1 zero_le_one (by simpa using hf)).trans
    (mul_le_mul_of_nonneg_left (add_le_add le_rfl (mul_le_mul_of_nonneg_left (b := ∑ j ∈ Finset.range k, ρ ^ j) ?_ hE0)) zero_le_one)
  · refine hfin.trans (le_of_eq ?_)
    rw [hE]
    field_simp
    ring
  · rw [geom_sum_eq (by linarith : ρ ≠ 1), div_le_iff_of_neg (by linarith)]
    have : 1 / (δ * c) * (ρ - 1) = -1 := by
      rw [hρ]
      field_simp
      ring
    rw [this]
    have := pow_nonneg hr0 k
    linarith

end Pxmcmc
