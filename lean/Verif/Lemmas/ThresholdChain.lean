import Verif.Lemmas.Coupling
import Verif.Lemmas.LangevinBias

/-! # Langevin chains whose drift is a clipped position plus the gradient of a quadratic

The quadratic may be flat in some directions.  The clipping is what keeps the chain near the origin and what makes two copies of the
chain approach each other, each time one of them is near the origin. -/

namespace Pxmcmc
open MeasureTheory ProbabilityTheory Filter
open scoped ENNReal NNReal RealInnerProductSpace Topology

variable {V : Type} [NormedAddCommGroup V] [InnerProductSpace ℝ V] [FiniteDimensional ℝ V] [MeasurableSpace V] [BorelSpace V]

/-- The two parts of the drift. -/
structure Clipped (R S : V → V) (x₀ : V) (L τ η K ρ : ℝ) : Prop where
  firm : ∀ x y, ‖R x - R y‖ ^ 2 ≤ ⟪R x - R y, x - y⟫
  bound : ∀ x, ‖R x‖ ≤ τ
  push : ∀ x, η * ‖x‖ - K ≤ ⟪R x, x⟫
  strict : ∀ D : ℝ, ∃ κ > 0, ∀ x y, ‖x‖ ≤ ρ → ‖x - y‖ ≤ D → κ * ‖x - y‖ ≤ ‖R x - R y‖
  coco : ∀ x y, ‖S x - S y‖ ^ 2 ≤ L * ⟪S x - S y, x - y⟫
  zero : S x₀ = 0
  Lpos : 0 < L
  ηpos : 0 < η
  ρpos : 0 < ρ

theorem stdGaussian_openPos : (stdGaussian V).IsOpenPosMeasure := by
  rw [stdGaussian_gibbs]
  exact (absolutelyContinuous_tilted (parabola (V := V)).integrable_exp).isOpenPosMeasure

/-- From a bounded set of centres, Gaussian balls of a fixed radius have a probability bounded below. -/
theorem stdGaussian_balls (r s : ℝ) (hs : 0 < s) : ∃ ε : ℝ≥0∞, ε ≠ 0 ∧ ∀ m : V, ‖m‖ ≤ r → ε ≤ stdGaussian V (Metric.closedBall m s) := by
  have hpos := stdGaussian_openPos (V := V)
  obtain ⟨F, -, hfin, hcov⟩ := (isCompact_closedBall (0 : V) r).finite_cover_balls (half_pos hs)
  by_cases hF : F.Nonempty
  · refine ⟨hfin.toFinset.inf' (by simpa using hF) fun z => stdGaussian V (Metric.ball z (s / 2)), ?_, fun m hm => ?_⟩
    · obtain ⟨z, -, hz⟩ := Finset.exists_mem_eq_inf' (s := hfin.toFinset) (by simpa using hF) fun z => stdGaussian V (Metric.ball z (s / 2))
      rw [hz]
      exact (Metric.measure_ball_pos _ z (half_pos hs)).ne'
    · have h1 := hcov (show m ∈ Metric.closedBall (0 : V) r by simpa using hm)
      simp only [Set.mem_iUnion, exists_prop] at h1
      obtain ⟨z, hz, hmz⟩ := h1
      refine (Finset.inf'_le _ (hfin.mem_toFinset.mpr hz)).trans (measure_mono fun y hy => ?_)
      rw [Metric.mem_ball] at hy hmz
      rw [Metric.mem_closedBall]
      have := dist_triangle y z m
      rw [dist_comm z m] at this
      linarith
  · refine ⟨1, one_ne_zero, fun m hm => ?_⟩
    have h1 := hcov (show m ∈ Metric.closedBall (0 : V) r by simpa using hm)
    simp only [Set.mem_iUnion, exists_prop] at h1
    obtain ⟨z, hz, -⟩ := h1
    exact absurd ⟨z, hz⟩ hF

namespace Clipped
variable {R S : V → V} {x₀ : V} {L τ η K ρ : ℝ}

omit [FiniteDimensional ℝ V] [MeasurableSpace V] [BorelSpace V] in
theorem mix (a b l : ℝ) (ha : 0 ≤ a) (hb : 0 ≤ b) (hl : 0 < l) (e s : V) :
    ‖a • e + b • s‖ ^ 2 ≤ (a + b * l) * (a * ‖e‖ ^ 2 + b * (‖s‖ ^ 2 / l)) := by
  rw [norm_add_sq_real, norm_smul, norm_smul, real_inner_smul_left, real_inner_smul_right, mul_pow, mul_pow, Real.norm_of_nonneg ha,
    Real.norm_of_nonneg hb]
  have h1 : 2 * ⟪e, s⟫ ≤ l * ‖e‖ ^ 2 + ‖s‖ ^ 2 / l := by
    have h2 := real_inner_le_norm e s
    have h3 : l * ‖e‖ ^ 2 + ‖s‖ ^ 2 / l - 2 * (‖e‖ * ‖s‖) = (l * ‖e‖ - ‖s‖) ^ 2 / l := by
      field_simp
      ring
    have h4 : 0 ≤ (l * ‖e‖ - ‖s‖) ^ 2 / l := by positivity
    linarith
  have h5 := mul_le_mul_of_nonneg_left h1 (mul_nonneg ha hb)
  have e1 : (a + b * l) * (a * ‖e‖ ^ 2 + b * (‖s‖ ^ 2 / l)) =
      a ^ 2 * ‖e‖ ^ 2 + a * b * (l * ‖e‖ ^ 2 + ‖s‖ ^ 2 / l) + b ^ 2 * ‖s‖ ^ 2 := by
    field_simp
    ring
  rw [e1]
  linarith

omit [FiniteDimensional ℝ V] [MeasurableSpace V] [BorelSpace V] in
/-- Two points approach each other. -/
theorem approach (h : Clipped R S x₀ L τ η K ρ) (a b : ℝ) (ha : 0 ≤ a) (hb : 0 ≤ b) (hs : a + b * L ≤ 2) (x y : V) :
    ‖(x - y) - (a • (R x - R y) + b • (S x - S y))‖ ^ 2 ≤ ‖x - y‖ ^ 2 - (2 - (a + b * L)) * (a * ‖R x - R y‖ ^ 2) := by
  have hL := h.Lpos
  have h1 := mix a b L ha hb hL (R x - R y) (S x - S y)
  have h2 : ‖S x - S y‖ ^ 2 / L ≤ ⟪S x - S y, x - y⟫ := by
    rw [div_le_iff₀ hL]
    linarith [h.coco x y]
  have h3 := h.firm x y
  have h0 : 0 ≤ ‖S x - S y‖ ^ 2 / L := by positivity
  rw [norm_sub_sq_real, inner_add_right, real_inner_smul_right, real_inner_smul_right, real_inner_comm, real_inner_comm (S x - S y)]
  have hmul : (a + b * L) * (a * ‖R x - R y‖ ^ 2 + b * (‖S x - S y‖ ^ 2 / L)) ≤
      (a + b * L) * (a * ‖R x - R y‖ ^ 2) + 2 * (b * (‖S x - S y‖ ^ 2 / L)) := by
    rw [mul_add]
    exact add_le_add le_rfl (mul_le_mul_of_nonneg_right hs (mul_nonneg hb h0))
  have h4 := mul_le_mul_of_nonneg_left h2 hb
  have h5 := mul_le_mul_of_nonneg_left h3 ha
  linarith

omit [FiniteDimensional ℝ V] [MeasurableSpace V] [BorelSpace V] in
/-- The mean displacement is towards the origin. -/
theorem inward (h : Clipped R S x₀ L τ η K ρ) (a b : ℝ) (ha : 0 ≤ a) (hb : 0 ≤ b) (hs : a + b * L ≤ 2) (x : V) :
    ‖(x - x₀) - (a • R x + b • S x)‖ ^ 2 ≤ ‖x - x₀‖ ^ 2 - 2 * a * η * ‖x‖ + 2 * a * (K + τ * ‖x₀‖ + τ ^ 2) := by
  have hL := h.Lpos
  have h1 := mix a b L ha hb hL (R x) (S x)
  have h2 : ‖S x‖ ^ 2 / L ≤ ⟪S x, x - x₀⟫ := by
    rw [div_le_iff₀ hL]
    have := h.coco x x₀
    rw [h.zero, sub_zero] at this
    linarith
  have h0 : 0 ≤ ‖S x‖ ^ 2 / L := by positivity
  have h3 : ‖R x‖ ^ 2 ≤ τ ^ 2 := pow_le_pow_left₀ (norm_nonneg _) (h.bound x) 2
  have h4 : η * ‖x‖ - K - τ * ‖x₀‖ ≤ ⟪R x, x - x₀⟫ := by
    rw [inner_sub_right]
    have h5 := real_inner_le_norm (R x) x₀
    have h6 := mul_le_mul_of_nonneg_right (h.bound x) (norm_nonneg x₀)
    linarith [h.push x]
  rw [norm_sub_sq_real, inner_add_right, real_inner_smul_right, real_inner_smul_right, real_inner_comm, real_inner_comm (S x)]
  have hmul : (a + b * L) * (a * ‖R x‖ ^ 2 + b * (‖S x‖ ^ 2 / L)) ≤ 2 * (a * τ ^ 2 + b * (‖S x‖ ^ 2 / L)) := by
    refine mul_le_mul hs (add_le_add (mul_le_mul_of_nonneg_left h3 ha) le_rfl) ?_ (by norm_num)
    positivity
  have h7 := mul_le_mul_of_nonneg_left h2 hb
  have h8 := mul_le_mul_of_nonneg_left h4 ha
  nlinarith

/-- The chain meets the assumptions of `Verif.Lemmas.Coupling`. -/
theorem coupled (h : Clipped R S x₀ L τ η K ρ) (δ l : ℝ) (hδ : 0 < δ) (hl : 0 < l) (hs : δ * (1 / l + L) < 2) (G : V → V)
    (hG : ∀ x, G x = (1 / l) • R x + S x) :
    ∃ (C : Set V) (W : V → ℝ≥0∞) (k : ℝ≥0), Coupled (stdGaussian V) (langevin δ G) C W k := by
  set a := δ / l with hadef
  have ha : 0 < a := div_pos hδ hl
  have hab : a + δ * L < 2 := by
    have e : δ * (1 / l + L) = a + δ * L := by rw [hadef]; ring
    linarith
  have hη := h.ηpos
  have hstep : ∀ x w, langevin δ G x w = (x - (a • R x + δ • S x)) + √(2 * δ) • w := by
    intro x w
    unfold langevin
    rw [hG, smul_add, smul_smul, hadef, mul_one_div]
  have hdiff : ∀ x y w, langevin δ G x w - langevin δ G y w = (x - y) - (a • (R x - R y) + δ • (S x - S y)) := by
    intro x y w
    rw [hstep, hstep, smul_sub, smul_sub]
    abel
  have hnon : ∀ x y w, dist (langevin δ G x w) (langevin δ G y w) ≤ dist x y := by
    intro x y w
    rw [dist_eq_norm, dist_eq_norm, hdiff]
    refine le_of_sq_le_sq (h.approach a δ ha.le hδ.le hab.le x y |>.trans ?_) (norm_nonneg _)
    have : 0 ≤ (2 - (a + δ * L)) * (a * ‖R x - R y‖ ^ 2) := mul_nonneg (by linarith) (by positivity)
    linarith
  have hcont : Continuous (Function.uncurry (langevin δ G)) := by
    have h0 : Continuous fun x => langevin δ G x 0 := by
      refine (LipschitzWith.of_dist_le_mul (K := 1) fun x y => ?_).continuous
      simpa using hnon x y 0
    have e : Function.uncurry (langevin δ G) = fun q : V × V => langevin δ G q.1 0 + √(2 * δ) • q.2 := by
      funext q
      simp [Function.uncurry, langevin]
    rw [e]
    exact (h0.comp continuous_fst).add (continuous_snd.const_smul _)
  set d : ℝ := ∫ w : V, ‖w‖ ^ 2 ∂(stdGaussian V) with hd
  have hd0 : 0 ≤ d := integral_nonneg fun w => by positivity
  have hτ : 0 ≤ τ := (norm_nonneg _).trans (h.bound 0)
  set c : ℝ := 1 / (2 * a * η) with hc
  have hcpos : 0 < c := by positivity
  set k0 : ℝ := 2 * a * (K + τ * ‖x₀‖ + τ ^ 2) + 2 * δ * d with hk0
  refine ⟨Metric.closedBall 0 ρ, fun x => ENNReal.ofReal (c * ‖x - x₀‖ ^ 2), Real.toNNReal (c * k0), hcont.measurable,
    Metric.isClosed_closedBall.measurableSet, ?_, hnon, fun D => ?_, fun x => ENNReal.ofReal_ne_top, fun x => ?_, fun r => ?_⟩
  · exact ENNReal.measurable_ofReal.comp (Continuous.measurable (by fun_prop))
  · obtain ⟨κ, hκ, hκ'⟩ := h.strict D
    set m : ℝ := (2 - (a + δ * L)) * (a * κ ^ 2) with hm
    have hm0 : 0 < m := mul_pos (by linarith) (by positivity)
    refine ⟨√(max 0 (1 - m)), Real.sqrt_nonneg _, ?_, fun x hx y w hxy => ?_⟩
    · rw [Real.sqrt_lt' one_pos]
      refine max_lt (by norm_num) (by linarith)
    · rw [dist_eq_norm] at hxy ⊢
      rw [dist_eq_norm, hdiff, ← Real.sqrt_sq (norm_nonneg (x - y)), ← Real.sqrt_mul (le_max_left _ _)]
      refine Real.le_sqrt_of_sq_le ((h.approach a δ ha.le hδ.le hab.le x y).trans ?_)
      have h1 := hκ' x y (by simpa using hx) hxy
      have h2 : κ ^ 2 * ‖x - y‖ ^ 2 ≤ ‖R x - R y‖ ^ 2 := by
        rw [← mul_pow]
        exact pow_le_pow_left₀ (by positivity) h1 2
      have h3 : m * ‖x - y‖ ^ 2 ≤ (2 - (a + δ * L)) * (a * ‖R x - R y‖ ^ 2) := by
        rw [hm, mul_assoc, mul_assoc]
        exact mul_le_mul_of_nonneg_left (mul_le_mul_of_nonneg_left h2 ha.le) (by linarith)
      have h4 : (1 - m) * ‖x - y‖ ^ 2 ≤ max 0 (1 - m) * ‖x - y‖ ^ 2 := mul_le_mul_of_nonneg_right (le_max_right _ _) (sq_nonneg _)
      linarith
  · -- the drift
    set u : V := (x - x₀) - (a • R x + δ • S x) with hu
    have hi1 : Integrable (fun w : V => ‖w‖ ^ 2) (stdGaussian V) := by
      refine (stdGaussian_moment (V := V) 2).mono' (by fun_prop) (Eventually.of_forall fun w => ?_)
      rw [Real.norm_of_nonneg (by positivity)]
      nlinarith [norm_nonneg w]
    have hi2 : Integrable (fun w : V => ⟪u, w⟫) (stdGaussian V) := by
      refine (stdGaussian_norm.const_mul ‖u‖).mono' (Continuous.aestronglyMeasurable (by fun_prop)) (Eventually.of_forall fun w => ?_)
      exact norm_inner_le_norm u w
    have hi0 : ∫ w : V, ⟪u, w⟫ ∂(stdGaussian V) = 0 := integral_strongDual_stdGaussian (innerSL ℝ u)
    have hexp : ∀ w, c * ‖langevin δ G x w - x₀‖ ^ 2 = c * ‖u‖ ^ 2 + 2 * c * √(2 * δ) * ⟪u, w⟫ + c * (2 * δ) * ‖w‖ ^ 2 := by
      intro w
      have e : langevin δ G x w - x₀ = u + √(2 * δ) • w := by
        rw [hstep, hu]
        abel
      rw [e, norm_add_sq_real, real_inner_smul_right, norm_smul, mul_pow, Real.norm_of_nonneg (Real.sqrt_nonneg _),
        Real.sq_sqrt (by positivity)]
      ring
    have hint : Integrable (fun w => c * ‖langevin δ G x w - x₀‖ ^ 2) (stdGaussian V) := by
      simp only [hexp]
      exact ((integrable_const _).add (hi2.const_mul _)).add (hi1.const_mul _)
    have hval : ∫ w, c * ‖langevin δ G x w - x₀‖ ^ 2 ∂(stdGaussian V) = c * ‖u‖ ^ 2 + c * (2 * δ) * d := by
      simp only [hexp]
      have hA : Integrable (fun w : V => c * ‖u‖ ^ 2 + 2 * c * √(2 * δ) * ⟪u, w⟫) (stdGaussian V) :=
        (integrable_const _).add (hi2.const_mul _)
      rw [integral_add hA (hi1.const_mul _), integral_add (integrable_const _) (hi2.const_mul _),
        integral_const_mul (2 * c * √(2 * δ)), integral_const_mul (c * (2 * δ)), hi0, ← hd]
      simp
    rw [← ofReal_integral_eq_lintegral_ofReal hint (Eventually.of_forall fun w => by positivity), hval, ← ofReal_norm,
      ← ENNReal.ofReal_add (by positivity) (norm_nonneg _)]
    refine (ENNReal.ofReal_le_ofReal (q := c * ‖x - x₀‖ ^ 2 + c * k0) ?_).trans ENNReal.ofReal_add_le
    have h1 := h.inward a δ ha.le hδ.le hab.le x
    have h2 := mul_le_mul_of_nonneg_left h1 hcpos.le
    have h3 : c * (2 * a * η * ‖x‖) = ‖x‖ := by
      rw [hc]
      field_simp
    rw [hk0]
    linarith
  · -- reaching the ball
    have hx0 : ∀ x : V, ‖x‖ ≤ r → ‖langevin δ G x 0‖ ≤ r + ‖langevin δ G 0 0‖ := by
      intro x hx
      have h1 := hnon x 0 0
      rw [dist_eq_norm, dist_zero_right] at h1
      have h2 := norm_sub_norm_le (langevin δ G x 0) (langevin δ G 0 0)
      linarith
    set s := √(2 * δ) with hsdef
    have hspos : 0 < s := Real.sqrt_pos.mpr (by positivity)
    obtain ⟨ε, hε, hb⟩ := stdGaussian_balls (V := V) ((r + ‖langevin δ G 0 0‖) / s) (ρ / s) (div_pos h.ρpos hspos)
    refine ⟨ε, hε, fun x hx => ?_⟩
    have hx' : ‖x‖ ≤ r := by
      rw [← ofReal_norm, ← ENNReal.ofReal_coe_nnreal] at hx
      exact (ENNReal.ofReal_le_ofReal_iff r.2).mp hx
    refine (hb (-(s⁻¹ • langevin δ G x 0)) ?_).trans (measure_mono fun w hw => ?_)
    · rw [norm_neg, norm_smul, Real.norm_of_nonneg (by positivity), div_eq_inv_mul]
      exact mul_le_mul_of_nonneg_left (hx0 x hx') (by positivity)
    · rw [Metric.mem_closedBall, dist_eq_norm, sub_neg_eq_add, le_div_iff₀ hspos] at hw
      show langevin δ G x w ∈ Metric.closedBall 0 ρ
      rw [mem_closedBall_zero_iff]
      have e : langevin δ G x w = s • (w + s⁻¹ • langevin δ G x 0) := by
        rw [smul_add, smul_smul, mul_inv_cancel₀ hspos.ne', one_smul]
        simp only [langevin, smul_zero, add_zero, hsdef]
        abel
      rw [e, norm_smul, Real.norm_of_nonneg hspos.le, mul_comm]
      exact hw

end Clipped
end Pxmcmc
