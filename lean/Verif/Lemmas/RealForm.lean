import Verif.Lemmas.LangevinBias
import Verif.Lemmas.Averages
import Verif.Props.Averages

/-! # The chain on complex vectors seen as a chain on a real inner product space -/

namespace Pxmcmc
open MeasureTheory ProbabilityTheory Filter
open scoped ENNReal RealInnerProductSpace Topology

section Chain
variable {V : Type*} [NormedAddCommGroup V] [InnerProductSpace ℝ V] [FiniteDimensional ℝ V] [MeasurableSpace V] [BorelSpace V]
  {U : V → ℝ} {G : V → V} {c L : ℝ}

theorem seq_driven {W : Type*} [MeasurableSpace W] (ν : Measure W) [IsProbabilityMeasure ν] :
    Driven (seqLaw ν) (fun k (ω : ℕ → W) => ω k) ν :=
  ⟨fun k => measurable_pi_apply k,
    iIndepFun_infinitePi (P := fun _ : ℕ => ν) (X := fun _ (x : W) => x) (fun _ => measurable_id),
    fun k => Measure.infinitePi_map_eval (fun _ : ℕ => ν) k⟩

/-- The chain has a stationary law with a finite first moment. -/
theorem langevin_stationary (h : Potential U G c L) (δ : ℝ) (hδ : 0 < δ) (hs : δ * (L + c) ≤ 2) :
    ∃ μ : Measure V, IsProbabilityMeasure μ ∧ Integrable (fun x => ‖x‖) μ ∧ stepLaw (langevin δ G) (stdGaussian V) μ = μ := by
  have hG := h.contG
  have hc := h.pos
  have hdc : 0 < δ * c := mul_pos hδ hc
  have hlang : Continuous (Function.uncurry (langevin δ G)) := by
    unfold Function.uncurry langevin
    fun_prop
  have hn0 : Integrable (fun w => ‖langevin δ G 0 w - 0‖) (stdGaussian V) := by
    have h1 : Integrable (fun w : V => δ * ‖G 0‖ + √(2 * δ) * ‖w‖) (stdGaussian V) :=
      (integrable_const _).add (stdGaussian_norm.const_mul _)
    refine h1.mono' (Continuous.aestronglyMeasurable (by unfold langevin; fun_prop)) (Eventually.of_forall fun w => ?_)
    rw [norm_norm, sub_zero]
    unfold langevin
    refine (norm_add_le _ _).trans (add_le_add ?_ ?_)
    · rw [zero_sub, norm_neg, norm_smul, Real.norm_eq_abs, abs_of_pos hδ]
    · rw [norm_smul, Real.norm_eq_abs, abs_of_nonneg (Real.sqrt_nonneg _)]
  have hn2 : Integrable (fun w => ‖langevin δ G 0 w - 0‖ ^ 2) (stdGaussian V) := by
    have h1 := (stdGaussian_moment (V := V) 2).const_mul ((δ * ‖G 0‖ + √(2 * δ)) ^ 2)
    refine h1.mono' (Continuous.aestronglyMeasurable (by unfold langevin; fun_prop)) (Eventually.of_forall fun w => ?_)
    rw [Real.norm_eq_abs, abs_of_nonneg (sq_nonneg _), sub_zero, ← mul_pow]
    refine pow_le_pow_left₀ (norm_nonneg _) ?_ 2
    unfold langevin
    refine (norm_add_le _ _).trans ?_
    rw [zero_sub, norm_neg, norm_smul, norm_smul, Real.norm_eq_abs, Real.norm_eq_abs, abs_of_pos hδ, abs_of_nonneg (Real.sqrt_nonneg _)]
    have h2 : 0 ≤ δ * ‖G 0‖ * ‖w‖ := by positivity
    have h3 := Real.sqrt_nonneg (2 * δ)
    linarith
  have hsq : SquareContraction (stdGaussian V) (langevin δ G) (fun x y => ‖x - y‖) (1 - δ * c) 0 := by
    refine ⟨⟨hlang.measurable, fun w => hlang.comp (Continuous.prodMk_left w), by nlinarith [h.le], by linarith,
      fun x y => (dist_eq_norm x y).le, fun x y w => ?_, ?_, ?_⟩, fun x y z => norm_sub_le_norm_sub_add_norm_sub x y z, by fun_prop,
      by simp, hn2⟩
    · have e : langevin δ G x w - langevin δ G y w = (x - δ • G x) - (y - δ • G y) := by
        unfold langevin
        abel
      rw [e]
      exact h.contract δ hδ hs x y
    · exact Continuous.measurable (by unfold langevin; fun_prop)
    · have := hn0.2
      rw [hasFiniteIntegral_iff_ofReal (Eventually.of_forall fun w => norm_nonneg _)] at this
      exact this.ne
  obtain ⟨μ, hμ, hfix, -⟩ := contraction_limit hsq.toRandomContraction
  refine ⟨μ, hμ, ?_, hfix⟩
  have := (hsq.stat_moment (seq_driven (stdGaussian V)) μ hfix).1
  simpa using this

end Chain

/-- `e` identifies the real inner product space `V` with a real subspace of the complex vectors. -/
structure RealForm {p : ℕ} {V : Type*} [NormedAddCommGroup V] [InnerProductSpace ℝ V] (e : V → Fin p → ℂ) : Prop where
  cont : Continuous e
  add : ∀ x y, e (x + y) = e x + e y
  smul : ∀ (a : ℝ) x, e (a • x) = fun i => (a : ℂ) * e x i
  inner : ∀ x y, ⟪x, y⟫ = rip (e x) (e y)

section Embed
variable {n p : ℕ} {V : Type*} [NormedAddCommGroup V] [InnerProductSpace ℝ V] {e : V → Fin p → ℂ}

theorem RealForm.sub (he : RealForm e) (x y : V) : e (x - y) = e x - e y := by
  have h1 := he.add (x - y) y
  rw [sub_add_cancel] at h1
  rw [h1]
  abel

theorem RealForm.norm_sq (he : RealForm e) (x y : V) : ‖x - y‖ ^ 2 = Spec.distSq (e x) (e y) := by
  rw [← real_inner_self_eq_norm_sq, he.inner, he.sub, rip_sub]

theorem RealForm.norm (he : RealForm e) (x y : V) : ‖x - y‖ = √(Spec.distSq (e x) (e y)) := by
  rw [← he.norm_sq, Real.sqrt_sq (norm_nonneg _)]

/-- Bounds of a function on the complex vectors by parabolas give a potential. -/
theorem RealForm.potential (he : RealForm e) (Φ : (Fin p → ℂ) → ℝ) (Gc : (Fin p → ℂ) → (Fin p → ℂ)) (c L : ℝ) (hc : 0 < c) (hcL : c ≤ L)
    (hb : ∀ x u, rip (Gc x) (u - x) + c / 2 * Spec.distSq u x ≤ Φ u - Φ x ∧
      Φ u - Φ x ≤ rip (Gc x) (u - x) + L / 2 * Spec.distSq u x) (G : V → V) (hG : ∀ x, e (G x) = Gc (e x)) :
    Potential (fun x => Φ (e x)) G c L := by
  refine ⟨hc, hcL, fun x y => ?_, fun x y => ?_⟩
  · have h1 := (hb (e x) (e y)).1
    rw [he.inner, hG, he.sub, he.norm_sq]
    linarith
  · have h1 := (hb (e x) (e y)).2
    rw [he.inner, hG, he.sub, he.norm_sq]
    linarith

theorem RealForm.step (he : RealForm e) (δ : ℝ) (Gc : (Fin p → ℂ) → (Fin p → ℂ)) (G : V → V) (hG : ∀ x, e (G x) = Gc (e x)) (x w : V) :
    e (langevin δ G x w) = ulaStep δ (fun z => -Gc z) (e x) (e w) := by
  unfold langevin
  rw [he.add, he.sub, he.smul, he.smul, hG]
  funext i
  simp only [ulaStep, Pi.add_apply, Pi.sub_apply, Pi.neg_apply]
  ring

variable [FiniteDimensional ℝ V] [MeasurableSpace V] [BorelSpace V]

/-- The stationary law of the chain on the complex vectors, compared with the target. -/
theorem RealForm.bias (he : RealForm e) (Φ : (Fin p → ℂ) → ℝ) (Gc : (Fin p → ℂ) → (Fin p → ℂ)) (c L : ℝ) (hc : 0 < c) (hcL : c ≤ L)
    (hb : ∀ x u, rip (Gc x) (u - x) + c / 2 * Spec.distSq u x ≤ Φ u - Φ x ∧
      Φ u - Φ x ≤ rip (Gc x) (u - x) + L / 2 * Spec.distSq u x) (G : V → V) (hG : ∀ x, e (G x) = Gc (e x)) (δ : ℝ) (hδ : 0 < δ)
    (hs : δ * (L + c) ≤ 2) (hm : Measurable (Function.uncurry (ulaStep δ fun z => -Gc z)))
    (huniq : ∀ π π' : Measure (Fin p → ℂ), IsProbabilityMeasure π → IsProbabilityMeasure π' →
      stepLaw (ulaStep δ fun z => -Gc z) ((stdGaussian V).map e) π = π →
      stepLaw (ulaStep δ fun z => -Gc z) ((stdGaussian V).map e) π' = π' → π = π')
    (π : Measure (Fin p → ℂ)) [IsProbabilityMeasure π] (hπ : stepLaw (ulaStep δ fun z => -Gc z) ((stdGaussian V).map e) π = π)
    (q : (Fin p → ℂ) → ℝ) (hq : ∀ x y, |q x - q y| ≤ √(Spec.distSq x y)) :
    |∫ z, q z ∂π - ∫ x, q (e x) ∂(gibbs fun x => Φ (e x))| ≤ √δ * biasConst (fun x => Φ (e x)) G c L := by
  have hpot := he.potential Φ Gc c L hc hcL hb G hG
  obtain ⟨μ, hμ, hi, hfix⟩ := langevin_stationary hpot δ hδ hs
  have hem : Measurable e := he.cont.measurable
  have hlang : Measurable (Function.uncurry (langevin δ G)) := by
    have := hpot.contG
    refine Continuous.measurable ?_
    unfold Function.uncurry langevin
    fun_prop
  have hstat : stepLaw (ulaStep δ fun z => -Gc z) ((stdGaussian V).map e) (μ.map e) = μ.map e := by
    conv_rhs => rw [← hfix]
    unfold stepLaw
    rw [Measure.map_prod_map _ _ hem hem, Measure.map_map hm (hem.prodMap hem), Measure.map_map hem hlang]
    congr 1
    funext q
    exact (he.step δ Gc G hG q.1 q.2).symm
  have hpe : IsProbabilityMeasure (μ.map e) := Measure.isProbabilityMeasure_map hem.aemeasurable
  obtain rfl := huniq π (μ.map e) inferInstance hpe hπ hstat
  have hqc : Continuous q := by
    refine (LipschitzWith.of_dist_le_mul (K := NNReal.mk (√p) (Real.sqrt_nonneg _)) fun x y => ?_).continuous
    rw [Real.dist_eq]
    exact (hq x y).trans (sqrt_distSq_le_dist x y)
  rw [integral_map hem.aemeasurable hqc.aestronglyMeasurable]
  exact stationary_bias hpot δ hδ hs μ hi hfix (fun x => q (e x)) fun x y => by
    rw [he.norm]
    exact hq _ _

end Embed

end Pxmcmc
