import Verif.Lemmas.Compare
import Verif.Props.Envelope
import Verif.Props.Operators

/-! # The posterior, its smoothed version and the stationary law of MYULA -/

namespace Pxmcmc
open MeasureTheory ProbabilityTheory Filter
open scoped ENNReal RealInnerProductSpace Topology
variable {n p : ℕ}

/-- The negative log-posterior, up to a constant: half the weighted misfit plus `mu` times the prior. -/
noncomputable def negLogPost (σ : Fin n → ℝ) (d : Fin n → ℂ) (A : (Fin p → ℂ) →ₗ[ℂ] (Fin n → ℂ)) (pri : (Fin p → ℂ) → ℝ) (mu : ℝ)
    (x : Fin p → ℂ) : ℝ :=
  misfit σ d (A x) / 2 + mu * pri x

/-- The expectation of `q` under the law of `e t`, where `t` runs over real coordinates with density proportional to `exp (-U)`. -/
noncomputable def postMean {ι : Type} [Fintype ι] (e : (ι → ℝ) → Fin p → ℂ) (U q : (Fin p → ℂ) → ℝ) : ℝ :=
  (∫ t : ι → ℝ, q (e t) * Real.exp (-U (e t))) / ∫ t : ι → ℝ, Real.exp (-U (e t))

/-- Vectors with real entries. -/
def realVec (t : Fin p → ℝ) : Fin p → ℂ := fun i => ((t i : ℝ) : ℂ)

/-- Vectors with complex entries, given by their real and imaginary parts. -/
def cplxVec (t : Fin p ⊕ Fin p → ℝ) : Fin p → ℂ := fun i => ⟨t (.inl i), t (.inr i)⟩

theorem realForm_real : RealForm (fun x : EuclideanSpace ℝ (Fin p) => realVec x.ofLp) := by
  refine ⟨?_, fun x y => ?_, fun a x => ?_, fun x y => ?_⟩
  · unfold realVec
    fun_prop
  · funext i
    simp [realVec]
  · funext i
    simp [realVec]
  · simp only [PiLp.inner_apply, rip, realVec]
    exact Finset.sum_congr rfl fun i _ => by simp [mul_comm]

theorem realForm_cplx : RealForm (fun x : EuclideanSpace ℝ (Fin p ⊕ Fin p) => cplxVec x.ofLp) := by
  refine ⟨?_, fun x y => ?_, fun a x => ?_, fun x y => ?_⟩
  · unfold cplxVec
    refine continuous_pi fun i => ?_
    have e : (fun x : EuclideanSpace ℝ (Fin p ⊕ Fin p) => (⟨x.ofLp (.inl i), x.ofLp (.inr i)⟩ : ℂ)) =
        fun x => ((x.ofLp (.inl i) : ℝ) : ℂ) + ((x.ofLp (.inr i) : ℝ) : ℂ) * Complex.I := by
      funext x
      apply Complex.ext <;> simp
    rw [e]
    fun_prop
  · funext i
    apply Complex.ext <;> simp [cplxVec]
  · funext i
    apply Complex.ext <;> simp [cplxVec]
  · simp only [PiLp.inner_apply, rip, cplxVec, Fintype.sum_sum_type, ← Finset.sum_add_distrib]
    exact Finset.sum_congr rfl fun i _ => by simp [mul_comm]

/-- The envelope of a Lipschitz function is close to it. -/
theorem moreau_close (g : (Fin p → ℂ) → ℝ) (ell : ℝ) (hg : ∀ x y, |g x - g y| ≤ ell * √(Spec.distSq x y)) (lmda : ℝ) (hl : 0 < lmda)
    (x : Fin p → ℂ) : Spec.moreau g lmda x ≤ g x ∧ g x ≤ Spec.moreau g lmda x + lmda * ell ^ 2 / 2 := by
  have hlow : ∀ u : Fin p → ℂ, g x - lmda * ell ^ 2 / 2 ≤ g u + Spec.distSq u x / (2 * lmda) := by
    intro u
    have h1 := hg x u
    have e : Spec.distSq x u = Spec.distSq u x := by
      unfold Spec.distSq
      exact Finset.sum_congr rfl fun i _ => by rw [norm_sub_rev]
    rw [e] at h1
    have h0 : 0 ≤ Spec.distSq u x := Finset.sum_nonneg fun i _ => sq_nonneg _
    set d := √(Spec.distSq u x) with hd
    have hdd : Spec.distSq u x = d ^ 2 := (Real.sq_sqrt h0).symm
    rw [hdd]
    have h2 : 0 ≤ (lmda * ell - d) ^ 2 / (2 * lmda) := by positivity
    have h3 : lmda * ell ^ 2 / 2 + d ^ 2 / (2 * lmda) - ell * d = (lmda * ell - d) ^ 2 / (2 * lmda) := by
      field_simp
      ring
    have := le_abs_self (g x - g u)
    linarith
  have hup : Spec.moreau g lmda x ≤ g x := by
    refine (ciInf_le ⟨g x - lmda * ell ^ 2 / 2, ?_⟩ x).trans (by simp [Spec.distSq])
    rintro _ ⟨u, rfl⟩
    exact hlow u
  have h4 := le_ciInf hlow
  unfold Spec.moreau at *
  constructor <;> linarith

/-- A linear forward operator with `c ≤ A* W A ≤ Lf` determines the parameters. -/
theorem linear_identifiable (M : Sampler n) (σ : Fin n → ℝ) (d : Fin n → ℂ) (A : (Fin p → ℂ) →ₗ[ℂ] (Fin n → ℂ))
    (At : (Fin n → ℂ) → (Fin p → ℂ)) (hadj : Spec.IsAdjointPair A At) (c Lf : ℝ) (hc : 0 < c) (hcL : c ≤ Lf)
    (hlow : ∀ v, c * Spec.distSq v 0 ≤ misfit σ 0 (A v)) (hup : ∀ v, misfit σ 0 (A v) ≤ Lf * Spec.distSq v 0)
    (prox : (Fin p → ℂ) → (Fin p → ℂ)) (g : (Fin p → ℂ) → ℝ) (hg : ConvexOn ℝ Set.univ g) (hprox : ∀ x, Spec.IsProx g x (prox x))
    (hl : 0 < M.par.lmda) (hd : 0 < M.par.delta) (hs : M.par.delta * (1 / M.par.lmda + Lf + c) ≤ 2) :
    ∃ Q, Identifiable M A (fun y => At ((Matrix.diagonal fun i => ((1 / σ i ^ 2 : ℝ) : ℂ)).mulVec (y - d))) prox g Q c Lf := by
  set W : Matrix (Fin n) (Fin n) ℂ := Matrix.diagonal fun i => ((1 / σ i ^ 2 : ℝ) : ℂ) with hW
  set B := LinearMap.toMatrix' A with hB
  have hAB : ∀ x, A x = B.mulVec x := fun x => by rw [hB, LinearMap.toMatrix'_mulVec]
  have hAt : ∀ y, At y = B.conjTranspose.mulVec y := by
    intro y
    funext i
    have h1 := hadj (Pi.single i 1) y
    rw [hAB, inner_mulVec] at h1
    have e : ∀ z : Fin p → ℂ, Spec.inner z (Pi.single i 1) = (starRingEnd ℂ) (z i) := by
      intro z
      rw [Spec.inner, Finset.sum_eq_single i]
      · simp
      · intro j _ hj
        simp [hj]
      · simp
    rw [e, e] at h1
    exact (starRingEnd ℂ).injective h1.symm
  have hWh : W.conjTranspose = W := by
    rw [hW, Matrix.diagonal_conjTranspose]
    congr 1
    funext i
    simp
  have hform : ∀ v, (Spec.inner v ((B.conjTranspose * W * B).mulVec v)).re = misfit σ 0 (A v) := by
    intro v
    rw [← Matrix.mulVec_mulVec, ← Matrix.mulVec_mulVec, inner_mulVec, Matrix.conjTranspose_conjTranspose, ← hAB, hW, inner_diagonal,
      Complex.re_sum]
    unfold misfit
    refine Finset.sum_congr rfl fun i _ => ?_
    rw [← Complex.ofReal_mul, Complex.ofReal_re]
    simp
    ring
  refine ⟨B.conjTranspose * W * B, hg, hprox, ?_, fun v => by rw [hform]; exact hlow v, fun v => by rw [hform]; exact hup v,
    fun x y => ?_, hc, hcL, hl, hd, hs⟩
  · rw [Matrix.IsHermitian, Matrix.conjTranspose_mul, Matrix.conjTranspose_mul, Matrix.conjTranspose_conjTranspose, hWh, Matrix.mul_assoc]
  · rw [hAt, hAt, ← Matrix.mulVec_sub, ← Matrix.mulVec_sub, ← Matrix.mulVec_mulVec, ← Matrix.mulVec_mulVec, hAB, hAB]
    congr 2
    rw [Matrix.mulVec_sub]
    abel

/-- The smoothed negative log-posterior lies between two parabolas. -/
theorem smoothed_bounds (σ : Fin n → ℝ) (d : Fin n → ℂ) (A : (Fin p → ℂ) →ₗ[ℂ] (Fin n → ℂ)) (At : (Fin n → ℂ) → (Fin p → ℂ))
    (hadj : Spec.IsAdjointPair A At) (c Lf : ℝ) (hlow : ∀ v, c * Spec.distSq v 0 ≤ misfit σ 0 (A v))
    (hup : ∀ v, misfit σ 0 (A v) ≤ Lf * Spec.distSq v 0) (pri : (Fin p → ℂ) → ℝ) (hconv : ConvexOn ℝ Set.univ pri) (mu lmda : ℝ)
    (hmu : 0 ≤ mu) (hl : 0 < lmda) (prox : (Fin p → ℂ) → (Fin p → ℂ)) (hprox : ∀ x, Spec.IsProx (fun u => lmda * mu * pri u) x (prox x))
    (x u : Fin p → ℂ) :
    rip (-gradVec lmda A (fun y => At ((Matrix.diagonal fun i => ((1 / σ i ^ 2 : ℝ) : ℂ)).mulVec (y - d))) prox x) (u - x) +
        c / 2 * Spec.distSq u x ≤ smoothed σ d A pri mu lmda u - smoothed σ d A pri mu lmda x ∧
      smoothed σ d A pri mu lmda u - smoothed σ d A pri mu lmda x ≤
        rip (-gradVec lmda A (fun y => At ((Matrix.diagonal fun i => ((1 / σ i ^ 2 : ℝ) : ℂ)).mulVec (y - d))) prox x) (u - x) +
        (1 / lmda + Lf) / 2 * Spec.distSq u x := by
  have hconv' : ConvexOn ℝ Set.univ (fun u => mu * pri u) := by
    have := hconv.smul hmu
    simpa [Pi.smul_def] using this
  have hprox3 : ∀ u, Spec.IsProx (fun u => lmda * (mu * pri u)) u (prox u) := by
    intro u
    simpa only [mul_assoc] using hprox u
  have hGrip : ∀ v, rip (-gradVec lmda A (fun y => At ((Matrix.diagonal fun i => ((1 / σ i ^ 2 : ℝ) : ℂ)).mulVec (y - d))) prox x) v =
      rip (x - prox x) v / lmda + rip (At ((Matrix.diagonal fun i => ((1 / σ i ^ 2 : ℝ) : ℂ)).mulVec (A x - d))) v := by
    intro v
    have : -gradVec lmda A (fun y => At ((Matrix.diagonal fun i => ((1 / σ i ^ 2 : ℝ) : ℂ)).mulVec (y - d))) prox x =
        (fun i => ((lmda⁻¹ : ℝ) : ℂ) * (x - prox x) i) +
        At ((Matrix.diagonal fun i => ((1 / σ i ^ 2 : ℝ) : ℂ)).mulVec (A x - d)) := by
      funext i
      rw [Pi.neg_apply, Pi.add_apply, gradVec, Pi.sub_apply, Complex.ofReal_inv]
      ring
    rw [this, rip_add_left, rip_smul_left]
    ring
  obtain ⟨k1, k2⟩ := moreau_bounds _ hconv' lmda hl x u _ _ (hprox3 x) (hprox3 u)
  have k3 := misfit_expand σ d A At hadj x u
  have k4 := hlow (u - x)
  have k5 := hup (u - x)
  have e : Spec.distSq (u - x) 0 = Spec.distSq u x := by rw [← rip_self, rip_sub]
  rw [e] at k4 k5
  have e2 : (1 / lmda + Lf) / 2 * Spec.distSq u x = Spec.distSq u x / (2 * lmda) + Lf * Spec.distSq u x / 2 := by
    field_simp
  rw [hGrip, e2]
  unfold smoothed
  constructor <;> linarith

theorem misfit_continuous (σ : Fin n → ℝ) (d : Fin n → ℂ) (A : (Fin p → ℂ) →ₗ[ℂ] (Fin n → ℂ)) :
    Continuous fun x => misfit σ d (A x) := by
  have := A.continuous_of_finiteDimensional
  unfold misfit
  fun_prop

theorem lip_continuous (q : (Fin p → ℂ) → ℝ) (ell : ℝ) (hq : ∀ x y, |q x - q y| ≤ ell * √(Spec.distSq x y)) : Continuous q := by
  refine (LipschitzWith.of_dist_le_mul (K := NNReal.mk (|ell| * √p) (by positivity)) fun x y => ?_).continuous
  rw [Real.dist_eq]
  refine (hq x y).trans ?_
  calc ell * √(Spec.distSq x y) ≤ |ell| * √(Spec.distSq x y) := mul_le_mul_of_nonneg_right (le_abs_self _) (Real.sqrt_nonneg _)
    _ ≤ |ell| * (√p * dist x y) := mul_le_mul_of_nonneg_left (sqrt_distSq_le_dist x y) (abs_nonneg _)
    _ = _ := by rw [← mul_assoc]; rfl

/-- The stationary law of MYULA is close to the posterior: a term of order `√δ` and a term of order `lmda`. -/
theorem posterior_bias {ι : Type} [Fintype ι] {e : EuclideanSpace ℝ ι → Fin p → ℂ} (he : RealForm e) (σ : Fin n → ℝ) (d : Fin n → ℂ)
    (A : (Fin p → ℂ) →ₗ[ℂ] (Fin n → ℂ)) (At : (Fin n → ℂ) → (Fin p → ℂ)) (hadj : Spec.IsAdjointPair A At) (c Lf : ℝ) (hc : 0 < c)
    (hcL : c ≤ Lf) (hlow : ∀ v, c * Spec.distSq v 0 ≤ misfit σ 0 (A v)) (hup : ∀ v, misfit σ 0 (A v) ≤ Lf * Spec.distSq v 0)
    (pri : (Fin p → ℂ) → ℝ) (hconv : ConvexOn ℝ Set.univ pri) (ell : ℝ) (hlip : ∀ x y, |pri x - pri y| ≤ ell * √(Spec.distSq x y))
    (mu : ℝ) (hmu : 0 ≤ mu) (prox : ℝ → (Fin p → ℂ) → (Fin p → ℂ))
    (hprox : ∀ lmda, 0 < lmda → ∀ x, Spec.IsProx (fun u => lmda * mu * pri u) x (prox lmda x))
    (hreal : ∀ lmda, 0 < lmda → ∀ x, ∃ y, e y = -gradVec lmda A
      (fun y => At ((Matrix.diagonal fun i => ((1 / σ i ^ 2 : ℝ) : ℂ)).mulVec (y - d))) (prox lmda) (e x)) :
    0 < ∫ t : ι → ℝ, Real.exp (-negLogPost σ d A pri mu (e (WithLp.toLp 2 t))) ∧
    ∃ m, ∀ lmda, 0 < lmda → ∃ C, ∀ δ, 0 < δ → δ * (1 / lmda + Lf + c) ≤ 2 → ∀ π : Measure (Fin p → ℂ), IsProbabilityMeasure π →
      stepLaw (ulaStep δ (gradVec lmda A (fun y => At ((Matrix.diagonal fun i => ((1 / σ i ^ 2 : ℝ) : ℂ)).mulVec (y - d))) (prox lmda)))
        ((stdGaussian (EuclideanSpace ℝ ι)).map e) π = π →
      ∀ q : (Fin p → ℂ) → ℝ, (∀ x y, |q x - q y| ≤ √(Spec.distSq x y)) →
      |∫ z, q z ∂π - postMean (fun t => e (WithLp.toLp 2 t)) (negLogPost σ d A pri mu) q| ≤
        √δ * C + (Real.exp (lmda * (mu * ell) ^ 2 / 2) - 1) * m := by
  have hmulip : ∀ x y, |mu * pri x - mu * pri y| ≤ mu * ell * √(Spec.distSq x y) := by
    intro x y
    rw [← mul_sub, abs_mul, abs_of_nonneg hmu, mul_assoc]
    exact mul_le_mul_of_nonneg_left (hlip x y) hmu
  have hpos : ∀ lmda, 0 < lmda → 0 < 1 / lmda + Lf := fun lmda hl => by
    have := one_div_pos.mpr hl
    linarith
  have hpot : ∀ lmda, 0 < lmda → ∃ G : EuclideanSpace ℝ ι → EuclideanSpace ℝ ι,
      (∀ x, e (G x) = -gradVec lmda A (fun y => At ((Matrix.diagonal fun i => ((1 / σ i ^ 2 : ℝ) : ℂ)).mulVec (y - d))) (prox lmda) (e x)) ∧
      Potential (fun x => smoothed σ d A pri mu lmda (e x)) G c (1 / lmda + Lf) := by
    intro lmda hl
    choose G hG using hreal lmda hl
    refine ⟨G, hG, he.potential _ (fun x => -gradVec lmda A (fun y => At ((Matrix.diagonal fun i => ((1 / σ i ^ 2 : ℝ) : ℂ)).mulVec (y - d)))
      (prox lmda) x) c (1 / lmda + Lf) hc ?_ (fun x u => ?_) G hG⟩
    · have := one_div_pos.mpr hl
      linarith
    · exact smoothed_bounds σ d A At hadj c Lf hlow hup pri hconv mu lmda hmu hl (prox lmda) (hprox lmda hl) x u
  have hec := he.cont
  have htc : Continuous fun t : ι → ℝ => e (WithLp.toLp 2 t) := hec.comp (PiLp.continuous_toLp 2 _)
  have hpm : Continuous pri := lip_continuous pri ell hlip
  have hUc : Continuous fun t : ι → ℝ => negLogPost σ d A pri mu (e (WithLp.toLp 2 t)) := by
    unfold negLogPost
    exact (((misfit_continuous σ d A).comp htc).div_const 2).add ((hpm.comp htc).const_mul mu)
  have hsand : ∀ lmda, 0 < lmda → ∀ x, smoothed σ d A pri mu lmda x ≤ negLogPost σ d A pri mu x ∧
      negLogPost σ d A pri mu x ≤ smoothed σ d A pri mu lmda x + lmda * (mu * ell) ^ 2 / 2 := by
    intro lmda hl x
    obtain ⟨h1, h2⟩ := moreau_close (fun u => mu * pri u) (mu * ell) hmulip lmda hl x
    unfold smoothed negLogPost
    constructor <;> linarith
  have hp := PiLp.volume_preserving_toLp ι
  have hme : MeasurableEmbedding (@WithLp.toLp 2 (ι → ℝ)) := (MeasurableEquiv.toLp 2 (ι → ℝ)).measurableEmbedding
  have hint : ∀ lmda, 0 < lmda → Integrable (fun t : ι → ℝ => Real.exp (-smoothed σ d A pri mu lmda (e (WithLp.toLp 2 t)))) := by
    intro lmda hl
    obtain ⟨G, -, hG⟩ := hpot lmda hl
    exact (hp.integrable_comp_emb hme).mpr hG.integrable_exp
  have hint1 : ∀ lmda, 0 < lmda → Integrable (fun t : ι → ℝ => ‖WithLp.toLp 2 t‖ *
      Real.exp (-smoothed σ d A pri mu lmda (e (WithLp.toLp 2 t)))) := by
    intro lmda hl
    obtain ⟨G, -, hG⟩ := hpot lmda hl
    have hGU := hG.contU
    refine (hp.integrable_comp_emb (g := fun x => ‖x‖ * Real.exp (-smoothed σ d A pri mu lmda (e x))) hme).mpr ?_
    refine (hG.integrable_pow 1).mono' (Continuous.aestronglyMeasurable (by fun_prop)) (Eventually.of_forall fun x => ?_)
    rw [Real.norm_eq_abs, abs_of_nonneg (by positivity), pow_one]
    exact mul_le_mul_of_nonneg_right (by linarith) (Real.exp_pos _).le
  have hZ : 0 < ∫ t : ι → ℝ, Real.exp (-negLogPost σ d A pri mu (e (WithLp.toLp 2 t))) := by
    refine integral_exp_pos ?_
    refine (hint 1 one_pos).mono' (Continuous.aestronglyMeasurable (by fun_prop)) (Eventually.of_forall fun t => ?_)
    rw [Real.norm_eq_abs, abs_of_pos (Real.exp_pos _)]
    exact Real.exp_le_exp.mpr (by linarith [(hsand 1 one_pos (e (WithLp.toLp 2 t))).1])
  refine ⟨hZ, (∫ t : ι → ℝ, ‖WithLp.toLp 2 t‖ * Real.exp (-negLogPost σ d A pri mu (e (WithLp.toLp 2 t)))) /
    ∫ t : ι → ℝ, Real.exp (-negLogPost σ d A pri mu (e (WithLp.toLp 2 t))), fun lmda hl => ?_⟩
  obtain ⟨G, hG, hP⟩ := hpot lmda hl
  refine ⟨biasConst (fun x => smoothed σ d A pri mu lmda (e x)) G c (1 / lmda + Lf), fun δ hδ hs π hπ hfix q hq => ?_⟩
  have hqc : Continuous q := lip_continuous q 1 fun x y => by rw [one_mul]; exact hq x y
  -- the term from the step size
  obtain ⟨F0⟩ : Nonempty (Sampler n) := ⟨⟨⟨⟨false, d⟩, 0, .analysis, none, none, none⟩, ⟨fun _ => .ok 0, fun x => .ok x⟩,
    ⟨1, 1, 1, 1, 1, 1, 1, false, 0, []⟩, 0⟩⟩
  have hglc : ConvexOn ℝ Set.univ fun u => lmda * mu * pri u := by
    have := hconv.smul (mul_nonneg hl.le hmu)
    simpa [Pi.smul_def] using this
  obtain ⟨Q, hid⟩ := linear_identifiable { F0 with par := { F0.par with lmda := lmda, delta := δ } } σ d A At hadj c Lf hc hcL hlow hup
    (prox lmda) _ hglc (hprox lmda hl) hl hδ hs
  have hem : Measurable e := hec.measurable
  have hνp : IsProbabilityMeasure ((stdGaussian (EuclideanSpace ℝ ι)).map e) := Measure.isProbabilityMeasure_map hem.aemeasurable
  have hν : ∫⁻ w, ‖w‖ₑ ∂((stdGaussian (EuclideanSpace ℝ ι)).map e) ≠ ⊤ := by
    rw [lintegral_map measurable_enorm hem]
    have h1 := (stdGaussian_norm (V := EuclideanSpace ℝ ι)).2
    rw [hasFiniteIntegral_iff_ofReal (Eventually.of_forall fun w => norm_nonneg _)] at h1
    refine ne_top_of_le_ne_top h1.ne (lintegral_mono fun w => ?_)
    rw [← ofReal_norm]
    refine ENNReal.ofReal_le_ofReal ?_
    have h2 := sqrt_distSq_le (e w) (e 0)
    rw [← he.norm, sub_zero, dist_eq_norm, ← he.sub, sub_zero] at h2
    exact h2
  have hrc := myula_contraction hid _ hν 0
  have hneg : (fun z => - -gradVec lmda A (fun y => At ((Matrix.diagonal fun i => ((1 / σ i ^ 2 : ℝ) : ℂ)).mulVec (y - d))) (prox lmda) z) =
      gradVec lmda A (fun y => At ((Matrix.diagonal fun i => ((1 / σ i ^ 2 : ℝ) : ℂ)).mulVec (y - d))) (prox lmda) := by
    funext z
    exact neg_neg _
  have h1 := he.bias (smoothed σ d A pri mu lmda) (fun x => -gradVec lmda A (fun y => At ((Matrix.diagonal fun i =>
    ((1 / σ i ^ 2 : ℝ) : ℂ)).mulVec (y - d))) (prox lmda) x) c (1 / lmda + Lf) hc hP.le
    (fun x u => smoothed_bounds σ d A At hadj c Lf hlow hup pri hconv mu lmda hmu hl (prox lmda) (hprox lmda hl) x u) G hG δ hδ hs
    (by rw [hneg]; exact hrc.meas)
    (by rw [hneg]; exact fun π π' _ _ e1 e2 => contraction_unique hrc π π' e1 e2) π (by rw [hneg]; exact hfix) q hq
  rw [gibbs_mean] at h1
  -- the term from the smoothing
  have h2 := compare_means (volume : Measure (ι → ℝ)) (fun t => negLogPost σ d A pri mu (e (WithLp.toLp 2 t)))
    (fun t => smoothed σ d A pri mu lmda (e (WithLp.toLp 2 t))) (fun t => q (e (WithLp.toLp 2 t))) (fun t => ‖WithLp.toLp 2 t‖)
    (lmda * (mu * ell) ^ 2 / 2) (q (e 0)) (fun t => hsand lmda hl _) hUc.measurable (hqc.comp htc).measurable
    (Continuous.measurable (by fun_prop)) (hint lmda hl) (hint1 lmda hl) hZ (fun t => by
      have h3 := hq (e (WithLp.toLp 2 t)) (e 0)
      rwa [← he.norm, sub_zero] at h3)
  unfold postMean
  refine (abs_sub_le _ _ _).trans (add_le_add h1 h2)

end Pxmcmc
