import Verif.Lemmas.Target
import Verif.Props.DenoiseLimit

/-! # Property C120: MYULA samples the posterior up to an error that the two tuning parameters control -/

namespace Pxmcmc
open MeasureTheory ProbabilityTheory Filter
open scoped ENNReal Topology
variable {n p : ℕ}

theorem normalLaw_std : (stdGaussian (EuclideanSpace ℝ (Fin p))).map (fun x => realVec x.ofLp) = normalLaw p := by
  have hm : Measurable fun x : EuclideanSpace ℝ (Fin p) => realVec x.ofLp := realForm_real.cont.measurable
  rw [← map_pi_eq_stdGaussian, Measure.map_map hm (PiLp.continuous_toLp 2 _).measurable]
  rfl

/-- The law of `np.random.randn(p) + 1j * np.random.randn(p)`. -/
noncomputable def cplxNormalLaw (p : ℕ) : Measure (Fin p → ℂ) :=
  (Measure.pi fun _ : Fin p ⊕ Fin p => gaussianReal 0 1).map cplxVec

theorem cplxNormalLaw_std : (stdGaussian (EuclideanSpace ℝ (Fin p ⊕ Fin p))).map (fun x => cplxVec x.ofLp) = cplxNormalLaw p := by
  have hm : Measurable fun x : EuclideanSpace ℝ (Fin p ⊕ Fin p) => cplxVec x.ofLp := realForm_cplx.cont.measurable
  rw [← map_pi_eq_stdGaussian, Measure.map_map hm (PiLp.continuous_toLp 2 _).measurable]
  rfl

/-- The adjoint of an operator that maps real vectors to real vectors does so, too. -/
theorem adjoint_real (A : (Fin p → ℂ) →ₗ[ℂ] (Fin n → ℂ)) (At : (Fin n → ℂ) → (Fin p → ℂ)) (hadj : Spec.IsAdjointPair A At)
    (hAr : ∀ x, (∀ i, (x i).im = 0) → ∀ i, (A x i).im = 0) (y : Fin n → ℂ) (hy : ∀ i, (y i).im = 0) (i : Fin p) : (At y i).im = 0 := by
  have h1 := hadj (Pi.single i 1) y
  have e : Spec.inner (At y) (Pi.single i 1) = (starRingEnd ℂ) (At y i) := by
    rw [Spec.inner, Finset.sum_eq_single i]
    · simp
    · intro j _ hj
      simp [hj]
    · simp
  rw [e] at h1
  have h2 : (Spec.inner y (A (Pi.single i 1))).im = 0 := by
    unfold Spec.inner
    rw [Complex.im_sum]
    refine Finset.sum_eq_zero fun j _ => ?_
    have h3 := hAr (Pi.single i 1) (fun k => by
      by_cases hk : k = i
      · subst hk
        simp
      · simp [hk]) j
    simp [Complex.mul_im, hy j, h3]
  rw [h1] at h2
  simpa using h2

/-- The proximal point of a real vector is real if the function does not change under complex conjugation. -/
theorem prox_real (g : (Fin p → ℂ) → ℝ) (hg : ∀ u, g (fun i => (starRingEnd ℂ) (u i)) = g u) (x a : Fin p → ℂ) (ha : Spec.IsProx g x a)
    (hx : ∀ i, (x i).im = 0) (i : Fin p) : (a i).im = 0 := by
  by_contra hne
  have h1 := ha (fun i => (starRingEnd ℂ) (a i)) fun h => hne (by
    have := congrArg Complex.im (congrFun h i)
    simp at this
    linarith)
  rw [hg] at h1
  have e : Spec.distSq (fun i => (starRingEnd ℂ) (a i)) x = Spec.distSq a x := by
    unfold Spec.distSq
    refine Finset.sum_congr rfl fun j _ => ?_
    have : (starRingEnd ℂ) (a j) - x j = (starRingEnd ℂ) (a j - x j) := by
      rw [map_sub, Complex.conj_eq_iff_im.mpr (hx j)]
    rw [this, RCLike.norm_conj]
  rw [e] at h1
  exact lt_irrefl _ h1

/-- What `ForwardOp.init` stores. -/
theorem forward_stored (data : DataVec n) (hd : data.cplx = false) (sig : SigD) (σ : Fin n → ℝ) (hσ : IsSigma n sig σ) (s : String)
    (t m : Option OpPair) (np : Option ℕ) (F : ForwardOp n) (hF : ForwardOp.init data sig s t m np = .ok F) :
    F.data = data ∧ F.invcov = Matrix.diagonal fun i => ((1 / σ i ^ 2 : ℝ) : ℂ) := by
  obtain ⟨W, hW, -, rfl⟩ := C35_diagonal data hd sig σ hσ
  unfold ForwardOp.init at hF
  rw [hW] at hF
  simp only [Bind.bind, Except.bind] at hF
  split at hF
  · cases hF
  · rw [← Except.ok.inj hF]
    exact ⟨rfl, rfl⟩

/-- C120 for real samplers.  Let the data and the forward operator be real with `c ‖v‖² ≤ misfit(A v) ≤ Lf ‖v‖²`, `c > 0`, the prior
convex and Lipschitz with constant `ell`, and let `proxf` be the proximal map of `lmda*mu*prior`.  If `np.random.randn` delivers
independent standard normals, MYULA with a step size `delta*(1/lmda + Lf + c) ≤ 2` has exactly one stationary law, and the expectation of
every quantity with Lipschitz constant 1 under this law differs from its posterior expectation, for the posterior density proportional to
`exp(-misfit/2 - mu*prior)` on `ℝ^p`, by at most `√delta * C + (exp(lmda*(mu*ell)²/2) - 1) * m`.  Here `C` does not depend on `delta`, and
`m` depends on neither `delta` nor `lmda`. -/
theorem C120_real (data : DataVec n) (hd : data.cplx = false) (hdr : ∀ i, (data.vals i).im = 0) (sig : SigD) (σ : Fin n → ℝ)
    (hσ : IsSigma n sig σ) (s : String) (t m : Option OpPair) (np : Option ℕ) (F : ForwardOp n)
    (hF : ForwardOp.init data sig s t m np = .ok F) (A : (Fin p → ℂ) →ₗ[ℂ] (Fin n → ℂ)) (At : (Fin n → ℂ) → (Fin p → ℂ))
    (hA : LinModel F A At) (hAr : ∀ x, (∀ i, (x i).im = 0) → ∀ i, (A x i).im = 0) (c Lf : ℝ) (hc : 0 < c) (hcL : c ≤ Lf)
    (hlow : ∀ v, c * Spec.distSq v 0 ≤ misfit σ 0 (A v)) (hup : ∀ v, misfit σ 0 (A v) ≤ Lf * Spec.distSq v 0)
    (pri : (Fin p → ℂ) → ℝ) (hconv : ConvexOn ℝ Set.univ pri) (ell : ℝ) (hlip : ∀ x y, |pri x - pri y| ≤ ell * √(Spec.distSq x y))
    (hsym : ∀ u, pri (fun i => (starRingEnd ℂ) (u i)) = pri u) (mu : ℝ) (hmu : 0 ≤ mu) (Pr : ℝ → PriorObj)
    (hpri : ∀ lmda, 0 < lmda → ∀ x, (Pr lmda).prior (List.ofFn x) = .ok (pri x))
    (hprox : ∀ lmda, 0 < lmda → ∀ x : Fin p → ℂ, ∃ a, (Pr lmda).proxf (List.ofFn x) = .ok (List.ofFn a) ∧
      Spec.IsProx (fun u => lmda * mu * pri u) x a)
    (R : Rng) {Ω : Type} [MeasurableSpace Ω] (P : Measure Ω) [IsProbabilityMeasure P] (r : Ω → R.σ) (hr : NormalStream R p P r) :
    0 < ∫ t : Fin p → ℝ, Real.exp (-negLogPost σ data.vals A pri mu (realVec t)) ∧
    ∃ m, ∀ lmda, 0 < lmda → ∃ C, ∀ M : Sampler n, M.F = F → M.P = Pr lmda → M.nparams = p → M.par.complex = false → M.par.lmda = lmda →
      0 < M.par.delta → M.par.delta * (1 / lmda + Lf + c) ≤ 2 →
      ∃ π : Measure (Fin p → ℂ), IsProbabilityMeasure π ∧ StationaryLaw M R (normalLaw p) π ∧
        (∀ π' : Measure (Fin p → ℂ), IsProbabilityMeasure π' → StationaryLaw M R (normalLaw p) π' → π' = π) ∧
        ∀ q : (Fin p → ℂ) → ℝ, (∀ x y, |q x - q y| ≤ √(Spec.distSq x y)) →
          |∫ z, q z ∂π - postMean realVec (negLogPost σ data.vals A pri mu) q| ≤
            √M.par.delta * C + (Real.exp (lmda * (mu * ell) ^ 2 / 2) - 1) * m := by
  obtain ⟨hFd, hFi⟩ := forward_stored data hd sig σ hσ s t m np F hF
  choose! prox hprox1 hprox2 using hprox
  obtain ⟨hZ, m, hm⟩ := posterior_bias realForm_real σ data.vals A At hA.adj c Lf hc hcL hlow hup pri hconv ell hlip mu hmu prox hprox2 (by
    intro lmda hl x
    have hx : ∀ i, (realVec x.ofLp i).im = 0 := fun i => by simp [realVec]
    have h1 : ∀ i, (prox lmda (realVec x.ofLp) i).im = 0 :=
      prox_real _ (fun u => by simp only [hsym u]) _ _ (hprox2 lmda hl _) hx
    have h2 : ∀ i, (At ((Matrix.diagonal fun i => ((1 / σ i ^ 2 : ℝ) : ℂ)).mulVec (A (realVec x.ofLp) - data.vals)) i).im = 0 :=
      adjoint_real A At hA.adj hAr _ fun i => by
        rw [Matrix.mulVec_diagonal, Complex.im_ofReal_mul, Pi.sub_apply, Complex.sub_im, hAr _ hx, hdr]
        simp
    refine ⟨WithLp.toLp 2 fun i => (-gradVec lmda A (fun y => At ((Matrix.diagonal fun i => ((1 / σ i ^ 2 : ℝ) : ℂ)).mulVec (y - data.vals)))
      (prox lmda) (realVec x.ofLp) i).re, ?_⟩
    funext i
    refine Complex.ext ?_ ?_
    · simp [realVec]
    · have h3 := h2 i
      rw [Pi.neg_apply]
      simp only [gradVec, Complex.neg_im, Complex.sub_im, h3]
      rw [Complex.div_ofReal_im, Complex.sub_im, h1, hx]
      simp [realVec])
  refine ⟨hZ, m, fun lmda hl => ?_⟩
  obtain ⟨C, hC⟩ := hm lmda hl
  refine ⟨C, fun M hMF hMP hMn hMc hMl hδ hs => ?_⟩
  have hglc : ConvexOn ℝ Set.univ fun u => lmda * mu * pri u := by
    have := hconv.smul (mul_nonneg hl.le hmu)
    simpa [Pi.smul_def] using this
  have tot : Total M p A (fun y => At ((Matrix.diagonal fun i => ((1 / σ i ^ 2 : ℝ) : ℂ)).mulVec (y - data.vals))) (prox lmda) pri := by
    refine ⟨hMn, ?_, fun y => ?_, ?_, ?_, by rw [hMl]; exact hl.ne'⟩
    · rw [hMF]
      exact hA.fwd
    · rw [hMF, hA.grad, hFi, hFd]
    · rw [hMP]
      exact hprox1 lmda hl
    · rw [hMP]
      exact hpri lmda hl
  obtain ⟨Q, hid⟩ := linear_identifiable M σ data.vals A At hA.adj c Lf hc hcL hlow hup (prox lmda) _ hglc (hprox2 lmda hl)
    (by rw [hMl]; exact hl) hδ (by rw [hMl]; exact hs)
  have hns : NoiseStream R M.par.complex p P r (normalLaw p) := by
    rw [hMc]
    exact C99_normal_noise R P r hr
  have hνp : IsProbabilityMeasure (normalLaw p) := by
    rw [← hns.law 0]
    exact Measure.isProbabilityMeasure_map (hns.meas 0).aemeasurable
  obtain ⟨π, hπ, hst, hu, -⟩ := C99_ergodic R tot hid P r (normalLaw p) hns
  refine ⟨π, hπ, hst, hu, fun q hq => ?_⟩
  have hfix := (stationary_iff R tot hid P r _ hns π).mp hst
  rw [hMl] at hfix
  exact hC M.par.delta hδ hs π hπ (by rw [normalLaw_std]; exact hfix) q hq

/-- C120 for complex samplers (`complex=True`), whose noise has independent standard normal real and imaginary parts: the same bound, for
the posterior density on `ℂ^p`.  Operator and prior need not be real. -/
theorem C120_complex (data : DataVec n) (hd : data.cplx = false) (sig : SigD) (σ : Fin n → ℝ)
    (hσ : IsSigma n sig σ) (s : String) (t m : Option OpPair) (np : Option ℕ) (F : ForwardOp n)
    (hF : ForwardOp.init data sig s t m np = .ok F) (A : (Fin p → ℂ) →ₗ[ℂ] (Fin n → ℂ)) (At : (Fin n → ℂ) → (Fin p → ℂ))
    (hA : LinModel F A At) (c Lf : ℝ) (hc : 0 < c) (hcL : c ≤ Lf)
    (hlow : ∀ v, c * Spec.distSq v 0 ≤ misfit σ 0 (A v)) (hup : ∀ v, misfit σ 0 (A v) ≤ Lf * Spec.distSq v 0)
    (pri : (Fin p → ℂ) → ℝ) (hconv : ConvexOn ℝ Set.univ pri) (ell : ℝ) (hlip : ∀ x y, |pri x - pri y| ≤ ell * √(Spec.distSq x y))
    (mu : ℝ) (hmu : 0 ≤ mu) (Pr : ℝ → PriorObj) (hpri : ∀ lmda, 0 < lmda → ∀ x, (Pr lmda).prior (List.ofFn x) = .ok (pri x))
    (hprox : ∀ lmda, 0 < lmda → ∀ x : Fin p → ℂ, ∃ a, (Pr lmda).proxf (List.ofFn x) = .ok (List.ofFn a) ∧
      Spec.IsProx (fun u => lmda * mu * pri u) x a)
    (R : Rng) {Ω : Type} [MeasurableSpace Ω] (P : Measure Ω) [IsProbabilityMeasure P] (r : Ω → R.σ)
    (hr : NoiseStream R true p P r (cplxNormalLaw p)) :
    0 < ∫ t : Fin p ⊕ Fin p → ℝ, Real.exp (-negLogPost σ data.vals A pri mu (cplxVec t)) ∧
    ∃ m, ∀ lmda, 0 < lmda → ∃ C, ∀ M : Sampler n, M.F = F → M.P = Pr lmda → M.nparams = p → M.par.complex = true → M.par.lmda = lmda →
      0 < M.par.delta → M.par.delta * (1 / lmda + Lf + c) ≤ 2 →
      ∃ π : Measure (Fin p → ℂ), IsProbabilityMeasure π ∧ StationaryLaw M R (cplxNormalLaw p) π ∧
        (∀ π' : Measure (Fin p → ℂ), IsProbabilityMeasure π' → StationaryLaw M R (cplxNormalLaw p) π' → π' = π) ∧
        ∀ q : (Fin p → ℂ) → ℝ, (∀ x y, |q x - q y| ≤ √(Spec.distSq x y)) →
          |∫ z, q z ∂π - postMean cplxVec (negLogPost σ data.vals A pri mu) q| ≤
            √M.par.delta * C + (Real.exp (lmda * (mu * ell) ^ 2 / 2) - 1) * m := by
  obtain ⟨hFd, hFi⟩ := forward_stored data hd sig σ hσ s t m np F hF
  choose! prox hprox1 hprox2 using hprox
  obtain ⟨hZ, m, hm⟩ := posterior_bias realForm_cplx σ data.vals A At hA.adj c Lf hc hcL hlow hup pri hconv ell hlip mu hmu prox hprox2 (by
    intro lmda hl x
    refine ⟨WithLp.toLp 2 (Sum.elim
      (fun i => (-gradVec lmda A (fun y => At ((Matrix.diagonal fun i => ((1 / σ i ^ 2 : ℝ) : ℂ)).mulVec (y - data.vals)))
        (prox lmda) (cplxVec x.ofLp) i).re)
      fun i => (-gradVec lmda A (fun y => At ((Matrix.diagonal fun i => ((1 / σ i ^ 2 : ℝ) : ℂ)).mulVec (y - data.vals)))
        (prox lmda) (cplxVec x.ofLp) i).im), ?_⟩
    funext i
    exact Complex.ext rfl rfl)
  refine ⟨hZ, m, fun lmda hl => ?_⟩
  obtain ⟨C, hC⟩ := hm lmda hl
  refine ⟨C, fun M hMF hMP hMn hMc hMl hδ hs => ?_⟩
  have hglc : ConvexOn ℝ Set.univ fun u => lmda * mu * pri u := by
    have := hconv.smul (mul_nonneg hl.le hmu)
    simpa [Pi.smul_def] using this
  have tot : Total M p A (fun y => At ((Matrix.diagonal fun i => ((1 / σ i ^ 2 : ℝ) : ℂ)).mulVec (y - data.vals))) (prox lmda) pri := by
    refine ⟨hMn, ?_, fun y => ?_, ?_, ?_, by rw [hMl]; exact hl.ne'⟩
    · rw [hMF]
      exact hA.fwd
    · rw [hMF, hA.grad, hFi, hFd]
    · rw [hMP]
      exact hprox1 lmda hl
    · rw [hMP]
      exact hpri lmda hl
  obtain ⟨Q, hid⟩ := linear_identifiable M σ data.vals A At hA.adj c Lf hc hcL hlow hup (prox lmda) _ hglc (hprox2 lmda hl)
    (by rw [hMl]; exact hl) hδ (by rw [hMl]; exact hs)
  rw [← hMc] at hr
  have hνp : IsProbabilityMeasure (cplxNormalLaw p) := by
    rw [← hr.law 0]
    exact Measure.isProbabilityMeasure_map (hr.meas 0).aemeasurable
  obtain ⟨π, hπ, hst, hu, -⟩ := C99_ergodic R tot hid P r (cplxNormalLaw p) hr
  refine ⟨π, hπ, hst, hu, fun q hq => ?_⟩
  have hfix := (stationary_iff R tot hid P r _ hr π).mp hst
  rw [hMl] at hfix
  exact hC M.par.delta hδ hs π hπ (by rw [cplxNormalLaw_std]; exact hfix) q hq

theorem l1_lip (x y : Fin n → ℂ) : |∑ i, ‖x i‖ - ∑ i, ‖y i‖| ≤ √n * √(Spec.distSq x y) := by
  rw [← Finset.sum_sub_distrib, ← Real.sqrt_mul (Nat.cast_nonneg n)]
  refine (Finset.abs_sum_le_sum_abs _ _).trans (Real.le_sqrt_of_sq_le ?_)
  have h1 := sq_sum_le_card_mul_sum_sq (s := (Finset.univ : Finset (Fin n))) (f := fun i => |‖x i‖ - ‖y i‖|)
  rw [Finset.card_univ, Fintype.card_fin] at h1
  refine h1.trans (mul_le_mul_of_nonneg_left (Finset.sum_le_sum fun i _ => ?_) (Nat.cast_nonneg n))
  exact pow_le_pow_left₀ (abs_nonneg _) (abs_norm_sub_norm_le _ _) 2

/-- C120 for the denoising set-up, from the constructors to the averages that the user computes.  For every `ε > 0` there is a `lmda0`,
and for every `lmda < lmda0` a `delta0`, such that for every `delta < delta0`, with threshold `lmda*mu`: all constructors succeed, runs of
every length return a full chain, and the average of every quantity with Lipschitz constant 1 over the chain converges almost surely to a
number that differs by at most `ε` from its expectation under the posterior density proportional to
`exp(-∑ |d_i - x_i|²/(2 σ_i²) - mu ∑ |x_i|)` on `ℝ^n`. -/
theorem C120_denoising (hn : 0 < n) (data : DataVec n) (hd : data.cplx = false) (hdr : ∀ i, (data.vals i).im = 0) (sig : SigD)
    (σ : Fin n → ℝ) (hσ : IsSigma n sig σ) (s : String) (hs : s = "analysis" ∨ s = "synthesis") (mu : ℝ) (hmu : 0 ≤ mu) (par : Params)
    (b g : ℕ) (hb : par.nburn = b) (hg : par.ngap = g) (hreal : par.complex = false)
    (hv : par.verbosity ≤ 0 ∨ ("logposterior" ∈ par.track ∧ "L2" ∈ par.track ∧ "prior" ∈ par.track)) (hc : "chain" ∈ par.track)
    (R : Rng) {Ω : Type} [MeasurableSpace Ω] (P : Measure Ω) [IsProbabilityMeasure P] (r : Ω → R.σ) (hr : NormalStream R n P r)
    (x0 : Fin n → ℂ) (ε : ℝ) (hε : 0 < ε) :
    ∃ lmda0, 0 < lmda0 ∧ ∀ lmda, 0 < lmda → lmda < lmda0 → ∃ delta0, 0 < delta0 ∧ ∀ delta, 0 < delta → delta < delta0 →
      ∃ (F : ForwardOp n) (Pr : L1 ℂ) (M : ℕ → Sampler n) (A : ℕ → Arrays) (rows : (N : ℕ) → Ω → Fin N → Fin n → ℂ),
      ForwardOp.init data sig s (some identityTransform) (some (identityMeasurement n n)) (some n) = .ok F ∧
      L1.init s identityTransform.op identityTransform.adj (.scalar (lmda * mu)) = .ok Pr ∧
      (∀ N, samplerInit F Pr.toPrior { par with nsamples := N, lmda := lmda, delta := delta, mu := mu } = .ok (M N, A N)) ∧
      (∀ N ω, ∃ fuel0 st, (∀ fuel ≥ fuel0, myulaRun (M N) R (A N) (r ω) (.array1 (List.ofFn x0)) fuel = .ok (some st)) ∧
        ((A N).applyAll st.ev).chain = some (List.ofFn fun k : Fin N => List.ofFn (rows N ω k))) ∧
      ∀ q : (Fin n → ℂ) → ℝ, (∀ x y, |q x - q y| ≤ √(Spec.distSq x y)) → ∃ lim : ℝ,
        (∀ᵐ ω ∂P, Tendsto (fun N : ℕ => (∑ k, q (rows N ω k)) / N) atTop (𝓝 lim)) ∧
        |lim - postMean realVec (fun x => (∑ i, ‖data.vals i - x i‖ ^ 2 / σ i ^ 2) / 2 + mu * ∑ i, ‖x i‖) q| ≤ ε := by
  have hpos : ∀ i, 0 < σ i := by
    cases hσ with
    | scalar s hs => intro _; exact hs
    | vector s hs => exact hs
  have hne : (Finset.univ : Finset (Fin n)).Nonempty := ⟨⟨0, hn⟩, Finset.mem_univ _⟩
  obtain ⟨i0, -, hi0⟩ := Finset.exists_min_image Finset.univ (fun i => 1 / σ i ^ 2) hne
  obtain ⟨i1, -, hi1⟩ := Finset.exists_max_image Finset.univ (fun i => 1 / σ i ^ 2) hne
  have hmis : ∀ v : Fin n → ℂ, misfit σ 0 v = ∑ i, 1 / σ i ^ 2 * ‖v i‖ ^ 2 := by
    intro v
    unfold misfit
    refine Finset.sum_congr rfl fun i _ => ?_
    rw [Pi.zero_apply, zero_sub, norm_neg]
    ring
  have hdist : ∀ v : Fin n → ℂ, Spec.distSq v 0 = ∑ i, ‖v i‖ ^ 2 := fun v => by simp [Spec.distSq]
  obtain ⟨F, P0, hF, -, hFd, hFi, hnp, tot0⟩ := denoise_total data hd sig σ hσ s hs 0
  have hL1 : ∀ t : ℝ, ∃ Pt : L1 ℂ, L1.init s identityTransform.op identityTransform.adj (.scalar t) = .ok Pt ∧
      ∀ par : Params, par.lmda ≠ 0 → Total ⟨F, Pt.toPrior, par, n⟩ n (fun x => x)
        (fun y i => (y i - data.vals i) / ((σ i ^ 2 : ℝ) : ℂ)) (fun x i => softEntry (x i) t) (fun x => ∑ i, ‖x i‖) := by
    intro t
    obtain ⟨F', Pt, hF', hPt, -, -, -, tot⟩ := denoise_total data hd sig σ hσ s hs t
    rw [hF] at hF'
    obtain rfl := Except.ok.inj hF'
    exact ⟨Pt, hPt, tot⟩
  choose Pt hPt totP using hL1
  have t1 := totP 0 ⟨1, 1, 1, 1, 1, 1, 1, false, 0, []⟩ one_ne_zero
  have hA : LinModel F (LinearMap.id : (Fin n → ℂ) →ₗ[ℂ] (Fin n → ℂ)) (fun y => y) := by
    refine ⟨t1.forward, fun y => ?_, fun x y => rfl⟩
    have h1 := t1.gradg y
    rw [h1, hFd, hFi]
    congr 2
    funext i
    rw [Matrix.mulVec_diagonal, Pi.sub_apply]
    push_cast
    ring
  have hconv : ConvexOn ℝ Set.univ fun u : Fin n → ℂ => ∑ i, ‖u i‖ := by
    have h := wl1_convex (p := n) (fun _ => 1) fun _ => zero_le_one
    have e : (fun u : Fin n → ℂ => ∑ i, ‖u i‖) = Spec.wl1 fun _ => 1 := by
      funext u
      simp [Spec.wl1]
    rwa [e]
  have h120 := C120_real data hd hdr sig σ hσ s (some identityTransform) (some (identityMeasurement n n)) (some n) F hF
    (LinearMap.id : (Fin n → ℂ) →ₗ[ℂ] (Fin n → ℂ)) (fun y => y) hA (fun x hx => hx) (1 / σ i0 ^ 2) (1 / σ i1 ^ 2)
    (by have := hpos i0; positivity) (hi0 i1 (Finset.mem_univ _))
    (fun v => by
      rw [LinearMap.id_apply, hmis, hdist, Finset.mul_sum]
      exact Finset.sum_le_sum fun i _ => mul_le_mul_of_nonneg_right (hi0 i (Finset.mem_univ _)) (sq_nonneg _))
    (fun v => by
      rw [LinearMap.id_apply, hmis, hdist, Finset.mul_sum]
      exact Finset.sum_le_sum fun i _ => mul_le_mul_of_nonneg_right (hi1 i (Finset.mem_univ _)) (sq_nonneg _))
    (fun u => ∑ i, ‖u i‖) hconv (√n) l1_lip (fun u => by simp) mu hmu (fun lmda => (Pt (lmda * mu)).toPrior)
    (fun lmda hl x => (totP (lmda * mu) ⟨1, 1, 1, 1, 1, 1, 1, false, 0, []⟩ one_ne_zero).prior x)
    (fun lmda hl x => ⟨fun i => softEntry (x i) (lmda * mu),
      (totP (lmda * mu) ⟨1, 1, 1, 1, 1, 1, 1, false, 0, []⟩ one_ne_zero).proxf x, by
        have e : (fun u : Fin n → ℂ => lmda * mu * ∑ i, ‖u i‖) = Spec.wl1 fun _ => lmda * mu := by
          funext u
          rw [Spec.wl1, Finset.mul_sum]
        rw [e]
        exact softEntry_isProx x (fun _ => lmda * mu) fun _ => by positivity⟩) R P r hr
  obtain ⟨-, m, hm⟩ := h120
  -- a small `lmda`
  have hlim1 : Tendsto (fun lmda : ℝ => (Real.exp (lmda * (mu * √n) ^ 2 / 2) - 1) * m) (𝓝 0) (𝓝 0) := by
    have : Continuous fun lmda : ℝ => (Real.exp (lmda * (mu * √n) ^ 2 / 2) - 1) * m := by fun_prop
    have h0 := this.tendsto 0
    simpa using h0
  obtain ⟨lmda0, hl0, hl1⟩ := Metric.eventually_nhds_iff.mp (hlim1.eventually (gt_mem_nhds (half_pos hε)))
  refine ⟨lmda0, hl0, fun lmda hl hlt => ?_⟩
  have hterm1 : (Real.exp (lmda * (mu * √n) ^ 2 / 2) - 1) * m < ε / 2 :=
    hl1 (by rw [Real.dist_eq, sub_zero, abs_of_pos hl]; exact hlt)
  obtain ⟨C, hC⟩ := hm lmda hl
  -- a small `delta`
  have hlim2 : Tendsto (fun δ : ℝ => √δ * C) (𝓝 0) (𝓝 0) := by
    have : Continuous fun δ : ℝ => √δ * C := by fun_prop
    have h0 := this.tendsto 0
    simpa using h0
  obtain ⟨d0, hd0, hd1⟩ := Metric.eventually_nhds_iff.mp (hlim2.eventually (gt_mem_nhds (half_pos hε)))
  set S := 1 / lmda + 1 / σ i1 ^ 2 + 1 / σ i1 ^ 2 with hS
  have hS0 : 0 < S := by
    have := hpos i1
    positivity
  refine ⟨min d0 (2 / S), lt_min hd0 (by positivity), fun δ hδ hδlt => ?_⟩
  have hterm2 : √δ * C < ε / 2 :=
    hd1 (by rw [Real.dist_eq, sub_zero, abs_of_pos hδ]; exact hδlt.trans_le (min_le_left _ _))
  have hδS : δ * S ≤ 2 := by
    have := hδlt.le.trans (min_le_right d0 (2 / S))
    rwa [le_div_iff₀ hS0] at this
  have hstep : ∀ i j, δ * (1 / lmda + 1 / σ i ^ 2 + 1 / σ j ^ 2) ≤ 2 := by
    intro i j
    refine le_trans (mul_le_mul_of_nonneg_left ?_ hδ.le) hδS
    have := hi1 i (Finset.mem_univ _)
    have := hi1 j (Finset.mem_univ _)
    linarith
  obtain ⟨lm, de, mu0, sk, ns, nb, ng, cp, vb, tr⟩ := par
  simp only at hb hg hreal hv hc
  subst hb hg hreal
  obtain ⟨F', Pr, M, Ar, rows, π, hF', hPr, hM, hrun, hπ, hst, havg, -⟩ := C116_denoising hn data hd sig σ hσ s hs (lmda * mu)
    (by positivity) ⟨lmda, δ, mu, sk, ns, b, g, false, vb, tr⟩ b g rfl rfl rfl hl hδ hstep hv hc R P r hr x0
  refine ⟨F', Pr, M, Ar, rows, hF', hPr, hM, hrun, fun q hq => ?_⟩
  have hav := (havg q 1 (by simpa using hq)).2
  refine ⟨_, hav, ?_⟩
  rw [hF] at hF'
  obtain rfl := Except.ok.inj hF'
  rw [hPt] at hPr
  obtain rfl := Except.ok.inj hPr
  have hM0 := hM 0
  simp only [samplerInit, hnp, Except.ok.injEq, Prod.mk.injEq] at hM0
  obtain ⟨π', hπ', -, hu', hb'⟩ := hC (M 0) (by rw [← hM0.1]) (by rw [← hM0.1]) (by rw [← hM0.1]) (by rw [← hM0.1]) (by rw [← hM0.1])
    (by rw [← hM0.1]; exact hδ) (by rw [← hM0.1]; exact hstep i1 i0)
  obtain rfl := hu' π hπ (hst 0).1
  have h3 := hb' (fun z => q fun i => ((z i).re : ℂ)) (fun x y => by
    refine (hq _ _).trans (Real.sqrt_le_sqrt ?_)
    exact distSq_store false x y)
  rw [← hM0.1] at h3
  simp only [postMean] at h3 ⊢
  have e : ∀ t : Fin n → ℝ, (fun i => ((realVec t i).re : ℂ)) = realVec t := fun t => by
    funext i
    simp [realVec]
  simp only [e] at h3
  refine h3.trans ?_
  linarith

/-! ## The hypotheses are met -/

/-- A generator that delivers a given sequence of vectors with `p + p` entries in two halves. -/
def halvesRng (p : ℕ) : Rng :=
  ⟨Bool × (ℕ → Fin p ⊕ Fin p → ℝ),
    fun s k => (fun i : Fin k => if h : (i : ℕ) < p then (if s.1 then s.2 0 (.inr ⟨i, h⟩) else s.2 0 (.inl ⟨i, h⟩)) else 0,
      if s.1 then (false, fun j => s.2 (j + 1)) else (true, s.2)),
    fun s _ => (fun _ => 0, s), fun s => (0, s)⟩

theorem halvesRng_seq (s : ℕ → Fin p ⊕ Fin p → ℝ) (k : ℕ) : rngSeq (halvesRng p) true p (false, s) k = (false, fun j => s (j + k)) := by
  induction k with
  | zero => rfl
  | succ k ih =>
    have e : rngSeq (halvesRng p) true p (false, s) (k + 1) = (drawVec (halvesRng p) (halvesRng p).randn true
      (rngSeq (halvesRng p) true p (false, s) k) p).2 := rfl
    rw [e, ih]
    show (false, fun j => s (j + 1 + k)) = _
    congr 1
    funext j
    congr 1
    omega

theorem halvesRng_noise (s : ℕ → Fin p ⊕ Fin p → ℝ) (k : ℕ) : noiseSeq (halvesRng p) true p (false, s) k = cplxVec (s k) := by
  have e : noiseSeq (halvesRng p) true p (false, s) k = (drawVec (halvesRng p) (halvesRng p).randn true
    (rngSeq (halvesRng p) true p (false, s) k) p).1 := rfl
  rw [e, halvesRng_seq]
  funext i
  have e1 : (drawVec (halvesRng p) (halvesRng p).randn true (false, fun j => s (j + k)) p).1 i =
      (((if h : (i : ℕ) < p then s (0 + k) (.inl ⟨i, h⟩) else 0 : ℝ)) : ℂ) +
        (((if h : (i : ℕ) < p then s (0 + k) (.inr ⟨i, h⟩) else 0 : ℝ)) : ℂ) * Complex.I := rfl
  rw [e1, dif_pos i.2, dif_pos i.2, zero_add]
  apply Complex.ext <;> simp [cplxVec]

theorem halvesRng_normal : NoiseStream (halvesRng p) true p
    (Measure.infinitePi fun _ : ℕ => Measure.pi fun _ : Fin p ⊕ Fin p => gaussianReal 0 1) (fun ω => (false, ω)) (cplxNormalLaw p) := by
  have hm : Measurable (cplxVec (p := p)) := by
    have := realForm_cplx (p := p).cont.measurable.comp (PiLp.continuous_toLp 2 (fun _ : Fin p ⊕ Fin p => ℝ)).measurable
    exact this
  have e : ∀ k, (fun ω : ℕ → Fin p ⊕ Fin p → ℝ => noiseSeq (halvesRng p) true p (false, ω) k) = cplxVec ∘ fun ω => ω k := by
    intro k
    funext ω
    exact halvesRng_noise ω k
  refine ⟨fun k => ?_, ?_, fun k => ?_, ?_⟩
  · rw [e]
    exact hm.comp (measurable_pi_apply k)
  · have h1 := iIndepFun_infinitePi (P := fun _ : ℕ => Measure.pi fun _ : Fin p ⊕ Fin p => gaussianReal 0 1)
      (X := fun _ (x : Fin p ⊕ Fin p → ℝ) => x) (fun _ => measurable_id)
    have h2 := h1.comp (fun _ => cplxVec) fun _ => hm
    simp only [halvesRng_noise]
    exact h2
  · rw [e, ← Measure.map_map hm (measurable_pi_apply k), Measure.infinitePi_map_eval]
    rfl
  · rw [← cplxNormalLaw_std, lintegral_map measurable_enorm realForm_cplx.cont.measurable]
    have h1 := (stdGaussian_norm (V := EuclideanSpace ℝ (Fin p ⊕ Fin p))).2
    rw [hasFiniteIntegral_iff_ofReal (Eventually.of_forall fun w => norm_nonneg _)] at h1
    refine ne_top_of_le_ne_top h1.ne (lintegral_mono fun w => ?_)
    rw [← ofReal_norm]
    refine ENNReal.ofReal_le_ofReal ?_
    have h2 := sqrt_distSq_le (cplxVec w.ofLp) (cplxVec (0 : EuclideanSpace ℝ (Fin p ⊕ Fin p)).ofLp)
    rw [← realForm_cplx.norm, sub_zero, dist_eq_norm, ← realForm_cplx.sub, sub_zero] at h2
    exact h2

/-- The hypotheses of C120 for real and for complex samplers are met by the denoising of 190 real numbers with standard deviations 0.1
and `mu = 5`. -/
example : ∃ (data : DataVec 190) (sig : SigD) (σ : Fin 190 → ℝ) (F : ForwardOp 190) (A : (Fin 190 → ℂ) →ₗ[ℂ] (Fin 190 → ℂ))
    (At : (Fin 190 → ℂ) → (Fin 190 → ℂ)) (pri : (Fin 190 → ℂ) → ℝ) (Pr : ℝ → PriorObj),
    data.cplx = false ∧ (∀ i, (data.vals i).im = 0) ∧ IsSigma 190 sig σ ∧
    ForwardOp.init data sig "synthesis" (some identityTransform) (some (identityMeasurement 190 190)) (some 190) = .ok F ∧
    LinModel F A At ∧ (∀ x, (∀ i, (x i).im = 0) → ∀ i, (A x i).im = 0) ∧ (∀ v, 100 * Spec.distSq v 0 ≤ misfit σ 0 (A v)) ∧
    (∀ v, misfit σ 0 (A v) ≤ 100 * Spec.distSq v 0) ∧ ConvexOn ℝ Set.univ pri ∧
    (∀ x y, |pri x - pri y| ≤ √(190 : ℕ) * √(Spec.distSq x y)) ∧ (∀ u, pri (fun i => (starRingEnd ℂ) (u i)) = pri u) ∧
    (∀ lmda, 0 < lmda → ∀ x, (Pr lmda).prior (List.ofFn x) = .ok (pri x)) ∧
    (∀ lmda, 0 < lmda → ∀ x : Fin 190 → ℂ, ∃ a, (Pr lmda).proxf (List.ofFn x) = .ok (List.ofFn a) ∧
      Spec.IsProx (fun u => lmda * 5 * pri u) x a) ∧
    NormalStream (vecRng 190) 190 (Measure.infinitePi fun _ : ℕ => Measure.pi fun _ : Fin 190 => gaussianReal 0 1) (fun ω => ω) ∧
    NoiseStream (halvesRng 190) true 190 (Measure.infinitePi fun _ : ℕ => Measure.pi fun _ : Fin 190 ⊕ Fin 190 => gaussianReal 0 1)
      (fun ω => (false, ω)) (cplxNormalLaw 190) := by
  have hσ : IsSigma 190 (.num ((1 / 10 : ℝ) : ℂ) false) fun _ => 1 / 10 := .scalar _ (by norm_num)
  obtain ⟨F, P0, hF, -, hFd, hFi, -, -⟩ := denoise_total (⟨false, fun _ => 1⟩ : DataVec 190) rfl _ _ hσ "synthesis" (.inr rfl) 0
  have hL1 : ∀ t : ℝ, ∃ Pt : L1 ℂ, ∀ par : Params, par.lmda ≠ 0 → Total ⟨F, Pt.toPrior, par, 190⟩ 190 (fun x => x)
        (fun y i => (y i - 1) / (((1 / 10) ^ 2 : ℝ) : ℂ)) (fun x i => softEntry (x i) t) (fun x => ∑ i, ‖x i‖) := by
    intro t
    obtain ⟨F', Pt, hF', hPt, -, -, -, tot⟩ := denoise_total (⟨false, fun _ => 1⟩ : DataVec 190) rfl _ _ hσ "synthesis" (.inr rfl) t
    rw [hF] at hF'
    obtain rfl := Except.ok.inj hF'
    exact ⟨Pt, tot⟩
  choose Pt totP using hL1
  have tt := fun t => totP t ⟨1, 1, 1, 1, 1, 1, 1, false, 0, []⟩ one_ne_zero
  have hmis : ∀ v : Fin 190 → ℂ, misfit (fun _ => 1 / 10) 0 v = 100 * Spec.distSq v 0 := by
    intro v
    unfold misfit Spec.distSq
    rw [Finset.mul_sum]
    refine Finset.sum_congr rfl fun i _ => ?_
    rw [Pi.zero_apply, zero_sub, norm_neg, sub_zero]
    ring
  have hconv : ConvexOn ℝ Set.univ fun u : Fin 190 → ℂ => ∑ i, ‖u i‖ := by
    have h := wl1_convex (p := 190) (fun _ => 1) fun _ => zero_le_one
    have e : (fun u : Fin 190 → ℂ => ∑ i, ‖u i‖) = Spec.wl1 fun _ => 1 := by
      funext u
      simp [Spec.wl1]
    rwa [e]
  refine ⟨_, _, _, F, LinearMap.id, fun y => y, fun u => ∑ i, ‖u i‖, fun lmda => (Pt (lmda * 5)).toPrior, rfl, fun _ => by simp, hσ, hF,
    ⟨(tt 0).forward, fun y => ?_, fun x y => rfl⟩, fun x hx => hx, fun v => (hmis v).ge, fun v => (hmis v).le, hconv, l1_lip,
    fun u => by simp, fun lmda hl x => (tt _).prior x, fun lmda hl x => ⟨_, (tt (lmda * 5)).proxf x, ?_⟩, vecRng_normal, halvesRng_normal⟩
  · have h1 := (tt 0).gradg y
    rw [h1, hFd, hFi]
    congr 2
    funext i
    rw [Matrix.mulVec_diagonal, Pi.sub_apply]
    push_cast
    ring
  · have e : (fun u : Fin 190 → ℂ => lmda * 5 * ∑ i, ‖u i‖) = Spec.wl1 fun _ => lmda * 5 := by
      funext u
      rw [Spec.wl1, Finset.mul_sum]
    rw [e]
    exact softEntry_isProx x (fun _ => lmda * 5) fun _ => by positivity

/-- The hypotheses of C120 for the denoising set-up are met. -/
example : ∃ (data : DataVec 190) (sig : SigD) (σ : Fin 190 → ℝ) (par : Params), data.cplx = false ∧ (∀ i, (data.vals i).im = 0) ∧
    IsSigma 190 sig σ ∧ par.nburn = (10 : ℕ) ∧ par.ngap = (5 : ℕ) ∧ par.complex = false ∧ par.verbosity ≤ 0 ∧ "chain" ∈ par.track ∧
    NormalStream (vecRng 190) 190 (Measure.infinitePi fun _ : ℕ => Measure.pi fun _ : Fin 190 => gaussianReal 0 1) (fun ω => ω) :=
  ⟨⟨false, fun _ => 1⟩, .num ((1 / 10 : ℝ) : ℂ) false, fun _ => 1 / 10,
    ⟨3 / 100000, 1 / 100000, 1, 5, 100, 10, 5, false, 0, ["logposterior", "L2", "prior", "chain"]⟩, rfl, fun _ => by simp,
    .scalar _ (by norm_num), rfl, rfl, rfl, le_rfl, by simp, vecRng_normal⟩

end Pxmcmc
