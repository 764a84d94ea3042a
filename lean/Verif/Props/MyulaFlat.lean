import Verif.Lemmas.ClipMap
import Verif.Lemmas.PathAverages
import Verif.Props.PosteriorBias
import Verif.Props.MalaTerminates

/-! # Property C126: with an l1 prior, MYULA converges for every linear forward operator -/

namespace Pxmcmc
open MeasureTheory ProbabilityTheory Filter
open scoped ENNReal NNReal RealInnerProductSpace Topology
variable {n m p : ℕ}

/-- The long-run behaviour of MYULA for starts in `S`.  There is one stationary law `π` on `S`, the law of the sample after `k` steps
converges to it, and so do, with probability one and in probability, the averages over the rows of the `chain` array. -/
def LongRun (M : Sampler n) (R : Rng) (fwd : (Fin p → ℂ) → (Fin n → ℂ)) {Ω : Type} [MeasurableSpace Ω] (P : Measure Ω) (r : Ω → R.σ)
    (ν : Measure (Fin p → ℂ)) (S : Set (Fin p → ℂ)) : Prop :=
  ∃ π : Measure (Fin p → ℂ), IsProbabilityMeasure π ∧ (∀ᵐ z ∂π, z ∈ S) ∧ StationaryLaw M R ν π ∧
    (∀ π' : Measure (Fin p → ℂ), IsProbabilityMeasure π' → (∀ᵐ z ∂π', z ∈ S) → StationaryLaw M R ν π' → π' = π) ∧
    (∀ x : ℕ → Ω → Fin p → ℂ, (∀ ω ω', x 0 ω = x 0 ω') → (∀ ω, x 0 ω ∈ S) →
      (∀ k ω, myulaStep M R ⟨List.ofFn (x k ω), List.ofFn (fwd (x k ω)), rngSeq R M.par.complex p (r ω) k⟩ =
        .ok ⟨List.ofFn (x (k + 1) ω), List.ofFn (fwd (x (k + 1) ω)), rngSeq R M.par.complex p (r ω) (k + 1)⟩) →
      ∀ f : BoundedContinuousFunction (Fin p → ℂ) ℝ, Tendsto (fun k => ∫ ω, f (x k ω) ∂P) atTop (𝓝 (∫ z, f z ∂π))) ∧
    ∀ x0 ∈ S, ∀ (b gap : ℕ) (v : ℤ) (track : List String) (A : ℕ → Arrays), (∀ N, (A N).Shaped N) →
      ∀ (fuel : ℕ → Ω → ℕ) (st : ℕ → Ω → St R),
      (∀ N ω, myulaRun (M.resched N b gap v track) R (A N) (r ω) (.array1 (List.ofFn x0)) (fuel N ω) = .ok (some (st N ω))) →
      ∀ rows : (N : ℕ) → Ω → Fin N → Fin p → ℂ,
      (∀ N ω, ((A N).applyAll (st N ω).ev).chain = some (List.ofFn fun k : Fin N => List.ofFn (rows N ω k))) →
      ∀ (q : (Fin p → ℂ) → ℝ) (L : ℝ), (∀ x y, |q x - q y| ≤ L * √(Spec.distSq x y)) →
        (∀ᵐ ω ∂P, Tendsto (fun N : ℕ => (∑ k, q (rows N ω k)) / N) atTop (𝓝 (∫ z, q (fun i => store M.par.complex (z i)) ∂π))) ∧
        ∀ ε : ℝ, 0 < ε →
          Tendsto (fun N : ℕ => P {ω | ε ≤ |(∑ k, q (rows N ω k)) / N - ∫ z, q (fun i => store M.par.complex (z i)) ∂π|}) atTop (𝓝 0)

variable {M : Sampler n} {fwd : (Fin p → ℂ) → (Fin n → ℂ)} {grad : (Fin n → ℂ) → (Fin p → ℂ)}
  {prox : (Fin p → ℂ) → (Fin p → ℂ)} {pri : (Fin p → ℂ) → ℝ}

theorem ulaStep_measurable (delta : ℝ) {G : (Fin p → ℂ) → (Fin p → ℂ)} (hG : Continuous G) : Measurable (Function.uncurry (ulaStep delta G)) := by
  refine Continuous.measurable ?_
  unfold ulaStep Function.uncurry
  refine continuous_pi fun i => ?_
  have h1 : Continuous fun q : (Fin p → ℂ) × (Fin p → ℂ) => G q.1 i := (continuous_apply i).comp (hG.comp continuous_fst)
  fun_prop

section Form
variable {V : Type} [NormedAddCommGroup V] [InnerProductSpace ℝ V] [FiniteDimensional ℝ V] [MeasurableSpace V] [BorelSpace V]
  {e : V → Fin p → ℂ}

theorem RealForm.law_step (he : RealForm e) {δ : ℝ} {Gc : (Fin p → ℂ) → (Fin p → ℂ)} {G : V → V} (hG : ∀ x, e (G x) = -Gc (e x))
    (hm : Measurable (Function.uncurry (ulaStep δ Gc))) (hl : Measurable (Function.uncurry (langevin δ G))) (μ : Measure V)
    [IsProbabilityMeasure μ] : stepLaw (ulaStep δ Gc) ((stdGaussian V).map e) (μ.map e) = (stepLaw (langevin δ G) (stdGaussian V) μ).map e := by
  have hem : Measurable e := he.cont.measurable
  unfold stepLaw
  rw [Measure.map_prod_map _ _ hem hem, Measure.map_map hm (hem.prodMap hem), Measure.map_map hem hl]
  congr 1
  funext q
  have := he.step δ (fun z => -Gc z) G hG q.1 q.2
  simp only [neg_neg] at this
  exact this.symm

/-- Convergence in the real form gives convergence of MYULA. -/
theorem RealForm.longRun (he : RealForm e) (e' : (Fin p → ℂ) → V) (he' : Measurable e') (hee : ∀ x, e' (e x) = x) (R : Rng)
    (tot : Total M p fwd grad prox pri) (hc : Continuous (gradVec M.par.lmda fwd grad prox)) (G : V → V)
    (hG : ∀ x, e (G x) = -gradVec M.par.lmda fwd grad prox (e x))
    (hcoup : ∃ C W k, Coupled (stdGaussian V) (langevin M.par.delta G) C W k) {Ω : Type} [MeasurableSpace Ω] (P : Measure Ω)
    [IsProbabilityMeasure P] (r : Ω → R.σ) (hs : NoiseStream R M.par.complex p P r ((stdGaussian V).map e))
    (hnoise : ∀ k ω, e (e' (noiseSeq R M.par.complex p (r ω) k)) = noiseSeq R M.par.complex p (r ω) k) :
    LongRun M R fwd P r ((stdGaussian V).map e) {z | e (e' z) = z} := by
  obtain ⟨C, W, K, hcp⟩ := hcoup
  have hem : Measurable e := he.cont.measurable
  have hf := ulaStep_measurable M.par.delta hc
  have hνp : IsProbabilityMeasure ((stdGaussian V).map e) := Measure.isProbabilityMeasure_map hem.aemeasurable
  have hSm : MeasurableSet {z : Fin p → ℂ | e (e' z) = z} := measurableSet_eq_fun (hem.comp he') measurable_id
  obtain ⟨μ, hμ, hfin, hfix⟩ := hcp.stationary
  have hπp : IsProbabilityMeasure (μ.map e) := Measure.isProbabilityMeasure_map hem.aemeasurable
  -- the noise
  have hV : Driven P (fun k ω => e' (noiseSeq R M.par.complex p (r ω) k)) (stdGaussian V) := by
    refine ⟨fun k => he'.comp (hs.meas k), hs.indep.comp (fun _ => e') fun _ => he', fun k => ?_⟩
    have h1 : P.map (e' ∘ fun ω => noiseSeq R M.par.complex p (r ω) k) = stdGaussian V := by
      rw [← Measure.map_map he' (hs.meas k), hs.law k, Measure.map_map he' hem]
      have : e' ∘ e = id := funext hee
      rw [this, Measure.map_id]
    exact h1
  -- the states
  have hstate : ∀ (x0 : Fin p → ℂ) (ω : Ω) (k : ℕ), e (e' x0) = x0 →
      fwState (ulaStep M.par.delta (gradVec M.par.lmda fwd grad prox)) x0 (fun j => noiseSeq R M.par.complex p (r ω) j) k =
        e (fwState (langevin M.par.delta G) (e' x0) (fun j => e' (noiseSeq R M.par.complex p (r ω) j)) k) := by
    intro x0 ω k hx0
    induction k with
    | zero => exact hx0.symm
    | succ k ih =>
      have h1 := he.step M.par.delta (fun z => -gradVec M.par.lmda fwd grad prox z) G hG
        (fwState (langevin M.par.delta G) (e' x0) (fun j => e' (noiseSeq R M.par.complex p (r ω) j)) k)
        (e' (noiseSeq R M.par.complex p (r ω) k))
      simp only [neg_neg] at h1
      rw [hnoise, ← ih] at h1
      exact h1.symm
  refine ⟨μ.map e, hπp, ?_, ?_, fun π' hπ' hS' hst => ?_, fun x hx0 hxS hstep f => ?_, fun x0 hx0 b gap v track A hA fuel st hrun rows hrows
    q L hL => ?_⟩
  · refine (ae_map_iff hem.aemeasurable hSm).mpr (Eventually.of_forall fun x => ?_)
    show e (e' (e x)) = e x
    rw [hee]
  · rw [stationary_iff_meas R tot hf P r _ hs, he.law_step hG hf hcp.meas, hfix]
  · rw [stationary_iff_meas R tot hf P r _ hs] at hst
    have hν' : IsProbabilityMeasure (π'.map e') := Measure.isProbabilityMeasure_map he'.aemeasurable
    have hback : (π'.map e').map e = π' := by
      rw [Measure.map_map hem he']
      have h1 : (e ∘ e' : (Fin p → ℂ) → Fin p → ℂ) =ᵐ[π'] id := hS'
      rw [Measure.map_congr h1, Measure.map_id]
    have h1 : stepLaw (langevin M.par.delta G) (stdGaussian V) (π'.map e') = π'.map e' := by
      have h2 := he.law_step hG hf hcp.meas (π'.map e')
      rw [hback, hst] at h2
      have h3 := congrArg (Measure.map e') h2
      have : e' ∘ e = id := funext hee
      rw [Measure.map_map he' hem, this, Measure.map_id] at h3
      exact h3.symm
    rw [← hback, hcp.unique μ (π'.map e') hfix h1]
  · obtain ⟨ω0⟩ : Nonempty Ω := nonempty_of_isProbabilityMeasure P
    have hx : ∀ k, x k = fun ω => e (fwState (langevin M.par.delta G) (e' (x 0 ω0))
        (fun j => e' (noiseSeq R M.par.complex p (r ω) j)) k) := by
      intro k
      funext ω
      rw [← hstate _ _ _ (hxS ω0)]
      induction k with
      | zero => exact hx0 ω ω0
      | succ k ih =>
        have h2 := hstep k ω
        rw [myulaStep_vec M R tot] at h2
        have h3 := List.ofFn_injective (Cur.mk.inj (Except.ok.inj h2)).1
        rw [← h3, ih]
        rfl
    let fe : BoundedContinuousFunction V ℝ := f.compContinuous ⟨e, he.cont⟩
    have hl := hcp.converge μ hfix (Measure.dirac (e' (x 0 ω0))) fe
    have e2 : ∫ z, f z ∂(μ.map e) = ∫ z, fe z ∂μ := integral_map hem.aemeasurable f.continuous.aestronglyMeasurable
    rw [e2]
    refine hl.congr fun k => ?_
    rw [hx k, ← fwState_law P _ hV.meas hV.indep _ hV.law _ hcp.meas (e' (x 0 ω0)) k]
    rw [integral_map (fwState_measurable _ hcp.meas _ _ hV.meas k).aemeasurable fe.continuous.aestronglyMeasurable]
    rfl
  · have hLq : ∀ x y : V, |q (fun i => store M.par.complex (e x i)) - q (fun i => store M.par.complex (e y i))| ≤ |L| * dist x y := by
      intro x y
      refine (hL _ _).trans ?_
      refine (mul_le_mul_of_nonneg_right (le_abs_self L) (Real.sqrt_nonneg _)).trans ?_
      rw [dist_eq_norm, he.norm]
      exact mul_le_mul_of_nonneg_left (Real.sqrt_le_sqrt (distSq_store _ (e x) (e y))) (abs_nonneg L)
    have hqc : Continuous fun z : Fin p → ℂ => q (fun i => store M.par.complex (z i)) := by
      refine lip_continuous _ |L| fun x y => (hL _ _).trans ?_
      refine (mul_le_mul_of_nonneg_right (le_abs_self L) (Real.sqrt_nonneg _)).trans ?_
      exact mul_le_mul_of_nonneg_left (Real.sqrt_le_sqrt (distSq_store _ x y)) (abs_nonneg L)
    have htimes : StrictMono fun k : ℕ => b + k * max gap 1 + 1 := by
      intro i j hij
      have : 0 < max gap 1 := lt_max_of_lt_right one_pos
      have := Nat.mul_lt_mul_of_pos_right hij this
      show b + i * max gap 1 + 1 < b + j * max gap 1 + 1
      omega
    have hae := hcp.average_ae hV μ hfix hfin _ |L| hLq (b + 1) (max gap 1) (lt_max_of_lt_right one_pos) (e' x0)
    have htime : ∀ k : ℕ, b + 1 + k * max gap 1 = b + k * max gap 1 + 1 := fun k => by omega
    simp only [htime] at hae
    have hkey := hcp.average hV μ hfix hfin _ |L| hLq _ htimes (e' x0)
    have e2 : ∫ z, q (fun i => store M.par.complex (z i)) ∂(μ.map e) = ∫ z, q (fun i => store M.par.complex (e z i)) ∂μ :=
      integral_map hem.aemeasurable hqc.aestronglyMeasurable
    have hsum : ∀ (N : ℕ) (ω : Ω), ∑ k, q (rows N ω k) = ∑ k ∈ Finset.range N, q (fun i => store M.par.complex
        (e (fwState (langevin M.par.delta G) (e' x0) (fun j => e' (noiseSeq R M.par.complex p (r ω) j)) (b + k * max gap 1 + 1)) i)) := by
      intro N ω
      rw [Finset.sum_range]
      refine Finset.sum_congr rfl fun k _ => ?_
      have tot' : Total (M.resched N b gap v track) p fwd grad prox pri :=
        ⟨tot.nparams, tot.forward, tot.gradg, tot.proxf, tot.prior, tot.lmda⟩
      rw [myula_chain_rows (M := M.resched N b gap v track) R tot' (A N) (hA N) b gap rfl rfl (r ω) x0 (fuel N ω) (st N ω) (hrun N ω)
        (rows N ω) (hrows N ω) k]
      have := hstate x0 ω (b + k * max gap 1 + 1) hx0
      rw [← this]
      rfl
    rw [e2]
    simp only [hsum]
    exact ⟨hae, hkey⟩

end Form

theorem adjoint_continuous {A : (Fin p → ℂ) →ₗ[ℂ] (Fin m → ℂ)} {At : (Fin m → ℂ) → (Fin p → ℂ)} (h : Spec.IsAdjointPair A At) :
    Continuous At := by
  refine continuous_pi fun i => ?_
  have e : (fun y => At y i) = fun y => (starRingEnd ℂ) (Spec.inner y (A (Pi.single i 1))) := by
    funext y
    rw [h (Pi.single i 1) y, Spec.inner, Finset.sum_eq_single i]
    · simp
    · intro j _ hj
      simp [hj]
    · simp
  rw [e]
  unfold Spec.inner
  refine Complex.continuous_conj.comp (continuous_finsetSum _ fun j _ => ?_)
  exact (Complex.continuous_conj.comp (continuous_apply j)).mul continuous_const

/-- The forward model and the prior of C126: a linear forward operator `A`, and a `proxf` that thresholds the coefficients `B x` with
positive thresholds, where `B` never increases and never loses the size of a vector. -/
structure ThresholdModel (F : ForwardOp n) (P : PriorObj) (σ : Fin n → ℝ) (A : (Fin p → ℂ) →ₗ[ℂ] (Fin n → ℂ))
    (At : (Fin n → ℂ) → (Fin p → ℂ)) (B : (Fin p → ℂ) →ₗ[ℂ] (Fin m → ℂ)) (Bt : (Fin m → ℂ) → (Fin p → ℂ)) (T : Fin m → ℝ) : Prop where
  lin : LinModel F A At
  invcov : F.invcov = Matrix.diagonal fun i => ((1 / σ i ^ 2 : ℝ) : ℂ)
  prior : ∀ x : Fin p → ℂ, ∃ v, P.prior (List.ofFn x) = .ok v
  proxf : ∀ x : Fin p → ℂ, P.proxf (List.ofFn x) = .ok (List.ofFn (x + Bt ((fun j => softEntry (B x j) (T j)) - B x)))
  adj : Spec.IsAdjointPair B Bt
  frame : ∃ b : ℝ, 0 < b ∧ ∀ x, b * Spec.distSq x 0 ≤ Spec.distSq (B x) 0 ∧ Spec.distSq (B x) 0 ≤ Spec.distSq x 0
  pos : ∀ j, 0 < T j

section Model
variable {F : ForwardOp n} {Pr : PriorObj} {σ : Fin n → ℝ} {A : (Fin p → ℂ) →ₗ[ℂ] (Fin n → ℂ)} {At : (Fin n → ℂ) → (Fin p → ℂ)}
  {B : (Fin p → ℂ) →ₗ[ℂ] (Fin m → ℂ)} {Bt : (Fin m → ℂ) → (Fin p → ℂ)} {T : Fin m → ℝ}
  {V : Type} [NormedAddCommGroup V] [InnerProductSpace ℝ V] [FiniteDimensional ℝ V] [MeasurableSpace V] [BorelSpace V]
  {e : V → Fin p → ℂ}

/-- The drift of a linear operator and a thresholding prior is continuous. -/
theorem threshold_drift_continuous (hlin : LinModel F A At) (hadj : Spec.IsAdjointPair B Bt) (hpos : ∀ j, 0 ≤ T j) (lmda : ℝ) :
    Continuous (gradVec lmda A (fun y => At (F.invcov.mulVec (y - F.data.vals)))
      fun x => x + Bt ((fun j => softEntry (B x j) (T j)) - B x)) := by
  have hBc := adjoint_continuous hadj
  have hAc := adjoint_continuous hlin.adj
  have hBl : Continuous B := B.continuous_of_finiteDimensional
  have hAl : Continuous A := A.continuous_of_finiteDimensional
  have hsoft : Continuous fun x : Fin p → ℂ => fun j => softEntry (B x j) (T j) :=
    continuous_pi fun j => (softEntry_continuous (T j) (hpos j)).comp ((continuous_apply j).comp hBl)
  have hproxc : Continuous fun x : Fin p → ℂ => x + Bt ((fun j => softEntry (B x j) (T j)) - B x) := continuous_id.add (hBc.comp (hsoft.sub hBl))
  have hgc : Continuous fun x : Fin p → ℂ => At (F.invcov.mulVec (A x - F.data.vals)) := hAc.comp (by fun_prop)
  unfold gradVec
  refine continuous_pi fun i => ?_
  exact ((((continuous_apply i).sub ((continuous_apply i).comp hproxc)).div_const _).neg).sub ((continuous_apply i).comp hgc)

/-- Convergence for a `proxf` that thresholds the coefficients `B x` and a data drift that is, in the real form, cocoercive with constant
`L` and zero somewhere. -/
theorem RealForm.flat_ops (he : RealForm e) (hlin : LinModel M.F A At) (hprior : ∀ x : Fin p → ℂ, ∃ v, M.P.prior (List.ofFn x) = .ok v)
    (hpx : ∀ x : Fin p → ℂ, M.P.proxf (List.ofFn x) = .ok (List.ofFn (x + Bt ((fun j => softEntry (B x j) (T j)) - B x))))
    (hadj : Spec.IsAdjointPair B Bt) (hpos : ∀ j, 0 < T j) (hn : M.nparams = p) (hl : 0 < M.par.lmda)
    (hδ : 0 < M.par.delta) (Lf : ℝ) (hs : M.par.delta * (1 / M.par.lmda + Lf) < 2) (e' : (Fin p → ℂ) → V) (he' : Measurable e')
    (hee : ∀ x, e' (e x) = x) (Rv Sv : V → V) (hR : ∀ x, e (Rv x) = Bt (clip T (B (e x))))
    (hS : ∀ x, e (Sv x) = At (M.F.invcov.mulVec (A (e x) - M.F.data.vals)))
    (hclip : ∃ x₀ τ η K ρ, Clipped Rv Sv x₀ Lf τ η K ρ)
    (R : Rng) {Ω : Type} [MeasurableSpace Ω] (P : Measure Ω) [IsProbabilityMeasure P] (r : Ω → R.σ)
    (hst : NoiseStream R M.par.complex p P r ((stdGaussian V).map e))
    (hnoise : ∀ k ω, e (e' (noiseSeq R M.par.complex p (r ω) k)) = noiseSeq R M.par.complex p (r ω) k) :
    LongRun M R A P r ((stdGaussian V).map e) {z | e (e' z) = z} := by
  choose pri hpri using hprior
  set grad : (Fin n → ℂ) → (Fin p → ℂ) := fun y => At (M.F.invcov.mulVec (y - M.F.data.vals)) with hgrad
  set prox : (Fin p → ℂ) → (Fin p → ℂ) := fun x => x + Bt ((fun j => softEntry (B x j) (T j)) - B x) with hprox
  have tot : Total M p A grad prox pri := ⟨hn, hlin.fwd, hlin.grad, hpx, hpri, hl.ne'⟩
  have hcont : Continuous (gradVec M.par.lmda A grad prox) := threshold_drift_continuous hlin hadj (fun j => (hpos j).le) M.par.lmda
  obtain ⟨x₀, τ, η, K, ρ, hclip⟩ := hclip
  set G : V → V := fun x => (1 / M.par.lmda) • Rv x + Sv x with hG
  refine he.longRun e' he' hee R tot hcont G (fun x => ?_)
    (hclip.coupled M.par.delta M.par.lmda hδ hl hs G fun x => rfl) P r hst hnoise
  rw [hG, he.add, he.smul, hR, hS]
  have hneg : Bt ((fun j => softEntry (B (e x) j) (T j)) - B (e x)) = -Bt (clip T (B (e x))) := by
    have h1 := adjoint_sub' hadj (clip T (B (e x))) (clip T (B (e x)))
    rw [sub_self, sub_self] at h1
    have h2 := adjoint_sub' hadj 0 (clip T (B (e x)))
    rw [← h1, zero_sub, zero_sub] at h2
    rw [h2]
    congr 1
    funext j
    simp [clip]
  funext i
  simp only [Pi.add_apply, Pi.neg_apply, gradVec, hprox, hneg]
  push_cast
  ring

theorem RealForm.flat (he : RealForm e) (h : ThresholdModel M.F M.P σ A At B Bt T) (hn : M.nparams = p) (hl : 0 < M.par.lmda)
    (hδ : 0 < M.par.delta) (Lf : ℝ) (hL : 0 < Lf) (hup : ∀ v, misfit σ 0 (A v) ≤ Lf * Spec.distSq v 0)
    (hs : M.par.delta * (1 / M.par.lmda + Lf) < 2) (e' : (Fin p → ℂ) → V) (he' : Measurable e') (hee : ∀ x, e' (e x) = x)
    (hc1 : ∀ x : V, e (e' (Bt (clip T (B (e x))))) = Bt (clip T (B (e x))))
    (hc2 : ∀ x : V, e (e' (At (M.F.invcov.mulVec (A (e x) - M.F.data.vals)))) = At (M.F.invcov.mulVec (A (e x) - M.F.data.vals)))
    (R : Rng) {Ω : Type} [MeasurableSpace Ω] (P : Measure Ω) [IsProbabilityMeasure P] (r : Ω → R.σ)
    (hst : NoiseStream R M.par.complex p P r ((stdGaussian V).map e))
    (hnoise : ∀ k ω, e (e' (noiseSeq R M.par.complex p (r ω) k)) = noiseSeq R M.par.complex p (r ω) k) :
    LongRun M R A P r ((stdGaussian V).map e) {z | e (e' z) = z} := by
  obtain ⟨b, hb, hfr⟩ := h.frame
  exact he.flat_ops h.lin h.prior h.proxf h.adj h.pos hn hl hδ Lf hs e' he' hee _ _ hc1 hc2
    (he.clipped h.adj b hb (fun x => by rw [rip_self, rip_self]; exact (hfr x).1)
      (fun x => by rw [rip_self, rip_self]; exact (hfr x).2) h.pos σ M.F.data.vals A At h.lin.adj Lf hL hup _ _ hc1
      (fun x => by rw [hc2, ← h.invcov])) R P r hst hnoise

/-- C126 for real samplers: let `proxf` threshold the coefficients of `x` in a frame with positive thresholds, let the forward operator be
linear (it may be far from injective), and let operator, frame and data be real.  If `np.random.randn` delivers independent standard normals
and `delta*(1/lmda + Lf) < 2`, there is exactly one stationary law on the real vectors, the law of the sample after `k` steps converges to it
from every real start, and so do the averages over the saved samples. -/
theorem C126_real (h : ThresholdModel M.F M.P σ A At B Bt T) (hAr : ∀ x, (∀ i, (x i).im = 0) → ∀ i, (A x i).im = 0)
    (hBr : ∀ x, (∀ i, (x i).im = 0) → ∀ i, (B x i).im = 0) (hdr : ∀ i, (M.F.data.vals i).im = 0) (hn : M.nparams = p)
    (hreal : M.par.complex = false) (hl : 0 < M.par.lmda) (hδ : 0 < M.par.delta) (Lf : ℝ) (hL : 0 < Lf)
    (hup : ∀ v, misfit σ 0 (A v) ≤ Lf * Spec.distSq v 0) (hs : M.par.delta * (1 / M.par.lmda + Lf) < 2)
    (R : Rng) {Ω : Type} [MeasurableSpace Ω] (P : Measure Ω) [IsProbabilityMeasure P] (r : Ω → R.σ) (hr : NormalStream R p P r) :
    LongRun M R A P r (normalLaw p) {z | ∀ i, (z i).im = 0} := by
  set e' : (Fin p → ℂ) → EuclideanSpace ℝ (Fin p) := fun z => WithLp.toLp 2 fun i => (z i).re with he'
  have hm : Measurable e' := by
    refine Continuous.measurable ?_
    have h1 : Continuous fun z : Fin p → ℂ => fun i => (z i).re := by fun_prop
    exact (PiLp.continuous_toLp 2 _).comp h1
  have hiff : ∀ z : Fin p → ℂ, realVec (e' z).ofLp = z ↔ ∀ i, (z i).im = 0 := by
    intro z
    constructor
    · intro hz i
      rw [← hz]
      simp [realVec]
    · intro hz
      funext i
      refine Complex.ext ?_ ?_
      · simp [realVec, he']
      · simp [realVec, hz i]
  have hx : ∀ x : EuclideanSpace ℝ (Fin p), ∀ i, (realVec x.ofLp i).im = 0 := fun x i => by simp [realVec]
  have hns : NoiseStream R M.par.complex p P r (normalLaw p) := by
    rw [hreal]
    exact C99_normal_noise R P r hr
  rw [← normalLaw_std] at hns ⊢
  have key := realForm_real.flat h hn hl hδ Lf hL hup hs e' hm (fun x => ?_) (fun x => ?_) (fun x => ?_) R P r hns (fun k ω => ?_)
  · have hset : {z : Fin p → ℂ | realVec (e' z).ofLp = z} = {z | ∀ i, (z i).im = 0} := Set.ext hiff
    rw [hset] at key
    exact key
  · ext i
    simp [he', realVec]
  · rw [hiff]
    refine adjoint_real B Bt h.adj hBr _ fun j => ?_
    have h1 := hBr _ (hx x) j
    rw [clip, Complex.sub_im, h1, softEntry_im _ _ h1, sub_zero]
  · rw [hiff]
    refine adjoint_real A At h.lin.adj hAr _ fun j => ?_
    rw [h.invcov, Matrix.mulVec_diagonal, Complex.im_ofReal_mul, Pi.sub_apply, Complex.sub_im, hAr _ (hx x), hdr]
    simp
  · rw [hiff, hreal]
    intro i
    exact Complex.ofReal_im _

/-- C126 for complex samplers (`complex=True`), whose noise has independent standard normal real and imaginary parts: the same on all of
`ℂ^p`.  Operator, frame and data need not be real. -/
theorem C126_complex (h : ThresholdModel M.F M.P σ A At B Bt T) (hn : M.nparams = p)
    (hcplx : M.par.complex = true) (hl : 0 < M.par.lmda) (hδ : 0 < M.par.delta) (Lf : ℝ) (hL : 0 < Lf)
    (hup : ∀ v, misfit σ 0 (A v) ≤ Lf * Spec.distSq v 0) (hs : M.par.delta * (1 / M.par.lmda + Lf) < 2)
    (R : Rng) {Ω : Type} [MeasurableSpace Ω] (P : Measure Ω) [IsProbabilityMeasure P] (r : Ω → R.σ)
    (hr : NoiseStream R true p P r (cplxNormalLaw p)) : LongRun M R A P r (cplxNormalLaw p) Set.univ := by
  set e' : (Fin p → ℂ) → EuclideanSpace ℝ (Fin p ⊕ Fin p) := fun z => WithLp.toLp 2 (Sum.elim (fun i => (z i).re) fun i => (z i).im) with he'
  have hm : Measurable e' := by
    refine Continuous.measurable ?_
    have h1 : Continuous fun z : Fin p → ℂ => (Sum.elim (fun i => (z i).re) fun i => (z i).im : Fin p ⊕ Fin p → ℝ) := by
      refine continuous_pi fun j => ?_
      cases j with
      | inl i => exact Complex.continuous_re.comp (continuous_apply i)
      | inr i => exact Complex.continuous_im.comp (continuous_apply i)
    exact (PiLp.continuous_toLp 2 _).comp h1
  have hiff : ∀ z : Fin p → ℂ, cplxVec (e' z).ofLp = z := fun z => funext fun i => Complex.ext rfl rfl
  rw [← hcplx, ← cplxNormalLaw_std] at hr
  rw [← cplxNormalLaw_std]
  have key := realForm_cplx.flat h hn hl hδ Lf hL hup hs e' hm (fun x => ?_) (fun x => hiff _) (fun x => hiff _) R P r hr (fun k ω => hiff _)
  · have hset : {z : Fin p → ℂ | cplxVec (e' z).ofLp = z} = Set.univ := Set.eq_univ_of_forall hiff
    rw [hset] at key
    exact key
  · ext i
    cases i <;> simp [he', cplxVec]

/-- Every linear operator has a finite misfit constant. -/
theorem misfit_bounded (σ : Fin n → ℝ) (A : (Fin p → ℂ) →ₗ[ℂ] (Fin n → ℂ)) :
    ∃ Lf : ℝ, 0 < Lf ∧ ∀ v, misfit σ 0 (A v) ≤ Lf * Spec.distSq v 0 := by
  set K := ‖LinearMap.toContinuousLinearMap A‖ with hK
  have hS : 0 ≤ ∑ i, K ^ 2 / σ i ^ 2 := Finset.sum_nonneg fun i _ => by positivity
  refine ⟨(∑ i, K ^ 2 / σ i ^ 2) + 1, by positivity, fun v => ?_⟩
  have hd : ‖v‖ ^ 2 ≤ Spec.distSq v 0 := by
    have h1 := sqrt_distSq_le v 0
    rw [dist_zero_right] at h1
    have h0 : 0 ≤ Spec.distSq v 0 := Finset.sum_nonneg fun i _ => sq_nonneg _
    exact (pow_le_pow_left₀ (norm_nonneg _) h1 2).trans (le_of_eq (Real.sq_sqrt h0))
  have hn : ‖A v‖ ≤ K * ‖v‖ := (LinearMap.toContinuousLinearMap A).le_opNorm v
  have h1 : misfit σ 0 (A v) ≤ (∑ i, K ^ 2 / σ i ^ 2) * ‖v‖ ^ 2 := by
    unfold misfit
    rw [Finset.sum_mul]
    refine Finset.sum_le_sum fun i _ => ?_
    rw [Pi.zero_apply, zero_sub, norm_neg, div_mul_eq_mul_div, ← mul_pow]
    refine div_le_div_of_nonneg_right (pow_le_pow_left₀ (norm_nonneg _) ?_ 2) (sq_nonneg _)
    exact (norm_le_pi_norm (A v) i).trans hn
  refine h1.trans ((mul_le_mul_of_nonneg_left hd hS).trans ?_)
  refine mul_le_mul_of_nonneg_right (by linarith) (Finset.sum_nonneg fun i _ => sq_nonneg _)

/-- C126, the runs exist: from every start array, a quiet run of every length that tracks the chain returns with all rows. -/
theorem C126_runs (h : ThresholdModel M.F M.P σ A At B Bt T) (hn : M.nparams = p) (hl : M.par.lmda ≠ 0) (R : Rng) (r : R.σ)
    (x0 : Fin p → ℂ) (N b gap : ℕ) (v : ℤ) (hv : v ≤ 0) (track : List String) (hc : "chain" ∈ track) :
    (initArrays (M.resched N b gap v track)).Shaped N ∧ ∃ (fuel : ℕ) (st : St R) (rows : Fin N → Fin p → ℂ),
      myulaRun (M.resched N b gap v track) R (initArrays (M.resched N b gap v track)) r (.array1 (List.ofFn x0)) fuel = .ok (some st) ∧
      ((initArrays (M.resched N b gap v track)).applyAll st.ev).chain = some (List.ofFn fun k : Fin N => List.ofFn (rows k)) := by
  have hpx := h.prior
  choose pri hpri using hpx
  have tot : Total (M.resched N b gap v track) p A (fun y => At (M.F.invcov.mulVec (y - M.F.data.vals)))
      (fun x => x + Bt ((fun j => softEntry (B x j) (T j)) - B x)) pri := ⟨hn, h.lin.fwd, h.lin.grad, h.proxf, hpri, hl⟩
  obtain ⟨-, st, h1, -, h2⟩ := C41_schedule (M.resched N b gap v track) R (initArrays (M.resched N b gap v track)) (initArrays_shaped _)
    (.inl hv) b gap rfl rfl tot _ (fun x => gradlogpi_vec _ tot x) r r (.array1 (List.ofFn x0)) x0 (start_array R tot r x0) _ rfl
  refine ⟨initArrays_shaped _, _, st, fun k i => store M.par.complex (iter (ulaStep M.par.delta (gradVec M.par.lmda A
    (fun y => At (M.F.invcov.mulVec (y - M.F.data.vals))) fun x => x + Bt ((fun j => softEntry (B x j) (T j)) - B x)))
    (noiseSeq R M.par.complex p r) x0 (b + k * max gap 1 + 1) i), h1 _ le_rfl, ?_⟩
  rw [h2]
  have hch : ∃ l, (initArrays (M.resched N b gap v track)).chain = some l :=
    ⟨_, if_pos (e := (none : Option (List (List ℂ)))) (show "chain" ∈ track from hc)⟩
  obtain ⟨l, hl'⟩ := hch
  simp only [Arrays.ofRows, hl', Option.map_some, Option.some.injEq]
  refine List.ext_getElem (by simp; rfl) fun k hk hk' => ?_
  simp only [List.getElem_map, List.getElem_range, List.getElem_ofFn]
  rfl

/-- The l1 prior in the synthesis setting thresholds the parameters themselves. -/
theorem C126_l1_synthesis (data : DataVec n) (hd : data.cplx = false) (sig : SigD) (hσ : IsSigma n sig σ) (s : String)
    (tr me : Option OpPair) (np : Option ℕ) (hF : ForwardOp.init data sig s tr me np = .ok F) (hA : LinModel F A At)
    (fw ad : List ℂ → Py (List ℂ)) (t : ℝ) (ht : 0 < t) (L : L1 ℂ) (hL : L1.init "synthesis" fw ad (.scalar t) = .ok L) :
    ThresholdModel F L.toPrior σ A At (LinearMap.id : (Fin p → ℂ) →ₗ[ℂ] (Fin p → ℂ)) (fun y => y) fun _ => t := by
  obtain rfl := Except.ok.inj hL
  refine ⟨hA, (forward_stored data hd sig σ hσ s tr me np F hF).2, fun x => ⟨_, rfl⟩, fun x => ?_, fun x y => rfl,
    ⟨1, one_pos, fun x => ⟨by rw [one_mul]; exact le_rfl, le_rfl⟩⟩, fun _ => ht⟩
  show soft (List.ofFn x) (.scalar t) = _
  rw [soft_scalar]
  congr 2
  funext i
  simp

/-- The l1 prior in the analysis setting thresholds the coefficients `adj x`, if `adj` is linear with adjoint `fwd`, never increases and
never loses the size of a vector. -/
theorem C126_l1_analysis (data : DataVec n) (hd : data.cplx = false) (sig : SigD) (hσ : IsSigma n sig σ) (s : String)
    (tr me : Option OpPair) (np : Option ℕ) (hF : ForwardOp.init data sig s tr me np = .ok F) (hA : LinModel F A At)
    (fw ad : List ℂ → Py (List ℂ)) (t : ℝ) (ht : 0 < t) (Bl : (Fin m → ℂ) →ₗ[ℂ] (Fin p → ℂ)) (had : ActsAs ad B) (hfw : ActsAs fw Bl)
    (hadj : Spec.IsAdjointPair B Bl) (b : ℝ) (hb : 0 < b)
    (hfr : ∀ x, b * Spec.distSq x 0 ≤ Spec.distSq (B x) 0 ∧ Spec.distSq (B x) 0 ≤ Spec.distSq x 0)
    (L : L1 ℂ) (hL : L1.init "analysis" fw ad (.scalar t) = .ok L) :
    ThresholdModel F L.toPrior σ A At B Bl fun _ => t := by
  obtain rfl := Except.ok.inj hL
  refine ⟨hA, (forward_stored data hd sig σ hσ s tr me np F hF).2, fun x => ⟨_, rfl⟩, fun x => ?_, hadj, ⟨b, hb, hfr⟩, fun _ => ht⟩
  exact proxfAnalysis_eq ⟨.analysis, fw, ad, .scalar t⟩ B Bl rfl had hfw t rfl x

end Model

/-- C126 from the constructors on, for path integrals: for every real path matrix `W` (there may be far fewer paths than pixels), every real
data vector, every threshold `t > 0` and every `lmda > 0` there is a `delta0` such that with every step size below it all constructors succeed
and MYULA converges.  Runs of every length return all their rows. -/
theorem C126_path_integrals (W : Matrix (Fin n) (Fin p) ℂ) (hW : ∀ i j, (W i j).im = 0) (data : DataVec n) (hd : data.cplx = false)
    (hdr : ∀ i, (data.vals i).im = 0) (sig : SigD) (σ : Fin n → ℝ) (hσ : IsSigma n sig σ) (t : ℝ) (ht : 0 < t) (par : Params)
    (hl : 0 < par.lmda) (hreal : par.complex = false) :
    ∃ delta0, 0 < delta0 ∧ ∀ delta, 0 < delta → delta < delta0 → ∃ (F : ForwardOp n) (L : L1 ℂ) (M : Sampler n) (A : Arrays),
      ForwardOp.init data sig "synthesis" (some identityTransform) (some ⟨pathForward W, pathAdjoint W⟩) (some p) = .ok F ∧
      L1.init "synthesis" identityTransform.op identityTransform.adj (.scalar t) = .ok L ∧
      samplerInit F L.toPrior { par with delta := delta } = .ok (M, A) ∧
      (∀ (R : Rng) (r : R.σ) (x0 : Fin p → ℂ) (N b gap : ℕ) (track : List String), "chain" ∈ track →
        ∃ (fuel : ℕ) (st : St R) (rows : Fin N → Fin p → ℂ),
          myulaRun (M.resched N b gap 0 track) R (initArrays (M.resched N b gap 0 track)) r (.array1 (List.ofFn x0)) fuel = .ok (some st) ∧
          ((initArrays (M.resched N b gap 0 track)).applyAll st.ev).chain = some (List.ofFn fun k : Fin N => List.ofFn (rows k))) ∧
      ∀ (R : Rng) {Ω : Type} [MeasurableSpace Ω] (P : Measure Ω) [IsProbabilityMeasure P] (r : Ω → R.σ), NormalStream R p P r →
        LongRun M R W.mulVec P r (normalLaw p) {z | ∀ i, (z i).im = 0} := by
  obtain ⟨V, hV, -, rfl⟩ := C35_diagonal data hd sig σ hσ
  set F : ForwardOp n := ⟨data, Matrix.diagonal fun i => ((1 / σ i ^ 2 : ℝ) : ℂ), .synthesis, some identityTransform,
    some ⟨pathForward W, pathAdjoint W⟩, some p⟩ with hFdef
  have hF : ForwardOp.init data sig "synthesis" (some identityTransform) (some ⟨pathForward W, pathAdjoint W⟩) (some p) = .ok F := by
    unfold ForwardOp.init
    rw [hV]
    rfl
  have hA : LinModel F ((Matrix.mulVecLin W).comp LinearMap.id) fun y => (fun z => z) (Matrix.mulVec W.conjTranspose y) :=
    linModel_synthesis F rfl (Matrix.mulVecLin W) (Matrix.mulVec W.conjTranspose) (pathIntegral_linearOps F W rfl)
      (LinearMap.id : (Fin p → ℂ) →ₗ[ℂ] (Fin p → ℂ)) (fun y => y) ⟨⟨identityTransform, rfl, fun x => rfl, fun x => rfl⟩, fun x y => rfl⟩
  obtain ⟨Lf, hL, hup⟩ := misfit_bounded σ ((Matrix.mulVecLin W).comp LinearMap.id)
  have hsum : 0 < 1 / par.lmda + Lf := by positivity
  refine ⟨2 / (1 / par.lmda + Lf), by positivity, fun delta hδ hδlt => ?_⟩
  have hmod := C126_l1_synthesis data hd sig hσ "synthesis" _ _ _ hF hA identityTransform.op identityTransform.adj t ht
    ⟨.synthesis, identityTransform.op, identityTransform.adj, .scalar t⟩ rfl
  refine ⟨F, _, ⟨F, _, { par with delta := delta }, p⟩, _, hF, rfl, rfl, fun R r x0 N b gap track hc => ?_, fun R Ω _ P _ r hr => ?_⟩
  · exact (C126_runs (M := ⟨F, _, { par with delta := delta }, p⟩) hmod rfl hl.ne' R r x0 N b gap 0 le_rfl track hc).2
  · refine C126_real (M := ⟨F, _, { par with delta := delta }, p⟩) hmod (fun x hx i => ?_) (fun x hx => hx) hdr rfl hreal hl hδ Lf hL hup ?_ R P r hr
    · show (∑ j, W i j * x j).im = 0
      rw [Complex.im_sum]
      refine Finset.sum_eq_zero fun j _ => ?_
      rw [Complex.mul_im, hW, hx]
      simp
    · show delta * (1 / par.lmda + Lf) < 2
      rwa [lt_div_iff₀ hsum] at hδlt

/-- The hypotheses of C126 are met by one path through three pixels: two directions are not seen by the data. -/
example : ∃ (W : Matrix (Fin 1) (Fin 3) ℂ) (data : DataVec 1) (sig : SigD) (σ : Fin 1 → ℝ) (par : Params), (∀ i j, (W i j).im = 0) ∧
    data.cplx = false ∧ (∀ i, (data.vals i).im = 0) ∧ IsSigma 1 sig σ ∧ 0 < par.lmda ∧ par.complex = false ∧
    (∃ v, v ≠ 0 ∧ W.mulVec v = 0) ∧
    NormalStream (vecRng 3) 3 (Measure.infinitePi fun _ : ℕ => Measure.pi fun _ : Fin 3 => gaussianReal 0 1) fun ω => ω := by
  refine ⟨!![1, 2, 3], ⟨false, fun _ => 4⟩, .num ((1 / 10 : ℝ) : ℂ) false, fun _ => 1 / 10,
    ⟨3 / 100000, 1 / 100000, 1, 5, 100, 10, 5, false, 0, ["chain"]⟩, fun i j => ?_, rfl, fun _ => by simp, .scalar _ (by norm_num),
    by norm_num, rfl, ⟨![2, -1, 0], ?_, ?_⟩, vecRng_normal⟩
  · fin_cases i
    fin_cases j <;> simp
  · intro h
    have := congrFun h 0
    simp at this
  · funext i
    fin_cases i
    simp [Matrix.mulVec, dotProduct, Fin.sum_univ_three]

/-- C126 for complex samplers and for the analysis setting: a complex 1×2 operator that misses one direction, and a frame
of three vectors. -/
example : ∃ (F : ForwardOp 1) (L : L1 ℂ) (A : (Fin 2 → ℂ) →ₗ[ℂ] (Fin 1 → ℂ)) (At : (Fin 1 → ℂ) → (Fin 2 → ℂ))
    (B : (Fin 2 → ℂ) →ₗ[ℂ] (Fin 3 → ℂ)) (Bt : (Fin 3 → ℂ) → (Fin 2 → ℂ)),
    ThresholdModel F L.toPrior (fun _ => 1) A At B Bt (fun _ => 3) ∧ (∃ v, v ≠ 0 ∧ A v = 0) ∧
    NoiseStream (halvesRng 2) true 2 (Measure.infinitePi fun _ : ℕ => Measure.pi fun _ : Fin 2 ⊕ Fin 2 => gaussianReal 0 1)
      (fun ω => (false, ω)) (cplxNormalLaw 2) := by
  set W : Matrix (Fin 1) (Fin 2) ℂ := !![1, Complex.I] with hW
  set B : Matrix (Fin 3) (Fin 2) ℂ := !![1/2, 0; 0, 1/2; 1/2, Complex.I/2] with hB
  obtain ⟨V, hV, -, rfl⟩ := C35_diagonal (⟨false, fun _ => 4⟩ : DataVec 1) rfl _ _ (IsSigma.scalar 1 one_pos)
  set F : ForwardOp 1 := ⟨⟨false, fun _ => 4⟩, Matrix.diagonal fun i => ((1 / (1 : ℝ) ^ 2 : ℝ) : ℂ), .analysis, none,
    some ⟨pathForward W, pathAdjoint W⟩, some 2⟩ with hFdef
  have hF : ForwardOp.init (⟨false, fun _ => 4⟩ : DataVec 1) (.num ((1 : ℝ) : ℂ) false) "analysis" none
      (some ⟨pathForward W, pathAdjoint W⟩) (some 2) = .ok F := by
    unfold ForwardOp.init
    rw [hV]
    rfl
  refine ⟨F, _, _, _, B.mulVecLin, _, C126_l1_analysis (⟨false, fun _ => 4⟩ : DataVec 1) rfl _ (IsSigma.scalar 1 one_pos) "analysis" _ _ _ hF
    (linModel_analysis F rfl _ _ (pathIntegral_linearOps F W rfl)) (pathAdjoint B) (pathForward B) 3 (by norm_num) B.conjTranspose.mulVecLin (fun x => ?_) (fun x => ?_)
    (fun x y => inner_mulVec B x y) (1 / 4) (by norm_num) (fun x => ?_) _ rfl, ⟨![1, Complex.I], ?_, ?_⟩, halvesRng_normal⟩
  · simp only [pathForward]
    rw [if_pos (by simp), matDot_ofFn]
    rfl
  · simp only [pathAdjoint]
    rw [if_pos (by simp), matDot_ofFn]
    rfl
  · have e : ∀ v : Fin 2 → ℂ, Spec.distSq v 0 = ‖v 0‖ ^ 2 + ‖v 1‖ ^ 2 := fun v => by simp [Spec.distSq, Fin.sum_univ_two]
    have e3 : Spec.distSq (B.mulVecLin x) 0 = ‖1 / 2 * x 0‖ ^ 2 + ‖1 / 2 * x 1‖ ^ 2 + ‖1 / 2 * x 0 + Complex.I / 2 * x 1‖ ^ 2 := by
      simp [Spec.distSq, Fin.sum_univ_three, hB, Matrix.mulVec, dotProduct, Fin.sum_univ_two]
    rw [e, e3]
    simp only [Complex.sq_norm, Complex.normSq_apply]
    simp
    constructor <;> nlinarith [sq_nonneg ((x 0).re - (x 1).im), sq_nonneg ((x 0).im + (x 1).re), sq_nonneg ((x 0).re + (x 1).im),
      sq_nonneg ((x 0).im - (x 1).re)]
  · intro h
    have := congrFun h 0
    simp at this
  · funext i
    fin_cases i
    simp [Matrix.mulVec, dotProduct, Fin.sum_univ_two, hW]

end Pxmcmc
