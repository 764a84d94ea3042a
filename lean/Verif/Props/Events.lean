import Verif.Lemmas.Smoothing
import Verif.Props.ComplexErgodic
import Verif.Props.BurnIn

/-! # Property C134: the probabilities of all events converge along the rows of a MYULA chain -/

namespace Pxmcmc
open MeasureTheory ProbabilityTheory Filter
open scoped ENNReal NNReal Topology
variable {n m p : ℕ}

/-- The law of the noise vectors when `np.random.randn` delivers independent standard normals: real for real samplers, with independent
real and imaginary parts for complex ones. -/
noncomputable def normalNoise (cplx : Bool) (p : ℕ) : Measure (Fin p → ℂ) := if cplx then cplxNormalLaw p else normalLaw p

/-- The probability that row `k` of the `chain` array of a MYULA run from `x0` lies in a set differs from the probability that a (stored)
sample of law `π` does by at most `rate (nburn + k * max ngap 1)`, for all (measurable) sets alike. -/
def RowEvents (M : Sampler n) (R : Rng) {Ω : Type} [MeasurableSpace Ω] (P : Measure Ω) (r : Ω → R.σ) (π : Measure (Fin p → ℂ))
    (x0 : Fin p → ℂ) (rate : ℕ → ℝ) : Prop :=
  ∀ (N b gap : ℕ) (v : ℤ) (track : List String) (A : Arrays), A.Shaped N → ∀ (fuel : Ω → ℕ) (st : Ω → St R),
    (∀ ω, myulaRun (M.resched N b gap v track) R A (r ω) (.array1 (List.ofFn x0)) (fuel ω) = .ok (some (st ω))) →
    ∀ rows : Ω → Fin N → Fin p → ℂ,
    (∀ ω, (A.applyAll (st ω).ev).chain = some (List.ofFn fun k : Fin N => List.ofFn (rows ω k))) →
    ∀ (k : Fin N) (S : Set (Fin p → ℂ)), MeasurableSet S →
      |P.real {ω | rows ω k ∈ S} - π.real {z | (fun i => store M.par.complex (z i)) ∈ S}| ≤ rate (b + k * max gap 1)

theorem normalNoise_prob (cplx : Bool) (p : ℕ) : IsProbabilityMeasure (normalNoise cplx p) := by
  cases cplx
  · show IsProbabilityMeasure (normalLaw p)
    rw [← normalLaw_std]
    exact Measure.isProbabilityMeasure_map realForm_real.cont.measurable.aemeasurable
  · show IsProbabilityMeasure (cplxNormalLaw p)
    rw [← cplxNormalLaw_std]
    exact Measure.isProbabilityMeasure_map realForm_cplx.cont.measurable.aemeasurable

theorem normalNoise_sq (cplx : Bool) : ∫⁻ w, ‖w‖ₑ ^ 2 ∂(normalNoise cplx p) ≠ ⊤ := by
  cases cplx
  · exact C114_normal_noise
  · exact C132_complex_noise

theorem store_measurable (cplx : Bool) : Measurable fun (z : Fin p → ℂ) i => store cplx (z i) := by
  cases cplx
  · show Measurable fun (z : Fin p → ℂ) i => (((z i).re : ℝ) : ℂ)
    fun_prop
  · exact measurable_id

/-- Adding the noise smooths. -/
theorem noise_smooth (cplx : Bool) (p : ℕ) (s : ℝ) (hs : 0 < s) : ∃ K : ℝ, 0 ≤ K ∧ ∀ (a c : Fin p → ℂ) (A : Set (Fin p → ℂ)), MeasurableSet A →
    |(normalNoise cplx p).real {w | (fun i => store cplx (a i + (s : ℂ) * w i)) ∈ A} -
      (normalNoise cplx p).real {w | (fun i => store cplx (c i + (s : ℂ) * w i)) ∈ A}| ≤ K * √(Spec.distSq a c) := by
  cases cplx
  · obtain ⟨K, hK, h⟩ := gauss_shift (V := EuclideanSpace ℝ (Fin p)) s hs
    refine ⟨K, hK, fun a c A hA => ?_⟩
    have hem := (realForm_real (p := p)).cont.measurable
    have hT : ∀ a : Fin p → ℂ, (normalNoise false p).real {w | (fun i => store false (a i + (s : ℂ) * w i)) ∈ A} =
        (stdGaussian (EuclideanSpace ℝ (Fin p))).real {w | (WithLp.toLp 2 fun i => (a i).re) + s • w ∈
          (fun x : EuclideanSpace ℝ (Fin p) => realVec x.ofLp) ⁻¹' A} := by
      intro a
      have hm : Measurable fun (w : Fin p → ℂ) i => store false (a i + (s : ℂ) * w i) :=
        (store_measurable false).comp (g := fun (z : Fin p → ℂ) i => store false (z i)) (by fun_prop)
      show (normalLaw p).real ((fun (w : Fin p → ℂ) i => store false (a i + (s : ℂ) * w i)) ⁻¹' A) = _
      rw [← normalLaw_std, measureReal_def, measureReal_def, Measure.map_apply hem (hm hA)]
      congr 2
      ext w
      have e : (fun i => store false (a i + (s : ℂ) * realVec w.ofLp i)) =
          realVec ((WithLp.toLp 2 fun i => (a i).re) + s • w : EuclideanSpace ℝ (Fin p)).ofLp := by
        funext i
        simp [store, realVec]
      show (fun i => store false (a i + (s : ℂ) * realVec w.ofLp i)) ∈ A ↔ _
      rw [e]
      rfl
    rw [hT, hT]
    refine (h _ _ _ (hem hA)).trans (mul_le_mul_of_nonneg_left ?_ hK)
    rw [realForm_real.norm]
    exact Real.sqrt_le_sqrt (distSq_store false a c)
  · obtain ⟨K, hK, h⟩ := gauss_shift (V := EuclideanSpace ℝ (Fin p ⊕ Fin p)) s hs
    refine ⟨K, hK, fun a c A hA => ?_⟩
    have hem := (realForm_cplx (p := p)).cont.measurable
    set e' : (Fin p → ℂ) → EuclideanSpace ℝ (Fin p ⊕ Fin p) := fun z => WithLp.toLp 2 (Sum.elim (fun i => (z i).re) fun i => (z i).im)
      with he'
    have hiff : ∀ z : Fin p → ℂ, cplxVec (e' z).ofLp = z := fun z => funext fun i => Complex.ext rfl rfl
    have hT : ∀ a : Fin p → ℂ, (normalNoise true p).real {w | (fun i => store true (a i + (s : ℂ) * w i)) ∈ A} =
        (stdGaussian (EuclideanSpace ℝ (Fin p ⊕ Fin p))).real {w | e' a + s • w ∈
          (fun x : EuclideanSpace ℝ (Fin p ⊕ Fin p) => cplxVec x.ofLp) ⁻¹' A} := by
      intro a
      have hm : Measurable fun (w : Fin p → ℂ) i => store true (a i + (s : ℂ) * w i) :=
        (store_measurable true).comp (g := fun (z : Fin p → ℂ) i => store true (z i)) (by fun_prop)
      show (cplxNormalLaw p).real ((fun (w : Fin p → ℂ) i => store true (a i + (s : ℂ) * w i)) ⁻¹' A) = _
      rw [← cplxNormalLaw_std, measureReal_def, measureReal_def, Measure.map_apply hem (hm hA)]
      congr 2
      ext w
      have e : (fun i => store true (a i + (s : ℂ) * cplxVec w.ofLp i)) = cplxVec (e' a + s • w).ofLp := by
        have h1 := (realForm_cplx (p := p)).add (e' a) (s • w)
        have h2 := (realForm_cplx (p := p)).smul s w
        simp only at h1 h2
        rw [h1, h2, hiff]
        funext i
        simp [store]
      show (fun i => store true (a i + (s : ℂ) * cplxVec w.ofLp i)) ∈ A ↔ _
      rw [e]
      rfl
    rw [hT, hT]
    refine (h _ _ _ (hem hA)).trans (mul_le_mul_of_nonneg_left ?_ hK)
    rw [realForm_cplx.norm]
    simp only [hiff]
    exact le_rfl

variable {M : Sampler n} {fwd : (Fin p → ℂ) → (Fin n → ℂ)} {grad : (Fin n → ℂ) → (Fin p → ℂ)}
  {prox : (Fin p → ℂ) → (Fin p → ℂ)} {pri g : (Fin p → ℂ) → ℝ} {Q : Matrix (Fin p) (Fin p) ℂ} {ρ : ℝ}

/-- The probability of an event after one step of MYULA is a Lipschitz function of the state, with one constant for all events. -/
theorem step_smooth (cplx : Bool) {delta : ℝ} (hδ : 0 < delta) {G : (Fin p → ℂ) → (Fin p → ℂ)} (Λ : ℝ) (hΛ : 0 ≤ Λ)
    (hG : ∀ x y w, √(Spec.distSq (ulaStep delta G x w) (ulaStep delta G y w)) ≤ Λ * √(Spec.distSq x y)) :
    ∃ K : ℝ, 0 ≤ K ∧ ∀ A : Set (Fin p → ℂ), MeasurableSet A → ∀ x y,
      |(normalNoise cplx p).real {w | (fun i => store cplx (ulaStep delta G x w i)) ∈ A} -
        (normalNoise cplx p).real {w | (fun i => store cplx (ulaStep delta G y w i)) ∈ A}| ≤ K * √(Spec.distSq x y) := by
  obtain ⟨K, hK, h⟩ := noise_smooth cplx p (√(2 * delta)) (Real.sqrt_pos.mpr (by positivity))
  refine ⟨K * Λ, by positivity, fun A hA x y => ?_⟩
  refine (h (fun i => x i + (delta : ℂ) * G x i) (fun i => y i + (delta : ℂ) * G y i) A hA).trans ?_
  rw [mul_assoc]
  refine mul_le_mul_of_nonneg_left ?_ hK
  have h1 := hG x y 0
  have e : ∀ z, ulaStep delta G z 0 = fun i => z i + (delta : ℂ) * G z i := fun z => funext fun i => by simp [ulaStep]
  rwa [e, e] at h1

/-- The rows of the `chain` array and the states of the chain. -/
theorem rows_state (R : Rng) (tot : Total M p fwd grad prox pri) {Ω : Type} (r : Ω → R.σ) (x0 : Fin p → ℂ) (N b gap : ℕ)
    (v : ℤ) (track : List String) (A : Arrays) (hA : A.Shaped N) (fuel : Ω → ℕ) (st : Ω → St R)
    (hrun : ∀ ω, myulaRun (M.resched N b gap v track) R A (r ω) (.array1 (List.ofFn x0)) (fuel ω) = .ok (some (st ω)))
    (rows : Ω → Fin N → Fin p → ℂ)
    (hrows : ∀ ω, (A.applyAll (st ω).ev).chain = some (List.ofFn fun k : Fin N => List.ofFn (rows ω k))) (k : Fin N) (ω : Ω) :
    rows ω k = fun i => store M.par.complex (fwState (ulaStep M.par.delta (gradVec M.par.lmda fwd grad prox)) x0
      (fun j => noiseSeq R M.par.complex p (r ω) j) (b + k * max gap 1 + 1) i) := by
  have tot' : Total (M.resched N b gap v track) p fwd grad prox pri :=
    ⟨tot.nparams, tot.forward, tot.gradg, tot.proxf, tot.prior, tot.lmda⟩
  rw [myula_chain_rows (M := M.resched N b gap v track) R tot' A hA b gap rfl rfl (r ω) x0 (fuel ω) (st ω) (hrun ω) (rows ω) (hrows ω) k]
  rfl

/-- The probability of an event after `k + 1` steps, as a mean over the state after `k` steps. -/
theorem state_event {f : (Fin p → ℂ) → (Fin p → ℂ) → (Fin p → ℂ)} (hf : Measurable (Function.uncurry f)) (cplx : Bool) {Ω : Type}
    [MeasurableSpace Ω] (P : Measure Ω) [IsProbabilityMeasure P] {V : ℕ → Ω → Fin p → ℂ} {ν : Measure (Fin p → ℂ)} [IsProbabilityMeasure ν]
    (hV : Driven P V ν) (x0 : Fin p → ℂ) (A : Set (Fin p → ℂ)) (hA : MeasurableSet A) (k : ℕ) :
    P.real {ω | (fun i => store cplx (fwState f x0 (fun j => V j ω) (k + 1) i)) ∈ A} =
      ∫ x, ν.real {w | (fun i => store cplx (f x w i)) ∈ A} ∂((stepLaw f ν)^[k] (Measure.dirac x0)) := by
  have hT := store_measurable (p := p) cplx
  have hp := stepLaw_iter_prob ν f hf (Measure.dirac x0) k
  rw [(event_step (ν := ν) hf hT _ A hA).2, ← Function.iterate_succ_apply' (stepLaw f ν),
    ← fwState_law P V hV.meas hV.indep ν hV.law f hf x0 (k + 1), measureReal_def, measureReal_def]
  exact congrArg ENNReal.toReal (Measure.map_apply (fwState_measurable _ hf _ _ hV.meas (k + 1)) (hT hA)).symm

/-- Geometric convergence for chains that contract. -/
theorem StepContracts.events (R : Rng) (tot : Total M p fwd grad prox pri)
    (h : StepContracts M.par.delta (gradVec M.par.lmda fwd grad prox) ρ) (hδ : 0 < M.par.delta)
    {Ω : Type} [MeasurableSpace Ω] (P : Measure Ω) [IsProbabilityMeasure P] (r : Ω → R.σ)
    (hs : NoiseStream R M.par.complex p P r (normalNoise M.par.complex p)) (π : Measure (Fin p → ℂ)) [IsProbabilityMeasure π]
    (hπ : StationaryLaw M R (normalNoise M.par.complex p) π) (x0 : Fin p → ℂ) :
    ∃ D : ℝ, RowEvents M R P r π x0 fun j => D * ρ ^ j := by
  have hν := normalNoise_prob M.par.complex p
  have hsc := h.square _ hs.finite (normalNoise_sq M.par.complex) x0
  have hV : Driven P (fun k ω => noiseSeq R M.par.complex p (r ω) k) (normalNoise M.par.complex p) := ⟨hs.meas, hs.indep, hs.law⟩
  have hfix := (stationary_iff_meas R tot hsc.meas P r _ hs π).mp hπ
  obtain ⟨K, hK, hsm⟩ := step_smooth M.par.complex hδ ρ h.nonneg h.contract
  refine ⟨K * momBound (normalNoise M.par.complex p) (ulaStep M.par.delta (gradVec M.par.lmda fwd grad prox))
      (fun x y => √(Spec.distSq x y)) ρ x0, fun N b gap v track A hA fuel st hrun rows hrows k S hS => ?_⟩
  simp only [rows_state R tot r x0 N b gap v track A hA fuel st hrun rows hrows k]
  set q : (Fin p → ℂ) → ℝ := fun x => (normalNoise M.par.complex p).real
    {w | (fun i => store M.par.complex (ulaStep M.par.delta (gradVec M.par.lmda fwd grad prox) x w i)) ∈ S} with hq
  have hqc : Continuous q := lip_continuous _ K (hsm S hS)
  have h1 := state_event hsc.meas M.par.complex P hV x0 S hS (b + k * max gap 1)
  have h2 := (event_step (ν := normalNoise M.par.complex p) hsc.meas (store_measurable M.par.complex) π S hS).2
  rw [hfix] at h2
  rw [h1, ← h2, ← fwState_law P _ hV.meas hV.indep _ hV.law _ hsc.meas x0,
    integral_map (fwState_measurable _ hsc.meas _ _ hV.meas _).aemeasurable hqc.aestronglyMeasurable]
  exact (hsc.bias hV π hfix q hqc K hK (hsm S hS) (b + k * max gap 1)).2

/-- Convergence without a rate, from convergence in law. -/
theorem longRun_events (R : Rng) (tot : Total M p fwd grad prox pri) (hc : ∃ C, LipschitzWith C (gradVec M.par.lmda fwd grad prox))
    (hδ : 0 < M.par.delta) {Ω : Type} [MeasurableSpace Ω] (P : Measure Ω) [IsProbabilityMeasure P] (r : Ω → R.σ)
    (hs : NoiseStream R M.par.complex p P r (normalNoise M.par.complex p)) (Z : Set (Fin p → ℂ))
    (h : LongRun M R fwd P r (normalNoise M.par.complex p) Z) :
    ∃ π : Measure (Fin p → ℂ), IsProbabilityMeasure π ∧ (∀ᵐ z ∂π, z ∈ Z) ∧ StationaryLaw M R (normalNoise M.par.complex p) π ∧
      ∀ x0 ∈ Z, ∃ rate : ℕ → ℝ, Tendsto rate atTop (𝓝 0) ∧ RowEvents M R P r π x0 rate := by
  obtain ⟨π, hπp, hπZ, hst, -, hlim, -⟩ := h
  refine ⟨π, hπp, hπZ, hst, fun x0 hx0 => ?_⟩
  obtain ⟨C, hC⟩ := hc
  have hf := ulaStep_measurable M.par.delta hC.continuous
  have hν := normalNoise_prob M.par.complex p
  have hV : Driven P (fun k ω => noiseSeq R M.par.complex p (r ω) k) (normalNoise M.par.complex p) := ⟨hs.meas, hs.indep, hs.law⟩
  have hfix := (stationary_iff_meas R tot hf P r _ hs π).mp hst
  set f := ulaStep M.par.delta (gradVec M.par.lmda fwd grad prox) with hfd
  set μ : ℕ → Measure (Fin p → ℂ) := fun k => (stepLaw f (normalNoise M.par.complex p))^[k] (Measure.dirac x0) with hμ
  have hμp : ∀ k, IsProbabilityMeasure (μ k) := fun k => stepLaw_iter_prob _ f hf (Measure.dirac x0) k
  have hweak : ∀ q : BoundedContinuousFunction (Fin p → ℂ) ℝ, Tendsto (fun k => ∫ x, q x ∂(μ k)) atTop (𝓝 (∫ x, q x ∂π)) := by
    intro q
    have h1 := hlim (fun k ω => fwState f x0 (fun j => noiseSeq R M.par.complex p (r ω) j) k) (fun _ _ => rfl) (fun _ => hx0)
      (fun k ω => myulaStep_vec M R tot _ _) q
    refine h1.congr fun k => ?_
    rw [hμ]
    simp only
    rw [← fwState_law P _ hV.meas hV.indep _ hV.law _ hf x0 k,
      integral_map (fwState_measurable _ hf _ _ hV.meas k).aemeasurable q.continuous.aestronglyMeasurable]
  have hLip : ∀ x y w, √(Spec.distSq (f x w) (f y w)) ≤ √p * (1 + M.par.delta * C) * √(Spec.distSq x y) := by
    intro x y w
    refine (sqrt_distSq_le_dist _ _).trans ?_
    rw [mul_assoc]
    refine mul_le_mul_of_nonneg_left ?_ (Real.sqrt_nonneg _)
    refine le_trans ?_ (mul_le_mul_of_nonneg_left (sqrt_distSq_le x y) (by positivity))
    have e : f x w - f y w = (x - y) + (M.par.delta : ℂ) • (gradVec M.par.lmda fwd grad prox x - gradVec M.par.lmda fwd grad prox y) := by
      funext i
      simp [hfd, ulaStep]
      ring
    rw [dist_eq_norm, e, dist_eq_norm, add_mul, one_mul, mul_assoc]
    refine (norm_add_le _ _).trans (add_le_add le_rfl ?_)
    rw [norm_smul, Complex.norm_real, Real.norm_of_nonneg hδ.le]
    refine mul_le_mul_of_nonneg_left ?_ hδ.le
    have := hC.dist_le_mul x y
    rwa [dist_eq_norm, dist_eq_norm] at this
  obtain ⟨K, hK, hsm⟩ := step_smooth M.par.complex hδ _ (by positivity) hLip
  set q : Set (Fin p → ℂ) → (Fin p → ℂ) → ℝ := fun S x => (normalNoise M.par.complex p).real
    {w | (fun i => store M.par.complex (f x w i)) ∈ S} with hq
  have hq0 : ∀ S x, 0 ≤ q S x := fun S x => measureReal_nonneg
  have hq1 : ∀ S x, q S x ≤ 1 := fun S x => measureReal_le_one
  have hqL : ∀ S, MeasurableSet S → ∀ x y, |q S x - q S y| ≤ K * √p * dist x y := fun S hS x y => by
    refine (hsm S hS x y).trans ?_
    rw [mul_assoc]
    exact mul_le_mul_of_nonneg_left (sqrt_distSq_le_dist x y) hK
  have hb : ∀ (ρ : Measure (Fin p → ℂ)) [IsProbabilityMeasure ρ] S, 0 ≤ ∫ x, q S x ∂ρ ∧ ∫ x, q S x ∂ρ ≤ 1 := by
    intro ρ _ S
    refine ⟨integral_nonneg (hq0 S), ?_⟩
    by_cases hi : Integrable (q S) ρ
    · have := integral_mono hi (integrable_const (1 : ℝ)) (hq1 S)
      simpa using this
    · rw [integral_undef hi]
      exact zero_le_one
  set B : ℕ → Set ℝ := fun k => (fun S => |∫ x, q S x ∂(μ k) - ∫ x, q S x ∂π|) '' {S | MeasurableSet S} with hB
  have hne : ∀ k, (B k).Nonempty := fun k => ⟨_, ∅, Set.mem_ofPred_eq ▸ MeasurableSet.empty, rfl⟩
  have hbd : ∀ k, BddAbove (B k) := by
    intro k
    refine ⟨1, ?_⟩
    rintro _ ⟨S, -, rfl⟩
    have := hμp k
    have a := hb (μ k) S
    have c := hb π S
    show |_| ≤ _
    rw [abs_le]
    constructor <;> linarith
  refine ⟨fun k => sSup (B k), ?_, fun N b gap v track A hA fuel st hrun rows hrows k S hS => ?_⟩
  · rw [Metric.tendsto_atTop]
    intro ε hε
    obtain ⟨k0, hk0⟩ := eventually_atTop.mp (weak_uniform μ hμp π hweak (K * √p) (by positivity) (ε / 2) (by positivity))
    refine ⟨k0, fun k hk => ?_⟩
    have h1 : sSup (B k) ≤ ε / 2 := by
      refine csSup_le (hne k) ?_
      rintro _ ⟨S, hS, rfl⟩
      exact hk0 k hk (q S) (hq0 S) (hq1 S) (hqL S hS)
    have h0 : 0 ≤ sSup (B k) := by
      obtain ⟨y, hy⟩ := hne k
      refine le_csSup_of_le (hbd k) hy ?_
      obtain ⟨S, -, rfl⟩ := hy
      exact abs_nonneg _
    rw [Real.dist_eq, sub_zero, abs_of_nonneg h0]
    linarith
  · simp only [rows_state R tot r x0 N b gap v track A hA fuel st hrun rows hrows k]
    have h1 := state_event hf M.par.complex P hV x0 S hS (b + k * max gap 1)
    have h2 := (event_step (ν := normalNoise M.par.complex p) hf (store_measurable M.par.complex) π S hS).2
    rw [hfix] at h2
    rw [h1, ← h2]
    exact le_csSup (hbd _) ⟨S, hS, rfl⟩

theorem Identifiable.stepContracts {c Lf : ℝ} (h : Identifiable M fwd grad prox g Q c Lf) :
    StepContracts M.par.delta (gradVec M.par.lmda fwd grad prox) (1 - M.par.delta * c) := by
  obtain ⟨hr0, hr1⟩ := h.rate
  refine ⟨gradVec_continuous h, hr0.le, hr1, fun x y w => ?_⟩
  rw [← Real.sqrt_sq hr0.le, ← Real.sqrt_mul (sq_nonneg _)]
  exact Real.sqrt_le_sqrt (strong_contract h x y w)

/-- C134: let the data determine the parameters, let `np.random.randn` deliver independent standard normals (for real and for complex
samplers), and let `π` be the stationary law.  For every start array there is a number `D` such that, for all lengths of burn-in, thinning
and chain, the probability that row `k` of the `chain` array lies in a set differs from the stationary probability by at most
`D * (1 - delta * c) ^ (nburn + k * max ngap 1)`, for all sets at once. -/
theorem C134_geometric (R : Rng) (tot : Total M p fwd grad prox pri) {c Lf : ℝ} (h : Identifiable M fwd grad prox g Q c Lf)
    {Ω : Type} [MeasurableSpace Ω] (P : Measure Ω) [IsProbabilityMeasure P] (r : Ω → R.σ)
    (hs : NoiseStream R M.par.complex p P r (normalNoise M.par.complex p)) (π : Measure (Fin p → ℂ)) [IsProbabilityMeasure π]
    (hπ : StationaryLaw M R (normalNoise M.par.complex p) π) (x0 : Fin p → ℂ) :
    ∃ D : ℝ, RowEvents M R P r π x0 fun j => D * (1 - M.par.delta * c) ^ j :=
  h.stepContracts.events R tot h.delta P r hs π hπ x0

/-- C134 for complex data (cf. C132). -/
theorem C134_complex_data {σ : Fin n → ℝ} {A : (Fin p → ℂ) →ₗ[ℂ] (Fin n → ℂ)} {At : (Fin n → ℂ) → (Fin p → ℂ)} {c Lf : ℝ}
    (h : ComplexIdentifiable M σ A At prox g c Lf) (R : Rng) {Ω : Type} [MeasurableSpace Ω] (P : Measure Ω) [IsProbabilityMeasure P]
    (r : Ω → R.σ) (hs : NoiseStream R M.par.complex p P r (normalNoise M.par.complex p)) (π : Measure (Fin p → ℂ)) [IsProbabilityMeasure π]
    (hπ : StationaryLaw M R (normalNoise M.par.complex p) π) (x0 : Fin p → ℂ) :
    ∃ D : ℝ, RowEvents M R P r π x0 fun j => D * complexRate M c Lf ^ j := by
  obtain ⟨pri, tot⟩ := h.total
  exact (C132_step h).events R tot h.delta P r hs π hπ x0

/-- Proximal maps of convex functions are Lipschitz. -/
theorem prox_lipschitz (g : (Fin m → ℂ) → ℝ) (hg : ConvexOn ℝ Set.univ g) (px : (Fin m → ℂ) → (Fin m → ℂ))
    (h : ∀ x, Spec.IsProx g x (px x)) : LipschitzWith (NNReal.mk (√m) (Real.sqrt_nonneg _)) px := by
  refine LipschitzWith.of_dist_le_mul fun x y => ?_
  have hf := prox_firm g hg x y _ _ (h x) (h y)
  have h1 : rip (px x - px y) (px x - px y) ≤ rip (x - y) (x - y) := by
    have h2 := rip_self_nonneg ((px x - px y) - (x - y))
    have e : rip ((px x - px y) - (x - y)) ((px x - px y) - (x - y)) =
        rip (px x - px y) (px x - px y) - 2 * rip (px x - px y) (x - y) + rip (x - y) (x - y) := by
      unfold rip
      rw [Finset.mul_sum, ← Finset.sum_sub_distrib, ← Finset.sum_add_distrib]
      exact Finset.sum_congr rfl fun i _ => by simp; ring
    linarith
  rw [rip_sub, rip_sub] at h1
  calc dist (px x) (px y) ≤ √(Spec.distSq (px x) (px y)) := sqrt_distSq_le _ _
    _ ≤ √(Spec.distSq x y) := Real.sqrt_le_sqrt h1
    _ ≤ √m * dist x y := sqrt_distSq_le_dist x y
    _ = _ := rfl

/-- The adjoint of a linear operator is linear. -/
theorem linear_adjoint {A : (Fin p → ℂ) → (Fin m → ℂ)} {At : (Fin m → ℂ) → (Fin p → ℂ)} (h : Spec.IsAdjointPair A At) :
    ∃ B : (Fin m → ℂ) →ₗ[ℂ] (Fin p → ℂ), ⇑B = At := by
  refine linear_of_adjoint At A fun y x => ?_
  have h1 := h x y
  have e : ∀ {q : ℕ} (a b : Fin q → ℂ), Spec.inner a b = (starRingEnd ℂ) (Spec.inner b a) := by
    intro q a b
    unfold Spec.inner
    rw [map_sum]
    exact Finset.sum_congr rfl fun j _ => by simp [mul_comm]
  rw [e x, e (A x), h1]

/-- The drift of the threshold models is Lipschitz. -/
theorem threshold_lipschitz {A : (Fin p → ℂ) →ₗ[ℂ] (Fin n → ℂ)} {At : (Fin n → ℂ) → (Fin p → ℂ)} {B : (Fin p → ℂ) →ₗ[ℂ] (Fin m → ℂ)}
    {Bt : (Fin m → ℂ) → (Fin p → ℂ)} {T : Fin m → ℝ} (hA : Spec.IsAdjointPair A At) (hB : Spec.IsAdjointPair B Bt) (hT : ∀ j, 0 < T j)
    (V : Matrix (Fin n) (Fin n) ℂ) (d : Fin n → ℂ) (lmda : ℝ) :
    ∃ C, LipschitzWith C (gradVec lmda A (fun y => At (V.mulVec (y - d))) fun x => x + Bt ((fun j => softEntry (B x j) (T j)) - B x)) := by
  obtain ⟨A', hA'⟩ := linear_adjoint hA
  obtain ⟨B', hB'⟩ := linear_adjoint hB
  have lin : ∀ {a b : ℕ} (L : (Fin a → ℂ) →ₗ[ℂ] (Fin b → ℂ)), ∃ C, LipschitzWith C L := fun L =>
    ⟨_, (LinearMap.toContinuousLinearMap L).lipschitz⟩
  obtain ⟨cA, lA⟩ := lin A
  obtain ⟨cA', lA'⟩ := lin A'
  obtain ⟨cB, lB⟩ := lin B
  obtain ⟨cB', lB'⟩ := lin B'
  obtain ⟨cV, lV⟩ := lin V.mulVecLin
  have lsoft := prox_lipschitz (Spec.wl1 T) (wl1_convex _ fun j => (hT j).le) (fun x j => softEntry (x j) (T j))
    fun x => softEntry_isProx x T fun j => (hT j).le
  have l1 := lB'.comp ((lsoft.comp lB).sub lB)
  have l2 := lA'.comp (lV.comp (lA.sub (LipschitzWith.const d)))
  have key : ∃ C, LipschitzWith C fun x => ((1 / lmda : ℝ) : ℂ) • B' ((fun j => softEntry (B x j) (T j)) - B x) -
      A' (V.mulVecLin (A x - d)) := ⟨_, ((lipschitzWith_smul ((1 / lmda : ℝ) : ℂ)).comp l1).sub l2⟩
  obtain ⟨C, hC⟩ := key
  refine ⟨C, ?_⟩
  have e : (gradVec lmda A (fun y => At (V.mulVec (y - d))) fun x => x + Bt ((fun j => softEntry (B x j) (T j)) - B x)) =
      fun x => ((1 / lmda : ℝ) : ℂ) • B' ((fun j => softEntry (B x j) (T j)) - B x) - A' (V.mulVecLin (A x - d)) := by
    funext x i
    simp only [gradVec, hB', hA', Pi.sub_apply, Pi.add_apply, Pi.smul_apply, smul_eq_mul, Matrix.mulVecLin_apply]
    push_cast
    ring
  rw [e]
  exact hC

section Threshold
variable {σ : Fin n → ℝ} {A : (Fin p → ℂ) →ₗ[ℂ] (Fin n → ℂ)} {At : (Fin n → ℂ) → (Fin p → ℂ)}
  {B : (Fin p → ℂ) →ₗ[ℂ] (Fin m → ℂ)} {Bt : (Fin m → ℂ) → (Fin p → ℂ)} {T : Fin m → ℝ}

/-- C134 with an l1 prior and data that need not determine the parameters (the setting of C126), for real samplers: there is a stationary
law on the real vectors to which the probabilities of all events converge, uniformly, from every real start. -/
theorem C134_l1_real (h : ThresholdModel M.F M.P σ A At B Bt T) (hAr : ∀ x, (∀ i, (x i).im = 0) → ∀ i, (A x i).im = 0)
    (hBr : ∀ x, (∀ i, (x i).im = 0) → ∀ i, (B x i).im = 0) (hdr : ∀ i, (M.F.data.vals i).im = 0) (hn : M.nparams = p)
    (hreal : M.par.complex = false) (hl : 0 < M.par.lmda) (hδ : 0 < M.par.delta) (Lf : ℝ) (hL : 0 < Lf)
    (hup : ∀ v, misfit σ 0 (A v) ≤ Lf * Spec.distSq v 0) (hs : M.par.delta * (1 / M.par.lmda + Lf) < 2)
    (R : Rng) {Ω : Type} [MeasurableSpace Ω] (P : Measure Ω) [IsProbabilityMeasure P] (r : Ω → R.σ) (hr : NormalStream R p P r) :
    ∃ π : Measure (Fin p → ℂ), IsProbabilityMeasure π ∧ (∀ᵐ z ∂π, ∀ i, (z i).im = 0) ∧ StationaryLaw M R (normalLaw p) π ∧
      ∀ x0 : Fin p → ℂ, (∀ i, (x0 i).im = 0) → ∃ rate : ℕ → ℝ, Tendsto rate atTop (𝓝 0) ∧ RowEvents M R P r π x0 rate := by
  have hpx := h.prior
  choose pri hpri using hpx
  have tot : Total M p A (fun y => At (M.F.invcov.mulVec (y - M.F.data.vals))) (fun x => x + Bt ((fun j => softEntry (B x j) (T j)) - B x)) pri :=
    ⟨hn, h.lin.fwd, h.lin.grad, h.proxf, hpri, hl.ne'⟩
  have e : normalLaw p = normalNoise M.par.complex p := by rw [hreal]; rfl
  have hns : NoiseStream R M.par.complex p P r (normalLaw p) := by rw [hreal]; exact C99_normal_noise R P r hr
  have key := C126_real h hAr hBr hdr hn hreal hl hδ Lf hL hup hs R P r hr
  rw [e] at hns key ⊢
  exact longRun_events R tot (threshold_lipschitz h.lin.adj h.adj h.pos _ _ _) hδ P r hns _ key

/-- C134 with an l1 prior, for complex samplers. -/
theorem C134_l1_complex (h : ThresholdModel M.F M.P σ A At B Bt T) (hn : M.nparams = p)
    (hcplx : M.par.complex = true) (hl : 0 < M.par.lmda) (hδ : 0 < M.par.delta) (Lf : ℝ) (hL : 0 < Lf)
    (hup : ∀ v, misfit σ 0 (A v) ≤ Lf * Spec.distSq v 0) (hs : M.par.delta * (1 / M.par.lmda + Lf) < 2)
    (R : Rng) {Ω : Type} [MeasurableSpace Ω] (P : Measure Ω) [IsProbabilityMeasure P] (r : Ω → R.σ)
    (hr : NoiseStream R true p P r (cplxNormalLaw p)) :
    ∃ π : Measure (Fin p → ℂ), IsProbabilityMeasure π ∧ StationaryLaw M R (cplxNormalLaw p) π ∧
      ∀ x0 : Fin p → ℂ, ∃ rate : ℕ → ℝ, Tendsto rate atTop (𝓝 0) ∧ RowEvents M R P r π x0 rate := by
  have hpx := h.prior
  choose pri hpri using hpx
  have tot : Total M p A (fun y => At (M.F.invcov.mulVec (y - M.F.data.vals))) (fun x => x + Bt ((fun j => softEntry (B x j) (T j)) - B x)) pri :=
    ⟨hn, h.lin.fwd, h.lin.grad, h.proxf, hpri, hl.ne'⟩
  have e : cplxNormalLaw p = normalNoise M.par.complex p := by rw [hcplx]; rfl
  have key := C126_complex h hn hcplx hl hδ Lf hL hup hs R P r hr
  rw [← hcplx, e] at hr
  rw [e] at key ⊢
  obtain ⟨π, h1, -, h2, h3⟩ := longRun_events R tot (threshold_lipschitz h.lin.adj h.adj h.pos _ _ _) hδ P r hr _ key
  exact ⟨π, h1, h2, fun x0 => h3 x0 (Set.mem_univ _)⟩

/-- C134 with an l1 prior, complex data and complex samplers (the setting of C129). -/
theorem C134_l1_complex_data (h : ComplexThresholdModel M.F M.P σ A At B Bt T) (hn : M.nparams = p)
    (hcplx : M.par.complex = true) (hl : 0 < M.par.lmda) (hδ : 0 < M.par.delta) (Lf : ℝ) (hL : 0 < Lf)
    (hup : ∀ v, misfit σ 0 (A v) ≤ Lf * Spec.distSq v 0) (hs : M.par.delta * (1 / M.par.lmda + √2 * Lf) < 2)
    (R : Rng) {Ω : Type} [MeasurableSpace Ω] (P : Measure Ω) [IsProbabilityMeasure P] (r : Ω → R.σ)
    (hr : NoiseStream R true p P r (cplxNormalLaw p)) :
    ∃ π : Measure (Fin p → ℂ), IsProbabilityMeasure π ∧ StationaryLaw M R (cplxNormalLaw p) π ∧
      ∀ x0 : Fin p → ℂ, ∃ rate : ℕ → ℝ, Tendsto rate atTop (𝓝 0) ∧ RowEvents M R P r π x0 rate := by
  have hpx := h.prior
  choose pri hpri using hpx
  have tot : Total M p A (fun y => At (M.F.invcov.mulVec (y - M.F.data.vals))) (fun x => x + Bt ((fun j => softEntry (B x j) (T j)) - B x)) pri :=
    ⟨hn, h.lin.fwd, h.lin.grad, h.proxf, hpri, hl.ne'⟩
  have e : cplxNormalLaw p = normalNoise M.par.complex p := by rw [hcplx]; rfl
  have key := C129_converges h hn hcplx hl hδ Lf hL hup hs R P r hr
  rw [← hcplx, e] at hr
  rw [e] at key ⊢
  obtain ⟨π, h1, -, h2, h3⟩ := longRun_events R tot (threshold_lipschitz h.lin.adj h.adj h.pos _ _ _) hδ P r hr _ key
  exact ⟨π, h1, h2, fun x0 => h3 x0 (Set.mem_univ _)⟩

end Threshold

/-- C134 from the constructors on, for path integrals with an l1 prior: for every real path matrix `W` (there may be far fewer paths than
pixels), every real data vector, every threshold `t > 0` and every `lmda > 0` there is a `delta0` such that with every step size below it all
constructors succeed, runs of every length return all their rows, and the probabilities of all events converge along the rows. -/
theorem C134_path_integrals (W : Matrix (Fin n) (Fin p) ℂ) (hW : ∀ i j, (W i j).im = 0) (data : DataVec n) (hd : data.cplx = false)
    (hdr : ∀ i, (data.vals i).im = 0) (sig : SigD) (σ : Fin n → ℝ) (hσ : IsSigma n sig σ) (t : ℝ) (ht : 0 < t) (par : Params)
    (hl : 0 < par.lmda) (hreal : par.complex = false) :
    ∃ delta0, 0 < delta0 ∧ ∀ delta, 0 < delta → delta < delta0 → ∃ (F : ForwardOp n) (L : L1 ℂ) (M : Sampler n) (A : Arrays),
      ForwardOp.init data sig "synthesis" (some identityTransform) (some ⟨pathForward W, pathAdjoint W⟩) (some p) = .ok F ∧
      L1.init "synthesis" identityTransform.op identityTransform.adj (.scalar t) = .ok L ∧
      samplerInit F L.toPrior { par with delta := delta } = .ok (M, A) ∧
      (∀ (R : Rng) (r : R.σ) (x0 : Fin p → ℂ) (N b gap : ℕ) (track : List String), "chain" ∈ track →
        ∃ (fuel : ℕ) (st : St R) (rows : Fin N → Fin p → ℂ),
          myulaRun (M.resched N b gap 0 track) R (initArrays (M.resched N b gap 0 track)) r (.array1 (List.ofFn x0)) fuel = .ok (some st) ∧
          ((initArrays (M.resched N b gap 0 track)).applyAll st.ev).chain = some (List.ofFn fun k : Fin N => List.ofFn (rows k))) ∧
      ∀ (R : Rng) {Ω : Type} [MeasurableSpace Ω] (P : Measure Ω) [IsProbabilityMeasure P] (r : Ω → R.σ), NormalStream R p P r →
        ∃ π : Measure (Fin p → ℂ), IsProbabilityMeasure π ∧ (∀ᵐ z ∂π, ∀ i, (z i).im = 0) ∧ StationaryLaw M R (normalLaw p) π ∧
          ∀ x0 : Fin p → ℂ, (∀ i, (x0 i).im = 0) → ∃ rate : ℕ → ℝ, Tendsto rate atTop (𝓝 0) ∧ RowEvents M R P r π x0 rate := by
  obtain ⟨V, hV, -, rfl⟩ := C35_diagonal data hd sig σ hσ
  set F : ForwardOp n := ⟨data, Matrix.diagonal fun i => ((1 / σ i ^ 2 : ℝ) : ℂ), .synthesis, some identityTransform,
    some ⟨pathForward W, pathAdjoint W⟩, some p⟩ with hFdef
  have hF : ForwardOp.init data sig "synthesis" (some identityTransform) (some ⟨pathForward W, pathAdjoint W⟩) (some p) = .ok F := by
    unfold ForwardOp.init
    rw [hV]
    rfl
  have hA : LinModel F ((Matrix.mulVecLin W).comp LinearMap.id) fun y => (fun z => z) (Matrix.mulVec W.conjTranspose y) :=
    linModel_synthesis F rfl (Matrix.mulVecLin W) (Matrix.mulVec W.conjTranspose) (pathIntegral_linearOps F W rfl)
      (LinearMap.id : (Fin p → ℂ) →ₗ[ℂ] (Fin p → ℂ)) (fun y => y) ⟨⟨identityTransform, rfl, fun x => rfl, fun x => rfl⟩, fun x y => rfl⟩
  obtain ⟨Lf, hL, hup⟩ := misfit_bounded σ ((Matrix.mulVecLin W).comp LinearMap.id)
  have hsum : 0 < 1 / par.lmda + Lf := by positivity
  refine ⟨2 / (1 / par.lmda + Lf), by positivity, fun delta hδ hδlt => ?_⟩
  have hmod := C126_l1_synthesis data hd sig hσ "synthesis" _ _ _ hF hA identityTransform.op identityTransform.adj t ht
    ⟨.synthesis, identityTransform.op, identityTransform.adj, .scalar t⟩ rfl
  refine ⟨F, _, ⟨F, _, { par with delta := delta }, p⟩, _, hF, rfl, rfl, fun R r x0 N b gap track hc => ?_, fun R Ω _ P _ r hr => ?_⟩
  · exact (C126_runs (M := ⟨F, _, { par with delta := delta }, p⟩) hmod rfl hl.ne' R r x0 N b gap 0 le_rfl track hc).2
  · refine C134_l1_real (M := ⟨F, _, { par with delta := delta }, p⟩) hmod (fun x hx i => ?_) (fun x hx => hx) hdr rfl hreal hl hδ Lf hL hup ?_
      R P r hr
    · show (∑ j, W i j * x j).im = 0
      rw [Complex.im_sum]
      refine Finset.sum_eq_zero fun j _ => ?_
      rw [Complex.mul_im, hW, hx]
      simp
    · show delta * (1 / par.lmda + Lf) < 2
      rwa [lt_div_iff₀ hsum] at hδlt

/-- C134 for the weak-lensing script: whatever the mask and the galaxy counts, for complex shears, every `lmda > 0`, `mu > 0` and every
step size below some `delta0`, operator, prior and a complex MYULA sampler are constructed, runs of every length return all their rows, and
the probabilities of all events converge along the rows.  The data need not determine the coefficients. -/
theorem C134_lensing (L : ℤ) (mask : Option (NdArr Bool)) (ngal : Option (NdArr ℝ)) (w : WL)
    (hm : ∀ m, mask = some m → m.WF) (hg : ∀ g, ngal = some g → g.WF ∧ ∀ x ∈ g.data, 0 ≤ x)
    (hw : WL.init L mask ngal = .ok w) (T : Ssht) (hT : SshtAdjoint T w.L) (px lm : S2Routines) (nw ns : ℕ)
    (hpx : px.Sound (w.L * (2 * w.L - 1)) nw ns) (empty : List ℂ) (he : empty.length = w.L * (2 * w.L - 1)) (bls : List ℕ)
    (hb : ∀ b ∈ bls, 1 ≤ b) (hsum : (bls.map fun b => b * (2 * b - 1)).sum = nw + ns)
    (data : DataVec (w.mask.data.count true)) (hd : data.cplx = true) (sig : SigD) (σ : Fin (w.mask.data.count true) → ℝ)
    (hσ : IsSigma _ sig σ) (par : Params) (hl : 0 < par.lmda) (hmu : 0 < par.mu) (hc : par.complex = true) :
    ∃ delta0, 0 < delta0 ∧ ∀ delta, 0 < delta → delta < delta0 → ∃ F h' P M A,
      lensingSetup px lm empty bls ⟨w.forward T, w.adjoint T⟩ data sig "synthesis" par.lmda par.mu = .ok (F, h', P) ∧
      samplerInit F (P.toPrior h') { par with delta := delta } = .ok (M, A) ∧
      (∀ (R : Rng) (r : R.σ) (x0 : Fin (nw + ns) → ℂ) (N b gap : ℕ) (track : List String), "chain" ∈ track →
        ∃ (fuel : ℕ) (st : St R) (rows : Fin N → Fin (nw + ns) → ℂ),
          myulaRun (M.resched N b gap 0 track) R (initArrays (M.resched N b gap 0 track)) r (.array1 (List.ofFn x0)) fuel = .ok (some st) ∧
          ((initArrays (M.resched N b gap 0 track)).applyAll st.ev).chain = some (List.ofFn fun k : Fin N => List.ofFn (rows k))) ∧
      ∀ (R : Rng) {Ω : Type} [MeasurableSpace Ω] (P : Measure Ω) [IsProbabilityMeasure P] (r : Ω → R.σ),
        NoiseStream R true (nw + ns) P r (cplxNormalLaw (nw + ns)) →
          ∃ π : Measure (Fin (nw + ns) → ℂ), IsProbabilityMeasure π ∧ StationaryLaw M R (cplxNormalLaw (nw + ns)) π ∧
            ∀ x0 : Fin (nw + ns) → ℂ, ∃ rate : ℕ → ℝ, Tendsto rate atTop (𝓝 0) ∧ RowEvents M R P r π x0 rate := by
  obtain ⟨Mm, Mt, h1, h2, hM⟩ := lensing_acts L mask ngal w hm hg hw T hT
  obtain ⟨F, p, hF, hp, -, hpa, -, hinv, h3, h4, h5, A, At, hA⟩ := operator_linModel px lm _ nw ns hpx empty he ⟨w.forward T, w.adjoint T⟩ Mm Mt
    h1 h2 hM data sig _ (buildInvCov_complex data hd sig σ hσ) "synthesis" .synthesis rfl
  obtain rfl := hpa rfl
  rw [(transform_linear px lm _ nw ns hpx empty he).1] at hF
  simp only [Bind.bind, Except.bind, show ¬ ("synthesis" : String) = "analysis" by decide, if_false] at hF
  obtain ⟨h', P, hP, -⟩ := C10_wavelet_prox (𝕜 := ℂ) (fun _ => none) bls hb (par.lmda * par.mu) (by positivity) 0
  obtain ⟨th, hmod⟩ := C129_wavelet_prior data hd sig hσ "synthesis" _ _ _ hF hA _ bls hb (par.lmda * par.mu) (by positivity) 0 hsum h' P hP
  obtain ⟨Lf, hL, hup⟩ := misfit_bounded σ A
  have hsq : 0 < √2 := Real.sqrt_pos.mpr two_pos
  have hpos : 0 < 1 / par.lmda + √2 * Lf := by positivity
  refine ⟨2 / (1 / par.lmda + √2 * Lf), by positivity, fun delta hδ hδlt => ?_⟩
  refine ⟨F, h', P, ⟨F, P.toPrior h', { par with delta := delta }, nw + ns⟩, _, ?_, by simp only [samplerInit, hp]; rfl,
    fun R r x0 N b gap track htr => ?_, fun R Ω _ Pm _ r hr => ?_⟩
  · unfold lensingSetup
    rw [(transform_linear px lm _ nw ns hpx empty he).1]
    simp only [Bind.bind, Except.bind]
    rw [hF]
    simp only
    rw [hP]
  · exact C129_runs (M := ⟨F, P.toPrior h', { par with delta := delta }, nw + ns⟩) hmod rfl hl.ne' R r x0 N b gap 0 le_rfl track htr
  · refine C134_l1_complex_data (M := ⟨F, P.toPrior h', { par with delta := delta }, nw + ns⟩) hmod rfl hc hl hδ Lf hL hup ?_ R Pm r hr
    show delta * (1 / par.lmda + √2 * Lf) < 2
    rwa [lt_div_iff₀ hpos] at hδlt

/-- The hypotheses of `C134_geometric` are met: soft thresholding, `Q = 1`, real standard normals, runs with seven rows. -/
example : ∃ (M : Sampler 1) (prox : (Fin 1 → ℂ) → (Fin 1 → ℂ)) (pri g : (Fin 1 → ℂ) → ℝ) (π : Measure (Fin 1 → ℂ)),
    Total M 1 (fun x => x) (fun y => y) prox pri ∧ Identifiable M (fun x : Fin 1 → ℂ => x) (fun y => y) prox g 1 1 1 ∧
    NoiseStream streamRng M.par.complex 1 (Measure.infinitePi fun _ : ℕ => gaussianReal 0 1) (fun ω => ω) (normalNoise M.par.complex 1) ∧
    IsProbabilityMeasure π ∧ StationaryLaw M streamRng (normalNoise M.par.complex 1) π ∧
    ∃ (A : Arrays) (fuel : (ℕ → ℝ) → ℕ) (st : (ℕ → ℝ) → St streamRng) (rows : (ℕ → ℝ) → Fin 7 → Fin 1 → ℂ), A.Shaped 7 ∧
      (∀ ω, myulaRun (M.resched 7 (3 : ℕ) (2 : ℕ) 0 ["chain"]) streamRng A ω (.array1 (List.ofFn fun _ : Fin 1 => 5)) (fuel ω) =
        .ok (some (st ω))) ∧
      ∀ ω, (A.applyAll (st ω).ev).chain = some (List.ofFn fun k : Fin 7 => List.ofFn (rows ω k)) := by
  obtain ⟨M, prox, pri, g, π, h1, h2, h3, h4, h5, h6, A, fuel, st, rows, h7, h8, h9⟩ := averages_demo
  have e : normalNoise M.par.complex 1 = normalLaw 1 := by rw [h3]; rfl
  exact ⟨M, prox, pri, g, π, h1, h2, e ▸ h4, h5, e ▸ h6, A 7, fuel 7, st 7, rows 7, h7 7, h8 7, h9 7⟩

/-- The hypotheses of `C134_complex_data` are met: complex data, the operator `[1, i; 0, 2]`, an l1 prior and a real sampler. -/
example : ∃ (M : Sampler 2) (A : (Fin 2 → ℂ) →ₗ[ℂ] (Fin 2 → ℂ)) (At : (Fin 2 → ℂ) → (Fin 2 → ℂ)) (c Lf : ℝ) (π : Measure (Fin 2 → ℂ)),
    M.par.complex = false ∧ M.F.data.cplx = true ∧
    ComplexIdentifiable M (fun _ => 1) A At (fun x i => softEntry (x i) 3) (Spec.wl1 fun _ => 3) c Lf ∧
    NoiseStream (vecRng 2) M.par.complex 2 (Measure.infinitePi fun _ : ℕ => Measure.pi fun _ : Fin 2 => gaussianReal 0 1) (fun ω => ω)
      (normalNoise M.par.complex 2) ∧ IsProbabilityMeasure π ∧ StationaryLaw M (vecRng 2) (normalNoise M.par.complex 2) π := by
  set W : Matrix (Fin 2) (Fin 2) ℂ := !![1, Complex.I; 0, 2] with hW
  have hV := buildInvCov_complex (⟨true, fun _ => 4 + Complex.I⟩ : DataVec 2) rfl _ _ (IsSigma.scalar 1 one_pos)
  set F : ForwardOp 2 := ⟨⟨true, fun _ => 4 + Complex.I⟩,
    Matrix.diagonal fun _ => ((1 / (1 : ℝ) ^ 2 / √2 : ℝ) : ℂ) * (1 - Complex.I), .analysis, none,
    some ⟨pathForward W, pathAdjoint W⟩, some 2⟩ with hFdef
  have hF : ForwardOp.init (⟨true, fun _ => 4 + Complex.I⟩ : DataVec 2) (.num ((1 : ℝ) : ℂ) false) "analysis" none
      (some ⟨pathForward W, pathAdjoint W⟩) (some 2) = .ok F := by
    unfold ForwardOp.init
    rw [hV]
    rfl
  have hinj : Function.Injective W.mulVecLin := by
    refine (injective_iff_map_eq_zero _).mpr fun v hv => ?_
    have h1 := congrFun hv 1
    have h0 := congrFun hv 0
    simp [hW, Matrix.mulVec, dotProduct, Fin.sum_univ_two] at h0 h1
    rw [h1] at h0
    funext i
    fin_cases i
    · simpa using h0
    · simpa using h1
  obtain ⟨d0, hd0, hd⟩ := C132_l1 (⟨true, fun _ => 4 + Complex.I⟩ : DataVec 2) rfl _ (IsSigma.scalar 1 one_pos) "analysis" _ _ _ F hF
    (linModel_analysis F rfl _ _ (pathIntegral_linearOps F W rfl)) hinj rfl (fun x => .ok x) (fun x => .ok x) 3 (by norm_num) _ rfl
    ⟨1, 1, 1, 1, 5, 3, 2, false, 0, ["chain"]⟩ one_pos
  obtain ⟨M, arr, c, Lf, hM, hid⟩ := hd (d0 / 2) (by positivity) (by linarith)
  obtain ⟨rfl, -⟩ := Prod.mk.inj (Except.ok.inj hM)
  have hns := C99_normal_noise (vecRng 2) _ _ (vecRng_normal (p := 2))
  obtain ⟨π, hπ, hst, -⟩ := C132_converges hid (vecRng 2) _ _ _ hns C114_normal_noise
  exact ⟨_, _, _, c, Lf, π, rfl, rfl, hid, hns, hπ, hst⟩

/-- The hypotheses of `C134_path_integrals` (and of `C134_l1_real`) are met by one path through three pixels. -/
example : ∃ (W : Matrix (Fin 1) (Fin 3) ℂ) (data : DataVec 1) (sig : SigD) (σ : Fin 1 → ℝ) (par : Params), (∀ i j, (W i j).im = 0) ∧
    data.cplx = false ∧ (∀ i, (data.vals i).im = 0) ∧ IsSigma 1 sig σ ∧ 0 < par.lmda ∧ par.complex = false ∧
    (∃ v, v ≠ 0 ∧ W.mulVec v = 0) ∧
    NormalStream (vecRng 3) 3 (Measure.infinitePi fun _ : ℕ => Measure.pi fun _ : Fin 3 => gaussianReal 0 1) fun ω => ω := by
  refine ⟨!![1, 2, 3], ⟨false, fun _ => 4⟩, .num ((1 / 10 : ℝ) : ℂ) false, fun _ => 1 / 10,
    ⟨3 / 100000, 1 / 100000, 1, 5, 100, 10, 5, false, 0, ["chain"]⟩, fun i j => ?_, rfl, fun _ => by simp, .scalar _ (by norm_num),
    by norm_num, rfl, ⟨![2, -1, 0], ?_, ?_⟩, vecRng_normal⟩
  · fin_cases i
    fin_cases j <;> simp
  · intro h
    have := congrFun h 0
    simp at this
  · funext i
    fin_cases i
    simp [Matrix.mulVec, dotProduct, Fin.sum_univ_three]

/-- The hypotheses of `C134_l1_complex` are met in the analysis setting: a complex 1×2 operator that misses one direction, and a frame
of three vectors. -/
example : ∃ (F : ForwardOp 1) (L : L1 ℂ) (A : (Fin 2 → ℂ) →ₗ[ℂ] (Fin 1 → ℂ)) (At : (Fin 1 → ℂ) → (Fin 2 → ℂ))
    (B : (Fin 2 → ℂ) →ₗ[ℂ] (Fin 3 → ℂ)) (Bt : (Fin 3 → ℂ) → (Fin 2 → ℂ)),
    ThresholdModel F L.toPrior (fun _ => 1) A At B Bt (fun _ => 3) ∧ (∃ v, v ≠ 0 ∧ A v = 0) ∧
    NoiseStream (halvesRng 2) true 2 (Measure.infinitePi fun _ : ℕ => Measure.pi fun _ : Fin 2 ⊕ Fin 2 => gaussianReal 0 1)
      (fun ω => (false, ω)) (cplxNormalLaw 2) := by
  set W : Matrix (Fin 1) (Fin 2) ℂ := !![1, Complex.I] with hW
  set B : Matrix (Fin 3) (Fin 2) ℂ := !![1/2, 0; 0, 1/2; 1/2, Complex.I/2] with hB
  obtain ⟨V, hV, -, rfl⟩ := C35_diagonal (⟨false, fun _ => 4⟩ : DataVec 1) rfl _ _ (IsSigma.scalar 1 one_pos)
  set F : ForwardOp 1 := ⟨⟨false, fun _ => 4⟩, Matrix.diagonal fun i => ((1 / (1 : ℝ) ^ 2 : ℝ) : ℂ), .analysis, none,
    some ⟨pathForward W, pathAdjoint W⟩, some 2⟩ with hFdef
  have hF : ForwardOp.init (⟨false, fun _ => 4⟩ : DataVec 1) (.num ((1 : ℝ) : ℂ) false) "analysis" none
      (some ⟨pathForward W, pathAdjoint W⟩) (some 2) = .ok F := by
    unfold ForwardOp.init
    rw [hV]
    rfl
  refine ⟨F, _, _, _, B.mulVecLin, _, C126_l1_analysis (⟨false, fun _ => 4⟩ : DataVec 1) rfl _ (IsSigma.scalar 1 one_pos) "analysis" _ _ _ hF
    (linModel_analysis F rfl _ _ (pathIntegral_linearOps F W rfl)) (pathAdjoint B) (pathForward B) 3 (by norm_num) B.conjTranspose.mulVecLin (fun x => ?_) (fun x => ?_)
    (fun x y => inner_mulVec B x y) (1 / 4) (by norm_num) (fun x => ?_) _ rfl, ⟨![1, Complex.I], ?_, ?_⟩, halvesRng_normal⟩
  · simp only [pathForward]
    rw [if_pos (by simp), matDot_ofFn]
    rfl
  · simp only [pathAdjoint]
    rw [if_pos (by simp), matDot_ofFn]
    rfl
  · have e : ∀ v : Fin 2 → ℂ, Spec.distSq v 0 = ‖v 0‖ ^ 2 + ‖v 1‖ ^ 2 := fun v => by simp [Spec.distSq, Fin.sum_univ_two]
    have e3 : Spec.distSq (B.mulVecLin x) 0 = ‖1 / 2 * x 0‖ ^ 2 + ‖1 / 2 * x 1‖ ^ 2 + ‖1 / 2 * x 0 + Complex.I / 2 * x 1‖ ^ 2 := by
      simp [Spec.distSq, Fin.sum_univ_three, hB, Matrix.mulVec, dotProduct, Fin.sum_univ_two]
    rw [e, e3]
    simp only [Complex.sq_norm, Complex.normSq_apply]
    simp
    constructor <;> nlinarith [sq_nonneg ((x 0).re - (x 1).im), sq_nonneg ((x 0).im + (x 1).re), sq_nonneg ((x 0).re + (x 1).im),
      sq_nonneg ((x 0).im - (x 1).re)]
  · intro h
    have := congrFun h 0
    simp at this
  · funext i
    fin_cases i
    simp [Matrix.mulVec, dotProduct, Fin.sum_univ_two, hW]

/-- The hypotheses of `C134_lensing` are met at bandlimit 2 by stand-ins for pyssht and pys2let. -/
example : ∃ (w : WL) (T : Ssht) (data : DataVec (w.mask.data.count true)) (sig : SigD) (σ : Fin (w.mask.data.count true) → ℝ) (par : Params),
    WL.init 2 none none = .ok w ∧ SshtAdjoint T w.L ∧ scalRoutines.Sound (w.L * (2 * w.L - 1)) 7 6 ∧ (∀ b ∈ [2, 1, 2], 1 ≤ b) ∧
    ([2, 1, 2].map fun b => b * (2 * b - 1)).sum = 7 + 6 ∧ data.cplx = true ∧ IsSigma _ sig σ ∧ 0 < par.lmda ∧ 0 < par.mu ∧
    par.complex = true ∧
    NoiseStream (halvesRng (7 + 6)) true (7 + 6) (Measure.infinitePi fun _ : ℕ => Measure.pi fun _ : Fin (7 + 6) ⊕ Fin (7 + 6) => gaussianReal 0 1)
      (fun ω => (false, ω)) (cplxNormalLaw (7 + 6)) := by
  obtain ⟨k, hk, -⟩ := C29_kernel 2 (by norm_num)
  have hk : wlHarmonicInit 2 = .ok k := hk
  have inn : ∀ f g : List ℂ, f.length = 6 → g.length = 4 →
      Spec.listInner g (f.take 4) = Spec.listInner (g ++ List.replicate 2 0) f := by
    intro f g hf hg
    obtain ⟨a, rfl⟩ := exists_ofFn f hf
    obtain ⟨b, rfl⟩ := exists_ofFn g hg
    simp [Spec.listInner, List.ofFn_succ]
  have inn2 : ∀ f g : List ℂ, f.length = 4 → g.length = 6 →
      Spec.listInner g (f ++ List.replicate 2 0) = Spec.listInner (g.take 4) f := by
    intro f g hf hg
    obtain ⟨a, rfl⟩ := exists_ofFn f hf
    obtain ⟨b, rfl⟩ := exists_ofFn g hg
    simp [Spec.listInner, List.ofFn_succ]
  refine ⟨⟨2, k, ⟨[2, 3], List.replicate 6 true⟩, List.replicate 6 1⟩,
    ⟨fun f => f.take 4, fun g => g ++ List.replicate 2 0, fun f => f.take 4, fun g => g ++ List.replicate 2 0⟩,
    ⟨true, fun _ => 1 + Complex.I⟩, .num ((1 / 10 : ℝ) : ℂ) false, fun _ => 1 / 10,
    ⟨3 / 100000, 1 / 100000, 1, 5, 100, 10, 5, true, 0, ["chain"]⟩, ?_, ?_, scal_sound, by decide, by decide, rfl, .scalar _ (by norm_num),
    by norm_num, by norm_num, rfl, halvesRng_normal⟩
  · simp [WL.init, wlMask, wlInvCov, hk, Bind.bind, Except.bind, maskForward, boolIndex, selectBlocks]
    rfl
  · exact ⟨fun f hf => by simp [hf], fun f hf => by simp [hf], fun f hf => by simp [hf], fun f hf => by simp [hf],
      fun f g hf hg => inn f g hf hg, fun f g hf hg => inn2 f g hf hg⟩

/-- The hypotheses of `C134_l1_complex_data` are met in the analysis setting: complex data, a complex 1×2 operator that misses one direction, and a frame
of three vectors. -/
example : ∃ (F : ForwardOp 1) (L : L1 ℂ) (A : (Fin 2 → ℂ) →ₗ[ℂ] (Fin 1 → ℂ)) (At : (Fin 1 → ℂ) → (Fin 2 → ℂ))
    (B : (Fin 2 → ℂ) →ₗ[ℂ] (Fin 3 → ℂ)) (Bt : (Fin 3 → ℂ) → (Fin 2 → ℂ)),
    ComplexThresholdModel F L.toPrior (fun _ => 1) A At B Bt (fun _ => 3) ∧ (∃ v, v ≠ 0 ∧ A v = 0) ∧
    NoiseStream (halvesRng 2) true 2 (Measure.infinitePi fun _ : ℕ => Measure.pi fun _ : Fin 2 ⊕ Fin 2 => gaussianReal 0 1)
      (fun ω => (false, ω)) (cplxNormalLaw 2) := by
  set W : Matrix (Fin 1) (Fin 2) ℂ := !![1, Complex.I] with hW
  set B : Matrix (Fin 3) (Fin 2) ℂ := !![1/2, 0; 0, 1/2; 1/2, Complex.I/2] with hB
  have hV := buildInvCov_complex (⟨true, fun _ => 4 + Complex.I⟩ : DataVec 1) rfl _ _ (IsSigma.scalar 1 one_pos)
  set F : ForwardOp 1 := ⟨⟨true, fun _ => 4 + Complex.I⟩,
    Matrix.diagonal fun _ => ((1 / (1 : ℝ) ^ 2 / √2 : ℝ) : ℂ) * (1 - Complex.I), .analysis, none,
    some ⟨pathForward W, pathAdjoint W⟩, some 2⟩ with hFdef
  have hF : ForwardOp.init (⟨true, fun _ => 4 + Complex.I⟩ : DataVec 1) (.num ((1 : ℝ) : ℂ) false) "analysis" none
      (some ⟨pathForward W, pathAdjoint W⟩) (some 2) = .ok F := by
    unfold ForwardOp.init
    rw [hV]
    rfl
  refine ⟨F, _, _, _, B.mulVecLin, _, C129_l1_analysis (⟨true, fun _ => 4 + Complex.I⟩ : DataVec 1) rfl _ (IsSigma.scalar 1 one_pos) "analysis" _ _ _ hF
    (linModel_analysis F rfl _ _ (pathIntegral_linearOps F W rfl)) (pathAdjoint B) (pathForward B) 3 (by norm_num) B.conjTranspose.mulVecLin (fun x => ?_) (fun x => ?_)
    (fun x y => inner_mulVec B x y) (1 / 4) (by norm_num) (fun x => ?_) _ rfl, ⟨![1, Complex.I], ?_, ?_⟩, halvesRng_normal⟩
  · simp only [pathForward]
    rw [if_pos (by simp), matDot_ofFn]
    rfl
  · simp only [pathAdjoint]
    rw [if_pos (by simp), matDot_ofFn]
    rfl
  · have e : ∀ v : Fin 2 → ℂ, Spec.distSq v 0 = ‖v 0‖ ^ 2 + ‖v 1‖ ^ 2 := fun v => by simp [Spec.distSq, Fin.sum_univ_two]
    have e3 : Spec.distSq (B.mulVecLin x) 0 = ‖1 / 2 * x 0‖ ^ 2 + ‖1 / 2 * x 1‖ ^ 2 + ‖1 / 2 * x 0 + Complex.I / 2 * x 1‖ ^ 2 := by
      simp [Spec.distSq, Fin.sum_univ_three, hB, Matrix.mulVec, dotProduct, Fin.sum_univ_two]
    rw [e, e3]
    simp only [Complex.sq_norm, Complex.normSq_apply]
    simp
    constructor <;> nlinarith [sq_nonneg ((x 0).re - (x 1).im), sq_nonneg ((x 0).im + (x 1).re), sq_nonneg ((x 0).re + (x 1).im),
      sq_nonneg ((x 0).im - (x 1).re)]
  · intro h
    have := congrFun h 0
    simp at this
  · funext i
    fin_cases i
    simp [Matrix.mulVec, dotProduct, Fin.sum_univ_two, hW]

end Pxmcmc
