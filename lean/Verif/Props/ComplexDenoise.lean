import Verif.Lemmas.ComplexAR
import Verif.Props.PosteriorBias

/-! # Property C128: spread and stability of MYULA for complex data -/

namespace Pxmcmc
open MeasureTheory ProbabilityTheory Filter
open scoped Topology
variable {n p : ℕ}

/-- The denoising set-up for an arbitrary diagonal inverse covariance. -/
theorem denoise_total_diag (data : DataVec n) (sig : SigD) (c : Fin n → ℂ) (hW : buildInvCov data sig = .ok (Matrix.diagonal c))
    (s : String) (hs : s = "analysis" ∨ s = "synthesis") (t : ℝ) :
    ∃ (F : ForwardOp n) (P : L1 ℂ),
      ForwardOp.init data sig s (some identityTransform) (some (identityMeasurement n n)) (some n) = .ok F ∧
      L1.init s identityTransform.op identityTransform.adj (.scalar t) = .ok P ∧ F.nparams = some n ∧
      ∀ par : Params, par.lmda ≠ 0 → Total ⟨F, P.toPrior, par, n⟩ n (fun x => x)
        (fun y i => c i * (y i - data.vals i)) (fun x i => softEntry (x i) t) (fun x => ∑ i, ‖x i‖) := by
  obtain ⟨hop, hadj⟩ := identity_acts (n := n)
  have hgrad : ∀ S : Setting, ∀ y : Fin n → ℂ,
      ForwardOp.gradgAnalysis ⟨data, Matrix.diagonal c, S, some identityTransform,
        some (identityMeasurement n n), some n⟩ (List.ofFn y) = .ok (List.ofFn fun i => c i * (y i - data.vals i)) := by
    intro S y
    unfold ForwardOp.gradgAnalysis
    simp only [attr, Bind.bind, Except.bind]
    rw [npSub_ofFn]
    simp only
    rw [matDot_ofFn]
    simp only
    rw [hadj]
    congr 2
    funext i
    show (Matrix.diagonal _).mulVec _ i = _
    rw [Matrix.mulVec_diagonal]
  rcases hs with rfl | rfl
  · refine ⟨⟨data, Matrix.diagonal c, .analysis, some identityTransform, some (identityMeasurement n n), some n⟩,
      ⟨.analysis, identityTransform.op, identityTransform.adj, .scalar t⟩, ?_, rfl, rfl,
      fun par hl => ⟨rfl, fun x => hop x, fun y => hgrad _ y, fun x => ?_, fun x => ?_, hl⟩⟩
    · unfold ForwardOp.init
      rw [hW]
      rfl
    · show L1.proxf ⟨.analysis, identityTransform.op, identityTransform.adj, .scalar t⟩ (List.ofFn x) = _
      rw [C08_identity_handles _ rfl (fun _ => rfl) (fun _ => rfl) t rfl, soft_scalar]
    · show Except.ok _ = _
      rw [L1.prior, norm_sum_ofFn]
  · refine ⟨⟨data, Matrix.diagonal c, .synthesis, some identityTransform, some (identityMeasurement n n), some n⟩,
      ⟨.synthesis, identityTransform.op, identityTransform.adj, .scalar t⟩, ?_, rfl, rfl,
      fun par hl => ⟨rfl, fun x => hop x, fun y => ?_, fun x => soft_scalar x t, fun x => ?_, hl⟩⟩
    · unfold ForwardOp.init
      rw [hW]
      rfl
    · simp only [ForwardOp.calcGradg, attr, Bind.bind, Except.bind]
      rw [hgrad .synthesis y]
      rfl
    · show Except.ok _ = _
      rw [L1.prior, norm_sum_ofFn]

/-- Moments of one entry of complex standard normal noise. -/
theorem cplxNormal_entry (i : Fin p) : MemLp (fun z : Fin p → ℂ => z i) 2 (cplxNormalLaw p) ∧
    ∫ z, z i ∂(cplxNormalLaw p) = 0 ∧ ∫ z, ‖z i‖ ^ 2 ∂(cplxNormalLaw p) = 2 := by
  have hm : Measurable (cplxVec (p := p)) := by
    have := realForm_cplx (p := p).cont.measurable.comp (PiLp.continuous_toLp 2 (fun _ : Fin p ⊕ Fin p => ℝ)).measurable
    exact this
  have g2 : ∀ j, MemLp (fun x : Fin p ⊕ Fin p → ℝ => x j) 2 (Measure.pi fun _ : Fin p ⊕ Fin p => gaussianReal 0 1) := by
    intro j
    have h1 : MemLp (id : ℝ → ℝ) 2 (gaussianReal 0 1) := memLp_id_gaussianReal 2
    exact h1.comp_measurePreserving (measurePreserving_eval (fun _ : Fin p ⊕ Fin p => gaussianReal 0 1) j)
  have g1 : ∀ j, ∫ x : Fin p ⊕ Fin p → ℝ, x j ∂(Measure.pi fun _ : Fin p ⊕ Fin p => gaussianReal 0 1) = 0 := by
    intro j
    have h1 := integral_comp_eval (μ := fun _ : Fin p ⊕ Fin p => gaussianReal 0 1) (i := j) (f := fun x : ℝ => x) (by fun_prop)
    rw [h1]
    exact integral_id_gaussianReal
  have gv : ∀ j, ∫ x : Fin p ⊕ Fin p → ℝ, x j ^ 2 ∂(Measure.pi fun _ : Fin p ⊕ Fin p => gaussianReal 0 1) = 1 := by
    intro j
    have h1 := integral_comp_eval (μ := fun _ : Fin p ⊕ Fin p => gaussianReal 0 1) (i := j) (f := fun x : ℝ => x ^ 2) (by fun_prop)
    rw [h1]
    have h2 := variance_id_gaussianReal (μ := 0) (v := 1)
    rw [variance_of_integral_eq_zero aemeasurable_id integral_id_gaussianReal] at h2
    simpa using h2
  have e1 : ∀ x : Fin p ⊕ Fin p → ℝ, cplxVec x i = ((x (.inl i) : ℝ) : ℂ) + ((x (.inr i) : ℝ) : ℂ) * Complex.I := by
    intro x
    apply Complex.ext <;> simp [cplxVec]
  have mC : ∀ j, MemLp (fun x : Fin p ⊕ Fin p → ℝ => ((x j : ℝ) : ℂ)) 2 (Measure.pi fun _ : Fin p ⊕ Fin p => gaussianReal 0 1) :=
    fun j => (g2 j).ofReal
  have mZ : MemLp (fun x : Fin p ⊕ Fin p → ℝ => cplxVec x i) 2 (Measure.pi fun _ : Fin p ⊕ Fin p => gaussianReal 0 1) := by
    simp only [e1]
    exact (mC _).add ((mC _).mul_const Complex.I)
  unfold cplxNormalLaw
  refine ⟨?_, ?_, ?_⟩
  · rw [memLp_map_measure_iff (measurable_pi_apply i).aestronglyMeasurable hm.aemeasurable]
    exact mZ
  · rw [integral_map hm.aemeasurable (measurable_pi_apply i).aestronglyMeasurable]
    simp only [e1]
    have i1 : ∀ j, Integrable (fun x : Fin p ⊕ Fin p → ℝ => ((x j : ℝ) : ℂ)) (Measure.pi fun _ : Fin p ⊕ Fin p => gaussianReal 0 1) :=
      fun j => (mC j).integrable (by norm_num)
    rw [integral_add (i1 _) ((i1 _).mul_const _), integral_mul_const, integral_complex_ofReal, integral_complex_ofReal, g1, g1]
    simp
  · rw [integral_map hm.aemeasurable ((measurable_pi_apply i).norm.pow_const 2).aestronglyMeasurable]
    have e2 : ∀ x : Fin p ⊕ Fin p → ℝ, ‖cplxVec x i‖ ^ 2 = x (.inl i) ^ 2 + x (.inr i) ^ 2 := by
      intro x
      rw [← Complex.normSq_eq_norm_sq, Complex.normSq_apply]
      simp [cplxVec]
      ring
    simp only [e2]
    rw [integral_add (g2 _).integrable_sq (g2 _).integrable_sq, gv, gv]
    norm_num

/-- The factor by which a step of size `delta` multiplies the deviation from a datum with standard deviation `s`. -/
noncomputable def cplxFactor (delta s : ℝ) : ℂ := 1 - (delta : ℂ) * (((1 / s ^ 2 / √2 : ℝ) : ℂ) * (1 - Complex.I))

theorem cplxFactor_sq (delta s : ℝ) : ‖cplxFactor delta s‖ ^ 2 = 1 - √2 * (delta / s ^ 2) + (delta / s ^ 2) ^ 2 := by
  have h2 : √2 * √2 = 2 := Real.mul_self_sqrt (by norm_num)
  have h0 : √2 ≠ 0 := (Real.sqrt_pos.mpr two_pos).ne'
  have e : cplxFactor delta s = 1 - ((delta / s ^ 2 / √2 : ℝ) : ℂ) * (1 - Complex.I) := by
    unfold cplxFactor
    push_cast
    ring
  rw [e, ← Complex.normSq_eq_norm_sq, Complex.normSq_apply]
  generalize delta / s ^ 2 = u
  have h3 : u / √2 * √2 = u := div_mul_cancel₀ _ h0
  generalize u / √2 = v at *
  subst h3
  simp only [Complex.sub_re, Complex.sub_im, Complex.re_ofReal_mul, Complex.im_ofReal_mul, Complex.one_re, Complex.one_im,
    Complex.I_re, Complex.I_im]
  linear_combination (v - v ^ 2) * h2

/-- What one entry of the chain does. -/
theorem complex_moments {Ω : Type} [MeasurableSpace Ω] (P : Measure Ω) [IsProbabilityMeasure P] (R : Rng) (r : Ω → R.σ)
    (hr : NoiseStream R true n P r (cplxNormalLaw n)) (delta : ℝ) (hδ : 0 < delta) (d x0 : Fin n → ℂ) (σ : Fin n → ℝ)
    (x : ℕ → Ω → Fin n → ℂ) (h0 : ∀ ω, x 0 ω = x0)
    (hx : ∀ k ω i, x (k + 1) ω i - d i = cplxFactor delta (σ i) * (x k ω i - d i) +
      ((√(2 * delta) : ℝ) : ℂ) * noiseSeq R true n (r ω) k i) (k : ℕ) (i : Fin n) :
    ∫ ω, x k ω i ∂P = d i + cplxFactor delta (σ i) ^ k * (x0 i - d i) ∧ Integrable (fun ω => ‖x k ω i - d i‖ ^ 2) P ∧
    ∫ ω, ‖x k ω i - d i‖ ^ 2 ∂P = (1 - √2 * (delta / σ i ^ 2) + (delta / σ i ^ 2) ^ 2) ^ k * ‖x0 i - d i‖ ^ 2 +
      4 * delta * ∑ j ∈ Finset.range k, (1 - √2 * (delta / σ i ^ 2) + (delta / σ i ^ 2) ^ 2) ^ j := by
  obtain ⟨c1, c2, c3⟩ := cplxNormal_entry i
  have hmi : ∀ k, Measurable fun ω => noiseSeq R true n (r ω) k i := fun k => (measurable_pi_apply i).comp (hr.meas k)
  have hmap : ∀ k, P.map (fun ω => noiseSeq R true n (r ω) k) = cplxNormalLaw n := hr.law
  have := ar_moments P (fun k ω => noiseSeq R true n (r ω) k i)
    (fun j k hjk => (hr.indep.indepFun hjk).comp (measurable_pi_apply i) (measurable_pi_apply i))
    (fun k => by
      have h1 := c1
      rw [← hmap k, memLp_map_measure_iff (measurable_pi_apply i).aestronglyMeasurable (hr.meas k).aemeasurable] at h1
      exact h1)
    (fun k => by
      have h1 := c2
      rw [← hmap k, integral_map (hr.meas k).aemeasurable (measurable_pi_apply i).aestronglyMeasurable] at h1
      exact h1) 2
    (fun k => by
      have h1 := c3
      rw [← hmap k, integral_map (hr.meas k).aemeasurable ((measurable_pi_apply i).norm.pow_const 2).aestronglyMeasurable] at h1
      exact h1)
    (cplxFactor delta (σ i)) ((√(2 * delta) : ℝ) : ℂ) (x0 i - d i) (fun k ω => x k ω i - d i) (fun ω => by rw [h0])
    (fun k ω => hx k ω i) k
  obtain ⟨m1, m2, m3⟩ := this
  refine ⟨?_, m1.integrable_norm_pow (by norm_num), ?_⟩
  · have hi : Integrable (fun ω => x k ω i - d i) P := m1.integrable (by norm_num)
    have e : (fun ω => x k ω i) = fun ω => (x k ω i - d i) + d i := by funext ω; ring
    rw [e, integral_add hi (integrable_const _), m2, integral_const]
    simp [add_comm]
  · rw [m3, cplxFactor_sq]
    have : ‖((√(2 * delta) : ℝ) : ℂ)‖ ^ 2 = 2 * delta := by
      rw [Complex.norm_real, Real.norm_eq_abs, sq_abs, Real.sq_sqrt (by positivity)]
    rw [this]
    ring

/-- `X b ω` is the sample that a MYULA run with complex arrays, no prior and burn-in `b` stores first, for the generator state
`r ω`. -/
def FirstSample (data : DataVec n) (sig : SigD) (s : String) (par : Params) (x0 : Fin n → ℂ) (R : Rng) {Ω : Type} (r : Ω → R.σ)
    (X : ℕ → Ω → Fin n → ℂ) : Prop :=
  ∀ b : ℕ, ∃ (F : ForwardOp n) (Pr : L1 ℂ) (M : Sampler n) (A0 : Arrays),
    ForwardOp.init data sig s (some identityTransform) (some (identityMeasurement n n)) (some n) = .ok F ∧
    L1.init s identityTransform.op identityTransform.adj (.scalar 0) = .ok Pr ∧
    samplerInit F Pr.toPrior { par with nburn := b } = .ok (M, A0) ∧
    ∀ ω, ∃ (st : St R) (N : ℕ) (rest : List (List ℂ)),
      (∀ fuel ≥ N, myulaRun M R A0 (r ω) (.array1 (List.ofFn x0)) fuel = .ok (some st)) ∧
      (A0.applyAll st.ev).chain = some (List.ofFn (X b ω) :: rest)

/-- The chain for complex data without a prior. -/
theorem complex_chain (data : DataVec n) (hd : data.cplx = true) (sig : SigD) (σ : Fin n → ℝ) (hσ : IsSigma n sig σ)
    (s : String) (hs : s = "analysis" ∨ s = "synthesis") (par : Params) (g : ℕ) (hl : par.lmda ≠ 0)
    (hg : par.ngap = g) (hc : par.complex = true)
    (hv : par.verbosity ≤ 0 ∨ ("logposterior" ∈ par.track ∧ "L2" ∈ par.track ∧ "prior" ∈ par.track))
    (htr : "chain" ∈ par.track) (x0 : Fin n → ℂ) (R : Rng) {Ω : Type} (r : Ω → R.σ) :
    ∃ (F : ForwardOp n) (Pr : L1 ℂ) (x : ℕ → Ω → Fin n → ℂ),
      ForwardOp.init data sig s (some identityTransform) (some (identityMeasurement n n)) (some n) = .ok F ∧
      L1.init s identityTransform.op identityTransform.adj (.scalar 0) = .ok Pr ∧
      (∀ ω, x 0 ω = x0) ∧
      (∀ k ω i, x (k + 1) ω i - data.vals i = cplxFactor par.delta (σ i) * (x k ω i - data.vals i) +
        ((√(2 * par.delta) : ℝ) : ℂ) * noiseSeq R true n (r ω) k i) ∧
      ∀ b : ℕ, ∃ M A0, samplerInit F Pr.toPrior { par with nburn := b } = .ok (M, A0) ∧ ∀ ω, ∃ (st : St R) (N : ℕ),
        (∀ fuel ≥ N, myulaRun M R A0 (r ω) (.array1 (List.ofFn x0)) fuel = .ok (some st)) ∧
        (A0.applyAll st.ev).chain = some ((List.range par.nsamples).map fun k => List.ofFn (x (b + k * max g 1 + 1) ω)) := by
  obtain ⟨F, Pr, hF, hP, hnp, tot⟩ := denoise_total_diag data sig _ (buildInvCov_complex data hd sig σ hσ) s hs 0
  refine ⟨F, Pr, fun k ω => iter (ulaStep par.delta (gradVec par.lmda (fun x => x)
    (fun y i => (((1 / σ i ^ 2 / √2 : ℝ) : ℂ) * (1 - Complex.I)) * (y i - data.vals i)) fun x i => softEntry (x i) 0))
    (noiseSeq R true n (r ω)) x0 k, hF, hP, fun ω => rfl, fun k ω i => ?_, fun b => ?_⟩
  · have hp : ∀ y : Fin n → ℂ, (fun i => softEntry (y i) 0) = y := by
      intro y
      have := softEntry_isProx y (fun _ => 0) (fun _ => le_rfl)
      refine prox_flat y _ ?_
      have e : (fun u : Fin n → ℂ => (0 : ℝ) * ∑ i, ‖u i‖) = Spec.wl1 fun _ => 0 := by
        funext u
        simp [Spec.wl1]
      rw [e]
      exact this
    have hp' : ∀ z : ℂ, softEntry z 0 = z := fun z => by
      have h := congrFun (hp fun _ => z) i
      exact h
    simp only [iter, ulaStep, gradVec, hp', sub_self, zero_div, cplxFactor]
    ring
  · have tot := tot { par with nburn := (b : ℤ) } hl
    refine ⟨⟨F, Pr.toPrior, { par with nburn := (b : ℤ) }, n⟩, initArrays ⟨F, Pr.toPrior, { par with nburn := (b : ℤ) }, n⟩,
      by simp [samplerInit, hnp], fun ω => ?_⟩
    obtain ⟨y0, r1, hst, h1, h2⟩ := start_vec ⟨F, Pr.toPrior, { par with nburn := (b : ℤ) }, n⟩ R rfl tot.forward (r ω)
      (.array1 (List.ofFn x0)) (.inr ⟨_, rfl, by simp⟩)
    obtain ⟨e1, rfl⟩ := h1 _ rfl
    obtain rfl := List.ofFn_injective e1
    obtain ⟨-, st, h3, -, h4⟩ := C41_schedule ⟨F, Pr.toPrior, { par with nburn := (b : ℤ) }, n⟩ R
      (initArrays ⟨F, Pr.toPrior, { par with nburn := (b : ℤ) }, n⟩)
      (initArrays_shaped _) (hv.imp id fun h => by simp [initArrays, h.1, h.2.1, h.2.2]) b g rfl hg tot _
      (fun x => gradlogpi_vec _ tot x) (r ω) _ _ x0 hst _ rfl
    refine ⟨st, _, h3, ?_⟩
    rw [h4]
    simp [Arrays.ofRows, initArrays, htr, rowOf, hc, store]

/-- The limit of the second moments of C128. -/
theorem complex_second_limit (delta s a : ℝ) (hδ : 0 < delta) (hs : 0 < s) :
    (delta < √2 * s ^ 2 → Tendsto (fun k => (1 - √2 * (delta / s ^ 2) + (delta / s ^ 2) ^ 2) ^ k * a +
      4 * delta * ∑ j ∈ Finset.range k, (1 - √2 * (delta / s ^ 2) + (delta / s ^ 2) ^ 2) ^ j) atTop
      (𝓝 (4 * s ^ 2 / (√2 - delta / s ^ 2)))) ∧
    (√2 * s ^ 2 ≤ delta → 0 ≤ a → Tendsto (fun k => (1 - √2 * (delta / s ^ 2) + (delta / s ^ 2) ^ 2) ^ k * a +
      4 * delta * ∑ j ∈ Finset.range k, (1 - √2 * (delta / s ^ 2) + (delta / s ^ 2) ^ 2) ^ j) atTop atTop) := by
  have hs2 : 0 < s ^ 2 := by positivity
  have hu : 0 < delta / s ^ 2 := by positivity
  have h2 : √2 * √2 = 2 := Real.mul_self_sqrt (by norm_num)
  have hdel : delta = delta / s ^ 2 * s ^ 2 := (div_mul_cancel₀ _ hs2.ne').symm
  have hq0 := (cplxFactor_sq delta s).symm ▸ sq_nonneg ‖cplxFactor delta s‖
  generalize delta / s ^ 2 = u at *
  subst hdel
  have hrw : 1 - √2 * u + u ^ 2 = 1 - u * (√2 - u) := by ring
  rw [hrw] at hq0 ⊢
  constructor
  · intro hlt
    have hlt : u < √2 := lt_of_mul_lt_mul_right hlt hs2.le
    have h3 : 0 < √2 - u := by linarith
    have hq1 : 1 - u * (√2 - u) < 1 := by nlinarith
    have t1 := (tendsto_pow_atTop_nhds_zero_of_lt_one hq0 hq1).mul_const a
    have t2 := ((hasSum_geometric_of_lt_one hq0 hq1).tendsto_sum_nat).const_mul (4 * (u * s ^ 2))
    have t3 := t1.add t2
    have e : 0 * a + 4 * (u * s ^ 2) * (1 - (1 - u * (√2 - u)))⁻¹ = 4 * s ^ 2 / (√2 - u) := by
      have : 1 - (1 - u * (√2 - u)) = u * (√2 - u) := by ring
      rw [this]
      field_simp
      ring
    rw [e] at t3
    exact t3
  · intro hle ha
    have hle : √2 ≤ u := le_of_mul_le_mul_right hle hs2
    have hq1 : 1 ≤ 1 - u * (√2 - u) := by nlinarith
    refine tendsto_atTop_mono (f := fun k : ℕ => 4 * (u * s ^ 2) * (k : ℝ)) (fun k => ?_)
      (tendsto_natCast_atTop_atTop.const_mul_atTop (by positivity))
    have h4 : (k : ℝ) ≤ ∑ j ∈ Finset.range k, (1 - u * (√2 - u)) ^ j := by
      calc (k : ℝ) = ∑ j ∈ Finset.range k, (1 : ℝ) := by simp
        _ ≤ _ := Finset.sum_le_sum fun j _ => one_le_pow₀ hq1
    have h5 : 0 ≤ (1 - u * (√2 - u)) ^ k * a := mul_nonneg (pow_nonneg hq0 k) ha
    have h6 := mul_le_mul_of_nonneg_left h4 (show 0 ≤ 4 * (u * s ^ 2) by positivity)
    linarith

/-- C128, what holds: with complex data, error `sig_d`, identity operators, no prior and normal noise, MYULA returns, its
samples are centred at the data up to a term that decays, and their mean squared distance from the data is known exactly; for
steps below `√2 sig_d²` it converges to `4 sig_d² / (√2 - delta / sig_d²)`.  Missing: the value `2 sig_d²` that the error bar
promises, and stability for every step below `2 sig_d²`. -/
theorem C128_moments_partial (data : DataVec n) (hd : data.cplx = true) (sig : SigD) (σ : Fin n → ℝ) (hσ : IsSigma n sig σ)
    (s : String) (hs : s = "analysis" ∨ s = "synthesis") (par : Params) (g : ℕ) (hl : par.lmda ≠ 0)
    (hg : par.ngap = g) (hc : par.complex = true)
    (hv : par.verbosity ≤ 0 ∨ ("logposterior" ∈ par.track ∧ "L2" ∈ par.track ∧ "prior" ∈ par.track))
    (htr : "chain" ∈ par.track) (hdelta : 0 < par.delta) (x0 : Fin n → ℂ) (R : Rng)
    {Ω : Type} [MeasurableSpace Ω] (P : Measure Ω) [IsProbabilityMeasure P] (r : Ω → R.σ)
    (hr : NoiseStream R true n P r (cplxNormalLaw n)) :
    ∃ (F : ForwardOp n) (Pr : L1 ℂ) (x : ℕ → Ω → Fin n → ℂ),
      ForwardOp.init data sig s (some identityTransform) (some (identityMeasurement n n)) (some n) = .ok F ∧
      L1.init s identityTransform.op identityTransform.adj (.scalar 0) = .ok Pr ∧
      (∀ b : ℕ, ∃ M A0, samplerInit F Pr.toPrior { par with nburn := b } = .ok (M, A0) ∧ ∀ ω, ∃ (st : St R) (N : ℕ),
        (∀ fuel ≥ N, myulaRun M R A0 (r ω) (.array1 (List.ofFn x0)) fuel = .ok (some st)) ∧
        (A0.applyAll st.ev).chain = some ((List.range par.nsamples).map fun k =>
          List.ofFn (x (b + k * max g 1 + 1) ω))) ∧
      (∀ k i, ∫ ω, x k ω i ∂P = data.vals i +
          (1 - (par.delta / (√2 * σ i ^ 2) : ℝ) * (1 - Complex.I)) ^ k * (x0 i - data.vals i) ∧
        Integrable (fun ω => ‖x k ω i - data.vals i‖ ^ 2) P ∧
        ∫ ω, ‖x k ω i - data.vals i‖ ^ 2 ∂P =
          (1 - √2 * (par.delta / σ i ^ 2) + (par.delta / σ i ^ 2) ^ 2) ^ k * ‖x0 i - data.vals i‖ ^ 2 +
          4 * par.delta * ∑ j ∈ Finset.range k, (1 - √2 * (par.delta / σ i ^ 2) + (par.delta / σ i ^ 2) ^ 2) ^ j) ∧
      ∀ i, par.delta < √2 * σ i ^ 2 → Tendsto (fun k => ∫ ω, x k ω i ∂P) atTop (𝓝 (data.vals i)) ∧
        Tendsto (fun k => ∫ ω, ‖x k ω i - data.vals i‖ ^ 2 ∂P) atTop (𝓝 (4 * σ i ^ 2 / (√2 - par.delta / σ i ^ 2))) := by
  have hpos : ∀ i, 0 < σ i := by
    cases hσ with
    | scalar s hs => intro _; exact hs
    | vector s hs => exact hs
  obtain ⟨F, Pr, x, hF, hP, h0, hx, hrun⟩ := complex_chain data hd sig σ hσ s hs par g hl hg hc hv htr x0 R r
  have hm := complex_moments P R r hr par.delta hdelta data.vals x0 σ x h0 hx
  have hf : ∀ i, cplxFactor par.delta (σ i) = 1 - (par.delta / (√2 * σ i ^ 2) : ℝ) * (1 - Complex.I) := by
    intro i
    unfold cplxFactor
    push_cast
    have := (hpos i).ne'
    have : (√2 : ℂ) ≠ 0 := by
      have := (Real.sqrt_pos.mpr two_pos).ne'
      exact_mod_cast this
    have : (σ i : ℂ) ≠ 0 := by exact_mod_cast (hpos i).ne'
    field_simp
  refine ⟨F, Pr, x, hF, hP, hrun, fun k i => ?_, fun i hi => ⟨?_, ?_⟩⟩
  · rw [← hf]
    exact hm k i
  · have e : (fun k => ∫ ω, x k ω i ∂P) = fun k => data.vals i + cplxFactor par.delta (σ i) ^ k * (x0 i - data.vals i) :=
      funext fun k => (hm k i).1
    rw [e]
    have hn : ‖cplxFactor par.delta (σ i)‖ < 1 := by
      have h1 := cplxFactor_sq par.delta (σ i)
      have hs2 := pow_pos (hpos i) 2
      have hu : par.delta / σ i ^ 2 < √2 := by rwa [div_lt_iff₀ hs2]
      have hu0 : 0 < par.delta / σ i ^ 2 := by positivity
      by_contra hcon
      have : (1 : ℝ) ≤ ‖cplxFactor par.delta (σ i)‖ ^ 2 := one_le_pow₀ (not_lt.mp hcon)
      nlinarith
    have := ((tendsto_pow_atTop_nhds_zero_of_norm_lt_one hn).mul_const (x0 i - data.vals i)).const_add (data.vals i)
    simpa using this
  · have e : (fun k => ∫ ω, ‖x k ω i - data.vals i‖ ^ 2 ∂P) = _ := funext fun k => (hm k i).2.2
    rw [e]
    exact (complex_second_limit par.delta (σ i) _ hdelta (hpos i)).1 hi

/-- The first stored sample of every burn-in. -/
theorem complex_first (data : DataVec n) (hd : data.cplx = true) (sig : SigD) (σ : Fin n → ℝ) (hσ : IsSigma n sig σ)
    (s : String) (hs : s = "analysis" ∨ s = "synthesis") (par : Params) (g : ℕ) (hl : par.lmda ≠ 0)
    (hg : par.ngap = g) (hc : par.complex = true) (hn : 0 < par.nsamples)
    (hv : par.verbosity ≤ 0 ∨ ("logposterior" ∈ par.track ∧ "L2" ∈ par.track ∧ "prior" ∈ par.track))
    (htr : "chain" ∈ par.track) (hdelta : 0 < par.delta) (x0 : Fin n → ℂ) (R : Rng)
    {Ω : Type} [MeasurableSpace Ω] (P : Measure Ω) [IsProbabilityMeasure P] (r : Ω → R.σ)
    (hr : NoiseStream R true n P r (cplxNormalLaw n)) (X : ℕ → Ω → Fin n → ℂ) (hX : FirstSample data sig s par x0 R r X)
    (b : ℕ) (i : Fin n) : ∫ ω, ‖X b ω i - data.vals i‖ ^ 2 ∂P =
          (1 - √2 * (par.delta / σ i ^ 2) + (par.delta / σ i ^ 2) ^ 2) ^ (b + 1) * ‖x0 i - data.vals i‖ ^ 2 +
          4 * par.delta * ∑ j ∈ Finset.range (b + 1), (1 - √2 * (par.delta / σ i ^ 2) + (par.delta / σ i ^ 2) ^ 2) ^ j := by
  obtain ⟨F, Pr, x, hF, hP, hrun, hm, -⟩ := C128_moments_partial data hd sig σ hσ s hs par g hl hg hc hv htr hdelta x0 R P r hr
  obtain ⟨F', Pr', M', A', hF', hP', hM', hX⟩ := hX b
  obtain ⟨M, A0, hM, hrun⟩ := hrun b
  obtain rfl := Except.ok.inj (hF.symm.trans hF')
  obtain rfl := Except.ok.inj (hP.symm.trans hP')
  obtain ⟨rfl, rfl⟩ := Prod.mk.inj (Except.ok.inj (hM.symm.trans hM'))
  have e : ∀ ω, X b ω = x (b + 1) ω := by
    intro ω
    obtain ⟨st, N, rest, h1, h2⟩ := hX ω
    obtain ⟨st', N', h1', h2'⟩ := hrun ω
    have e1 := (h1 (max N N') (le_max_left _ _)).symm.trans (h1' (max N N') (le_max_right _ _))
    obtain rfl := Option.some.inj (Except.ok.inj e1)
    have e2 := Option.some.inj (h2.symm.trans h2')
    obtain ⟨m, hm⟩ := Nat.exists_eq_succ_of_ne_zero hn.ne'
    rw [hm, List.range_succ_eq_map, List.map_cons] at e2
    have := List.ofFn_injective (List.cons.inj e2).1
    simpa using this
  simp only [e]
  exact (hm (b + 1) i).2.2

/-- C128 fails for the spread: whatever the step, the mean squared distance of the samples from the complex data does not
settle, as the burn-in grows, at the value `2 sig_d²` (or `sig_d²`) that the error bar promises; every limit it can have is
above `2√2 sig_d²`. -/
theorem C128_spread_refuted (data : DataVec n) (hd : data.cplx = true) (sig : SigD) (σ : Fin n → ℝ) (hσ : IsSigma n sig σ)
    (s : String) (hs : s = "analysis" ∨ s = "synthesis") (par : Params) (g : ℕ) (hl : par.lmda ≠ 0)
    (hg : par.ngap = g) (hc : par.complex = true) (hn : 0 < par.nsamples)
    (hv : par.verbosity ≤ 0 ∨ ("logposterior" ∈ par.track ∧ "L2" ∈ par.track ∧ "prior" ∈ par.track))
    (htr : "chain" ∈ par.track) (hdelta : 0 < par.delta) (x0 : Fin n → ℂ) (R : Rng)
    {Ω : Type} [MeasurableSpace Ω] (P : Measure Ω) [IsProbabilityMeasure P] (r : Ω → R.σ)
    (hr : NoiseStream R true n P r (cplxNormalLaw n)) (X : ℕ → Ω → Fin n → ℂ) (hX : FirstSample data sig s par x0 R r X)
    (i : Fin n) (L : ℝ) (hL : Tendsto (fun b => ∫ ω, ‖X b ω i - data.vals i‖ ^ 2 ∂P) atTop (𝓝 L)) :
    2 * √2 * σ i ^ 2 < L := by
  have hpos : 0 < σ i := by
    cases hσ with
    | scalar s hs => exact hs
    | vector s hs => exact hs i
  have e := funext fun b => complex_first data hd sig σ hσ s hs par g hl hg hc hn hv htr hdelta x0 R P r hr X hX b i
  rw [e] at hL
  obtain ⟨l1, l2⟩ := complex_second_limit par.delta (σ i) (‖x0 i - data.vals i‖ ^ 2) hdelta hpos
  have hs2 := pow_pos hpos 2
  by_cases hlt : par.delta < √2 * σ i ^ 2
  · have := tendsto_nhds_unique hL ((tendsto_add_atTop_iff_nat 1).mpr (l1 hlt))
    rw [this]
    have hu : par.delta / σ i ^ 2 < √2 := by rwa [div_lt_iff₀ hs2]
    have hu0 : 0 < par.delta / σ i ^ 2 := by positivity
    rw [lt_div_iff₀ (by linarith)]
    have h2 : √2 * √2 = 2 := Real.mul_self_sqrt (by norm_num)
    have h3 : 0 < √2 := Real.sqrt_pos.mpr two_pos
    have h4 : 0 < √2 * σ i ^ 2 * (par.delta / σ i ^ 2) := by positivity
    nlinarith
  · exact absurd hL (not_tendsto_nhds_of_tendsto_atTop ((tendsto_add_atTop_iff_nat 1).mpr (l2 (not_lt.mp hlt) (sq_nonneg _))) L)

/-- C128 fails for the stability: for steps between `√2 sig_d²` and the usual bound `2 sig_d²` the mean squared distance of the
samples from the data grows without bound. -/
theorem C128_unstable_refuted (data : DataVec n) (hd : data.cplx = true) (sig : SigD) (σ : Fin n → ℝ) (hσ : IsSigma n sig σ)
    (s : String) (hs : s = "analysis" ∨ s = "synthesis") (par : Params) (g : ℕ) (hl : par.lmda ≠ 0)
    (hg : par.ngap = g) (hc : par.complex = true) (hn : 0 < par.nsamples)
    (hv : par.verbosity ≤ 0 ∨ ("logposterior" ∈ par.track ∧ "L2" ∈ par.track ∧ "prior" ∈ par.track))
    (htr : "chain" ∈ par.track) (x0 : Fin n → ℂ) (R : Rng)
    {Ω : Type} [MeasurableSpace Ω] (P : Measure Ω) [IsProbabilityMeasure P] (r : Ω → R.σ)
    (hr : NoiseStream R true n P r (cplxNormalLaw n)) (X : ℕ → Ω → Fin n → ℂ) (hX : FirstSample data sig s par x0 R r X)
    (i : Fin n) (hdelta : √2 * σ i ^ 2 ≤ par.delta) :
    Tendsto (fun b => ∫ ω, ‖X b ω i - data.vals i‖ ^ 2 ∂P) atTop atTop := by
  have hpos : 0 < σ i := by
    cases hσ with
    | scalar s hs => exact hs
    | vector s hs => exact hs i
  have hδ : 0 < par.delta := lt_of_lt_of_le (mul_pos (Real.sqrt_pos.mpr two_pos) (pow_pos hpos 2)) hdelta
  rw [funext fun b => complex_first data hd sig σ hσ s hs par g hl hg hc hn hv htr hδ x0 R P r hr X hX b i]
  exact (tendsto_add_atTop_iff_nat 1).mpr
    ((complex_second_limit par.delta (σ i) (‖x0 i - data.vals i‖ ^ 2) hδ hpos).2 hdelta (sq_nonneg _))

/-- The hypotheses of C128 are met by one complex datum `3 + 4i` with error 2, step 1 or 7 and independent normal noise. -/
example (delta : ℝ) (hdelta : delta = 1 ∨ delta = 7) :
    ∃ (data : DataVec 1) (sig : SigD) (σ : Fin 1 → ℝ) (par : Params), data.cplx = true ∧ data.vals = (fun _ => 3 + 4 * Complex.I) ∧
    IsSigma 1 sig σ ∧ par.lmda ≠ 0 ∧ par.complex = true ∧ 0 < par.nsamples ∧ "chain" ∈ par.track ∧ par.delta = delta ∧
    par.verbosity ≤ 0 ∧ (delta = 1 → ∀ i, par.delta < √2 * σ i ^ 2) ∧
    (delta = 7 → ∀ i, √2 * σ i ^ 2 ≤ par.delta ∧ par.delta < 2 * σ i ^ 2) ∧
    NoiseStream (halvesRng 1) true 1 (Measure.infinitePi fun _ : ℕ => Measure.pi fun _ : Fin 1 ⊕ Fin 1 => gaussianReal 0 1)
      (fun ω => (false, ω)) (cplxNormalLaw 1) ∧
    ∃ X, FirstSample data sig "synthesis" par (fun _ => 1) (halvesRng 1) (fun ω : ℕ → Fin 1 ⊕ Fin 1 → ℝ => (false, ω)) X := by
  have h1 : (1 : ℝ) < √2 := by rw [Real.lt_sqrt] <;> norm_num
  have h2 : √2 < 1.5 := by rw [Real.sqrt_lt'] <;> norm_num
  have hδ : 0 < delta := by rcases hdelta with h | h <;> rw [h] <;> norm_num
  refine ⟨⟨true, fun _ => 3 + 4 * Complex.I⟩, .num ((2 : ℝ) : ℂ) false, fun _ => 2, ⟨1, delta, 0, 1, 5, 0, 0, true, 0, ["chain"]⟩,
    rfl, rfl, .scalar 2 (by norm_num), one_ne_zero, rfl, by norm_num, by simp, rfl, le_rfl, fun h _ => ?_, fun h _ => ⟨?_, ?_⟩,
    halvesRng_normal, ?_⟩
  · show delta < _
    rw [h]
    linarith
  · show _ ≤ delta
    rw [h]
    linarith
  · show delta < _
    rw [h]
    norm_num
  · obtain ⟨F, Pr, x, hF, hP, -, -, hrun⟩ := complex_chain (n := 1) ⟨true, fun _ => 3 + 4 * Complex.I⟩ rfl
      (.num ((2 : ℝ) : ℂ) false) (fun _ => 2) (.scalar 2 (by norm_num)) "synthesis" (.inr rfl)
      ⟨1, delta, 0, 1, 5, 0, 0, true, 0, ["chain"]⟩ 0 one_ne_zero rfl rfl (.inl le_rfl) (by simp) (fun _ => 1) (halvesRng 1)
      (fun ω : ℕ → Fin 1 ⊕ Fin 1 → ℝ => (false, ω))
    refine ⟨fun b ω => x (b + 1) ω, fun b => ?_⟩
    obtain ⟨M, A0, hM, hrun⟩ := hrun b
    refine ⟨F, Pr, M, A0, hF, hP, hM, fun ω => ?_⟩
    obtain ⟨st, N, h3, h4⟩ := hrun ω
    refine ⟨st, N, ((List.range 4).map Nat.succ).map fun k => List.ofFn (x (b + k * max 0 1 + 1) ω), h3, h4.trans ?_⟩
    show some ((List.range (4 + 1)).map _) = _
    rw [List.range_succ_eq_map, List.map_cons]
    simp only [zero_mul, add_zero]

end Pxmcmc
