import Verif.Model.Construct
import Verif.Props.MyulaRows
import Verif.Props.MalaBalance

/-! # Property C96: the denoising set-up (identity transform and measurement, `L1` prior) -/

namespace Pxmcmc
variable {n : ℕ}

/-- The posterior of the denoising problem, up to a constant: `-mu ‖x‖₁ - Σ |d_i - x_i|²/σ_i²`. -/
noncomputable def denoisePost (mu : ℝ) (d : Fin n → ℂ) (σ : Fin n → ℝ) (x : Fin n → ℂ) : ℝ :=
  -mu * ∑ i, ‖x i‖ - ∑ i, ‖d i - x i‖ ^ 2 / σ i ^ 2

theorem identity_acts : ActsAs (identityMeasurement n n).op (fun x : Fin n → ℂ => x) ∧
    ActsAs (identityMeasurement n n).adj (fun x : Fin n → ℂ => x) := by
  have he : (eye n n : Matrix (Fin n) (Fin n) ℂ) = 1 := by
    ext i j
    simp [eye, Matrix.one_apply, Fin.ext_iff]
  constructor
  · intro x
    simp [identityMeasurement, identityForward, matDot_ofFn, he]
  · intro x
    simp [identityMeasurement, identityAdjoint, matDot_ofFn, he]

/-- C27 for the object a forward operator is given: the two methods of `Identity(ndata, npix)` form an adjoint pair for every two sizes. -/
theorem C27_pair (ndata npix : ℕ) (X : Fin npix → ℂ) (Y : Fin ndata → ℂ) :
    ∃ (a : Fin ndata → ℂ) (b : Fin npix → ℂ), (identityMeasurement ndata npix).op (List.ofFn X) = .ok (List.ofFn a) ∧
      (identityMeasurement ndata npix).adj (List.ofFn Y) = .ok (List.ofFn b) ∧ Spec.inner Y a = Spec.inner b X :=
  C27_adjoint ndata npix X Y

example : (identityMeasurement 3 2).op (List.ofFn ![5, 7]) = .ok [5, 7, 0] := by
  have := C27_forward 3 2 (![5, 7] : Fin 2 → ℂ)
  simpa [List.ofFn_succ, identityMeasurement] using this

/-- What both settings of the denoising set-up come down to. -/
theorem denoise_total (data : DataVec n) (hd : data.cplx = false) (sig : SigD) (σ : Fin n → ℝ) (hσ : IsSigma n sig σ)
    (s : String) (hs : s = "analysis" ∨ s = "synthesis") (t : ℝ) :
    ∃ (F : ForwardOp n) (P : L1 ℂ),
      ForwardOp.init data sig s (some identityTransform) (some (identityMeasurement n n)) (some n) = .ok F ∧
      L1.init s identityTransform.op identityTransform.adj (.scalar t) = .ok P ∧
      F.data = data ∧ F.invcov = Matrix.diagonal (fun i => ((1 / σ i ^ 2 : ℝ) : ℂ)) ∧ F.nparams = some n ∧
      ∀ par : Params, par.lmda ≠ 0 → Total ⟨F, P.toPrior, par, n⟩ n (fun x => x)
        (fun y i => (y i - data.vals i) / ((σ i ^ 2 : ℝ) : ℂ)) (fun x i => softEntry (x i) t) (fun x => ∑ i, ‖x i‖) := by
  obtain ⟨W, hW, -, rfl⟩ := C35_diagonal data hd sig σ hσ
  obtain ⟨hop, hadj⟩ := identity_acts (n := n)
  have hgrad : ∀ S : Setting, ∀ y : Fin n → ℂ,
      ForwardOp.gradgAnalysis ⟨data, Matrix.diagonal fun i => ((1 / σ i ^ 2 : ℝ) : ℂ), S, some identityTransform,
        some (identityMeasurement n n), some n⟩ (List.ofFn y) =
      .ok (List.ofFn fun i => (y i - data.vals i) / ((σ i ^ 2 : ℝ) : ℂ)) := by
    intro S y
    unfold ForwardOp.gradgAnalysis
    simp only [attr, bind, Except.bind]
    rw [npSub_ofFn]
    simp only
    rw [matDot_ofFn]
    simp only
    rw [hadj]
    congr 2
    funext i
    show (Matrix.diagonal _).mulVec _ i = _
    rw [Matrix.mulVec_diagonal]
    push_cast
    rw [one_div, div_eq_inv_mul]
  rcases hs with rfl | rfl
  · refine ⟨⟨data, Matrix.diagonal fun i => ((1 / σ i ^ 2 : ℝ) : ℂ), .analysis, some identityTransform, some (identityMeasurement n n), some n⟩,
      ⟨.analysis, identityTransform.op, identityTransform.adj, .scalar t⟩, ?_, rfl, rfl, rfl, rfl,
      fun par hl => ⟨rfl, fun x => hop x, fun y => hgrad _ y, fun x => ?_, fun x => ?_, hl⟩⟩
    · unfold ForwardOp.init
      rw [hW]
      rfl
    · show L1.proxf ⟨.analysis, identityTransform.op, identityTransform.adj, .scalar t⟩ (List.ofFn x) = _
      rw [C08_identity_handles _ rfl (fun _ => rfl) (fun _ => rfl) t rfl, soft_scalar]
    · show Except.ok _ = _
      rw [L1.prior, norm_sum_ofFn]
  · refine ⟨⟨data, Matrix.diagonal fun i => ((1 / σ i ^ 2 : ℝ) : ℂ), .synthesis, some identityTransform, some (identityMeasurement n n), some n⟩,
      ⟨.synthesis, identityTransform.op, identityTransform.adj, .scalar t⟩, ?_, rfl, rfl, rfl, rfl,
      fun par hl => ⟨rfl, fun x => hop x, fun y => ?_, fun x => soft_scalar x t, fun x => ?_, hl⟩⟩
    · unfold ForwardOp.init
      rw [hW]
      rfl
    · simp only [ForwardOp.calcGradg, attr, bind, Except.bind]
      rw [hgrad .synthesis y]
      rfl
    · show Except.ok _ = _
      rw [L1.prior, norm_sum_ofFn]

/-- The start vector of a run: the array given, or Laplace draws. -/
theorem start_vec (M : Sampler n) (R : Rng) (hp : M.nparams = n) (hf : ActsAs M.F.forward (fun x : Fin n → ℂ => x)) (r : R.σ)
    (sp : StartPoint) (hsp : sp = .none ∨ ∃ v : List ℂ, sp = .array1 v ∧ v.length = n) :
    ∃ x0 r1, initialSample M R r sp = .ok (List.ofFn x0, List.ofFn x0, r1) ∧
      (∀ v, sp = .array1 v → v = List.ofFn x0 ∧ r1 = r) ∧
      (sp = .none → (x0, r1) = drawVec R R.laplace M.par.complex r n) := by
  rcases hsp with rfl | ⟨v, rfl, hv⟩
  · refine ⟨(drawVec R R.laplace M.par.complex r n).1, (drawVec R R.laplace M.par.complex r n).2, ?_, by simp, fun _ => rfl⟩
    unfold initialSample startVector
    simp only [bind, Except.bind]
    rw [hp, noise_eq]
    simp only
    rw [hf]
  · obtain ⟨x, rfl⟩ := exists_ofFn v hv
    refine ⟨x, r, ?_, fun w hw => ⟨by injection hw with h; exact h.symm, rfl⟩, by simp⟩
    unfold initialSample startVector
    simp only [bind, Except.bind]
    rw [if_pos (by simpa using hp.symm)]
    simp only
    rw [hf]

theorem sum_diag (d x : Fin n → ℂ) (σ : Fin n → ℝ) :
    (Spec.inner (d - x) ((Matrix.diagonal fun i => ((1 / σ i ^ 2 : ℝ) : ℂ)).mulVec (d - x))).re =
      ∑ i, ‖d i - x i‖ ^ 2 / σ i ^ 2 := by
  rw [inner_diagonal]
  have : (∑ i, ((1 / σ i ^ 2 : ℝ) : ℂ) * ((‖(d - x) i‖ ^ 2 : ℝ) : ℂ)) = ((∑ i, ‖d i - x i‖ ^ 2 / σ i ^ 2 : ℝ) : ℂ) := by
    push_cast
    refine Finset.sum_congr rfl fun i _ => ?_
    simp only [Pi.sub_apply]
    ring
  rw [this, Complex.ofReal_re]

theorem softEntry_im (z : ℂ) (t : ℝ) (hz : z.im = 0) : (softEntry z t).im = 0 := by
  by_cases h : ‖z‖ ≤ t
  · rw [softEntry_of_le h]; rfl
  · push Not at h
    by_cases hz0 : z = 0
    · rw [hz0, softEntry_zero_left]; rfl
    · rw [softEntry_of_lt h hz0]
      show ((((‖z‖ - t) / ‖z‖ : ℝ) : ℂ) * z).im = 0
      rw [Complex.im_ofReal_mul, hz, mul_zero]

/-- One step of the documented MYULA update for the denoising problem. -/
noncomputable def denoiseStep (par : Params) (d : Fin n → ℂ) (σ : Fin n → ℝ) (prox : (Fin n → ℂ) → (Fin n → ℂ))
    (x w : Fin n → ℂ) : Fin n → ℂ :=
  fun i => x i + (par.delta : ℂ) * (-((x i - prox x i) / (par.lmda : ℂ)) - (x i - d i) / ((σ i ^ 2 : ℝ) : ℂ))
    + ((√(2 * par.delta) : ℝ) : ℂ) * w i

/-- C96, MYULA: the denoising set-up used by the tests, in either setting, with any real data, standard deviations,
threshold and parameters.  All constructors succeed; the prior's `proxf` is the proximal map of `T‖·‖₁`; `run` from any
array of the right length, or from no start point, returns, and row `k` holds the posterior `-mu‖x‖₁ - Σ|d-x|²/σ²`, its
two parts and the sample itself after `nburn + k*max(ngap,1) + 1` of the documented steps. -/
theorem C96_myula (data : DataVec n) (hd : data.cplx = false) (sig : SigD) (σ : Fin n → ℝ) (hσ : IsSigma n sig σ)
    (s : String) (hs : s = "analysis" ∨ s = "synthesis") (t : ℝ) (ht : 0 ≤ t) :
    ∃ (F : ForwardOp n) (P : L1 ℂ) (prox : (Fin n → ℂ) → (Fin n → ℂ)),
      ForwardOp.init data sig s (some identityTransform) (some (identityMeasurement n n)) (some n) = .ok F ∧
      L1.init s identityTransform.op identityTransform.adj (.scalar t) = .ok P ∧
      (∀ x, Spec.IsProx (fun u => t * ∑ i, ‖u i‖) x (prox x)) ∧
      ∀ (par : Params) (b g : ℕ), par.lmda ≠ 0 → par.nburn = b → par.ngap = g →
        (par.verbosity ≤ 0 ∨ ("logposterior" ∈ par.track ∧ "L2" ∈ par.track ∧ "prior" ∈ par.track)) →
      ∃ M A0, samplerInit F P.toPrior par = .ok (M, A0) ∧ ∀ (R : Rng) (r : R.σ) (sp : StartPoint),
        (sp = .none ∨ ∃ v : List ℂ, sp = .array1 v ∧ v.length = n) →
        ∃ (x : ℕ → Fin n → ℂ) (r1 : R.σ) (st : St R) (N : ℕ),
          (∀ v, sp = .array1 v → v = List.ofFn (x 0) ∧ r1 = r) ∧
          (sp = .none → (x 0, r1) = drawVec R R.laplace par.complex r n) ∧
          (∀ k, x (k + 1) = denoiseStep par data.vals σ prox (x k) (noiseSeq R par.complex n r1 k)) ∧
          (∀ fuel ≥ N, myulaRun M R A0 r sp fuel = .ok (some st)) ∧
          A0.applyAll st.ev = A0.ofRows par.nsamples (fun k =>
            let y := x (b + k * max g 1 + 1)
            ⟨denoisePost par.mu data.vals σ y, ∑ i, ‖data.vals i - y i‖ ^ 2 / σ i ^ 2, ∑ i, ‖y i‖,
              List.ofFn fun i => ((y i).re : ℂ), List.ofFn fun i => store par.complex (y i)⟩) := by
  obtain ⟨F, P, hF, hP, hdat, hcov, hnp, tot⟩ := denoise_total data hd sig σ hσ s hs t
  refine ⟨F, P, fun x i => softEntry (x i) t, hF, hP, fun x => ?_, fun par b g hl hb hg hv => ?_⟩
  · have := softEntry_isProx x (fun _ => t) (fun _ => ht)
    have e : (fun u : Fin n → ℂ => t * ∑ i, ‖u i‖) = Spec.wl1 fun _ => t := by
      funext u
      rw [Spec.wl1, Finset.mul_sum]
    rw [e]
    exact this
  · refine ⟨⟨F, P.toPrior, par, n⟩, initArrays ⟨F, P.toPrior, par, n⟩, by simp [samplerInit, hnp], fun R r sp hsp => ?_⟩
    have tot := tot par hl
    obtain ⟨x0, r1, hst, h1, h2⟩ := start_vec ⟨F, P.toPrior, par, n⟩ R rfl tot.forward r sp hsp
    obtain ⟨-, st, h3, -, h4⟩ := C41_schedule ⟨F, P.toPrior, par, n⟩ R (initArrays ⟨F, P.toPrior, par, n⟩)
      (initArrays_shaped _) (hv.imp id fun h => by simp [initArrays, h.1, h.2.1, h.2.2]) b g hb hg tot _
      (fun x => gradlogpi_vec _ tot x) r r1 sp x0 hst _ rfl
    refine ⟨iter (ulaStep par.delta (gradVec par.lmda (fun x => x) (fun y i => (y i - data.vals i) / ((σ i ^ 2 : ℝ) : ℂ))
      fun x i => softEntry (x i) t)) (noiseSeq R par.complex n r1) x0, r1, st, _, h1, h2, fun k => rfl, h3, ?_⟩
    rw [h4]
    congr 1
    funext k
    simp only [rowOf, hdat, hcov, sum_diag, denoisePost, store, Bool.false_eq_true, if_false]

/-- C96, realness: with real data values, a real sampler and a real start point, the sequence of C96 is real, so nothing is
lost when it is stored in float arrays. -/
theorem C96_real (par : Params) (hc : par.complex = false) (d : Fin n → ℂ) (hd : ∀ i, (d i).im = 0) (σ : Fin n → ℝ)
    (t : ℝ) (ht : 0 ≤ t) (prox : (Fin n → ℂ) → (Fin n → ℂ))
    (hprox : ∀ x, Spec.IsProx (fun u => t * ∑ i, ‖u i‖) x (prox x)) (R : Rng) (r : R.σ) (x : ℕ → Fin n → ℂ)
    (hx : ∀ k, x (k + 1) = denoiseStep par d σ prox (x k) (noiseSeq R par.complex n r k)) (h0 : ∀ i, (x 0 i).im = 0) :
    ∀ k i, x k i = ((x k i).re : ℂ) := by
  have hp : ∀ y, prox y = fun i => softEntry (y i) t := by
    intro y
    refine isProx_unique (hprox y) ?_
    have := softEntry_isProx y (fun _ => t) (fun _ => ht)
    have e : (fun u : Fin n → ℂ => t * ∑ i, ‖u i‖) = Spec.wl1 fun _ => t := by
      funext u
      rw [Spec.wl1, Finset.mul_sum]
    rw [e]
    exact this
  have key : ∀ k i, (x k i).im = 0 := by
    intro k
    induction k with
    | zero => exact h0
    | succ k ih =>
      intro i
      have hw : (noiseSeq R par.complex n r k i).im = 0 := by
        simp [noiseSeq, drawVec, hc]
      have hs := softEntry_im (x k i) t (ih i)
      rw [hx]
      simp only [denoiseStep, hp]
      have e1 : ((x k i - softEntry (x k i) t) / (par.lmda : ℂ)).im = 0 := by
        rw [Complex.div_ofReal_im, Complex.sub_im, ih i, hs]; simp
      have e2 : ((x k i - d i) / ((σ i ^ 2 : ℝ) : ℂ)).im = 0 := by
        rw [Complex.div_ofReal_im, Complex.sub_im, ih i, hd i]; simp
      rw [Complex.add_im, Complex.add_im, Complex.im_ofReal_mul, Complex.im_ofReal_mul, Complex.sub_im, Complex.neg_im,
        e1, e2, hw, ih i]
      simp
  intro k i
  apply Complex.ext
  · simp
  · simp [key k i]

/-- C96, SKROCK and PxMALA: in the same set-up SKROCK returns, and PxMALA never raises (it may run forever, see C54). -/
theorem C96_skrock_mala (data : DataVec n) (hd : data.cplx = false) (sig : SigD) (σ : Fin n → ℝ) (hσ : IsSigma n sig σ)
    (s : String) (hs : s = "analysis" ∨ s = "synthesis") (t : ℝ) :
    ∃ (F : ForwardOp n) (P : L1 ℂ),
      ForwardOp.init data sig s (some identityTransform) (some (identityMeasurement n n)) (some n) = .ok F ∧
      L1.init s identityTransform.op identityTransform.adj (.scalar t) = .ok P ∧
      ∀ (par : Params) (b g : ℕ), par.lmda ≠ 0 → par.nburn = b → par.ngap = g →
        (par.verbosity ≤ 0 ∨ ("logposterior" ∈ par.track ∧ "L2" ∈ par.track ∧ "prior" ∈ par.track)) →
      ∃ M A0, samplerInit F P.toPrior par = .ok (M, A0) ∧ ∀ (R : Rng) (r : R.σ) (sp : StartPoint),
        (sp = .none ∨ ∃ v : List ℂ, sp = .array1 v ∧ v.length = n) →
        (1 ≤ par.s → ∃ st N, ∀ fuel ≥ N, skrockRun M R A0 r sp fuel = .ok (some st)) ∧
        ∀ tune fuel, malaRun M R tune par.delta A0 r sp fuel = .ok none ∨
          ∃ st, malaRun M R tune par.delta A0 r sp fuel = .ok (some st) := by
  obtain ⟨F, P, hF, hP, -, -, hnp, tot⟩ := denoise_total data hd sig σ hσ s hs t
  refine ⟨F, P, hF, hP, fun par b g hl hb hg hv =>
    ⟨⟨F, P.toPrior, par, n⟩, initArrays ⟨F, P.toPrior, par, n⟩, by simp [samplerInit, hnp], fun R r sp hsp => ?_⟩⟩
  have tot := tot par hl
  obtain ⟨x0, r1, hst, -, -⟩ := start_vec ⟨F, P.toPrior, par, n⟩ R rfl tot.forward r sp hsp
  constructor
  · intro h1
    obtain ⟨co, f, -, -, -, st, h3, -⟩ := C42_schedule ⟨F, P.toPrior, par, n⟩ R (initArrays ⟨F, P.toPrior, par, n⟩)
      (initArrays_shaped _) (hv.imp id fun h => by simp [initArrays, h.1, h.2.1, h.2.2]) h1 b g hb hg tot _
      (fun x => gradlogpi_vec _ tot x) r r1 sp x0 hst _ rfl
    exact ⟨st, _, h3⟩
  · intro tune fuel
    exact (C54_stops_partial ⟨F, P.toPrior, par, n⟩ R tune par.delta (initArrays ⟨F, P.toPrior, par, n⟩)
      (initArrays_shaped _) b g hb hg r sp).2.2 n _ _ _ _ x0 r1 tot hst fuel

/-- The parameters of tests/test_mcmc.py:27-29 with the data size of its fixtures meet the hypotheses. -/
example : ∃ (data : DataVec 190) (sig : SigD) (σ : Fin 190 → ℝ) (par : Params), data.cplx = false ∧ IsSigma 190 sig σ ∧
    par.lmda ≠ 0 ∧ par.nburn = (10 : ℕ) ∧ par.ngap = (5 : ℕ) ∧ par.verbosity ≤ 0 ∧ 1 ≤ par.s ∧ par.nsamples = 100 :=
  ⟨⟨false, fun _ => 1⟩, .num ((1 / 10 : ℝ) : ℂ) false, fun _ => 1 / 10,
    ⟨3 / 100000, 1 / 100000, 1, 5, 100, 10, 5, false, 0, ["logposterior", "L2", "prior", "chain"]⟩, rfl,
    .scalar _ (by norm_num), by norm_num, rfl, rfl, le_rfl, by norm_num, rfl⟩

end Pxmcmc
