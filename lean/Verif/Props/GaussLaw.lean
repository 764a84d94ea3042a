import Verif.Props.Denoising
import Verif.Lemmas.Gauss

/-! # Property C97: the long-run law of MYULA for Gaussian denoising -/

namespace Pxmcmc
open MeasureTheory ProbabilityTheory Filter
open scoped NNReal Topology
variable {n : ℕ}

/-- The successive vectors drawn by `np.random.randn(n)` from the state `r ω` are independent standard normals. -/
structure NormalStream (R : Rng) (n : ℕ) {Ω : Type} [MeasurableSpace Ω] (P : Measure Ω) (r : Ω → R.σ) : Prop where
  meas : ∀ k, Measurable fun ω => (R.randn (rngSeq R false n (r ω) k) n).1
  indep : iIndepFun (fun k ω => (R.randn (rngSeq R false n (r ω) k) n).1) P
  law : ∀ k, P.map (fun ω => (R.randn (rngSeq R false n (r ω) k) n).1) = Measure.pi fun _ => gaussianReal 0 1

theorem prox_flat (x p : Fin n → ℂ) (h : Spec.IsProx (fun u : Fin n → ℂ => 0 * ∑ i, ‖u i‖) x p) : p = x := by
  by_contra hne
  have := h x (Ne.symm hne)
  simp only [zero_mul, add_zero] at this
  have h0 : Spec.distSq x x = 0 := by simp [Spec.distSq]
  have h1 : 0 ≤ Spec.distSq p x := Finset.sum_nonneg fun i _ => sq_nonneg _
  linarith

/-- The chain of the flat-prior problem is the linear recursion of Lemmas/Gauss. -/
theorem denoise_arState (par : Params) (hc : par.complex = false) (d σ : Fin n → ℝ) (prox : (Fin n → ℂ) → (Fin n → ℂ))
    (hprox : ∀ x, prox x = x) (R : Rng) (r : R.σ) (x0 : Fin n → ℝ) (x : ℕ → Fin n → ℂ) (h0 : x 0 = fun i => (x0 i : ℂ))
    (hx : ∀ k, x (k + 1) = denoiseStep par (fun i => (d i : ℂ)) σ prox (x k) (noiseSeq R par.complex n r k)) (k : ℕ) :
    x k = fun i => ((arState (fun i => 1 - par.delta / σ i ^ 2) (fun i => par.delta / σ i ^ 2 * d i) (√(2 * par.delta)) x0
      (fun j => (R.randn (rngSeq R false n r j) n).1) k i : ℝ) : ℂ) := by
  induction k with
  | zero => exact h0
  | succ k ih =>
    rw [hx, ih]
    funext i
    simp only [denoiseStep, hprox, noiseSeq, drawVec, hc, Bool.false_eq_true, if_false, arState]
    push_cast
    ring

theorem sq_lt_one_of_step {a : ℝ} (h0 : 0 < a) (h2 : a < 2) : (1 - a) ^ 2 < 1 := by nlinarith

/-- C97 (partial): flat prior (`T = 0`), real data `d`, standard deviations `σ`, real sampler started at `x0`, independent
standard normal draws, `0 < delta < 2σ_i²`.  `MYULA.run` returns; the sample after `k` steps has independent Gaussian
coordinates with mean `d + (1-delta/σ²)^k (x0-d)` and variance `σ²/(1-delta/(2σ²)) * (1-(1-delta/σ²)^(2k))`; these converge
to `d` and `σ²/(1-delta/(2σ²))`.  Missing: agreement with the posterior the
sampler reports, whose variance is `σ²/2` (`C97_law_refuted`). -/
theorem C97_law_partial (data : DataVec n) (hd : data.cplx = false) (d : Fin n → ℝ) (hdv : data.vals = fun i => (d i : ℂ))
    (sig : SigD) (σ : Fin n → ℝ) (hσ : IsSigma n sig σ) (s : String) (hs : s = "analysis" ∨ s = "synthesis")
    (par : Params) (b g : ℕ) (hl : par.lmda ≠ 0) (hb : par.nburn = b) (hg : par.ngap = g) (hc : par.complex = false)
    (hv : par.verbosity ≤ 0 ∨ ("logposterior" ∈ par.track ∧ "L2" ∈ par.track ∧ "prior" ∈ par.track))
    (htr : "chain" ∈ par.track) (hdelta : 0 < par.delta) (hstep : ∀ i, par.delta < 2 * σ i ^ 2) (x0 : Fin n → ℝ) (R : Rng)
    {Ω : Type} [MeasurableSpace Ω] (P : Measure Ω) [IsProbabilityMeasure P] (r : Ω → R.σ) (hr : NormalStream R n P r) :
    ∃ (F : ForwardOp n) (Pr : L1 ℂ) (M : Sampler n) (A0 : Arrays) (x : ℕ → Ω → Fin n → ℝ) (v : ℕ → Fin n → ℝ≥0),
      ForwardOp.init data sig s (some identityTransform) (some (identityMeasurement n n)) (some n) = .ok F ∧
      L1.init s identityTransform.op identityTransform.adj (.scalar 0) = .ok Pr ∧
      samplerInit F Pr.toPrior par = .ok (M, A0) ∧
      (∀ ω, ∃ (st : St R) (N : ℕ), (∀ fuel ≥ N,
        myulaRun M R A0 (r ω) (.array1 (List.ofFn fun i => (x0 i : ℂ))) fuel = .ok (some st)) ∧
        (A0.applyAll st.ev).chain = some ((List.range par.nsamples).map fun k =>
          List.ofFn fun i => ((x (b + k * max g 1 + 1) ω i : ℝ) : ℂ))) ∧
      (∀ k, HasLaw (x k) (Measure.pi fun i =>
        gaussianReal (d i + (1 - par.delta / σ i ^ 2) ^ k * (x0 i - d i)) (v k i)) P) ∧
      (∀ k i, (v k i : ℝ) =
        σ i ^ 2 / (1 - par.delta / (2 * σ i ^ 2)) * (1 - ((1 - par.delta / σ i ^ 2) ^ 2) ^ k)) ∧
      (∀ i, Tendsto (fun k => d i + (1 - par.delta / σ i ^ 2) ^ k * (x0 i - d i)) atTop (𝓝 (d i)) ∧
        Tendsto (fun k => (v k i : ℝ)) atTop (𝓝 (σ i ^ 2 / (1 - par.delta / (2 * σ i ^ 2))))) := by
  have hpos : ∀ i, 0 < σ i := by
    cases hσ with
    | scalar s hs => intro _; exact hs
    | vector s hs => exact hs
  obtain ⟨F, Pr, prox, hF, hP, hprox, hrun⟩ := C96_myula data hd sig σ hσ s hs 0 le_rfl
  obtain ⟨M, A0, hM, hrun⟩ := hrun par b g hl hb hg hv
  have hpx : ∀ y, prox y = y := fun y => prox_flat y _ (hprox y)
  have hA0 : A0.chain.isSome := by
    have hnp : F.nparams = some n := by
      unfold ForwardOp.init at hF
      obtain ⟨W, -, hF⟩ := bind_ok hF
      split at hF
      · cases hF
      · rw [← Except.ok.inj hF]
    simp only [samplerInit, hnp] at hM
    obtain ⟨rfl, rfl⟩ := Prod.mk.inj (Except.ok.inj hM)
    simp [initArrays, htr]
  have ha0 : ∀ i, 0 < par.delta / σ i ^ 2 := fun i => div_pos hdelta (pow_pos (hpos i) 2)
  have ha2 : ∀ i, par.delta / σ i ^ 2 < 2 := fun i => by rw [div_lt_iff₀ (pow_pos (hpos i) 2)]; exact hstep i
  have hvar : ∀ k i, ((arVar (1 - par.delta / σ i ^ 2) (√(2 * par.delta)) k : ℝ≥0) : ℝ) =
      σ i ^ 2 / (1 - par.delta / (2 * σ i ^ 2)) * (1 - ((1 - par.delta / σ i ^ 2) ^ 2) ^ k) := by
    intro k i
    rw [arVar_eq _ _ (sq_lt_one_of_step (ha0 i) (ha2 i)).ne]
    congr 1
    rw [Real.sq_sqrt (by positivity)]
    have h1 := (hpos i).ne'
    have h2 : 1 - par.delta / (2 * σ i ^ 2) ≠ 0 := by
      have : par.delta / (2 * σ i ^ 2) < 1 := by
        rw [div_lt_one (by have := hpos i; positivity)]
        exact hstep i
      linarith
    have h3 : 1 - (1 - par.delta / σ i ^ 2) ^ 2 = 2 * (par.delta / σ i ^ 2) * (1 - par.delta / (2 * σ i ^ 2)) := by
      field_simp
      ring
    rw [h3]
    have := hdelta.ne'
    rw [div_eq_div_iff (by
      refine mul_ne_zero (mul_ne_zero two_ne_zero (ha0 i).ne') h2) h2]
    field_simp
  refine ⟨F, Pr, M, A0, fun k ω => arState (fun i => 1 - par.delta / σ i ^ 2) (fun i => par.delta / σ i ^ 2 * d i)
    (√(2 * par.delta)) x0 (fun j => (R.randn (rngSeq R false n (r ω) j) n).1) k,
    fun k i => arVar (1 - par.delta / σ i ^ 2) (√(2 * par.delta)) k, hF, hP, hM, fun ω => ?_, fun k => ?_, hvar, fun i => ?_⟩
  · obtain ⟨x, r1, st, N, h1, -, h3, h4, h5⟩ := hrun R (r ω) (.array1 (List.ofFn fun i => (x0 i : ℂ)))
      (.inr ⟨_, rfl, by simp⟩)
    obtain ⟨hx0, rfl⟩ := h1 _ rfl
    rw [hdv] at h3
    have hx := denoise_arState par hc d σ prox hpx R (r ω) x0 x (List.ofFn_injective hx0.symm) h3
    refine ⟨st, N, h4, ?_⟩
    rw [h5]
    obtain ⟨l, hl⟩ := Option.isSome_iff_exists.mp hA0
    simp only [Arrays.ofRows, hl, Option.map_some, hx, store, hc, Bool.false_eq_true, if_false, Complex.ofReal_re]
  · have := arState_law P _ hr.meas hr.indep hr.law (fun i => 1 - par.delta / σ i ^ 2)
      (fun i => par.delta / σ i ^ 2 * d i) (√(2 * par.delta)) x0 k
    simp only [arMean_eq] at this
    exact this
  · have hsq := sq_lt_one_of_step (ha0 i) (ha2 i)
    have habs : |1 - par.delta / σ i ^ 2| < 1 := by
      rw [abs_lt]
      constructor <;> linarith [ha0 i, ha2 i]
    constructor
    · have := (tendsto_pow_atTop_nhds_zero_of_abs_lt_one habs).mul_const (x0 i - d i)
      have := this.const_add (d i)
      simpa using this
    · simp only [hvar]
      have := (tendsto_pow_atTop_nhds_zero_of_lt_one (sq_nonneg _) hsq).const_sub 1
      have := this.const_mul (σ i ^ 2 / (1 - par.delta / (2 * σ i ^ 2)))
      simpa using this

/-- A generator that delivers a given sequence of numbers, one per call, repeated over the vector asked for. -/
def streamRng : Rng :=
  ⟨ℕ → ℝ, fun s _ => (fun _ => s 0, fun j => s (j + 1)), fun s _ => (fun _ => s 0, fun j => s (j + 1)),
    fun s => (s 0, fun j => s (j + 1))⟩

theorem streamRng_seq (s : ℕ → ℝ) (k : ℕ) : rngSeq streamRng false 1 s k = fun j => s (j + k) := by
  induction k with
  | zero => rfl
  | succ k ih =>
    show (fun j => rngSeq streamRng false 1 s k (j + 1)) = _
    rw [ih]
    funext j
    show s (j + 1 + k) = s (j + (k + 1))
    congr 1
    omega

/-- For one parameter such a generator, fed with independent standard normals, meets the hypothesis of C97. -/
theorem streamRng_normal : NormalStream streamRng 1 (Measure.infinitePi fun _ : ℕ => gaussianReal 0 1) (fun ω => ω) := by
  have e : ∀ (k : ℕ) (ω : ℕ → ℝ), (streamRng.randn (rngSeq streamRng false 1 ω k) 1).1 = fun _ => ω k := by
    intro k ω
    rw [streamRng_seq]
    funext i
    show ω (0 + k) = ω k
    rw [zero_add]
  refine ⟨fun k => ?_, ?_, fun k => ?_⟩
  · simp only [e]
    exact measurable_pi_lambda _ fun _ => measurable_pi_apply k
  · simp only [e]
    exact iIndepFun_infinitePi (P := fun _ : ℕ => gaussianReal 0 1) (X := fun _ (x : ℝ) (_ : Fin 1) => x)
      (fun _ => by fun_prop)
  · simp only [e]
    have h1 : (fun (ω : ℕ → ℝ) (_ : Fin 1) => ω k) = (fun (x : ℝ) (_ : Fin 1) => x) ∘ fun ω => ω k := rfl
    rw [h1, ← Measure.map_map (by fun_prop) (by fun_prop)]
    have h2 := Measure.infinitePi_map_eval (fun _ : ℕ => gaussianReal 0 1) k
    rw [show (fun ω : ℕ → ℝ => ω k) = Function.eval k from rfl, h2]
    exact (measurePreserving_funUnique (gaussianReal 0 1) (Fin 1)).symm.map_eq

/-- The hypotheses of `C97_law_partial` are met. -/
example : ∃ (data : DataVec 1) (sig : SigD) (σ : Fin 1 → ℝ) (par : Params), data.cplx = false ∧
    data.vals = (fun _ => ((3 : ℝ) : ℂ)) ∧ IsSigma 1 sig σ ∧ par.lmda ≠ 0 ∧ par.complex = false ∧ "chain" ∈ par.track ∧
    0 < par.delta ∧ (∀ i, par.delta < 2 * σ i ^ 2) ∧ par.verbosity ≤ 0 :=
  ⟨⟨false, fun _ => ((3 : ℝ) : ℂ)⟩, .num ((2 : ℝ) : ℂ) false, fun _ => 2,
    ⟨1, 1, 0, 1, 5, 0, 0, false, 0, ["chain"]⟩, rfl, rfl, .scalar 2 (by norm_num), one_ne_zero, rfl, by simp, one_pos,
    fun _ => by norm_num, le_rfl⟩

/-- C97, refutation.  The claim: for one datum `d` with standard deviation `σ` and no prior (`mu = 0`, `T = 0`), the variance
of the MYULA samples approaches, for small `delta` and many steps, that of the posterior with density proportional to
`exp(logPi)`, `logPi` being what `logpi` returns.  For `d = 0`, `σ = 1` the posterior has variance 1/2 but the samples'
variance tends to a limit that is at least 1 for every step size. -/
theorem C97_law_refuted : ¬ ∀ (d σ : ℝ), 0 < σ → ∀ (F : ForwardOp 1) (Pr : L1 ℂ),
    ForwardOp.init ⟨false, fun _ => (d : ℂ)⟩ (.num (σ : ℂ) false) "synthesis" (some identityTransform)
      (some (identityMeasurement 1 1)) (some 1) = .ok F →
    L1.init "synthesis" identityTransform.op identityTransform.adj (.scalar 0) = .ok Pr →
    ∀ (post : Measure ℝ) (f : ℝ → ℝ) (c : ℝ), IsProbabilityMeasure post →
    (∀ y : ℝ, ∃ l, logpi F Pr.toPrior 0 [(y : ℂ)] [(y : ℂ)] = .ok l ∧ f y = l.1.re) →
    post = volume.withDensity (fun y => ENNReal.ofReal (c * Real.exp (f y))) →
    ∀ ε > 0, ∃ δ0 > 0, ∀ par : Params, par.lmda ≠ 0 → par.mu = 0 → par.complex = false → 0 < par.delta → par.delta < δ0 →
    ∀ (R : Rng) (Ω : Type) (_ : MeasurableSpace Ω) (P : Measure Ω) (r : Ω → R.σ), IsProbabilityMeasure P →
      NormalStream R 1 P r → ∀ x : ℕ → Ω → ℝ, (∀ ω, x 0 ω = 0) →
      (∀ k ω, myulaStep ⟨F, Pr.toPrior, par, 1⟩ R ⟨[(x k ω : ℂ)], [(x k ω : ℂ)], rngSeq R false 1 (r ω) k⟩ =
        .ok ⟨[(x (k + 1) ω : ℂ)], [(x (k + 1) ω : ℂ)], rngSeq R false 1 (r ω) (k + 1)⟩) →
      ∀ᶠ k in atTop, |Var[x k; P] - Var[id; post]| ≤ ε := by
  intro H
  have hσ : IsSigma 1 (.num ((1 : ℝ) : ℂ) false) (fun _ => 1) := .scalar 1 one_pos
  obtain ⟨F, Pr, hF, hP, hdat, hcov, -, tot⟩ := denoise_total (n := 1) ⟨false, fun _ => ((0 : ℝ) : ℂ)⟩ rfl _ _ hσ "synthesis"
    (.inr rfl) 0
  have hlog : ∀ y : ℝ, ∃ l, logpi F Pr.toPrior 0 [(y : ℂ)] [(y : ℂ)] = .ok l ∧ -y ^ 2 = l.1.re := by
    intro y
    have ht := tot ⟨1, 1, 0, 1, 1, 0, 0, false, 0, []⟩ one_ne_zero
    have h := logpi_ofFn F Pr.toPrior 0 (List.ofFn fun _ : Fin 1 => (y : ℂ)) (fun _ => (y : ℂ)) _ (ht.prior fun _ => (y : ℂ))
    refine ⟨_, h, ?_⟩
    simp only [hdat, hcov]
    rw [Complex.sub_re, sum_diag]
    simp
  have hvpost : (1 / 2 : ℝ≥0) ≠ 0 := by norm_num
  have hdens : gaussianReal 0 (1 / 2) = volume.withDensity
      (fun y => ENNReal.ofReal ((√(2 * Real.pi * ((1 / 2 : ℝ≥0) : ℝ)))⁻¹ * Real.exp (-y ^ 2))) := by
    rw [gaussianReal_of_var_ne_zero _ hvpost]
    congr 1
    funext y
    rw [gaussianPDF, gaussianPDFReal]
    congr 3
    push_cast
    ring
  obtain ⟨δ0, hδ0, H⟩ := H 0 1 one_pos F Pr hF hP (gaussianReal 0 (1 / 2)) (fun y => -y ^ 2) _ inferInstance hlog hdens (1 / 4)
    (by norm_num)
  set δ : ℝ := min (δ0 / 2) 1 with hδ
  have hδpos : 0 < δ := lt_min (by linarith) one_pos
  have hδlt : δ < δ0 := (min_le_left _ _).trans_lt (by linarith)
  have hδ1 : δ ≤ 1 := min_le_right _ _
  set par : Params := ⟨1, δ, 0, 1, 1, 0, 0, false, 0, []⟩ with hpar
  set x : ℕ → (ℕ → ℝ) → ℝ := fun k ω => arState (fun _ : Fin 1 => 1 - δ) (fun _ => 0) (√(2 * δ)) (fun _ => 0)
    (fun j => (streamRng.randn (rngSeq streamRng false 1 ω j) 1).1) k 0 with hx
  have hstep : ∀ k ω, myulaStep ⟨F, Pr.toPrior, par, 1⟩ streamRng
      ⟨[(x k ω : ℂ)], [(x k ω : ℂ)], rngSeq streamRng false 1 ω k⟩ =
      .ok ⟨[(x (k + 1) ω : ℂ)], [(x (k + 1) ω : ℂ)], rngSeq streamRng false 1 ω (k + 1)⟩ := by
    intro k ω
    have h := myulaStep_vec ⟨F, Pr.toPrior, par, 1⟩ streamRng (tot par one_ne_zero) (fun _ => (x k ω : ℂ))
      (rngSeq streamRng false 1 ω k)
    have e : ulaStep par.delta (gradVec par.lmda (fun x : Fin 1 → ℂ => x)
        (fun y i => (y i - ((0 : ℝ) : ℂ)) / (((1 : ℝ) ^ 2 : ℝ) : ℂ)) fun x i => softEntry (x i) 0) (fun _ => (x k ω : ℂ))
        (drawVec streamRng streamRng.randn par.complex (rngSeq streamRng false 1 ω k) 1).1 =
        fun _ => (x (k + 1) ω : ℂ) := by
      funext i
      have hs : softEntry (x k ω : ℂ) 0 = (x k ω : ℂ) := by
        have h1 := softEntry_isProx (n := 1) (fun _ => (x k ω : ℂ)) (fun _ => 0) (fun _ => le_rfl)
        have h2 : (Spec.wl1 fun _ : Fin 1 => (0 : ℝ)) = fun u : Fin 1 → ℂ => 0 * ∑ i, ‖u i‖ := by
          funext u
          simp [Spec.wl1]
        rw [h2] at h1
        exact congrFun (prox_flat _ _ h1) 0
      simp only [ulaStep, gradVec, hs]
      simp only [hx, arState, hpar, drawVec, Bool.false_eq_true, if_false]
      push_cast
      rw [Subsingleton.elim i 0]
      ring
    have h3 : ∀ z : ℂ, List.ofFn (fun _ : Fin 1 => z) = [z] := fun z => by simp
    rw [h3] at h
    refine h.trans ?_
    erw [e]
    rfl
  have hev := H par one_ne_zero rfl rfl hδpos hδlt streamRng (ℕ → ℝ) inferInstance
    (Measure.infinitePi fun _ : ℕ => gaussianReal 0 1) (fun ω => ω) inferInstance streamRng_normal x (fun _ => rfl) hstep
  have hlaw : ∀ k, Var[x k; Measure.infinitePi fun _ : ℕ => gaussianReal 0 1] = (arVar (1 - δ) (√(2 * δ)) k : ℝ) := by
    intro k
    have h1 := arState_law (Measure.infinitePi fun _ : ℕ => gaussianReal 0 1) _ streamRng_normal.meas streamRng_normal.indep
      streamRng_normal.law (fun _ => 1 - δ) (fun _ => 0) (√(2 * δ)) (fun _ => 0) k
    have h2 : HasLaw (fun u : Fin 1 → ℝ => u 0) (gaussianReal (arMean (1 - δ) 0 0 k) (arVar (1 - δ) (√(2 * δ)) k))
        (Measure.pi fun _ : Fin 1 => gaussianReal (arMean (1 - δ) 0 0 k) (arVar (1 - δ) (√(2 * δ)) k)) :=
      ⟨(measurable_pi_apply 0).aemeasurable, (measurePreserving_eval _ 0).map_eq⟩
    have h3 := h2.comp h1
    have h4 : HasLaw (x k) (gaussianReal (arMean (1 - δ) 0 0 k) (arVar (1 - δ) (√(2 * δ)) k))
      (Measure.infinitePi fun _ : ℕ => gaussianReal 0 1) := h3
    rw [h4.variance_eq, variance_id_gaussianReal]
  have hsq := sq_lt_one_of_step hδpos (by linarith : δ < 2)
  have hlim : Tendsto (fun k => (arVar (1 - δ) (√(2 * δ)) k : ℝ)) atTop (𝓝 (2 * δ / (1 - (1 - δ) ^ 2))) := by
    simp only [arVar_eq _ _ hsq.ne, Real.sq_sqrt (by positivity : 0 ≤ 2 * δ)]
    have := (tendsto_pow_atTop_nhds_zero_of_lt_one (sq_nonneg _) hsq).const_sub 1
    have := this.const_mul (2 * δ / (1 - (1 - δ) ^ 2))
    simpa using this
  have hge : 1 ≤ 2 * δ / (1 - (1 - δ) ^ 2) := by
    rw [le_div_iff₀ (by linarith)]
    nlinarith
  have hle : 2 * δ / (1 - (1 - δ) ^ 2) ≤ 3 / 4 := by
    refine le_of_tendsto hlim ?_
    filter_upwards [hev] with k hk
    rw [hlaw, variance_id_gaussianReal] at hk
    have := (abs_le.mp hk).2
    push_cast at this
    linarith
  linarith

end Pxmcmc
