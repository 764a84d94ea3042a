import Verif.Props.Averages
import Verif.Props.GaussLaw
import Verif.Lemmas.Thinning

/-! # Property C159: thinning decorrelates the saved rows -/

namespace Pxmcmc
open MeasureTheory ProbabilityTheory Filter
open scoped ENNReal Topology NNReal
variable {n p : ℕ}
variable {M : Sampler n} {fwd : (Fin p → ℂ) → (Fin n → ℂ)} {grad : (Fin n → ℂ) → (Fin p → ℂ)}
  {prox : (Fin p → ℂ) → (Fin p → ℂ)} {pri g : (Fin p → ℂ) → ℝ} {Q : Matrix (Fin p) (Fin p) ℂ} {c Lf : ℝ}

theorem lipschitz_store (cplx : Bool) (q : (Fin p → ℂ) → ℝ) (L : ℝ) (hL0 : 0 ≤ L)
    (hL : ∀ x y, |q x - q y| ≤ L * √(Spec.distSq x y)) :
    (∀ x y : Fin p → ℂ, |q (fun i => store cplx (x i)) - q (fun i => store cplx (y i))| ≤ L * √(Spec.distSq x y)) ∧
    Continuous fun z : Fin p → ℂ => q (fun i => store cplx (z i)) := by
  have hLq : ∀ x y : Fin p → ℂ, |q (fun i => store cplx (x i)) - q (fun i => store cplx (y i))| ≤ L * √(Spec.distSq x y) :=
    fun x y => (hL _ _).trans (mul_le_mul_of_nonneg_left (Real.sqrt_le_sqrt (distSq_store _ x y)) hL0)
  refine ⟨hLq, (LipschitzWith.of_dist_le_mul (K := NNReal.mk (L * √p) (by positivity)) fun x y => ?_).continuous⟩
  rw [Real.dist_eq]
  refine (hLq x y).trans ?_
  calc L * √(Spec.distSq x y) ≤ L * (√p * dist x y) := mul_le_mul_of_nonneg_left (sqrt_distSq_le_dist x y) hL0
    _ = _ := by rw [← mul_assoc]; rfl

/-- C159: thinning decorrelates the saved rows, at a geometric rate.  Take MYULA runs from a fixed start array with independent noise
vectors of finite second moment, for a data term that determines the parameters.  There is a number `D`, which depends neither on the
lengths of burn-in, thinning and chain nor on the quantities looked at, such that for all quantities `q`, `q'` with Lipschitz constants
`L`, `L'` and all rows `k ≤ l` of the `chain` array the covariance of `q (row k)` and `q' (row l)` is at most
`L * L' * D * (1 - delta * c) ^ ((l - k) * max ngap 1)` in absolute value; the base is at least 0 and less
than 1. -/
theorem C159_decorrelation (R : Rng) (tot : Total M p fwd grad prox pri) (h : Identifiable M fwd grad prox g Q c Lf)
    {Ω : Type} [MeasurableSpace Ω] (P : Measure Ω) [IsProbabilityMeasure P] (r : Ω → R.σ) (ν : Measure (Fin p → ℂ))
    (hs : NoiseStream R M.par.complex p P r ν) (hsq : ∫⁻ w, ‖w‖ₑ ^ 2 ∂ν ≠ ⊤) (x0 : Fin p → ℂ) :
    (0 ≤ 1 - M.par.delta * c ∧ 1 - M.par.delta * c < 1) ∧
    ∃ D : ℝ, ∀ (N b gap : ℕ) (v : ℤ) (track : List String) (A : Arrays), A.Shaped N → ∀ (fuel : Ω → ℕ) (st : Ω → St R),
      (∀ ω, myulaRun (M.resched N b gap v track) R A (r ω) (.array1 (List.ofFn x0)) (fuel ω) = .ok (some (st ω))) →
      ∀ rows : Ω → Fin N → Fin p → ℂ,
      (∀ ω, (A.applyAll (st ω).ev).chain = some (List.ofFn fun k : Fin N => List.ofFn (rows ω k))) →
      ∀ (q q' : (Fin p → ℂ) → ℝ) (L L' : ℝ), 0 ≤ L → 0 ≤ L' → (∀ x y, |q x - q y| ≤ L * √(Spec.distSq x y)) →
      (∀ x y, |q' x - q' y| ≤ L' * √(Spec.distSq x y)) → ∀ k l : Fin N, k ≤ l →
      |cov[fun ω => q (rows ω k), fun ω => q' (rows ω l); P]| ≤
        L * L' * D * (1 - M.par.delta * c) ^ (((l : ℕ) - k) * max gap 1) := by
  have hν : IsProbabilityMeasure ν := by
    rw [← hs.law 0]
    exact Measure.isProbabilityMeasure_map (hs.meas 0).aemeasurable
  have hsc := myula_squareContraction h ν hs.finite hsq x0
  have hV : Driven P (fun k ω => noiseSeq R M.par.complex p (r ω) k) ν := ⟨hs.meas, hs.indep, hs.law⟩
  refine ⟨⟨hsc.nonneg, hsc.lt_one⟩, 2 * momBound ν (ulaStep M.par.delta (gradVec M.par.lmda fwd grad prox))
    (fun x y => √(Spec.distSq x y)) (1 - M.par.delta * c) x0 ^ 2, fun N b gap v track A hA fuel st hrun rows hrows q q' L L' hL0 hL0' hL hL' k l hkl => ?_⟩
  have tot' : Total (M.resched N b gap v track) p fwd grad prox pri :=
    ⟨tot.nparams, tot.forward, tot.gradg, tot.proxf, tot.prior, tot.lmda⟩
  have hr : ∀ k : Fin N, ∀ ω, rows ω k = fun i => store M.par.complex (fwState (ulaStep M.par.delta (gradVec M.par.lmda fwd grad prox)) x0
      (fun j => noiseSeq R M.par.complex p (r ω) j) (b + k * max gap 1 + 1) i) := fun k ω =>
    myula_chain_rows (M := M.resched N b gap v track) R tot' A hA b gap rfl rfl (r ω) x0 (fuel ω) (st ω) (hrun ω) (rows ω) (hrows ω) k
  simp only [hr]
  obtain ⟨hq, hqc⟩ := lipschitz_store M.par.complex q L hL0 hL
  obtain ⟨hq', hqc'⟩ := lipschitz_store M.par.complex q' L' hL0' hL'
  have ht : b + (l : ℕ) * max gap 1 + 1 = (b + (k : ℕ) * max gap 1 + 1) + ((l : ℕ) - k) * max gap 1 := by
    obtain ⟨m, hm⟩ := Nat.exists_eq_add_of_le (show (k : ℕ) ≤ l from hkl)
    rw [hm, Nat.add_sub_cancel_left, Nat.add_mul]
    ring
  have := hsc.cov_le hV _ _ hqc hqc' L L' hL0 hL0' hq hq' (b + (k : ℕ) * max gap 1 + 1) (((l : ℕ) - k) * max gap 1)
  rw [← ht] at this
  exact this

/-- The hypotheses of `C159_decorrelation` are met: 7 samples, burn-in 3, thinning 2, and the norm of the sample. -/
example : ∃ (M : Sampler 1) (prox : (Fin 1 → ℂ) → (Fin 1 → ℂ)) (pri g : (Fin 1 → ℂ) → ℝ),
    Total M 1 (fun x => x) (fun y => y) prox pri ∧ Identifiable M (fun x : Fin 1 → ℂ => x) (fun y => y) prox g 1 1 1 ∧
    NoiseStream streamRng M.par.complex 1 (Measure.infinitePi fun _ : ℕ => gaussianReal 0 1) (fun ω => ω) (normalLaw 1) ∧
    ∫⁻ w, ‖w‖ₑ ^ 2 ∂(normalLaw 1) ≠ ⊤ ∧
    (∃ (A : Arrays) (fuel : (ℕ → ℝ) → ℕ) (st : (ℕ → ℝ) → St streamRng) (rows : (ℕ → ℝ) → Fin 7 → Fin 1 → ℂ), A.Shaped 7 ∧
      (∀ ω, myulaRun (M.resched 7 (3 : ℕ) (2 : ℕ) 0 ["chain"]) streamRng A ω (.array1 (List.ofFn fun _ : Fin 1 => 5)) (fuel ω) =
        .ok (some (st ω))) ∧
      ∀ ω, (A.applyAll (st ω).ev).chain = some (List.ofFn fun k : Fin 7 => List.ofFn (rows ω k))) ∧
    ∀ x y : Fin 1 → ℂ, |‖x 0‖ - ‖y 0‖| ≤ 1 * √(Spec.distSq x y) := by
  obtain ⟨M, prox, pri, g, π, h1, h2, -, h4, -, -, A, fuel, st, rows, h5, h6, h7⟩ := averages_demo
  refine ⟨M, prox, pri, g, h1, h2, h4, C114_normal_noise, ⟨A 7, fuel 7, st 7, rows 7, h5 7, h6 7, h7 7⟩, fun x y => ?_⟩
  rw [one_mul]
  refine (abs_norm_sub_norm_le _ _).trans (Real.le_sqrt_of_sq_le ?_)
  exact Finset.single_le_sum (f := fun i => ‖x i - y i‖ ^ 2) (fun i _ => sq_nonneg _) (Finset.mem_univ 0)

/-- C159, the rate for Gaussian denoising: flat prior (`T = 0`), real data `d`, standard deviations `σ`, real sampler started at `x0`,
independent standard normal draws.  `MYULA.run` returns, and the covariance of a pixel between the rows `k ≤ l` of the `chain` array is
exactly `(1 - delta/σ²) ^ ((l - k) * max ngap 1)` times the variance of the pixel in row `k`. -/
theorem C159_gaussian (data : DataVec n) (hd : data.cplx = false) (d : Fin n → ℝ) (hdv : data.vals = fun i => (d i : ℂ))
    (sig : SigD) (σ : Fin n → ℝ) (hσ : IsSigma n sig σ) (s : String) (hs : s = "analysis" ∨ s = "synthesis")
    (par : Params) (b g : ℕ) (hl : par.lmda ≠ 0) (hb : par.nburn = b) (hg : par.ngap = g) (hc : par.complex = false)
    (hv : par.verbosity ≤ 0 ∨ ("logposterior" ∈ par.track ∧ "L2" ∈ par.track ∧ "prior" ∈ par.track))
    (htr : "chain" ∈ par.track) (x0 : Fin n → ℝ) (R : Rng)
    {Ω : Type} [MeasurableSpace Ω] (P : Measure Ω) [IsProbabilityMeasure P] (r : Ω → R.σ) (hr : NormalStream R n P r) :
    ∃ (F : ForwardOp n) (Pr : L1 ℂ) (M : Sampler n) (A0 : Arrays) (rows : Ω → Fin par.nsamples → Fin n → ℝ),
      ForwardOp.init data sig s (some identityTransform) (some (identityMeasurement n n)) (some n) = .ok F ∧
      L1.init s identityTransform.op identityTransform.adj (.scalar 0) = .ok Pr ∧
      samplerInit F Pr.toPrior par = .ok (M, A0) ∧
      (∀ ω, ∃ (st : St R) (N : ℕ), (∀ fuel ≥ N,
        myulaRun M R A0 (r ω) (.array1 (List.ofFn fun i => (x0 i : ℂ))) fuel = .ok (some st)) ∧
        (A0.applyAll st.ev).chain = some (List.ofFn fun k : Fin par.nsamples => List.ofFn fun i => ((rows ω k i : ℝ) : ℂ))) ∧
      ∀ k l : Fin par.nsamples, k ≤ l → ∀ i, cov[fun ω => rows ω k i, fun ω => rows ω l i; P] =
        (1 - par.delta / σ i ^ 2) ^ (((l : ℕ) - k) * max g 1) * Var[fun ω => rows ω k i; P] := by
  obtain ⟨F, Pr, prox, hF, hP, hprox, hrun⟩ := C96_myula data hd sig σ hσ s hs 0 le_rfl
  obtain ⟨M, A0, hM, hrun⟩ := hrun par b g hl hb hg hv
  have hpx : ∀ y, prox y = y := fun y => prox_flat y _ (hprox y)
  have hA0 : A0.chain.isSome := by
    have hnp : F.nparams = some n := by
      unfold ForwardOp.init at hF
      obtain ⟨W, -, hF⟩ := bind_ok hF
      split at hF
      · cases hF
      · rw [← Except.ok.inj hF]
    simp only [samplerInit, hnp] at hM
    obtain ⟨rfl, rfl⟩ := Prod.mk.inj (Except.ok.inj hM)
    simp [initArrays, htr]
  refine ⟨F, Pr, M, A0, fun ω k => arState (fun i => 1 - par.delta / σ i ^ 2) (fun i => par.delta / σ i ^ 2 * d i)
    (√(2 * par.delta)) x0 (fun j => (R.randn (rngSeq R false n (r ω) j) n).1) (b + k * max g 1 + 1), hF, hP, hM, fun ω => ?_,
    fun k l hkl i => ?_⟩
  · obtain ⟨x, r1, st, N, h1, -, h3, h4, h5⟩ := hrun R (r ω) (.array1 (List.ofFn fun i => (x0 i : ℂ)))
      (.inr ⟨_, rfl, by simp⟩)
    obtain ⟨hx0, rfl⟩ := h1 _ rfl
    rw [hdv] at h3
    have hx := denoise_arState par hc d σ prox hpx R (r ω) x0 x (List.ofFn_injective hx0.symm) h3
    refine ⟨st, N, h4, ?_⟩
    rw [h5]
    obtain ⟨l, hl⟩ := Option.isSome_iff_exists.mp hA0
    simp only [Arrays.ofRows, hl, Option.map_some, hx, store, hc, Bool.false_eq_true, if_false, Complex.ofReal_re, Option.some.injEq]
    refine List.ext_getElem (by simp) fun k hk hk' => ?_
    simp only [List.getElem_map, List.getElem_range, List.getElem_ofFn]
  · have ht : b + (l : ℕ) * max g 1 + 1 = (b + (k : ℕ) * max g 1 + 1) + ((l : ℕ) - k) * max g 1 := by
      obtain ⟨m, hm⟩ := Nat.exists_eq_add_of_le (show (k : ℕ) ≤ l from hkl)
      rw [hm, Nat.add_sub_cancel_left, Nat.add_mul]
      ring
    have h0 := arState_cov P _ hr.meas hr.indep hr.law (fun i => 1 - par.delta / σ i ^ 2) (fun i => par.delta / σ i ^ 2 * d i)
      (√(2 * par.delta)) x0 (b + (k : ℕ) * max g 1 + 1)
    have h1 := (coord_memLp P _ _ _ (arState_law P _ hr.meas hr.indep hr.law (fun i => 1 - par.delta / σ i ^ 2)
      (fun i => par.delta / σ i ^ 2 * d i) (√(2 * par.delta)) x0 (b + (k : ℕ) * max g 1 + 1)) i).1
    have h2 := h0 (((l : ℕ) - k) * max g 1) i
    rw [← ht] at h2
    rw [h1.variance_eq, variance_id_gaussianReal]
    exact h2

/-- The hypotheses of `C159_gaussian` are met: burn-in 2, thinning 3, `delta = 1`, `σ = 2`, so that successive rows have correlation
at most `(3/4)^3`. -/
example : ∃ (data : DataVec 1) (sig : SigD) (σ : Fin 1 → ℝ) (par : Params), data.cplx = false ∧
    data.vals = (fun _ => ((3 : ℝ) : ℂ)) ∧ IsSigma 1 sig σ ∧ par.lmda ≠ 0 ∧ par.nburn = (2 : ℕ) ∧ par.ngap = (3 : ℕ) ∧
    par.complex = false ∧ "chain" ∈ par.track ∧ par.verbosity ≤ 0 ∧ par.nsamples = 5 ∧
    (∀ i, (1 - par.delta / σ i ^ 2) ^ (1 * max 3 1) = 27 / 64) ∧
    NormalStream streamRng 1 (Measure.infinitePi fun _ : ℕ => gaussianReal 0 1) (fun ω => ω) :=
  ⟨⟨false, fun _ => ((3 : ℝ) : ℂ)⟩, .num ((2 : ℝ) : ℂ) false, fun _ => 2,
    ⟨1, 1, 0, 1, 5, (2 : ℕ), (3 : ℕ), false, 0, ["chain"]⟩, rfl, rfl, .scalar 2 (by norm_num), one_ne_zero, rfl, rfl, rfl, by simp,
    le_rfl, rfl, fun _ => by norm_num, streamRng_normal⟩

end Pxmcmc
