import Verif.Props.BurnIn

/-! # Property C125: how accurate the averages of a finite MYULA run are -/

namespace Pxmcmc
open MeasureTheory ProbabilityTheory Filter
open scoped ENNReal Topology
variable {n p : ℕ} {M : Sampler n} {fwd : (Fin p → ℂ) → (Fin n → ℂ)} {grad : (Fin n → ℂ) → (Fin p → ℂ)}
  {prox : (Fin p → ℂ) → (Fin p → ℂ)} {pri g : (Fin p → ℂ) → ℝ} {Q : Matrix (Fin p) (Fin p) ℂ} {c Lf : ℝ}

/-- Chebyshev's inequality about a number that need not be the mean. -/
theorem chebyshev_about {Ω : Type} [MeasurableSpace Ω] (P : Measure Ω) [IsProbabilityMeasure P] (X : Ω → ℝ) (hX : MemLp X 2 P)
    (B ε : ℝ) (hB : ∫ ω, X ω ^ 2 ∂P ≤ B) (hε : 0 < ε) : P.real {ω | ε < |X ω|} ≤ B / ε ^ 2 := by
  have h := mul_meas_ge_le_integral_of_nonneg (μ := P) (f := fun ω => X ω ^ 2) (Eventually.of_forall fun ω => sq_nonneg _)
    hX.integrable_sq (ε ^ 2)
  have hsub : P.real {ω | ε < |X ω|} ≤ P.real {ω | ε ^ 2 ≤ X ω ^ 2} := by
    refine measureReal_mono fun ω hω => ?_
    rw [Set.mem_ofPred_eq] at hω ⊢
    rw [← sq_abs (X ω)]
    exact pow_le_pow_left₀ hε.le hω.le 2
  rw [le_div_iff₀ (by positivity), mul_comm]
  exact (mul_le_mul_of_nonneg_left hsub (by positivity)).trans (h.trans hB)

/-- C125: averages of finite runs.  Take MYULA runs from a fixed start array with independent noise vectors of finite second moment, for
a data term that determines the parameters, and let `π` be the stationary law.  There is a number `D`, which depends neither on the
lengths of burn-in, thinning and chain nor on the quantity looked at, such that for every quantity `q` with Lipschitz constant `L` the
average of `q` over the `N` rows of the `chain` array has mean-square error at most `L ^ 2 * D / N` about the expectation of `q` under
`π`, and is off by more than `ε` with probability at most `L ^ 2 * D / (N * ε ^ 2)`. -/
theorem C125_accuracy (R : Rng) (tot : Total M p fwd grad prox pri) (h : Identifiable M fwd grad prox g Q c Lf)
    {Ω : Type} [MeasurableSpace Ω] (P : Measure Ω) [IsProbabilityMeasure P] (r : Ω → R.σ) (ν : Measure (Fin p → ℂ))
    (hs : NoiseStream R M.par.complex p P r ν) (hsq : ∫⁻ w, ‖w‖ₑ ^ 2 ∂ν ≠ ⊤) (π : Measure (Fin p → ℂ)) [IsProbabilityMeasure π]
    (hπ : StationaryLaw M R ν π) (x0 : Fin p → ℂ) :
    ∃ D : ℝ, ∀ (N b gap : ℕ) (v : ℤ) (track : List String) (A : Arrays), 0 < N → A.Shaped N → ∀ (fuel : Ω → ℕ) (st : Ω → St R),
      (∀ ω, myulaRun (M.resched N b gap v track) R A (r ω) (.array1 (List.ofFn x0)) (fuel ω) = .ok (some (st ω))) →
      ∀ rows : Ω → Fin N → Fin p → ℂ,
      (∀ ω, (A.applyAll (st ω).ev).chain = some (List.ofFn fun k : Fin N => List.ofFn (rows ω k))) →
      ∀ (q : (Fin p → ℂ) → ℝ) (L : ℝ), 0 ≤ L → (∀ x y, |q x - q y| ≤ L * √(Spec.distSq x y)) →
      MemLp (fun ω => (∑ k, q (rows ω k)) / N - ∫ z, q (fun i => store M.par.complex (z i)) ∂π) 2 P ∧
      ∫ ω, ((∑ k, q (rows ω k)) / N - ∫ z, q (fun i => store M.par.complex (z i)) ∂π) ^ 2 ∂P ≤ L ^ 2 * D / N ∧
      ∀ ε, 0 < ε → P.real {ω | ε < |(∑ k, q (rows ω k)) / N - ∫ z, q (fun i => store M.par.complex (z i)) ∂π|} ≤
        L ^ 2 * D / (N * ε ^ 2) := by
  have hν : IsProbabilityMeasure ν := by
    rw [← hs.law 0]
    exact Measure.isProbabilityMeasure_map (hs.meas 0).aemeasurable
  have hsc := myula_squareContraction h ν hs.finite hsq x0
  set m := momBound ν (ulaStep M.par.delta (gradVec M.par.lmda fwd grad prox)) (fun x y => √(Spec.distSq x y)) (1 - M.par.delta * c) x0
    with hm
  refine ⟨9 * m ^ 2 / (1 - (1 - M.par.delta * c)), fun N b gap v track A hN hA fuel st hrun rows hrows q L hL0 hL => ?_⟩
  have hLq : ∀ x y : Fin p → ℂ, |q (fun i => store M.par.complex (x i)) - q (fun i => store M.par.complex (y i))| ≤
      L * √(Spec.distSq x y) := fun x y =>
    (hL _ _).trans (mul_le_mul_of_nonneg_left (Real.sqrt_le_sqrt (distSq_store _ x y)) hL0)
  have hcont : Continuous fun z : Fin p → ℂ => q (fun i => store M.par.complex (z i)) := by
    refine (LipschitzWith.of_dist_le_mul (K := NNReal.mk (L * √p) (by positivity)) fun x y => ?_).continuous
    rw [Real.dist_eq]
    refine (hLq x y).trans ?_
    calc L * √(Spec.distSq x y) ≤ L * (√p * dist x y) := mul_le_mul_of_nonneg_left (sqrt_distSq_le_dist x y) hL0
      _ = _ := by rw [← mul_assoc]; rfl
  have htimes : StrictMono fun k : ℕ => b + k * max gap 1 + 1 := by
    intro i j hij
    have : 0 < max gap 1 := lt_max_of_lt_right one_pos
    have := Nat.mul_lt_mul_of_pos_right hij this
    show b + i * max gap 1 + 1 < b + j * max gap 1 + 1
    omega
  have hkey := hsc.average_sq (P := P) (V := fun k ω => noiseSeq R M.par.complex p (r ω) k) ⟨hs.meas, hs.indep, hs.law⟩ π
    ((stationary_iff R tot h P r ν hs π).mp hπ) _ hcont L hL0 hLq _ htimes N hN
  have tot' : Total (M.resched N b gap v track) p fwd grad prox pri :=
    ⟨tot.nparams, tot.forward, tot.gradg, tot.proxf, tot.prior, tot.lmda⟩
  have hsum : ∀ ω : Ω, ∑ k, q (rows ω k) = ∑ k ∈ Finset.range N, q (fun i => store M.par.complex
      (fwState (ulaStep M.par.delta (gradVec M.par.lmda fwd grad prox)) x0 (fun j => noiseSeq R M.par.complex p (r ω) j)
        (b + k * max gap 1 + 1) i)) := by
    intro ω
    rw [Finset.sum_range]
    refine Finset.sum_congr rfl fun k _ => ?_
    rw [myula_chain_rows (M := M.resched N b gap v track) R tot' A hA b gap rfl rfl (r ω) x0 (fuel ω) (st ω) (hrun ω) (rows ω)
      (hrows ω) k]
    rfl
  simp only [← hsum] at hkey
  have e : 3 * (3 * L ^ 2 * m ^ 2) / (1 - (1 - M.par.delta * c)) / N = L ^ 2 * (9 * m ^ 2 / (1 - (1 - M.par.delta * c))) / N := by ring
  rw [← hm, e] at hkey
  refine ⟨hkey.1, hkey.2, fun ε hε => ?_⟩
  have := chebyshev_about P _ hkey.1 _ ε hkey.2 hε
  rwa [div_div] at this

/-- C125 in the denoising set-up, with the posterior as the reference: for all `ε` and `η` there are a `lmda0`, for each `lmda < lmda0` a
`delta0`, and for each `delta < delta0` a number of samples from which on, whatever the burn-in, the thinning and the other parameters,
every run returns and

* for every quantity with Lipschitz constant 1, its average over the rows of the `chain` array is within `ε` of its posterior
  expectation with probability at least `1 - η`;
* with probability at least `1 - η` every pixel of the mean of the rows is within `ε` of the pixel of the posterior mean. -/
theorem C125_denoising (hn : 0 < n) (data : DataVec n) (hd : data.cplx = false) (hdr : ∀ i, (data.vals i).im = 0) (sig : SigD)
    (σ : Fin n → ℝ) (hσ : IsSigma n sig σ) (s : String) (hs : s = "analysis" ∨ s = "synthesis") (mu : ℝ) (hmu : 0 ≤ mu)
    (R : Rng) {Ω : Type} [MeasurableSpace Ω] (P : Measure Ω) [IsProbabilityMeasure P] (r : Ω → R.σ) (hr : NormalStream R n P r)
    (x0 : Fin n → ℂ) (ε η : ℝ) (hε : 0 < ε) (hη : 0 < η) :
    ∃ lmda0, 0 < lmda0 ∧ ∀ lmda, 0 < lmda → lmda < lmda0 → ∃ delta0, 0 < delta0 ∧ ∀ delta, 0 < delta → delta < delta0 →
      ∃ N0 : ℕ, ∀ (par : Params) (b g : ℕ), N0 ≤ par.nsamples → par.nburn = b → par.ngap = g → par.complex = false → par.lmda = lmda →
      par.delta = delta → par.mu = mu →
      (par.verbosity ≤ 0 ∨ ("logposterior" ∈ par.track ∧ "L2" ∈ par.track ∧ "prior" ∈ par.track)) → "chain" ∈ par.track →
      ∃ (F : ForwardOp n) (Pr : L1 ℂ) (M : Sampler n) (A : Arrays) (rows : Ω → Fin par.nsamples → Fin n → ℂ),
      ForwardOp.init data sig s (some identityTransform) (some (identityMeasurement n n)) (some n) = .ok F ∧
      L1.init s identityTransform.op identityTransform.adj (.scalar (lmda * mu)) = .ok Pr ∧
      samplerInit F Pr.toPrior par = .ok (M, A) ∧
      (∀ ω, ∃ fuel0 st, (∀ fuel ≥ fuel0, myulaRun M R A (r ω) (.array1 (List.ofFn x0)) fuel = .ok (some st)) ∧
        (A.applyAll st.ev).chain = some (List.ofFn fun k => List.ofFn (rows ω k))) ∧
      (∀ q : (Fin n → ℂ) → ℝ, (∀ x y, |q x - q y| ≤ √(Spec.distSq x y)) →
        P.real {ω | ε < |(∑ k, q (rows ω k)) / par.nsamples -
          postMean realVec (fun x => (∑ i, ‖data.vals i - x i‖ ^ 2 / σ i ^ 2) / 2 + mu * ∑ i, ‖x i‖) q|} ≤ η) ∧
      P.real {ω | ∃ i, ε < |(∑ k, (rows ω k i).re) / par.nsamples -
        postMean realVec (fun x => (∑ i, ‖data.vals i - x i‖ ^ 2 / σ i ^ 2) / 2 + mu * ∑ i, ‖x i‖) fun x => (x i).re|} ≤ η := by
  have hpos : ∀ i, 0 < σ i := by
    cases hσ with
    | scalar s hs => intro _; exact hs
    | vector s hs => exact hs
  obtain ⟨lmda0, hl0, H⟩ := denoise_law_close hn data hd hdr sig σ hσ s hs mu hmu R P r hr (ε / 2) (half_pos hε)
  refine ⟨lmda0, hl0, fun lmda hl hlt => ?_⟩
  obtain ⟨delta0, hd0, H⟩ := H lmda hl hlt
  refine ⟨delta0, hd0, fun δ hδ hδlt => ?_⟩
  obtain ⟨hstep, F, Pr, π, hF, hPr, hπ, hst, hclose⟩ := H δ hδ hδlt
  obtain ⟨F', Pr', hF', hPr', -, -, hnp, tot⟩ := denoise_total data hd sig σ hσ s hs (lmda * mu)
  obtain rfl : F = F' := Except.ok.inj (hF.symm.trans hF')
  obtain rfl : Pr = Pr' := Except.ok.inj (hPr.symm.trans hPr')
  obtain ⟨c, Lf, hid⟩ := denoise_identifiable hn data.vals σ hpos (lmda * mu) (by positivity)
    (⟨F, Pr.toPrior, ⟨lmda, δ, mu, 1, 1, (0 : ℕ), (0 : ℕ), false, 0, ["chain"]⟩, n⟩ : Sampler n) hl hδ hstep
  have hns : NoiseStream R false n P r (normalLaw n) := C99_normal_noise R P r hr
  have hν : IsProbabilityMeasure (normalLaw n) := by
    rw [← hns.law 0]
    exact Measure.isProbabilityMeasure_map (hns.meas 0).aemeasurable
  obtain ⟨D, hD⟩ := C125_accuracy R (tot ⟨lmda, δ, mu, 1, 1, (0 : ℕ), (0 : ℕ), false, 0, ["chain"]⟩ hl.ne') hid P r (normalLaw n) hns
    C114_normal_noise π (hst _ rfl rfl rfl) x0
  have hlim : Tendsto (fun N : ℕ => n * (1 ^ 2 * D / (N * (ε / 2) ^ 2))) atTop (𝓝 0) := by
    have := (tendsto_const_div_atTop_nhds_zero_nat (1 ^ 2 * D / (ε / 2) ^ 2)).const_mul (n : ℝ)
    rw [mul_zero] at this
    refine this.congr fun N => ?_
    rw [div_div, mul_comm ((ε / 2) ^ 2)]
  obtain ⟨N0, hN0⟩ := eventually_atTop.mp (hlim.eventually (gt_mem_nhds hη))
  refine ⟨max N0 1, fun par b g hN hb hg hc hl' hd' hm' hv hch => ?_⟩
  obtain ⟨lm, de, mu', sk, ns, nb, ng, cp, vb, tr⟩ := par
  simp only at hN hb hg hc hl' hd' hm' hv hch
  subst hb hg hc hl' hd' hm'
  have totp := tot ⟨lm, de, mu', sk, ns, b, g, false, vb, tr⟩ hl.ne'
  have hrun := fun ω : Ω => myula_returns_rows R totp b g rfl rfl hv hch (r ω) x0
  choose fuel st rows h1 h2 using hrun
  have hns0 : 0 < ns := (le_max_right N0 1).trans hN
  have hNN := hN0 ns ((le_max_left _ _).trans hN)
  have e : ∀ q : (Fin n → ℂ) → ℝ, (fun z : Fin n → ℂ => q fun i => store false (z i)) = fun z => q fun i => ((z i).re : ℂ) :=
    fun _ => rfl
  have hone : ∀ q : (Fin n → ℂ) → ℝ, (∀ x y, |q x - q y| ≤ √(Spec.distSq x y)) →
      P.real {ω | ε < |(∑ k, q (rows ω k)) / ns -
        postMean realVec (fun x => (∑ i, ‖data.vals i - x i‖ ^ 2 / σ i ^ 2) / 2 + mu' * ∑ i, ‖x i‖) q|} ≤
        1 ^ 2 * D / (ns * (ε / 2) ^ 2) := by
    intro q hq
    have h3 := (hD ns b g vb tr (initArrays ⟨F, Pr.toPrior, ⟨lm, de, mu', sk, ns, b, g, false, vb, tr⟩, n⟩) hns0 (initArrays_shaped _)
      fuel st (fun ω => h1 ω _ le_rfl) rows h2 q 1 zero_le_one (fun x y => by rw [one_mul]; exact hq x y)).2.2 (ε / 2) (half_pos hε)
    refine le_trans (measureReal_mono fun ω hω => ?_) h3
    rw [Set.mem_ofPred_eq] at hω ⊢
    have h5 := hclose q hq
    rw [← e] at h5
    have h6 := abs_sub_le ((∑ k, q (rows ω k)) / ns) (∫ z, q (fun i => store false (z i)) ∂π)
      (postMean realVec (fun x => (∑ i, ‖data.vals i - x i‖ ^ 2 / σ i ^ 2) / 2 + mu' * ∑ i, ‖x i‖) q)
    linarith
  have hDpos : 0 ≤ 1 ^ 2 * D / (ns * (ε / 2) ^ 2) := measureReal_nonneg.trans (hone (fun _ => 0) fun x y => by simp)
  refine ⟨F, Pr, ⟨F, Pr.toPrior, ⟨lm, de, mu', sk, ns, b, g, false, vb, tr⟩, n⟩, initArrays _, rows, hF, hPr, by simp [samplerInit, hnp],
    fun ω => ⟨_, _, h1 ω, h2 ω⟩, fun q hq => ?_, ?_⟩
  · refine (hone q hq).trans (le_trans ?_ hNN.le)
    have : (1 : ℝ) ≤ n := by exact_mod_cast hn
    nlinarith
  · have hcoord : ∀ i : Fin n, ∀ x y : Fin n → ℂ, |(x i).re - (y i).re| ≤ √(Spec.distSq x y) := by
      intro i x y
      rw [← Complex.sub_re]
      refine (Complex.abs_re_le_norm _).trans (Real.le_sqrt_of_sq_le ?_)
      exact Finset.single_le_sum (f := fun i => ‖x i - y i‖ ^ 2) (fun i _ => by positivity) (Finset.mem_univ i)
    rw [Set.ofPred_exists]
    refine (measureReal_iUnion_fintype_le _).trans ((Finset.sum_le_sum fun i _ => hone (fun x => (x i).re) (hcoord i)).trans ?_)
    rw [Finset.sum_const, Finset.card_univ, Fintype.card_fin, nsmul_eq_mul]
    exact hNN.le

/-- The hypotheses of `C125_accuracy` are met: soft thresholding, `Q = 1`, real standard normals, runs of every length. -/
example : ∃ (M : Sampler 1) (prox : (Fin 1 → ℂ) → (Fin 1 → ℂ)) (pri g : (Fin 1 → ℂ) → ℝ) (π : Measure (Fin 1 → ℂ)),
    Total M 1 (fun x => x) (fun y => y) prox pri ∧ Identifiable M (fun x : Fin 1 → ℂ => x) (fun y => y) prox g 1 1 1 ∧
    NoiseStream streamRng M.par.complex 1 (Measure.infinitePi fun _ : ℕ => gaussianReal 0 1) (fun ω => ω) (normalLaw 1) ∧
    ∫⁻ w, ‖w‖ₑ ^ 2 ∂(normalLaw 1) ≠ ⊤ ∧ IsProbabilityMeasure π ∧ StationaryLaw M streamRng (normalLaw 1) π ∧
    ∃ (A : Arrays) (fuel : (ℕ → ℝ) → ℕ) (st : (ℕ → ℝ) → St streamRng) (rows : (ℕ → ℝ) → Fin 7 → Fin 1 → ℂ), A.Shaped 7 ∧
      (∀ ω, myulaRun (M.resched 7 (3 : ℕ) (2 : ℕ) 0 ["chain"]) streamRng A ω (.array1 (List.ofFn fun _ : Fin 1 => 5)) (fuel ω) =
        .ok (some (st ω))) ∧
      ∀ ω, (A.applyAll (st ω).ev).chain = some (List.ofFn fun k : Fin 7 => List.ofFn (rows ω k)) := by
  obtain ⟨M, prox, pri, g, π, h1, h2, -, h4, h5, h6, A, fuel, st, rows, h7, h8, h9⟩ := averages_demo
  exact ⟨M, prox, pri, g, π, h1, h2, h4, C114_normal_noise, h5, h6, A 7, fuel 7, st 7, rows 7, h7 7, h8 7, h9 7⟩

/-- The hypotheses of `C125_denoising` are met for two pixels, and so are those on the parameters, for every number of samples. -/
example (N : ℕ) : ∃ (data : DataVec 2) (sig : SigD) (σ : Fin 2 → ℝ) (par : Params), data.cplx = false ∧ (∀ i, (data.vals i).im = 0) ∧
    IsSigma 2 sig σ ∧ NormalStream (vecRng 2) 2 (Measure.infinitePi fun _ : ℕ => Measure.pi fun _ : Fin 2 => gaussianReal 0 1)
      (fun ω => ω) ∧ N ≤ par.nsamples ∧ par.nburn = (3 : ℕ) ∧ par.ngap = (2 : ℕ) ∧ par.complex = false ∧ par.verbosity ≤ 0 ∧
      "chain" ∈ par.track :=
  ⟨⟨false, fun _ => 3⟩, .num ((1 / 10 : ℝ) : ℂ) false, fun _ => 1 / 10, ⟨1, 1, 1, 1, N, (3 : ℕ), (2 : ℕ), false, 0, ["chain"]⟩, rfl,
    fun i => by simp, .scalar _ (by norm_num), vecRng_normal, le_rfl, rfl, rfl, rfl, le_rfl, by simp⟩

end Pxmcmc
