import Verif.Props.PosteriorBias

/-! # Property C122: what burn-in achieves for MYULA -/

namespace Pxmcmc
open MeasureTheory ProbabilityTheory Filter
open scoped ENNReal Topology
variable {n p : ℕ} {M : Sampler n} {fwd : (Fin p → ℂ) → (Fin n → ℂ)} {grad : (Fin n → ℂ) → (Fin p → ℂ)}
  {prox : (Fin p → ℂ) → (Fin p → ℂ)} {pri g : (Fin p → ℂ) → ℝ} {Q : Matrix (Fin p) (Fin p) ℂ} {c Lf : ℝ}

/-- One state of the chain: the mean of a Lipschitz quantity, and that it exists. -/
theorem burn_in_state (R : Rng) (tot : Total M p fwd grad prox pri) (h : Identifiable M fwd grad prox g Q c Lf)
    {Ω : Type} [MeasurableSpace Ω] (P : Measure Ω) [IsProbabilityMeasure P] (r : Ω → R.σ) (ν : Measure (Fin p → ℂ))
    (hs : NoiseStream R M.par.complex p P r ν) (hsq : ∫⁻ w, ‖w‖ₑ ^ 2 ∂ν ≠ ⊤) (π : Measure (Fin p → ℂ)) [IsProbabilityMeasure π]
    (hπ : StationaryLaw M R ν π) (x0 : Fin p → ℂ) (q : (Fin p → ℂ) → ℝ) (L : ℝ) (hL0 : 0 ≤ L)
    (hL : ∀ x y, |q x - q y| ≤ L * √(Spec.distSq x y)) (j : ℕ) :
    Integrable (fun ω => q fun i => store M.par.complex (fwState (ulaStep M.par.delta (gradVec M.par.lmda fwd grad prox)) x0
      (fun k => noiseSeq R M.par.complex p (r ω) k) j i)) P ∧
    |∫ ω, q (fun i => store M.par.complex (fwState (ulaStep M.par.delta (gradVec M.par.lmda fwd grad prox)) x0
      (fun k => noiseSeq R M.par.complex p (r ω) k) j i)) ∂P - ∫ z, q (fun i => store M.par.complex (z i)) ∂π| ≤
      L * momBound ν (ulaStep M.par.delta (gradVec M.par.lmda fwd grad prox)) (fun x y => √(Spec.distSq x y)) (1 - M.par.delta * c) x0 *
        (1 - M.par.delta * c) ^ j := by
  have hν : IsProbabilityMeasure ν := by
    rw [← hs.law 0]
    exact Measure.isProbabilityMeasure_map (hs.meas 0).aemeasurable
  have hLq : ∀ x y : Fin p → ℂ, |q (fun i => store M.par.complex (x i)) - q (fun i => store M.par.complex (y i))| ≤
      L * √(Spec.distSq x y) := by
    intro x y
    exact (hL _ _).trans (mul_le_mul_of_nonneg_left (Real.sqrt_le_sqrt (distSq_store _ x y)) hL0)
  have hcont : Continuous fun z : Fin p → ℂ => q (fun i => store M.par.complex (z i)) := by
    refine (LipschitzWith.of_dist_le_mul (K := NNReal.mk (L * √p) (by positivity)) fun x y => ?_).continuous
    rw [Real.dist_eq]
    refine (hLq x y).trans ?_
    calc L * √(Spec.distSq x y) ≤ L * (√p * dist x y) := mul_le_mul_of_nonneg_left (sqrt_distSq_le_dist x y) hL0
      _ = _ := by rw [← mul_assoc]; rfl
  have hsc := myula_squareContraction h ν hs.finite hsq x0
  have hV : Driven P (fun k ω => noiseSeq R M.par.complex p (r ω) k) ν := ⟨hs.meas, hs.indep, hs.law⟩
  refine ⟨(hsc.obs_int hV _ hcont L hLq j).integrable one_le_two, ?_⟩
  exact (hsc.bias hV π ((stationary_iff R tot h P r ν hs π).mp hπ) _ hcont L hL0 hLq j).2

theorem burn_in_stationary (R : Rng) (tot : Total M p fwd grad prox pri) (h : Identifiable M fwd grad prox g Q c Lf)
    {Ω : Type} [MeasurableSpace Ω] (P : Measure Ω) [IsProbabilityMeasure P] (r : Ω → R.σ) (ν : Measure (Fin p → ℂ))
    (hs : NoiseStream R M.par.complex p P r ν) (hsq : ∫⁻ w, ‖w‖ₑ ^ 2 ∂ν ≠ ⊤) (π : Measure (Fin p → ℂ)) [IsProbabilityMeasure π]
    (hπ : StationaryLaw M R ν π) (q : (Fin p → ℂ) → ℝ) (L : ℝ) (hL0 : 0 ≤ L)
    (hL : ∀ x y, |q x - q y| ≤ L * √(Spec.distSq x y)) : Integrable (fun z => q fun i => store M.par.complex (z i)) π := by
  have hν : IsProbabilityMeasure ν := by
    rw [← hs.law 0]
    exact Measure.isProbabilityMeasure_map (hs.meas 0).aemeasurable
  have hLq : ∀ x y : Fin p → ℂ, |q (fun i => store M.par.complex (x i)) - q (fun i => store M.par.complex (y i))| ≤
      L * √(Spec.distSq x y) := by
    intro x y
    exact (hL _ _).trans (mul_le_mul_of_nonneg_left (Real.sqrt_le_sqrt (distSq_store _ x y)) hL0)
  have hcont : Continuous fun z : Fin p → ℂ => q (fun i => store M.par.complex (z i)) := by
    refine (LipschitzWith.of_dist_le_mul (K := NNReal.mk (L * √p) (by positivity)) fun x y => ?_).continuous
    rw [Real.dist_eq]
    refine (hLq x y).trans ?_
    calc L * √(Spec.distSq x y) ≤ L * (√p * dist x y) := mul_le_mul_of_nonneg_left (sqrt_distSq_le_dist x y) hL0
      _ = _ := by rw [← mul_assoc]; rfl
  have hV : Driven P (fun k ω => noiseSeq R M.par.complex p (r ω) k) ν := ⟨hs.meas, hs.indep, hs.law⟩
  exact ((myula_squareContraction h ν hs.finite hsq 0).bias hV π ((stationary_iff R tot h P r ν hs π).mp hπ) _ hcont L hL0 hLq 0).1

/-- C122: burn-in works, at a geometric rate.  Take MYULA runs from a fixed start array with independent noise vectors of finite second
moment, for a data term that determines the parameters, and let `π` be the stationary law.  There is a number `D`, which depends neither
on the lengths of burn-in, thinning and chain nor on the quantity looked at, such that for every quantity `q` with Lipschitz constant `L`
the expectation of `q` over row `k` of the `chain` array differs from the one under `π` by at most
`L * D * (1 - delta * c) ^ (nburn + k * max ngap 1 + 1)`, and the expectation of the average over the rows by at most
`L * D * (1 - delta * c) ^ (nburn + 1)`. -/
theorem C122_burn_in (R : Rng) (tot : Total M p fwd grad prox pri) (h : Identifiable M fwd grad prox g Q c Lf)
    {Ω : Type} [MeasurableSpace Ω] (P : Measure Ω) [IsProbabilityMeasure P] (r : Ω → R.σ) (ν : Measure (Fin p → ℂ))
    (hs : NoiseStream R M.par.complex p P r ν) (hsq : ∫⁻ w, ‖w‖ₑ ^ 2 ∂ν ≠ ⊤) (π : Measure (Fin p → ℂ)) [IsProbabilityMeasure π]
    (hπ : StationaryLaw M R ν π) (x0 : Fin p → ℂ) :
    ∃ D : ℝ, ∀ (N b gap : ℕ) (v : ℤ) (track : List String) (A : Arrays), A.Shaped N → ∀ (fuel : Ω → ℕ) (st : Ω → St R),
      (∀ ω, myulaRun (M.resched N b gap v track) R A (r ω) (.array1 (List.ofFn x0)) (fuel ω) = .ok (some (st ω))) →
      ∀ rows : Ω → Fin N → Fin p → ℂ,
      (∀ ω, (A.applyAll (st ω).ev).chain = some (List.ofFn fun k : Fin N => List.ofFn (rows ω k))) →
      ∀ (q : (Fin p → ℂ) → ℝ) (L : ℝ), 0 ≤ L → (∀ x y, |q x - q y| ≤ L * √(Spec.distSq x y)) →
      Integrable (fun z => q fun i => store M.par.complex (z i)) π ∧
      (∀ k, Integrable (fun ω => q (rows ω k)) P ∧ |∫ ω, q (rows ω k) ∂P - ∫ z, q (fun i => store M.par.complex (z i)) ∂π| ≤
        L * D * (1 - M.par.delta * c) ^ (b + k * max gap 1 + 1)) ∧
      (0 < N → |∫ ω, (∑ k, q (rows ω k)) / N ∂P - ∫ z, q (fun i => store M.par.complex (z i)) ∂π| ≤
        L * D * (1 - M.par.delta * c) ^ (b + 1)) := by
  have hν : IsProbabilityMeasure ν := by
    rw [← hs.law 0]
    exact Measure.isProbabilityMeasure_map (hs.meas 0).aemeasurable
  have hsc := myula_squareContraction h ν hs.finite hsq x0
  set D := momBound ν (ulaStep M.par.delta (gradVec M.par.lmda fwd grad prox)) (fun x y => √(Spec.distSq x y)) (1 - M.par.delta * c) x0
    with hD
  have hD0 : 1 ≤ D := momBound_pos
  refine ⟨D, fun N b gap v track A hA fuel st hrun rows hrows q L hL0 hL => ?_⟩
  have tot' : Total (M.resched N b gap v track) p fwd grad prox pri :=
    ⟨tot.nparams, tot.forward, tot.gradg, tot.proxf, tot.prior, tot.lmda⟩
  have hrow : ∀ k : Fin N, (fun ω => q (rows ω k)) = fun ω => q fun i => store M.par.complex
      (fwState (ulaStep M.par.delta (gradVec M.par.lmda fwd grad prox)) x0
      (fun k => noiseSeq R M.par.complex p (r ω) k) (b + k * max gap 1 + 1) i) := by
    intro k
    funext ω
    rw [myula_chain_rows (M := M.resched N b gap v track) R tot' A hA b gap rfl rfl (r ω) x0 (fuel ω) (st ω) (hrun ω)
      (rows ω) (hrows ω) k]
    rfl
  have hst := fun k : Fin N => burn_in_state R tot h P r ν hs hsq π hπ x0 q L hL0 hL (b + k * max gap 1 + 1)
  have hint : ∀ k : Fin N, Integrable (fun ω => q (rows ω k)) P := fun k => by rw [hrow k]; exact (hst k).1
  have hb : ∀ k : Fin N, |∫ ω, q (rows ω k) ∂P - ∫ z, q (fun i => store M.par.complex (z i)) ∂π| ≤
      L * D * (1 - M.par.delta * c) ^ (b + k * max gap 1 + 1) := fun k => by rw [hrow k]; exact (hst k).2
  refine ⟨burn_in_stationary R tot h P r ν hs hsq π hπ q L hL0 hL, fun k => ⟨hint k, hb k⟩, fun hN => ?_⟩
  have hN' : (0 : ℝ) < N := by exact_mod_cast hN
  rw [integral_div, integral_finsetSum _ fun k _ => hint k]
  have e : (∑ k : Fin N, ∫ ω, q (rows ω k) ∂P) / N - ∫ z, q (fun i => store M.par.complex (z i)) ∂π =
      (∑ k : Fin N, (∫ ω, q (rows ω k) ∂P - ∫ z, q (fun i => store M.par.complex (z i)) ∂π)) / N := by
    rw [Finset.sum_sub_distrib, Finset.sum_const, Finset.card_univ, Fintype.card_fin, nsmul_eq_mul]
    field_simp
  rw [e, abs_div, abs_of_pos hN', div_le_iff₀ hN']
  refine (Finset.abs_sum_le_sum_abs _ _).trans ?_
  have hle : ∀ k ∈ (Finset.univ : Finset (Fin N)), |∫ ω, q (rows ω k) ∂P - ∫ z, q (fun i => store M.par.complex (z i)) ∂π| ≤
      L * D * (1 - M.par.delta * c) ^ (b + 1) := by
    intro k _
    refine (hb k).trans (mul_le_mul_of_nonneg_left ?_ (mul_nonneg hL0 (by linarith)))
    exact pow_le_pow_of_le_one hsc.nonneg hsc.lt_one.le (by omega)
  refine (Finset.sum_le_sum hle).trans (le_of_eq ?_)
  rw [Finset.sum_const, Finset.card_univ, Fintype.card_fin, nsmul_eq_mul]
  ring

/-- The limit law of the denoising chain is within `ε` of the posterior. -/
theorem denoise_law_close (hn : 0 < n) (data : DataVec n) (hd : data.cplx = false) (hdr : ∀ i, (data.vals i).im = 0) (sig : SigD)
    (σ : Fin n → ℝ) (hσ : IsSigma n sig σ) (s : String) (hs : s = "analysis" ∨ s = "synthesis") (mu : ℝ) (hmu : 0 ≤ mu)
    (R : Rng) {Ω : Type} [MeasurableSpace Ω] (P : Measure Ω) [IsProbabilityMeasure P] (r : Ω → R.σ) (hr : NormalStream R n P r)
    (ε : ℝ) (hε : 0 < ε) :
    ∃ lmda0, 0 < lmda0 ∧ ∀ lmda, 0 < lmda → lmda < lmda0 → ∃ delta0, 0 < delta0 ∧ ∀ delta, 0 < delta → delta < delta0 →
      (∀ i j, delta * (1 / lmda + 1 / σ i ^ 2 + 1 / σ j ^ 2) ≤ 2) ∧
      ∃ (F : ForwardOp n) (Pr : L1 ℂ) (π : Measure (Fin n → ℂ)),
      ForwardOp.init data sig s (some identityTransform) (some (identityMeasurement n n)) (some n) = .ok F ∧
      L1.init s identityTransform.op identityTransform.adj (.scalar (lmda * mu)) = .ok Pr ∧
      IsProbabilityMeasure π ∧
      (∀ par : Params, par.lmda = lmda → par.delta = delta → par.complex = false →
        StationaryLaw (⟨F, Pr.toPrior, par, n⟩ : Sampler n) R (normalLaw n) π) ∧
      ∀ q : (Fin n → ℂ) → ℝ, (∀ x y, |q x - q y| ≤ √(Spec.distSq x y)) →
        |∫ z, q (fun i => ((z i).re : ℂ)) ∂π -
          postMean realVec (fun x => (∑ i, ‖data.vals i - x i‖ ^ 2 / σ i ^ 2) / 2 + mu * ∑ i, ‖x i‖) q| ≤ ε := by
  have hpos : ∀ i, 0 < σ i := by
    cases hσ with
    | scalar s hs => intro _; exact hs
    | vector s hs => exact hs
  have hne : (Finset.univ : Finset (Fin n)).Nonempty := ⟨⟨0, hn⟩, Finset.mem_univ _⟩
  obtain ⟨i1, -, hi1⟩ := Finset.exists_max_image Finset.univ (fun i => 1 / σ i ^ 2) hne
  obtain ⟨lmda0, hl0, H⟩ := C120_denoising hn data hd hdr sig σ hσ s hs mu hmu ⟨1, 1, 1, 1, 1, (0 : ℕ), (0 : ℕ), false, 0, ["chain"]⟩
    0 0 rfl rfl rfl (.inl le_rfl) (by simp) R P r hr 0 ε hε
  refine ⟨lmda0, hl0, fun lmda hl hlt => ?_⟩
  obtain ⟨delta0, hd0, H⟩ := H lmda hl hlt
  set S := 1 / lmda + 1 / σ i1 ^ 2 + 1 / σ i1 ^ 2 with hS
  have hS0 : 0 < S := by
    have := hpos i1
    positivity
  refine ⟨min delta0 (2 / S), lt_min hd0 (by positivity), fun δ hδ hδlt => ?_⟩
  obtain ⟨F, Pr, M, A, rows, hF, hPr, hM, hrun, H⟩ := H δ hδ (hδlt.trans_le (min_le_left _ _))
  have hstep : ∀ i j, δ * (1 / lmda + 1 / σ i ^ 2 + 1 / σ j ^ 2) ≤ 2 := by
    intro i j
    have h1 := hδlt.le.trans (min_le_right delta0 (2 / S))
    rw [le_div_iff₀ hS0] at h1
    refine le_trans (mul_le_mul_of_nonneg_left ?_ hδ.le) h1
    have := hi1 i (Finset.mem_univ _)
    have := hi1 j (Finset.mem_univ _)
    linarith
  refine ⟨hstep, ?_⟩
  obtain ⟨F', Pr', M', A', rows', π, hF', hPr', hM', hrun', hπ, hst, havg, -⟩ := C116_denoising hn data hd sig σ hσ s hs (lmda * mu)
    (by positivity) ⟨lmda, δ, mu, 1, 1, (0 : ℕ), (0 : ℕ), false, 0, ["chain"]⟩ 0 0 rfl rfl rfl hl hδ hstep (.inl le_rfl) (by simp) R P r hr 0
  obtain rfl : F = F' := Except.ok.inj (hF.symm.trans hF')
  obtain rfl : Pr = Pr' := Except.ok.inj (hPr.symm.trans hPr')
  have hMA : ∀ N, M N = M' N ∧ A N = A' N := by
    intro N
    have h1 := Except.ok.inj ((hM N).symm.trans (hM' N))
    exact Prod.mk.inj h1
  obtain rfl : M = M' := funext fun N => (hMA N).1
  obtain rfl : A = A' := funext fun N => (hMA N).2
  have hrr : rows = rows' := by
    funext N ω k
    obtain ⟨f1, s1, h1, h2⟩ := hrun N ω
    obtain ⟨f2, s2, h3, h4⟩ := hrun' N ω
    have e := (h1 (max f1 f2) (le_max_left _ _)).symm.trans (h3 (max f1 f2) (le_max_right _ _))
    obtain rfl : s1 = s2 := Option.some.inj (Except.ok.inj e)
    rw [h2] at h4
    have e2 := List.ofFn_injective (Option.some.inj h4)
    exact List.ofFn_injective (congrFun e2 k)
  obtain rfl := hrr
  obtain ⟨F', P0, hF', -, -, -, hnp, -⟩ := denoise_total data hd sig σ hσ s hs 0
  obtain rfl : F = F' := Except.ok.inj (hF.symm.trans hF')
  refine ⟨F, Pr, π, hF, hPr, hπ, fun par h1 h2 h3 => ?_, fun q hq => ?_⟩
  · have hM0 := hM 0
    simp only [samplerInit, hnp, Except.ok.injEq, Prod.mk.injEq] at hM0
    have hs0 := (hst 0).1
    rw [← hM0.1] at hs0
    obtain ⟨lm, de, mu', sk, ns, nb, ng, cp, vb, tr⟩ := par
    simp only at h1 h2 h3
    subst h1 h2 h3
    exact hs0
  · obtain ⟨lim, h1, h2⟩ := H q hq
    have h3 := (havg q 1 (by simpa using hq)).2
    obtain ⟨ω, h4, h5⟩ := (h1.and h3).exists
    rwa [tendsto_nhds_unique h4 h5] at h2

/-- C122 in the denoising set-up, with the posterior as the reference: for every `ε` there are a `lmda0`, for each `lmda < lmda0` a
`delta0`, and for each `delta < delta0` a number of burn-in iterations from which on, whatever the other parameters, every run returns
and the expectation over row `k` of its `chain` array of every quantity with Lipschitz constant 1 is within `ε` of its posterior
expectation, for every `k`. -/
theorem C122_denoising (hn : 0 < n) (data : DataVec n) (hd : data.cplx = false) (hdr : ∀ i, (data.vals i).im = 0) (sig : SigD)
    (σ : Fin n → ℝ) (hσ : IsSigma n sig σ) (s : String) (hs : s = "analysis" ∨ s = "synthesis") (mu : ℝ) (hmu : 0 ≤ mu)
    (R : Rng) {Ω : Type} [MeasurableSpace Ω] (P : Measure Ω) [IsProbabilityMeasure P] (r : Ω → R.σ) (hr : NormalStream R n P r)
    (x0 : Fin n → ℂ) (ε : ℝ) (hε : 0 < ε) :
    ∃ lmda0, 0 < lmda0 ∧ ∀ lmda, 0 < lmda → lmda < lmda0 → ∃ delta0, 0 < delta0 ∧ ∀ delta, 0 < delta → delta < delta0 →
      ∃ b0 : ℕ, ∀ (par : Params) (b g : ℕ), b0 ≤ b → par.nburn = b → par.ngap = g → par.complex = false → par.lmda = lmda →
      par.delta = delta → par.mu = mu →
      (par.verbosity ≤ 0 ∨ ("logposterior" ∈ par.track ∧ "L2" ∈ par.track ∧ "prior" ∈ par.track)) → "chain" ∈ par.track →
      ∃ (F : ForwardOp n) (Pr : L1 ℂ) (M : Sampler n) (A : Arrays) (rows : Ω → Fin par.nsamples → Fin n → ℂ),
      ForwardOp.init data sig s (some identityTransform) (some (identityMeasurement n n)) (some n) = .ok F ∧
      L1.init s identityTransform.op identityTransform.adj (.scalar (lmda * mu)) = .ok Pr ∧
      samplerInit F Pr.toPrior par = .ok (M, A) ∧
      (∀ ω, ∃ fuel0 st, (∀ fuel ≥ fuel0, myulaRun M R A (r ω) (.array1 (List.ofFn x0)) fuel = .ok (some st)) ∧
        (A.applyAll st.ev).chain = some (List.ofFn fun k => List.ofFn (rows ω k))) ∧
      ∀ q : (Fin n → ℂ) → ℝ, (∀ x y, |q x - q y| ≤ √(Spec.distSq x y)) → ∀ k, Integrable (fun ω => q (rows ω k)) P ∧
        |∫ ω, q (rows ω k) ∂P - postMean realVec (fun x => (∑ i, ‖data.vals i - x i‖ ^ 2 / σ i ^ 2) / 2 + mu * ∑ i, ‖x i‖) q| ≤ ε := by
  have hpos : ∀ i, 0 < σ i := by
    cases hσ with
    | scalar s hs => intro _; exact hs
    | vector s hs => exact hs
  obtain ⟨lmda0, hl0, H⟩ := denoise_law_close hn data hd hdr sig σ hσ s hs mu hmu R P r hr (ε / 2) (half_pos hε)
  refine ⟨lmda0, hl0, fun lmda hl hlt => ?_⟩
  obtain ⟨delta0, hd0, H⟩ := H lmda hl hlt
  refine ⟨delta0, hd0, fun δ hδ hδlt => ?_⟩
  obtain ⟨hstep, F, Pr, π, hF, hPr, hπ, hst, hclose⟩ := H δ hδ hδlt
  obtain ⟨F', Pr', hF', hPr', -, -, hnp, tot⟩ := denoise_total data hd sig σ hσ s hs (lmda * mu)
  obtain rfl : F = F' := Except.ok.inj (hF.symm.trans hF')
  obtain rfl : Pr = Pr' := Except.ok.inj (hPr.symm.trans hPr')
  obtain ⟨c, Lf, hid⟩ := denoise_identifiable hn data.vals σ hpos (lmda * mu) (by positivity)
    (⟨F, Pr.toPrior, ⟨lmda, δ, mu, 1, 1, (0 : ℕ), (0 : ℕ), false, 0, ["chain"]⟩, n⟩ : Sampler n) hl hδ hstep
  have hns : NoiseStream R false n P r (normalLaw n) := C99_normal_noise R P r hr
  have hν : IsProbabilityMeasure (normalLaw n) := by
    rw [← hns.law 0]
    exact Measure.isProbabilityMeasure_map (hns.meas 0).aemeasurable
  have hsc := myula_squareContraction hid (normalLaw n) hns.finite C114_normal_noise x0
  obtain ⟨D, hD⟩ := C122_burn_in R (tot ⟨lmda, δ, mu, 1, 1, (0 : ℕ), (0 : ℕ), false, 0, ["chain"]⟩ hl.ne') hid P r (normalLaw n) hns
    C114_normal_noise π (hst _ rfl rfl rfl) x0
  have hlim : Tendsto (fun j : ℕ => 1 * D * (1 - δ * c) ^ j) atTop (𝓝 0) := by
    have := (tendsto_pow_atTop_nhds_zero_of_lt_one hsc.nonneg hsc.lt_one).const_mul (1 * D)
    simpa using this
  obtain ⟨b0, hb0⟩ := eventually_atTop.mp (hlim.eventually (gt_mem_nhds (half_pos hε)))
  refine ⟨b0, fun par b g hbb hb hg hc hl' hd' hm' hv hch => ?_⟩
  obtain ⟨lm, de, mu', sk, ns, nb, ng, cp, vb, tr⟩ := par
  simp only at hb hg hc hl' hd' hm' hv hch
  subst hb hg hc hl' hd' hm'
  have totp := tot ⟨lm, de, mu', sk, ns, b, g, false, vb, tr⟩ hl.ne'
  have hrun := fun ω : Ω => myula_returns_rows R totp b g rfl rfl hv hch (r ω) x0
  choose fuel st rows h1 h2 using hrun
  refine ⟨F, Pr, ⟨F, Pr.toPrior, ⟨lm, de, mu', sk, ns, b, g, false, vb, tr⟩, n⟩, initArrays _, rows, hF, hPr, by simp [samplerInit, hnp],
    fun ω => ⟨_, _, h1 ω, h2 ω⟩, fun q hq k => ?_⟩
  have h3 := (hD ns b g vb tr (initArrays ⟨F, Pr.toPrior, ⟨lm, de, mu', sk, ns, b, g, false, vb, tr⟩, n⟩) (initArrays_shaped _) fuel st
    (fun ω => h1 ω _ le_rfl) rows h2 q 1 zero_le_one (fun x y => by rw [one_mul]; exact hq x y)).2.1 k
  have h4 := hb0 (b + k * max g 1 + 1) (by omega)
  have h5 := hclose q hq
  have e : (fun z : Fin n → ℂ => q fun i => store false (z i)) = fun z => q fun i => ((z i).re : ℂ) := rfl
  rw [e] at h3
  refine ⟨h3.1, (abs_sub_le _ _ _).trans ((add_le_add (h3.2.trans h4.le) h5).trans (le_of_eq (add_halves ε)))⟩

/-- The hypotheses of `C122_burn_in` are met: soft thresholding, `Q = 1`, real standard normals, runs of every length. -/
example : ∃ (M : Sampler 1) (prox : (Fin 1 → ℂ) → (Fin 1 → ℂ)) (pri g : (Fin 1 → ℂ) → ℝ) (π : Measure (Fin 1 → ℂ)),
    Total M 1 (fun x => x) (fun y => y) prox pri ∧ Identifiable M (fun x : Fin 1 → ℂ => x) (fun y => y) prox g 1 1 1 ∧
    NoiseStream streamRng M.par.complex 1 (Measure.infinitePi fun _ : ℕ => gaussianReal 0 1) (fun ω => ω) (normalLaw 1) ∧
    ∫⁻ w, ‖w‖ₑ ^ 2 ∂(normalLaw 1) ≠ ⊤ ∧ IsProbabilityMeasure π ∧ StationaryLaw M streamRng (normalLaw 1) π ∧
    ∃ (A : Arrays) (fuel : (ℕ → ℝ) → ℕ) (st : (ℕ → ℝ) → St streamRng) (rows : (ℕ → ℝ) → Fin 7 → Fin 1 → ℂ), A.Shaped 7 ∧
      (∀ ω, myulaRun (M.resched 7 (3 : ℕ) (2 : ℕ) 0 ["chain"]) streamRng A ω (.array1 (List.ofFn fun _ : Fin 1 => 5)) (fuel ω) =
        .ok (some (st ω))) ∧
      ∀ ω, (A.applyAll (st ω).ev).chain = some (List.ofFn fun k : Fin 7 => List.ofFn (rows ω k)) := by
  obtain ⟨M, prox, pri, g, π, h1, h2, -, h4, h5, h6, A, fuel, st, rows, h7, h8, h9⟩ := averages_demo
  exact ⟨M, prox, pri, g, π, h1, h2, h4, C114_normal_noise, h5, h6, A 7, fuel 7, st 7, rows 7, h7 7, h8 7, h9 7⟩

/-- The hypotheses of `C122_denoising` are met for two pixels, and so are those on the parameters, for every number of burn-in
iterations. -/
example (b : ℕ) : ∃ (data : DataVec 2) (sig : SigD) (σ : Fin 2 → ℝ) (par : Params), data.cplx = false ∧ (∀ i, (data.vals i).im = 0) ∧
    IsSigma 2 sig σ ∧ NormalStream (vecRng 2) 2 (Measure.infinitePi fun _ : ℕ => Measure.pi fun _ : Fin 2 => gaussianReal 0 1)
      (fun ω => ω) ∧ par.nburn = b ∧ par.complex = false ∧ par.verbosity ≤ 0 ∧ "chain" ∈ par.track :=
  ⟨⟨false, fun _ => 3⟩, .num ((1 / 10 : ℝ) : ℂ) false, fun _ => 1 / 10, ⟨1, 1, 1, 1, 7, b, 2, false, 0, ["chain"]⟩, rfl, fun i => by simp,
    .scalar _ (by norm_num), vecRng_normal, rfl, rfl, le_rfl, by simp⟩

end Pxmcmc
