import Verif.Props.CredibleLimit
import Verif.Props.MyulaFlat

/-! # Property C153: with an l1 prior, credible intervals of MYULA chains converge for every linear forward operator -/

namespace Pxmcmc
open MeasureTheory ProbabilityTheory Filter
open scoped ENNReal NNReal Topology
variable {n m p : ℕ} {M : Sampler n} {σ : Fin n → ℝ} {A : (Fin p → ℂ) →ₗ[ℂ] (Fin n → ℂ)} {At : (Fin n → ℂ) → (Fin p → ℂ)}
  {B : (Fin p → ℂ) →ₗ[ℂ] (Fin m → ℂ)} {Bt : (Fin m → ℂ) → (Fin p → ℂ)} {T : Fin m → ℝ}

/-- For every level and every real start, the widths that `credible_interval_range` returns for the chains saved by MYULA runs of every length
converge almost surely to the distances between the quantiles of `π`, and these quantiles are unique. -/
def IntervalsConverge (M : Sampler n) (R : Rng) {Ω : Type} [MeasurableSpace Ω] (P : Measure Ω) (r : Ω → R.σ)
    (π : Measure (Fin p → ℂ)) : Prop :=
  ∀ (i : Fin p) (alpha : ℝ), 0 < alpha → alpha < 2 → ∃ lo hi : ℝ,
    (∀ a : ℝ, π.real {z | (z i).re ≤ a} = alpha / 2 ↔ a = lo) ∧ (∀ a : ℝ, π.real {z | (z i).re ≤ a} = 1 - alpha / 2 ↔ a = hi) ∧
    ∀ x0 : Fin p → ℂ, (∀ i, (x0 i).im = 0) → ∀ (b gap : ℕ) (v : ℤ) (track : List String) (A : ℕ → Arrays), (∀ N, (A N).Shaped N) →
      ∀ (fuel : ℕ → Ω → ℕ) (st : ℕ → Ω → St R),
      (∀ N ω, myulaRun (M.resched N b gap v track) R (A N) (r ω) (.array1 (List.ofFn x0)) (fuel N ω) = .ok (some (st N ω))) →
      ∀ rows : (N : ℕ) → Ω → Fin N → Fin p → ℂ,
      (∀ N ω, ((A N).applyAll (st N ω).ev).chain = some (List.ofFn fun k : Fin N => List.ofFn (rows N ω k))) →
      ∀ᵐ ω ∂P, ∃ w : ℕ → ℝ, (∀ N : ℕ, 0 < N → ∃ ws, credibleIntervalRange (· ≤ ·)
        (⟨N, List.ofFn fun j : Fin p => List.ofFn fun k : Fin N => (rows N ω k j).re⟩ : SampleArr ℝ) alpha = .ok ws ∧
        ws[(i : ℕ)]? = some (w N)) ∧ Tendsto w atTop (𝓝 (hi - lo))

/-- C153 for real samplers: under the conditions of C126 (a `proxf` that thresholds the coefficients of `x` in a frame with positive
thresholds; a linear operator that may be far from injective; `delta*(1/lmda + Lf) < 2`) there is exactly one stationary law on the real
vectors, its parameters have unique quantiles, and the credible intervals of the saved chains converge to them almost surely. -/
theorem C153_real (h : ThresholdModel M.F M.P σ A At B Bt T) (hAr : ∀ x, (∀ i, (x i).im = 0) → ∀ i, (A x i).im = 0)
    (hBr : ∀ x, (∀ i, (x i).im = 0) → ∀ i, (B x i).im = 0) (hdr : ∀ i, (M.F.data.vals i).im = 0) (hn : M.nparams = p)
    (hreal : M.par.complex = false) (hl : 0 < M.par.lmda) (hδ : 0 < M.par.delta) (Lf : ℝ) (hL : 0 < Lf)
    (hup : ∀ v, misfit σ 0 (A v) ≤ Lf * Spec.distSq v 0) (hs : M.par.delta * (1 / M.par.lmda + Lf) < 2)
    (R : Rng) {Ω : Type} [MeasurableSpace Ω] (P : Measure Ω) [IsProbabilityMeasure P] (r : Ω → R.σ) (hr : NormalStream R p P r) :
    ∃ π : Measure (Fin p → ℂ), IsProbabilityMeasure π ∧ (∀ᵐ z ∂π, ∀ i, (z i).im = 0) ∧ StationaryLaw M R (normalLaw p) π ∧
      (∀ π' : Measure (Fin p → ℂ), IsProbabilityMeasure π' → (∀ᵐ z ∂π', ∀ i, (z i).im = 0) → StationaryLaw M R (normalLaw p) π' → π' = π) ∧
      IntervalsConverge M R P r π := by
  have := normalLaw_prob (p := p)
  obtain ⟨π, hπ, hS, hst, huniq, -, hav⟩ := C126_real h hAr hBr hdr hn hreal hl hδ Lf hL hup hs R P r hr
  refine ⟨π, hπ, hS, hst, huniq, fun i alpha h0 h2 => ?_⟩
  have hpx := h.prior
  choose pri hpri using hpx
  have tot : Total M p A (fun y => At (M.F.invcov.mulVec (y - M.F.data.vals)))
      (fun x => x + Bt ((fun j => softEntry (B x j) (T j)) - B x)) pri := ⟨hn, h.lin.fwd, h.lin.grad, h.proxf, hpri, hl.ne'⟩
  have hf := ulaStep_measurable M.par.delta (threshold_drift_continuous h.lin h.adj (fun j => (h.pos j).le) M.par.lmda)
  have hns : NoiseStream R M.par.complex p P r (normalLaw p) := by rw [hreal]; exact C99_normal_noise R P r hr
  have hfix := (stationary_iff_meas R tot hf P r _ hns π).mp hst
  have hno := coord_no_atom _ hδ _ hf π hfix i
  have hop := coord_open _ hδ _ hf π hfix i
  obtain ⟨lo, hlo, hlo'⟩ := unique_quantile π i hno hop (alpha / 2) (by linarith) (by linarith)
  obtain ⟨hi, hhi, hhi'⟩ := unique_quantile π i hno hop (1 - alpha / 2) (by linarith) (by linarith)
  refine ⟨lo, hi, fun a => ⟨hlo' a, fun e => e ▸ hlo⟩, fun a => ⟨hhi' a, fun e => e ▸ hhi⟩, ?_⟩
  intro x0 hx0 b gap v track Ar hAr' fuel st hrun rows hrows
  refine interval_converges P π i hno hop rows (fun s t hst => ?_) alpha lo hi h0 h2 hlo hhi
  have hre : Measurable fun z : Fin p → ℂ => (z i).re := by fun_prop
  have h3 := (hav x0 hx0 b gap v track Ar hAr' fuel st hrun rows hrows (fun x => ramp s t (x i).re) (1 / (t - s)) fun x y => ?_).1
  · filter_upwards [h3] with ω hω
    rw [integral_map hre.aemeasurable (ramp_continuous s t).aestronglyMeasurable]
    simp only [List.map_ofFn, List.sum_ofFn]
    simpa [hreal, store] using hω
  · refine (ramp_lipschitz hst _ _).trans ?_
    refine mul_le_mul_of_nonneg_left ?_ (one_div_pos.mpr (sub_pos.mpr hst)).le
    rw [← Complex.sub_re]
    refine (Complex.abs_re_le_norm _).trans (Real.le_sqrt_of_sq_le ?_)
    exact Finset.single_le_sum (f := fun i => ‖x i - y i‖ ^ 2) (fun i _ => sq_nonneg _) (Finset.mem_univ i)

/-- C153 from the constructors on, for path integrals: for every real path matrix `W` (there may be far fewer paths than pixels), every real
data vector, every threshold `t > 0` and every `lmda > 0` there is a `delta0` such that with every step size below it all constructors
succeed, runs of every length return all their rows, and the credible intervals of these rows converge. -/
theorem C153_path_integrals (W : Matrix (Fin n) (Fin p) ℂ) (hW : ∀ i j, (W i j).im = 0) (data : DataVec n) (hd : data.cplx = false)
    (hdr : ∀ i, (data.vals i).im = 0) (sig : SigD) (σ : Fin n → ℝ) (hσ : IsSigma n sig σ) (t : ℝ) (ht : 0 < t) (par : Params)
    (hl : 0 < par.lmda) (hreal : par.complex = false) :
    ∃ delta0, 0 < delta0 ∧ ∀ delta, 0 < delta → delta < delta0 → ∃ (F : ForwardOp n) (L : L1 ℂ) (M : Sampler n) (A : Arrays),
      ForwardOp.init data sig "synthesis" (some identityTransform) (some ⟨pathForward W, pathAdjoint W⟩) (some p) = .ok F ∧
      L1.init "synthesis" identityTransform.op identityTransform.adj (.scalar t) = .ok L ∧
      samplerInit F L.toPrior { par with delta := delta } = .ok (M, A) ∧
      (∀ (R : Rng) (r : R.σ) (x0 : Fin p → ℂ) (N b gap : ℕ) (track : List String), "chain" ∈ track →
        ∃ (fuel : ℕ) (st : St R) (rows : Fin N → Fin p → ℂ),
          myulaRun (M.resched N b gap 0 track) R (initArrays (M.resched N b gap 0 track)) r (.array1 (List.ofFn x0)) fuel = .ok (some st) ∧
          ((initArrays (M.resched N b gap 0 track)).applyAll st.ev).chain = some (List.ofFn fun k : Fin N => List.ofFn (rows k))) ∧
      ∀ (R : Rng) {Ω : Type} [MeasurableSpace Ω] (P : Measure Ω) [IsProbabilityMeasure P] (r : Ω → R.σ), NormalStream R p P r →
        ∃ π : Measure (Fin p → ℂ), IsProbabilityMeasure π ∧ (∀ᵐ z ∂π, ∀ i, (z i).im = 0) ∧ StationaryLaw M R (normalLaw p) π ∧
          IntervalsConverge M R P r π := by
  obtain ⟨V, hV, -, rfl⟩ := C35_diagonal data hd sig σ hσ
  set F : ForwardOp n := ⟨data, Matrix.diagonal fun i => ((1 / σ i ^ 2 : ℝ) : ℂ), .synthesis, some identityTransform,
    some ⟨pathForward W, pathAdjoint W⟩, some p⟩ with hFdef
  have hF : ForwardOp.init data sig "synthesis" (some identityTransform) (some ⟨pathForward W, pathAdjoint W⟩) (some p) = .ok F := by
    unfold ForwardOp.init
    rw [hV]
    rfl
  have hA : LinModel F ((Matrix.mulVecLin W).comp LinearMap.id) fun y => (fun z => z) (Matrix.mulVec W.conjTranspose y) :=
    linModel_synthesis F rfl (Matrix.mulVecLin W) (Matrix.mulVec W.conjTranspose) (pathIntegral_linearOps F W rfl)
      (LinearMap.id : (Fin p → ℂ) →ₗ[ℂ] (Fin p → ℂ)) (fun y => y) ⟨⟨identityTransform, rfl, fun x => rfl, fun x => rfl⟩, fun x y => rfl⟩
  obtain ⟨Lf, hL, hup⟩ := misfit_bounded σ ((Matrix.mulVecLin W).comp LinearMap.id)
  have hsum : 0 < 1 / par.lmda + Lf := by positivity
  refine ⟨2 / (1 / par.lmda + Lf), by positivity, fun delta hδ hδlt => ?_⟩
  have hmod := C126_l1_synthesis data hd sig hσ "synthesis" _ _ _ hF hA identityTransform.op identityTransform.adj t ht
    ⟨.synthesis, identityTransform.op, identityTransform.adj, .scalar t⟩ rfl
  refine ⟨F, _, ⟨F, _, { par with delta := delta }, p⟩, _, hF, rfl, rfl, fun R r x0 N b gap track hc => ?_, fun R Ω _ P _ r hr => ?_⟩
  · exact (C126_runs (M := ⟨F, _, { par with delta := delta }, p⟩) hmod rfl hl.ne' R r x0 N b gap 0 le_rfl track hc).2
  · have hWr : ∀ x : Fin p → ℂ, (∀ i, (x i).im = 0) → ∀ i, (((Matrix.mulVecLin W).comp LinearMap.id) x i).im = 0 := by
      intro x hx i
      show (∑ j, W i j * x j).im = 0
      rw [Complex.im_sum]
      refine Finset.sum_eq_zero fun j _ => ?_
      rw [Complex.mul_im, hW, hx]
      simp
    have hstep : delta * (1 / par.lmda + Lf) < 2 := by rwa [lt_div_iff₀ hsum] at hδlt
    obtain ⟨π, h1, h2, h3, -, h4⟩ := C153_real (M := ⟨F, _, { par with delta := delta }, p⟩) hmod hWr (fun x hx => hx) hdr rfl
      hreal hl hδ Lf hL hup hstep R P r hr
    exact ⟨π, h1, h2, h3, h4⟩

/-- The hypotheses of C153 are met by two paths through four pixels, with one threshold: two directions are not seen by the data. -/
example : ∃ (W : Matrix (Fin 2) (Fin 4) ℂ) (data : DataVec 2) (sig : SigD) (σ : Fin 2 → ℝ) (par : Params), (∀ i j, (W i j).im = 0) ∧
    data.cplx = false ∧ (∀ i, (data.vals i).im = 0) ∧ IsSigma 2 sig σ ∧ 0 < par.lmda ∧ par.complex = false ∧
    (∃ v, v ≠ 0 ∧ W.mulVec v = 0) ∧
    NormalStream (vecRng 4) 4 (Measure.infinitePi fun _ : ℕ => Measure.pi fun _ : Fin 4 => gaussianReal 0 1) fun ω => ω := by
  refine ⟨!![1, 1, 0, 0; 0, 1, 1, 0], ⟨false, fun _ => 4⟩, .num ((1 / 10 : ℝ) : ℂ) false, fun _ => 1 / 10,
    ⟨3 / 100000, 1 / 100000, 1, 5, 100, 10, 5, false, 0, ["chain"]⟩, fun i j => ?_, rfl, fun _ => by simp, .scalar _ (by norm_num),
    by norm_num, rfl, ⟨![0, 0, 0, 1], ?_, ?_⟩, vecRng_normal⟩
  · fin_cases i <;> fin_cases j <;> simp
  · intro h
    have := congrFun h 3
    simp at this
  · funext i
    fin_cases i <;> simp [Matrix.mulVec, dotProduct, Fin.sum_univ_four]

end Pxmcmc
