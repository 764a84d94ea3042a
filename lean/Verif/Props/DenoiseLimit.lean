import Verif.Props.Denoising
import Verif.Props.CredibleLimit

/-! # Property C116: the denoising set-up from constructors to converging averages and intervals -/

namespace Pxmcmc
open MeasureTheory ProbabilityTheory Filter
open scoped ENNReal Topology NNReal
variable {n p : ℕ}
variable {M : Sampler n} {fwd : (Fin p → ℂ) → (Fin n → ℂ)} {grad : (Fin n → ℂ) → (Fin p → ℂ)}
  {prox : (Fin p → ℂ) → (Fin p → ℂ)} {pri : (Fin p → ℂ) → ℝ}

/-- A MYULA run from an array returns, and fills the `chain` array if that is tracked. -/
theorem myula_returns_rows (R : Rng) (tot : Total M p fwd grad prox pri) (b g : ℕ) (hb : M.par.nburn = b) (hg : M.par.ngap = g)
    (hv : M.par.verbosity ≤ 0 ∨ ("logposterior" ∈ M.par.track ∧ "L2" ∈ M.par.track ∧ "prior" ∈ M.par.track))
    (hc : "chain" ∈ M.par.track) (r : R.σ) (x0 : Fin p → ℂ) :
    ∃ (N : ℕ) (st : St R) (rows : Fin M.par.nsamples → Fin p → ℂ),
      (∀ fuel ≥ N, myulaRun M R (initArrays M) r (.array1 (List.ofFn x0)) fuel = .ok (some st)) ∧
      ((initArrays M).applyAll st.ev).chain = some (List.ofFn fun k => List.ofFn (rows k)) := by
  obtain ⟨-, st, h1, -, h2⟩ := C41_schedule M R (initArrays M) (initArrays_shaped M)
    (hv.imp id fun h => by simp [initArrays, h.1, h.2.1, h.2.2]) b g hb hg tot _ (fun x => gradlogpi_vec _ tot x) r r
    (.array1 (List.ofFn x0)) x0 (start_array R tot r x0) _ rfl
  refine ⟨_, st, fun k i => store M.par.complex (iter (ulaStep M.par.delta (gradVec M.par.lmda fwd grad prox))
    (noiseSeq R M.par.complex p r) x0 (b + k * max g 1 + 1) i), h1, ?_⟩
  rw [h2]
  obtain ⟨l, hl⟩ : ∃ l, (initArrays M).chain = some l := ⟨_, if_pos (e := (none : Option (List (List ℂ)))) hc⟩
  simp only [Arrays.ofRows, hl, Option.map_some, Option.some.injEq]
  refine List.ext_getElem (by simp) fun k hk hk' => ?_
  simp only [List.getElem_map, List.getElem_range, List.getElem_ofFn]
  rfl

/-- The inverse variances of the denoising set-up bound the data term from below and above. -/
theorem denoise_identifiable (hn : 0 < n) (d : Fin n → ℂ) (σ : Fin n → ℝ) (hσ : ∀ i, 0 < σ i) (t : ℝ) (ht : 0 ≤ t)
    (M : Sampler n) (hl : 0 < M.par.lmda) (hd : 0 < M.par.delta)
    (hstep : ∀ i j, M.par.delta * (1 / M.par.lmda + 1 / σ i ^ 2 + 1 / σ j ^ 2) ≤ 2) :
    ∃ c Lf, Identifiable M (fun x => x) (fun y i => (y i - d i) / ((σ i ^ 2 : ℝ) : ℂ)) (fun x i => softEntry (x i) t)
      (Spec.wl1 fun _ => t) (Matrix.diagonal fun i => ((1 / σ i ^ 2 : ℝ) : ℂ)) c Lf := by
  have hne : (Finset.univ : Finset (Fin n)).Nonempty := ⟨⟨0, hn⟩, Finset.mem_univ _⟩
  obtain ⟨i0, -, hi0⟩ := Finset.exists_min_image Finset.univ (fun i => 1 / σ i ^ 2) hne
  obtain ⟨i1, -, hi1⟩ := Finset.exists_max_image Finset.univ (fun i => 1 / σ i ^ 2) hne
  have hform : ∀ v : Fin n → ℂ, (Spec.inner v ((Matrix.diagonal fun i => ((1 / σ i ^ 2 : ℝ) : ℂ)).mulVec v)).re =
      ∑ i, 1 / σ i ^ 2 * ‖v i‖ ^ 2 := by
    intro v
    rw [inner_diagonal, Complex.re_sum]
    exact Finset.sum_congr rfl fun i _ => by rw [← Complex.ofReal_mul, Complex.ofReal_re]
  have hdist : ∀ v : Fin n → ℂ, Spec.distSq v 0 = ∑ i, ‖v i‖ ^ 2 := fun v => by simp [Spec.distSq]
  refine ⟨1 / σ i0 ^ 2, 1 / σ i1 ^ 2, wl1_convex _ fun _ => ht, fun x => softEntry_isProx x (fun _ => t) fun _ => ht, ?_, fun v => ?_,
    fun v => ?_, fun x y => ?_, by have := hσ i0; positivity, hi0 i1 (Finset.mem_univ _), hl, hd, ?_⟩
  · rw [Matrix.IsHermitian, Matrix.diagonal_conjTranspose]
    congr 1
    funext i
    simp
  · rw [hform, hdist, Finset.mul_sum]
    exact Finset.sum_le_sum fun i _ => mul_le_mul_of_nonneg_right (hi0 i (Finset.mem_univ _)) (sq_nonneg _)
  · rw [hform, hdist, Finset.mul_sum]
    exact Finset.sum_le_sum fun i _ => mul_le_mul_of_nonneg_right (hi1 i (Finset.mem_univ _)) (sq_nonneg _)
  · funext i
    rw [Matrix.mulVec_diagonal]
    simp only [Pi.sub_apply]
    push_cast
    ring
  · exact hstep i1 i0

/-- C116: the denoising set-up (identity transform and measurement, `L1` prior, either setting), from the constructor arguments to what
the user reads off.  Real data, positive standard deviations, a threshold `t ≥ 0`, a real sampler with
`delta * (1/lmda + 1/σ_i² + 1/σ_j²) ≤ 2`, any burn-in and thinning, any start array, independent standard normals from
`np.random.randn`.  All constructors succeed and every run returns with a full `chain` array; the sampler has exactly one stationary law
`π`, the same for every chain length; averages of every Lipschitz quantity over the chain converge to its expectation under `π` almost
surely, with mean-square error `O(1/N)`; and the credible interval of every parameter converges to that of `π`. -/
theorem C116_denoising (hn : 0 < n) (data : DataVec n) (hd : data.cplx = false) (sig : SigD) (σ : Fin n → ℝ) (hσ : IsSigma n sig σ)
    (s : String) (hs : s = "analysis" ∨ s = "synthesis") (t : ℝ) (ht : 0 ≤ t) (par : Params) (b g : ℕ) (hb : par.nburn = b)
    (hg : par.ngap = g) (hreal : par.complex = false) (hl : 0 < par.lmda) (hdel : 0 < par.delta)
    (hstep : ∀ i j, par.delta * (1 / par.lmda + 1 / σ i ^ 2 + 1 / σ j ^ 2) ≤ 2)
    (hv : par.verbosity ≤ 0 ∨ ("logposterior" ∈ par.track ∧ "L2" ∈ par.track ∧ "prior" ∈ par.track)) (hc : "chain" ∈ par.track)
    (R : Rng) {Ω : Type} [MeasurableSpace Ω] (P : Measure Ω) [IsProbabilityMeasure P] (r : Ω → R.σ) (hr : NormalStream R n P r)
    (x0 : Fin n → ℂ) :
    ∃ (F : ForwardOp n) (Pr : L1 ℂ) (M : ℕ → Sampler n) (A : ℕ → Arrays) (rows : (N : ℕ) → Ω → Fin N → Fin n → ℂ)
      (π : Measure (Fin n → ℂ)),
      ForwardOp.init data sig s (some identityTransform) (some (identityMeasurement n n)) (some n) = .ok F ∧
      L1.init s identityTransform.op identityTransform.adj (.scalar t) = .ok Pr ∧
      (∀ N, samplerInit F Pr.toPrior { par with nsamples := N } = .ok (M N, A N)) ∧
      (∀ N ω, ∃ fuel0 st, (∀ fuel ≥ fuel0, myulaRun (M N) R (A N) (r ω) (.array1 (List.ofFn x0)) fuel = .ok (some st)) ∧
        ((A N).applyAll st.ev).chain = some (List.ofFn fun k : Fin N => List.ofFn (rows N ω k))) ∧
      IsProbabilityMeasure π ∧
      (∀ N, StationaryLaw (M N) R (normalLaw n) π ∧
        ∀ π' : Measure (Fin n → ℂ), IsProbabilityMeasure π' → StationaryLaw (M N) R (normalLaw n) π' → π' = π) ∧
      (∀ (q : (Fin n → ℂ) → ℝ) (L : ℝ), (∀ x y, |q x - q y| ≤ L * √(Spec.distSq x y)) →
        (∃ C : ℝ, ∀ N : ℕ, 0 < N → MemLp (fun ω => (∑ k, q (rows N ω k)) / N - ∫ z, q (fun i => ((z i).re : ℂ)) ∂π) 2 P ∧
          ∫ ω, ((∑ k, q (rows N ω k)) / N - ∫ z, q (fun i => ((z i).re : ℂ)) ∂π) ^ 2 ∂P ≤ C / N) ∧
        ∀ᵐ ω ∂P, Tendsto (fun N : ℕ => (∑ k, q (rows N ω k)) / N) atTop (𝓝 (∫ z, q (fun i => ((z i).re : ℂ)) ∂π))) ∧
      ∀ (i : Fin n) (alpha : ℝ), 0 < alpha → alpha < 2 → ∃ lo hi : ℝ,
        π.real {z | (z i).re ≤ lo} = alpha / 2 ∧ π.real {z | (z i).re ≤ hi} = 1 - alpha / 2 ∧
        ∀ᵐ ω ∂P, ∃ w : ℕ → ℝ, (∀ N : ℕ, 0 < N → ∃ ws, credibleIntervalRange (· ≤ ·)
          (⟨N, List.ofFn fun j : Fin n => List.ofFn fun k : Fin N => (rows N ω k j).re⟩ : SampleArr ℝ) alpha = .ok ws ∧
          ws[(i : ℕ)]? = some (w N)) ∧ Tendsto w atTop (𝓝 (hi - lo)) := by
  have hpos : ∀ i, 0 < σ i := by
    cases hσ with
    | scalar s hs => intro _; exact hs
    | vector s hs => exact hs
  obtain ⟨F, Pr, hF, hP, -, -, hnp, tot⟩ := denoise_total data hd sig σ hσ s hs t
  obtain ⟨lm, de, mu, sk, ns, nb, ng, cp, vb, tr⟩ := par
  simp only at hb hg hreal hl hdel hstep hv hc
  subst hb hg hreal
  have totN : ∀ N, Total (⟨F, Pr.toPrior, ⟨lm, de, mu, sk, N, b, g, false, vb, tr⟩, n⟩ : Sampler n) n (fun x => x)
      (fun y i => (y i - data.vals i) / ((σ i ^ 2 : ℝ) : ℂ)) (fun x i => softEntry (x i) t) (fun x => ∑ i, ‖x i‖) :=
    fun N => tot _ hl.ne'
  have hid : ∀ N, ∃ c Lf, Identifiable (⟨F, Pr.toPrior, ⟨lm, de, mu, sk, N, b, g, false, vb, tr⟩, n⟩ : Sampler n) (fun x => x)
      (fun y i => (y i - data.vals i) / ((σ i ^ 2 : ℝ) : ℂ)) (fun x i => softEntry (x i) t)
      (Spec.wl1 fun _ => t) (Matrix.diagonal fun i => ((1 / σ i ^ 2 : ℝ) : ℂ)) c Lf :=
    fun N => denoise_identifiable hn data.vals σ hpos t ht _ hl hdel hstep
  have hns : NoiseStream R false n P r (normalLaw n) := C99_normal_noise R P r hr
  obtain ⟨c0, L0, hid0⟩ := hid 0
  obtain ⟨π, hπ, hst, -, -⟩ := C99_ergodic R (totN 0) hid0 P r (normalLaw n) hns
  have hrun := fun (N : ℕ) (ω : Ω) => myula_returns_rows R (totN N) b g rfl rfl hv hc (r ω) x0
  choose fuel st rows h1 h2 using hrun
  have hstN : ∀ N, StationaryLaw (⟨F, Pr.toPrior, ⟨lm, de, mu, sk, N, b, g, false, vb, tr⟩, n⟩ : Sampler n) R (normalLaw n) π :=
    fun N => hst
  refine ⟨F, Pr, fun N => ⟨F, Pr.toPrior, ⟨lm, de, mu, sk, N, b, g, false, vb, tr⟩, n⟩,
    fun N => initArrays ⟨F, Pr.toPrior, ⟨lm, de, mu, sk, N, b, g, false, vb, tr⟩, n⟩, rows, π, hF, hP,
    fun N => by simp [samplerInit, hnp], fun N ω => ⟨_, _, h1 N ω, h2 N ω⟩, hπ, fun N => ⟨hstN N, fun π' hp' hs' => ?_⟩,
    fun q L hq => ?_, fun i alpha ha0 ha2 => ?_⟩
  · obtain ⟨c, Lf, hidN⟩ := hid N
    obtain ⟨π2, -, -, hu, -⟩ := C99_ergodic R (totN N) hidN P r (normalLaw n) hns
    rw [hu π' hp' hs', hu π hπ (hstN N)]
  · exact C114_averages R (totN 0) hid0 P r _ hns C114_normal_noise π (hstN 0) x0 b g vb tr _ (fun N => initArrays_shaped _) fuel st
      (fun N ω => h1 N ω _ le_rfl) rows h2 q L hq
  · obtain ⟨lo, hlo, -⟩ := C115_unique_quantile R (totN 0) hid0 rfl P r hr π (hstN 0) i (alpha / 2) (by linarith) (by linarith)
    obtain ⟨hi, hhi, -⟩ := C115_unique_quantile R (totN 0) hid0 rfl P r hr π (hstN 0) i (1 - alpha / 2) (by linarith) (by linarith)
    exact ⟨lo, hi, hlo, hhi, C115_interval R (totN 0) hid0 rfl P r hr π (hstN 0) x0 b g vb tr _ (fun N => initArrays_shaped _) fuel st
      (fun N ω => h1 N ω _ le_rfl) rows h2 i alpha lo hi ha0 ha2 hlo hhi⟩

/-- A generator that delivers a given sequence of vectors with `p` entries, one per call (cut or filled up with zeros if another length is
asked for). -/
def vecRng (p : ℕ) : Rng :=
  ⟨ℕ → Fin p → ℝ, fun s k => (fun i : Fin k => if h : (i : ℕ) < p then s 0 ⟨i, h⟩ else 0, fun j => s (j + 1)),
    fun s k => (fun i : Fin k => if h : (i : ℕ) < p then s 0 ⟨i, h⟩ else 0, fun j => s (j + 1)), fun s => (0, fun j => s (j + 1))⟩

theorem vecRng_seq (s : ℕ → Fin p → ℝ) (k : ℕ) : rngSeq (vecRng p) false p s k = fun j => s (j + k) := by
  induction k with
  | zero => rfl
  | succ k ih =>
    show (fun j => rngSeq (vecRng p) false p s k (j + 1)) = _
    rw [ih]
    funext j
    show s (j + 1 + k) = s (j + (k + 1))
    congr 1
    omega

/-- Fed with independent standard normal vectors it meets the hypothesis on the noise. -/
theorem vecRng_normal : NormalStream (vecRng p) p (Measure.infinitePi fun _ : ℕ => Measure.pi fun _ : Fin p => gaussianReal 0 1)
    (fun ω => ω) := by
  have e : ∀ (k : ℕ) (ω : ℕ → Fin p → ℝ), ((vecRng p).randn (rngSeq (vecRng p) false p ω k) p).1 = ω k := by
    intro k ω
    rw [vecRng_seq]
    funext i
    show (if h : (i : ℕ) < p then ω (0 + k) ⟨i, h⟩ else 0) = ω k i
    rw [dif_pos i.2, zero_add]
  refine ⟨fun k => ?_, ?_, fun k => ?_⟩
  · simp only [e]
    exact measurable_pi_apply k
  · simp only [e]
    exact iIndepFun_infinitePi (P := fun _ : ℕ => Measure.pi fun _ : Fin p => gaussianReal 0 1) (X := fun _ (x : Fin p → ℝ) => x)
      (fun _ => measurable_id)
  · simp only [e]
    exact Measure.infinitePi_map_eval (fun _ : ℕ => Measure.pi fun _ : Fin p => gaussianReal 0 1) k

/-- The hypotheses of C116 are met by the parameters of tests/test_mcmc.py:27-29 with data of its fixtures' size, standard deviations
0.1 and independent standard normals. -/
example : ∃ (data : DataVec 190) (sig : SigD) (σ : Fin 190 → ℝ) (par : Params), data.cplx = false ∧ IsSigma 190 sig σ ∧
    par.nburn = (10 : ℕ) ∧ par.ngap = (5 : ℕ) ∧ par.complex = false ∧ 0 < par.lmda ∧ 0 < par.delta ∧
    (∀ i j, par.delta * (1 / par.lmda + 1 / σ i ^ 2 + 1 / σ j ^ 2) ≤ 2) ∧ par.verbosity ≤ 0 ∧ "chain" ∈ par.track ∧
    NormalStream (vecRng 190) 190 (Measure.infinitePi fun _ : ℕ => Measure.pi fun _ : Fin 190 => gaussianReal 0 1) (fun ω => ω) :=
  ⟨⟨false, fun _ => 1⟩, .num ((1 / 10 : ℝ) : ℂ) false, fun _ => 1 / 10,
    ⟨3 / 100000, 1 / 100000, 1, 5, 100, 10, 5, false, 0, ["logposterior", "L2", "prior", "chain"]⟩, rfl,
    .scalar _ (by norm_num), rfl, rfl, rfl, by norm_num, by norm_num, fun _ _ => by norm_num, le_rfl, by simp, vecRng_normal⟩

end Pxmcmc
