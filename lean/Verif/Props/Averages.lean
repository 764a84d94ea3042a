import Verif.Props.Ergodic
import Verif.Props.MyulaRows
import Verif.Props.SkrockStable
import Verif.Lemmas.Averages

/-! # Property C114: averages over the saved MYULA samples converge -/

namespace Pxmcmc
open MeasureTheory ProbabilityTheory Filter
open scoped ENNReal Topology
variable {n p : ℕ}
variable {M : Sampler n} {fwd : (Fin p → ℂ) → (Fin n → ℂ)} {grad : (Fin n → ℂ) → (Fin p → ℂ)}
  {prox : (Fin p → ℂ) → (Fin p → ℂ)} {pri g : (Fin p → ℂ) → ℝ} {Q : Matrix (Fin p) (Fin p) ℂ} {c Lf : ℝ}

theorem sqrt_distSq_eq (x y : Fin p → ℂ) : √(Spec.distSq x y) = enorm2 (x - y) := by
  rw [← enorm2_sub_sq, Real.sqrt_sq (enorm2_nonneg _)]

theorem sqrt_distSq_le_dist (x y : Fin p → ℂ) : √(Spec.distSq x y) ≤ √p * dist x y := by
  have h3 := sqrt_distSq_add y x 0 0
  simp only [norm_zero, mul_zero, add_zero, zero_mul] at h3
  rwa [dist_eq_norm]

theorem myula_squareContraction (h : Identifiable M fwd grad prox g Q c Lf) (ν : Measure (Fin p → ℂ)) [IsProbabilityMeasure ν]
    (hν : ∫⁻ w, ‖w‖ₑ ∂ν ≠ ⊤) (hsq : ∫⁻ w, ‖w‖ₑ ^ 2 ∂ν ≠ ⊤) (x0 : Fin p → ℂ) :
    SquareContraction ν (ulaStep M.par.delta (gradVec M.par.lmda fwd grad prox)) (fun x y => √(Spec.distSq x y))
      (1 - M.par.delta * c) x0 := by
  have hrc := myula_contraction h ν hν x0
  refine ⟨hrc, fun x y z => ?_, continuous_distSq x0, ?_, ?_⟩
  · rw [sqrt_distSq_eq, sqrt_distSq_eq, sqrt_distSq_eq, show x - z = (x - y) + (y - z) by abel]
    exact enorm2_add _ _
  · simp [Spec.distSq]
  · set z : Fin p → ℂ := fun i => x0 i + (M.par.delta : ℂ) * gradVec M.par.lmda fwd grad prox x0 i with hz
    set s : ℂ := ((√(2 * M.par.delta) : ℝ) : ℂ) with hs
    have hm2 : MemLp (fun w : Fin p → ℂ => w) 2 ν := by
      refine ⟨aestronglyMeasurable_id, ?_⟩
      rw [eLpNorm_lt_top_iff_lintegral_rpow_enorm_lt_top two_ne_zero ENNReal.ofNat_ne_top]
      simpa using lt_top_iff_ne_top.mpr hsq
    have hb1 : MemLp (fun _ : Fin p → ℂ => ‖z - x0‖) 2 ν := memLp_const _
    have hb2 : MemLp (fun w : Fin p → ℂ => ‖s‖ * ‖w‖) 2 ν := hm2.norm.const_mul ‖s‖
    have hb : MemLp (fun w : Fin p → ℂ => √p * (‖z - x0‖ + ‖s‖ * ‖w‖)) 2 ν := (hb1.add hb2).const_mul (√p)
    have hf : MemLp (fun w => √(Spec.distSq (ulaStep M.par.delta (gradVec M.par.lmda fwd grad prox) x0 w) x0)) 2 ν := by
      refine hb.of_le hrc.start_meas.aestronglyMeasurable (Eventually.of_forall fun w => ?_)
      rw [Real.norm_of_nonneg (Real.sqrt_nonneg _), Real.norm_of_nonneg (by positivity)]
      exact sqrt_distSq_add x0 z w s
    exact hf.integrable_sq

theorem distSq_store (cplx : Bool) (x y : Fin p → ℂ) :
    Spec.distSq (fun i => store cplx (x i)) (fun i => store cplx (y i)) ≤ Spec.distSq x y := by
  unfold Spec.distSq
  refine Finset.sum_le_sum fun i _ => ?_
  refine pow_le_pow_left₀ (norm_nonneg _) ?_ 2
  cases cplx with
  | true => exact le_of_eq (by simp [store])
  | false =>
    have e : store false (x i) - store false (y i) = (((x i - y i).re : ℝ) : ℂ) := by simp [store]
    rw [e, Complex.norm_real]
    exact Complex.abs_re_le_norm _

theorem start_array (R : Rng) (tot : Total M p fwd grad prox pri) (r : R.σ) (x0 : Fin p → ℂ) :
    initialSample M R r (.array1 (List.ofFn x0)) = .ok (List.ofFn x0, List.ofFn (fwd x0), r) := by
  simp [initialSample, startVector, tot.nparams, Bind.bind, Except.bind, tot.forward x0]

/-- The states of a returned MYULA run started from an array, and the rows of its `chain` array. -/
theorem myula_chain_rows (R : Rng) (tot : Total M p fwd grad prox pri) (A : Arrays) (hA : A.Shaped M.par.nsamples) (b gap : ℕ)
    (hb : M.par.nburn = b) (hg : M.par.ngap = gap) (r : R.σ) (x0 : Fin p → ℂ) (fuel : ℕ) (st : St R)
    (h : myulaRun M R A r (.array1 (List.ofFn x0)) fuel = .ok (some st)) (rows : Fin M.par.nsamples → Fin p → ℂ)
    (hrows : (A.applyAll st.ev).chain = some (List.ofFn fun k : Fin M.par.nsamples => List.ofFn (rows k))) (k : Fin M.par.nsamples) :
    rows k = fun i => store M.par.complex (fwState (ulaStep M.par.delta (gradVec M.par.lmda fwd grad prox)) x0
      (noiseSeq R M.par.complex p r) (b + k * max gap 1 + 1) i) := by
  obtain ⟨X0, P0, r0, T, rws, hx, hT, -, hr, harr, -⟩ := myulaRun_result M R A hA b hb r _ fuel st h
  rw [start_array R tot] at hx
  obtain ⟨rfl, rfl, rfl⟩ : List.ofFn x0 = X0 ∧ List.ofFn (fwd x0) = P0 ∧ r = r0 := by simpa using Except.ok.inj hx
  have hT' : Hist (myulaStep M R) ⟨List.ofFn x0, List.ofFn (fwd x0), r⟩ (numIter M.par.nsamples b (spacing M.par))
      (fun j => ⟨List.ofFn (fwState (ulaStep M.par.delta (gradVec M.par.lmda fwd grad prox)) x0 (noiseSeq R M.par.complex p r) j),
        List.ofFn (fwd (fwState (ulaStep M.par.delta (gradVec M.par.lmda fwd grad prox)) x0 (noiseSeq R M.par.complex p r) j)),
        rngSeq R M.par.complex p r j⟩) := ⟨rfl, fun j _ => myulaStep_vec M R tot _ _⟩
  obtain ⟨hle, l, hl, he⟩ := hr k k.2
  have hu := hT.unique hT' _ hle
  rw [hu] at he hl
  rw [mkRow_eq_rowOf M tot _ l hl] at he
  have hra := (ofRows_rowIs A M.par.nsamples rws k k.2).chain
  rw [← harr] at hra
  have h2 := hra _ (by rw [hrows]; rfl)
  rw [he] at h2
  simp only [List.getElem?_ofFn, k.2, dif_pos, rowOf, Option.some.injEq, spacing_nat _ gap hg] at h2
  exact List.ofFn_injective h2

/-- C114: averages over the saved samples converge.  Take MYULA runs of every length `N` from one fixed start array, with the same
burn-in, thinning, verbosity and track list and with independent noise vectors of finite second moment, for a data term that determines the
parameters.  Let `q` be any Lipschitz quantity.  The average of `q` over the `N` rows of the `chain` array converges almost surely to
the expectation of `q` under the stationary law `π`, and its error is square integrable with mean square at most `C / N`. -/
theorem C114_averages (R : Rng) (tot : Total M p fwd grad prox pri) (h : Identifiable M fwd grad prox g Q c Lf)
    {Ω : Type} [MeasurableSpace Ω] (P : Measure Ω) [IsProbabilityMeasure P] (r : Ω → R.σ) (ν : Measure (Fin p → ℂ))
    (hs : NoiseStream R M.par.complex p P r ν) (hsq : ∫⁻ w, ‖w‖ₑ ^ 2 ∂ν ≠ ⊤) (π : Measure (Fin p → ℂ)) [IsProbabilityMeasure π]
    (hπ : StationaryLaw M R ν π) (x0 : Fin p → ℂ) (b gap : ℕ) (v : ℤ) (track : List String) (A : ℕ → Arrays)
    (hA : ∀ N, (A N).Shaped N) (fuel : ℕ → Ω → ℕ) (st : ℕ → Ω → St R)
    (hrun : ∀ N ω, myulaRun (M.resched N b gap v track) R (A N) (r ω) (.array1 (List.ofFn x0)) (fuel N ω) = .ok (some (st N ω)))
    (rows : (N : ℕ) → Ω → Fin N → Fin p → ℂ)
    (hrows : ∀ N ω, ((A N).applyAll (st N ω).ev).chain = some (List.ofFn fun k : Fin N => List.ofFn (rows N ω k)))
    (q : (Fin p → ℂ) → ℝ) (L : ℝ) (hL : ∀ x y, |q x - q y| ≤ L * √(Spec.distSq x y)) :
    (∃ C : ℝ, ∀ N : ℕ, 0 < N →
      MemLp (fun ω => (∑ k, q (rows N ω k)) / N - ∫ z, q (fun i => store M.par.complex (z i)) ∂π) 2 P ∧
      ∫ ω, ((∑ k, q (rows N ω k)) / N - ∫ z, q (fun i => store M.par.complex (z i)) ∂π) ^ 2 ∂P ≤ C / N) ∧
    ∀ᵐ ω ∂P, Tendsto (fun N : ℕ => (∑ k, q (rows N ω k)) / N) atTop (𝓝 (∫ z, q (fun i => store M.par.complex (z i)) ∂π)) := by
  have hν : IsProbabilityMeasure ν := by
    rw [← hs.law 0]
    exact Measure.isProbabilityMeasure_map (hs.meas 0).aemeasurable
  have hLq : ∀ x y : Fin p → ℂ, |q (fun i => store M.par.complex (x i)) - q (fun i => store M.par.complex (y i))| ≤
      |L| * √(Spec.distSq x y) := by
    intro x y
    refine (hL _ _).trans ?_
    refine (mul_le_mul_of_nonneg_right (le_abs_self L) (Real.sqrt_nonneg _)).trans ?_
    exact mul_le_mul_of_nonneg_left (Real.sqrt_le_sqrt (distSq_store _ x y)) (abs_nonneg L)
  have hcont : Continuous fun z : Fin p → ℂ => q (fun i => store M.par.complex (z i)) := by
    refine (LipschitzWith.of_dist_le_mul (K := NNReal.mk (|L| * √p) (by positivity)) fun x y => ?_).continuous
    rw [Real.dist_eq]
    refine (hLq x y).trans ?_
    calc |L| * √(Spec.distSq x y) ≤ |L| * (√p * dist x y) := mul_le_mul_of_nonneg_left (sqrt_distSq_le_dist x y) (abs_nonneg L)
      _ = _ := by rw [← mul_assoc]; rfl
  have htimes : StrictMono fun k : ℕ => b + k * max gap 1 + 1 := by
    intro i j hij
    have : 0 < max gap 1 := lt_max_of_lt_right one_pos
    have := Nat.mul_lt_mul_of_pos_right hij this
    show b + i * max gap 1 + 1 < b + j * max gap 1 + 1
    omega
  have hkey := (myula_squareContraction h ν hs.finite hsq x0).averages ⟨hs.meas, hs.indep, hs.law⟩ π
    ((stationary_iff R tot h P r ν hs π).mp hπ) _ hcont |L| (abs_nonneg L) hLq _ htimes
  have hsum : ∀ (N : ℕ) (ω : Ω), ∑ k, q (rows N ω k) = ∑ k ∈ Finset.range N, q (fun i => store M.par.complex
      (fwState (ulaStep M.par.delta (gradVec M.par.lmda fwd grad prox)) x0 (fun j => noiseSeq R M.par.complex p (r ω) j)
        (b + k * max gap 1 + 1) i)) := by
    intro N ω
    rw [Finset.sum_range]
    refine Finset.sum_congr rfl fun k _ => ?_
    have tot' : Total (M.resched N b gap v track) p fwd grad prox pri :=
      ⟨tot.nparams, tot.forward, tot.gradg, tot.proxf, tot.prior, tot.lmda⟩
    rw [myula_chain_rows (M := M.resched N b gap v track) R tot' (A N) (hA N) b gap rfl rfl (r ω) x0 (fuel N ω) (st N ω) (hrun N ω)
      (rows N ω) (hrows N ω) k]
    rfl
  simp only [hsum]
  exact hkey

/-- The law of `np.random.randn(p)` stored as complex numbers. -/
noncomputable def normalLaw (p : ℕ) : Measure (Fin p → ℂ) :=
  (Measure.pi fun _ : Fin p => gaussianReal 0 1).map fun x i => ((x i : ℝ) : ℂ)

/-- C114, the hypothesis on the second moment: standard normals qualify. -/
theorem C114_normal_noise : ∫⁻ w, ‖w‖ₑ ^ 2 ∂(normalLaw p) ≠ ⊤ := by
  unfold normalLaw
  have hm : Measurable fun (x : Fin p → ℝ) (i : Fin p) => ((x i : ℝ) : ℂ) := by fun_prop
  rw [lintegral_map (measurable_enorm.pow_const 2) hm]
  have hle : ∀ x : Fin p → ℝ, ‖(fun i => ((x i : ℝ) : ℂ))‖ₑ ^ 2 ≤ ∑ i, ‖x i‖ₑ ^ 2 := by
    intro x
    have h1 : ‖(fun i => ((x i : ℝ) : ℂ))‖ ^ 2 ≤ ∑ i, ‖x i‖ ^ 2 := by
      have h0 : 0 ≤ ∑ i, ‖x i‖ ^ 2 := Finset.sum_nonneg fun i _ => sq_nonneg _
      rw [← Real.sq_sqrt h0]
      refine pow_le_pow_left₀ (norm_nonneg _) ?_ 2
      refine (pi_norm_le_iff_of_nonneg (Real.sqrt_nonneg _)).mpr fun i => ?_
      rw [Complex.norm_real]
      exact Real.le_sqrt_of_sq_le (Finset.single_le_sum (f := fun i => ‖x i‖ ^ 2) (fun i _ => sq_nonneg _) (Finset.mem_univ i))
    have h2 := ENNReal.ofReal_le_ofReal h1
    rw [ENNReal.ofReal_sum_of_nonneg fun i _ => sq_nonneg _] at h2
    simpa only [ENNReal.ofReal_pow (norm_nonneg _), ofReal_norm] using h2
  refine ne_top_of_le_ne_top ?_ (lintegral_mono hle)
  rw [lintegral_finsetSum _ fun i _ => (measurable_pi_apply i).enorm.pow_const 2]
  refine (ENNReal.sum_lt_top.mpr fun i _ => ?_).ne
  have hp := measurePreserving_eval (fun _ : Fin p => gaussianReal 0 1) i
  have h2 := hp.lintegral_comp (f := fun y : ℝ => ‖y‖ₑ ^ 2) (measurable_enorm.pow_const 2)
  simp only [Function.eval] at h2
  rw [h2]
  have h3 : MemLp (id : ℝ → ℝ) 2 (gaussianReal 0 1) := memLp_id_gaussianReal 2
  have h4 := (eLpNorm_lt_top_iff_lintegral_rpow_enorm_lt_top two_ne_zero ENNReal.ofNat_ne_top).mp h3.2
  simpa using h4

/-- Runs of every length for soft thresholding with threshold 3, data term `Q = 1`, `lmda = 1`, `delta = 2/3`, a real sampler,
independent standard normals, burn-in 3 and thinning 2. -/
theorem averages_demo : ∃ (M : Sampler 1) (prox : (Fin 1 → ℂ) → (Fin 1 → ℂ)) (pri g : (Fin 1 → ℂ) → ℝ) (π : Measure (Fin 1 → ℂ)),
    Total M 1 (fun x => x) (fun y => y) prox pri ∧ Identifiable M (fun x : Fin 1 → ℂ => x) (fun y => y) prox g 1 1 1 ∧
    M.par.complex = false ∧
    NoiseStream streamRng M.par.complex 1 (Measure.infinitePi fun _ : ℕ => gaussianReal 0 1) (fun ω => ω) (normalLaw 1) ∧
    IsProbabilityMeasure π ∧ StationaryLaw M streamRng (normalLaw 1) π ∧
    ∃ (A : ℕ → Arrays) (fuel : ℕ → (ℕ → ℝ) → ℕ) (st : ℕ → (ℕ → ℝ) → St streamRng) (rows : (N : ℕ) → (ℕ → ℝ) → Fin N → Fin 1 → ℂ),
      (∀ N, (A N).Shaped N) ∧
      (∀ N ω, myulaRun (M.resched N (3 : ℕ) (2 : ℕ) 0 ["chain"]) streamRng (A N) ω (.array1 (List.ofFn fun _ : Fin 1 => 5)) (fuel N ω) =
        .ok (some (st N ω))) ∧
      ∀ N ω, ((A N).applyAll (st N ω).ev).chain = some (List.ofFn fun k : Fin N => List.ofFn (rows N ω k)) := by
  have hr : ∀ v : Fin 1 → ℂ, (Spec.inner v ((1 : Matrix (Fin 1) (Fin 1) ℂ).mulVec v)).re = Spec.distSq v 0 := by
    intro v
    rw [Matrix.one_mulVec, ← rip_eq_inner, rip_self]
  have htot : ∀ N : ℕ, Total (demoL1 3 ⟨1, 2 / 3, 1, 1, N, (3 : ℕ), (2 : ℕ), false, 0, ["chain"]⟩) 1 (fun x => x) (fun y => y)
      (fun x i => softEntry (x i) 3) fun x => ∑ i, ‖x i‖ := by
    intro N
    have h0 := demo_total ⟨1, 2 / 3, 1, 1, N, (3 : ℕ), (2 : ℕ), false, 0, ["chain"]⟩ one_ne_zero
    refine ⟨rfl, h0.forward, h0.gradg, fun x => soft_scalar x 3, fun x => ?_, one_ne_zero⟩
    show Except.ok _ = _
    rw [L1.prior, norm_sum_ofFn]
  have hid : Identifiable (demoL1 3 ⟨1, 2 / 3, 1, 1, 4, (3 : ℕ), (2 : ℕ), false, 0, ["chain"]⟩) (fun x : Fin 1 → ℂ => x) (fun y => y)
      (fun x i => softEntry (x i) 3) (Spec.wl1 fun _ => 3) 1 1 1 := by
    refine ⟨wl1_convex _ fun _ => by norm_num, fun x => softEntry_isProx x (fun _ => 3) fun _ => by norm_num, Matrix.isHermitian_one,
      fun v => ?_, fun v => ?_, fun x y => (Matrix.one_mulVec _).symm, one_pos, le_rfl, one_pos, ?_, ?_⟩
    · rw [hr, one_mul]
    · rw [hr, one_mul]
    · show (0 : ℝ) < 2 / 3
      norm_num
    · show (2 / 3 : ℝ) * (1 / 1 + 1 + 1) ≤ 2
      norm_num
  have hn := C99_normal_noise streamRng _ _ streamRng_normal
  obtain ⟨π, hπ, hst, -⟩ := C99_ergodic streamRng (htot 4) hid _ _ _ hn
  refine ⟨_, _, _, _, π, htot 4, hid, rfl, hn, hπ, hst, ?_⟩
  have hex : ∀ (N : ℕ) (ω : ℕ → ℝ), ∃ (fuel : ℕ) (st : St streamRng) (rows : Fin N → Fin 1 → ℂ),
      myulaRun (demoL1 3 ⟨1, 2 / 3, 1, 1, N, (3 : ℕ), (2 : ℕ), false, 0, ["chain"]⟩) streamRng
        (initArrays (demoL1 3 ⟨1, 2 / 3, 1, 1, N, (3 : ℕ), (2 : ℕ), false, 0, ["chain"]⟩)) ω (.array1 (List.ofFn fun _ : Fin 1 => 5)) fuel =
        .ok (some st) ∧
      ((initArrays (demoL1 3 ⟨1, 2 / 3, 1, 1, N, (3 : ℕ), (2 : ℕ), false, 0, ["chain"]⟩)).applyAll st.ev).chain =
        some (List.ofFn fun k : Fin N => List.ofFn (rows k)) := by
    intro N ω
    obtain ⟨-, st, h1, -, h2⟩ := C41_schedule (demoL1 3 ⟨1, 2 / 3, 1, 1, N, (3 : ℕ), (2 : ℕ), false, 0, ["chain"]⟩) streamRng
      (initArrays (demoL1 3 ⟨1, 2 / 3, 1, 1, N, (3 : ℕ), (2 : ℕ), false, 0, ["chain"]⟩)) (initArrays_shaped _) (.inl le_rfl) 3 2 rfl rfl
      (htot N) _ (fun x => gradlogpi_vec _ (htot N) x) ω ω (.array1 (List.ofFn fun _ : Fin 1 => 5)) (fun _ => 5)
      (start_array streamRng (htot N) ω _) _ rfl
    refine ⟨_, st, fun k i => store false (iter (ulaStep (2 / 3) (gradVec 1 (fun x => x) (fun y => y) fun x i => softEntry (x i) 3))
      (noiseSeq streamRng false 1 ω) (fun _ => 5) (3 + k * max 2 1 + 1) i), h1 _ le_rfl, ?_⟩
    rw [h2]
    have hc : ∃ l, (initArrays (demoL1 3 ⟨1, 2 / 3, 1, 1, N, (3 : ℕ), (2 : ℕ), false, 0, ["chain"]⟩)).chain = some l :=
      ⟨_, if_pos (e := (none : Option (List (List ℂ)))) (show "chain" ∈ ["chain"] by simp)⟩
    obtain ⟨l, hl⟩ := hc
    simp only [Arrays.ofRows, hl, Option.map_some, Option.some.injEq]
    refine List.ext_getElem (by simp; rfl) fun k hk hk' => ?_
    simp only [List.getElem_map, List.getElem_range, List.getElem_ofFn]
    rfl
  choose fuel st rows h1 h2 using hex
  exact ⟨_, fuel, st, rows, fun N => initArrays_shaped _, h1, h2⟩

/-- The hypotheses of C114 are met, with the norm of the sample as the quantity averaged. -/
example : ∃ (M : Sampler 1) (prox : (Fin 1 → ℂ) → (Fin 1 → ℂ)) (pri g : (Fin 1 → ℂ) → ℝ) (ν π : Measure (Fin 1 → ℂ)),
    Total M 1 (fun x => x) (fun y => y) prox pri ∧ Identifiable M (fun x : Fin 1 → ℂ => x) (fun y => y) prox g 1 1 1 ∧
    NoiseStream streamRng M.par.complex 1 (Measure.infinitePi fun _ : ℕ => gaussianReal 0 1) (fun ω => ω) ν ∧
    ∫⁻ w, ‖w‖ₑ ^ 2 ∂ν ≠ ⊤ ∧ IsProbabilityMeasure π ∧ StationaryLaw M streamRng ν π ∧
    (∃ (A : ℕ → Arrays) (fuel : ℕ → (ℕ → ℝ) → ℕ) (st : ℕ → (ℕ → ℝ) → St streamRng) (rows : (N : ℕ) → (ℕ → ℝ) → Fin N → Fin 1 → ℂ),
      (∀ N, (A N).Shaped N) ∧
      (∀ N ω, myulaRun (M.resched N (3 : ℕ) (2 : ℕ) 0 ["chain"]) streamRng (A N) ω (.array1 (List.ofFn fun _ : Fin 1 => 5)) (fuel N ω) =
        .ok (some (st N ω))) ∧
      ∀ N ω, ((A N).applyAll (st N ω).ev).chain = some (List.ofFn fun k : Fin N => List.ofFn (rows N ω k))) ∧
    ∀ x y : Fin 1 → ℂ, |‖x 0‖ - ‖y 0‖| ≤ 1 * √(Spec.distSq x y) := by
  obtain ⟨M, prox, pri, g, π, h1, h2, -, h4, h5, h6, h7⟩ := averages_demo
  refine ⟨M, prox, pri, g, _, π, h1, h2, h4, C114_normal_noise, h5, h6, h7, fun x y => ?_⟩
  rw [one_mul]
  refine (abs_norm_sub_norm_le _ _).trans (Real.le_sqrt_of_sq_le ?_)
  exact Finset.single_le_sum (f := fun i => ‖x i - y i‖ ^ 2) (fun i _ => sq_nonneg _) (Finset.mem_univ 0)

end Pxmcmc
