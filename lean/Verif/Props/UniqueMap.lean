import Verif.Lemmas.Distinct
import Verif.Props.MalaTerminates
import Verif.Props.MyulaComplex
import Verif.Props.Plotting

/-! # Property C133: a run has one best sample -/

namespace Pxmcmc
open MeasureTheory ProbabilityTheory
open scoped ENNReal

variable {n p : ℕ} {M : Sampler n} {A : (Fin p → ℂ) →ₗ[ℂ] (Fin n → ℂ)} {grad : (Fin n → ℂ) → (Fin p → ℂ)}
    {prox : (Fin p → ℂ) → (Fin p → ℂ)} {pri : (Fin p → ℂ) → ℝ} {W : Fin p → ℝ} {c : Fin n → ℂ}

/-- The posterior of C133: a linear forward operator `A`, independent errors, the prior `∑ W_i |x_i|`, and at least one parameter that
matters to the prior or to the data. -/
structure SparsePosterior (M : Sampler n) (A : (Fin p → ℂ) →ₗ[ℂ] (Fin n → ℂ)) (pri : (Fin p → ℂ) → ℝ) (W : Fin p → ℝ)
    (c : Fin n → ℂ) : Prop where
  invcov : M.F.invcov = Matrix.diagonal c
  nonneg : ∀ j, 0 ≤ (c j).re
  prior : ∀ x, pri x = ∑ i, W i * ‖x i‖
  seen : ∃ k, M.par.mu * W k ≠ 0 ∨ ∃ j, (c j).re ≠ 0 ∧ A (Pi.single k 1) j ≠ 0

theorem rowOf_logPi (h : SparsePosterior M A pri W c) (x : Fin p → ℂ) : (rowOf M A pri x).logPi =
    -M.par.mu * ∑ i, W i * ‖x i‖ - ∑ j, (c j).re * ‖M.F.data.vals j - A x j‖ ^ 2 := by
  unfold rowOf
  simp only [h.prior, h.invcov]
  congr 1
  unfold Spec.inner
  rw [Complex.re_sum]
  refine Finset.sum_congr rfl fun j _ => ?_
  rw [Matrix.mulVec_diagonal, Pi.sub_apply, ← Complex.normSq_eq_norm_sq]
  simp only [Complex.normSq_apply, Complex.mul_re, Complex.mul_im, Complex.conj_re, Complex.conj_im]
  ring

theorem rowOf_continuous (h : SparsePosterior M A pri W c) : Continuous fun x => (rowOf M A pri x).logPi := by
  have hA : Continuous A := A.continuous_of_finiteDimensional
  have h1 : ∀ j, Continuous fun x => A x j := fun j => (continuous_apply j).comp hA
  simp only [rowOf_logPi h]
  fun_prop

/-- A proposal has any given log-posterior with probability zero. -/
theorem proposal_free (h : SparsePosterior M A pri W c) (δ : ℝ) (hδ : 0 < δ) (G : (Fin p → ℂ) → (Fin p → ℂ)) (ν : Measure (Fin p → ℂ))
    (hν : ∀ k, LineFree ν k) (x : Fin p → ℂ) (l : ℝ) : ν {w | (rowOf M A pri (ulaStep δ G x w)).logPi = l} = 0 := by
  obtain ⟨k, hk⟩ := h.seen
  have hm : Continuous fun w => ulaStep δ G x w := by unfold ulaStep; fun_prop
  have hB : MeasurableSet {w | (rowOf M A pri (ulaStep δ G x w)).logPi = l} :=
    (isClosed_eq ((rowOf_continuous h).comp hm) continuous_const).measurableSet
  refine hν k _ hB fun z => ?_
  have hs : 0 < √(2 * δ) := Real.sqrt_pos.mpr (by linarith)
  have hf := (level_line M.par.mu W (fun j => (c j).re) h.nonneg M.F.data.vals A k hk (ulaStep δ G x z) l).countable
  refine (hf.preimage_of_injOn (f := fun t : ℝ => √(2 * δ) * t) (fun a _ b _ hab => mul_left_cancel₀ hs.ne' hab)).mono fun t ht => ?_
  have ht' : (rowOf M A pri (ulaStep δ G x (z + Pi.single k (t : ℂ)))).logPi = l := ht
  have e : ulaStep δ G x (z + Pi.single k (t : ℂ)) = ulaStep δ G x z + Pi.single k ((√(2 * δ) * t : ℝ) : ℂ) := by
    funext i
    unfold ulaStep
    by_cases hi : i = k
    · subst hi
      simp only [Pi.add_apply, Pi.single_eq_same]
      push_cast
      ring
    · simp [hi]
  rw [e, rowOf_logPi h] at ht'
  exact ht'

theorem isSigma_pos {sig : SigD} {σ : Fin n → ℝ} (h : IsSigma n sig σ) (i : Fin n) : 0 < σ i := by
  cases h with
  | scalar s hs => exact hs
  | vector s hs => exact hs i

theorem lineFree_of {ν : Measure (Fin p → ℂ)} (hν : ν = normalLaw p ∨ ν = cplxNormalLaw p) (k : Fin p) : LineFree ν k := by
  rcases hν with rfl | rfl
  · exact lineFree_normal k
  · exact lineFree_cplx k

/-- Different entries: exactly one is marked. -/
theorem one_marked (lp : List ℝ) (h : lp.Nodup) (hne : lp ≠ []) :
    ∃ i, mapIndices lp = .ok [i] ∧ ∃ hi : i < lp.length, ∀ j (hj : j < lp.length), j ≠ i → lp[j] < lp[i] := by
  obtain ⟨idx, h1, h2, h3, h4⟩ := C77_map_indices lp hne
  match idx, h2 with
  | i :: l, _ =>
    obtain ⟨hi, hmax⟩ := (h4 i).mp (List.mem_cons_self ..)
    have hl : l = [] := by
      refine List.eq_nil_iff_forall_not_mem.mpr fun k hk => ?_
      have hik := List.rel_of_pairwise_cons h3 hk
      obtain ⟨hk', hmax'⟩ := (h4 k).mp (List.mem_cons_of_mem _ hk)
      have := (List.Nodup.getElem_inj_iff h).mp (le_antisymm (hmax _ (List.getElem_mem hk')) (hmax' _ (List.getElem_mem hi)))
      omega
    subst hl
    refine ⟨i, h1, hi, fun j hj hji => lt_of_le_of_ne (hmax _ (List.getElem_mem hj)) fun he => hji ?_⟩
    exact (List.Nodup.getElem_inj_iff h).mp he

/-- C133 for MYULA: the entries of the `logPi` array of a returned run differ with probability one, and `plot_evolution` marks one sample. -/
theorem C133_myula (R : Rng) (tot : Total M p A grad prox pri) (hgr : Measurable grad) (hp : Measurable prox)
    (h : SparsePosterior M A pri W c) (hδ : 0 < M.par.delta) (A0 : Arrays) (hA : A0.Shaped M.par.nsamples) (b gap : ℕ)
    (hb : M.par.nburn = b) (hg : M.par.ngap = gap) {Ω : Type} [MeasurableSpace Ω] (P : Measure Ω) [IsProbabilityMeasure P] (r : Ω → R.σ)
    (ν : Measure (Fin p → ℂ)) (hν : ν = normalLaw p ∨ ν = cplxNormalLaw p) (hs : NoiseStream R M.par.complex p P r ν) (x0 : Fin p → ℂ) :
    ∀ᵐ ω ∂P, ∀ (fuel : ℕ) (st : St R) (lp : List ℝ), myulaRun M R A0 (r ω) (.array1 (List.ofFn x0)) fuel = .ok (some st) →
      (A0.applyAll st.ev).logPi = some lp → lp.length = M.par.nsamples ∧ lp.Nodup ∧ (lp ≠ [] → ∃ i, mapIndices lp = .ok [i]) := by
  set G := gradVec M.par.lmda A grad prox with hG
  have hAc : Continuous A := A.continuous_of_finiteDimensional
  have hfm : Measurable (Function.uncurry (ulaStep M.par.delta G)) := by
    unfold Function.uncurry ulaStep
    rw [hG]
    unfold gradVec
    refine measurable_pi_lambda _ fun i => ?_
    have h1 : Measurable fun x => prox x i := (measurable_pi_apply i).comp hp
    have h2 : Measurable fun x => grad (A x) i := (measurable_pi_apply i).comp (hgr.comp hAc.measurable)
    fun_prop
  have hdr : Driven P (fun k ω => noiseSeq R M.par.complex p (r ω) k) ν := ⟨hs.meas, hs.indep, hs.law⟩
  have hne := (hdr.seqIndep x0).values_ne hfm (fun x w => (rowOf M A pri (ulaStep M.par.delta G x w)).logPi)
    ((rowOf_continuous h).measurable.comp hfm) Set.univ (fun _ _ => trivial)
    fun x _ l => proposal_free h _ hδ G ν (lineFree_of hν) x l
  filter_upwards [hne] with ω hω
  intro fuel st lp hrun hlp
  obtain ⟨X0, P0, r0, T, rws, hx, hT, -, hr, harr, -⟩ := myulaRun_result M R A0 hA b hb (r ω) _ fuel st hrun
  rw [start_array R tot] at hx
  obtain ⟨rfl, rfl, rfl⟩ : List.ofFn x0 = X0 ∧ List.ofFn (A x0) = P0 ∧ r ω = r0 := by simpa using Except.ok.inj hx
  have hT' : Hist (myulaStep M R) ⟨List.ofFn x0, List.ofFn (A x0), r ω⟩ (numIter M.par.nsamples b (spacing M.par))
      (fun j => ⟨List.ofFn (fwState (ulaStep M.par.delta G) x0 (noiseSeq R M.par.complex p (r ω)) j),
        List.ofFn (A (fwState (ulaStep M.par.delta G) x0 (noiseSeq R M.par.complex p (r ω)) j)),
        rngSeq R M.par.complex p (r ω) j⟩) := ⟨rfl, fun j _ => myulaStep_vec M R tot _ _⟩
  have hval : ∀ k < M.par.nsamples, (rws k).logPi = (rowOf M A pri (fwState (ulaStep M.par.delta G) x0
      (noiseSeq R M.par.complex p (r ω)) (b + k * max gap 1 + 1))).logPi := by
    intro k hk
    obtain ⟨hle, l, hl, he⟩ := hr k hk
    have hu := hT.unique hT' _ hle
    rw [hu] at he hl
    rw [mkRow_eq_rowOf M tot _ l hl] at he
    rw [he, spacing_nat _ gap hg]
  rw [harr] at hlp
  have hl : lp = (List.range M.par.nsamples).map fun k => (rws k).logPi := by
    unfold Arrays.ofRows at hlp
    simp only [Option.map_eq_some_iff] at hlp
    obtain ⟨-, -, hl⟩ := hlp
    exact hl.symm
  have hnd : lp.Nodup := by
    rw [hl]
    refine List.Nodup.map_on ?_ List.nodup_range
    intro i hi j hj hij
    rw [List.mem_range] at hi hj
    rw [hval i hi, hval j hj] at hij
    have hstep : ∀ i j : ℕ, i < j → b + i * max gap 1 < b + j * max gap 1 := fun i j hlt => by
      have := Nat.mul_lt_mul_of_pos_right hlt (lt_max_of_lt_right one_pos : 0 < max gap 1)
      omega
    rcases lt_trichotomy i j with hlt | heq | hgt
    · exact absurd hij (hω _ _ (hstep _ _ hlt))
    · exact heq
    · exact absurd hij.symm (hω _ _ (hstep _ _ hgt))
  refine ⟨by rw [hl]; simp, hnd, fun h0 => ?_⟩
  obtain ⟨i, hi, -⟩ := one_marked lp hnd h0
  exact ⟨i, hi⟩

/-- C133 for PxMALA, with or without tuning. -/
theorem C133_mala (R : Rng) (tot : Total M p A grad prox pri) (hgr : Measurable grad) (hp : Measurable prox)
    (h : SparsePosterior M A pri W c) (tune : Bool) (delta : ℝ) (hδ : 0 < delta) (hl : tune = true → 0 < M.par.lmda) (A0 : Arrays)
    (hA : A0.Shaped M.par.nsamples) (b g : ℕ) (hb : M.par.nburn = b) (hg : M.par.ngap = g) {Ω : Type} [MeasurableSpace Ω]
    (P : Measure Ω) [IsProbabilityMeasure P] (r r1 : Ω → R.σ) (sp : StartPoint) (x0 : Ω → Fin p → ℂ)
    (hstart : ∀ ω, initialSample M R (r ω) sp = .ok (List.ofFn (x0 ω), List.ofFn (A (x0 ω)), r1 ω))
    (ν : Measure (Fin p → ℂ)) (hν : ν = normalLaw p ∨ ν = cplxNormalLaw p) (hs : MalaStream R M.par.complex p P x0 r1 ν) :
    ∀ᵐ ω ∂P, ∀ (fuel : ℕ) (st : MalaSt R) (lp : List ℝ), malaRun M R tune delta A0 (r ω) sp fuel = .ok (some st) →
      (A0.applyAll st.ev).logPi = some lp → lp.length = M.par.nsamples ∧ lp.Nodup ∧ (lp ≠ [] → ∃ i, mapIndices lp = .ok [i]) := by
  classical
  set G := gradVec M.par.lmda A grad prox with hG
  have hAc : Continuous A := A.continuous_of_finiteDimensional
  have hprm : Measurable pri := by
    have e : pri = fun x => ∑ i, W i * ‖x i‖ := funext h.prior
    rw [e]
    fun_prop
  have hα := propAlpha_measurable (M := M) hAc.measurable hgr hp hprm
  have hAm : MeasurableSet (malaAccepts M A grad prox pri) := by
    refine acceptTest_measurable (measurable_snd.comp measurable_snd) (hα.comp ?_)
    exact (measurable_fst.comp measurable_fst).prodMk ((measurable_fst.comp (measurable_snd.comp measurable_fst)).prodMk
      (measurable_fst.comp measurable_snd))
  have htm : ∀ a : ℕ, Measurable fun q : ((Fin p → ℂ) × ℝ × ℕ) × ((Fin p → ℂ) × ℝ) =>
      if tune then tuneVec M q.1.2.1 q.1.2.2 a else q.1.2.1 := by
    intro a
    have h3 : Measurable fun q : ((Fin p → ℂ) × ℝ × ℕ) × ((Fin p → ℂ) × ℝ) => q.1.2.1 :=
      measurable_fst.comp (measurable_snd.comp measurable_fst)
    cases tune
    · simpa using h3
    simp only [if_true]
    unfold tuneVec
    have h1 : Measurable fun i : ℕ => 1 + ((a : ℝ) - 1 / 2) / ((i : ℝ) + 1) ^ (3 / 4 : ℝ) := measurable_of_countable _
    have h2 : Measurable fun q : ((Fin p → ℂ) × ℝ × ℕ) × ((Fin p → ℂ) × ℝ) => q.1.2.2 :=
      measurable_snd.comp (measurable_snd.comp measurable_fst)
    exact ((h3.mul (h1.comp h2)).max measurable_const).min measurable_const
  have him : Measurable fun q : ((Fin p → ℂ) × ℝ × ℕ) × ((Fin p → ℂ) × ℝ) => q.1.2.2 + 1 :=
    (measurable_of_countable fun i : ℕ => i + 1).comp (measurable_snd.comp (measurable_snd.comp measurable_fst))
  have hym : Measurable fun q : ((Fin p → ℂ) × ℝ × ℕ) × ((Fin p → ℂ) × ℝ) => ulaStep q.1.2.1 G q.1.1 q.2.1 := by
    rw [hG]
    unfold ulaStep gradVec
    refine measurable_pi_lambda _ fun i => ?_
    have h1 : Measurable fun x => prox x i := (measurable_pi_apply i).comp hp
    have h2 : Measurable fun x => grad (A x) i := (measurable_pi_apply i).comp (hgr.comp hAc.measurable)
    fun_prop
  set f := malaNext M A grad prox pri tune with hf
  have hfm : Measurable (Function.uncurry f) :=
    Measurable.ite hAm (hym.prodMk ((htm 1).prodMk him)) ((measurable_fst.comp measurable_fst).prodMk ((htm 0).prodMk him))
  have hseq : SeqIndep P (fun ω => (x0 ω, delta, 0)) (fun k ω => malaDraws R M.par.complex p (r1 ω) k) (ν.prod uniformLaw) := by
    refine ⟨hs.start.prodMk measurable_const, hs.meas, hs.law, fun k => ?_⟩
    have h1 : Measurable fun q : (Fin p → ℂ) × (Fin k → (Fin p → ℂ) × ℝ) => ((q.1, delta, 0), q.2) :=
      (measurable_fst.prodMk measurable_const).prodMk measurable_snd
    exact (hs.indep k).comp (φ := fun q : (Fin p → ℂ) × (Fin k → (Fin p → ℂ) × ℝ) => (((q.1, delta, 0), q.2) : ((Fin p → ℂ) × ℝ × ℕ) × (Fin k → (Fin p → ℂ) × ℝ)))
      (ψ := id) h1 measurable_id
  have ht : ∀ (d : ℝ) (i a : ℕ), 0 < d → 0 < if tune then tuneVec M d i a else d := by
    intro d i a hd
    cases tune
    · simpa using hd
    · have h1 := (tuneVec_mem (hl rfl) d i a).1
      have h2 := hl rfl
      simp only [if_true]
      refine lt_of_lt_of_le ?_ h1
      positivity
  have hstep : ∀ s v, 0 < s.2.1 → 0 < (f s v).2.1 := by
    intro s v h0
    rw [hf]
    unfold malaNext
    split
    · exact ht _ _ _ h0
    · exact ht _ _ _ h0
  have hpos : ∀ (y : Fin p → ℂ) (w : ℕ → (Fin p → ℂ) × ℝ) k, 0 < (fwState f (y, delta, 0) w k).2.1 := by
    intro y w k
    induction k with
    | zero => exact hδ
    | succ k ih => exact hstep _ _ ih
  have hne := hseq.values_ne hfm (fun s v => (rowOf M A pri (ulaStep s.2.1 G s.1 v.1)).logPi)
    ((rowOf_continuous h).measurable.comp hym) {s | 0 < s.2.1} (fun ω k => hpos _ _ _) fun s hs' l => by
      have h0 := proposal_free h s.2.1 hs' G ν (lineFree_of hν) s.1 l
      have e : {v : (Fin p → ℂ) × ℝ | (rowOf M A pri (ulaStep s.2.1 G s.1 v.1)).logPi = l} =
          {w | (rowOf M A pri (ulaStep s.2.1 G s.1 w)).logPi = l} ×ˢ Set.univ := by
        ext v
        simp
      rw [e, Measure.prod_prod, h0, zero_mul]
  filter_upwards [hne] with ω hω
  intro fuel st lp hrun hlp
  set S := fwState f (x0 ω, delta, 0) (fun k => malaDraws R M.par.complex p (r1 ω) k) with hS
  have hlen : lp.length = M.par.nsamples := (Arrays.Shaped.of_same (A0.applyAll_shape st.ev) hA).logPi lp (by rw [hlp]; rfl)
  have hrows := C49_accepted_states_partial M R tune delta A0 hA b g hb hg (r ω) sp fuel st _
    (init_vec M R tot delta (r ω) (r1 ω) sp (x0 ω) (hstart ω)) hrun
  choose! t ht1 ht2 using hrows
  have hval : ∀ k (hk : k < M.par.nsamples), lp[k]? = some
      (rowOf M A pri (ulaStep (S (t k)).2.1 G (S (t k)).1 (malaDraws R M.par.complex p (r1 ω) (t k)).1)).logPi := by
    intro k hk
    obtain ⟨s, hr, hlast, hrow⟩ := ht2 k hk
    obtain ⟨hcur, hacc⟩ := mala_follows_cur R tot tune A0 delta (x0 ω) (r1 ω) _ rfl (t k + 1) s hr
    have h1 := hrow.logPi lp (by rw [hlp]; rfl)
    rw [h1]
    have hin : (S (t k), malaDraws R M.par.complex p (r1 ω) (t k)) ∈ malaAccepts M A grad prox pri := by
      rw [hacc, List.range_succ, List.map_append] at hlast
      simp only [List.map_cons, List.map_nil, List.getLast?_append, List.getLast?_singleton, Option.some_or, Option.some.injEq] at hlast
      by_contra hn
      rw [if_neg hn] at hlast
      omega
    have hnext : (S (t k + 1)).1 = ulaStep (S (t k)).2.1 G (S (t k)).1 (malaDraws R M.par.complex p (r1 ω) (t k)).1 := by
      show (f (S (t k)) (malaDraws R M.par.complex p (r1 ω) (t k))).1 = _
      rw [hf]
      unfold malaNext
      rw [if_pos hin]
    rw [← hnext]
    have hc : s.cur = cacheOf M A grad prox pri (S (t k + 1)).1 := hcur
    rw [hc]
    simp only [mkRow, cacheOf, rowOf, misfitOf, Complex.sub_re, Complex.ofReal_re]
  have hmono : ∀ i j, i < j → j < M.par.nsamples → t i < t j := by
    intro i j hij hj
    have h1 := ht1 i (by omega)
    have h2 := ht1 j hj
    set L := (List.range st.acc.length).filter fun i => decide (st.acc[i]? = some 1 ∧ b ≤ i ∧ max g 1 ∣ i - b) with hL
    have hp : L.Pairwise (· < ·) := List.Pairwise.filter _ List.pairwise_lt_range
    obtain ⟨hi', e1⟩ := List.getElem?_eq_some_iff.mp h1
    obtain ⟨hj', e2⟩ := List.getElem?_eq_some_iff.mp h2
    rw [← e1, ← e2]
    exact List.pairwise_iff_getElem.mp hp i j hi' hj' hij
  have hnd : lp.Nodup := by
    rw [List.nodup_iff_getElem?_ne_getElem?]
    intro i j hij hj
    rw [hlen] at hj
    rw [hval i (by omega), hval j hj]
    exact fun he => hω _ _ (hmono i j hij hj) (Option.some.inj he)
  refine ⟨hlen, hnd, fun h0 => ?_⟩
  obtain ⟨i, hi, -⟩ := one_marked lp hnd h0
  exact ⟨i, hi⟩

/-- C133 from the constructors on, for path integrals with an l1 prior sampled by MYULA: for every path matrix, real data vector, threshold,
burn-in, thinning and positive number of samples, if the prior has a weight or some path crosses a pixel, the run returns with
probability one log-posteriors that all differ, and `plot_evolution` marks the one sample that is better than all others. -/
theorem C133_path_integrals (Wm : Matrix (Fin n) (Fin p) ℂ) (data : DataVec n) (hd : data.cplx = false) (sig : SigD) (σ : Fin n → ℝ)
    (hσ : IsSigma n sig σ) (t : ℝ) (ht : 0 ≤ t) (par : Params) (b gap : ℕ) (hb : par.nburn = b) (hg : par.ngap = gap)
    (hl : par.lmda ≠ 0) (hδ : 0 < par.delta) (hreal : par.complex = false) (hv : par.verbosity ≤ 0) (hN : 0 < par.nsamples)
    (htr : "logposterior" ∈ par.track) (hp : 0 < p) (hseen : par.mu ≠ 0 ∨ Wm ≠ 0) (R : Rng) {Ω : Type} [MeasurableSpace Ω]
    (P : Measure Ω) [IsProbabilityMeasure P] (r : Ω → R.σ) (hr : NormalStream R p P r) (x0 : Fin p → ℂ) :
    ∃ (F : ForwardOp n) (L : L1 ℂ) (M : Sampler n) (A0 : Arrays),
      ForwardOp.init data sig "synthesis" (some identityTransform) (some ⟨pathForward Wm, pathAdjoint Wm⟩) (some p) = .ok F ∧
      L1.init "synthesis" identityTransform.op identityTransform.adj (.scalar t) = .ok L ∧ samplerInit F L.toPrior par = .ok (M, A0) ∧
      ∀ᵐ ω ∂P, ∃ (fuel : ℕ) (st : St R) (lp : List ℝ) (i : ℕ),
        myulaRun M R A0 (r ω) (.array1 (List.ofFn x0)) fuel = .ok (some st) ∧ (A0.applyAll st.ev).logPi = some lp ∧
        lp.length = par.nsamples ∧ lp.Nodup ∧ mapIndices lp = .ok [i] ∧
        ∃ hi : i < lp.length, ∀ j (hj : j < lp.length), j ≠ i → lp[j] < lp[i] := by
  obtain ⟨V, hV, -, rfl⟩ := C35_diagonal data hd sig σ hσ
  set F : ForwardOp n := ⟨data, Matrix.diagonal fun i => ((1 / σ i ^ 2 : ℝ) : ℂ), .synthesis, some identityTransform,
    some ⟨pathForward Wm, pathAdjoint Wm⟩, some p⟩ with hFdef
  have hF : ForwardOp.init data sig "synthesis" (some identityTransform) (some ⟨pathForward Wm, pathAdjoint Wm⟩) (some p) = .ok F := by
    unfold ForwardOp.init
    rw [hV]
    rfl
  have hA : LinModel F ((Matrix.mulVecLin Wm).comp LinearMap.id) fun y => (fun z => z) (Matrix.mulVec Wm.conjTranspose y) :=
    linModel_synthesis F rfl (Matrix.mulVecLin Wm) (Matrix.mulVec Wm.conjTranspose) (pathIntegral_linearOps F Wm rfl)
      (LinearMap.id : (Fin p → ℂ) →ₗ[ℂ] (Fin p → ℂ)) (fun y => y) ⟨⟨identityTransform, rfl, fun x => rfl, fun x => rfl⟩, fun x y => rfl⟩
  set L : L1 ℂ := ⟨.synthesis, identityTransform.op, identityTransform.adj, .scalar t⟩ with hLdef
  set M : Sampler n := ⟨F, L.toPrior, par, p⟩ with hM
  have tot : Total M p ((Matrix.mulVecLin Wm).comp LinearMap.id) (fun y => Matrix.mulVec Wm.conjTranspose (F.invcov.mulVec (y - F.data.vals)))
      (fun x i => softEntry (x i) t) (fun x => ∑ i, ‖x i‖) := by
    refine ⟨rfl, hA.fwd, hA.grad, fun x => ?_, fun x => ?_, hl⟩
    · exact soft_scalar x t
    · show Except.ok (((List.ofFn x).map fun z => ‖z‖).sum) = _
      rw [map_ofFn', List.sum_ofFn]
  have hpost : SparsePosterior M ((Matrix.mulVecLin Wm).comp LinearMap.id) (fun x => ∑ i, ‖x i‖) (fun _ => 1)
      (fun i => ((1 / σ i ^ 2 : ℝ) : ℂ)) := by
    refine ⟨rfl, fun j => ?_, fun x => by simp, ?_⟩
    · rw [Complex.ofReal_re]; positivity
    · rcases hseen with h | h
      · exact ⟨⟨0, hp⟩, .inl (by simpa using h)⟩
      · obtain ⟨j, k, hjk⟩ : ∃ j k, Wm j k ≠ 0 := by
          by_contra hn
          push Not at hn
          exact h (Matrix.ext hn)
        refine ⟨k, .inr ⟨j, ?_, ?_⟩⟩
        · rw [Complex.ofReal_re]
          exact (one_div_pos.mpr (pow_pos (isSigma_pos hσ j) 2)).ne'
        · simpa [Matrix.mulVec_single] using hjk
  have hns := C99_normal_noise R P r hr
  have hgm : Continuous fun y : Fin n → ℂ => Matrix.mulVec Wm.conjTranspose (F.invcov.mulVec (y - F.data.vals)) := by
    unfold Matrix.mulVec dotProduct
    fun_prop
  have hpm : Continuous fun (x : Fin p → ℂ) i => softEntry (x i) t :=
    continuous_pi fun i => (softEntry_continuous t ht).comp (continuous_apply i)
  have hkey := C133_myula R tot hgm.measurable hpm.measurable hpost hδ (initArrays M) (initArrays_shaped M) b gap hb hg P r (normalLaw p)
    (.inl rfl) (by rw [show M.par.complex = false from hreal]; exact hns) x0
  refine ⟨F, L, M, initArrays M, hF, rfl, rfl, ?_⟩
  filter_upwards [hkey] with ω hω
  obtain ⟨-, st, h1, -, h2⟩ := C41_schedule M R (initArrays M) (initArrays_shaped M) (.inl hv) b gap hb hg tot _
    (fun x => gradlogpi_vec _ tot x) (r ω) (r ω) (.array1 (List.ofFn x0)) x0 (start_array R tot (r ω) x0) _ rfl
  have hsome : ∃ lp, ((initArrays M).applyAll st.ev).logPi = some lp := by
    rw [h2]
    have : (initArrays M).logPi = some (List.replicate par.nsamples 0) := if_pos htr
    simp [Arrays.ofRows, this]
  obtain ⟨lp, hlp⟩ := hsome
  obtain ⟨hlen, hnd, -⟩ := hω _ st lp (h1 _ le_rfl) hlp
  have hne : lp ≠ [] := by
    intro h0
    rw [h0] at hlen
    have : M.par.nsamples = 0 := hlen.symm
    exact absurd this hN.ne'
  obtain ⟨i, hi, hmax⟩ := one_marked lp hnd hne
  exact ⟨_, st, lp, i, h1 _ le_rfl, hlp, hlen, hnd, hi, hmax⟩

/-- C133 from the constructors on, for denoising with an l1 prior sampled by PxMALA (either setting, real data). -/
theorem C133_denoising (data : DataVec n) (hd : data.cplx = false) (sig : SigD) (σ : Fin n → ℝ) (hσ : IsSigma n sig σ)
    (s : String) (hs : s = "analysis" ∨ s = "synthesis") (t : ℝ) (ht : 0 ≤ t) (par : Params) (b g : ℕ) (hb : par.nburn = b)
    (hg : par.ngap = g) (hl : 0 < par.lmda) (hδ : 0 < par.delta) (hN : 0 < par.nsamples) (htr : "logposterior" ∈ par.track) (hn : 0 < n)
    (tune : Bool) (hg1 : tune = true → g ≤ 1) (R : Rng) {Ω : Type} [MeasurableSpace Ω] (P : Measure Ω) [IsProbabilityMeasure P]
    (x0 : Fin n → ℂ) (r : Ω → R.σ) (hr : MalaStream R par.complex n P (fun _ => x0) r (if par.complex then cplxNormalLaw n else normalLaw n)) :
    ∃ (F : ForwardOp n) (Pr : L1 ℂ) (M : Sampler n) (A0 : Arrays),
      ForwardOp.init data sig s (some identityTransform) (some (identityMeasurement n n)) (some n) = .ok F ∧
      L1.init s identityTransform.op identityTransform.adj (.scalar t) = .ok Pr ∧
      samplerInit F Pr.toPrior par = .ok (M, A0) ∧
      ∀ᵐ ω ∂P, ∃ (fuel : ℕ) (st : MalaSt R) (lp : List ℝ) (i : ℕ),
        malaRun M R tune par.delta A0 (r ω) (.array1 (List.ofFn x0)) fuel = .ok (some st) ∧ (A0.applyAll st.ev).logPi = some lp ∧
        lp.length = par.nsamples ∧ lp.Nodup ∧ mapIndices lp = .ok [i] ∧
        ∃ hi : i < lp.length, ∀ j (hj : j < lp.length), j ≠ i → lp[j] < lp[i] := by
  set ν : Measure (Fin n → ℂ) := if par.complex then cplxNormalLaw n else normalLaw n with hν
  have hν' : ν = normalLaw n ∨ ν = cplxNormalLaw n := by
    rw [hν]
    split
    · exact .inr rfl
    · exact .inl rfl
  have hpr : IsProbabilityMeasure ν := by
    have h0 : IsProbabilityMeasure (ν.prod uniformLaw) := by
      rw [← hr.law 0]
      exact Measure.isProbabilityMeasure_map (hr.meas 0).aemeasurable
    refine ⟨?_⟩
    have h1 := h0.measure_univ
    rw [← Set.univ_prod_univ, Measure.prod_prod] at h1
    simpa using h1
  obtain ⟨F, Pr, hF, hP, -, hinv, hnp, htot⟩ := denoise_total data hd sig σ hσ s hs t
  obtain ⟨F', Pr', M, A0, hF', hP', hM, hret, hret1⟩ := C119_denoising data hd sig σ hσ s hs t ht par b g hb hg hl R P x0 r ν hr
  rw [hF] at hF'
  rw [hP] at hP'
  obtain rfl := Except.ok.inj hF'
  obtain rfl := Except.ok.inj hP'
  have hM' : samplerInit F Pr.toPrior par = .ok (⟨F, Pr.toPrior, par, n⟩, initArrays ⟨F, Pr.toPrior, par, n⟩) := by
    simp [samplerInit, hnp]
  rw [hM'] at hM
  obtain ⟨rfl, rfl⟩ := Prod.mk.inj (Except.ok.inj hM)
  set M : Sampler n := ⟨F, Pr.toPrior, par, n⟩ with hMdef
  have tot : Total M n (LinearMap.id : (Fin n → ℂ) →ₗ[ℂ] (Fin n → ℂ)) _ _ _ := htot par hl.ne'
  have hpost : SparsePosterior M (LinearMap.id : (Fin n → ℂ) →ₗ[ℂ] (Fin n → ℂ)) (fun x => ∑ i, ‖x i‖) (fun _ => 1)
      (fun i => ((1 / σ i ^ 2 : ℝ) : ℂ)) := by
    refine ⟨hinv, fun j => ?_, fun x => by simp, ⟨0, hn⟩, .inr ⟨⟨0, hn⟩, ?_, ?_⟩⟩
    · rw [Complex.ofReal_re]; positivity
    · rw [Complex.ofReal_re]
      exact (one_div_pos.mpr (pow_pos (isSigma_pos hσ _) 2)).ne'
    · simp
  have c2 : Continuous fun (y : Fin n → ℂ) i => (y i - data.vals i) / ((σ i ^ 2 : ℝ) : ℂ) := by fun_prop
  have c3 : Continuous fun (x : Fin n → ℂ) i => softEntry (x i) t :=
    continuous_pi fun i => (softEntry_continuous t ht).comp (continuous_apply i)
  have hkey := C133_mala R tot c2.measurable c3.measurable hpost tune par.delta hδ (fun _ => hl) (initArrays M) (initArrays_shaped M) b g hb hg
    P r r _ (fun _ => x0) (fun ω => start_array R tot (r ω) x0) ν hν' hr
  have hreturn : ∀ᵐ ω ∂P, ∃ fuel st, malaRun M R tune par.delta (initArrays M) (r ω) (.array1 (List.ofFn x0)) fuel = .ok (some st) := by
    cases tune
    · exact hret
    · exact hret1 (hg1 rfl)
  refine ⟨F, Pr, M, initArrays M, hF, hP, hM', ?_⟩
  filter_upwards [hkey, hreturn] with ω hω hω2
  obtain ⟨fuel, st, hrun⟩ := hω2
  have hsome : ∃ lp, ((initArrays M).applyAll st.ev).logPi = some lp := by
    have h1 : (initArrays M).logPi = some (List.replicate par.nsamples 0) := if_pos htr
    obtain ⟨s0, T, -, -, -, -, -, -, harr, -⟩ := malaRun_result M R tune par.delta (initArrays M) (initArrays_shaped M) b hb (r ω) _ fuel st hrun
    rw [harr]
    simp [Arrays.ofRows, h1]
  obtain ⟨lp, hlp⟩ := hsome
  obtain ⟨hlen, hnd, -⟩ := hω _ st lp hrun hlp
  have hne : lp ≠ [] := by
    intro h0
    rw [h0] at hlen
    have : M.par.nsamples = 0 := hlen.symm
    exact absurd this hN.ne'
  obtain ⟨i, hi, hmax⟩ := one_marked lp hnd hne
  exact ⟨_, st, lp, i, hrun, hlp, hlen, hnd, hi, hmax⟩

/-- The hypotheses of C133 are met by one path through three pixels and the parameters of tests/test_mcmc.py:27-29. -/
example : ∃ (Wm : Matrix (Fin 1) (Fin 3) ℂ) (data : DataVec 1) (sig : SigD) (σ : Fin 1 → ℝ) (par : Params), data.cplx = false ∧
    IsSigma 1 sig σ ∧ par.nburn = (10 : ℕ) ∧ par.ngap = (5 : ℕ) ∧ par.lmda ≠ 0 ∧ 0 < par.delta ∧ par.complex = false ∧ par.verbosity ≤ 0 ∧
    0 < par.nsamples ∧ "logposterior" ∈ par.track ∧ par.mu ≠ 0 ∧ Wm ≠ 0 ∧
    NormalStream (vecRng 3) 3 (Measure.infinitePi fun _ : ℕ => Measure.pi fun _ : Fin 3 => gaussianReal 0 1) fun ω => ω := by
  refine ⟨!![1, 2, 3], ⟨false, fun _ => 4⟩, .num ((1 / 10 : ℝ) : ℂ) false, fun _ => 1 / 10,
    ⟨3 / 100000, 1 / 100000, 1, 5, 100, 10, 5, false, 0, ["logposterior", "L2", "prior", "chain"]⟩, rfl, .scalar _ (by norm_num), rfl, rfl,
    by norm_num, by norm_num, rfl, le_rfl, by norm_num, by simp, by norm_num, fun h => ?_, vecRng_normal⟩
  simpa using congrFun (congrFun h 0) 0

/-- The hypotheses of C133 for PxMALA, with tuning and thinning by 1, data of the size of the fixtures in tests/. -/
example : ∃ (data : DataVec 190) (sig : SigD) (σ : Fin 190 → ℝ) (par : Params), data.cplx = false ∧ IsSigma 190 sig σ ∧
    par.nburn = (10 : ℕ) ∧ par.ngap = (1 : ℕ) ∧ 0 < par.lmda ∧ 0 < par.delta ∧ 0 < par.nsamples ∧ "logposterior" ∈ par.track ∧
    MalaStream (iterRng 190) par.complex 190
      (Measure.infinitePi fun _ : ℕ => (Measure.pi fun _ : Fin 190 => gaussianReal 0 1).prod uniformLaw) (fun _ => fun _ => 1) (fun ω => ω)
      (if par.complex then cplxNormalLaw 190 else normalLaw 190) :=
  ⟨⟨false, fun _ => 1⟩, .num ((1 / 10 : ℝ) : ℂ) false, fun _ => 1 / 10,
    ⟨3 / 100000, 1 / 100000, 1, 5, 100, 10, 1, false, 0, ["logposterior", "L2", "prior", "chain"]⟩, rfl,
    .scalar _ (by norm_num), rfl, rfl, by norm_num, by norm_num, by norm_num, by simp, by
      rw [if_neg (by simp)]
      exact iterRng_stream _⟩

end Pxmcmc
