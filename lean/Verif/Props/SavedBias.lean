import Verif.Lemmas.SavedRatio
import Verif.Props.MalaTerminates

/-! # Property C135: the law of the samples saved by PxMALA -/

namespace Pxmcmc
open MeasureTheory ProbabilityTheory Filter
open scoped ENNReal Topology

section Defs
variable {n p : ℕ} (M : Sampler n) (fwd : (Fin p → ℂ) → (Fin n → ℂ)) (grad : (Fin n → ℂ) → (Fin p → ℂ))
    (prox : (Fin p → ℂ) → (Fin p → ℂ)) (pri : (Fin p → ℂ) → ℝ) (delta : ℝ)

/-- The probability that a proposal from `x` is accepted, when the noise has the law `ν`. -/
noncomputable def acceptProb (ν : Measure (Fin p → ℂ)) (x : Fin p → ℂ) : ℝ≥0∞ :=
  ∫⁻ w, ENNReal.ofReal (min 1 (Real.exp
    (logAlphaVec M fwd grad prox pri delta x (ulaStep delta (gradVec M.par.lmda fwd grad prox) x w)).re)) ∂ν

/-- The current sample after an iteration from `x` without tuning, with noise `v.1` and uniform number `v.2`. -/
noncomputable def iterMap (x : Fin p → ℂ) (v : (Fin p → ℂ) × ℝ) : Fin p → ℂ :=
  haveI := Classical.dec (acceptTest v.2 (logAlphaVec M fwd grad prox pri delta x (ulaStep delta (gradVec M.par.lmda fwd grad prox) x v.1)))
  if acceptTest v.2 (logAlphaVec M fwd grad prox pri delta x (ulaStep delta (gradVec M.par.lmda fwd grad prox) x v.1))
  then ulaStep delta (gradVec M.par.lmda fwd grad prox) x v.1 else x

/-- An iteration keeps the law `ρ` of the current sample. -/
def KeepsLaw (ν ρ : Measure (Fin p → ℂ)) : Prop :=
  (ρ.prod (ν.prod uniformLaw)).map (fun q => iterMap M fwd grad prox pri delta q.1 q.2) = ρ

/-- The law `ρ`, reweighted with the acceptance probability. -/
noncomputable def acceptedLaw (ν ρ : Measure (Fin p → ℂ)) : Measure (Fin p → ℂ) :=
  (∫⁻ x, acceptProb M fwd grad prox pri delta ν x ∂ρ)⁻¹ • ρ.withDensity (acceptProb M fwd grad prox pri delta ν)

end Defs

variable {n p : ℕ} {M : Sampler n} {fwd : (Fin p → ℂ) → (Fin n → ℂ)} {grad : (Fin n → ℂ) → (Fin p → ℂ)}
    {prox : (Fin p → ℂ) → (Fin p → ℂ)} {pri : (Fin p → ℂ) → ℝ}

/-- The pairs of a current sample and draws with an acceptance. -/
def accSet (M : Sampler n) (fwd : (Fin p → ℂ) → (Fin n → ℂ)) (grad : (Fin n → ℂ) → (Fin p → ℂ))
    (prox : (Fin p → ℂ) → (Fin p → ℂ)) (pri : (Fin p → ℂ) → ℝ) (delta : ℝ) : Set ((Fin p → ℂ) × ((Fin p → ℂ) × ℝ)) :=
  {q | acceptTest q.2.2 (logAlphaVec M fwd grad prox pri delta q.1 (ulaStep delta (gradVec M.par.lmda fwd grad prox) q.1 q.2.1))}

theorem accSet_iff (delta : ℝ) (k : ℕ) (x : Fin p → ℂ) (v : (Fin p → ℂ) × ℝ) :
    ((x, delta, k), v) ∈ malaAccepts M fwd grad prox pri ↔ (x, v) ∈ accSet M fwd grad prox pri delta := Iff.rfl

open Classical in
theorem iterMap_eq (delta : ℝ) (x : Fin p → ℂ) (v : (Fin p → ℂ) × ℝ) :
    iterMap M fwd grad prox pri delta x v = if (x, v) ∈ accSet M fwd grad prox pri delta
      then ulaStep delta (gradVec M.par.lmda fwd grad prox) x v.1 else x := by
  unfold iterMap accSet
  simp only [Set.mem_ofPred_eq]

theorem iterMap_next (delta : ℝ) : (fun (x : Fin p → ℂ) v => (malaNext M fwd grad prox pri false (x, delta, 0) v).1) =
    iterMap M fwd grad prox pri delta := by
  classical
  funext x v
  rw [iterMap_eq]
  unfold malaNext
  by_cases h : (x, v) ∈ accSet M fwd grad prox pri delta
  · rw [if_pos ((accSet_iff delta 0 x v).mpr h), if_pos h]
  · rw [if_neg (fun hh => h ((accSet_iff delta 0 x v).mp hh)), if_neg h]

theorem accSet_meas (hf : Measurable fwd) (hgr : Measurable grad) (hp : Measurable prox) (hq : Measurable pri) (delta : ℝ) :
    MeasurableSet (accSet M fwd grad prox pri delta) := by
  have hα := propAlpha_measurable (M := M) hf hgr hp hq
  have hG : Measurable fun q : (Fin p → ℂ) × ((Fin p → ℂ) × ℝ) => propAlpha M fwd grad prox pri (q.1, delta, q.2.1) :=
    hα.comp (measurable_fst.prodMk (measurable_const.prodMk (measurable_fst.comp measurable_snd)))
  exact acceptTest_measurable (measurable_snd.comp measurable_snd) hG

theorem iterMap_meas (hf : Measurable fwd) (hgr : Measurable grad) (hp : Measurable prox) (hq : Measurable pri) (delta : ℝ) :
    Measurable (Function.uncurry (iterMap M fwd grad prox pri delta)) := by
  classical
  have hyv : Measurable fun q : (Fin p → ℂ) × ((Fin p → ℂ) × ℝ) => ulaStep delta (gradVec M.par.lmda fwd grad prox) q.1 q.2.1 := by
    unfold ulaStep gradVec
    refine measurable_pi_lambda _ fun i => ?_
    have h1 : Measurable fun x => prox x i := (measurable_pi_apply i).comp hp
    have h2 : Measurable fun x => grad (fwd x) i := (measurable_pi_apply i).comp (hgr.comp hf)
    fun_prop
  have e : Function.uncurry (iterMap M fwd grad prox pri delta) = fun q => if q ∈ accSet M fwd grad prox pri delta
      then ulaStep delta (gradVec M.par.lmda fwd grad prox) q.1 q.2.1 else q.1 := funext fun q => iterMap_eq delta q.1 q.2
  rw [e]
  exact Measurable.ite (accSet_meas hf hgr hp hq delta) hyv measurable_fst

theorem iterMap_rej (delta : ℝ) (x : Fin p → ℂ) (v : (Fin p → ℂ) × ℝ) (h : (x, v) ∉ accSet M fwd grad prox pri delta) :
    iterMap M fwd grad prox pri delta x v = x := by
  classical
  rw [iterMap_eq, if_neg h]

/-- The acceptance probability is the probability of the acceptance set. -/
theorem acceptProb_eq (hf : Measurable fwd) (hgr : Measurable grad) (hp : Measurable prox) (hq : Measurable pri) (delta : ℝ)
    (ν : Measure (Fin p → ℂ)) [IsProbabilityMeasure ν] (x : Fin p → ℂ) :
    (ν.prod uniformLaw) {v | (x, v) ∈ accSet M fwd grad prox pri delta} = acceptProb M fwd grad prox pri delta ν x := by
  have hm : MeasurableSet {v | (x, v) ∈ accSet M fwd grad prox pri delta} :=
    measurable_prodMk_left (accSet_meas hf hgr hp hq delta)
  rw [Measure.prod_apply hm]
  unfold acceptProb
  refine lintegral_congr fun w => ?_
  rw [← C52_probability, Measure.restrict_apply (measurable_prodMk_left hm), Set.inter_comm]
  rfl

theorem acceptProb_ne_zero (hf : Measurable fwd) (hgr : Measurable grad) (hp : Measurable prox) (hq : Measurable pri) (delta : ℝ)
    (ν : Measure (Fin p → ℂ)) [IsProbabilityMeasure ν] (x : Fin p → ℂ) : acceptProb M fwd grad prox pri delta ν x ≠ 0 := by
  rw [← acceptProb_eq hf hgr hp hq]
  exact accept_pos ν (fun w => propAlpha M fwd grad prox pri (x, delta, w))
    ((propAlpha_measurable hf hgr hp hq).comp (measurable_const.prodMk (measurable_const.prodMk measurable_id)))

theorem acceptProb_meas (hf : Measurable fwd) (hgr : Measurable grad) (hp : Measurable prox) (hq : Measurable pri) (delta : ℝ)
    (ν : Measure (Fin p → ℂ)) [IsProbabilityMeasure ν] : Measurable (acceptProb M fwd grad prox pri delta ν) := by
  have e : acceptProb M fwd grad prox pri delta ν = fun x => (ν.prod uniformLaw) {v | (x, v) ∈ accSet M fwd grad prox pri delta} :=
    funext fun x => (acceptProb_eq hf hgr hp hq delta ν x).symm
  rw [e]
  exact measurable_measure_prodMk_left (accSet_meas hf hgr hp hq delta)

theorem acceptProb_le_one (delta : ℝ) (ν : Measure (Fin p → ℂ)) [IsProbabilityMeasure ν] (x : Fin p → ℂ) :
    acceptProb M fwd grad prox pri delta ν x ≤ 1 := by
  unfold acceptProb
  refine (lintegral_mono (g := fun _ => 1) fun w => ?_).trans (by simp)
  rw [ENNReal.ofReal_le_one]
  exact min_le_left _ _

theorem filter_range_count (Q : ℕ → Prop) [DecidablePred Q] (N k t : ℕ)
    (h : ((List.range N).filter fun i => decide (Q i))[k]? = some t) : t < N ∧ Q t ∧ Nat.count Q t = k := by
  induction N with
  | zero => simp at h
  | succ N ih =>
    have hlen : ((List.range N).filter fun i => decide (Q i)).length = Nat.count Q N := by
      rw [Nat.count_eq_card_filter_range, ← List.countP_eq_length_filter]
      clear ih h
      induction N with
      | zero => rfl
      | succ N ih =>
        rw [List.range_succ, List.countP_append, ih, Finset.range_add_one, Finset.filter_insert]
        by_cases hN : Q N
        · rw [if_pos hN, Finset.card_insert_of_notMem (by simp)]
          simp [hN]
        · rw [if_neg hN]
          simp [hN]
    rw [List.range_succ, List.filter_append, List.getElem?_append] at h
    by_cases hk : k < ((List.range N).filter fun i => decide (Q i)).length
    · rw [if_pos hk] at h
      obtain ⟨h1, h2, h3⟩ := ih h
      exact ⟨by omega, h2, h3⟩
    · rw [if_neg hk] at h
      by_cases hN : Q N
      · simp only [List.filter_cons, hN, decide_true, if_true, List.filter_nil] at h
        rw [hlen] at h hk
        obtain ⟨h1, h2⟩ := List.getElem?_eq_some_iff.mp h
        simp only [List.length_cons, List.length_nil] at h1
        have h3 : k = Nat.count Q N := by omega
        subst h3
        simp at h2
        subst h2
        exact ⟨by omega, hN, rfl⟩
      · simp [hN] at h

/-- The rows of a PxMALA run without tuning: row `k` is the state after the accepted grid iteration with `k` earlier ones. -/
theorem mala_row_at (R : Rng) (tot : Total M p fwd grad prox pri) (delta : ℝ) (A0 : Arrays) (hA : A0.Shaped M.par.nsamples) (b g : ℕ)
    (hb : M.par.nburn = b) (hg : M.par.ngap = g) (r r1 : R.σ) (sp : StartPoint) (x0 : Fin p → ℂ)
    (hstart : initialSample M R r sp = .ok (List.ofFn x0, List.ofFn (fwd x0), r1)) (fuel : ℕ) (st : MalaSt R)
    (hrun : malaRun M R false delta A0 r sp fuel = .ok (some st)) (rows : Fin M.par.nsamples → Fin p → ℂ)
    (hrows : (A0.applyAll st.ev).chain = some (List.ofFn fun k : Fin M.par.nsamples => List.ofFn (rows k))) (k : Fin M.par.nsamples) :
    ∃ t, b ≤ t ∧ max g 1 ∣ t - b ∧
      (fwState (iterMap M fwd grad prox pri delta) x0 (malaDraws R M.par.complex p r1) t, malaDraws R M.par.complex p r1 t) ∈
        accSet M fwd grad prox pri delta ∧
      hits (iterMap M fwd grad prox pri delta) (accSet M fwd grad prox pri delta) b (max g 1) x0 (malaDraws R M.par.complex p r1) t = k ∧
      rows k = fun i => store M.par.complex (fwState (iterMap M fwd grad prox pri delta) x0 (malaDraws R M.par.complex p r1) (t + 1) i) := by
  classical
  have hinit := init_vec M R tot delta r r1 sp x0 hstart
  obtain ⟨t, ht, s, hs, -, hrow⟩ := C49_accepted_states_partial M R false delta A0 hA b g hb hg r sp fuel st _ hinit hrun k k.2
  obtain ⟨s0', sf, m, h0', hr, -, -, rfl⟩ := malaRun_ok M R false delta A0 r sp fuel st hrun
  rw [hinit] at h0'
  obtain rfl := Except.ok.inj h0'
  have hacc := mala_follows R tot false A0 delta x0 r1 _ rfl m sf hr
  have hacc' : sf.acc = (List.range m).map fun j => if (fwState (iterMap M fwd grad prox pri delta) x0 (malaDraws R M.par.complex p r1) j,
      malaDraws R M.par.complex p r1 j) ∈ accSet M fwd grad prox pri delta then 1 else 0 := by
    rw [hacc]
    refine List.map_congr_left fun j _ => ?_
    rw [untuned_state, iterMap_next]
    rfl
  have hlen : sf.acc.length = m := by rw [hacc']; simp
  simp only at ht
  rw [hlen] at ht
  have e : ((List.range m).filter fun i => decide (sf.acc[i]? = some 1 ∧ b ≤ i ∧ max g 1 ∣ i - b)) =
      (List.range m).filter fun i => decide (b ≤ i ∧ max g 1 ∣ i - b ∧
        (fwState (iterMap M fwd grad prox pri delta) x0 (malaDraws R M.par.complex p r1) i, malaDraws R M.par.complex p r1 i) ∈
          accSet M fwd grad prox pri delta) := by
    refine List.filter_congr fun i hi => ?_
    have hi' := List.mem_range.mp hi
    rw [hacc', List.getElem?_map, List.getElem?_range hi']
    simp only [Option.map_some, Option.some.injEq, decide_eq_decide]
    constructor
    · rintro ⟨a, b, c⟩
      refine ⟨b, c, ?_⟩
      by_contra hn
      rw [if_neg hn] at a
      omega
    · rintro ⟨a, b, c⟩
      exact ⟨if_pos c, a, b⟩
  rw [e] at ht
  obtain ⟨-, ⟨h1, h2, h3⟩, h4⟩ := filter_range_count _ m k t ht
  refine ⟨t, h1, h2, h3, ?_, ?_⟩
  · unfold hits
    convert h4
  · obtain ⟨hcur, -⟩ := mala_follows_cur R tot false A0 delta x0 r1 _ rfl (t + 1) s hs
    have hch := hrow.chain _ (by rw [hrows]; rfl)
    rw [hcur, untuned_state, iterMap_next] at hch
    simp only [cacheOf] at hch
    rw [mkRow_vec M tot.nparams] at hch
    simp only [List.getElem?_ofFn, k.2, dif_pos, Option.some.injEq] at hch
    exact List.ofFn_injective hch

/-- Random runs of PxMALA without tuning that return with probability one, the draws they use and the rows of their `chain` arrays. -/
structure MalaRuns (M : Sampler n) (R : Rng) (fwd : (Fin p → ℂ) → (Fin n → ℂ)) (delta : ℝ) (A0 : Arrays) (b g : ℕ) {Ω : Type} [MeasurableSpace Ω]
    (P : Measure Ω) (r r1 : Ω → R.σ) (sp : Ω → StartPoint) (x0 : Ω → Fin p → ℂ) (ν : Measure (Fin p → ℂ)) (fuel : Ω → ℕ) (st : Ω → MalaSt R)
    (rows : Ω → Fin M.par.nsamples → Fin p → ℂ) : Prop where
  shaped : A0.Shaped M.par.nsamples
  nburn : M.par.nburn = b
  ngap : M.par.ngap = g
  start : ∀ ω, initialSample M R (r ω) (sp ω) = .ok (List.ofFn (x0 ω), List.ofFn (fwd (x0 ω)), r1 ω)
  stream : MalaStream R M.par.complex p P x0 r1 ν
  ran : ∀ᵐ ω ∂P, malaRun M R false delta A0 (r ω) (sp ω) (fuel ω) = .ok (some (st ω))
  rows : ∀ᵐ ω ∂P, (A0.applyAll (st ω).ev).chain = some (List.ofFn fun k : Fin M.par.nsamples => List.ofFn (rows ω k))

theorem store_meas (cplx : Bool) : Measurable fun (z : Fin p → ℂ) i => store cplx (z i) := by
  cases cplx
  · show Measurable fun (z : Fin p → ℂ) i => (((z i).re : ℝ) : ℂ)
    fun_prop
  · exact measurable_id

section Runs
variable {R : Rng} {delta : ℝ} {A0 : Arrays} {b g : ℕ} {Ω : Type} [MeasurableSpace Ω] {P : Measure Ω} [IsProbabilityMeasure P]
  {r r1 : Ω → R.σ} {sp : Ω → StartPoint} {x0 : Ω → Fin p → ℂ} {ν : Measure (Fin p → ℂ)} [IsProbabilityMeasure ν] {fuel : Ω → ℕ}
  {st : Ω → MalaSt R} {rows : Ω → Fin M.par.nsamples → Fin p → ℂ}

omit [IsProbabilityMeasure P] [IsProbabilityMeasure ν] in
theorem MalaRuns.seq (h : MalaRuns M R fwd delta A0 b g P r r1 sp x0 ν fuel st rows) :
    SeqIndep P x0 (fun k ω => malaDraws R M.par.complex p (r1 ω) k) (ν.prod uniformLaw) :=
  ⟨h.stream.start, h.stream.meas, h.stream.law, h.stream.indep⟩

/-- The probability that a row lies in a set. -/
theorem MalaRuns.event (h : MalaRuns M R fwd delta A0 b g P r r1 sp x0 ν fuel st rows) (tot : Total M p fwd grad prox pri)
    (hf : Measurable fwd) (hgr : Measurable grad) (hp : Measurable prox) (hq : Measurable pri) (k : Fin M.par.nsamples)
    (S : Set (Fin p → ℂ)) (hS : MeasurableSet S) :
    P {ω | rows ω k ∈ S} = rowMean (ν.prod uniformLaw) P (iterMap M fwd grad prox pri delta) (accSet M fwd grad prox pri delta) b
      (max g 1 - 1 + 1) x0 (fun k ω => malaDraws R M.par.complex p (r1 ω) k) k
      (Set.indicator ((fun (z : Fin p → ℂ) i => store M.par.complex (z i)) ⁻¹' S) 1) := by
  classical
  have hg1 : max g 1 - 1 + 1 = max g 1 := Nat.sub_add_cancel (le_max_right g 1)
  rw [← rowMean_event h.seq (iterMap_meas hf hgr hp hq delta) (accSet_meas hf hgr hp hq delta) b (max g 1 - 1) k _
    (store_meas M.par.complex hS), hg1]
  refine measure_congr ?_
  filter_upwards [h.ran, h.rows] with ω h1 h2
  obtain ⟨t, t1, t2, t3, t4, t5⟩ := mala_row_at R tot delta A0 h.shaped b g h.nburn h.ngap (r ω) (r1 ω) (sp ω) (x0 ω) (h.start ω) (fuel ω)
    (st ω) h1 (rows ω) h2 k
  have huniq : ∀ t', b ≤ t' → max g 1 ∣ t' - b → (fwState (iterMap M fwd grad prox pri delta) (x0 ω) (malaDraws R M.par.complex p (r1 ω)) t',
      malaDraws R M.par.complex p (r1 ω) t') ∈ accSet M fwd grad prox pri delta →
      hits (iterMap M fwd grad prox pri delta) (accSet M fwd grad prox pri delta) b (max g 1) (x0 ω) (malaDraws R M.par.complex p (r1 ω)) t' = k →
      t' = t := by
    intro t' a1 a2 a3 a4
    have mono : ∀ u v, u < v → b ≤ u → max g 1 ∣ u - b → (fwState (iterMap M fwd grad prox pri delta) (x0 ω) (malaDraws R M.par.complex p (r1 ω)) u,
      malaDraws R M.par.complex p (r1 ω) u) ∈ accSet M fwd grad prox pri delta →
      hits (iterMap M fwd grad prox pri delta) (accSet M fwd grad prox pri delta) b (max g 1) (x0 ω) (malaDraws R M.par.complex p (r1 ω)) u <
      hits (iterMap M fwd grad prox pri delta) (accSet M fwd grad prox pri delta) b (max g 1) (x0 ω) (malaDraws R M.par.complex p (r1 ω)) v := by
      intro u v huv c1 c2 c3
      have e := hits_grid (f := iterMap M fwd grad prox pri delta) (A := accSet M fwd grad prox pri delta) (b := b) (h := max g 1)
        (s := x0 ω) (v := malaDraws R M.par.complex p (r1 ω)) (k := u) ⟨c1, c2⟩
      rw [if_pos c3] at e
      have : hits (iterMap M fwd grad prox pri delta) (accSet M fwd grad prox pri delta) b (max g 1) (x0 ω) (malaDraws R M.par.complex p (r1 ω)) (u + 1) ≤
        hits (iterMap M fwd grad prox pri delta) (accSet M fwd grad prox pri delta) b (max g 1) (x0 ω) (malaDraws R M.par.complex p (r1 ω)) v :=
        Nat.count_monotone _ huv
      omega
    rcases lt_trichotomy t' t with h' | h' | h'
    · have := mono _ _ h' a1 a2 a3
      omega
    · exact h'
    · have := mono _ _ h' t1 t2 t3
      omega
  apply propext
  constructor
  · intro hk
    have hk : rows ω k ∈ S := hk
    rw [t5] at hk
    exact ⟨t, t1, t2, t3, t4, hk⟩
  · rintro ⟨t', a1, a2, a3, a4, a5⟩
    obtain rfl := huniq t' a1 a2 a3 a4
    show rows ω k ∈ S
    rw [t5]
    exact a5

variable {ρ : Measure (Fin p → ℂ)} [IsProbabilityMeasure ρ]

theorem acceptProb_mass (hf : Measurable fwd) (hgr : Measurable grad) (hp : Measurable prox) (hq : Measurable pri) :
    ∫⁻ x, acceptProb M fwd grad prox pri delta ν x ∂ρ ≠ 0 ∧ ∫⁻ x, acceptProb M fwd grad prox pri delta ν x ∂ρ ≠ ∞ := by
  constructor
  · rw [ne_eq, lintegral_eq_zero_iff (acceptProb_meas hf hgr hp hq delta ν)]
    intro h0
    have : ∀ᵐ x ∂ρ, False := by
      filter_upwards [h0] with x hx
      exact acceptProb_ne_zero hf hgr hp hq delta ν x hx
    rw [ae_iff] at this
    simp at this
  · refine ne_top_of_le_ne_top ENNReal.one_ne_top ((lintegral_mono (g := fun _ => 1) fun x => acceptProb_le_one delta ν x).trans ?_)
    simp

/-- The reweighted law is a probability measure. -/
theorem acceptedLaw_prob (hf : Measurable fwd) (hgr : Measurable grad) (hp : Measurable prox) (hq : Measurable pri) :
    IsProbabilityMeasure (acceptedLaw M fwd grad prox pri delta ν ρ) := by
  obtain ⟨h0, h1⟩ := acceptProb_mass (M := M) (delta := delta) (ν := ν) (ρ := ρ) hf hgr hp hq
  refine ⟨?_⟩
  rw [acceptedLaw, Measure.smul_apply, withDensity_apply _ MeasurableSet.univ, Measure.restrict_univ, smul_eq_mul, ENNReal.inv_mul_cancel h0 h1]

/-- Means under the reweighted law. -/
theorem acceptedLaw_mean (hf : Measurable fwd) (hgr : Measurable grad) (hp : Measurable prox) (hq : Measurable pri)
    (hinv : KeepsLaw M fwd grad prox pri delta ν ρ) (φ : (Fin p → ℂ) → ℝ≥0∞) (hφ : Measurable φ) (hφ1 : ∀ x, φ x ≤ 1) :
    ∫⁻ x, φ x ∂(acceptedLaw M fwd grad prox pri delta ν ρ) = (∫⁻ x, acceptProb M fwd grad prox pri delta ν x ∂ρ)⁻¹ *
      ∫⁻ x, accF (ν.prod uniformLaw) (iterMap M fwd grad prox pri delta) (accSet M fwd grad prox pri delta) φ x ∂ρ := by
  rw [acceptedLaw, lintegral_smul_measure, smul_eq_mul, lintegral_withDensity_eq_lintegral_mul _ (acceptProb_meas hf hgr hp hq delta ν) hφ,
    acc_weighted (iterMap_meas hf hgr hp hq delta) (accSet_meas hf hgr hp hq delta) (iterMap_rej delta) hinv hφ hφ1]
  congr 1
  refine lintegral_congr fun x => ?_
  rw [acceptProb_eq hf hgr hp hq, mul_comm]
  rfl

theorem stepLaw_mean {E V : Type} [MeasurableSpace E] [MeasurableSpace V] {κ : Measure V} [IsProbabilityMeasure κ] {f : E → V → E}
    (hf : Measurable (Function.uncurry f)) (μ : Measure E) [IsProbabilityMeasure μ] (k : ℕ) (φ : E → ℝ≥0∞) (hφ : Measurable φ) :
    ∫⁻ x, φ x ∂((stepLaw f κ)^[k] μ) = ∫⁻ x, (fullF κ f)^[k] φ x ∂μ := by
  induction k generalizing φ with
  | zero => rfl
  | succ k ih =>
    have hp := stepLaw_iter_prob κ f hf μ k
    rw [Function.iterate_succ_apply', Function.iterate_succ_apply, ← ih _ (fullF_meas hf hφ)]
    have h1 : ∫⁻ x, φ x ∂(stepLaw f κ ((stepLaw f κ)^[k] μ)) = ∫⁻ q, φ (Function.uncurry f q) ∂(((stepLaw f κ)^[k] μ).prod κ) :=
      lintegral_map hφ hf
    rw [h1, lintegral_prod _ (show Measurable fun q => φ (Function.uncurry f q) from hφ.comp hf).aemeasurable]
    rfl

/-- C135 (partial): when an iteration keeps the law `ρ`, the law that the saved rows keep is not `ρ` but `ρ` reweighted with the acceptance
probability: if the start has the reweighted law and `nburn = max(ngap, 1) - 1`, so that all saved rows are equally far apart, every row has
the reweighted law.  Missing: the law `ρ` itself (`C135_refuted`). -/
theorem C135_rows_partial (tot : Total M p fwd grad prox pri) (hf : Measurable fwd) (hgr : Measurable grad) (hp : Measurable prox)
    (hq : Measurable pri) (hinv : KeepsLaw M fwd grad prox pri delta ν ρ)
    (h : MalaRuns M R fwd delta A0 b g P r r1 sp x0 ν fuel st rows) (hb : b = max g 1 - 1)
    (hx0 : P.map x0 = acceptedLaw M fwd grad prox pri delta ν ρ) (k : Fin M.par.nsamples) (S : Set (Fin p → ℂ)) (hS : MeasurableSet S) :
    P {ω | rows ω k ∈ S} = acceptedLaw M fwd grad prox pri delta ν ρ {z | (fun i => store M.par.complex (z i)) ∈ S} := by
  have hfm := iterMap_meas (M := M) hf hgr hp hq delta
  have hAm := accSet_meas (M := M) hf hgr hp hq delta
  have hpos : ∀ s, (ν.prod uniformLaw) {v | (s, v) ∈ accSet M fwd grad prox pri delta} ≠ 0 := fun s => by
    rw [acceptProb_eq hf hgr hp hq]
    exact acceptProb_ne_zero hf hgr hp hq delta ν s
  have hpr := acceptedLaw_prob (M := M) (delta := delta) (ν := ν) (ρ := ρ) hf hgr hp hq
  have key : ∀ (j : ℕ) (φ : (Fin p → ℂ) → ℝ≥0∞), Measurable φ → (∀ x, φ x ≤ 1) →
      rowMean (ν.prod uniformLaw) P (iterMap M fwd grad prox pri delta) (accSet M fwd grad prox pri delta) b
        (max g 1 - 1 + 1) x0 (fun k ω => malaDraws R M.par.complex p (r1 ω) k) j φ =
      ∫⁻ x, φ x ∂(acceptedLaw M fwd grad prox pri delta ν ρ) := by
    intro j
    have fixed : ∀ φ : (Fin p → ℂ) → ℝ≥0∞, Measurable φ → (∀ x, φ x ≤ 1) →
        ∫⁻ x, (fullF (ν.prod uniformLaw) (iterMap M fwd grad prox pri delta))^[max g 1 - 1]
          (pot (ν.prod uniformLaw) (iterMap M fwd grad prox pri delta) (accSet M fwd grad prox pri delta) (max g 1 - 1) φ) x
            ∂(acceptedLaw M fwd grad prox pri delta ν ρ) = ∫⁻ x, φ x ∂(acceptedLaw M fwd grad prox pri delta ν ρ) := by
      intro φ hφ hφ1
      rw [acceptedLaw_mean hf hgr hp hq hinv _ (iter_meas hfm (pot_meas hfm hAm hφ _) _) (iter_le_one (pot_le_one hfm hAm hφ1 _) _),
        acceptedLaw_mean hf hgr hp hq hinv φ hφ hφ1, weighted_fixed hfm hAm hinv _ hφ hφ1]
    induction j with
    | zero =>
      intro φ hφ hφ1
      rw [rowMean_zero h.seq hfm hAm (iterMap_rej delta) hpos b _ hφ hφ1, hx0, stepLaw_mean hfm _ b _ (pot_meas hfm hAm hφ _)]
      have := fixed φ hφ hφ1
      rw [← hb] at this ⊢
      exact this
    | succ j ih =>
      intro φ hφ hφ1
      rw [rowMean_succ h.seq hfm hAm (iterMap_rej delta) hpos b _ j hφ hφ1,
        ih _ (iter_meas hfm (pot_meas hfm hAm hφ _) _) (iter_le_one (pot_le_one hfm hAm hφ1 _) _), fixed φ hφ hφ1]
  have hSm := store_meas (p := p) M.par.complex hS
  rw [h.event tot hf hgr hp hq k S hS, key k _ (measurable_one.indicator hSm) (fun x => Set.indicator_le_self' (fun _ _ => zero_le) x),
    lintegral_indicator_one hSm]
  rfl

/-- C135 (partial): when iterations from `ρ` do not change the acceptance probability, the saved rows do have the law `ρ` that an iteration
keeps, for every burn-in and thinning.  Missing: the general case (`C135_refuted`). -/
theorem C135_preserved_partial (tot : Total M p fwd grad prox pri) (hf : Measurable fwd) (hgr : Measurable grad) (hp : Measurable prox)
    (hq : Measurable pri) (hinv : KeepsLaw M fwd grad prox pri delta ν ρ)
    (h : MalaRuns M R fwd delta A0 b g P r r1 sp x0 ν fuel st rows) (hx0 : P.map x0 = ρ)
    (hc : ∀ᵐ q ∂(ρ.prod (ν.prod uniformLaw)), acceptProb M fwd grad prox pri delta ν (iterMap M fwd grad prox pri delta q.1 q.2) =
      acceptProb M fwd grad prox pri delta ν q.1) (k : Fin M.par.nsamples) (S : Set (Fin p → ℂ)) (hS : MeasurableSet S) :
    P {ω | rows ω k ∈ S} = ρ {z | (fun i => store M.par.complex (z i)) ∈ S} := by
  have hfm := iterMap_meas (M := M) hf hgr hp hq delta
  have hAm := accSet_meas (M := M) hf hgr hp hq delta
  have hW : accW (ν.prod uniformLaw) (accSet M fwd grad prox pri delta) = acceptProb M fwd grad prox pri delta ν :=
    funext fun x => acceptProb_eq hf hgr hp hq delta ν x
  have hpos : ∀ s, (ν.prod uniformLaw) {v | (s, v) ∈ accSet M fwd grad prox pri delta} ≠ 0 := fun s => by
    rw [acceptProb_eq hf hgr hp hq]
    exact acceptProb_ne_zero hf hgr hp hq delta ν s
  rw [← hW] at hc
  have key : ∀ (j : ℕ) (φ : (Fin p → ℂ) → ℝ≥0∞), Measurable φ → (∀ x, φ x ≤ 1) →
      rowMean (ν.prod uniformLaw) P (iterMap M fwd grad prox pri delta) (accSet M fwd grad prox pri delta) b
        (max g 1 - 1 + 1) x0 (fun k ω => malaDraws R M.par.complex p (r1 ω) k) j φ = ∫⁻ x, φ x ∂ρ := by
    intro j
    induction j with
    | zero =>
      intro φ hφ hφ1
      rw [rowMean_zero h.seq hfm hAm (iterMap_rej delta) hpos b _ hφ hφ1, hx0, stepLaw_mean hfm _ b _ (pot_meas hfm hAm hφ _),
        iter_invariant hfm hinv _ (pot_meas hfm hAm hφ _), pot_mean hfm hAm (iterMap_rej delta) hpos hinv hc _ hφ hφ1]
    | succ j ih =>
      intro φ hφ hφ1
      rw [rowMean_succ h.seq hfm hAm (iterMap_rej delta) hpos b _ j hφ hφ1,
        ih _ (iter_meas hfm (pot_meas hfm hAm hφ _) _) (iter_le_one (pot_le_one hfm hAm hφ1 _) _),
        iter_invariant hfm hinv _ (pot_meas hfm hAm hφ _), pot_mean hfm hAm (iterMap_rej delta) hpos hinv hc _ hφ hφ1]
  have hSm := store_meas (p := p) M.par.complex hS
  rw [h.event tot hf hgr hp hq k S hS, key k _ (measurable_one.indicator hSm) (fun x => Set.indicator_le_self' (fun _ _ => zero_le) x),
    lintegral_indicator_one hSm]
  rfl

/-- The first row without thinning: the mean, over the current sample at the end of burn-in, of the law of an accepted proposal. -/
theorem first_row (tot : Total M p fwd grad prox pri) (hf : Measurable fwd) (hgr : Measurable grad) (hp : Measurable prox)
    (hq : Measurable pri) (hinv : KeepsLaw M fwd grad prox pri delta ν ρ)
    (h : MalaRuns M R fwd delta A0 b g P r r1 sp x0 ν fuel st rows) (hg : g ≤ 1) (hx0 : P.map x0 = ρ) (hk : 0 < M.par.nsamples)
    (S : Set (Fin p → ℂ)) (hS : MeasurableSet S) :
    P {ω | rows ω ⟨0, hk⟩ ∈ S} = ∫⁻ x, accF (ν.prod uniformLaw) (iterMap M fwd grad prox pri delta) (accSet M fwd grad prox pri delta)
      (Set.indicator {z | (fun i => store M.par.complex (z i)) ∈ S} 1) x / acceptProb M fwd grad prox pri delta ν x ∂ρ := by
  have hfm := iterMap_meas (M := M) hf hgr hp hq delta
  have hAm := accSet_meas (M := M) hf hgr hp hq delta
  have hpos : ∀ s, (ν.prod uniformLaw) {v | (s, v) ∈ accSet M fwd grad prox pri delta} ≠ 0 := fun s => by
    rw [acceptProb_eq hf hgr hp hq]
    exact acceptProb_ne_zero hf hgr hp hq delta ν s
  have hSm := store_meas (p := p) M.par.complex hS
  have hφ : Measurable (Set.indicator ((fun (z : Fin p → ℂ) i => store M.par.complex (z i)) ⁻¹' S) (1 : (Fin p → ℂ) → ℝ≥0∞)) :=
    measurable_one.indicator hSm
  have hφ1 : ∀ x, Set.indicator ((fun (z : Fin p → ℂ) i => store M.par.complex (z i)) ⁻¹' S) (1 : (Fin p → ℂ) → ℝ≥0∞) x ≤ 1 :=
    fun x => Set.indicator_le_self' (fun _ _ => zero_le) x
  rw [h.event tot hf hgr hp hq _ S hS, rowMean_zero h.seq hfm hAm (iterMap_rej delta) hpos b _ hφ hφ1, hx0,
    stepLaw_mean hfm _ b _ (pot_meas hfm hAm hφ _), iter_invariant hfm hinv _ (pot_meas hfm hAm hφ _)]
  refine lintegral_congr fun x => ?_
  have h1 := pot_eq (κ := ν.prod uniformLaw) hfm hAm hφ (max g 1 - 1) x
  have hg1 : max g 1 - 1 = 0 := by rw [max_eq_right hg]
  rw [hg1] at h1 ⊢
  rw [Function.iterate_zero, id, rej_eq hAm (iterMap_rej delta)] at h1
  have h2 : acceptProb M fwd grad prox pri delta ν x + (ν.prod uniformLaw) {v | (x, v) ∉ accSet M fwd grad prox pri delta} = 1 := by
    rw [← acceptProb_eq hf hgr hp hq]
    exact prob_add_prob_compl (measurable_prodMk_left hAm)
  set V := pot (ν.prod uniformLaw) (iterMap M fwd grad prox pri delta) (accSet M fwd grad prox pri delta) 0
    (Set.indicator ((fun (z : Fin p → ℂ) i => store M.par.complex (z i)) ⁻¹' S) 1) x with hV
  have hV1 : V ≤ 1 := pot_le_one hfm hAm hφ1 0 x
  have hfin : V * (ν.prod uniformLaw) {v | (x, v) ∉ accSet M fwd grad prox pri delta} ≠ ∞ :=
    ENNReal.mul_ne_top (ne_top_of_le_ne_top ENNReal.one_ne_top hV1) (measure_ne_top _ _)
  have h3 : V * acceptProb M fwd grad prox pri delta ν x = accF (ν.prod uniformLaw) (iterMap M fwd grad prox pri delta)
      (accSet M fwd grad prox pri delta) (Set.indicator ((fun (z : Fin p → ℂ) i => store M.par.complex (z i)) ⁻¹' S) 1) x := by
    refine (ENNReal.add_left_inj hfin).mp ?_
    rw [← mul_add, h2, mul_one]
    exact h1
  exact (ENNReal.eq_div_iff (acceptProb_ne_zero hf hgr hp hq delta ν x)
    (ne_top_of_le_ne_top ENNReal.one_ne_top (acceptProb_le_one delta ν x))).mpr (by rw [mul_comm]; exact h3)

/-- C135 (partial): without thinning (`ngap` 0 or 1) the saved rows have the law `ρ` that an iteration keeps exactly if iterations from `ρ` do
not change the acceptance probability.  Missing: that this is always so (`C135_refuted`). -/
theorem C135_iff_partial (tot : Total M p fwd grad prox pri) (hf : Measurable fwd) (hgr : Measurable grad) (hp : Measurable prox)
    (hq : Measurable pri) (hinv : KeepsLaw M fwd grad prox pri delta ν ρ)
    (h : MalaRuns M R fwd delta A0 b g P r r1 sp x0 ν fuel st rows) (hg : g ≤ 1) (hx0 : P.map x0 = ρ) (hns : 0 < M.par.nsamples)
    (hst : ∀ᵐ z ∂ρ, (fun i => store M.par.complex (z i)) = z) :
    (∀ (k : Fin M.par.nsamples) (S : Set (Fin p → ℂ)), MeasurableSet S → P {ω | rows ω k ∈ S} = ρ S) ↔
    ∀ᵐ q ∂(ρ.prod (ν.prod uniformLaw)), acceptProb M fwd grad prox pri delta ν (iterMap M fwd grad prox pri delta q.1 q.2) =
      acceptProb M fwd grad prox pri delta ν q.1 := by
  have hfm := iterMap_meas (M := M) hf hgr hp hq delta
  have hAm := accSet_meas (M := M) hf hgr hp hq delta
  have hW : accW (ν.prod uniformLaw) (accSet M fwd grad prox pri delta) = acceptProb M fwd grad prox pri delta ν :=
    funext fun x => acceptProb_eq hf hgr hp hq delta ν x
  have hpos : ∀ s, (ν.prod uniformLaw) {v | (s, v) ∈ accSet M fwd grad prox pri delta} ≠ 0 := fun s => by
    rw [acceptProb_eq hf hgr hp hq]
    exact acceptProb_ne_zero hf hgr hp hq delta ν s
  constructor
  · intro hrow
    have hr := first_preserved_sets (κ := ν.prod uniformLaw) (ρ := ρ) hfm hAm (iterMap_rej delta) hpos hinv (fun S hS => by
      rw [← hrow ⟨0, hns⟩ S hS, first_row tot hf hgr hp hq hinv h hg hx0 hns S hS, hW]
      have hSm := measurable_one.indicator hS (f := (1 : (Fin p → ℂ) → ℝ≥0∞))
      have h1 := acc_out (A := accSet M fwd grad prox pri delta) hfm hAm (χ := fun _ => 1) (Eventually.of_forall fun q => rfl) hSm
        (η := Set.indicator {z | (fun i => store M.par.complex (z i)) ∈ S} 1) (by
          filter_upwards [hst] with z hz
          rw [one_mul]
          by_cases hzS : z ∈ S
          · rw [Set.indicator_of_mem hzS, Set.indicator_of_mem (show z ∈ {z | (fun i => store M.par.complex (z i)) ∈ S} from by
              show (fun i => store M.par.complex (z i)) ∈ S
              rwa [hz])]
          · rw [Set.indicator_of_notMem hzS, Set.indicator_of_notMem (show z ∉ {z | (fun i => store M.par.complex (z i)) ∈ S} from by
              show (fun i => store M.par.complex (z i)) ∉ S
              rwa [hz])]) hinv
      refine lintegral_congr_ae ?_
      filter_upwards [h1] with x hx
      rw [hx, one_mul])
    rw [hW] at hr
    exact hr
  · intro hc k S hS
    rw [C135_preserved_partial tot hf hgr hp hq hinv h hx0 hc k S hS]
    refine measure_congr ?_
    filter_upwards [hst] with z hz
    show ((fun i => store M.par.complex (z i)) ∈ S) = (z ∈ S)
    rw [hz]

end Runs

end Pxmcmc
