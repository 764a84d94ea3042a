import Verif.Lemmas.Chain
import Verif.Props.MyulaRows

/-! # The PxMALA loop -/

namespace Pxmcmc
variable {n : ℕ}

/-- The part of the loop state of PxMALA that does not concern saving and printing. -/
structure Core (R : Rng) where
  i : ℕ
  cur : Cache
  rng : R.σ
  delta : ℝ
  acc : List ℕ
  deltas : List ℝ

/-- Forgetting saved rows and events. -/
def MalaSt.core {R : Rng} (st : MalaSt R) : Core R := ⟨st.i, st.cur, st.rng, st.delta, st.acc, st.deltas⟩

open Classical in
/-- One iteration without saving and printing. -/
noncomputable def coreStep (M : Sampler n) (R : Rng) (tune : Bool) (c : Core R) : Py (Core R) := do
  let pr ← malaPropose M R c.delta c.rng c.cur
  let a ← malaLogAlpha M c.delta c.cur pr.1
  let acc := c.acc ++ [if acceptTest (R.rand pr.2).1 a then 1 else 0]
  let cur := if acceptTest (R.rand pr.2).1 a then pr.1 else c.cur
  if tune then do
    let d ← tuneDelta M c.delta acc c.i
    .ok ⟨c.i + 1, cur, (R.rand pr.2).2, d, acc, c.deltas ++ [d]⟩
  else .ok ⟨c.i + 1, cur, (R.rand pr.2).2, c.delta, acc, c.deltas⟩

/-- The row recorded for a cached sample. -/
noncomputable def cacheRow (M : Sampler n) (c : Cache) : Row := mkRow M c.X c.preds (c.logpi, c.L2, c.prior)

/-- Is the last iteration saved? -/
def savesLast (M : Sampler n) (i : ℕ) (acc : List ℕ) : Prop :=
  ((i : ℤ) ≥ M.par.nburn ∧ thinned M.par i) ∧ acc.getLast? = some 1

/-- What one iteration does. -/
theorem malaBody_ok (M : Sampler n) (R : Rng) (tune : Bool) (A0 : Arrays) (st st' : MalaSt R)
    (h : malaBody M R tune A0 st = .ok st') : coreStep M R tune st.core = .ok st'.core ∧
      (savesLast M st.i st'.acc → st'.j = st.j + 1 ∧
        st'.ev.filter Event.isWrite = st.ev.filter Event.isWrite ++ rowEvents A0 st.j (cacheRow M st'.cur)) ∧
      (¬ savesLast M st.i st'.acc → st'.j = st.j ∧ st'.ev.filter Event.isWrite = st.ev.filter Event.isWrite) := by
  unfold malaBody at h
  obtain ⟨pr, hpr, h⟩ := bind_ok h
  obtain ⟨a, ha, h⟩ := bind_ok h
  obtain ⟨st2, h2, h⟩ := bind_ok h
  obtain ⟨st3, h3, h⟩ := bind_ok h
  obtain rfl := Except.ok.inj h
  -- tuning
  have key2 : coreStep M R tune st.core = .ok ⟨st.i + 1, st2.cur, st2.rng, st2.delta, st2.acc, st2.deltas⟩ ∧
      st2.i = st.i ∧ st2.j = st.j ∧ st2.ev = st.ev ∧ (st2.acc.getLast? = some 1 ↔ acceptTest (R.rand pr.2).1 a) := by
    unfold malaTune at h2
    unfold coreStep
    simp only [MalaSt.core, hpr, ha, bind, Except.bind]
    cases tune
    · simp only [Bool.false_eq_true, if_false] at h2 ⊢
      obtain rfl := Except.ok.inj h2
      refine ⟨rfl, rfl, rfl, rfl, ?_⟩
      simp only [List.getLast?_concat, Option.some.injEq]
      split <;> simp [*]
    · simp only [if_true] at h2 ⊢
      obtain ⟨d, hd, h2⟩ := bind_ok h2
      rw [hd]
      obtain rfl := Except.ok.inj h2
      refine ⟨rfl, rfl, rfl, rfl, ?_⟩
      simp only [List.getLast?_concat, Option.some.injEq]
      split <;> simp [*]
  obtain ⟨hcore, hi, hj, hev, hacc⟩ := key2
  -- saving
  have key3 : st3.i = st2.i ∧ st3.cur = st2.cur ∧ st3.rng = st2.rng ∧ st3.delta = st2.delta ∧ st3.acc = st2.acc ∧
      st3.deltas = st2.deltas ∧
      (savesLast M st.i st2.acc → st3.j = st.j + 1 ∧ st3.ev = st.ev ++ rowEvents A0 st.j (cacheRow M st2.cur)) ∧
      (¬ savesLast M st.i st2.acc → st3.j = st.j ∧ st3.ev = st.ev) := by
    unfold malaSave at h3
    unfold savesLast
    rw [hacc, ← hi]
    by_cases hs : ((st2.i : ℤ) ≥ M.par.nburn ∧ thinned M.par st2.i) ∧ acceptTest (R.rand pr.2).1 a
    · rw [if_pos hs.1.1, if_pos ⟨hs.1.2, hs.2⟩] at h3
      obtain ⟨evs, he, h3⟩ := bind_ok h3
      obtain rfl := Except.ok.inj h3
      refine ⟨rfl, rfl, rfl, rfl, rfl, rfl, fun _ => ⟨by simp [hj], ?_⟩, fun hn => absurd hs hn⟩
      rw [tracking_ok M (l := (st2.cur.logpi, st2.cur.L2, st2.cur.prior)) he,
        rowEvents_shape (A0.applyAll_shape st2.ev), hev, hj]
      rfl
    · have : st3 = st2 := by
        split at h3
        · rename_i h1
          rw [if_neg (fun hh => hs ⟨⟨h1, hh.1⟩, hh.2⟩)] at h3
          exact (Except.ok.inj h3).symm
        · exact (Except.ok.inj h3).symm
      subst this
      exact ⟨rfl, rfl, rfl, rfl, rfl, rfl, fun hh => absurd hh hs, fun _ => ⟨hj, hev⟩⟩
  obtain ⟨e1, e2, e3, e4, e5, e6, hsave, hnsave⟩ := key3
  have hfil : (malaFinish M st3).ev.filter Event.isWrite = st3.ev.filter Event.isWrite := by
    simp only [malaFinish, List.filter_append]
    split <;> simp [Event.isWrite]
  have hfa : (malaFinish M st3).acc = st2.acc := e5
  have hfc : (malaFinish M st3).cur = st2.cur := e2
  refine ⟨?_, ?_, ?_⟩
  · rw [hcore]
    simp only [MalaSt.core, malaFinish, e1, e2, e3, e4, e5, e6, hi]
  · intro hs
    rw [hfa] at hs
    obtain ⟨h4, h5⟩ := hsave hs
    refine ⟨h4, ?_⟩
    rw [hfil, h5, hfc, List.filter_append, rowEvents_isWrite]
  · intro hs
    rw [hfa] at hs
    obtain ⟨h4, h5⟩ := hnsave hs
    exact ⟨h4, by rw [hfil, h5]⟩

/-- The result of `coreStep`, spelled out. -/
theorem coreStep_ok (M : Sampler n) (R : Rng) (tune : Bool) (c c' : Core R) (h : coreStep M R tune c = .ok c') :
    ∃ pr a v, malaPropose M R c.delta c.rng c.cur = .ok pr ∧ malaLogAlpha M c.delta c.cur pr.1 = .ok a ∧
      c'.i = c.i + 1 ∧ c'.acc = c.acc ++ [v] ∧ c'.rng = (R.rand pr.2).2 ∧
      ((acceptTest (R.rand pr.2).1 a ∧ v = 1 ∧ c'.cur = pr.1) ∨ (¬ acceptTest (R.rand pr.2).1 a ∧ v = 0 ∧ c'.cur = c.cur)) ∧
      ((tune = true ∧ tuneDelta M c.delta c'.acc c.i = .ok c'.delta ∧ c'.deltas = c.deltas ++ [c'.delta]) ∨
        (tune = false ∧ c'.delta = c.delta ∧ c'.deltas = c.deltas)) := by
  unfold coreStep at h
  obtain ⟨pr, hpr, h⟩ := bind_ok h
  obtain ⟨a, ha, h⟩ := bind_ok h
  classical
  refine ⟨pr, a, if acceptTest (R.rand pr.2).1 a then 1 else 0, hpr, ha, ?_⟩
  cases tune
  · simp only [Bool.false_eq_true, if_false] at h
    obtain rfl := Except.ok.inj h
    refine ⟨rfl, rfl, rfl, ?_, .inr ⟨rfl, rfl, rfl⟩⟩
    by_cases hac : acceptTest (R.rand pr.2).1 a
    · exact .inl ⟨hac, if_pos hac, if_pos hac⟩
    · exact .inr ⟨hac, if_neg hac, if_neg hac⟩
  · simp only [if_true] at h
    obtain ⟨d, hd, h⟩ := bind_ok h
    obtain rfl := Except.ok.inj h
    refine ⟨rfl, rfl, rfl, ?_, .inl ⟨rfl, hd, rfl⟩⟩
    by_cases hac : acceptTest (R.rand pr.2).1 a
    · exact .inl ⟨hac, if_pos hac, if_pos hac⟩
    · exact .inr ⟨hac, if_neg hac, if_neg hac⟩

/-- The iterations (counted from 0) with an acceptance that fall on the thinning grid after burn-in. -/
def savedIters (acc : List ℕ) (b g : ℕ) : List ℕ :=
  (List.range acc.length).filter fun k => decide (acc[k]? = some 1 ∧ b ≤ k ∧ g ∣ k - b)

theorem savedIters_concat (acc : List ℕ) (v b g : ℕ) : savedIters (acc ++ [v]) b g =
    savedIters acc b g ++ if v = 1 ∧ b ≤ acc.length ∧ g ∣ acc.length - b then [acc.length] else [] := by
  unfold savedIters
  rw [List.length_append, List.length_singleton, List.range_succ, List.filter_append]
  congr 1
  · apply List.filter_congr
    intro k hk
    rw [List.getElem?_append_left (by simpa using hk)]
  · by_cases h : v = 1 ∧ b ≤ acc.length ∧ g ∣ acc.length - b
    · rw [if_pos h]
      simp [h]
    · rw [if_neg h]
      simp only [List.filter_cons, List.filter_nil]
      rw [if_neg]
      simpa using h

theorem savedIters_prefix (acc acc' : List ℕ) (b g : ℕ) (h : acc <+: acc') : savedIters acc b g <+: savedIters acc' b g := by
  obtain ⟨t, rfl⟩ := h
  induction t using List.reverseRecOn with
  | nil => simp
  | append_singleton t v ih =>
    rw [← List.append_assoc, savedIters_concat]
    exact ih.trans (List.prefix_append _ _)

theorem savedIters_lt (acc : List ℕ) (b g k : ℕ) (h : k ∈ savedIters acc b g) : k < acc.length := by
  unfold savedIters at h
  exact List.mem_range.mp (List.mem_filter.mp h).1

/-- A history of iterations. -/
def CoreHist (M : Sampler n) (R : Rng) (tune : Bool) (c0 : Core R) (m : ℕ) (T : ℕ → Core R) : Prop :=
  T 0 = c0 ∧ ∀ k < m, coreStep M R tune (T k) = .ok (T (k + 1))

theorem CoreHist.unique {M : Sampler n} {R : Rng} {tune : Bool} {c0 : Core R} {m : ℕ} {T U : ℕ → Core R}
    (h : CoreHist M R tune c0 m T) (h' : CoreHist M R tune c0 m U) : ∀ k ≤ m, T k = U k := by
  intro k
  induction k with
  | zero => intro _; rw [h.1, h'.1]
  | succ k ih =>
    intro hk
    have h1 := h.2 k (by omega)
    have h2 := h'.2 k (by omega)
    rw [ih (by omega), h2] at h1
    exact (Except.ok.inj h1).symm

/-- The row recorded at position `k` in a history. -/
noncomputable def histRow (M : Sampler n) {R : Rng} (T : ℕ → Core R) (saved : List ℕ) (k : ℕ) : Row :=
  cacheRow M (T ((saved[k]?).getD 0 + 1)).cur

/-- What is true at every loop head of PxMALA. -/
def MInv (M : Sampler n) (R : Rng) (tune : Bool) (A0 : Arrays) (b : ℕ) (c0 : Core R) (m : ℕ) (st : MalaSt R) : Prop :=
  st.i = m ∧ st.acc.length = m ∧ st.j = (savedIters st.acc b (spacing M.par)).length ∧ ∃ T, CoreHist M R tune c0 m T ∧
    st.core = T m ∧ st.ev.filter Event.isWrite =
      (List.range st.j).flatMap fun (k : ℕ) => rowEvents A0 k (histRow M T (savedIters st.acc b (spacing M.par)) k)

theorem minv_init (M : Sampler n) (R : Rng) (tune : Bool) (A0 : Arrays) (b : ℕ) (s0 : MalaSt R) (hi : s0.i = 0)
    (hj : s0.j = 0) (ha : s0.acc = []) (he : s0.ev = []) : MInv M R tune A0 b s0.core 0 s0 := by
  refine ⟨hi, by simp [ha], by simp [hj, ha, savedIters], fun _ => s0.core, ⟨rfl, fun k hk => absurd hk (by omega)⟩, rfl, ?_⟩
  simp [he, hj]

theorem minv_step (M : Sampler n) (R : Rng) (tune : Bool) (A0 : Arrays) (b : ℕ) (hb : M.par.nburn = b) (c0 : Core R)
    (m : ℕ) (st st' : MalaSt R) (h : MInv M R tune A0 b c0 m st) (hbody : malaBody M R tune A0 st = .ok st') :
    MInv M R tune A0 b c0 (m + 1) st' := by
  obtain ⟨hi, hacc, hj, T, hT, hcore, hev⟩ := h
  obtain ⟨hstep, hs, hns⟩ := malaBody_ok M R tune A0 st st' hbody
  obtain ⟨pr, a, v, -, -, hi', hacc', -, -, -⟩ := coreStep_ok M R tune _ _ hstep
  have hi'' : st'.i = st.i + 1 := hi'
  have hacc'' : st'.acc = st.acc ++ [v] := hacc'
  have hlen : st'.acc.length = m + 1 := by rw [hacc'']; simp [hacc]
  set T' : ℕ → Core R := Function.update T (m + 1) st'.core with hT'def
  have hold : ∀ k, k ≤ m → T' k = T k := fun k hk => Function.update_of_ne (by omega) _ _
  have hT' : CoreHist M R tune c0 (m + 1) T' := by
    refine ⟨by rw [hold 0 (by omega)]; exact hT.1, fun k hk => ?_⟩
    rw [hold k (by omega)]
    rcases Nat.lt_or_ge k m with hkm | hkm
    · rw [hold _ (by omega)]
      exact hT.2 k hkm
    · obtain rfl : k = m := by omega
      rw [hT'def, Function.update_self, ← hcore]
      exact hstep
  have hlast : st'.acc.getLast? = some 1 ↔ v = 1 := by rw [hacc'']; simp
  have hsv : savesLast M st.i st'.acc ↔ (v = 1 ∧ b ≤ st.acc.length ∧ spacing M.par ∣ st.acc.length - b) := by
    unfold savesLast
    rw [hlast, saved_iff M.par b hb, hi, hacc]
    tauto
  -- rows already written are those of the extended history
  have hrow : ∀ k < st.j, histRow M T' (savedIters st'.acc b (spacing M.par)) k =
      histRow M T (savedIters st.acc b (spacing M.par)) k := by
    intro k hk
    rw [hj] at hk
    unfold histRow
    rw [hacc'', savedIters_concat, List.getElem?_append_left hk, List.getElem?_eq_getElem hk]
    simp only [Option.getD_some]
    rw [hold]
    have := savedIters_lt _ _ _ _ (List.getElem_mem hk)
    omega
  refine ⟨by omega, hlen, ?_, T', hT', by rw [hT'def, Function.update_self], ?_⟩
  · by_cases hc : savesLast M st.i st'.acc
    · rw [(hs hc).1, hacc'', savedIters_concat, if_pos (hsv.mp hc), hj]; simp
    · rw [(hns hc).1, hacc'', savedIters_concat, if_neg (fun h => hc (hsv.mpr h)), hj]; simp
  · by_cases hc : savesLast M st.i st'.acc
    · rw [(hs hc).1, (hs hc).2, hev, List.range_succ, List.flatMap_append]
      congr 1
      · apply List.flatMap_congr
        intro k hk
        rw [hrow k (List.mem_range.mp hk)]
      · simp only [List.flatMap_cons, List.flatMap_nil, List.append_nil]
        congr 1
        unfold histRow
        rw [hacc'', savedIters_concat, if_pos (hsv.mp hc), hj, List.getElem?_concat_length, Option.getD_some, hacc,
          hT'def, Function.update_self]
        rfl
    · rw [(hns hc).1, (hns hc).2, hev]
      apply List.flatMap_congr
      intro k hk
      rw [hrow k (List.mem_range.mp hk)]

/-- The result of `malaInit`. -/
theorem malaInit_ok (M : Sampler n) (R : Rng) (delta : ℝ) (r : R.σ) (sp : StartPoint) (s0 : MalaSt R)
    (h : malaInit M R delta r sp = .ok s0) : s0.i = 0 ∧ s0.j = 0 ∧ s0.acc = [] ∧ s0.ev = [] ∧ s0.delta = delta ∧
      s0.deltas = [delta] ∧ ∃ X preds r' l, initialSample M R r sp = .ok (X, preds, r') ∧ s0.cur.X = X ∧
        s0.cur.preds = preds ∧ s0.rng = r' ∧ M.F.calcGradg preds = .ok s0.cur.gradg ∧ M.P.proxf X = .ok s0.cur.proxf ∧
        logpi M.F M.P M.par.mu X preds = .ok l ∧ s0.cur.logpi = l.1 ∧ s0.cur.L2 = l.2.1 ∧ s0.cur.prior = l.2.2 := by
  unfold malaInit at h
  obtain ⟨x, hx, h⟩ := bind_ok h
  obtain ⟨g, hg, h⟩ := bind_ok h
  obtain ⟨q, hq, h⟩ := bind_ok h
  obtain ⟨l, hl, h⟩ := bind_ok h
  obtain rfl := Except.ok.inj h
  exact ⟨rfl, rfl, rfl, rfl, rfl, rfl, x.1, x.2.1, x.2.2, l, hx, rfl, rfl, rfl, hg, hq, hl, rfl, rfl, rfl⟩

theorem minv_reach (M : Sampler n) (R : Rng) (tune : Bool) (A0 : Arrays) (b : ℕ) (hb : M.par.nburn = b) (delta : ℝ)
    (r : R.σ) (sp : StartPoint) (s0 : MalaSt R) (h0 : malaInit M R delta r sp = .ok s0) (m : ℕ) (st : MalaSt R)
    (h : Reach (malaCond M) (malaBody M R tune A0) s0 m st) : MInv M R tune A0 b s0.core m st := by
  obtain ⟨h1, h2, h3, h4, -⟩ := malaInit_ok M R delta r sp s0 h0
  exact h.invariant (MInv M R tune A0 b s0.core) (minv_init M R tune A0 b s0 h1 h2 h3 h4)
    fun k s s' hi _ hb' => minv_step M R tune A0 b hb _ k s s' hi hb'

/-- A run that returned: its initial state and final loop head. -/
theorem malaRun_ok (M : Sampler n) (R : Rng) (tune : Bool) (delta : ℝ) (A0 : Arrays) (r : R.σ) (sp : StartPoint)
    (fuel : ℕ) (st : MalaSt R) (h : malaRun M R tune delta A0 r sp fuel = .ok (some st)) :
    ∃ s0 s m, malaInit M R delta r sp = .ok s0 ∧ Reach (malaCond M) (malaBody M R tune A0) s0 m s ∧
      malaCond M s = false ∧ m ≤ fuel ∧ st = { s with ev := s.ev ++ [Event.done] } := by
  unfold malaRun at h
  obtain ⟨s0, h0, h⟩ := bind_ok h
  obtain ⟨res, hres, h⟩ := bind_ok h
  cases res with
  | none => cases Except.ok.inj h
  | some s =>
    obtain ⟨m, hm, hr, hc⟩ := whileFuel_some hres
    exact ⟨s0, s, m, h0, hr, hc, hm, (Option.some.inj (Except.ok.inj h)).symm⟩

/-- When the loop ends exactly `nsamples` rows have been saved. -/
theorem mala_final_j (M : Sampler n) (R : Rng) (tune : Bool) (A0 : Arrays) (s0 s : MalaSt R) (m : ℕ) (h0 : s0.j = 0)
    (h : Reach (malaCond M) (malaBody M R tune A0) s0 m s) (hc : malaCond M s = false) : s.j = M.par.nsamples := by
  have hle : s.j ≤ M.par.nsamples := by
    refine h.invariant (fun _ s => s.j ≤ M.par.nsamples) (by omega) ?_
    intro k s s' hi hc' hb
    obtain ⟨-, h1, h2⟩ := malaBody_ok M R tune A0 s s' hb
    simp only [malaCond, decide_eq_true_eq] at hc'
    by_cases hs : savesLast M s.i s'.acc
    · have := (h1 hs).1; omega
    · have := (h2 hs).1; omega
  simp only [malaCond, decide_eq_false_iff_not, not_lt] at hc
  omega

/-- The result of a PxMALA run that returned. -/
theorem malaRun_result (M : Sampler n) (R : Rng) (tune : Bool) (delta : ℝ) (A0 : Arrays)
    (hA : A0.Shaped M.par.nsamples) (b : ℕ) (hb : M.par.nburn = b) (r : R.σ) (sp : StartPoint) (fuel : ℕ)
    (st : MalaSt R) (h : malaRun M R tune delta A0 r sp fuel = .ok (some st)) :
    ∃ s0 T, malaInit M R delta r sp = .ok s0 ∧ CoreHist M R tune s0.core st.i T ∧ st.core = T st.i ∧
      st.acc.length = st.i ∧ st.j = M.par.nsamples ∧
      (savedIters st.acc b (spacing M.par)).length = M.par.nsamples ∧
      A0.applyAll st.ev = A0.ofRows M.par.nsamples (histRow M T (savedIters st.acc b (spacing M.par))) ∧
      st.ev.filter Event.isWrite = (List.range M.par.nsamples).flatMap fun (k : ℕ) =>
        rowEvents A0 k (histRow M T (savedIters st.acc b (spacing M.par)) k) := by
  obtain ⟨s0, s, m, h0, hr, hc, -, rfl⟩ := malaRun_ok M R tune delta A0 r sp fuel st h
  obtain ⟨hi, hacc, hj, T, hT, hcore, hev⟩ := minv_reach M R tune A0 b hb delta r sp s0 h0 m s hr
  have hjn := mala_final_j M R tune A0 s0 s m (malaInit_ok M R delta r sp s0 h0).2.1 hr hc
  subst hi
  have hev' : (s.ev ++ [Event.done]).filter Event.isWrite = (List.range M.par.nsamples).flatMap fun (k : ℕ) =>
        rowEvents A0 k (histRow M T (savedIters s.acc b (spacing M.par)) k) := by
    rw [List.filter_append, hev, hjn]
    simp [Event.isWrite]
  refine ⟨s0, T, h0, hT, hcore, hacc, hjn, by rw [← hj, hjn], ?_, hev'⟩
  rw [← applyAll_filter, hev', applyAll_rows, Arrays.overwrite_all A0 _ hA]

end Pxmcmc
