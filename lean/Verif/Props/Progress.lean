import Verif.Props.MalaExamples

/-! # Property C131: the lines printed during a run -/

namespace Pxmcmc
variable {n p : ℕ}

/-- What a run has printed, in order. -/
def printed (ev : List Event) : List Event := ev.filter fun e => !e.isWrite

/-- How many of the first `m` iterations save a sample: those after the burn-in `b` on the thinning grid of spacing `g`. -/
def savedCount (b g m : ℕ) : ℕ := ((Finset.range m).filter fun i => b ≤ i ∧ g ∣ i - b).card

/-- A line with counter `c` that reports log-posterior, L2 and prior as they stand in row `k` of the arrays. -/
def Reports (A : Arrays) (ns c k : ℕ) (e : Event) : Prop :=
  ∃ x y z : ℝ, e = .progress c ns x y z none ∧ (A.row k).1 = some x ∧ (A.row k).2.1 = some y ∧ (A.row k).2.2.1 = some z

theorem cnt_eq_savedCount (b g : ℕ) (hg : 0 < g) (m : ℕ) : cnt b g m = savedCount b g m := by
  induction m with
  | zero => simp [cnt_zero, savedCount]
  | succ m ih =>
    unfold savedCount at ih ⊢
    rw [Finset.range_add_one, Finset.filter_insert]
    by_cases h : b ≤ m ∧ g ∣ m - b
    · rw [if_pos h, Finset.card_insert_of_notMem (by simp), (cnt_saved b g m hg h.1 h.2).1, ih]
    · rw [if_neg h, cnt_not_saved b g m hg h, ih]

theorem savedCount_pos (b g m : ℕ) (h : b < m) : 0 < savedCount b g m :=
  Finset.card_pos.mpr ⟨b, by simp [h]⟩

theorem savedCount_burnin (b g m : ℕ) (h : m ≤ b) : savedCount b g m = 0 := by
  unfold savedCount
  rw [Finset.card_eq_zero, Finset.filter_eq_empty_iff]
  intro i hi
  have := Finset.mem_range.mp hi
  omega

theorem printed_append (a b : List Event) : printed (a ++ b) = printed a ++ printed b := List.filter_append ..

theorem printed_rowEvents (A : Arrays) (k : ℕ) (r : Row) : printed (rowEvents A k r) = [] := by
  have h := rowEvents_isWrite A k r
  rw [List.filter_eq_self] at h
  unfold printed
  rw [List.filter_eq_nil_iff]
  intro e he
  simp [h e he]

theorem printed_of_noWrites (ev : List Event) (h : ev.filter Event.isWrite = []) : printed ev = ev := by
  unfold printed
  rw [List.filter_eq_self]
  intro e he
  have := List.filter_eq_nil_iff.mp h e he
  simpa using this

theorem verbose_iff (par : Params) (v : ℕ) (hv : par.verbosity = v) (h0 : 0 < v) (i : ℕ) : verbose par i ↔ v ∣ i + 1 := by
  unfold verbose
  rw [hv]
  constructor
  · rintro ⟨-, h⟩
    have := Int.dvd_of_fmod_eq_zero h
    exact_mod_cast this
  · intro h
    refine ⟨by exact_mod_cast h0, Int.fmod_eq_zero_of_dvd ?_⟩
    exact_mod_cast h

/-- One line is printed every `v` iterations, and lines stay true. -/
theorem gen_lines (M : Sampler n) {R : Rng} (A0 : Arrays) (step : Cur R → Py (Cur R)) (prog : St R → Py (List Event))
    (hprog : NoWrites prog) (b : ℕ) (hb : M.par.nburn = b) (c0 : Cur R) (v : ℕ) (hv : M.par.verbosity = v) (h0 : 0 < v)
    (Good : ℕ → Arrays → Event → Prop)
    (hline : ∀ (st : St R) evs, prog st = .ok evs → st.j = cnt b (spacing M.par) (st.i + 1) → st.j ≤ M.par.nsamples →
      0 < M.par.nsamples → (st.j = 0 → A0.applyAll st.ev = A0) →
      (verbose M.par st.i → ∃ e, evs = [e] ∧ Good (st.i + 1) (A0.applyAll st.ev) e) ∧ (¬ verbose M.par st.i → evs = []))
    (hstable : ∀ m A A' e, Good m A e → (∀ k < cnt b (spacing M.par) m, A'.row k = A.row k) → Good m A' e)
    (m : ℕ) (st : St R) (hr : Reach (loopCond M) (genBody M A0 step prog) ⟨0, 0, c0, []⟩ m st) :
    (printed st.ev).length = m / v ∧
      ∀ q e, (printed st.ev)[q]? = some e → Good ((q + 1) * v) (A0.applyAll st.ev) e := by
  have hI := hr.invariant (fun k s => SInv M A0 step c0 b k s ∧ (printed s.ev).length = k / v ∧
      ∀ q e, (printed s.ev)[q]? = some e → Good ((q + 1) * v) (A0.applyAll s.ev) e)
    ⟨sinv_init M A0 step c0 b, by simp [printed], by simp [printed]⟩ ?_
  · exact hI.2
  · intro k s s' ⟨hi, hlen, hgood⟩ hc hbody
    have hi' := sinv_step M A0 step prog hprog c0 b hb k s s' hi hbody
    refine ⟨hi', ?_⟩
    unfold genBody at hbody
    obtain ⟨c, -, hbody⟩ := bind_ok hbody
    unfold genBook at hbody
    obtain ⟨st1, h1, hbody⟩ := bind_ok hbody
    obtain ⟨evs, he, hbody⟩ := bind_ok hbody
    have hnw := hprog _ _ he
    obtain rfl := Except.ok.inj hbody
    simp only [loopCond, decide_eq_true_eq] at hc
    have hj1 : st1.j ≤ M.par.nsamples ∧ st1.i = k ∧ printed st1.ev = printed s.ev ∧
        (∀ q < s.j, (A0.applyAll st1.ev).row q = (A0.applyAll s.ev).row q) ∧ (st1.j = 0 → A0.applyAll st1.ev = A0) := by
      have hz : s.j = 0 → A0.applyAll s.ev = A0 := by
        intro h
        obtain ⟨-, -, T, rows, -, -, -, -, hev⟩ := hi
        rw [← applyAll_filter, hev, h]
        rfl
      split at h1
      · obtain ⟨l, -, rfl⟩ := recordRow_ok M A0 h1
        refine ⟨hc, hi.1, ?_, ?_, fun h => absurd h (by simp)⟩
        · show printed (s.ev ++ _) = _
          rw [printed_append, printed_rowEvents, List.append_nil]
        · intro q hq
          show (A0.applyAll (s.ev ++ _)).row q = _
          rw [applyAll_append]
          apply applyAll_row_ne
          intro e he'
          rw [rowEvents_idx _ _ _ e he']
          show some s.j ≠ some q
          simp; omega
      · obtain rfl := Except.ok.inj h1
        exact ⟨hc.le, hi.1, rfl, fun _ _ => rfl, hz⟩
    obtain ⟨hjn, hik, hpr, hrows, hz⟩ := hj1
    have hj2 : st1.j = cnt b (spacing M.par) (st1.i + 1) := by rw [hik]; exact hi'.2.1
    have hA : A0.applyAll (st1.ev ++ evs) = A0.applyAll st1.ev := by
      rw [← applyAll_filter, List.filter_append, hnw, List.append_nil, applyAll_filter]
    obtain ⟨hyes, hno⟩ := hline st1 evs he hj2 hjn (by omega) hz
    rw [verbose_iff M.par v hv h0, hik] at hyes hno
    show (printed (st1.ev ++ evs)).length = (k + 1) / v ∧ ∀ q e, (printed (st1.ev ++ evs))[q]? = some e →
      Good ((q + 1) * v) (A0.applyAll (st1.ev ++ evs)) e
    rw [hA, printed_append, hpr, printed_of_noWrites evs hnw]
    have hold : ∀ q e, (printed s.ev)[q]? = some e → Good ((q + 1) * v) (A0.applyAll st1.ev) e := by
      intro q e hq
      refine hstable _ _ _ _ (hgood q e hq) fun t ht => hrows t ?_
      have hql : q < k / v := by rw [← hlen]; exact (List.getElem?_eq_some_iff.mp hq).1
      have hle : (q + 1) * v ≤ k := (Nat.mul_le_mul_right v hql).trans (Nat.div_mul_le_self k v)
      have := cnt_mono b (spacing M.par) hle
      have := hi.2.1
      omega
    by_cases hd : v ∣ k + 1
    · obtain ⟨e, rfl, hg⟩ := hyes hd
      have hdiv : (k + 1) / v = k / v + 1 := by rw [Nat.succ_div, if_pos hd]
      refine ⟨by simp [hlen, hdiv], ?_⟩
      intro q e' hq
      rcases Nat.lt_or_ge q (printed s.ev).length with hql | hql
      · rw [List.getElem?_append_left hql] at hq
        exact hold q e' hq
      · rw [List.getElem?_append_right hql] at hq
        have hq0 : q = k / v := by
          have := (List.getElem?_eq_some_iff.mp hq).1
          simp at this
          omega
        rw [hlen, hq0, Nat.sub_self] at hq
        simp only [List.getElem?_cons_zero, Option.some.injEq] at hq
        subst hq
        rw [hq0, ← hdiv, Nat.div_mul_cancel hd]
        exact hg
    · rw [hno hd]
      refine ⟨?_, ?_⟩
      · rw [List.append_nil, hlen, Nat.succ_div, if_neg hd, Nat.add_zero]
      · rw [List.append_nil]; exact hold

/-- Nothing is printed when `verbosity ≤ 0`. -/
theorem gen_silent (M : Sampler n) {R : Rng} (A0 : Arrays) (step : Cur R → Py (Cur R)) (prog : St R → Py (List Event))
    (hprog : ∀ st evs, prog st = .ok evs → evs = []) (c0 : Cur R) (m : ℕ) (st : St R)
    (hr : Reach (loopCond M) (genBody M A0 step prog) ⟨0, 0, c0, []⟩ m st) : printed st.ev = [] := by
  refine hr.invariant (fun _ s => printed s.ev = []) rfl ?_
  intro k s s' hi _ hbody
  unfold genBody at hbody
  obtain ⟨c, -, hbody⟩ := bind_ok hbody
  unfold genBook at hbody
  obtain ⟨st1, h1, hbody⟩ := bind_ok hbody
  obtain ⟨evs, he, hbody⟩ := bind_ok hbody
  obtain rfl := Except.ok.inj hbody
  rw [hprog _ _ he]
  show printed (st1.ev ++ []) = []
  rw [List.append_nil]
  split at h1
  · obtain ⟨l, -, rfl⟩ := recordRow_ok M A0 h1
    show printed (s.ev ++ _) = _
    rw [printed_append, printed_rowEvents, List.append_nil, hi]
  · obtain rfl := Except.ok.inj h1
    exact hi

/-- The values of a progress line: the last saved row, or the last row of the arrays if nothing has been saved. -/
theorem progressArrays_reports (M : Sampler n) {R : Rng} (A0 : Arrays) (st : St R) (evs : List Event)
    (h : progressArrays M A0 st = .ok evs) (k : ℕ) (hk : ∀ l : List ℝ, l.length = M.par.nsamples →
      ∀ x, pyGet l ((st.j : ℤ) - 1) = .ok x → l[k]? = some x) (hA : A0.Shaped M.par.nsamples) :
    ∃ e, evs = [e] ∧ Reports (A0.applyAll st.ev) M.par.nsamples st.j k e := by
  have hs := Arrays.Shaped.of_same (A0.applyAll_shape st.ev) hA
  have hattr : ∀ (o : Option (List ℝ)) l, attrArr o = .ok l → o = some l := by
    intro o l ho
    cases o with
    | none => cases ho
    | some a => exact congrArg some (Except.ok.inj ho)
  unfold progressArrays at h
  obtain ⟨a, ha, h⟩ := bind_ok h
  obtain ⟨x, hx, h⟩ := bind_ok h
  obtain ⟨b, hb, h⟩ := bind_ok h
  obtain ⟨y, hy, h⟩ := bind_ok h
  obtain ⟨c, hc, h⟩ := bind_ok h
  obtain ⟨z, hz, h⟩ := bind_ok h
  have ha' := hattr _ _ ha
  have hb' := hattr _ _ hb
  have hc' := hattr _ _ hc
  refine ⟨.progress st.j M.par.nsamples x y z none, ?_, x, y, z, rfl, ?_, ?_, ?_⟩
  · rw [← Except.ok.inj h]
    congr 2
    omega
  · simp only [Arrays.row, ha', Option.bind_some]
    exact hk a (hs.logPi a ha') x hx
  · simp only [Arrays.row, hb', Option.bind_some]
    exact hk b (hs.L2s b hb') y hy
  · simp only [Arrays.row, hc', Option.bind_some]
    exact hk c (hs.priors c hc') z hz

theorem pyGet_minusOne (ns : ℕ) (hns : 0 < ns) (l : List ℝ) (hl : l.length = ns) (x : ℝ)
    (h : pyGet l (((0 : ℕ) : ℤ) - 1) = .ok x) : l[ns - 1]? = some x := by
  unfold pyGet at h
  simp only [Nat.cast_zero, zero_sub, Int.neg_neg_iff_pos, Int.one_pos, if_true] at h
  rw [if_pos (by omega)] at h
  have e : ((l.length : ℤ) + -1).toNat = ns - 1 := by omega
  rw [e] at h
  split at h
  · rename_i y hy
    rw [hy, Except.ok.inj h]
  · cases h

theorem pyGet_sub (j : ℕ) (hj : 0 < j) (l : List ℝ) (x : ℝ) (h : pyGet l ((j : ℤ) - 1) = .ok x) : l[j - 1]? = some x := by
  unfold pyGet at h
  have hn : ¬ ((j : ℤ) - 1 < 0) := by omega
  simp only [hn, if_false] at h
  rw [if_pos (by omega)] at h
  have e : ((j : ℤ) - 1).toNat = j - 1 := by omega
  rw [e] at h
  split at h
  · rename_i y hy
    rw [hy, Except.ok.inj h]
  · cases h

theorem Reports.stable {A A' : Arrays} {ns c k : ℕ} {e : Event} (h : Reports A ns c k e) (hr : A'.row k = A.row k) :
    Reports A' ns c k e := by
  obtain ⟨x, y, z, h1, h2, h3, h4⟩ := h
  exact ⟨x, y, z, h1, by rw [hr]; exact h2, by rw [hr]; exact h3, by rw [hr]; exact h4⟩

/-- C131 for MYULA: with `verbosity = v > 0` a run of `N` iterations prints one line every `v` iterations and then `DONE`.
The line of iteration `m = (q+1)v` is "Burning in..." up to the burn-in; afterwards its counter is the number of samples
saved so far, and its log-posterior, L2 and prior are those that the final arrays hold for the sample saved last. -/
theorem C131_myula (M : Sampler n) (R : Rng) (A0 : Arrays) (hA : A0.Shaped M.par.nsamples) (b : ℕ) (hb : M.par.nburn = b)
    (v : ℕ) (hv : M.par.verbosity = v) (h0 : 0 < v) (r : R.σ) (sp : StartPoint) (fuel : ℕ) (st : St R)
    (h : myulaRun M R A0 r sp fuel = .ok (some st)) :
    ∃ lines, printed st.ev = lines ++ [.done] ∧ lines.length = st.i / v ∧ ∀ q e, lines[q]? = some e →
      ((q + 1) * v ≤ b → e = .burning) ∧
      (b < (q + 1) * v → Reports (A0.applyAll st.ev) M.par.nsamples (savedCount b (spacing M.par) ((q + 1) * v))
        (savedCount b (spacing M.par) ((q + 1) * v) - 1) e) := by
  unfold myulaRun at h
  obtain ⟨x0, -, h⟩ := bind_ok h
  obtain ⟨res, hres, h⟩ := bind_ok h
  rw [myulaBody_eq] at hres
  cases res with
  | none => cases Except.ok.inj h
  | some s =>
    obtain rfl := Option.some.inj (Except.ok.inj h)
    obtain ⟨hr, -, -⟩ := gen_returns M A0 _ _ (myulaProg_noWrites M A0) _ b hb fuel s hres
    have hsi := (sinv_reach M A0 _ _ (myulaProg_noWrites M A0) _ b hb _ s hr).1
    have hg := spacing_pos M.par
    have hgl := gen_lines M A0 _ _ (myulaProg_noWrites M A0) b hb _ v hv h0
      (fun m A e => (m ≤ b → e = .burning) ∧ (b < m → Reports A M.par.nsamples (savedCount b (spacing M.par) m)
        (savedCount b (spacing M.par) m - 1) e)) ?_ ?_ _ s hr
    · obtain ⟨h1, h2⟩ := hgl
      refine ⟨printed s.ev, ?_, ?_, ?_⟩
      · show printed (s.ev ++ _) = _
        rw [printed_append]; rfl
      · show _ = s.i / v
        rw [h1, hsi]
      · intro q e hq
        show _ ∧ (_ → Reports (A0.applyAll (s.ev ++ [Event.done])) _ _ _ _)
        rw [applyAll_append]
        exact h2 q e hq
    · intro st1 evs hp hj hle hns hz
      unfold myulaProg at hp
      split at hp
      · rename_i hnb
        rw [hb] at hnb
        have hnb' : b < st1.i + 1 := by
          have : b ≤ st1.i := by exact_mod_cast hnb
          omega
        constructor
        · intro hvb
          rw [if_pos hvb] at hp
          rw [cnt_eq_savedCount _ _ hg] at hj
          have hpos := savedCount_pos b (spacing M.par) _ hnb'
          obtain ⟨e, he, hrep⟩ := progressArrays_reports M A0 st1 evs hp (st1.j - 1)
            (fun l _ x hx => pyGet_sub st1.j (by omega) l x hx) hA
          refine ⟨e, he, fun hc => by omega, fun _ => ?_⟩
          rw [← hj]
          exact hrep
        · intro hvb
          rw [if_neg hvb] at hp
          exact (Except.ok.inj hp).symm
      · rename_i hnb
        rw [hb] at hnb
        have hnb' : st1.i + 1 ≤ b := by
          by_contra hc
          exact hnb (by exact_mod_cast (by omega : b ≤ st1.i))
        have := Except.ok.inj hp
        constructor
        · intro hvb
          rw [if_pos hvb] at this
          exact ⟨_, this.symm, fun _ => rfl, fun hc => by omega⟩
        · intro hvb
          rw [if_neg hvb] at this
          exact this.symm
    · intro m A A' e ⟨g1, g2⟩ hrow
      refine ⟨g1, fun hm => (g2 hm).stable (hrow _ ?_)⟩
      rw [cnt_eq_savedCount _ _ hg]
      have := savedCount_pos b (spacing M.par) m hm
      omega

/-- C131 for SKROCK (partial): one line every `v` iterations, and the lines after the burn-in are those of MYULA.  Missing:
the lines of the burn-in, which report (as number 0) whatever was in the last row of the arrays before the run. -/
theorem C131_skrock_partial (M : Sampler n) (R : Rng) (A0 : Arrays) (hA : A0.Shaped M.par.nsamples) (b : ℕ)
    (hb : M.par.nburn = b) (v : ℕ) (hv : M.par.verbosity = v) (h0 : 0 < v) (r : R.σ) (sp : StartPoint) (fuel : ℕ) (st : St R)
    (h : skrockRun M R A0 r sp fuel = .ok (some st)) :
    ∃ lines, printed st.ev = lines ++ [.done] ∧ lines.length = st.i / v ∧ ∀ q e, lines[q]? = some e →
      ((q + 1) * v ≤ b → Reports A0 M.par.nsamples 0 (M.par.nsamples - 1) e) ∧
      (b < (q + 1) * v → Reports (A0.applyAll st.ev) M.par.nsamples (savedCount b (spacing M.par) ((q + 1) * v))
        (savedCount b (spacing M.par) ((q + 1) * v) - 1) e) := by
  unfold skrockRun at h
  obtain ⟨co, -, h⟩ := bind_ok h
  obtain ⟨x0, -, h⟩ := bind_ok h
  obtain ⟨res, hres, h⟩ := bind_ok h
  rw [skrockBody_eq] at hres
  cases res with
  | none => cases Except.ok.inj h
  | some s =>
    obtain rfl := Option.some.inj (Except.ok.inj h)
    obtain ⟨hr, -, -⟩ := gen_returns M A0 _ _ (skrockProg_noWrites M A0) _ b hb fuel s hres
    have hsi := (sinv_reach M A0 _ _ (skrockProg_noWrites M A0) _ b hb _ s hr).1
    have hg := spacing_pos M.par
    have hgl := gen_lines M A0 _ _ (skrockProg_noWrites M A0) b hb _ v hv h0
      (fun m A e => (m ≤ b → Reports A0 M.par.nsamples 0 (M.par.nsamples - 1) e) ∧
        (b < m → Reports A M.par.nsamples (savedCount b (spacing M.par) m)
        (savedCount b (spacing M.par) m - 1) e)) ?_ ?_ _ s hr
    · obtain ⟨h1, h2⟩ := hgl
      refine ⟨printed s.ev, ?_, ?_, ?_⟩
      · show printed (s.ev ++ _) = _
        rw [printed_append]; rfl
      · show _ = s.i / v
        rw [h1, hsi]
      · intro q e hq
        show _ ∧ (_ → Reports (A0.applyAll (s.ev ++ [Event.done])) _ _ _ _)
        rw [applyAll_append]
        exact h2 q e hq
    · intro st1 evs hp hj hle hns hz
      unfold skrockProg at hp
      rw [cnt_eq_savedCount _ _ hg] at hj
      constructor
      · intro hvb
        rw [if_pos hvb] at hp
        rcases Nat.lt_or_ge b (st1.i + 1) with hlt | hge
        · have hpos := savedCount_pos b (spacing M.par) _ hlt
          obtain ⟨e, he, hrep⟩ := progressArrays_reports M A0 st1 evs hp (st1.j - 1)
            (fun l _ x hx => pyGet_sub st1.j (by omega) l x hx) hA
          refine ⟨e, he, fun hc => by omega, fun _ => ?_⟩
          rw [← hj]
          exact hrep
        · have hj0 : st1.j = 0 := by rw [hj]; exact savedCount_burnin _ _ _ hge
          obtain ⟨e, he, hrep⟩ := progressArrays_reports M A0 st1 evs hp (M.par.nsamples - 1)
            (fun l hl x hx => pyGet_minusOne _ hns l hl x (by rw [hj0] at hx; exact hx)) hA
          refine ⟨e, he, fun _ => ?_, fun hc => by omega⟩
          rw [hz hj0, hj0] at hrep
          exact hrep
      · intro hvb
        rw [if_neg hvb] at hp
        exact (Except.ok.inj hp).symm
    · intro m A A' e ⟨g1, g2⟩ hrow
      refine ⟨g1, fun hm => (g2 hm).stable (hrow _ ?_)⟩
      rw [cnt_eq_savedCount _ _ hg]
      have := savedCount_pos b (spacing M.par) m hm
      omega

/-- C131: with `verbosity ≤ 0` MYULA and SKROCK print `DONE` only. -/
theorem C131_silent (M : Sampler n) (R : Rng) (A0 : Arrays) (hv : M.par.verbosity ≤ 0) (r : R.σ) (sp : StartPoint)
    (fuel : ℕ) (st : St R) (h : myulaRun M R A0 r sp fuel = .ok (some st) ∨ skrockRun M R A0 r sp fuel = .ok (some st)) :
    printed st.ev = [.done] := by
  have hnv : ∀ i, ¬ verbose M.par i := fun i hvb => by have := hvb.1; omega
  rcases h with h | h
  · unfold myulaRun at h
    obtain ⟨x0, -, h⟩ := bind_ok h
    obtain ⟨res, hres, h⟩ := bind_ok h
    rw [myulaBody_eq] at hres
    cases res with
    | none => cases Except.ok.inj h
    | some s =>
      obtain rfl := Option.some.inj (Except.ok.inj h)
      obtain ⟨m, -, hr, -⟩ := whileFuel_some hres
      show printed (s.ev ++ _) = _
      rw [printed_append, gen_silent M A0 _ _ ?_ _ m s hr]
      · rfl
      · intro st1 evs hp
        unfold myulaProg at hp
        simp only [hnv, if_false, ite_self] at hp
        exact (Except.ok.inj hp).symm
  · unfold skrockRun at h
    obtain ⟨co, -, h⟩ := bind_ok h
    obtain ⟨x0, -, h⟩ := bind_ok h
    obtain ⟨res, hres, h⟩ := bind_ok h
    rw [skrockBody_eq] at hres
    cases res with
    | none => cases Except.ok.inj h
    | some s =>
      obtain rfl := Option.some.inj (Except.ok.inj h)
      obtain ⟨m, -, hr, -⟩ := whileFuel_some hres
      show printed (s.ev ++ _) = _
      rw [printed_append, gen_silent M A0 _ _ ?_ _ m s hr]
      · rfl
      · intro st1 evs hp
        unfold skrockProg at hp
        simp only [hnv, if_false] at hp
        exact (Except.ok.inj hp).symm

/-- What an iteration of PxMALA prints. -/
theorem malaBody_printed (M : Sampler n) (R : Rng) (tune : Bool) (A0 : Arrays) (st st' : MalaSt R)
    (h : malaBody M R tune A0 st = .ok st') : printed st'.ev = printed st.ev ++
      if verbose M.par st.i then [.progress st'.j M.par.nsamples st'.cur.logpi st'.cur.L2 st'.cur.prior
        (some ((st'.acc.sum : ℝ) / st'.acc.length))] else [] := by
  unfold malaBody at h
  obtain ⟨pr, hpr, h⟩ := bind_ok h
  obtain ⟨a, ha, h⟩ := bind_ok h
  obtain ⟨st2, h2, h⟩ := bind_ok h
  obtain ⟨st3, h3, h⟩ := bind_ok h
  obtain rfl := Except.ok.inj h
  have k2 : st2.i = st.i ∧ st2.ev = st.ev := by
    unfold malaTune at h2
    split at h2
    · obtain ⟨d, -, h2⟩ := bind_ok h2
      obtain rfl := Except.ok.inj h2
      exact ⟨rfl, rfl⟩
    · obtain rfl := Except.ok.inj h2
      exact ⟨rfl, rfl⟩
  have k3 : st3.i = st.i ∧ printed st3.ev = printed st.ev := by
    unfold malaSave at h3
    split at h3
    · split at h3
      · obtain ⟨evs, he, h3⟩ := bind_ok h3
        obtain rfl := Except.ok.inj h3
        refine ⟨k2.1, ?_⟩
        show printed (st2.ev ++ evs) = _
        rw [tracking_ok M (l := (st2.cur.logpi, st2.cur.L2, st2.cur.prior)) he, printed_append, printed_rowEvents, k2.2,
          List.append_nil]
      · obtain rfl := Except.ok.inj h3
        exact ⟨k2.1, by rw [k2.2]⟩
    · obtain rfl := Except.ok.inj h3
      exact ⟨k2.1, by rw [k2.2]⟩
  have hj : ((st3.j : ℤ) - 1 + 1) = st3.j := by omega
  simp only [malaFinish, printed_append, k3.1, k3.2, accRate, hj]
  congr 1
  split <;> rfl

/-- C131 for PxMALA: with `verbosity = v > 0` a run of `N` iterations prints one line every `v` iterations and then `DONE`.
The line of iteration `m` reports the number of samples saved so far, the log-posterior, L2 and prior of the sample where
the chain is after `m` iterations, and the fraction of the first `m` proposals that were accepted.  With `verbosity ≤ 0` only
`DONE` is printed. -/
theorem C131_mala (M : Sampler n) (R : Rng) (tune : Bool) (delta : ℝ) (A0 : Arrays) (b : ℕ) (hb : M.par.nburn = b)
    (r : R.σ) (sp : StartPoint) (fuel : ℕ) (st : MalaSt R) (h : malaRun M R tune delta A0 r sp fuel = .ok (some st)) :
    (M.par.verbosity ≤ 0 → printed st.ev = [.done]) ∧
    ∀ v : ℕ, M.par.verbosity = v → 0 < v → ∃ s0 lines, malaInit M R delta r sp = .ok s0 ∧
      printed st.ev = lines ++ [.done] ∧ lines.length = st.acc.length / v ∧ ∀ q e, lines[q]? = some e →
      ∃ s, Reach (malaCond M) (malaBody M R tune A0) s0 ((q + 1) * v) s ∧ s.acc = st.acc.take ((q + 1) * v) ∧
        ∃ lp l2 pr, M.F.forward s.cur.X = .ok s.cur.preds ∧
          logpi M.F M.P M.par.mu s.cur.X s.cur.preds = .ok (lp, l2, pr) ∧
          e = .progress (savedIters (st.acc.take ((q + 1) * v)) b (spacing M.par)).length M.par.nsamples lp l2 pr
            (some (((st.acc.take ((q + 1) * v)).sum : ℝ) / ((q + 1) * v : ℕ))) := by
  obtain ⟨s0, s, m, hs0, hr, -, -, rfl⟩ := malaRun_ok M R tune delta A0 r sp fuel st h
  obtain ⟨-, -, i3, i4, -⟩ := malaInit_ok M R delta r sp s0 hs0
  have hfin : printed (s.ev ++ [Event.done]) = printed s.ev ++ [Event.done] := by rw [printed_append]; rfl
  constructor
  · intro hv
    show printed (s.ev ++ [Event.done]) = _
    rw [hfin, hr.invariant (fun _ s => printed s.ev = []) (by rw [i4]; rfl) ?_]
    · rfl
    · intro k s s' hi _ hbody
      rw [malaBody_printed M R tune A0 s s' hbody, hi, if_neg (fun hvb => by have := hvb.1; omega)]
      rfl
  · intro v hv h0
    have key : ∀ m s, Reach (malaCond M) (malaBody M R tune A0) s0 m s → (printed s.ev).length = m / v ∧
        ∀ q e, (printed s.ev)[q]? = some e →
        ∃ t, Reach (malaCond M) (malaBody M R tune A0) s0 ((q + 1) * v) t ∧ t.acc = s.acc.take ((q + 1) * v) ∧
          e = .progress t.j M.par.nsamples t.cur.logpi t.cur.L2 t.cur.prior (some ((t.acc.sum : ℝ) / t.acc.length)) := by
      intro m s hr
      induction hr with
      | refl => simp [i4, printed]
      | @step k s s' hr hc hbody ih =>
        obtain ⟨hlen, hold⟩ := ih
        obtain ⟨hi, hacc, -⟩ := minv_reach M R tune A0 b hb delta r sp s0 hs0 k s hr
        obtain ⟨hi', hacc', -⟩ := minv_reach M R tune A0 b hb delta r sp s0 hs0 (k + 1) s' (.step hr hc hbody)
        obtain ⟨pr, a, w, -, -, -, hcc, -⟩ := coreStep_ok M R tune _ _ (malaBody_ok M R tune A0 s s' hbody).1
        have hcc' : s'.acc = s.acc ++ [w] := hcc
        have hold' : ∀ q e, (printed s.ev)[q]? = some e →
            ∃ t, Reach (malaCond M) (malaBody M R tune A0) s0 ((q + 1) * v) t ∧ t.acc = s'.acc.take ((q + 1) * v) ∧
              e = .progress t.j M.par.nsamples t.cur.logpi t.cur.L2 t.cur.prior
                (some ((t.acc.sum : ℝ) / t.acc.length)) := by
          intro q e hq
          obtain ⟨t, h1, h2, h3⟩ := hold q e hq
          refine ⟨t, h1, ?_, h3⟩
          have hql : q < k / v := by rw [← hlen]; exact (List.getElem?_eq_some_iff.mp hq).1
          have hle : (q + 1) * v ≤ k := (Nat.mul_le_mul_right v hql).trans (Nat.div_mul_le_self k v)
          rw [h2, hcc', List.take_append_of_le_length (by omega)]
        rw [malaBody_printed M R tune A0 s s' hbody]
        have hvb := verbose_iff M.par v hv h0 s.i
        rw [hi] at hvb ⊢
        by_cases hd : v ∣ k + 1
        · rw [if_pos (hvb.mpr hd)]
          have hdiv : (k + 1) / v = k / v + 1 := by rw [Nat.succ_div, if_pos hd]
          refine ⟨by simp [hlen, hdiv], ?_⟩
          intro q e' hq
          rcases Nat.lt_or_ge q (printed s.ev).length with hql | hql
          · rw [List.getElem?_append_left hql] at hq
            exact hold' q e' hq
          · rw [List.getElem?_append_right hql] at hq
            have hq0 : q = k / v := by
              have := (List.getElem?_eq_some_iff.mp hq).1
              simp at this
              omega
            rw [hlen, hq0, Nat.sub_self] at hq
            simp only [List.getElem?_cons_zero, Option.some.injEq] at hq
            rw [hq0, ← hdiv, Nat.div_mul_cancel hd]
            exact ⟨s', .step hr hc hbody, by rw [List.take_of_length_le (by omega)], hq.symm⟩
        · rw [if_neg fun hh => hd (hvb.mp hh), List.append_nil]
          refine ⟨?_, hold'⟩
          rw [hlen, Nat.succ_div, if_neg hd, Nat.add_zero]
    obtain ⟨k1, k2⟩ := key m s hr
    obtain ⟨-, haccm, -⟩ := minv_reach M R tune A0 b hb delta r sp s0 hs0 m s hr
    refine ⟨s0, printed s.ev, hs0, hfin, by rw [k1]; exact congrArg (· / v) haccm.symm, ?_⟩
    intro q e hq
    obtain ⟨t, h1, h2, h3⟩ := k2 q e hq
    have hsy := C48_synced M R tune A0 delta r sp s0 hs0 _ t h1
    obtain ⟨-, htl, htj, -⟩ := minv_reach M R tune A0 b hb delta r sp s0 hs0 _ t h1
    refine ⟨t, h1, h2, t.cur.logpi, t.cur.L2, t.cur.prior, hsy.preds, hsy.logpi, ?_⟩
    show e = .progress ((savedIters (s.acc.take _) b (spacing M.par)).length : ℕ) _ _ _ _ _
    rw [← h2, ← htj, h3, htl]

/-! ## Concrete runs -/

/-- Parameters of a run that prints: `lmda = 1`, `delta = 1/2`, one SKROCK stage, burn-in 1, no thinning. -/
noncomputable def loudPar (ns : ℕ) (v : ℤ) : Params :=
  ⟨1, 1 / 2, 1, 1, ns, (1 : ℕ), (0 : ℕ), false, v, ["logposterior", "L2", "prior"]⟩

theorem loud_skrock (ns : ℕ) (v : ℤ) : ∃ st, skrockRun (demo (loudPar (ns + 1) v)) (constRng 0 0) (initArrays (demo (loudPar (ns + 1) v))) ()
    (.array1 (List.ofFn fun _ : Fin 1 => 4)) (ns + 2) = .ok (some st) ∧ st.i = ns + 2 ∧
    ((initArrays (demo (loudPar (ns + 1) v))).applyAll st.ev).L2s = some ((List.range (ns + 1)).map fun k => (1 / 4) ^ k) := by
  set M := demo (loudPar (ns + 1) v) with hM
  have tot : Total M 1 (fun x => x) (fun y => y) (fun x => x) (fun _ => 0) := demo_total (loudPar (ns + 1) v) one_ne_zero
  obtain ⟨co, f, hco, hf, -, st, hst, hi, hrows⟩ := C42_schedule M (constRng 0 0) (initArrays M) (initArrays_shaped M)
    (.inr (by simp [initArrays, hM, demo, loudPar])) (by simp [hM, demo, loudPar]) 1 0 rfl rfl tot _
    (fun x => gradlogpi_vec M tot x) () () (.array1 (List.ofFn fun _ => 4)) (fun _ => 4) (demo_start _ _ _ _ one_ne_zero) (ns + 2)
    (by simp [hM, demo, loudPar]; omega)
  refine ⟨st, hst _ le_rfl, hi, ?_⟩
  have hw : ∀ k, noiseSeq (constRng 0 0) M.par.complex 1 () k = fun _ => 0 := by
    intro k
    funext i
    simp [noiseSeq, drawVec, constRng, hM, demo, loudPar]
  have hf1 : ∀ x : Fin 1 → ℂ, f x (fun _ => 0) = fun i => x i / 2 := by
    intro x
    obtain ⟨c, hc, -, h1⟩ := C19_one_stage (gradVec M.par.lmda (fun x : Fin 1 → ℂ => x) (fun y => y) fun x => x) M.par.delta x
      (fun _ => 0)
    have hcc : co = c := Except.ok.inj (hco.symm.trans hc)
    subst hcc
    have h2 := (hf x (fun _ => 0)).symm.trans h1
    rw [Except.ok.inj h2]
    funext i
    simp [gradVec, hM, demo, loudPar]
    ring
  have hit : ∀ k, iter f (noiseSeq (constRng 0 0) M.par.complex 1 ()) (fun _ => 4) k = fun _ => 4 / 2 ^ k := by
    intro k
    induction k with
    | zero => simp [iter]
    | succ k ih =>
      simp only [iter, ih, hw, hf1]
      funext i
      rw [pow_succ]
      field_simp
  rw [hrows]
  have hs : (initArrays M).L2s.isSome := by simp [initArrays, hM, demo, loudPar]
  obtain ⟨a, ha⟩ := Option.isSome_iff_exists.mp hs
  simp only [Arrays.ofRows, ha, Option.map_some, Option.some.injEq]
  apply List.map_congr_left
  intro k _
  simp only [rowOf, hit]
  have hd : M.F.data.vals = fun _ => 0 := rfl
  have hc : M.F.invcov = 1 := rfl
  rw [hd, hc, Matrix.one_mulVec]
  simp only [Spec.inner, Finset.univ_unique, Finset.sum_singleton, Pi.sub_apply, zero_sub]
  have : ((4 : ℂ) / 2 ^ (1 + k * max 0 1 + 1)) = ((1 / 2 ^ k : ℝ) : ℂ) := by
    push_cast
    rw [show 1 + k * max 0 1 + 1 = k + 2 by simp; omega, pow_add]
    field_simp
    norm_num
  rw [this, mul_comm, map_neg, Complex.conj_ofReal, neg_mul_neg, ← Complex.ofReal_mul, Complex.ofReal_re]
  rw [div_mul_div_comm, one_mul, ← mul_pow, one_div, one_div, ← inv_pow]
  norm_num

/-- C131 is violated: a two-iteration SKROCK run with one iteration of burn-in on freshly built arrays reports an L2 that no saved sample
has (it prints zeros before anything has been saved). -/
theorem C131_skrock_refuted : ¬ ∀ (M : Sampler 1) (R : Rng) (r : R.σ) (sp : StartPoint) (fuel : ℕ) (st : St R),
    skrockRun M R (initArrays M) r sp fuel = .ok (some st) → ∀ c t x y z a, Event.progress c t x y z a ∈ st.ev →
      ∃ k l2, (((initArrays M).applyAll st.ev).row k).2.1 = some l2 ∧ y = (l2 : ℂ) := by
  intro H
  obtain ⟨st, h, hi, hl⟩ := loud_skrock 0 1
  obtain ⟨lines, h1, h2, h3⟩ := C131_skrock_partial (demo (loudPar 1 1)) _ _ (initArrays_shaped _) 1 rfl 1 rfl one_pos _ _ _ st h
  have hlen : 0 < lines.length := by rw [h2, hi]; decide
  obtain ⟨x, y, z, he, -, hy, -⟩ := (h3 0 _ (List.getElem?_eq_getElem hlen)).1 (by norm_num)
  have hmem : lines[0] ∈ st.ev := by
    have : lines[0] ∈ printed st.ev := by rw [h1]; exact List.mem_append_left _ (List.getElem_mem hlen)
    exact (List.mem_filter.mp this).1
  rw [he] at hmem
  obtain ⟨k, l2, hk, hyl⟩ := H _ _ _ _ _ st h _ _ _ _ _ _ hmem
  have hy0 : y = 0 := by
    simp [Arrays.row, initArrays, demo, loudPar] at hy
    exact hy.symm
  simp only [Arrays.row, hl, Option.bind_some] at hk
  rw [hy0] at hyl
  have hl2 : l2 = 0 := by exact_mod_cast hyl.symm
  rw [hl2] at hk
  obtain ⟨hk1, hk2⟩ := List.getElem?_eq_some_iff.mp hk
  simp at hk2

/-- C131, SKROCK and `verbosity = 3`: seven iterations, two lines, the second one after the burn-in with counter 5. -/
example : ∃ st lines, skrockRun (demo (loudPar 6 3)) (constRng 0 0) (initArrays (demo (loudPar 6 3))) ()
    (.array1 (List.ofFn fun _ : Fin 1 => 4)) 7 = .ok (some st) ∧ printed st.ev = lines ++ [.done] ∧ lines.length = 2 ∧
    ∃ x z : ℝ, lines[1]? = some (.progress 5 6 x ((1 / 4 : ℝ) ^ 4 : ℝ) z none) := by
  obtain ⟨st, h, hi, hl⟩ := loud_skrock 5 3
  obtain ⟨lines, h1, h2, h3⟩ := C131_skrock_partial (demo (loudPar 6 3)) _ _ (initArrays_shaped _) 1 rfl 3 rfl (by norm_num) _ _ _ st h
  have hlen : lines.length = 2 := by rw [h2, hi]
  have hs : savedCount 1 (spacing (demo (loudPar 6 3)).par) ((1 + 1) * 3) = 5 := by
    rw [← cnt_eq_savedCount _ _ (spacing_pos _)]
    simp [demo, loudPar, spacing, cnt]
  refine ⟨st, lines, h, h1, hlen, ?_⟩
  have h4 := (h3 1 lines[1] (List.getElem?_eq_getElem (by omega))).2 (by norm_num)
  rw [hs] at h4
  obtain ⟨x, y, z, he, -, hy, -⟩ := h4
  simp only [Arrays.row, hl, Option.bind_some] at hy
  have hy' : y = (1 / 4) ^ 4 := by
    simp at hy
    rw [← hy]
    norm_num
  refine ⟨x, z, ?_⟩
  rw [List.getElem?_eq_getElem (by omega), he, hy']
  rfl

/-- C131, MYULA: a run with burn-in 3, thinning 2 and `verbosity = 4` makes 12 iterations and prints three lines, the first with
counter 1; with `verbosity = 0` it prints `DONE` only. -/
example : ∃ st lines, myulaRun (demo ⟨1, 1 / 2, 1, 1, 5, (3 : ℕ), (2 : ℕ), true, 4, ["logposterior", "L2", "prior", "chain"]⟩)
    (constRng 1 0) (initArrays (demo ⟨1, 1 / 2, 1, 1, 5, (3 : ℕ), (2 : ℕ), true, 4,
      ["logposterior", "L2", "prior", "chain"]⟩)) () (.array1 (List.ofFn fun _ : Fin 1 => 2)) 12 = .ok (some st) ∧
    printed st.ev = lines ++ [.done] ∧ lines.length = 3 ∧ ∃ x y z : ℝ, lines[0]? = some (.progress 1 5 x y z none) := by
  set M := demo ⟨1, 1 / 2, 1, 1, 5, (3 : ℕ), (2 : ℕ), true, 4, ["logposterior", "L2", "prior", "chain"]⟩ with hM
  obtain ⟨-, st, h, hi, -⟩ := C41_schedule M (constRng 1 0) _ (initArrays_shaped _)
    (.inr (by simp [initArrays, hM, demo])) 3 2 rfl rfl (demo_total _ one_ne_zero) _
    (fun x => gradlogpi_vec _ (demo_total _ one_ne_zero) x) () () (.array1 (List.ofFn fun _ : Fin 1 => 2)) (fun _ => 2)
    (demo_start _ _ _ _ one_ne_zero) 12 (by simp [hM, demo])
  obtain ⟨lines, h1, h2, h3⟩ := C131_myula M _ _ (initArrays_shaped _) 3 rfl 4 rfl (by norm_num) _ _ _ st (h 12 le_rfl)
  have hlen : lines.length = 3 := by rw [h2, hi]
  have hs : savedCount 3 (spacing M.par) ((0 + 1) * 4) = 1 := by
    rw [← cnt_eq_savedCount _ _ (spacing_pos _)]
    simp [hM, demo, spacing, cnt]
  refine ⟨st, lines, h 12 le_rfl, h1, hlen, ?_⟩
  obtain ⟨x, y, z, he, -⟩ := (h3 0 lines[0] (List.getElem?_eq_getElem (by omega))).2 (by norm_num)
  rw [hs] at he
  exact ⟨x, y, z, by rw [List.getElem?_eq_getElem (by omega), he]; rfl⟩

/-- C131, PxMALA: a run in which the only proposal is accepted prints one line with acceptance rate 1. -/
example : ∃ st lines, malaRun (demo ⟨1, 1 / 2, 1, 1, 1, (0 : ℕ), (0 : ℕ), false, 1, ["chain"]⟩) (seqRng fun _ => 0) false (1 / 2)
      (initArrays (demo ⟨1, 1 / 2, 1, 1, 1, (0 : ℕ), (0 : ℕ), false, 1, ["chain"]⟩)) (0 : ℕ) demoSp 1 = .ok (some st) ∧
    printed st.ev = lines ++ [.done] ∧ lines.length = 1 ∧ ∃ x y z : ℂ, lines[0]? = some (.progress 1 1 x y z (some 1)) := by
  set M := demo ⟨1, 1 / 2, 1, 1, 1, (0 : ℕ), (0 : ℕ), false, 1, ["chain"]⟩ with hM
  have tot : Total M 1 (fun x => x) (fun y => y) (fun x => x) (fun _ => 0) := demo_total _ one_ne_zero
  have hacc : ∀ s0 s, Reach (malaCond M) (malaBody M (seqRng fun _ => 0) false (initArrays M)) s0 1 s → s0.acc = [] → s.acc = [1] := by
    intro s0 s hr h0
    cases hr with
    | @step _ s1 _ hr1 _ hbody =>
      cases hr1
      obtain ⟨pr, a, v, -, -, -, hcc, -, hv, -⟩ := coreStep_ok _ _ _ _ _ (malaBody_ok _ _ _ _ _ _ hbody).1
      have hcc' : s.acc = s0.acc ++ [v] := hcc
      rcases hv with ⟨-, e, -⟩ | ⟨hn, -, -⟩
      · rw [hcc', h0, e]; rfl
      · exact absurd (accept_zero _) hn
  have hi := init_vec M (seqRng fun _ => 0) tot (1 / 2) (0 : ℕ) (0 : ℕ) demoSp (fun _ => 0) (demo_start _ _ _ _ one_ne_zero)
  obtain ⟨c1, c2, c3⟩ := C54_stops_partial M (seqRng fun _ => 0) false (1 / 2) (initArrays M) (initArrays_shaped _) 0 0 rfl rfl
    (0 : ℕ) demoSp
  rcases c3 1 _ _ _ _ (fun _ => 0) (0 : ℕ) tot (demo_start _ _ _ _ one_ne_zero) 1 with h | ⟨st, h⟩
  · exfalso
    obtain ⟨s, hr, -, hlt⟩ := c2 1 _ hi h
    rw [hacc _ s hr rfl] at hlt
    revert hlt
    show ¬ acceptedThinned [1] 0 0 < 1
    decide
  · have hst : st.acc = [1] := by
      obtain ⟨s0, s, m, h0, hr, hc, hm, rfl⟩ := malaRun_ok _ _ _ _ _ _ _ _ _ h
      have e0 := (malaInit_ok _ _ _ _ _ _ h0).2
      have hj := mala_final_j M _ false _ s0 s m e0.1 hr hc
      have hm1 : m = 1 := by
        rcases Nat.eq_zero_or_pos m with h0' | h0'
        · subst h0'
          cases hr
          rw [e0.1] at hj
          simp [hM, demo] at hj
        · omega
      subst hm1
      exact hacc _ s hr e0.2.1
    obtain ⟨-, h2⟩ := C131_mala M (seqRng fun _ => 0) false (1 / 2) (initArrays M) 0 rfl (0 : ℕ) demoSp 1 st h
    obtain ⟨s0, lines, -, h3, h4, h5⟩ := h2 1 rfl one_pos
    have hlen : lines.length = 1 := by rw [h4, hst]; rfl
    obtain ⟨s, -, -, lp, l2, pr, -, -, he⟩ := h5 0 lines[0] (List.getElem?_eq_getElem (by omega))
    refine ⟨st, lines, h, h3, hlen, lp, l2, pr, ?_⟩
    rw [List.getElem?_eq_getElem (by omega), he, hst]
    simp [savedIters, hM, demo]

end Pxmcmc
