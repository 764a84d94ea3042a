import Verif.Props.Recompute
import Verif.Lemmas.MalaVec

/-! # Continuing a run from its last sample -/

namespace Pxmcmc
variable {n : ℕ} {R : Rng}

/-! ## MYULA and SKROCK -/

/-- Two histories, one behind the other. -/
theorem Hist.append {step : Cur R → Py (Cur R)} {c0 : Cur R} {m k : ℕ} {T U : ℕ → Cur R} (h : Hist step c0 m T) (h' : Hist step (T m) k U) :
    Hist step c0 (m + k) fun i => if i ≤ m then T i else U (i - m) := by
  refine ⟨by simp [h.1], fun i hi => ?_⟩
  rcases Nat.lt_trichotomy i m with h1 | h1 | h1
  · simp only [h1.le, if_true, show i + 1 ≤ m by omega]
    exact h.2 i h1
  · subst h1
    simp only [le_refl, if_true, show ¬ (i + 1 ≤ i) by omega, if_false, show i + 1 - i = 0 + 1 by omega]
    rw [← h'.2 0 (by omega), h'.1]
  · simp only [show ¬ (i ≤ m) by omega, show ¬ (i + 1 ≤ m) by omega, if_false, show i + 1 - m = (i - m) + 1 by omega]
    exact h'.2 (i - m) (by omega)

/-- A loop follows a history that is long enough. -/
theorem gen_of_hist (M : Sampler n) (A0 : Arrays) (step : Cur R → Py (Cur R)) (prog : St R → Py (List Event)) (hprog : NoWrites prog)
    (c0 : Cur R) (b : ℕ) (hb : M.par.nburn = b) (hA : A0.Shaped M.par.nsamples) (T : ℕ → Cur R)
    (hT : Hist step c0 (numIter M.par.nsamples b (spacing M.par)) T)
    (hlog : ∀ k < M.par.nsamples, ∃ l, logpi M.F M.P M.par.mu (T (b + k * spacing M.par + 1)).X (T (b + k * spacing M.par + 1)).preds = .ok l)
    (hwid : ∀ k ≤ numIter M.par.nsamples b (spacing M.par), (T k).X.length = M.nparams ∧ (T k).preds.length = n)
    (hpt : ∀ st : St R, st.j ≤ M.par.nsamples → 0 < M.par.nsamples → ∃ evs, prog st = .ok evs) :
    ∃ r, Reach (loopCond M) (genBody M A0 step prog) ⟨0, 0, c0, []⟩ (numIter M.par.nsamples b (spacing M.par)) r ∧ r.j = M.par.nsamples := by
  have hg := spacing_pos M.par
  have key := reach_of_progress (cond := loopCond M) (body := genBody M A0 step prog)
    (fun k s => SInv M A0 step c0 b k s ∧ s.cur = T k) (numIter M.par.nsamples b (spacing M.par)) ⟨0, 0, c0, []⟩
    ⟨sinv_init M A0 step c0 b, hT.1.symm⟩ ?_
  · obtain ⟨r, hr, hi, -⟩ := key
    exact ⟨r, hr, by rw [hi.2.1, cnt_numIter _ _ _ hg]⟩
  · intro k s hk ⟨hi, hcur⟩
    have hjk : s.j < M.par.nsamples := by
      rw [hi.2.1]; exact cnt_lt_of_lt _ b _ k hg hk
    refine ⟨by simp [loopCond, hjk], ?_⟩
    have hc : step s.cur = .ok (T (k + 1)) := by rw [hcur]; exact hT.2 k hk
    obtain ⟨w1, w2⟩ := hwid (k + 1) (by omega)
    have hrec : ∃ st1 : St R, (if (s.i : ℤ) ≥ M.par.nburn ∧ thinned M.par s.i then
        recordRow M A0 { s with cur := T (k + 1) } else .ok { s with cur := T (k + 1) }) = .ok st1 ∧ st1.j ≤ M.par.nsamples ∧
        st1.cur = T (k + 1) := by
      split
      · rename_i hs
        rw [saved_iff M.par b hb, hi.1] at hs
        obtain ⟨-, e⟩ := cnt_saved b _ k hg hs.1 hs.2
        rw [← hi.2.1] at e
        obtain ⟨l, hl⟩ := hlog s.j hjk
        rw [← e] at hl
        have hsh := Arrays.Shaped.of_same (A0.applyAll_shape s.ev) hA
        obtain ⟨evs, he⟩ := tracking_total M (A := A0.applyAll s.ev) hjk hsh.logPi hsh.L2s hsh.priors hsh.preds hsh.chain _ _ w1 w2 l
        refine ⟨{ s with cur := T (k + 1), ev := s.ev ++ evs, j := s.j + 1 }, ?_, by simpa using hjk, rfl⟩
        unfold recordRow
        simp only [hl, bind, Except.bind, he]
      · exact ⟨_, rfl, hjk.le, rfl⟩
    obtain ⟨st1, h1, h2, h3⟩ := hrec
    obtain ⟨evs, he⟩ := hpt st1 h2 (by omega)
    have hbody : genBody M A0 step prog s = .ok { st1 with ev := st1.ev ++ evs, i := st1.i + 1 } := by
      unfold genBody genBook
      rw [hc]
      show ((if (s.i : ℤ) ≥ M.par.nburn ∧ thinned M.par s.i then
        recordRow M A0 { s with cur := T (k + 1) } else .ok { s with cur := T (k + 1) }) >>= _) = _
      rw [h1]
      show (prog st1 >>= _) = _
      rw [he]
      rfl
    exact ⟨_, hbody, sinv_step M A0 step prog hprog c0 b hb k s _ hi hbody, by rw [← h3]⟩

theorem mkRow_chain (M : Sampler n) (X preds : List ℂ) (l : ℂ × ℂ × ℝ) (h1 : X.length = M.nparams) (h2 : FitsDtype M.par.complex X) :
    (mkRow M X preds l).chain = X := by
  simp only [mkRow, rowAssign, h1, if_true]
  exact store_fits _ _ h2

/-- Rows of two runs are the same. -/
def SameRow (A B : Arrays) (k l : ℕ) : Prop := ∃ row, A.RowIs k row ∧ B.RowIs l row

/-- The last sample of a run. -/
theorem last_sample (A0 : Arrays) (ns : ℕ) (rows : ℕ → Row) (cs : List (List ℂ)) (x : List ℂ)
    (hcs : (A0.ofRows ns rows).chain = some cs) (hx : cs.getLast? = some x) : 0 < ns ∧ x = (rows (ns - 1)).chain := by
  simp only [Arrays.ofRows, Option.map_eq_some_iff] at hcs
  obtain ⟨-, -, rfl⟩ := hcs
  rw [List.getLast?_map, List.getLast?_range] at hx
  split at hx
  · simp at hx
  · exact ⟨by omega, by simpa using hx.symm⟩

/-- Continuing a MYULA or SKROCK loop. -/
theorem gen_resume (M : Sampler n) (A1 A2 A : Arrays) (ns2 b g : ℕ) (v2 v : ℤ) (tr2 tr : List String) (hb : M.par.nburn = b)
    (hg : M.par.ngap = g) (hA1 : A1.Shaped M.par.nsamples) (hA2 : A2.Shaped ns2) (hA : A.Shaped (M.par.nsamples + ns2))
    (step : Cur R → Py (Cur R)) (prog1 prog2 prog : St R → Py (List Event)) (hp1 : NoWrites prog1) (hp2 : NoWrites prog2) (hp : NoWrites prog)
    (hpt : ∀ st : St R, st.j ≤ M.par.nsamples + ns2 → 0 < M.par.nsamples + ns2 → ∃ evs, prog st = .ok evs)
    (hfw : ∀ c c', step c = .ok c' → M.F.forward c'.X = .ok c'.preds)
    (hs : ∀ c c', step c = .ok c' → Holds M c.X c.preds → Holds M c'.X c'.preds) (c0 : Cur R) (h0 : Holds M c0.X c0.preds)
    (fuel1 fuel2 : ℕ) (s1 s2 : St R) (h1 : whileFuel (loopCond M) (genBody M A1 step prog1) fuel1 ⟨0, 0, c0, []⟩ = .ok (some s1))
    (cs : List (List ℂ)) (x : List ℂ) (hcs : (A1.applyAll s1.ev).chain = some cs) (hx : cs.getLast? = some x) (P : List ℂ)
    (hP : M.F.forward x = .ok P)
    (h2 : whileFuel (loopCond (M.resched ns2 ((max g 1 - 1 : ℕ) : ℤ) g v2 tr2)) (genBody (M.resched ns2 ((max g 1 - 1 : ℕ) : ℤ) g v2 tr2) A2 step prog2)
      fuel2 ⟨0, 0, ⟨x, P, s1.cur.rng⟩, []⟩ = .ok (some s2)) :
    x = s1.cur.X ∧ ∃ s, (∀ fuel ≥ s1.i + s2.i, whileFuel (loopCond (M.resched (M.par.nsamples + ns2) b g v tr))
        (genBody (M.resched (M.par.nsamples + ns2) b g v tr) A step prog) fuel ⟨0, 0, c0, []⟩ = .ok (some s)) ∧
      s.i = s1.i + s2.i ∧ s.cur = s2.cur ∧
      (∀ k < M.par.nsamples, SameRow (A.applyAll s.ev) (A1.applyAll s1.ev) k k) ∧
      ∀ k < ns2, SameRow (A.applyAll s.ev) (A2.applyAll s2.ev) (M.par.nsamples + k) k := by
  set M2 := M.resched ns2 ((max g 1 - 1 : ℕ) : ℤ) g v2 tr2 with hM2
  set M3 := M.resched (M.par.nsamples + ns2) b g v tr with hM3
  obtain ⟨T, rows, hT, hi1, hc1, hrows, harr, -⟩ := gen_result M A1 step prog1 hp1 c0 b hb hA1 fuel1 s1 h1
  obtain ⟨U, rows2, hU, hi2, hc2, hrows2, harr2, -⟩ := gen_result M2 A2 step prog2 hp2 _ (max g 1 - 1) rfl hA2 fuel2 s2 h2
  have sp1 : spacing M.par = max g 1 := spacing_nat _ g hg
  have sp2 : spacing M2.par = max g 1 := spacing_nat _ g rfl
  have sp3 : spacing M3.par = max g 1 := spacing_nat _ g rfl
  rw [sp1] at hT hi1 hc1 hrows
  rw [sp2] at hU hi2 hc2 hrows2
  have hn2 : M2.par.nsamples = ns2 := rfl
  have hn3 : M3.par.nsamples = M.par.nsamples + ns2 := rfl
  rw [hn2] at hU hi2 hc2 hrows2 harr2
  set d := max g 1 with hd
  have hd1 : 1 ≤ d := le_max_right _ _
  rw [harr] at hcs
  obtain ⟨hns, rfl⟩ := last_sample A1 _ rows cs x hcs hx
  have hN1 : numIter M.par.nsamples b d = b + (M.par.nsamples - 1) * d + 1 := by
    unfold numIter; rw [if_neg (by omega)]
  have hT0 := hist_holds M R step c0 _ T hT h0 hs
  obtain ⟨hle, l, hl, hr⟩ := hrows (M.par.nsamples - 1) (by omega)
  have hX : (rows (M.par.nsamples - 1)).chain = (T (numIter M.par.nsamples b d)).X := by
    rw [hr, ← hN1]
    obtain ⟨e1, e2, -⟩ := hT0 _ le_rfl
    exact mkRow_chain M _ _ _ e1 e2
  have hpred := hfw _ _ (hT.2 (b + (M.par.nsamples - 1) * d) (by omega))
  rw [← hN1] at hpred
  rw [hX] at hP h2 hU
  obtain rfl := Except.ok.inj (hP.symm.trans hpred)
  have hcU : (⟨(T (numIter M.par.nsamples b d)).X, (T (numIter M.par.nsamples b d)).preds, s1.cur.rng⟩ : Cur R) = T (numIter M.par.nsamples b d) := by
    rw [hc1]
  rw [hcU] at hU
  have hN3 : numIter (M.par.nsamples + ns2) b d = numIter M.par.nsamples b d + numIter ns2 (d - 1) d := by
    rcases Nat.eq_zero_or_pos ns2 with h | h
    · subst h; simp [numIter]
    · rw [hN1]
      unfold numIter
      rw [if_neg (by omega), if_neg (by omega)]
      obtain ⟨a, ha⟩ : ∃ a, M.par.nsamples = a + 1 := ⟨_, (Nat.succ_pred_eq_of_pos hns).symm⟩
      obtain ⟨c, hc⟩ : ∃ c, ns2 = c + 1 := ⟨_, (Nat.succ_pred_eq_of_pos h).symm⟩
      obtain ⟨e, he⟩ : ∃ e, d = e + 1 := ⟨_, (Nat.succ_pred_eq_of_pos hd1).symm⟩
      rw [ha, hc, he]
      simp only [Nat.add_sub_cancel, show a + 1 + (c + 1) - 1 = a + c + 1 by omega]
      ring
  have hV := hT.append hU
  rw [← hN3] at hV
  set V : ℕ → Cur R := fun i => if i ≤ numIter M.par.nsamples b d then T i else U (i - numIter M.par.nsamples b d) with hVd
  have hVT : ∀ i ≤ numIter M.par.nsamples b d, V i = T i := fun i hi => if_pos hi
  have hVU : ∀ i, V (numIter M.par.nsamples b d + i) = U i := by
    intro i
    rcases Nat.eq_zero_or_pos i with rfl | h
    · rw [Nat.add_zero, hVT _ le_rfl, hU.1]
    · simp only [hVd]
      rw [if_neg (by omega), Nat.add_sub_cancel_left]
  have hidx : ∀ k, b + (M.par.nsamples + k) * d + 1 = numIter M.par.nsamples b d + (d - 1 + k * d + 1) := by
    intro k
    rw [hN1]
    obtain ⟨a, ha⟩ : ∃ a, M.par.nsamples = a + 1 := ⟨_, (Nat.succ_pred_eq_of_pos hns).symm⟩
    obtain ⟨e, he⟩ : ∃ e, d = e + 1 := ⟨_, (Nat.succ_pred_eq_of_pos hd1).symm⟩
    rw [ha, he]
    simp only [Nat.add_sub_cancel]
    ring
  have hVlog : ∀ k < M.par.nsamples + ns2, ∃ l, logpi M.F M.P M.par.mu (V (b + k * d + 1)).X (V (b + k * d + 1)).preds = .ok l := by
    intro k hk
    rcases Nat.lt_or_ge k M.par.nsamples with h | h
    · obtain ⟨e1, l, e2, -⟩ := hrows k h
      rw [hVT _ e1]
      exact ⟨l, e2⟩
    · obtain ⟨e1, l, e2, -⟩ := hrows2 (k - M.par.nsamples) (by omega)
      rw [show k = M.par.nsamples + (k - M.par.nsamples) by omega, hidx, hVU]
      exact ⟨l, e2⟩
  have hV0 := hist_holds M R step c0 _ V hV h0 hs
  obtain ⟨s, hreach, hj⟩ := gen_of_hist M3 A step prog hp c0 b rfl hA V (by rw [sp3, hn3]; exact hV) (by rw [sp3, hn3]; exact hVlog)
    (by rw [sp3, hn3]; exact fun k hk => ⟨(hV0 k hk).1, (hV0 k hk).2.2.1⟩) hpt
  rw [sp3, hn3] at hreach
  have hret : ∀ fuel ≥ s1.i + s2.i, whileFuel (loopCond M3) (genBody M3 A step prog) fuel ⟨0, 0, c0, []⟩ = .ok (some s) := by
    intro fuel hf
    have := hreach.returns (by simp [loopCond, hj]) (fuel - (s1.i + s2.i))
    rwa [hN3, ← hi1, ← hi2, Nat.add_sub_cancel' hf] at this
  obtain ⟨W, rows3, hW, hi3, hc3, hrows3, harr3, -⟩ := gen_result M3 A step prog hp c0 b rfl hA _ s (hret _ le_rfl)
  rw [sp3, hn3] at hW hi3 hc3 hrows3
  rw [hn3] at harr3
  have hWV := hW.unique hV
  refine ⟨by rw [hX, hc1], s, hret, by rw [hi3, hN3, hi1, hi2], ?_, fun k hk => ?_, fun k hk => ?_⟩
  · rw [hc3, hWV _ le_rfl, hN3, hVU, hc2]
  · obtain ⟨e1, l, e2, e3⟩ := hrows k hk
    obtain ⟨e4, l', e5, e6⟩ := hrows3 k (by omega)
    rw [hWV _ e4, hVT _ e1] at e5 e6
    obtain rfl := Except.ok.inj (e2.symm.trans e5)
    have e7 : rows3 k = rows k := by rw [e6, e3]; rfl
    refine ⟨rows k, ?_, by rw [harr]; exact ofRows_rowIs A1 _ rows k hk⟩
    rw [harr3, ← e7]
    exact ofRows_rowIs A _ rows3 k (by omega)
  · obtain ⟨e1, l, e2, e3⟩ := hrows2 k hk
    obtain ⟨e4, l', e5, e6⟩ := hrows3 (M.par.nsamples + k) (by omega)
    rw [hWV _ e4, hidx, hVU] at e5 e6
    obtain rfl := Except.ok.inj (e2.symm.trans e5)
    have e7 : rows3 (M.par.nsamples + k) = rows2 k := by rw [e6, e3]; rfl
    refine ⟨rows2 k, ?_, by rw [harr2]; exact ofRows_rowIs A2 _ rows2 k hk⟩
    rw [harr3, ← e7]
    exact ofRows_rowIs A _ rows3 _ (by omega)

/-! ## PxMALA with a fixed step size -/

/-- The states of a PxMALA loop with the counters of an earlier run in front. -/
def Core.after (c : Core R) (m : ℕ) (acc : List ℕ) : Core R := ⟨m + c.i, c.cur, c.rng, c.delta, acc ++ c.acc, c.deltas⟩

theorem coreStep_after (M : Sampler n) (c c' : Core R) (m : ℕ) (acc : List ℕ) (h : coreStep M R false c = .ok c') :
    coreStep M R false (c.after m acc) = .ok (c'.after m acc) := by
  unfold coreStep at h ⊢
  obtain ⟨pr, hpr, h⟩ := bind_ok h
  obtain ⟨a, ha, h⟩ := bind_ok h
  simp only [Core.after, hpr, ha, bind, Except.bind, Bool.false_eq_true, if_false] at h ⊢
  obtain rfl := Except.ok.inj h
  simp only [Nat.add_assoc, List.append_assoc]

/-- Two histories of PxMALA, one behind the other. -/
theorem CoreHist.append {M : Sampler n} {c0 c1 : Core R} {m k : ℕ} {T U : ℕ → Core R} (h : CoreHist M R false c0 m T)
    (h' : CoreHist M R false c1 k U) (acc : List ℕ) (hc : c1.after m acc = T m) :
    CoreHist M R false c0 (m + k) fun i => if i ≤ m then T i else (U (i - m)).after m acc := by
  refine ⟨by simp [h.1], fun i hi => ?_⟩
  rcases Nat.lt_trichotomy i m with h1 | h1 | h1
  · simp only [h1.le, if_true, show i + 1 ≤ m by omega]
    exact h.2 i h1
  · subst h1
    simp only [le_refl, if_true, show ¬ (i + 1 ≤ i) by omega, if_false, show i + 1 - i = 0 + 1 by omega]
    rw [← hc, ← h'.1]
    exact coreStep_after M _ _ _ _ (h'.2 0 (by omega))
  · simp only [show ¬ (i ≤ m) by omega, show ¬ (i + 1 ≤ m) by omega, if_false, show i + 1 - m = (i - m) + 1 by omega]
    exact coreStep_after M _ _ _ _ (h'.2 (i - m) (by omega))

/-- The saved iterations of two runs, one behind the other. -/
theorem savedIters_append (a a' : List ℕ) (b g q : ℕ) (hg : 1 ≤ g) (ha : a.length = b + q * g + 1) :
    savedIters (a ++ a') b g = savedIters a b g ++ (savedIters a' (g - 1) g).map (a.length + ·) := by
  induction a' using List.reverseRecOn with
  | nil => simp [savedIters]
  | append_singleton t v ih =>
    rw [← List.append_assoc, savedIters_concat, savedIters_concat, ih, List.map_append, List.append_assoc]
    congr 2
    have e : (v = 1 ∧ b ≤ (a ++ t).length ∧ g ∣ (a ++ t).length - b) ↔ (v = 1 ∧ g - 1 ≤ t.length ∧ g ∣ t.length - (g - 1)) := by
      rw [List.length_append, ha]
      have h1 : b + q * g + 1 + t.length - b = q * g + (t.length + 1) := by omega
      have h2 : g ∣ q * g + (t.length + 1) ↔ g ∣ t.length + 1 := (Nat.dvd_add_iff_right (Dvd.intro_left q rfl)).symm
      rw [h1, h2]
      constructor
      · rintro ⟨hv, -, hd⟩
        have hle := Nat.le_of_dvd (by omega) hd
        refine ⟨hv, by omega, ?_⟩
        rw [show t.length - (g - 1) = t.length + 1 - g by omega]
        exact Nat.dvd_sub hd (dvd_refl g)
      · rintro ⟨hv, hle, hd⟩
        refine ⟨hv, by omega, ?_⟩
        rw [show t.length + 1 = (t.length - (g - 1)) + g by omega]
        exact Nat.dvd_add hd (dvd_refl g)
    by_cases h : v = 1 ∧ g - 1 ≤ t.length ∧ g ∣ t.length - (g - 1)
    · rw [if_pos (e.mpr h), if_pos h]; simp
    · rw [if_neg (fun h' => h (e.mp h')), if_neg h]; simp

/-- A PxMALA loop follows a history that is long enough. -/
theorem mala_of_hist (M : Sampler n) (tune : Bool) (A0 : Arrays) (b : ℕ) (hb : M.par.nburn = b) (hA : A0.Shaped M.par.nsamples) (s0 : MalaSt R)
    (hi : s0.i = 0) (hj : s0.j = 0) (ha : s0.acc = []) (he : s0.ev = []) (N : ℕ) (T : ℕ → Core R) (hT : CoreHist M R tune s0.core N T)
    (hwid : ∀ k ≤ N, (T k).cur.X.length = M.nparams ∧ (T k).cur.preds.length = n)
    (hlt : ∀ k < N, (savedIters (T k).acc b (spacing M.par)).length < M.par.nsamples) :
    ∃ s, Reach (malaCond M) (malaBody M R tune A0) s0 N s ∧ s.core = T N ∧ s.j = (savedIters (T N).acc b (spacing M.par)).length := by
  obtain ⟨s, hr, hinv, hc⟩ := reach_of_progress (cond := malaCond M) (body := malaBody M R tune A0)
    (fun k s => MInv M R tune A0 b s0.core k s ∧ s.core = T k) N s0 ⟨minv_init M R tune A0 b s0 hi hj ha he, hT.1.symm⟩ (by
      intro k s hk ⟨hinv, hc⟩
      have hacc : s.acc = (T k).acc := congrArg Core.acc hc
      have hjk : s.j < M.par.nsamples := by
        rw [hinv.2.2.1, hacc]
        exact hlt k hk
      refine ⟨by simp [malaCond, hjk], ?_⟩
      obtain ⟨w1, w2⟩ := hwid (k + 1) (by omega)
      obtain ⟨s', hs', hc'⟩ := malaBody_total M R tune A0 hA s _ (by rw [hc]; exact hT.2 k hk) hjk w1 w2
      exact ⟨s', hs', minv_step M R tune A0 b hb _ k s s' hinv hs', hc'⟩)
  have hacc : s.acc = (T N).acc := congrArg Core.acc hc
  exact ⟨s, hr, hc, by rw [hinv.2.2.1, hacc]⟩

/-- What `malaRun_result` leaves out: the loop ended with the last iteration because that one was saved. -/
theorem malaRun_last (M : Sampler n) (tune : Bool) (delta : ℝ) (A0 : Arrays) (b : ℕ) (hb : M.par.nburn = b) (r : R.σ) (sp : StartPoint) (fuel : ℕ)
    (st : MalaSt R) (h : malaRun M R tune delta A0 r sp fuel = .ok (some st)) (s0 : MalaSt R) (h0 : malaInit M R delta r sp = .ok s0)
    (T : ℕ → Core R) (hT : CoreHist M R tune s0.core st.i T) :
    (∀ k < st.i, (savedIters (T k).acc b (spacing M.par)).length < M.par.nsamples) ∧
    (0 < M.par.nsamples → ∃ q, st.i = b + q * spacing M.par + 1 ∧ (savedIters st.acc b (spacing M.par)).getLast? = some (b + q * spacing M.par)) := by
  obtain ⟨s0', s, m, h0', hr, hc, -, rfl⟩ := malaRun_ok M R tune delta A0 r sp fuel st h
  obtain rfl := Except.ok.inj (h0.symm.trans h0')
  have hjn := mala_final_j M R tune A0 s0 s m (malaInit_ok M R delta r sp s0 h0).2.1 hr hc
  have hinv := minv_reach M R tune A0 b hb delta r sp s0 h0 m s hr
  have hi : s.i = m := hinv.1
  change CoreHist M R tune s0.core s.i T at hT
  rw [hi] at hT
  have hT' : ∀ k t, Reach (malaCond M) (malaBody M R tune A0) s0 k t → k ≤ m → (T k).acc = t.acc := by
    intro k t ht hk
    obtain ⟨-, -, -, T', hT', hcore, -⟩ := minv_reach M R tune A0 b hb delta r sp s0 h0 k t ht
    have : CoreHist M R tune s0.core k T := ⟨hT.1, fun i hi => hT.2 i (by omega)⟩
    rw [this.unique hT' k le_rfl, ← hcore]
    rfl
  refine ⟨?_, fun hns => ?_⟩
  · show ∀ k < s.i, _
    rw [hi]
    intro k hk
    obtain ⟨t, ht, htc⟩ : ∃ t, Reach (malaCond M) (malaBody M R tune A0) s0 k t ∧ malaCond M t = true := by
      clear hc hjn hinv hi hT hT' h h0' h0
      induction hr with
      | refl => omega
      | @step m' u u' hu huc hub ih =>
        rcases Nat.lt_or_ge k m' with h1 | h1
        · exact ih h1
        · obtain rfl : k = m' := by omega
          exact ⟨u, hu, huc⟩
    rw [hT' k t ht hk.le, ← (minv_reach M R tune A0 b hb delta r sp s0 h0 k t ht).2.2.1]
    simpa [malaCond] using htc
  · cases hr with
    | refl =>
      have := (malaInit_ok M R delta r sp s0 h0).2.1
      omega
    | @step m' u _ hu huc hub =>
      have huj : u.j < M.par.nsamples := by simpa [malaCond] using huc
      have hui := (minv_reach M R tune A0 b hb delta r sp s0 h0 m' u hu)
      obtain ⟨hstep, e1, e2⟩ := malaBody_ok M R tune A0 u s hub
      by_cases hs : savesLast M u.i s.acc
      · obtain ⟨pr, a, v, -, -, -, hacc, -, -, -⟩ := coreStep_ok M R tune _ _ hstep
        have hacc' : s.acc = u.acc ++ [v] := hacc
        unfold savesLast at hs
        rw [saved_iff M.par b hb, hui.1] at hs
        obtain ⟨⟨h1, q, hq⟩, h3⟩ := hs
        have hv : v = 1 := by rw [hacc'] at h3; simpa using h3
        have e : b + q * spacing M.par = m' := by rw [Nat.mul_comm, ← hq]; omega
        refine ⟨q, by rw [e]; exact hi, ?_⟩
        show (savedIters s.acc b (spacing M.par)).getLast? = _
        rw [hacc', savedIters_concat, hui.2.1, if_pos ⟨hv, h1, q, hq⟩, List.getLast?_concat, e]
      · have := (e2 hs).1
        omega

theorem mala_holds (M : Sampler n) (hM : KeepsDtype M) (tune : Bool) (c0 : Core R) (m : ℕ) (T : ℕ → Core R) (hT : CoreHist M R tune c0 m T)
    (hs0 : Synced M c0.cur) (h0 : Holds M c0.cur.X c0.cur.preds) : ∀ k ≤ m, Holds M (T k).cur.X (T k).cur.preds := by
  have hs := hist_synced M R tune c0 hs0 m T hT
  intro k
  induction k with
  | zero => intro _; rw [hT.1]; exact h0
  | succ k ih =>
    intro hk
    have ih := ih (by omega)
    have hsk := hs k (by omega)
    obtain ⟨pr, a, v, h1, -, -, -, -, h2, -⟩ := coreStep_ok M R tune _ _ (hT.2 k (by omega))
    rcases h2 with ⟨-, -, h2⟩ | ⟨-, -, h2⟩
    · rw [h2]
      unfold malaPropose at h1
      obtain ⟨xr, e1, h1⟩ := bind_ok h1
      obtain ⟨preds, e2, h1⟩ := bind_ok h1
      obtain ⟨g, e3, h1⟩ := bind_ok h1
      obtain ⟨q, e4, h1⟩ := bind_ok h1
      obtain ⟨l, e5, h1⟩ := bind_ok h1
      obtain rfl := Except.ok.inj h1
      obtain ⟨a1, a2⟩ := hM.gradg _ _ ih.2.2.1 ih.2.2.2 hsk.gradg
      obtain ⟨b1, b2⟩ := hM.proxf _ _ ih.1 ih.2.1 hsk.proxf
      obtain ⟨c1, c2⟩ := chainStep_holds M R _ _ _ _ _ ih.1 ih.2.1 b1 b2 a1 a2 _ e1
      obtain ⟨d1, d2⟩ := hM.forward _ _ c1 c2 e2
      exact ⟨c1, c2, d1, d2⟩
    · rw [h2]
      exact ih

theorem Synced.unique {M : Sampler n} {c c' : Cache} (h : Synced M c) (h' : Synced M c') (hX : c.X = c'.X) : c = c' := by
  obtain ⟨X, P, G, Q, l, l2, p⟩ := c
  obtain ⟨X', P', G', Q', l', l2', p'⟩ := c'
  obtain rfl : X = X' := hX
  obtain rfl : P = P' := Except.ok.inj (h.preds.symm.trans h'.preds)
  obtain rfl : G = G' := Except.ok.inj (h.gradg.symm.trans h'.gradg)
  obtain rfl : Q = Q' := Except.ok.inj (h.proxf.symm.trans h'.proxf)
  have := Except.ok.inj (h.logpi.symm.trans h'.logpi)
  simp only [Prod.mk.injEq] at this
  obtain ⟨rfl, rfl, rfl⟩ := this
  rfl

theorem untuned_const (M : Sampler n) (c0 : Core R) (m : ℕ) (T : ℕ → Core R) (hT : CoreHist M R false c0 m T) :
    ∀ k ≤ m, (T k).delta = c0.delta ∧ (T k).deltas = c0.deltas ∧ (T k).i = c0.i + k := by
  intro k
  induction k with
  | zero => intro _; rw [hT.1]; exact ⟨rfl, rfl, rfl⟩
  | succ k ih =>
    intro hk
    obtain ⟨h1, h2, h4⟩ := ih (by omega)
    obtain ⟨pr, a, v, -, -, h5, -, -, -, h3⟩ := coreStep_ok M R false _ _ (hT.2 k (by omega))
    rcases h3 with ⟨h, -⟩ | ⟨-, h3, h3'⟩
    · cases h
    · exact ⟨h3.trans h1, h3'.trans h2, by rw [h5, h4]; omega⟩

/-- Continuing a PxMALA run with a fixed step size. -/
theorem mala_resume (M : Sampler n) (hM : KeepsDtype M) (A1 A2 A : Arrays) (ns2 b g : ℕ) (v2 v : ℤ) (tr2 tr : List String)
    (hb : M.par.nburn = b) (hg : M.par.ngap = g) (hA1 : A1.Shaped M.par.nsamples) (hA2 : A2.Shaped ns2) (hA : A.Shaped (M.par.nsamples + ns2))
    (delta : ℝ) (r : R.σ) (sp : StartPoint) (hsp : ∀ v, sp = .array1 v → FitsDtype M.par.complex v) (fuel1 fuel2 : ℕ) (s1 s2 : MalaSt R)
    (h1 : malaRun M R false delta A1 r sp fuel1 = .ok (some s1))
    (cs : List (List ℂ)) (x : List ℂ) (hcs : (A1.applyAll s1.ev).chain = some cs) (hx : cs.getLast? = some x)
    (h2 : malaRun (M.resched ns2 ((max g 1 - 1 : ℕ) : ℤ) g v2 tr2) R false s1.delta A2 s1.rng (.array1 x) fuel2 = .ok (some s2)) :
    x = s1.cur.X ∧ ∃ s, (∀ fuel ≥ s1.i + s2.i, malaRun (M.resched (M.par.nsamples + ns2) b g v tr) R false delta A r sp fuel = .ok (some s)) ∧
      s.i = s1.i + s2.i ∧ s.cur = s2.cur ∧ s.rng = s2.rng ∧ s.acc = s1.acc ++ s2.acc ∧ s.delta = s2.delta ∧ s.deltas = s2.deltas ∧
      (∀ k < M.par.nsamples, SameRow (A.applyAll s.ev) (A1.applyAll s1.ev) k k) ∧
      ∀ k < ns2, SameRow (A.applyAll s.ev) (A2.applyAll s2.ev) (M.par.nsamples + k) k := by
  set M2 := M.resched ns2 ((max g 1 - 1 : ℕ) : ℤ) g v2 tr2 with hM2
  set M3 := M.resched (M.par.nsamples + ns2) b g v tr with hM3
  obtain ⟨s0, T, h0, hT, hcore, hacc, -, hlen, harr, -⟩ := malaRun_result M R false delta A1 hA1 b hb r sp fuel1 s1 h1
  obtain ⟨t0, U, k0, hU, hcore2, hacc2, -, hlen2, harr2, -⟩ := malaRun_result M2 R false s1.delta A2 hA2 (max g 1 - 1) rfl s1.rng (.array1 x) fuel2 s2 h2
  obtain ⟨hlt, hq⟩ := malaRun_last M false delta A1 b hb r sp fuel1 s1 h1 s0 h0 T hT
  obtain ⟨hlt2, -⟩ := malaRun_last M2 false s1.delta A2 (max g 1 - 1) rfl s1.rng (.array1 x) fuel2 s2 h2 t0 k0 U hU
  have sp1 : spacing M.par = max g 1 := spacing_nat _ g hg
  have sp2 : spacing M2.par = max g 1 := spacing_nat _ g rfl
  have sp3 : spacing M3.par = max g 1 := spacing_nat _ g rfl
  have hn2 : M2.par.nsamples = ns2 := rfl
  have hn3 : M3.par.nsamples = M.par.nsamples + ns2 := rfl
  rw [sp1] at hlen harr hlt hq
  rw [sp2, hn2] at hlen2 harr2 hlt2
  set d := max g 1 with hd
  have hd1 : 1 ≤ d := le_max_right _ _
  have hcs' := hcs
  rw [harr] at hcs
  obtain ⟨hns, hxr⟩ := last_sample A1 _ _ cs x hcs hx
  obtain ⟨q, hq1, hq2⟩ := hq hns
  obtain ⟨i1, i2, i3, i4, i5, i6, X0, P0, r0, l0, j1, j2, j3, -⟩ := malaInit_ok M R delta r sp s0 h0
  obtain ⟨i1', i2', i3', i4', i5', i6', X0', P0', r0', l0', j1', j2', j3', j4', -⟩ := malaInit_ok M2 R s1.delta s1.rng (.array1 x) t0 k0
  have hsync := malaInit_synced M R delta r sp s0 h0
  have hhold0 : Holds M s0.cur.X s0.cur.preds := by
    rw [j2, j3]
    exact initialSample_holds M hM R r sp hsp _ j1
  have hhold := mala_holds M hM false s0.core _ T hT hsync hhold0
  have hcur1 : s1.cur = (T s1.i).cur := congrArg Core.cur hcore
  -- the last saved sample is the last one
  have hxX : x = s1.cur.X := by
    rw [hxr, histRow, hcur1, ← hlen, ← List.getLast?_eq_getElem?, hq2, Option.getD_some, ← hq1]
    obtain ⟨e1, e2, -⟩ := hhold s1.i le_rfl
    exact mkRow_chain M _ _ _ e1 e2
  have hX0' : X0' = x ∧ r0' = s1.rng := by
    unfold initialSample at j1'
    obtain ⟨xr, y1, j1'⟩ := bind_ok j1'
    obtain ⟨pp, y2, j1'⟩ := bind_ok j1'
    have y3 := Except.ok.inj j1'
    simp only [startVector] at y1
    split at y1
    · obtain rfl := Except.ok.inj y1
      simp only [Prod.mk.injEq] at y3
      exact ⟨y3.1.symm, y3.2.2.symm⟩
    · cases y1
  have hsync2 : Synced M t0.cur := by
    obtain ⟨z1, z2, z3, z4⟩ := malaInit_synced M2 R s1.delta s1.rng (.array1 x) t0 k0
    exact ⟨z1, z2, z3, z4⟩
  have hsyncT := hist_synced M R false s0.core hsync _ T hT
  have hcur0 : t0.cur = s1.cur := by
    refine hsync2.unique (by rw [hcur1]; exact hsyncT _ le_rfl) ?_
    rw [j2', hX0'.1, hxX]
  obtain ⟨u1, u2, u3⟩ := untuned_const M s0.core _ T hT s1.i le_rfl
  have hafter : t0.core.after s1.i s1.acc = T s1.i := by
    rw [← hcore]
    simp only [Core.after, MalaSt.core, i1', i3', i5', i6', hcur0, j4', hX0'.2, Nat.add_zero, List.append_nil]
    congr 1
    have w1 : s1.delta = (T s1.i).delta := congrArg Core.delta hcore
    have w2 : s1.deltas = (T s1.i).deltas := congrArg Core.deltas hcore
    rw [w1, w2, u1, u2]
    show [s0.delta] = s0.deltas
    rw [i5, i6]
  have hU' : CoreHist M R false t0.core s2.i U := hU
  have hV := hT.append hU' s1.acc hafter
  set V : ℕ → Core R := fun i => if i ≤ s1.i then T i else (U (i - s1.i)).after s1.i s1.acc with hVd
  have hVT : ∀ i ≤ s1.i, V i = T i := fun i hi => if_pos hi
  have hVU : ∀ i, V (s1.i + i) = (U i).after s1.i s1.acc := by
    intro i
    rcases Nat.eq_zero_or_pos i with rfl | h
    · rw [Nat.add_zero, hVT _ le_rfl, hU.1, hafter]
    · simp only [hVd]
      rw [if_neg (by omega), Nat.add_sub_cancel_left]
  have hVhold := mala_holds M hM false s0.core _ V hV hsync hhold0
  have hsa : ∀ a', savedIters (s1.acc ++ a') b d = savedIters s1.acc b d ++ (savedIters a' (d - 1) d).map (s1.acc.length + ·) :=
    fun a' => savedIters_append s1.acc a' b d q hd1 (by rw [hacc, hq1])
  have hVlt : ∀ k < s1.i + s2.i, (savedIters (V k).acc b d).length < M.par.nsamples + ns2 := by
    intro k hk
    rcases Nat.lt_or_ge k s1.i with h | h
    · rw [hVT k h.le]
      have := hlt k h
      omega
    · obtain ⟨k, rfl⟩ := Nat.exists_eq_add_of_le h
      rw [hVU]
      simp only [Core.after]
      rw [hsa, List.length_append, List.length_map, hlen]
      have := hlt2 k (by omega)
      omega
  have hinit3 : malaInit M3 R delta r sp = .ok s0 := h0
  obtain ⟨s, hr, hsc, hsj⟩ := mala_of_hist M3 false A b rfl hA s0 i1 i2 i3 i4 (s1.i + s2.i) V hV
    (fun k hk => ⟨(hVhold k hk).1, (hVhold k hk).2.2.1⟩) (by rw [sp3, hn3]; exact hVlt)
  have hs2acc : (U s2.i).acc = s2.acc := (congrArg Core.acc hcore2).symm
  have hVacc : (V (s1.i + s2.i)).acc = s1.acc ++ s2.acc := by
    rw [hVU]
    simp only [Core.after, hs2acc]
  have hjn : s.j = M.par.nsamples + ns2 := by
    rw [hsj, sp3, hVacc, hsa, List.length_append, List.length_map, hlen, hlen2]
  have hret : ∀ fuel ≥ s1.i + s2.i, malaRun M3 R false delta A r sp fuel = .ok (some { s with ev := s.ev ++ [Event.done] }) := by
    intro fuel hf
    have := hr.returns (by simp [malaCond, hjn, hn3]) (fuel - (s1.i + s2.i))
    rw [Nat.add_sub_cancel' hf] at this
    unfold malaRun
    rw [hinit3]
    simp only [bind, Except.bind, this, Option.map_some]
  refine ⟨hxX, _, hret, ?_⟩
  obtain ⟨s0', W, h0', hW, hcore3, -, -, hlen3, harr3, -⟩ := malaRun_result M3 R false delta A hA b rfl r sp _ _ (hret _ le_rfl)
  obtain rfl := Except.ok.inj (hinit3.symm.trans h0')
  have hsV : s.core = (U s2.i).after s1.i s1.acc := by rw [hsc, hVU]
  rw [← hcore2] at hsV
  have hsi : s.i = s1.i + s2.i := congrArg Core.i hsV
  have hsacc : s.acc = s1.acc ++ s2.acc := congrArg Core.acc hsV
  have hWV : ∀ k ≤ s1.i + s2.i, W k = V k := by
    have hW' : CoreHist M R false s0.core s.i W := hW
    rw [hsi] at hW'
    exact hW'.unique hV
  rw [sp3, hn3] at harr3
  simp only [hsacc] at harr3
  refine ⟨hsi, congrArg Core.cur hsV, congrArg Core.rng hsV, hsacc, congrArg Core.delta hsV, congrArg Core.deltas hsV, fun k hk => ?_, fun k hk => ?_⟩
  · have hk1 : k < (savedIters s1.acc b d).length := by rw [hlen]; exact hk
    have hl := savedIters_lt _ _ _ _ (List.getElem_mem hk1)
    have e : histRow M3 W (savedIters (s1.acc ++ s2.acc) b d) k = histRow M T (savedIters s1.acc b d) k := by
      unfold histRow
      rw [hsa, List.getElem?_append_left hk1, List.getElem?_eq_getElem hk1, Option.getD_some, hWV _ (by omega), hVT _ (by omega)]
      rfl
    refine ⟨_, ?_, by rw [harr]; exact ofRows_rowIs A1 _ _ k hk⟩
    rw [harr3, ← e]
    exact ofRows_rowIs A _ _ k (by omega)
  · have hk2 : k < (savedIters s2.acc (d - 1) d).length := by rw [hlen2]; exact hk
    have hl := savedIters_lt _ _ _ _ (List.getElem_mem hk2)
    have e : histRow M3 W (savedIters (s1.acc ++ s2.acc) b d) (M.par.nsamples + k) = histRow M2 U (savedIters s2.acc (d - 1) d) k := by
      unfold histRow
      rw [hsa, List.getElem?_append_right (by omega), hlen, Nat.add_sub_cancel_left, List.getElem?_map, List.getElem?_eq_getElem hk2,
        Option.map_some, Option.getD_some, Option.getD_some, hacc, Nat.add_assoc, hWV _ (by omega), hVU]
      rfl
    refine ⟨_, ?_, by rw [harr2]; exact ofRows_rowIs A2 _ _ k hk⟩
    rw [harr3, ← e]
    exact ofRows_rowIs A _ _ _ (by omega)

end Pxmcmc
