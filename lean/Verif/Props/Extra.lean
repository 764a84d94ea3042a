import Verif.Props.Listing
import Verif.Props.Independence

/-! # Property C141: observations that do not depend on the parameters do not influence the samples -/

namespace Pxmcmc
variable {n n' m k : ℕ}

/-! ## Runs that differ by a constant in the misfit -/

/-- As `Restated`, but every misfit is larger by `c`. -/
structure Shifted (q : List ℂ → List ℂ) (c : ℂ) (M : Sampler n) (M' : Sampler n') : Prop extends SameSteps q M M' where
  logpi : ∀ X Y, Y.length = n → Pxmcmc.logpi M'.F M'.P M'.par.mu X (q Y) =
    (Pxmcmc.logpi M.F M.P M.par.mu X Y).map fun l => (l.1 - c, l.2.1 + c, l.2.2)

/-- Arrays of equal length, of which the first `j` rows correspond. -/
structure RowsTo {α : Type} (f : α → α) (j : ℕ) (o o' : Option (List α)) : Prop where
  len : o'.map List.length = o.map List.length
  val : ∀ a ∈ o, ∀ b ∈ o', ∀ i < j, b[i]? = a[i]?.map f

theorem RowsTo.set {α : Type} {f : α → α} {j : ℕ} {o o' : Option (List α)} (h : RowsTo f j o o') (v : α) :
    RowsTo f (j + 1) (o.map fun l => l.set j v) (o'.map fun l => l.set j (f v)) where
  len := by simpa [Function.comp_def] using h.len
  val := by
    intro x hx y hy i hi
    obtain ⟨a, ha, rfl⟩ := Option.mem_map.mp hx
    obtain ⟨b, hb, rfl⟩ := Option.mem_map.mp hy
    have hl := h.len
    rw [Option.mem_def.mp ha, Option.mem_def.mp hb] at hl
    have hl' : b.length = a.length := Option.some.inj hl
    rcases Nat.lt_or_eq_of_le (Nat.lt_succ_iff.mp hi) with h1 | rfl
    · rw [List.getElem?_set_ne (by omega), List.getElem?_set_ne (by omega), h.val a ha b hb i h1]
    · simp only [List.getElem?_set_self']
      by_cases hj : i < a.length
      · simp [List.getElem?_eq_getElem hj, List.getElem?_eq_getElem (hl' ▸ hj : i < b.length)]
      · simp [List.getElem?_eq_none (not_lt.mp hj), List.getElem?_eq_none (hl' ▸ not_lt.mp hj : b.length ≤ i)]

theorem RowsTo.all {α : Type} {f : α → α} {j ns : ℕ} {o o' : Option (List α)} (h : RowsTo f j o o') (hj : ns ≤ j)
    (hs : ∀ l ∈ o, l.length = ns) : o' = o.map (List.map f) := by
  have hl := h.len
  cases o with
  | none => cases o' with
    | none => rfl
    | some b => cases hl
  | some a => cases o' with
    | none => cases hl
    | some b =>
      have hl' : b.length = a.length := Option.some.inj hl
      have hn : a.length = ns := hs a rfl
      simp only [Option.map_some, Option.some.injEq]
      apply List.ext_getElem?
      intro i
      rw [List.getElem?_map]
      by_cases hi : i < j
      · exact h.val a rfl b rfl i hi
      · rw [List.getElem?_eq_none (by omega), List.getElem?_eq_none (by omega)]
        rfl

/-- Arrays whose first `j` rows differ by the constant, and by the further predictions. -/
structure ShiftedTo (q : List ℂ → List ℂ) (c : ℝ) (j : ℕ) (A B : Arrays) : Prop where
  chain : B.chain = A.chain
  priors : B.priors = A.priors
  preds : RowsTo q j A.preds B.preds
  logPi : RowsTo (fun v : ℝ => v - c) j A.logPi B.logPi
  L2s : RowsTo (fun v : ℝ => v + c) j A.L2s B.L2s

theorem ShiftedTo.setRow {q : List ℂ → List ℂ} {c : ℝ} {j : ℕ} {A B : Arrays} (h : ShiftedTo q c j A B) (r r' : Row)
    (h1 : r'.chain = r.chain) (h2 : r'.prior = r.prior) (h3 : r'.preds = q r.preds) (h4 : r'.logPi = r.logPi - c) (h5 : r'.L2 = r.L2 + c) :
    ShiftedTo q c (j + 1) (A.setRow j r) (B.setRow j r') where
  chain := by simp only [Arrays.setRow, h.chain, h1]
  priors := by simp only [Arrays.setRow, h.priors, h2]
  preds := by simp only [Arrays.setRow, h3]; exact h.preds.set _
  logPi := by simp only [Arrays.setRow, h4]; exact h.logPi.set _
  L2s := by simp only [Arrays.setRow, h5]; exact h.L2s.set _

/-- What is stored: the same chain and priors, the predictions followed by the constant ones, the log posteriors and misfits shifted. -/
def Arrays.shift (q : List ℂ → List ℂ) (c : ℝ) (A : Arrays) : Arrays :=
  { A with preds := A.preds.map (List.map q), logPi := A.logPi.map (List.map fun v => v - c), L2s := A.L2s.map (List.map fun v => v + c) }

/-- Once all rows are written, the arrays differ by the constant throughout. -/
theorem ShiftedTo.all {q : List ℂ → List ℂ} {c : ℝ} {ns j : ℕ} {A B : Arrays} (h : ShiftedTo q c j A B) (hj : ns ≤ j) (hA : A.Shaped ns) :
    B = A.shift q c := by
  have h1 := h.preds.all hj hA.preds
  have h2 := h.logPi.all hj hA.logPi
  have h3 := h.L2s.all hj hA.L2s
  have h4 := h.chain
  have h5 := h.priors
  cases A; cases B
  simp only at h1 h2 h3 h4 h5
  subst h1 h2 h3 h4 h5
  rfl

/-- What the first run can print, the second can. -/
theorem ShiftedTo.progressArrays (M : Sampler n) (M' : Sampler n') {q : List ℂ → List ℂ} {R : Rng} {A0 B0 : Arrays} {c' : ℝ} {k : ℕ} {s t : St R} (hj : s.j = t.j)
    (h : ShiftedTo q c' k (A0.applyAll s.ev) (B0.applyAll t.ev)) {evs : List Event}
    (hs : Pxmcmc.progressArrays M A0 s = .ok evs) : ∃ evs', Pxmcmc.progressArrays M' B0 t = .ok evs' := by
  have key : ∀ (o o' : Option (List ℝ)) (x : List ℝ) (a : ℝ) (i : ℤ), o'.map List.length = o.map List.length → attrArr o = .ok x →
      pyGet x i = .ok a → ∃ x' a', attrArr o' = .ok x' ∧ pyGet x' i = .ok a' := by
    intro o o' x a i ho hx ha
    cases o with
    | none => cases hx
    | some y =>
      cases hx
      cases o' with
      | none => cases ho
      | some z =>
        have hl : z.length = x.length := Option.some.inj ho
        unfold pyGet at ha
        simp only at ha
        by_cases h0 : 0 ≤ (if i < 0 then (x.length : ℤ) + i else i)
        · rw [if_pos h0] at ha
          cases hv : x[(if i < 0 then (x.length : ℤ) + i else i).toNat]? with
          | none => rw [hv] at ha; cases ha
          | some v =>
            obtain ⟨hlt, -⟩ := List.getElem?_eq_some_iff.mp hv
            obtain ⟨w, hw⟩ : ∃ w, z[(if i < 0 then (x.length : ℤ) + i else i).toNat]? = some w :=
              ⟨_, List.getElem?_eq_getElem (by omega)⟩
            refine ⟨z, w, rfl, ?_⟩
            unfold pyGet
            simp only
            rw [hl, if_pos h0, hw]
        · rw [if_neg h0] at ha
          cases ha
  unfold Pxmcmc.progressArrays at hs ⊢
  obtain ⟨x1, h1, hs⟩ := bind_ok hs
  obtain ⟨a1, g1, hs⟩ := bind_ok hs
  obtain ⟨x2, h2, hs⟩ := bind_ok hs
  obtain ⟨a2, g2, hs⟩ := bind_ok hs
  obtain ⟨x3, h3, hs⟩ := bind_ok hs
  obtain ⟨a3, g3, hs⟩ := bind_ok hs
  obtain ⟨y1, b1, i1, k1⟩ := key _ _ _ _ _ h.logPi.len h1 g1
  obtain ⟨y2, b2, i2, k2⟩ := key _ _ _ _ _ h.L2s.len h2 g2
  rw [i1, ← hj, h.priors]
  simp only [bind, Except.bind, k1, i2, k2, h3, g3]
  exact ⟨_, rfl⟩

section
variable {q : List ℂ → List ℂ} {c : ℂ} {M : Sampler n} {M' : Sampler n'} (U : Shifted q c M M')
include U

theorem Shifted.row (X Y : List ℂ) (hY : Y.length = n) (l : ℂ × ℂ × ℝ) :
    (mkRow M' X (q Y) (l.1 - c, l.2.1 + c, l.2.2)).chain = (mkRow M X Y l).chain ∧
    (mkRow M' X (q Y) (l.1 - c, l.2.1 + c, l.2.2)).prior = (mkRow M X Y l).prior ∧
    (mkRow M' X (q Y) (l.1 - c, l.2.1 + c, l.2.2)).preds = q (mkRow M X Y l).preds ∧
    (mkRow M' X (q Y) (l.1 - c, l.2.1 + c, l.2.2)).logPi = (mkRow M X Y l).logPi - c.re ∧
    (mkRow M' X (q Y) (l.1 - c, l.2.1 + c, l.2.2)).L2 = (mkRow M X Y l).L2 + c.re := by
  refine ⟨?_, rfl, ?_, by simp [mkRow], by simp [mkRow]⟩
  · simp only [mkRow, U.par, U.nparams]
  · simp only [mkRow, rowAssign, hY, U.qlen Y hY, if_true, U.qstore Y hY]

/-- What can be written to the arrays of the first run can be written to those of the second. -/
theorem Shifted.tracking {c' : ℝ} {A B : Arrays} {k j : ℕ} (h : ShiftedTo q c' k A B) {X Y : List ℂ} (hY : Y.length = n) {l l2 l' l2' : ℂ} {v : ℝ}
    {evs : List Event} (ht : Pxmcmc.tracking M A j X Y l l2 v = .ok evs) :
    ∃ evs', Pxmcmc.tracking M' B j X (q Y) l' l2' v = .ok evs' := by
  have hs : ∀ (o o' : Option (List ℝ)) e e' r, o'.map List.length = o.map List.length → writeScalar o j e = .ok r →
      ∃ r', writeScalar o' j e' = .ok r' := by
    intro o o' e e' r ho hw
    cases o' with
    | none => exact ⟨_, rfl⟩
    | some b =>
      cases o with
      | none => cases ho
      | some a =>
        have hl : b.length = a.length := Option.some.inj ho
        simp only [writeScalar] at hw ⊢
        rw [hl]
        split at hw
        · rename_i hj
          exact ⟨_, by rw [if_pos hj]⟩
        · cases hw
  have hp : ∀ (o o' : Option (List (List ℂ))) e e' r, o'.map List.length = o.map List.length → writeRow o n false j Y e = .ok r →
      ∃ r', writeRow o' n' false j (q Y) e' = .ok r' := by
    intro o o' e e' r ho hw
    cases o' with
    | none => exact ⟨_, rfl⟩
    | some b =>
      cases o with
      | none => cases ho
      | some a =>
        have hl : b.length = a.length := Option.some.inj ho
        simp only [writeRow] at hw ⊢
        rw [hl]
        split at hw
        · rename_i hj
          refine ⟨[e' ((q Y).map (store false))], ?_⟩
          rw [if_pos hj]
          simp only [rowAssign, U.qlen Y hY, if_true, bind, Except.bind]
        · cases hw
  unfold Pxmcmc.tracking at ht ⊢
  obtain ⟨a, ha, ht⟩ := bind_ok ht
  obtain ⟨b, hb, ht⟩ := bind_ok ht
  obtain ⟨d, hd, ht⟩ := bind_ok ht
  obtain ⟨e, he, ht⟩ := bind_ok ht
  obtain ⟨f, hf, ht⟩ := bind_ok ht
  obtain ⟨a', ha'⟩ := hs _ B.logPi _ (.logPi j l'.re) _ h.logPi.len ha
  obtain ⟨b', hb'⟩ := hs _ B.L2s _ (.L2 j l2'.re) _ h.L2s.len hb
  obtain ⟨e', he'⟩ := hp _ B.preds _ (.preds j) _ h.preds.len he
  rw [ha', hb', h.priors, hd, he', h.chain, U.par, U.nparams, hf]
  exact ⟨_, rfl⟩

/-- Equal counters, corresponding samples and arrays. -/
def ShiftSt {R : Rng} (q : List ℂ → List ℂ) (c : ℂ) (n : ℕ) (A0 B0 : Arrays) (s t : St R) : Prop :=
  s.i = t.i ∧ s.j = t.j ∧ t.cur = s.cur.mapPreds q ∧ s.cur.preds.length = n ∧ ShiftedTo q c.re s.j (A0.applyAll s.ev) (B0.applyAll t.ev)

/-- One iteration of MYULA or SKROCK. -/
theorem Shifted.gen {R : Rng} (A0 B0 : Arrays) (step step' : Cur R → Py (Cur R))
    (hstep : ∀ x : Cur R, x.preds.length = n → step' (x.mapPreds q) = (step x).map (Cur.mapPreds q) ∧ ∀ y, step x = .ok y → y.preds.length = n)
    (prog prog' : St R → Py (List Event)) (hprog : NoWrites prog) (hprog' : NoWrites prog')
    (hp : ∀ s t evs, ShiftSt q c n A0 B0 s t → prog s = .ok evs → ∃ evs', prog' t = .ok evs') (s t s' : St R)
    (h : ShiftSt q c n A0 B0 s t) (hs : genBody M A0 step prog s = .ok s') :
    ∃ t', genBody M' B0 step' prog' t = .ok t' ∧ ShiftSt q c n A0 B0 s' t' := by
  obtain ⟨hi, hj, hc, hl, hA⟩ := h
  obtain ⟨h1, h2⟩ := hstep s.cur hl
  have hb := hs
  unfold genBody at hb
  obtain ⟨x, hx, hb⟩ := bind_ok hb
  have hlen := h2 x hx
  unfold genBook at hb
  obtain ⟨s1, hs1, hb⟩ := bind_ok hb
  obtain ⟨evs, he, -⟩ := bind_ok hb
  -- the second run can save and print as well
  have mid : ∃ t1, (if (t.i : ℤ) ≥ M'.par.nburn ∧ thinned M'.par t.i then recordRow M' B0 { t with cur := x.mapPreds q }
      else .ok { t with cur := x.mapPreds q } : Py (St R)) = .ok t1 ∧ ShiftSt q c n A0 B0 s1 t1 := by
    by_cases hsv : (s.i : ℤ) ≥ M.par.nburn ∧ thinned M.par s.i
    · rw [if_pos (by rw [U.par, ← hi]; exact hsv)]
      rw [if_pos hsv] at hs1
      have hrow := recordRow_ok M A0 hs1
      unfold recordRow at hs1
      obtain ⟨l, hl1, hs1⟩ := bind_ok hs1
      obtain ⟨ev1, hev1, -⟩ := bind_ok hs1
      obtain ⟨l0, hl0, rfl⟩ := hrow
      rw [hl1] at hl0
      obtain rfl := Except.ok.inj hl0
      have hl2 := U.logpi x.X x.preds hlen
      rw [hl1] at hl2
      obtain ⟨ev2, hev2⟩ := U.tracking hA (l' := l.1 - c) (l2' := l.2.1 + c) hlen hev1
      have hrec : recordRow M' B0 ({ t with cur := x.mapPreds q } : St R) =
          .ok { t with cur := x.mapPreds q, ev := t.ev ++ ev2, j := t.j + 1 } := by
        unfold recordRow
        simp only [Cur.mapPreds, hl2, Except.map, bind, Except.bind]
        rw [← hj]
        simp only at hev2
        rw [hev2]
      refine ⟨_, hrec, hi, by show s.j + 1 = t.j + 1; rw [hj], rfl, hlen, ?_⟩
      obtain ⟨l', hl', ht1⟩ := recordRow_ok M' B0 hrec
      have e3 : l' = (l.1 - c, l.2.1 + c, l.2.2) := by
        have e := hl'.symm.trans hl2
        exact Except.ok.inj e
      rw [ht1]
      obtain ⟨r1, r2, r3, r4, r5⟩ := U.row x.X x.preds hlen l
      have f1 := applyAll_write A0 s.ev (s.ev ++ rowEvents A0 s.j (mkRow M x.X x.preds l)) s.j _
        (by rw [List.filter_append, rowEvents_isWrite])
      have f2 := applyAll_write B0 t.ev (t.ev ++ rowEvents B0 t.j (mkRow M' x.X (q x.preds) l')) t.j _
        (by rw [List.filter_append, rowEvents_isWrite])
      show ShiftedTo q c.re (s.j + 1) (A0.applyAll (s.ev ++ rowEvents A0 s.j (mkRow M x.X x.preds l)))
        (B0.applyAll (t.ev ++ rowEvents B0 t.j (mkRow M' x.X (q x.preds) l')))
      rw [f1, f2, e3, ← hj]
      exact hA.setRow _ _ r1 r2 r3 r4 r5
    · rw [if_neg (by rw [U.par, ← hi]; exact hsv)]
      rw [if_neg hsv] at hs1
      obtain rfl := Except.ok.inj hs1
      exact ⟨_, rfl, hi, hj, rfl, hlen, hA⟩
  obtain ⟨t1, ht1, hrel⟩ := mid
  obtain ⟨evs', he'⟩ := hp s1 t1 evs hrel he
  obtain ⟨g1, g2, g3, g4, g5⟩ := hrel
  have hnw := hprog _ _ he
  have hnw' := hprog' _ _ he'
  have es : s' = { s1 with ev := s1.ev ++ evs, i := s1.i + 1 } := by
    unfold genBody at hs
    rw [hx] at hs
    unfold genBook at hs
    change ((if (s.i : ℤ) ≥ M.par.nburn ∧ thinned M.par s.i then recordRow M A0 { s with cur := x }
      else .ok { s with cur := x } : Py (St R)) >>= _) = _ at hs
    rw [hs1] at hs
    change (prog s1 >>= _) = _ at hs
    rw [he] at hs
    exact (Except.ok.inj hs).symm
  refine ⟨{ t1 with ev := t1.ev ++ evs', i := t1.i + 1 }, ?_, ?_⟩
  · unfold genBody genBook
    rw [hc, h1, hx]
    change ((if (t.i : ℤ) ≥ M'.par.nburn ∧ thinned M'.par t.i then recordRow M' B0 { t with cur := x.mapPreds q }
      else .ok { t with cur := x.mapPreds q } : Py (St R)) >>= _) = _
    rw [ht1]
    change (prog' t1 >>= _) = _
    rw [he']
    rfl
  · rw [es]
    refine ⟨by show s1.i + 1 = t1.i + 1; rw [g1], g2, g3, g4, ?_⟩
    show ShiftedTo q c.re s1.j (A0.applyAll (s1.ev ++ evs)) (B0.applyAll (t1.ev ++ evs'))
    rw [← applyAll_filter A0, ← applyAll_filter B0, List.filter_append, List.filter_append, hnw, hnw', List.append_nil, List.append_nil,
      applyAll_filter, applyAll_filter]
    exact g5

theorem Shifted.initArrays : ShiftedTo q c.re 0 (initArrays M) (Pxmcmc.initArrays M') where
  chain := by simp only [Pxmcmc.initArrays, U.par, U.nparams]
  priors := by simp only [Pxmcmc.initArrays, U.par]
  preds := ⟨by simp only [Pxmcmc.initArrays, U.par]; split <;> simp, by intro a _ b _ i hi; omega⟩
  logPi := ⟨by simp only [Pxmcmc.initArrays, U.par], by intro a _ b _ i hi; omega⟩
  L2s := ⟨by simp only [Pxmcmc.initArrays, U.par], by intro a _ b _ i hi; omega⟩

theorem Shifted.myulaRun (R : Rng) (r : R.σ) (sp : StartPoint) (fuel : ℕ) (st : St R)
    (h : Pxmcmc.myulaRun M R (Pxmcmc.initArrays M) r sp fuel = .ok (some st)) :
    ∃ st', Pxmcmc.myulaRun M' R (Pxmcmc.initArrays M') r sp fuel = .ok (some st') ∧ st'.i = st.i ∧ st'.cur = st.cur.mapPreds q ∧
      (Pxmcmc.initArrays M').applyAll st'.ev = ((Pxmcmc.initArrays M).applyAll st.ev).shift q c.re := by
  unfold Pxmcmc.myulaRun at h ⊢
  obtain ⟨x, hx, h⟩ := bind_ok h
  obtain ⟨res, hres, h⟩ := bind_ok h
  cases res with
  | none => cases Except.ok.inj h
  | some s =>
    obtain rfl := Option.some.inj (Except.ok.inj h)
    rw [myulaBody_eq] at hres
    obtain ⟨t, ht, g1, g2, g3, g4, g5⟩ := follows (ShiftSt q c n (Pxmcmc.initArrays M) (Pxmcmc.initArrays M'))
      (cond := loopCond M) (cond' := loopCond M') (body' := genBody M' (Pxmcmc.initArrays M') (Pxmcmc.myulaStep M' R) (myulaProg M' (Pxmcmc.initArrays M')))
      (fun s t hr => by show decide _ = decide _; rw [hr.2.1, U.par])
      (fun s t s' hr hb => U.gen _ _ (Pxmcmc.myulaStep M R) (Pxmcmc.myulaStep M' R) (fun x hx => U.toSameSteps.myulaStep R x hx) _ _
        (myulaProg_noWrites M _) (myulaProg_noWrites M' _) (by
          intro s t evs hr he
          unfold myulaProg at he ⊢
          rw [U.par, ← hr.1]
          split
          · rename_i h1
            rw [if_pos h1] at he
            split
            · rename_i h2
              rw [if_pos h2] at he
              exact hr.2.2.2.2.progressArrays M M' hr.2.1 he
            · exact ⟨_, rfl⟩
          · exact ⟨_, rfl⟩) s t s' hr hb)
      fuel ⟨0, 0, ⟨x.1, x.2.1, x.2.2⟩, []⟩ ⟨0, 0, ⟨x.1, q x.2.1, x.2.2⟩, []⟩ ⟨rfl, rfl, rfl, U.toSameSteps.initialSample_len R r sp x hx, U.initArrays⟩ s hres
    refine ⟨{ t with ev := t.ev ++ [Event.done] }, ?_, g1.symm, g3, ?_⟩
    · rw [U.toSameSteps.initialSample, hx, myulaBody_eq]
      simp only [Except.map, bind, Except.bind]
      rw [ht]
      rfl
    · obtain ⟨m, -, hr, hc⟩ := whileFuel_some hres
      simp only [loopCond, decide_eq_false_iff_not, not_lt] at hc
      rw [applyAll_append, applyAll_append]
      exact g5.all hc (.of_same (Arrays.applyAll_shape _ _) (initArrays_shaped M))

theorem Shifted.skrockRun (R : Rng) (r : R.σ) (sp : StartPoint) (fuel : ℕ) (st : St R)
    (h : Pxmcmc.skrockRun M R (Pxmcmc.initArrays M) r sp fuel = .ok (some st)) :
    ∃ st', Pxmcmc.skrockRun M' R (Pxmcmc.initArrays M') r sp fuel = .ok (some st') ∧ st'.i = st.i ∧ st'.cur = st.cur.mapPreds q ∧
      (Pxmcmc.initArrays M').applyAll st'.ev = ((Pxmcmc.initArrays M).applyAll st.ev).shift q c.re := by
  unfold Pxmcmc.skrockRun at h ⊢
  obtain ⟨co, hco, h⟩ := bind_ok h
  obtain ⟨x, hx, h⟩ := bind_ok h
  obtain ⟨res, hres, h⟩ := bind_ok h
  cases res with
  | none => cases Except.ok.inj h
  | some s =>
    obtain rfl := Option.some.inj (Except.ok.inj h)
    rw [skrockBody_eq] at hres
    obtain ⟨t, ht, g1, g2, g3, g4, g5⟩ := follows (ShiftSt q c n (Pxmcmc.initArrays M) (Pxmcmc.initArrays M'))
      (cond := loopCond M) (cond' := loopCond M')
      (body' := genBody M' (Pxmcmc.initArrays M') (Pxmcmc.skrockTransition M' R co) (skrockProg M' (Pxmcmc.initArrays M')))
      (fun s t hr => by show decide _ = decide _; rw [hr.2.1, U.par])
      (fun s t s' hr hb => U.gen _ _ (Pxmcmc.skrockTransition M R co) (Pxmcmc.skrockTransition M' R co)
        (fun x _ => U.toSameSteps.skrockTransition R co x) _ _
        (skrockProg_noWrites M _) (skrockProg_noWrites M' _) (by
          intro s t evs hr he
          unfold skrockProg at he ⊢
          rw [U.par, ← hr.1]
          split
          · rename_i h2
            rw [if_pos h2] at he
            exact hr.2.2.2.2.progressArrays M M' hr.2.1 he
          · exact ⟨_, rfl⟩) s t s' hr hb)
      fuel ⟨0, 0, ⟨x.1, x.2.1, x.2.2⟩, []⟩ ⟨0, 0, ⟨x.1, q x.2.1, x.2.2⟩, []⟩ ⟨rfl, rfl, rfl, U.toSameSteps.initialSample_len R r sp x hx, U.initArrays⟩ s hres
    refine ⟨{ t with ev := t.ev ++ [Event.done] }, ?_, g1.symm, g3, ?_⟩
    · rw [U.par, hco, U.toSameSteps.initialSample, hx]
      simp only [Except.map, bind, Except.bind]
      rw [skrockBody_eq, ht]
      rfl
    · obtain ⟨m, -, hr, hc⟩ := whileFuel_some hres
      simp only [loopCond, decide_eq_false_iff_not, not_lt] at hc
      rw [applyAll_append, applyAll_append]
      exact g5.all hc (.of_same (Arrays.applyAll_shape _ _) (initArrays_shaped M))

/-! ## PxMALA -/

theorem Shifted.malaPropose (R : Rng) (δ : ℝ) (r : R.σ) (x : Cache) :
    Pxmcmc.malaPropose M' R δ r (x.shift q c) = (Pxmcmc.malaPropose M R δ r x).map (fun y => (y.1.shift q c, y.2)) ∧
    ∀ y, Pxmcmc.malaPropose M R δ r x = .ok y → y.1.preds.length = n := by
  constructor
  · unfold Pxmcmc.malaPropose
    simp only [Cache.shift]
    rw [U.toSameSteps.chainStep]
    cases Pxmcmc.chainStep M R δ r x.X x.proxf x.gradg with
    | error e => rfl
    | ok xr =>
      simp only [bind, Except.bind]
      rw [U.fwd]
      cases hp : M.F.forward xr.1 with
      | error e => rfl
      | ok p =>
        simp only [Except.map]
        rw [U.grad _ (U.len _ _ hp), U.logpi _ _ (U.len _ _ hp), U.P]
        cases M.F.calcGradg p with
        | error e => rfl
        | ok g =>
          simp only []
          cases M.P.proxf xr.1 with
          | error e => rfl
          | ok f =>
            simp only []
            cases Pxmcmc.logpi M.F M.P M.par.mu xr.1 p <;> rfl
  · intro y h
    unfold Pxmcmc.malaPropose at h
    obtain ⟨xr, -, h⟩ := bind_ok h
    obtain ⟨p, hp, h⟩ := bind_ok h
    obtain ⟨g, -, h⟩ := bind_ok h
    obtain ⟨f, -, h⟩ := bind_ok h
    obtain ⟨l, -, h⟩ := bind_ok h
    cases h
    exact U.len _ _ hp

/-- The constant drops out of the acceptance ratio. -/
theorem Shifted.malaLogAlpha (δ : ℝ) (x p : Cache) :
    Pxmcmc.malaLogAlpha M' δ (x.shift q c) (p.shift q c) = Pxmcmc.malaLogAlpha M δ x p := by
  unfold Pxmcmc.malaLogAlpha calcLogtransition
  simp only [Cache.shift, U.par]
  have e : ∀ a b : ℂ, a + (p.logpi - c) - b - (x.logpi - c) = a + p.logpi - b - x.logpi := fun a b => by ring
  simp only [e]

/-- Equal counters, generators, step sizes and traces; corresponding samples and arrays. -/
def ShiftM {R : Rng} (q : List ℂ → List ℂ) (c : ℂ) (n : ℕ) (A0 B0 : Arrays) (s t : MalaSt R) : Prop :=
  t.i = s.i ∧ t.j = s.j ∧ t.cur = s.cur.shift q c ∧ t.rng = s.rng ∧ t.delta = s.delta ∧ t.acc = s.acc ∧ t.deltas = s.deltas ∧
    s.cur.preds.length = n ∧ ShiftedTo q c.re s.j (A0.applyAll s.ev) (B0.applyAll t.ev)

theorem Shifted.malaTune {R : Rng} {A0 B0 : Arrays} (tune : Bool) (s t s' : MalaSt R) (h : ShiftM q c n A0 B0 s t)
    (hs : Pxmcmc.malaTune M tune s = .ok s') : ∃ t', Pxmcmc.malaTune M' tune t = .ok t' ∧ ShiftM q c n A0 B0 s' t' := by
  obtain ⟨h1, h2, h3, h4, h5, h6, h7, h8, h9⟩ := h
  unfold Pxmcmc.malaTune at hs ⊢
  cases tune
  · simp only [Bool.false_eq_true, if_false] at hs ⊢
    obtain rfl := Except.ok.inj hs
    exact ⟨t, rfl, h1, h2, h3, h4, h5, h6, h7, h8, h9⟩
  · simp only [if_true] at hs ⊢
    obtain ⟨d, hd, hs⟩ := bind_ok hs
    obtain rfl := Except.ok.inj hs
    have hd' : tuneDelta M' t.delta t.acc t.i = .ok d := by
      rw [h5, h6, h1, ← hd]
      unfold tuneDelta
      rw [U.par]
    rw [hd']
    exact ⟨_, rfl, h1, h2, h3, h4, rfl, h6, by show t.deltas ++ [d] = s.deltas ++ [d]; rw [h7], h8, h9⟩

theorem Shifted.malaSave {R : Rng} {A0 B0 : Arrays} (accept : Prop) [Decidable accept] (s t s' : MalaSt R) (h : ShiftM q c n A0 B0 s t)
    (hs : Pxmcmc.malaSave M A0 accept s = .ok s') :
    ∃ t', Pxmcmc.malaSave M' B0 accept t = .ok t' ∧ ShiftM q c n A0 B0 s' t' := by
  obtain ⟨h1, h2, h3, h4, h5, h6, h7, h8, h9⟩ := h
  unfold Pxmcmc.malaSave at hs ⊢
  rw [U.par, h1]
  split
  · rename_i hb
    rw [if_pos hb] at hs
    split
    · rename_i ha
      rw [if_pos ha] at hs
      obtain ⟨e1, he1, hs⟩ := bind_ok hs
      obtain rfl := Except.ok.inj hs
      obtain ⟨e2, he2⟩ := U.tracking h9 (l' := s.cur.logpi - c) (l2' := s.cur.L2 + c) h8 he1
      have he2' : Pxmcmc.tracking M' (B0.applyAll t.ev) t.j t.cur.X t.cur.preds t.cur.logpi t.cur.L2 t.cur.prior = .ok e2 := by
        rw [h2, h3]; exact he2
      rw [he2']
      refine ⟨_, rfl, rfl, by show t.j + 1 = s.j + 1; rw [h2], h3, h4, h5, h6, h7, h8, ?_⟩
      have f1 := tracking_ok M (l := (s.cur.logpi, s.cur.L2, s.cur.prior)) he1
      have f2 := tracking_ok M' (l := (s.cur.logpi - c, s.cur.L2 + c, s.cur.prior)) he2
      rw [rowEvents_shape (Arrays.applyAll_shape _ _)] at f1 f2
      show ShiftedTo q c.re (s.j + 1) (A0.applyAll (s.ev ++ e1)) (B0.applyAll (t.ev ++ e2))
      rw [applyAll_write A0 s.ev (s.ev ++ e1) s.j _ (by rw [List.filter_append, f1, rowEvents_isWrite]),
        applyAll_write B0 t.ev (t.ev ++ e2) s.j _ (by rw [List.filter_append, f2, rowEvents_isWrite])]
      obtain ⟨r1, r2, r3, r4, r5⟩ := U.row s.cur.X s.cur.preds h8 (s.cur.logpi, s.cur.L2, s.cur.prior)
      exact h9.setRow _ _ r1 r2 r3 r4 r5
    · rename_i ha
      rw [if_neg ha] at hs
      obtain rfl := Except.ok.inj hs
      exact ⟨t, rfl, h1, h2, h3, h4, h5, h6, h7, h8, h9⟩
  · rename_i hb
    rw [if_neg hb] at hs
    obtain rfl := Except.ok.inj hs
    exact ⟨t, rfl, h1, h2, h3, h4, h5, h6, h7, h8, h9⟩

omit U in
theorem ShiftM.finish (M : Sampler n) (M' : Sampler n') {R : Rng} {A0 B0 : Arrays} (s t : MalaSt R) (h : ShiftM q c n A0 B0 s t) :
    ShiftM q c n A0 B0 (Pxmcmc.malaFinish M s) (Pxmcmc.malaFinish M' t) := by
  obtain ⟨h1, h2, h3, h4, h5, h6, h7, h8, h9⟩ := h
  have key : ∀ {k : ℕ} (K : Sampler k) (A : Arrays) (s : MalaSt R), A.applyAll (Pxmcmc.malaFinish K s).ev = A.applyAll s.ev := by
    intro k K A s
    unfold Pxmcmc.malaFinish
    simp only
    rw [applyAll_append]
    split <;> rfl
  refine ⟨by show t.i + 1 = s.i + 1; rw [h1], h2, h3, h4, h5, h6, h7, h8, ?_⟩
  rw [key, key]
  exact h9

theorem Shifted.malaBody (R : Rng) (tune : Bool) (A0 B0 : Arrays) (s t s' : MalaSt R) (h : ShiftM q c n A0 B0 s t)
    (hs : Pxmcmc.malaBody M R tune A0 s = .ok s') :
    ∃ t', Pxmcmc.malaBody M' R tune B0 t = .ok t' ∧ ShiftM q c n A0 B0 s' t' := by
  classical
  obtain ⟨h1, h2, h3, h4, h5, h6, h7, h8, h9⟩ := h
  unfold Pxmcmc.malaBody at hs ⊢
  obtain ⟨pr, hpr, hs⟩ := bind_ok hs
  obtain ⟨a, ha, hs⟩ := bind_ok hs
  obtain ⟨s2, hs2, hs⟩ := bind_ok hs
  obtain ⟨s3, hs3, hs⟩ := bind_ok hs
  obtain rfl := Except.ok.inj hs
  obtain ⟨p1, p2⟩ := U.malaPropose R s.delta s.rng s.cur
  have hlen := p2 pr hpr
  have q1 : Pxmcmc.malaPropose M' R t.delta t.rng t.cur = .ok (pr.1.shift q c, pr.2) := by
    rw [h5, h4, h3, p1, hpr]
    rfl
  have q2 : Pxmcmc.malaLogAlpha M' t.delta t.cur (pr.1.shift q c) = .ok a := by
    rw [h5, h3, U.malaLogAlpha, ha]
  have hst : ShiftM q c n A0 B0 { s with
      rng := (R.rand pr.2).2
      cur := if acceptTest (R.rand pr.2).1 a then pr.1 else s.cur
      acc := s.acc ++ [if acceptTest (R.rand pr.2).1 a then 1 else 0] } { t with
      rng := (R.rand pr.2).2
      cur := if acceptTest (R.rand pr.2).1 a then pr.1.shift q c else t.cur
      acc := t.acc ++ [if acceptTest (R.rand pr.2).1 a then 1 else 0] } := by
    refine ⟨h1, h2, ?_, rfl, h5, ?_, h7, ?_, h9⟩
    · show (if acceptTest (R.rand pr.2).1 a then pr.1.shift q c else t.cur) = Cache.shift q c (if acceptTest (R.rand pr.2).1 a then pr.1 else s.cur)
      split
      · rfl
      · exact h3
    · show t.acc ++ _ = s.acc ++ _
      rw [h6]
    · show (if acceptTest (R.rand pr.2).1 a then pr.1 else s.cur).preds.length = n
      split
      · exact hlen
      · exact h8
  obtain ⟨t2, ht2, g2⟩ := U.malaTune tune _ _ s2 hst hs2
  obtain ⟨t3, ht3, g3⟩ := U.malaSave (acceptTest (R.rand pr.2).1 a) s2 t2 s3 g2 hs3
  refine ⟨Pxmcmc.malaFinish M' t3, ?_, ShiftM.finish M M' s3 t3 g3⟩
  rw [q1]
  simp only [bind, Except.bind]
  rw [q2]
  simp only []
  rw [ht2]
  simp only []
  rw [ht3]

theorem Shifted.malaRun (R : Rng) (tune : Bool) (δ : ℝ) (r : R.σ) (sp : StartPoint) (fuel : ℕ) (st : MalaSt R)
    (h : Pxmcmc.malaRun M R tune δ (Pxmcmc.initArrays M) r sp fuel = .ok (some st)) :
    ∃ st', Pxmcmc.malaRun M' R tune δ (Pxmcmc.initArrays M') r sp fuel = .ok (some st') ∧ st'.i = st.i ∧ st'.acc = st.acc ∧
      st'.deltas = st.deltas ∧ st'.delta = st.delta ∧ st'.rng = st.rng ∧ st'.cur.X = st.cur.X ∧
      (Pxmcmc.initArrays M').applyAll st'.ev = ((Pxmcmc.initArrays M).applyAll st.ev).shift q c.re := by
  unfold Pxmcmc.malaRun at h ⊢
  obtain ⟨s0, h0, h⟩ := bind_ok h
  obtain ⟨res, hres, h⟩ := bind_ok h
  cases res with
  | none => cases Except.ok.inj h
  | some s =>
    obtain rfl := Option.some.inj (Except.ok.inj h)
    have hi : ∃ t0, malaInit M' R δ r sp = .ok t0 ∧ ShiftM q c n (Pxmcmc.initArrays M) (Pxmcmc.initArrays M') s0 t0 := by
      unfold malaInit at h0 ⊢
      obtain ⟨x, hx, h0⟩ := bind_ok h0
      obtain ⟨g, hg, h0⟩ := bind_ok h0
      obtain ⟨f, hf, h0⟩ := bind_ok h0
      obtain ⟨l, hl, h0⟩ := bind_ok h0
      obtain rfl := Except.ok.inj h0
      have hlen := U.toSameSteps.initialSample_len R r sp x hx
      rw [U.toSameSteps.initialSample, hx]
      simp only [Except.map, bind, Except.bind]
      rw [U.grad _ hlen, hg, U.logpi _ _ hlen, hl, U.P, hf]
      exact ⟨_, rfl, rfl, rfl, rfl, rfl, rfl, rfl, rfl, hlen, U.initArrays⟩
    obtain ⟨t0, ht0, hrel⟩ := hi
    obtain ⟨t, ht, g1, g2, g3, g4, g5, g6, g7, g8, g9⟩ := follows (ShiftM q c n (Pxmcmc.initArrays M) (Pxmcmc.initArrays M'))
      (cond := malaCond M) (cond' := malaCond M') (body' := Pxmcmc.malaBody M' R tune (Pxmcmc.initArrays M'))
      (fun s t hr => by show decide _ = decide _; rw [hr.2.1, U.par])
      (fun s t s' hr hb => U.malaBody R tune _ _ s t s' hr hb) fuel s0 t0 hrel s hres
    refine ⟨{ t with ev := t.ev ++ [Event.done] }, ?_, g1, g6, g7, g5, g4, by show t.cur.X = s.cur.X; rw [g3]; rfl, ?_⟩
    · rw [ht0]
      simp only [bind, Except.bind]
      rw [ht]
      rfl
    · obtain ⟨m, -, hr, hc⟩ := whileFuel_some hres
      simp only [malaCond, decide_eq_false_iff_not, not_lt] at hc
      rw [applyAll_append, applyAll_append]
      exact g9.all hc (.of_same (Arrays.applyAll_shape _ _) (initArrays_shaped M))

end

/-! ## Further observations -/

/-- The errors of the longer list. -/
inductive SigExtend (τ : Fin m → ℝ) : SigD → SigD → Prop where
  | vec (σ : Fin n → ℂ) : SigExtend τ (.vec (List.ofFn σ) false) (.vec (List.ofFn (Fin.append σ fun i => (τ i : ℂ))) false)
  | num (x : ℝ) (h : ∀ i, τ i = x) : SigExtend τ (.num (x : ℂ) false) (.num (x : ℂ) false)

/-- The weight of an observation with a real error. -/
theorem weight_re (b : Bool) {x : ℝ} (hx : x ≠ 0) : complexVar b false ((x : ℂ) ^ 2) ≠ 0 ∧
    (1 / complexVar b false ((x : ℂ) ^ 2)).re = (if b then 1 / √2 else 1) / x ^ 2 := by
  have hxc : (x : ℂ) ≠ 0 := by exact_mod_cast hx
  have hx2 : ((x : ℂ) ^ 2) ≠ 0 := pow_ne_zero _ hxc
  have h2 : ((√2 : ℝ) : ℂ) ≠ 0 := by exact_mod_cast (by positivity : (√2 : ℝ) ≠ 0)
  have hI : (1 + Complex.I : ℂ) ≠ 0 := by
    intro h
    have := congrArg Complex.re h
    simp at this
  cases b
  · simp only [complexVar, Bool.false_and, Bool.false_eq_true, if_false]
    refine ⟨hx2, ?_⟩
    rw [← Complex.ofReal_pow, ← Complex.ofReal_one, ← Complex.ofReal_div, Complex.ofReal_re]
  · simp only [complexVar, Bool.not_false, Bool.and_self, if_true]
    refine ⟨mul_ne_zero (div_ne_zero hx2 h2) hI, ?_⟩
    have e : (1 : ℂ) / ((x : ℂ) ^ 2 / ((√2 : ℝ) : ℂ) * (1 + Complex.I)) = ((√2 / (2 * x ^ 2) : ℝ) : ℂ) * (1 - Complex.I) := by
      rw [div_eq_iff (mul_ne_zero (div_ne_zero hx2 h2) hI)]
      push_cast
      have hI2 : (1 - Complex.I) * (1 + Complex.I) = 2 := by
        ring_nf
        rw [Complex.I_sq]
        norm_num
      field_simp
      linear_combination -hI2
    rw [e, Complex.re_ofReal_mul]
    have hs : √2 * √2 = (2 : ℝ) := Real.mul_self_sqrt (by norm_num)
    simp only [Complex.sub_re, Complex.one_re, Complex.I_re, sub_zero, mul_one]
    field_simp
    nlinarith [hs]

theorem buildInvCov_extend (data : DataVec n) (d₂ : Fin m → ℂ) {τ : Fin m → ℝ} (hτ : ∀ i, τ i ≠ 0) {sig sig' : SigD}
    (h : SigExtend (n := n) τ sig sig') (W : Matrix (Fin n) (Fin n) ℂ) (hW : buildInvCov data sig = .ok W) :
    ∃ w : Fin n → ℂ, W = Matrix.diagonal w ∧
      buildInvCov (data.extend d₂) sig' = .ok (Matrix.diagonal (Fin.append w fun i => 1 / complexVar data.cplx false ((τ i : ℂ) ^ 2))) := by
  cases h with
  | vec σ =>
    simp only [buildInvCov] at hW
    rw [dif_pos (by simp)] at hW
    simp only [List.getElem_ofFn, Fin.getElem_fin, Fin.eta] at hW
    split at hW
    · cases hW
    · rename_i hne
      cases hW
      refine ⟨_, rfl, ?_⟩
      simp only [buildInvCov]
      rw [dif_pos (by simp)]
      simp only [List.getElem_ofFn, Fin.getElem_fin, Fin.eta, DataVec.extend]
      rw [if_neg]
      · refine congrArg _ (congrArg _ ?_)
        funext j
        refine Fin.addCases (fun i => ?_) (fun i => ?_) j
        · simp only [Fin.append_left]
        · simp only [Fin.append_right]
      · rintro ⟨j, hj⟩
        revert hj
        refine Fin.addCases (fun i => ?_) (fun i => ?_) j
        · simp only [Fin.append_left]
          exact fun h => hne ⟨i, h⟩
        · simp only [Fin.append_right]
          exact (weight_re _ (hτ i)).1
  | num x hx =>
    simp only [buildInvCov] at hW
    split at hW
    · split at hW <;> cases hW
    · rename_i hne
      cases hW
      refine ⟨_, rfl, ?_⟩
      simp only [buildInvCov]
      rw [if_neg (show ¬ complexVar (data.extend d₂).cplx false ((x : ℂ) ^ 2) = 0 from hne)]
      refine congrArg _ (congrArg _ ?_)
      funext j
      refine Fin.addCases (fun i => ?_) (fun i => ?_) j
      · simp only [Fin.append_left]
        rfl
      · simp only [Fin.append_right, hx]
        rfl

theorem append_sub (a v : Fin n → ℂ) (b u : Fin m → ℂ) :
    (fun i => Fin.append a b i - Fin.append v u i) = Fin.append (fun i => a i - v i) (fun i => b i - u i) := by
  funext j
  refine Fin.addCases (fun i => ?_) (fun i => ?_) j
  · simp only [Fin.append_left]
  · simp only [Fin.append_right]

theorem append_diag (w v : Fin n → ℂ) (w₂ u : Fin m → ℂ) :
    (Matrix.diagonal (Fin.append w w₂)).mulVec (Fin.append v u) =
      Fin.append ((Matrix.diagonal w).mulVec v) ((Matrix.diagonal w₂).mulVec u) := by
  funext j
  refine Fin.addCases (fun i => ?_) (fun i => ?_) j
  · simp only [Fin.append_left, Matrix.mulVec_diagonal]
  · simp only [Fin.append_right, Matrix.mulVec_diagonal]

theorem append_inner (a v : Fin n → ℂ) (b u : Fin m → ℂ) :
    Spec.inner (Fin.append a b) (Fin.append v u) = Spec.inner a v + Spec.inner b u := by
  unfold Spec.inner
  rw [Fin.sum_univ_add]
  simp only [Fin.append_left, Fin.append_right]

theorem shifted_extend (data : DataVec n) (d₂ e : Fin m → ℂ) (he : ∀ i, (e i).im = 0) {o o' : OpPair} (ho : Extended n e o o')
    (w : Fin n → ℂ) (w₂ : Fin m → ℂ) (set : Setting) (tr : Option OpPair) (np : Option ℕ) (P : PriorObj) (par : Params) (k : ℕ) :
    Shifted (fun Y => Y ++ List.ofFn e)
      (Spec.inner (fun i => d₂ i - e i) ((Matrix.diagonal w₂).mulVec fun i => d₂ i - e i))
      (⟨⟨data, Matrix.diagonal w, set, tr, some o, np⟩, P, par, k⟩ : Sampler n)
      (⟨⟨data.extend d₂, Matrix.diagonal (Fin.append w w₂), set, tr, some o', np⟩, P, par, k⟩ : Sampler (n + m)) where
  fwd X := by
    cases set with
    | analysis => exact ho.op X
    | synthesis =>
      show (attr tr).bind _ = ((attr tr).bind _).map _
      cases attr tr with
      | error e => rfl
      | ok t =>
        show (t.op X).bind _ = ((t.op X).bind _).map _
        cases t.op X with
        | error e => rfl
        | ok y => exact ho.op y
  len X Y h := by
    cases set with
    | analysis => exact ho.len X Y h
    | synthesis =>
      obtain ⟨m, hm, h⟩ := bind_ok h
      cases hm
      obtain ⟨t, -, h⟩ := bind_ok h
      obtain ⟨y, -, h⟩ := bind_ok h
      exact ho.len _ _ h
  qlen Y h := by simp [h]
  qstore Y h := by
    rw [List.map_append, map_ofFn']
    congr 2
    funext i
    exact Complex.ext rfl (he i).symm
  grad Y h := by
    obtain ⟨v, rfl⟩ := exists_ofFn Y h
    have hg : (⟨data.extend d₂, Matrix.diagonal (Fin.append w w₂), set, tr, some o', np⟩ : ForwardOp (n + m)).gradgAnalysis
        (List.ofFn v ++ List.ofFn e) = (⟨data, Matrix.diagonal w, set, tr, some o, np⟩ : ForwardOp n).gradgAnalysis (List.ofFn v) := by
      unfold ForwardOp.gradgAnalysis
      rw [← List.ofFn_fin_append]
      simp only [attr, bind, Except.bind, DataVec.extend, npSub_ofFn, matDot_ofFn, append_sub, append_diag]
      rw [ho.adj]
    cases set with
    | analysis => exact hg
    | synthesis =>
      show (attr tr).bind _ = (attr tr).bind _
      cases attr tr with
      | error e => rfl
      | ok t =>
        show Except.bind (ForwardOp.gradgAnalysis _ _) _ = Except.bind (ForwardOp.gradgAnalysis _ _) _
        rw [hg]
  logpi X Y h := by
    obtain ⟨v, rfl⟩ := exists_ofFn Y h
    unfold Pxmcmc.logpi
    rw [← List.ofFn_fin_append]
    simp only [bind, Except.bind, DataVec.extend, npSub_ofFn, matDot_ofFn, npVdot_ofFn, append_sub, append_diag, append_inner]
    cases P.prior X with
    | error e => rfl
    | ok p => simp only [Except.map, sub_sub]
  P := rfl
  par := rfl
  nparams := rfl

/-- The constant by which the misfits differ. -/
theorem misfit_re (b : Bool) (x : Fin m → ℂ) {τ : Fin m → ℝ} (hτ : ∀ i, τ i ≠ 0) :
    (Spec.inner x ((Matrix.diagonal fun i => 1 / complexVar b false ((τ i : ℂ) ^ 2)).mulVec x)).re =
      (if b then 1 / √2 else 1) * ∑ i, ‖x i‖ ^ 2 / τ i ^ 2 := by
  unfold Spec.inner
  rw [Complex.re_sum, Finset.mul_sum]
  refine Finset.sum_congr rfl fun i _ => ?_
  rw [Matrix.mulVec_diagonal, show ∀ a b c : ℂ, a * (b * c) = (a * c) * b from fun a b c => by ring]
  have h1 : (starRingEnd ℂ) (x i) * x i = ((‖x i‖ ^ 2 : ℝ) : ℂ) := by
    rw [mul_comm, Complex.mul_conj, Complex.normSq_eq_norm_sq]
  rw [h1, Complex.re_ofReal_mul, (weight_re b (hτ i)).2]
  ring

/-- C141: append observations that the measurement operator predicts as fixed numbers `e`, whatever the parameters are (paths outside the
region, say).  Then the constructors succeed as before, and whenever a run of one of the three samplers returns, the run with the longer list
also returns, after as many iterations, with the same chain, the same priors and, for PxMALA, the same acceptances and step sizes.  Every
row of predictions is followed by `e`, every recorded misfit is larger and every log-posterior smaller by the misfit of the further
observations (for complex data the real part of it, which is smaller by the factor √2 as in C37). -/
theorem C141_runs (data : DataVec n) (d₂ e : Fin m → ℂ) (he : ∀ i, (e i).im = 0) {τ : Fin m → ℝ} (hτ : ∀ i, τ i ≠ 0) {sig sig' : SigD}
    (hsig : SigExtend (n := n) τ sig sig') (s : String) (tr : Option OpPair) {o o' : OpPair} (ho : Extended n e o o') (np : Option ℕ)
    (F : ForwardOp n) (hF : ForwardOp.init data sig s tr (some o) np = .ok F) (P : PriorObj) (par : Params) (M : Sampler n) (A : Arrays)
    (hM : samplerInit F P par = .ok (M, A)) (c : ℝ) (hc : c = (if data.cplx then 1 / √2 else 1) * ∑ i, ‖d₂ i - e i‖ ^ 2 / τ i ^ 2) :
    ∃ (F' : ForwardOp (n + m)) (M' : Sampler (n + m)) (A' : Arrays),
      ForwardOp.init (data.extend d₂) sig' s tr (some o') np = .ok F' ∧ samplerInit F' P par = .ok (M', A') ∧
      ∀ (R : Rng) (r : R.σ) (sp : StartPoint) (fuel : ℕ),
        (∀ st, myulaRun M R A r sp fuel = .ok (some st) → ∃ st', myulaRun M' R A' r sp fuel = .ok (some st') ∧ st'.i = st.i ∧
          A'.applyAll st'.ev = { A.applyAll st.ev with
            preds := (A.applyAll st.ev).preds.map (List.map fun Y => Y ++ List.ofFn e)
            logPi := (A.applyAll st.ev).logPi.map (List.map fun v => v - c)
            L2s := (A.applyAll st.ev).L2s.map (List.map fun v => v + c) }) ∧
        (∀ st, skrockRun M R A r sp fuel = .ok (some st) → ∃ st', skrockRun M' R A' r sp fuel = .ok (some st') ∧ st'.i = st.i ∧
          A'.applyAll st'.ev = { A.applyAll st.ev with
            preds := (A.applyAll st.ev).preds.map (List.map fun Y => Y ++ List.ofFn e)
            logPi := (A.applyAll st.ev).logPi.map (List.map fun v => v - c)
            L2s := (A.applyAll st.ev).L2s.map (List.map fun v => v + c) }) ∧
        ∀ tune δ st, malaRun M R tune δ A r sp fuel = .ok (some st) → ∃ st', malaRun M' R tune δ A' r sp fuel = .ok (some st') ∧
          st'.i = st.i ∧ st'.acc = st.acc ∧ st'.deltas = st.deltas ∧
          A'.applyAll st'.ev = { A.applyAll st.ev with
            preds := (A.applyAll st.ev).preds.map (List.map fun Y => Y ++ List.ofFn e)
            logPi := (A.applyAll st.ev).logPi.map (List.map fun v => v - c)
            L2s := (A.applyAll st.ev).L2s.map (List.map fun v => v + c) } := by
  unfold ForwardOp.init at hF
  obtain ⟨W, hW, hF⟩ := bind_ok hF
  obtain ⟨w, rfl, hW'⟩ := buildInvCov_extend data d₂ hτ hsig W hW
  cases hs : Setting.parse s with
  | none => rw [hs] at hF; cases hF
  | some set =>
    rw [hs] at hF
    cases hF
    cases np with
    | none => unfold samplerInit at hM; simp only at hM; split at hM <;> cases hM
    | some k =>
      cases hM
      have U := shifted_extend data d₂ e he ho w (fun i => 1 / complexVar data.cplx false ((τ i : ℂ) ^ 2)) set tr (some k) P par k
      have hre := misfit_re data.cplx (fun i => d₂ i - e i) hτ
      rw [← hc] at hre
      refine ⟨⟨data.extend d₂, Matrix.diagonal (Fin.append w fun i => 1 / complexVar data.cplx false ((τ i : ℂ) ^ 2)), set, tr, some o', some k⟩,
        ⟨⟨data.extend d₂, Matrix.diagonal (Fin.append w fun i => 1 / complexVar data.cplx false ((τ i : ℂ) ^ 2)), set, tr, some o', some k⟩,
          P, par, k⟩, _, ?_, rfl, ?_⟩
      · unfold ForwardOp.init
        rw [hW']
        simp only [bind, Except.bind, hs]
      · intro R r sp fuel
        refine ⟨fun st h => ?_, fun st h => ?_, fun tune δ st h => ?_⟩
        · obtain ⟨st', h1, h2, -, h3⟩ := U.myulaRun R r sp fuel st h
          exact ⟨st', h1, h2, by rw [h3, hre]; rfl⟩
        · obtain ⟨st', h1, h2, -, h3⟩ := U.skrockRun R r sp fuel st h
          exact ⟨st', h1, h2, by rw [h3, hre]; rfl⟩
        · obtain ⟨st', h1, h2, h3, h4, -, -, -, h5⟩ := U.malaRun R tune δ r sp fuel st h
          exact ⟨st', h1, h2, h3, h4, by rw [h5, hre]; rfl⟩

/-- C141 for path integrals: paths of which every pixel has weight 0 are predicted as 0 and ignored by the adjoint. -/
theorem C141_path_integrals (W : Matrix (Fin n) (Fin k) ℂ) :
    Extended n (0 : Fin m → ℂ) ⟨pathForward W, pathAdjoint W⟩
      ⟨pathForward (Matrix.of (Fin.append W 0) : Matrix (Fin (n + m)) (Fin k) ℂ), pathAdjoint (Matrix.of (Fin.append W 0) : Matrix (Fin (n + m)) (Fin k) ℂ)⟩ where
  op X := by
    simp only [pathForward]
    by_cases h : X.length = k
    · obtain ⟨v, rfl⟩ := exists_ofFn X h
      rw [if_pos h, if_pos h, matDot_ofFn, matDot_ofFn]
      simp only [Except.map]
      rw [← List.ofFn_fin_append]
      congr 2
      funext j
      refine Fin.addCases (fun i => ?_) (fun i => ?_) j
      · rw [Fin.append_left]
        show dotProduct (Fin.append W 0 (Fin.castAdd m i)) v = dotProduct (W i) v
        exact congrArg (fun x => dotProduct x v) (Fin.append_left (W : Fin n → Fin k → ℂ) (0 : Fin m → Fin k → ℂ) i)
      · rw [Fin.append_right]
        show dotProduct (Fin.append W 0 (Fin.natAdd n i)) v = 0
        have e := congrArg (fun x => dotProduct x v) (Fin.append_right (W : Fin n → Fin k → ℂ) (0 : Fin m → Fin k → ℂ) i)
        exact e.trans (zero_dotProduct v)
    · rw [if_neg h, if_neg h]
      rfl
  adj v u := by
    simp only [pathAdjoint]
    rw [if_pos (by simp), if_pos (by simp), matDot_ofFn, matDot_ofFn]
    congr 2
    funext l
    simp only [Matrix.mulVec, dotProduct, Matrix.conjTranspose_apply, Matrix.of_apply]
    rw [Fin.sum_univ_add]
    have e1 : ∀ i, Fin.append W 0 (Fin.castAdd m i) l = W i l := fun i =>
      congrFun (Fin.append_left (W : Fin n → Fin k → ℂ) (0 : Fin m → Fin k → ℂ) i) l
    have e2 : ∀ i, Fin.append W (0 : Fin m → Fin k → ℂ) (Fin.natAdd n i) l = 0 := fun i =>
      congrFun (Fin.append_right (W : Fin n → Fin k → ℂ) (0 : Fin m → Fin k → ℂ) i) l
    simp only [e1, e2, Fin.append_left, star_zero, zero_mul, Finset.sum_const_zero, add_zero]
  len X Y h := by
    simp only [pathForward] at h
    split at h
    · rename_i hX
      obtain ⟨v, rfl⟩ := exists_ofFn X hX
      rw [matDot_ofFn] at h
      cases h
      simp
    · cases h

/-- Two paths, and a third one with the measured value 5 and error 2 that meets no pixel: the misfits differ by 25/4. -/
example : ∃ (F : ForwardOp 2) (M : Sampler 2) (A : Arrays),
    SigExtend (n := 2) ![(2 : ℝ)] (.vec (List.ofFn ![(1 : ℂ), 2]) false)
      (.vec (List.ofFn (Fin.append ![(1 : ℂ), 2] fun i => ((![(2 : ℝ)] i : ℝ) : ℂ))) false) ∧
    Extended 2 (0 : Fin 1 → ℂ) ⟨pathForward !![1, 2, 0; 0, 2, 5], pathAdjoint !![1, 2, 0; 0, 2, 5]⟩
      ⟨pathForward (Matrix.of (Fin.append !![1, 2, 0; 0, 2, 5] 0) : Matrix (Fin (2 + 1)) (Fin 3) ℂ),
        pathAdjoint (Matrix.of (Fin.append !![1, 2, 0; 0, 2, 5] 0) : Matrix (Fin (2 + 1)) (Fin 3) ℂ)⟩ ∧
    ForwardOp.init ⟨false, ![3, 5]⟩ (.vec (List.ofFn ![(1 : ℂ), 2]) false) "analysis" none
      (some ⟨pathForward !![1, 2, 0; 0, 2, 5], pathAdjoint !![1, 2, 0; 0, 2, 5]⟩) (some 3) = .ok F ∧
    samplerInit F ⟨fun _ => .ok 0, .ok⟩ ⟨1, 1 / 2, 1, 1, 4, 3, 2, false, 0, ["chain", "predictions"]⟩ = .ok (M, A) ∧
    (25 / 4 : ℝ) = (if (⟨false, ![3, 5]⟩ : DataVec 2).cplx then 1 / √2 else 1) *
      ∑ i, ‖(![5] : Fin 1 → ℂ) i - (0 : Fin 1 → ℂ) i‖ ^ 2 / (![(2 : ℝ)] i) ^ 2 := by
  have hs : List.ofFn ![(1 : ℂ), 2] = List.ofFn fun i => ((![(1 : ℝ), 2] i : ℝ) : ℂ) := by simp
  obtain ⟨W, hW, -⟩ := C35_diagonal (⟨false, ![3, 5]⟩ : DataVec 2) rfl _ _
    (IsSigma.vector ![(1 : ℝ), 2] (by intro i; fin_cases i <;> simp))
  refine ⟨⟨⟨false, ![3, 5]⟩, W, .analysis, none, some ⟨pathForward !![1, 2, 0; 0, 2, 5], pathAdjoint !![1, 2, 0; 0, 2, 5]⟩, some 3⟩,
    _, _, .vec _, C141_path_integrals _, ?_, rfl, ?_⟩
  · unfold ForwardOp.init
    rw [hs, hW]
    simp [bind, Except.bind, Setting.parse]
  · norm_num

end Pxmcmc
