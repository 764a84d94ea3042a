import Verif.Props.MalaExamples

/-! # Property C95: what is tracked and printed does not influence the chain -/

namespace Pxmcmc
variable {n : ℕ}

/-- Arrays that exist in both collections are equal. -/
structure Arrays.Agree (A B : Arrays) : Prop where
  logPi : ∀ a ∈ A.logPi, ∀ b ∈ B.logPi, a = b
  L2s : ∀ a ∈ A.L2s, ∀ b ∈ B.L2s, a = b
  priors : ∀ a ∈ A.priors, ∀ b ∈ B.priors, a = b
  preds : ∀ a ∈ A.preds, ∀ b ∈ B.preds, a = b
  chain : ∀ a ∈ A.chain, ∀ b ∈ B.chain, a = b

/-- The arrays of the second collection also exist in the first, with the same contents. -/
structure Arrays.Sub (A B : Arrays) : Prop where
  logPi : ∀ b ∈ B.logPi, b ∈ A.logPi
  L2s : ∀ b ∈ B.L2s, b ∈ A.L2s
  priors : ∀ b ∈ B.priors, b ∈ A.priors
  preds : ∀ b ∈ B.preds, b ∈ A.preds
  chain : ∀ b ∈ B.chain, b ∈ A.chain

/-- The arrays of two samplers that differ in the track list only. -/
theorem initArrays_agree (M : Sampler n) (v : ℤ) (track : List String) :
    (initArrays M).Agree (initArrays (M.resched M.par.nsamples M.par.nburn M.par.ngap v track)) := by
  have key : ∀ {α : Type} (p q : Prop) [Decidable p] [Decidable q] (x : α),
      ∀ a ∈ (if p then some x else none), ∀ b ∈ (if q then some x else none), a = b := by
    intro α p q _ _ x a ha b hb
    by_cases hp : p <;> by_cases hq : q <;> simp_all
  exact ⟨key _ _ _, key _ _ _, key _ _ _, key _ _ _, key _ _ _⟩

theorem initArrays_sub (M : Sampler n) (v : ℤ) (track : List String) (ht : ∀ x ∈ track, x ∈ M.par.track) :
    (initArrays M).Sub (initArrays (M.resched M.par.nsamples M.par.nburn M.par.ngap v track)) := by
  have key : ∀ {α : Type} (p q : Prop) [Decidable p] [Decidable q] (x : α), (q → p) →
      ∀ b ∈ (if q then some x else none), b ∈ (if p then some x else none) := by
    intro α p q _ _ x hqp b hb
    by_cases hq : q
    · rw [if_pos (hqp hq)]
      rwa [if_pos hq] at hb
    · rw [if_neg hq] at hb
      cases hb
  exact ⟨key _ _ _ (ht _), key _ _ _ (ht _), key _ _ _ (ht _), key _ _ _ (ht _), key _ _ _ (ht _)⟩

/-- The arrays with row `j` replaced. -/
def Arrays.setRow (A : Arrays) (j : ℕ) (r : Row) : Arrays where
  logPi := A.logPi.map fun l => l.set j r.logPi
  L2s := A.L2s.map fun l => l.set j r.L2
  priors := A.priors.map fun l => l.set j r.prior
  preds := A.preds.map fun l => l.set j r.preds
  chain := A.chain.map fun l => l.set j r.chain

theorem applyAll_rowEvents (A : Arrays) (j : ℕ) (r : Row) : A.applyAll (rowEvents A j r) = A.setRow j r := by
  rcases A with ⟨a, b, c, d, e⟩
  cases a <;> cases b <;> cases c <;> cases d <;> cases e <;>
    simp [rowEvents, Arrays.setRow, Arrays.applyAll, Arrays.apply]

theorem applyAll_write (A : Arrays) (ev evs : List Event) (j : ℕ) (r : Row)
    (h : evs.filter Event.isWrite = ev.filter Event.isWrite ++ rowEvents A j r) :
    A.applyAll evs = (A.applyAll ev).setRow j r := by
  rw [← applyAll_filter, h, applyAll_append, applyAll_filter, ← rowEvents_shape (A.applyAll_shape ev),
    applyAll_rowEvents]

theorem Arrays.Agree.setRow {A B : Arrays} (h : A.Agree B) (j : ℕ) (r : Row) : (A.setRow j r).Agree (B.setRow j r) := by
  have key : ∀ {α : Type} (o o' : Option (List α)) (v : α), (∀ a ∈ o, ∀ b ∈ o', a = b) →
      ∀ a ∈ o.map (fun l => l.set j v), ∀ b ∈ o'.map (fun l => l.set j v), a = b := by
    intro α o o' v h a ha b hb
    obtain ⟨x, hx, rfl⟩ := Option.mem_map.mp ha
    obtain ⟨y, hy, rfl⟩ := Option.mem_map.mp hb
    rw [h x hx y hy]
  exact ⟨key _ _ _ h.logPi, key _ _ _ h.L2s, key _ _ _ h.priors, key _ _ _ h.preds, key _ _ _ h.chain⟩

theorem Arrays.Sub.setRow {A B : Arrays} (h : A.Sub B) (j : ℕ) (r : Row) : (A.setRow j r).Sub (B.setRow j r) := by
  have key : ∀ {α : Type} (o o' : Option (List α)) (v : α), (∀ b ∈ o', b ∈ o) →
      ∀ b ∈ o'.map (fun l => l.set j v), b ∈ o.map (fun l => l.set j v) := by
    intro α o o' v h b hb
    obtain ⟨y, hy, rfl⟩ := Option.mem_map.mp hb
    exact Option.mem_map.mpr ⟨y, h y hy, rfl⟩
  exact ⟨key _ _ _ h.logPi, key _ _ _ h.L2s, key _ _ _ h.priors, key _ _ _ h.preds, key _ _ _ h.chain⟩

/-- If `_tracking` succeeds it also succeeds on fewer arrays. -/
theorem tracking_sub (M : Sampler n) {A B : Arrays} (h : A.Sub B) {j : ℕ} {X preds : List ℂ} {lp l2 : ℂ} {p : ℝ}
    {evs : List Event} (ht : tracking M A j X preds lp l2 p = .ok evs) : ∃ evs', tracking M B j X preds lp l2 p = .ok evs' := by
  have hs : ∀ (o o' : Option (List ℝ)) e r, (∀ b ∈ o', b ∈ o) → writeScalar o j e = .ok r → ∃ r', writeScalar o' j e = .ok r' := by
    intro o o' e r ho hw
    cases o' with
    | none => exact ⟨_, rfl⟩
    | some b =>
      obtain rfl : o = some b := ho b rfl
      exact ⟨r, hw⟩
  have hr : ∀ (o o' : Option (List (List ℂ))) w c v e r, (∀ b ∈ o', b ∈ o) → writeRow o w c j v e = .ok r →
      ∃ r', writeRow o' w c j v e = .ok r' := by
    intro o o' w c v e r ho hw
    cases o' with
    | none => exact ⟨_, rfl⟩
    | some b =>
      obtain rfl : o = some b := ho b rfl
      exact ⟨r, hw⟩
  unfold tracking at ht
  obtain ⟨a, ha, ht⟩ := bind_ok ht
  obtain ⟨b, hb, ht⟩ := bind_ok ht
  obtain ⟨c, hc, ht⟩ := bind_ok ht
  obtain ⟨d, hd, ht⟩ := bind_ok ht
  obtain ⟨e, he, ht⟩ := bind_ok ht
  obtain ⟨a', ha'⟩ := hs _ _ _ _ h.logPi ha
  obtain ⟨b', hb'⟩ := hs _ _ _ _ h.L2s hb
  obtain ⟨c', hc'⟩ := hs _ _ _ _ h.priors hc
  obtain ⟨d', hd'⟩ := hr _ _ _ _ _ _ _ h.preds hd
  obtain ⟨e', he'⟩ := hr _ _ _ _ _ _ _ h.chain he
  exact ⟨_, by unfold tracking; rw [ha', hb', hc', hd', he']; rfl⟩

/-! ## Two loops in lockstep -/

section
variable {σ τ : Type} {cond : σ → Bool} {body : σ → Py σ} {cond' : τ → Bool} {body' : τ → Py τ}

/-- Two loops whose states stay related: related results. -/
theorem lockstep (Rel : σ → τ → Prop) (hcond : ∀ s t, Rel s t → cond s = cond' t)
    (hstep : ∀ s t s' t', Rel s t → body s = .ok s' → body' t = .ok t' → Rel s' t') (fuel fuel' : ℕ) (s0 : σ) (t0 : τ)
    (h0 : Rel s0 t0) (r : σ) (r' : τ) (h : whileFuel cond body fuel s0 = .ok (some r))
    (h' : whileFuel cond' body' fuel' t0 = .ok (some r')) : Rel r r' := by
  obtain ⟨m, -, hr, hc⟩ := whileFuel_some h
  obtain ⟨m', -, hr', hc'⟩ := whileFuel_some h'
  have key : ∀ k s t, Reach cond body s0 k s → Reach cond' body' t0 k t → Rel s t := by
    intro k
    induction k with
    | zero => intro s t h1 h2; cases h1; cases h2; exact h0
    | succ k ih =>
      intro s t h1 h2
      cases h1 with
      | step g1 c1 b1 =>
        cases h2 with
        | step g2 c2 b2 => exact hstep _ _ _ _ (ih _ _ g1 g2) b1 b2
  have ends : ∀ {ρ : Type} {cond : ρ → Bool} {body : ρ → Py ρ} {s0 s : ρ} {m : ℕ}, Reach cond body s0 m s →
      ∀ k < m, ∃ t, Reach cond body s0 k t ∧ cond t = true := by
    intro ρ cond body s0 s m h
    induction h with
    | refl => intro k hk; omega
    | @step m s s' h hc hb ih =>
      intro k hk
      rcases Nat.lt_or_ge k m with hk' | hk'
      · exact ih k hk'
      · obtain rfl : k = m := by omega
        exact ⟨s, h, hc⟩
  rcases Nat.lt_trichotomy m m' with hm | rfl | hm
  · obtain ⟨t, ht, htc⟩ := ends hr' m hm
    rw [← hcond _ _ (key m r t hr ht), hc] at htc
    cases htc
  · exact key m r r' hr hr'
  · obtain ⟨s, hs, hsc⟩ := ends hr m' hm
    rw [hcond _ _ (key m' s r' hs hr'), hc'] at hsc
    cases hsc

/-- If the second loop can follow every step of the first, it returns when the first one does. -/
theorem follows (Rel : σ → τ → Prop) (hcond : ∀ s t, Rel s t → cond s = cond' t)
    (hstep : ∀ s t s', Rel s t → body s = .ok s' → ∃ t', body' t = .ok t' ∧ Rel s' t') (fuel : ℕ) (s0 : σ) (t0 : τ)
    (h0 : Rel s0 t0) (r : σ) (h : whileFuel cond body fuel s0 = .ok (some r)) :
    ∃ r', whileFuel cond' body' fuel t0 = .ok (some r') ∧ Rel r r' := by
  obtain ⟨m, hm, hr, hc⟩ := whileFuel_some h
  have key : ∀ k s, Reach cond body s0 k s → ∃ t, Reach cond' body' t0 k t ∧ Rel s t := by
    intro k s hk
    induction hk with
    | refl => exact ⟨t0, .refl, h0⟩
    | step _ c1 b1 ih =>
      obtain ⟨t, ht, hrel⟩ := ih
      obtain ⟨t', hb', hrel'⟩ := hstep _ _ _ hrel b1
      exact ⟨t', .step ht (by rw [← hcond _ _ hrel]; exact c1) hb', hrel'⟩
  obtain ⟨t, ht, hrel⟩ := key m r hr
  refine ⟨t, ?_, hrel⟩
  have := ht.returns (by rw [← hcond _ _ hrel]; exact hc) (fuel - m)
  rwa [Nat.add_sub_cancel' hm] at this

end

/-! ## MYULA and SKROCK -/

/-- The same sampler reporting differently. -/
abbrev Sampler.report (M : Sampler n) (v : ℤ) (track : List String) : Sampler n :=
  M.resched M.par.nsamples M.par.nburn M.par.ngap v track

/-- One iteration: the new sample and the arrays. -/
theorem genBody_ok (M : Sampler n) {R : Rng} (A0 : Arrays) (step : Cur R → Py (Cur R)) (prog : St R → Py (List Event))
    (hprog : NoWrites prog) (st st' : St R) (h : genBody M A0 step prog st = .ok st') :
    step st.cur = .ok st'.cur ∧ st'.i = st.i + 1 ∧
    (((st.i : ℤ) ≥ M.par.nburn ∧ thinned M.par st.i) → ∃ l, logpi M.F M.P M.par.mu st'.cur.X st'.cur.preds = .ok l ∧
      st'.j = st.j + 1 ∧ A0.applyAll st'.ev = (A0.applyAll st.ev).setRow st.j (mkRow M st'.cur.X st'.cur.preds l)) ∧
    (¬ ((st.i : ℤ) ≥ M.par.nburn ∧ thinned M.par st.i) → st'.j = st.j ∧ A0.applyAll st'.ev = A0.applyAll st.ev) := by
  unfold genBody at h
  obtain ⟨c, hc, h⟩ := bind_ok h
  unfold genBook at h
  obtain ⟨st1, h1, h⟩ := bind_ok h
  obtain ⟨evs, he, h⟩ := bind_ok h
  have hnw := hprog _ _ he
  obtain rfl := Except.ok.inj h
  by_cases hs : (st.i : ℤ) ≥ M.par.nburn ∧ thinned M.par st.i
  · rw [if_pos hs] at h1
    obtain ⟨l, hl, rfl⟩ := recordRow_ok M A0 h1
    refine ⟨hc, rfl, fun _ => ⟨l, hl, rfl, ?_⟩, fun hn => absurd hs hn⟩
    refine applyAll_write A0 st.ev _ _ _ ?_
    simp only [List.filter_append, hnw, List.append_nil, rowEvents_isWrite]
  · rw [if_neg hs] at h1
    obtain rfl := Except.ok.inj h1
    refine ⟨hc, rfl, fun hh => absurd hh hs, fun _ => ⟨rfl, ?_⟩⟩
    rw [← applyAll_filter, List.filter_append, hnw, List.append_nil, applyAll_filter]

/-- Equal counters and samples, agreeing arrays. -/
def SameSt {R : Rng} (A0 B0 : Arrays) (s t : St R) : Prop :=
  s.i = t.i ∧ s.j = t.j ∧ s.cur = t.cur ∧ (A0.applyAll s.ev).Agree (B0.applyAll t.ev)

theorem gen_agree (M : Sampler n) {R : Rng} (A0 B0 : Arrays) (v : ℤ) (track : List String)
    (step : Cur R → Py (Cur R)) (prog prog' : St R → Py (List Event)) (hprog : NoWrites prog) (hprog' : NoWrites prog')
    (s t s' t' : St R) (h : SameSt A0 B0 s t) (hs : genBody M A0 step prog s = .ok s')
    (ht : genBody (M.report v track) B0 step prog' t = .ok t') : SameSt A0 B0 s' t' := by
  obtain ⟨hi, hj, hc, hA⟩ := h
  obtain ⟨a1, a2, a3, a4⟩ := genBody_ok M A0 step prog hprog s s' hs
  obtain ⟨b1, b2, b3, b4⟩ := genBody_ok (M.report v track) B0 step prog' hprog' t t' ht
  have hcur : s'.cur = t'.cur := by
    rw [hc, b1] at a1
    exact (Except.ok.inj a1).symm
  by_cases hsv : (s.i : ℤ) ≥ M.par.nburn ∧ thinned M.par s.i
  · obtain ⟨l, hl, hj1, hA1⟩ := a3 hsv
    obtain ⟨l', hl', hj2, hA2⟩ := b3 (by rw [← hi]; exact hsv)
    refine ⟨by rw [a2, b2, hi], by rw [hj1, hj2, hj], hcur, ?_⟩
    have hl2 : logpi M.F M.P M.par.mu t'.cur.X t'.cur.preds = .ok l' := hl'
    rw [← hcur, hl] at hl2
    obtain rfl := Except.ok.inj hl2
    rw [hA1, hA2, ← hj, ← hcur]
    exact hA.setRow _ _
  · obtain ⟨hj1, hA1⟩ := a4 hsv
    obtain ⟨hj2, hA2⟩ := b4 (by rw [← hi]; exact hsv)
    exact ⟨by rw [a2, b2, hi], by rw [hj1, hj2, hj], hcur, by rw [hA1, hA2]; exact hA⟩

/-- Equal counters and samples, the second run having fewer arrays. -/
def SubSt {R : Rng} (A0 B0 : Arrays) (s t : St R) : Prop :=
  s.i = t.i ∧ s.j = t.j ∧ s.cur = t.cur ∧ (A0.applyAll s.ev).Sub (B0.applyAll t.ev)

theorem gen_follow (M : Sampler n) {R : Rng} (A0 B0 : Arrays) (v : ℤ) (track : List String)
    (step : Cur R → Py (Cur R)) (prog prog' : St R → Py (List Event)) (hprog : NoWrites prog) (hprog' : NoWrites prog')
    (hp : ∀ st, ∃ evs, prog' st = .ok evs)
    (s t s' : St R) (h : SubSt A0 B0 s t) (hs : genBody M A0 step prog s = .ok s') :
    ∃ t', genBody (M.report v track) B0 step prog' t = .ok t' ∧ SubSt A0 B0 s' t' := by
  obtain ⟨hi, hj, hc, hA⟩ := h
  obtain ⟨a1, a2, a3, a4⟩ := genBody_ok M A0 step prog hprog s s' hs
  have hs0 := hs
  unfold genBody at hs
  obtain ⟨c, hc1, hs⟩ := bind_ok hs
  unfold genBook at hs
  obtain ⟨st1, h1, hs⟩ := bind_ok hs
  -- the second run can do the same
  have hex : ∃ t', genBody (M.report v track) B0 step prog' t = .ok t' := by
    have hrec : ∃ t1 : St R, (if (t.i : ℤ) ≥ (M.report v track).par.nburn ∧ thinned (M.report v track).par t.i then
        recordRow (M.report v track) B0 { t with cur := c } else .ok { t with cur := c }) = .ok t1 := by
      by_cases hsv : (s.i : ℤ) ≥ M.par.nburn ∧ thinned M.par s.i
      · rw [if_pos hsv] at h1
        have hsv' : (t.i : ℤ) ≥ (M.report v track).par.nburn ∧ thinned (M.report v track).par t.i := by
          rw [← hi]; exact hsv
        rw [if_pos hsv']
        unfold recordRow at h1
        obtain ⟨l, hl, h1⟩ := bind_ok h1
        obtain ⟨evs, he, h1⟩ := bind_ok h1
        obtain ⟨evs', he'⟩ := tracking_sub M hA he
        refine ⟨{ t with cur := c, ev := t.ev ++ evs', j := t.j + 1 }, ?_⟩
        unfold recordRow
        have hl' : logpi (M.report v track).F (M.report v track).P (M.report v track).par.mu c.X c.preds = .ok l := hl
        have he2 : tracking (M.report v track) (B0.applyAll t.ev) t.j c.X c.preds l.1 l.2.1 l.2.2 = .ok evs' := by
          rw [← hj]; exact he'
        simp only [hl', bind, Except.bind, he2]
      · have hsv' : ¬ ((t.i : ℤ) ≥ (M.report v track).par.nburn ∧ thinned (M.report v track).par t.i) := by
          rw [← hi]; exact hsv
        rw [if_neg hsv']
        exact ⟨_, rfl⟩
    obtain ⟨t1, ht1⟩ := hrec
    obtain ⟨evs, he⟩ := hp t1
    refine ⟨{ t1 with ev := t1.ev ++ evs, i := t1.i + 1 }, ?_⟩
    unfold genBody genBook
    rw [← hc, hc1]
    show ((if (t.i : ℤ) ≥ (M.report v track).par.nburn ∧ thinned (M.report v track).par t.i then
        recordRow (M.report v track) B0 { t with cur := c } else .ok { t with cur := c }) >>= _) = _
    rw [ht1]
    show (prog' t1 >>= _) = _
    rw [he]
    rfl
  obtain ⟨t', ht⟩ := hex
  refine ⟨t', ht, ?_⟩
  obtain ⟨b1, b2, b3, b4⟩ := genBody_ok (M.report v track) B0 step prog' hprog' t t' ht
  have hcur : s'.cur = t'.cur := by
    rw [hc, b1] at a1
    exact (Except.ok.inj a1).symm
  by_cases hsv : (s.i : ℤ) ≥ M.par.nburn ∧ thinned M.par s.i
  · obtain ⟨l, hl, hj1, hA1⟩ := a3 hsv
    obtain ⟨l', hl', hj2, hA2⟩ := b3 (by rw [← hi]; exact hsv)
    refine ⟨by rw [a2, b2, hi], by rw [hj1, hj2, hj], hcur, ?_⟩
    have hl2 : logpi M.F M.P M.par.mu t'.cur.X t'.cur.preds = .ok l' := hl'
    rw [← hcur, hl] at hl2
    obtain rfl := Except.ok.inj hl2
    rw [hA1, hA2, ← hj, ← hcur]
    exact hA.setRow _ _
  · obtain ⟨hj1, hA1⟩ := a4 hsv
    obtain ⟨hj2, hA2⟩ := b4 (by rw [← hi]; exact hsv)
    exact ⟨by rw [a2, b2, hi], by rw [hj1, hj2, hj], hcur, by rw [hA1, hA2]; exact hA⟩

/-- C95 for MYULA: two runs from the same generator state and start point that differ only in what is tracked and printed
make the same number of iterations, end with the same sample and generator state, and agree on every array that both
track.  The operators and the schedule are arbitrary. -/
theorem C95_myula (M : Sampler n) (R : Rng) (v : ℤ) (track : List String) (r : R.σ) (sp : StartPoint) (fuel fuel' : ℕ)
    (st st' : St R) (h : myulaRun M R (initArrays M) r sp fuel = .ok (some st))
    (h' : myulaRun (M.report v track) R (initArrays (M.report v track)) r sp fuel' = .ok (some st')) :
    st.i = st'.i ∧ st.cur = st'.cur ∧
      ((initArrays M).applyAll st.ev).Agree ((initArrays (M.report v track)).applyAll st'.ev) := by
  unfold myulaRun at h h'
  obtain ⟨x, hx, h⟩ := bind_ok h
  obtain ⟨res, hres, h⟩ := bind_ok h
  obtain ⟨x', hx', h'⟩ := bind_ok h'
  obtain ⟨res', hres', h'⟩ := bind_ok h'
  have hx2 : initialSample M R r sp = .ok x' := hx'
  rw [hx] at hx2
  obtain rfl := Except.ok.inj hx2
  cases res with
  | none => cases Except.ok.inj h
  | some s =>
    cases res' with
    | none => cases Except.ok.inj h'
    | some s' =>
      obtain rfl := Option.some.inj (Except.ok.inj h)
      obtain rfl := Option.some.inj (Except.ok.inj h')
      rw [myulaBody_eq] at hres hres'
      obtain ⟨hi, -, hc, hA⟩ := lockstep (SameSt (initArrays M) (initArrays (M.report v track)))
        (fun s t hr => by show decide _ = decide _; rw [hr.2.1]; rfl)
        (fun s t s' t' hr hb hb' => gen_agree M _ _ v track (myulaStep M R) _ _ (myulaProg_noWrites M _)
          (myulaProg_noWrites (M.report v track) _) s t s' t' hr hb hb')
        fuel fuel' ⟨0, 0, ⟨x.1, x.2.1, x.2.2⟩, []⟩ ⟨0, 0, ⟨x.1, x.2.1, x.2.2⟩, []⟩
        ⟨rfl, rfl, rfl, initArrays_agree M v track⟩ s s' hres hres'
      refine ⟨hi, hc, ?_⟩
      rw [applyAll_append, applyAll_append]
      exact hA

/-- C95 for SKROCK. -/
theorem C95_skrock (M : Sampler n) (R : Rng) (v : ℤ) (track : List String) (r : R.σ) (sp : StartPoint) (fuel fuel' : ℕ)
    (st st' : St R) (h : skrockRun M R (initArrays M) r sp fuel = .ok (some st))
    (h' : skrockRun (M.report v track) R (initArrays (M.report v track)) r sp fuel' = .ok (some st')) :
    st.i = st'.i ∧ st.cur = st'.cur ∧
      ((initArrays M).applyAll st.ev).Agree ((initArrays (M.report v track)).applyAll st'.ev) := by
  unfold skrockRun at h h'
  obtain ⟨co, hco, h⟩ := bind_ok h
  obtain ⟨x, hx, h⟩ := bind_ok h
  obtain ⟨res, hres, h⟩ := bind_ok h
  obtain ⟨co', hco', h'⟩ := bind_ok h'
  obtain ⟨x', hx', h'⟩ := bind_ok h'
  obtain ⟨res', hres', h'⟩ := bind_ok h'
  have hx2 : initialSample M R r sp = .ok x' := hx'
  rw [hx] at hx2
  obtain rfl := Except.ok.inj hx2
  have hco2 : skrockInit M.par.s = .ok co' := hco'
  rw [hco] at hco2
  obtain rfl := Except.ok.inj hco2
  cases res with
  | none => cases Except.ok.inj h
  | some s =>
    cases res' with
    | none => cases Except.ok.inj h'
    | some s' =>
      obtain rfl := Option.some.inj (Except.ok.inj h)
      obtain rfl := Option.some.inj (Except.ok.inj h')
      rw [skrockBody_eq] at hres hres'
      obtain ⟨hi, -, hc, hA⟩ := lockstep (SameSt (initArrays M) (initArrays (M.report v track)))
        (fun s t hr => by show decide _ = decide _; rw [hr.2.1]; rfl)
        (fun s t s' t' hr hb hb' => gen_agree M _ _ v track (skrockTransition M R co) _ _ (skrockProg_noWrites M _)
          (skrockProg_noWrites (M.report v track) _) s t s' t' hr hb hb')
        fuel fuel' ⟨0, 0, ⟨x.1, x.2.1, x.2.2⟩, []⟩ ⟨0, 0, ⟨x.1, x.2.1, x.2.2⟩, []⟩
        ⟨rfl, rfl, rfl, initArrays_agree M v track⟩ s s' hres hres'
      refine ⟨hi, hc, ?_⟩
      rw [applyAll_append, applyAll_append]
      exact hA

/-- C95 for PxMALA: also the step size and both traces agree. -/
theorem C95_mala (M : Sampler n) (R : Rng) (tune : Bool) (delta : ℝ) (v : ℤ) (track : List String) (r : R.σ)
    (sp : StartPoint) (fuel fuel' : ℕ) (st st' : MalaSt R)
    (h : malaRun M R tune delta (initArrays M) r sp fuel = .ok (some st))
    (h' : malaRun (M.report v track) R tune delta (initArrays (M.report v track)) r sp fuel' = .ok (some st')) :
    st.i = st'.i ∧ st.cur = st'.cur ∧ st.rng = st'.rng ∧ st.delta = st'.delta ∧ st.acc = st'.acc ∧
      st.deltas = st'.deltas ∧
      ((initArrays M).applyAll st.ev).Agree ((initArrays (M.report v track)).applyAll st'.ev) := by
  unfold malaRun at h h'
  obtain ⟨x, hx, h⟩ := bind_ok h
  obtain ⟨res, hres, h⟩ := bind_ok h
  obtain ⟨x', hx', h'⟩ := bind_ok h'
  obtain ⟨res', hres', h'⟩ := bind_ok h'
  have hx2 : malaInit M R delta r sp = .ok x' := hx'
  rw [hx] at hx2
  obtain rfl := Except.ok.inj hx2
  cases res with
  | none => cases Except.ok.inj h
  | some s =>
    cases res' with
    | none => cases Except.ok.inj h'
    | some s' =>
      obtain rfl := Option.some.inj (Except.ok.inj h)
      obtain rfl := Option.some.inj (Except.ok.inj h')
      have hev : x.ev = [] := (malaInit_ok M R delta r sp x hx).2.2.2.1
      obtain ⟨hc, -, hA⟩ := lockstep
        (fun s t : MalaSt R => s.core = t.core ∧ s.j = t.j ∧
          ((initArrays M).applyAll s.ev).Agree ((initArrays (M.report v track)).applyAll t.ev))
        (fun s t hr => by show decide _ = decide _; rw [hr.2.1]; rfl)
        (fun s t s' t' hr hb hb' => by
          obtain ⟨hcore, hj, hA⟩ := hr
          obtain ⟨a1, a2, a3⟩ := malaBody_ok M R tune _ s s' hb
          obtain ⟨b1, b2, b3⟩ := malaBody_ok (M.report v track) R tune _ t t' hb'
          have b1' : coreStep M R tune t.core = .ok t'.core := b1
          rw [hcore, b1'] at a1
          have hcore' := (Except.ok.inj a1).symm
          have hi : s.i = t.i := congrArg Core.i hcore
          have hacc : s'.acc = t'.acc := congrArg Core.acc hcore'
          have hcur : s'.cur = t'.cur := congrArg Core.cur hcore'
          have hiff : savesLast M s.i s'.acc ↔ savesLast (M.report v track) t.i t'.acc := by
            rw [← hi, ← hacc]; exact Iff.rfl
          by_cases hsv : savesLast M s.i s'.acc
          · obtain ⟨j1, e1⟩ := a2 hsv
            obtain ⟨j2, e2⟩ := b2 (hiff.mp hsv)
            refine ⟨hcore', by rw [j1, j2, hj], ?_⟩
            rw [applyAll_write _ _ _ _ _ e1, applyAll_write _ _ _ _ _ e2, ← hj, ← hcur]
            exact hA.setRow _ _
          · obtain ⟨j1, e1⟩ := a3 hsv
            obtain ⟨j2, e2⟩ := b3 (fun hh => hsv (hiff.mpr hh))
            refine ⟨hcore', by rw [j1, j2, hj], ?_⟩
            rw [← applyAll_filter, e1, applyAll_filter, ← applyAll_filter (initArrays (M.report v track)), e2,
              applyAll_filter]
            exact hA)
        fuel fuel' x x ⟨rfl, rfl, by rw [hev]; exact initArrays_agree M v track⟩ s s' hres hres'
      refine ⟨congrArg Core.i hc, congrArg Core.cur hc, congrArg Core.rng hc, congrArg Core.delta hc,
        congrArg Core.acc hc, congrArg Core.deltas hc, ?_⟩
      rw [applyAll_append, applyAll_append]
      exact hA

/-- C95, second half, for MYULA: printing nothing and tracking less never makes a run fail that otherwise returns. -/
theorem C95_less_myula (M : Sampler n) (R : Rng) (v : ℤ) (hv : v ≤ 0) (track : List String)
    (ht : ∀ x ∈ track, x ∈ M.par.track) (r : R.σ) (sp : StartPoint) (fuel : ℕ) (st : St R)
    (h : myulaRun M R (initArrays M) r sp fuel = .ok (some st)) :
    ∃ st', myulaRun (M.report v track) R (initArrays (M.report v track)) r sp fuel = .ok (some st') := by
  unfold myulaRun at h
  obtain ⟨x, hx, h⟩ := bind_ok h
  obtain ⟨res, hres, h⟩ := bind_ok h
  cases res with
  | none => cases Except.ok.inj h
  | some s =>
    rw [myulaBody_eq] at hres
    have hq : ∀ st : St R, ∃ evs, myulaProg (M.report v track) (initArrays (M.report v track)) st = .ok evs := by
      intro st
      unfold myulaProg
      rw [if_neg (not_verbose (par := (M.report v track).par) hv st.i)]
      split <;> exact ⟨_, rfl⟩
    obtain ⟨s', hs', -⟩ := follows (SubSt (initArrays M) (initArrays (M.report v track)))
        (cond' := loopCond (M.report v track))
        (body' := genBody (M.report v track) (initArrays (M.report v track)) (myulaStep M R)
          (myulaProg (M.report v track) (initArrays (M.report v track))))
        (fun s t hr => by show decide _ = decide _; rw [hr.2.1]; rfl)
        (fun s t s' hr hb => gen_follow M _ _ v track (myulaStep M R) _ _ (myulaProg_noWrites M _)
          (myulaProg_noWrites (M.report v track) _) hq s t s' hr hb)
        fuel _ ⟨0, 0, ⟨x.1, x.2.1, x.2.2⟩, []⟩ ⟨rfl, rfl, rfl, initArrays_sub M v track ht⟩ s hres
    have hx' : initialSample (M.report v track) R r sp = .ok x := hx
    refine ⟨{ s' with ev := s'.ev ++ [Event.done] }, ?_⟩
    unfold myulaRun
    rw [hx', myulaBody_eq]
    simp only [bind, Except.bind]
    have hs2 : whileFuel (loopCond (M.report v track)) (genBody (M.report v track) (initArrays (M.report v track))
      (myulaStep (M.report v track) R) (myulaProg (M.report v track) (initArrays (M.report v track)))) fuel
      ⟨0, 0, ⟨x.1, x.2.1, x.2.2⟩, []⟩ = .ok (some s') := hs'
    rw [hs2]
    rfl

/-- C95, second half, for SKROCK. -/
theorem C95_less_skrock (M : Sampler n) (R : Rng) (v : ℤ) (hv : v ≤ 0) (track : List String)
    (ht : ∀ x ∈ track, x ∈ M.par.track) (r : R.σ) (sp : StartPoint) (fuel : ℕ) (st : St R)
    (h : skrockRun M R (initArrays M) r sp fuel = .ok (some st)) :
    ∃ st', skrockRun (M.report v track) R (initArrays (M.report v track)) r sp fuel = .ok (some st') := by
  unfold skrockRun at h
  obtain ⟨co, hco, h⟩ := bind_ok h
  obtain ⟨x, hx, h⟩ := bind_ok h
  obtain ⟨res, hres, h⟩ := bind_ok h
  cases res with
  | none => cases Except.ok.inj h
  | some s =>
    rw [skrockBody_eq] at hres
    have hq : ∀ st : St R, ∃ evs, skrockProg (M.report v track) (initArrays (M.report v track)) st = .ok evs := by
      intro st
      unfold skrockProg
      rw [if_neg (not_verbose (par := (M.report v track).par) hv st.i)]
      exact ⟨_, rfl⟩
    obtain ⟨s', hs', -⟩ := follows (SubSt (initArrays M) (initArrays (M.report v track)))
        (cond' := loopCond (M.report v track))
        (body' := genBody (M.report v track) (initArrays (M.report v track)) (skrockTransition M R co)
          (skrockProg (M.report v track) (initArrays (M.report v track))))
        (fun s t hr => by show decide _ = decide _; rw [hr.2.1]; rfl)
        (fun s t s' hr hb => gen_follow M _ _ v track (skrockTransition M R co) _ _ (skrockProg_noWrites M _)
          (skrockProg_noWrites (M.report v track) _) hq s t s' hr hb)
        fuel _ ⟨0, 0, ⟨x.1, x.2.1, x.2.2⟩, []⟩ ⟨rfl, rfl, rfl, initArrays_sub M v track ht⟩ s hres
    have hx' : initialSample (M.report v track) R r sp = .ok x := hx
    have hco' : skrockInit (M.report v track).par.s = .ok co := hco
    refine ⟨{ s' with ev := s'.ev ++ [Event.done] }, ?_⟩
    unfold skrockRun
    rw [hco', hx']
    simp only [bind, Except.bind]
    rw [skrockBody_eq]
    have hs2 : whileFuel (loopCond (M.report v track)) (genBody (M.report v track) (initArrays (M.report v track))
      (skrockTransition (M.report v track) R co) (skrockProg (M.report v track) (initArrays (M.report v track)))) fuel
      ⟨0, 0, ⟨x.1, x.2.1, x.2.2⟩, []⟩ = .ok (some s') := hs'
    rw [hs2]
    rfl

/-- C95, second half, for PxMALA: its messages use no arrays, so the verbosity may be anything. -/
theorem C95_less_mala (M : Sampler n) (R : Rng) (tune : Bool) (delta : ℝ) (v : ℤ) (track : List String)
    (ht : ∀ x ∈ track, x ∈ M.par.track) (r : R.σ) (sp : StartPoint) (fuel : ℕ) (st : MalaSt R)
    (h : malaRun M R tune delta (initArrays M) r sp fuel = .ok (some st)) :
    ∃ st', malaRun (M.report v track) R tune delta (initArrays (M.report v track)) r sp fuel = .ok (some st') := by
  classical
  unfold malaRun at h
  obtain ⟨x, hx, h⟩ := bind_ok h
  obtain ⟨res, hres, h⟩ := bind_ok h
  cases res with
  | none => cases Except.ok.inj h
  | some s =>
    have hev : x.ev = [] := (malaInit_ok M R delta r sp x hx).2.2.2.1
    obtain ⟨s', hs', -⟩ := follows
      (fun s t : MalaSt R => (∃ e, t = { s with ev := e }) ∧
        ((initArrays M).applyAll s.ev).Sub ((initArrays (M.report v track)).applyAll t.ev))
      (cond' := malaCond (M.report v track))
      (body' := malaBody (M.report v track) R tune (initArrays (M.report v track)))
      (fun s t hr => by obtain ⟨⟨e, rfl⟩, -⟩ := hr; rfl)
      (fun s t s' hr hb => by
        obtain ⟨⟨e, rfl⟩, hA⟩ := hr
        unfold malaBody at hb
        obtain ⟨pr, hpr, hb⟩ := bind_ok hb
        obtain ⟨a, ha, hb⟩ := bind_ok hb
        obtain ⟨s2, h2, hb⟩ := bind_ok hb
        obtain ⟨s3, h3, hb⟩ := bind_ok hb
        obtain rfl := Except.ok.inj hb
        -- tuning
        have k2 : s2.ev = s.ev ∧ malaTune (M.report v track) tune { s with
            rng := (R.rand pr.2).2, cur := if acceptTest (R.rand pr.2).1 a then pr.1 else s.cur
            acc := s.acc ++ [if acceptTest (R.rand pr.2).1 a then 1 else 0], ev := e } = .ok { s2 with ev := e } := by
          unfold malaTune at h2 ⊢
          cases tune
          · simp only [Bool.false_eq_true, if_false] at h2 ⊢
            obtain rfl := Except.ok.inj h2
            exact ⟨rfl, rfl⟩
          · simp only [if_true] at h2 ⊢
            obtain ⟨d, hd, h2⟩ := bind_ok h2
            obtain rfl := Except.ok.inj h2
            have hd' : tuneDelta (M.report v track) s.delta
              (s.acc ++ [if acceptTest (R.rand pr.2).1 a then 1 else 0]) s.i = .ok d := hd
            refine ⟨rfl, ?_⟩
            simp only [hd', bind, Except.bind]
        obtain ⟨he2, k2⟩ := k2
        -- saving
        have k3 : ∃ e', malaSave (M.report v track) (initArrays (M.report v track)) (acceptTest (R.rand pr.2).1 a)
            { s2 with ev := e } = .ok { s3 with ev := e' } ∧
            ((initArrays M).applyAll s3.ev).Sub ((initArrays (M.report v track)).applyAll e') := by
          by_cases hs : (s2.i : ℤ) ≥ M.par.nburn ∧ thinned M.par s2.i ∧ acceptTest (R.rand pr.2).1 a
          · unfold malaSave at h3
            rw [if_pos hs.1, if_pos hs.2] at h3
            obtain ⟨evs, hevs, h3⟩ := bind_ok h3
            obtain rfl := Except.ok.inj h3
            rw [he2] at hevs
            obtain ⟨evs', hevs'⟩ := tracking_sub M hA hevs
            have hevs2 : tracking (M.report v track) ((initArrays (M.report v track)).applyAll e) s2.j s2.cur.X
              s2.cur.preds s2.cur.logpi s2.cur.L2 s2.cur.prior = .ok evs' := hevs'
            refine ⟨e ++ evs', ?_, ?_⟩
            · unfold malaSave
              have c1 : (s2.i : ℤ) ≥ (M.report v track).par.nburn := hs.1
              have c2 : thinned (M.report v track).par s2.i ∧ acceptTest (R.rand pr.2).1 a := hs.2
              simp only [c1, if_true, c2, and_self, hevs2, bind, Except.bind]
            · rw [applyAll_append, applyAll_append,
                tracking_ok M (l := (s2.cur.logpi, s2.cur.L2, s2.cur.prior)) hevs,
                tracking_ok M (l := (s2.cur.logpi, s2.cur.L2, s2.cur.prior)) hevs', he2, applyAll_rowEvents,
                applyAll_rowEvents]
              exact hA.setRow _ _
          · have e3 : ∀ (M' : Sampler n) (B0 : Arrays) (q : MalaSt R), q.i = s2.i → M'.par.nburn = M.par.nburn →
                M'.par.ngap = M.par.ngap → malaSave M' B0 (acceptTest (R.rand pr.2).1 a) q = .ok q := by
              intro M' B0 q hq hb hg
              unfold malaSave
              by_cases c1 : (q.i : ℤ) ≥ M'.par.nburn
              · rw [if_pos c1, if_neg]
                intro c2
                refine hs ⟨by rw [← hq, ← hb]; exact c1, ?_, c2.2⟩
                have := c2.1
                unfold thinned at this ⊢
                rwa [hg, hb, hq] at this
              · rw [if_neg c1]
            rw [e3 M _ s2 rfl rfl rfl] at h3
            obtain rfl := Except.ok.inj h3
            exact ⟨e, e3 (M.report v track) _ _ rfl rfl rfl, by rw [he2]; exact hA⟩
        obtain ⟨e', k3, hA3⟩ := k3
        refine ⟨malaFinish (M.report v track) { s3 with ev := e' }, ?_, ⟨_, rfl⟩, ?_⟩
        · unfold malaBody
          have hpr' : malaPropose (M.report v track) R s.delta s.rng s.cur = .ok pr := hpr
          have ha' : malaLogAlpha (M.report v track) s.delta s.cur pr.1 = .ok a := ha
          simp only [hpr', ha', bind, Except.bind, k2, k3]
        · have hf : ∀ (M' : Sampler n) (B0 : Arrays) (q : MalaSt R),
              B0.applyAll (malaFinish M' q).ev = B0.applyAll q.ev := by
            intro M' B0 q
            rw [← applyAll_filter, ← applyAll_filter B0 q.ev]
            congr 1
            simp only [malaFinish, List.filter_append]
            split <;> simp [Event.isWrite]
          rw [hf, hf]
          exact hA3)
      fuel x x ⟨⟨x.ev, rfl⟩, by rw [hev]; exact initArrays_sub M v track ht⟩ s hres
    have hx' : malaInit (M.report v track) R delta r sp = .ok x := hx
    refine ⟨{ s' with ev := s'.ev ++ [Event.done] }, ?_⟩
    unfold malaRun
    rw [hx']
    simp only [bind, Except.bind]
    rw [hs']
    rfl

/-- C95 applies: a printing run that tracks the four default variables, and the silent run that tracks the chain only;
the chains agree. -/
example : ∃ (fuel : ℕ) (st st' : St (constRng 1 0)),
    myulaRun (demo ⟨1, 1 / 2, 1, 1, 5, (3 : ℕ), (2 : ℕ), true, 2, ["logposterior", "L2", "prior", "chain"]⟩) (constRng 1 0)
      (initArrays (demo ⟨1, 1 / 2, 1, 1, 5, (3 : ℕ), (2 : ℕ), true, 2, ["logposterior", "L2", "prior", "chain"]⟩)) ()
      (.array1 (List.ofFn fun _ : Fin 1 => 2)) fuel = .ok (some st) ∧
    myulaRun (demo ⟨1, 1 / 2, 1, 1, 5, (3 : ℕ), (2 : ℕ), true, 0, ["chain"]⟩) (constRng 1 0)
      (initArrays (demo ⟨1, 1 / 2, 1, 1, 5, (3 : ℕ), (2 : ℕ), true, 0, ["chain"]⟩)) ()
      (.array1 (List.ofFn fun _ : Fin 1 => 2)) fuel = .ok (some st') ∧ st.cur = st'.cur := by
  have hp : CanPrint (demo ⟨1, 1 / 2, 1, 1, 5, (3 : ℕ), (2 : ℕ), true, 2, ["logposterior", "L2", "prior", "chain"]⟩)
      (initArrays (demo ⟨1, 1 / 2, 1, 1, 5, (3 : ℕ), (2 : ℕ), true, 2, ["logposterior", "L2", "prior", "chain"]⟩)) :=
    .inr ⟨by simp [initArrays, demo], by simp [initArrays, demo], by simp [initArrays, demo]⟩
  obtain ⟨-, st, h, -⟩ := C41_schedule
    (demo ⟨1, 1 / 2, 1, 1, 5, (3 : ℕ), (2 : ℕ), true, 2, ["logposterior", "L2", "prior", "chain"]⟩) (constRng 1 0) _
    (initArrays_shaped _) hp 3 2 rfl rfl (demo_total _ one_ne_zero) _
    (fun x => gradlogpi_vec _ (demo_total _ one_ne_zero) x) () () (.array1 (List.ofFn fun _ : Fin 1 => 2)) _
    (demo_start _ _ _ _ one_ne_zero) _ rfl
  have h := h _ le_rfl
  obtain ⟨st', h'⟩ := C95_less_myula _ _ 0 le_rfl ["chain"] (by simp [demo]) _ _ _ _ h
  exact ⟨_, st, st', h, h', (C95_myula _ _ _ _ _ _ _ _ _ _ h h').2.1⟩

/-- The same for PxMALA, in the run that rejects once: reporting at every iteration changes nothing. -/
example : ∃ (st st' : MalaSt (seqRng rejectOnce)),
    malaRun (demo (demoPar 2 (0 : ℕ))) (seqRng rejectOnce) false (1 / 2) (demoArr 2 0) (0 : ℕ) demoSp 3 = .ok (some st) ∧
    malaRun ((demo (demoPar 2 (0 : ℕ))).report 1 ["chain"]) (seqRng rejectOnce) false (1 / 2)
      (initArrays ((demo (demoPar 2 (0 : ℕ))).report 1 ["chain"])) (0 : ℕ) demoSp 3 = .ok (some st') ∧
    st.cur = st'.cur ∧ st.acc = st'.acc := by
  obtain ⟨st, h⟩ := demoRun2
  obtain ⟨st', h'⟩ := C95_less_mala _ _ _ _ 1 ["chain"] (by simp [demo, demoPar]) _ _ _ _ h
  obtain ⟨-, h1, -, -, h2, -⟩ := C95_mala _ _ _ _ _ _ _ _ _ _ _ _ h h'
  exact ⟨st, st', h, h', h1, h2⟩

end Pxmcmc
