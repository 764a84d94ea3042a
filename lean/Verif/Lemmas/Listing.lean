import Verif.Model.Listing
import Verif.Lemmas.Units

/-! # Runs that differ only in how the predictions are written down -/

namespace Pxmcmc
variable {n n' : ℕ}

/-- The samplers `M` and `M'` have the same parameters and prior; the predictions `q Y` of `M'` lead to the same gradient as the predictions
`Y` of `M`. -/
structure SameSteps (q : List ℂ → List ℂ) (M : Sampler n) (M' : Sampler n') : Prop where
  fwd : ∀ X, M'.F.forward X = (M.F.forward X).map q
  len : ∀ X Y, M.F.forward X = .ok Y → Y.length = n
  qlen : ∀ Y, Y.length = n → (q Y).length = n'
  qstore : ∀ Y, Y.length = n → (q Y).map (store false) = q (Y.map (store false))
  grad : ∀ Y, Y.length = n → M'.F.calcGradg (q Y) = M.F.calcGradg Y
  P : M'.P = M.P
  par : M'.par = M.par
  nparams : M'.nparams = M.nparams

/-- Also the log-posteriors and misfits are the same. -/
structure Restated (q : List ℂ → List ℂ) (M : Sampler n) (M' : Sampler n') : Prop extends SameSteps q M M' where
  logpi : ∀ X Y, Y.length = n → Pxmcmc.logpi M'.F M'.P M'.par.mu X (q Y) = Pxmcmc.logpi M.F M.P M.par.mu X Y

theorem Arrays.applyAll_mapPreds (q : List ℂ → List ℂ) (A : Arrays) (ev : List Event) :
    (A.mapPreds q).applyAll (ev.map (Event.mapPreds q)) = (A.applyAll ev).mapPreds q := by
  have h1 : ∀ (A : Arrays) (e : Event), (A.mapPreds q).apply (e.mapPreds q) = (A.apply e).mapPreds q := by
    intro A e
    cases e <;> simp [Arrays.apply, Arrays.mapPreds, Event.mapPreds, Option.map_map, Function.comp_def, List.map_set]
  unfold Arrays.applyAll
  induction ev generalizing A with
  | nil => rfl
  | cons e ev ih => rw [List.map_cons, List.foldl_cons, List.foldl_cons, h1, ih]

section
variable {q : List ℂ → List ℂ} {M : Sampler n} {M' : Sampler n'} (U : SameSteps q M M')
include U

theorem SameSteps.initialSample (R : Rng) (r : R.σ) (sp : StartPoint) :
    Pxmcmc.initialSample M' R r sp = (Pxmcmc.initialSample M R r sp).map fun x => (x.1, q x.2.1, x.2.2) := by
  unfold Pxmcmc.initialSample
  have h : startVector M' R r sp = startVector M R r sp := by
    unfold startVector
    rw [U.par, U.nparams]
  rw [h]
  cases startVector M R r sp with
  | error e => rfl
  | ok xr =>
    simp only [bind, Except.bind]
    rw [U.fwd]
    cases M.F.forward xr.1 <;> rfl

theorem SameSteps.initialSample_len (R : Rng) (r : R.σ) (sp : StartPoint) (x : List ℂ × List ℂ × R.σ)
    (h : Pxmcmc.initialSample M R r sp = .ok x) : x.2.1.length = n := by
  unfold Pxmcmc.initialSample at h
  obtain ⟨xr, -, h⟩ := bind_ok h
  obtain ⟨y, hy, h⟩ := bind_ok h
  cases h
  exact U.len _ _ hy

theorem SameSteps.chainStep (R : Rng) (δ : ℝ) (r : R.σ) (X pf gg : List ℂ) :
    Pxmcmc.chainStep M' R δ r X pf gg = Pxmcmc.chainStep M R δ r X pf gg := by
  unfold Pxmcmc.chainStep
  rw [U.par, U.nparams]

theorem SameSteps.myulaStep (R : Rng) (x : Cur R) (hx : x.preds.length = n) :
    Pxmcmc.myulaStep M' R (x.mapPreds q) = (Pxmcmc.myulaStep M R x).map (Cur.mapPreds q) ∧
    ∀ y, Pxmcmc.myulaStep M R x = .ok y → y.preds.length = n := by
  constructor
  · unfold Pxmcmc.myulaStep
    simp only [Cur.mapPreds]
    rw [U.grad _ hx, U.P, U.par]
    cases M.F.calcGradg x.preds with
    | error e => rfl
    | ok gg =>
      simp only [bind, Except.bind]
      cases M.P.proxf x.X with
      | error e => rfl
      | ok pf =>
        simp only []
        rw [U.chainStep]
        cases Pxmcmc.chainStep M R M.par.delta x.rng x.X pf gg with
        | error e => rfl
        | ok xr =>
          simp only []
          rw [U.fwd]
          cases M.F.forward xr.1 <;> rfl
  · intro y hy
    unfold Pxmcmc.myulaStep at hy
    obtain ⟨gg, -, hy⟩ := bind_ok hy
    obtain ⟨pf, -, hy⟩ := bind_ok hy
    obtain ⟨xr, -, hy⟩ := bind_ok hy
    obtain ⟨p, hp, hy⟩ := bind_ok hy
    cases hy
    exact U.len _ _ hp

theorem SameSteps.gradlogpi (X : List ℂ) :
    Pxmcmc.gradlogpi M'.F M'.P M'.par.lmda X none = Pxmcmc.gradlogpi M.F M.P M.par.lmda X none := by
  unfold Pxmcmc.gradlogpi
  rw [U.P, U.par, U.fwd]
  cases gradf M.P M.par.lmda X with
  | error e => rfl
  | ok gf =>
    simp only [bind, Except.bind]
    cases hy : M.F.forward X with
    | error e => rfl
    | ok y =>
      simp only [Except.map]
      rw [U.grad _ (U.len _ _ hy)]

theorem SameSteps.skrockTransition (R : Rng) (co : SkrockCoefs) (x : Cur R) :
    Pxmcmc.skrockTransition M' R co (x.mapPreds q) = (Pxmcmc.skrockTransition M R co x).map (Cur.mapPreds q) ∧
    ∀ y, Pxmcmc.skrockTransition M R co x = .ok y → y.preds.length = n := by
  constructor
  · unfold Pxmcmc.skrockTransition
    simp only [Cur.mapPreds, U.gradlogpi]
    rw [U.par]
    cases asVec x.X.length x.X with
    | error e => rfl
    | ok v =>
      simp only [bind, Except.bind]
      cases asVec x.X.length (noise R R.randn M.par.complex x.rng x.X.length).1 with
      | error e => rfl
      | ok z =>
        simp only []
        generalize skrockStep co M.par.s M.par.delta _ v z = st
        cases st with
        | error e => rfl
        | ok y =>
          simp only []
          rw [U.fwd]
          cases M.F.forward (List.ofFn y) <;> rfl
  · intro y hy
    unfold Pxmcmc.skrockTransition at hy
    obtain ⟨v, -, hy⟩ := bind_ok hy
    obtain ⟨z, -, hy⟩ := bind_ok hy
    obtain ⟨w, -, hy⟩ := bind_ok hy
    obtain ⟨p, hp, hy⟩ := bind_ok hy
    cases hy
    exact U.len _ _ hp

end

section
variable {q : List ℂ → List ℂ} {M : Sampler n} {M' : Sampler n'} (U : Restated q M M')
include U

theorem Restated.tracking (A : Arrays) (j : ℕ) (X Y : List ℂ) (hY : Y.length = n) (l l2 : ℂ) (v : ℝ) :
    Pxmcmc.tracking M' (A.mapPreds q) j X (q Y) l l2 v = (Pxmcmc.tracking M A j X Y l l2 v).map (List.map (Event.mapPreds q)) := by
  have hs : ∀ (o : Option (List ℝ)) (e : Event), e.mapPreds q = e →
      (writeScalar o j e).map (List.map (Event.mapPreds q)) = writeScalar o j e := by
    intro o e he
    cases o with
    | none => rfl
    | some l =>
      simp only [writeScalar]
      split
      · simp [Except.map, he]
      · rfl
  have hc : (writeRow A.chain M.nparams M.par.complex j X (.chain j)).map (List.map (Event.mapPreds q)) =
      writeRow A.chain M.nparams M.par.complex j X (.chain j) := by
    cases A.chain with
    | none => rfl
    | some l =>
      simp only [writeRow]
      split
      · cases rowAssign M.nparams X <;> rfl
      · rfl
  have hp : writeRow (A.mapPreds q).preds n' false j (q Y) (.preds j) =
      (writeRow A.preds n false j Y (.preds j)).map (List.map (Event.mapPreds q)) := by
    unfold Arrays.mapPreds
    cases A.preds with
    | none => rfl
    | some l =>
      simp only [writeRow, Option.map_some, List.length_map]
      split
      · simp only [rowAssign, hY, U.qlen Y hY, if_true, bind, Except.bind, Except.map, List.map_cons, List.map_nil, Event.mapPreds,
          U.qstore Y hY]
      · rfl
  unfold Pxmcmc.tracking
  rw [hp, U.par, U.nparams]
  show (writeScalar A.logPi j (.logPi j l.re)).bind _ = _
  have e1 := hs A.logPi (.logPi j l.re) rfl
  have e2 := hs A.L2s (.L2 j l2.re) rfl
  have e3 := hs A.priors (.prior j v) rfl
  cases h1 : writeScalar A.logPi j (.logPi j l.re) with
  | error e => rfl
  | ok a =>
    simp only [bind, Except.bind]
    rw [show (A.mapPreds q).L2s = A.L2s from rfl]
    cases h2 : writeScalar A.L2s j (.L2 j l2.re) with
    | error e => rfl
    | ok b =>
      simp only []
      rw [show (A.mapPreds q).priors = A.priors from rfl]
      cases h3 : writeScalar A.priors j (.prior j v) with
      | error e => rfl
      | ok p =>
        simp only []
        cases writeRow A.preds n false j Y (.preds j) with
        | error e => rfl
        | ok d =>
          simp only [Except.map]
          rw [show (A.mapPreds q).chain = A.chain from rfl]
          cases h5 : writeRow A.chain M.nparams M.par.complex j X (.chain j) with
          | error e => rfl
          | ok e =>
            rw [h1] at e1; rw [h2] at e2; rw [h3] at e3; rw [h5] at hc
            simp only [Except.map, Except.ok.injEq] at e1 e2 e3 hc
            simp only [List.map_append, e1, e2, e3, hc]

theorem Restated.recordRow {R : Rng} (A0 : Arrays) (st : St R) (h : st.cur.preds.length = n) :
    Pxmcmc.recordRow M' (A0.mapPreds q) (st.mapPreds q) = (Pxmcmc.recordRow M A0 st).map (St.mapPreds q) ∧
    ∀ s, Pxmcmc.recordRow M A0 st = .ok s → s.cur = st.cur := by
  constructor
  · unfold Pxmcmc.recordRow
    simp only [St.mapPreds, Cur.mapPreds]
    rw [U.logpi _ _ h, Arrays.applyAll_mapPreds]
    cases Pxmcmc.logpi M.F M.P M.par.mu st.cur.X st.cur.preds with
    | error e => rfl
    | ok l =>
      simp only [bind, Except.bind]
      rw [U.tracking _ _ _ _ h]
      cases Pxmcmc.tracking M (A0.applyAll st.ev) st.j st.cur.X st.cur.preds l.1 l.2.1 l.2.2 with
      | error e => rfl
      | ok evs => simp [Except.map, St.mapPreds, Cur.mapPreds]
  · intro s hs
    unfold Pxmcmc.recordRow at hs
    obtain ⟨l, -, hs⟩ := bind_ok hs
    obtain ⟨e, -, hs⟩ := bind_ok hs
    cases hs
    rfl

theorem Restated.progressArrays {R : Rng} (A0 : Arrays) (st : St R) :
    Pxmcmc.progressArrays M' (A0.mapPreds q) (st.mapPreds q) =
      (Pxmcmc.progressArrays M A0 st).map (List.map (Event.mapPreds q)) := by
  unfold Pxmcmc.progressArrays
  simp only [St.mapPreds]
  rw [Arrays.applyAll_mapPreds, U.par]
  set A := A0.applyAll st.ev
  show (attrArr A.logPi).bind _ = ((attrArr A.logPi).bind _).map _
  cases attrArr A.logPi with
  | error e => rfl
  | ok lp =>
    simp only [bind, Except.bind]
    cases pyGet lp ((st.j : ℤ) - 1) with
    | error e => rfl
    | ok a =>
      simp only []
      rw [show (A.mapPreds q).L2s = A.L2s from rfl]
      cases attrArr A.L2s with
      | error e => rfl
      | ok l2 =>
        simp only []
        cases pyGet l2 ((st.j : ℤ) - 1) with
        | error e => rfl
        | ok b =>
          simp only [Arrays.mapPreds]
          cases attrArr A.priors with
          | error e => rfl
          | ok ps =>
            simp only []
            cases pyGet ps ((st.j : ℤ) - 1) with
            | error e => rfl
            | ok v => rfl

/-- The progress lines of an iteration. -/
theorem Restated.lines {R : Rng} (A0 : Arrays) (s : St R) (b : Prop) [Decidable b] :
    (if b then Pxmcmc.progressArrays M' (A0.mapPreds q) (s.mapPreds q) else .ok [] : Py (List Event)) =
      (if b then Pxmcmc.progressArrays M A0 s else .ok [] : Py (List Event)).map (List.map (Event.mapPreds q)) := by
  split
  · exact U.progressArrays A0 s
  · rfl

theorem Restated.myulaBook {R : Rng} (A0 : Arrays) (st : St R) (h : st.cur.preds.length = n) :
    Pxmcmc.myulaBook M' (A0.mapPreds q) (st.mapPreds q) = (Pxmcmc.myulaBook M A0 st).map (St.mapPreds q) ∧
    ∀ s, Pxmcmc.myulaBook M A0 st = .ok s → s.cur = st.cur := by
  obtain ⟨hr, hk⟩ := U.recordRow A0 st h
  have hi : (st.mapPreds q).i = st.i := rfl
  constructor
  · unfold Pxmcmc.myulaBook
    simp only [hi, U.par]
    split
    · have h1 : (if thinned M.par st.i then Pxmcmc.recordRow M' (A0.mapPreds q) (st.mapPreds q) else .ok (st.mapPreds q) : Py (St R)) =
          (if thinned M.par st.i then Pxmcmc.recordRow M A0 st else .ok st : Py (St R)).map (St.mapPreds q) := by
        split
        · exact hr
        · rfl
      rw [h1]
      cases (if thinned M.par st.i then Pxmcmc.recordRow M A0 st else .ok st : Py (St R)) with
      | error e => rfl
      | ok s =>
        simp only [Except.map, bind, Except.bind]
        have hi : (s.mapPreds q).i = s.i := rfl
        rw [hi, U.lines]
        cases (if verbose M.par s.i then Pxmcmc.progressArrays M A0 s else .ok [] : Py (List Event)) with
        | error e => rfl
        | ok evs => simp [Except.map, St.mapPreds]
    · simp only [Except.map, St.mapPreds, List.map_append]
      congr 3
      split <;> rfl
  · intro s hs
    unfold Pxmcmc.myulaBook at hs
    split at hs
    · obtain ⟨s1, h1, hs⟩ := bind_ok hs
      obtain ⟨ev, -, hs⟩ := bind_ok hs
      cases hs
      split at h1
      · exact hk s1 h1
      · cases h1; rfl
    · cases hs; rfl

theorem Restated.skrockBook {R : Rng} (A0 : Arrays) (st : St R) (h : st.cur.preds.length = n) :
    Pxmcmc.skrockBook M' (A0.mapPreds q) (st.mapPreds q) = (Pxmcmc.skrockBook M A0 st).map (St.mapPreds q) ∧
    ∀ s, Pxmcmc.skrockBook M A0 st = .ok s → s.cur = st.cur := by
  obtain ⟨hr, hk⟩ := U.recordRow A0 st h
  have hi : (st.mapPreds q).i = st.i := rfl
  constructor
  · unfold Pxmcmc.skrockBook
    simp only [hi, U.par]
    have h1 : (if (st.i : ℤ) ≥ M.par.nburn then
          (if thinned M.par st.i then Pxmcmc.recordRow M' (A0.mapPreds q) (st.mapPreds q) else .ok (st.mapPreds q))
        else .ok (st.mapPreds q) : Py (St R)) =
        (if (st.i : ℤ) ≥ M.par.nburn then (if thinned M.par st.i then Pxmcmc.recordRow M A0 st else .ok st)
        else .ok st : Py (St R)).map (St.mapPreds q) := by
      split
      · split
        · exact hr
        · rfl
      · rfl
    rw [h1]
    cases (if (st.i : ℤ) ≥ M.par.nburn then (if thinned M.par st.i then Pxmcmc.recordRow M A0 st else .ok st)
        else .ok st : Py (St R)) with
    | error e => rfl
    | ok s =>
      simp only [Except.map, bind, Except.bind]
      have hi : (s.mapPreds q).i = s.i := rfl
      rw [hi, U.lines]
      cases (if verbose M.par s.i then Pxmcmc.progressArrays M A0 s else .ok [] : Py (List Event)) with
      | error e => rfl
      | ok evs => simp [Except.map, St.mapPreds]
  · intro s hs
    unfold Pxmcmc.skrockBook at hs
    obtain ⟨s1, h1, hs⟩ := bind_ok hs
    obtain ⟨ev, -, hs⟩ := bind_ok hs
    cases hs
    split at h1
    · split at h1
      · exact hk s1 h1
      · cases h1; rfl
    · cases h1; rfl

end

/-! ## Loops -/

/-- A loop whose body commutes with a map of states, on the states that can occur. -/
theorem whileFuel_simOn {σ τ : Type _} (I : σ → Prop) (f : σ → τ) (cond : σ → Bool) (cond' : τ → Bool) (body : σ → Py σ) (body' : τ → Py τ)
    (hcond : ∀ s, cond' (f s) = cond s) (hbody : ∀ s, I s → body' (f s) = (body s).map f ∧ ∀ t, body s = .ok t → I t) (fuel : ℕ) (s : σ)
    (hs : I s) : whileFuel cond' body' fuel (f s) = (whileFuel cond body fuel s).map (Option.map f) := by
  induction fuel generalizing s with
  | zero =>
    simp only [whileFuel, hcond]
    split <;> rfl
  | succ k ih =>
    simp only [whileFuel, hcond]
    split
    · rw [(hbody s hs).1]
      cases h : body s with
      | error e => rfl
      | ok s' => exact ih s' ((hbody s hs).2 s' h)
    · rfl

section
variable {q : List ℂ → List ℂ} {M : Sampler n} {M' : Sampler n'} (U : Restated q M M')
include U

theorem Restated.myulaRun (R : Rng) (A : Arrays) (r : R.σ) (sp : StartPoint) (fuel : ℕ) :
    Pxmcmc.myulaRun M' R (A.mapPreds q) r sp fuel = (Pxmcmc.myulaRun M R A r sp fuel).map (Option.map (St.mapPreds q)) := by
  unfold Pxmcmc.myulaRun
  rw [U.initialSample]
  cases hx : Pxmcmc.initialSample M R r sp with
  | error e => rfl
  | ok x =>
    simp only [Except.map, bind, Except.bind]
    have h := whileFuel_simOn (fun s : St R => s.cur.preds.length = n) (St.mapPreds q) (loopCond M) (loopCond M') (myulaBody M R A)
      (myulaBody M' R (A.mapPreds q)) (fun s => by simp [loopCond, U.par, St.mapPreds]) (by
        intro s hs
        obtain ⟨h1, h2⟩ := U.myulaStep R s.cur hs
        constructor
        · unfold myulaBody
          rw [show (s.mapPreds q).cur = s.cur.mapPreds q from rfl, h1]
          cases hc : Pxmcmc.myulaStep M R s.cur with
          | error e => rfl
          | ok c => exact (U.myulaBook A { s with cur := c } (h2 c hc)).1
        · intro t ht
          unfold myulaBody at ht
          obtain ⟨c, hc, ht⟩ := bind_ok ht
          show t.cur.preds.length = n
          rw [(U.myulaBook A { s with cur := c } (h2 c hc)).2 t ht]
          exact h2 c hc) fuel ⟨0, 0, ⟨x.1, x.2.1, x.2.2⟩, []⟩ (U.initialSample_len R r sp x hx)
    have h0 : (St.mapPreds q ⟨0, 0, ⟨x.1, x.2.1, x.2.2⟩, []⟩ : St R) = ⟨0, 0, ⟨x.1, q x.2.1, x.2.2⟩, []⟩ := rfl
    rw [h0] at h
    rw [h]
    cases whileFuel (loopCond M) (myulaBody M R A) fuel ⟨0, 0, ⟨x.1, x.2.1, x.2.2⟩, []⟩ with
    | error e => rfl
    | ok o =>
      cases o with
      | none => rfl
      | some st => simp [Except.map, St.mapPreds, Event.mapPreds]

theorem Restated.skrockRun (R : Rng) (A : Arrays) (r : R.σ) (sp : StartPoint) (fuel : ℕ) :
    Pxmcmc.skrockRun M' R (A.mapPreds q) r sp fuel = (Pxmcmc.skrockRun M R A r sp fuel).map (Option.map (St.mapPreds q)) := by
  unfold Pxmcmc.skrockRun
  rw [U.initialSample, U.par]
  cases skrockInit (M.par.s : ℤ) with
  | error e => rfl
  | ok co =>
  simp only [bind, Except.bind]
  cases hx : Pxmcmc.initialSample M R r sp with
  | error e => rfl
  | ok x =>
    simp only [Except.map]
    have h := whileFuel_simOn (fun s : St R => s.cur.preds.length = n) (St.mapPreds q) (loopCond M) (loopCond M') (skrockBody M R co A)
      (skrockBody M' R co (A.mapPreds q)) (fun s => by simp [loopCond, U.par, St.mapPreds]) (by
        intro s hs
        obtain ⟨h1, h2⟩ := U.skrockTransition R co s.cur
        constructor
        · unfold skrockBody
          rw [show (s.mapPreds q).cur = s.cur.mapPreds q from rfl, h1]
          cases hc : Pxmcmc.skrockTransition M R co s.cur with
          | error e => rfl
          | ok c => exact (U.skrockBook A { s with cur := c } (h2 c hc)).1
        · intro t ht
          unfold skrockBody at ht
          obtain ⟨c, hc, ht⟩ := bind_ok ht
          show t.cur.preds.length = n
          rw [(U.skrockBook A { s with cur := c } (h2 c hc)).2 t ht]
          exact h2 c hc) fuel ⟨0, 0, ⟨x.1, x.2.1, x.2.2⟩, []⟩ (U.initialSample_len R r sp x hx)
    have h0 : (St.mapPreds q ⟨0, 0, ⟨x.1, x.2.1, x.2.2⟩, []⟩ : St R) = ⟨0, 0, ⟨x.1, q x.2.1, x.2.2⟩, []⟩ := rfl
    rw [h0] at h
    rw [h]
    cases whileFuel (loopCond M) (skrockBody M R co A) fuel ⟨0, 0, ⟨x.1, x.2.1, x.2.2⟩, []⟩ with
    | error e => rfl
    | ok o =>
      cases o with
      | none => rfl
      | some st => simp [Except.map, St.mapPreds, Event.mapPreds]

/-! ## PxMALA -/

theorem Restated.malaPropose (R : Rng) (δ : ℝ) (r : R.σ) (c : Cache) :
    Pxmcmc.malaPropose M' R δ r (c.mapPreds q) = (Pxmcmc.malaPropose M R δ r c).map (fun x => (x.1.mapPreds q, x.2)) ∧
    ∀ x, Pxmcmc.malaPropose M R δ r c = .ok x → x.1.preds.length = n := by
  constructor
  · unfold Pxmcmc.malaPropose
    simp only [Cache.mapPreds]
    rw [U.chainStep]
    cases Pxmcmc.chainStep M R δ r c.X c.proxf c.gradg with
    | error e => rfl
    | ok xr =>
      simp only [bind, Except.bind]
      rw [U.fwd]
      cases hp : M.F.forward xr.1 with
      | error e => rfl
      | ok p =>
        simp only [Except.map]
        rw [U.grad _ (U.len _ _ hp), U.logpi _ _ (U.len _ _ hp), U.P]
        cases M.F.calcGradg p with
        | error e => rfl
        | ok g =>
          simp only []
          cases M.P.proxf xr.1 with
          | error e => rfl
          | ok f =>
            simp only []
            cases Pxmcmc.logpi M.F M.P M.par.mu xr.1 p <;> rfl
  · intro x h
    unfold Pxmcmc.malaPropose at h
    obtain ⟨xr, -, h⟩ := bind_ok h
    obtain ⟨p, hp, h⟩ := bind_ok h
    obtain ⟨g, -, h⟩ := bind_ok h
    obtain ⟨f, -, h⟩ := bind_ok h
    obtain ⟨l, -, h⟩ := bind_ok h
    cases h
    exact U.len _ _ hp

theorem Restated.malaLogAlpha (δ : ℝ) (c p : Cache) :
    Pxmcmc.malaLogAlpha M' δ (c.mapPreds q) (p.mapPreds q) = Pxmcmc.malaLogAlpha M δ c p := by
  unfold Pxmcmc.malaLogAlpha calcLogtransition
  simp only [Cache.mapPreds, U.par]

theorem Restated.malaTune {R : Rng} (tune : Bool) (st : MalaSt R) :
    Pxmcmc.malaTune M' tune (st.mapPreds q) = (Pxmcmc.malaTune M tune st).map (MalaSt.mapPreds q) ∧
    ∀ s, Pxmcmc.malaTune M tune st = .ok s → s.cur = st.cur := by
  have ht : ∀ d acc i, tuneDelta M' d acc i = tuneDelta M d acc i := by
    intro d acc i
    unfold tuneDelta
    rw [U.par]
  constructor
  · unfold Pxmcmc.malaTune
    simp only [ht]
    split
    · show (tuneDelta M st.delta st.acc st.i).bind _ = ((tuneDelta M st.delta st.acc st.i).bind _).map _
      cases tuneDelta M st.delta st.acc st.i <;> rfl
    · rfl
  · intro s hs
    unfold Pxmcmc.malaTune at hs
    split at hs
    · obtain ⟨d, -, hs⟩ := bind_ok hs
      cases hs; rfl
    · cases hs; rfl

theorem Restated.malaSave {R : Rng} (A0 : Arrays) (accept : Prop) [Decidable accept] (st : MalaSt R) (h : st.cur.preds.length = n) :
    Pxmcmc.malaSave M' (A0.mapPreds q) accept (st.mapPreds q) = (Pxmcmc.malaSave M A0 accept st).map (MalaSt.mapPreds q) ∧
    ∀ s, Pxmcmc.malaSave M A0 accept st = .ok s → s.cur = st.cur := by
  constructor
  · unfold Pxmcmc.malaSave
    have hi : (st.mapPreds q).i = st.i := rfl
    simp only [hi, U.par]
    split
    · split
      · simp only [MalaSt.mapPreds, Cache.mapPreds]
        rw [Arrays.applyAll_mapPreds, U.tracking _ _ _ _ h]
        cases Pxmcmc.tracking M (A0.applyAll st.ev) st.j st.cur.X st.cur.preds st.cur.logpi st.cur.L2 st.cur.prior with
        | error e => rfl
        | ok evs => simp [Except.map, bind, Except.bind, MalaSt.mapPreds, Cache.mapPreds]
      · rfl
    · rfl
  · intro s hs
    unfold Pxmcmc.malaSave at hs
    split at hs
    · split at hs
      · obtain ⟨e, -, hs⟩ := bind_ok hs
        cases hs; rfl
      · cases hs; rfl
    · cases hs; rfl

theorem Restated.malaFinish {R : Rng} (st : MalaSt R) :
    Pxmcmc.malaFinish M' (st.mapPreds q) = (Pxmcmc.malaFinish M st).mapPreds q := by
  unfold Pxmcmc.malaFinish
  simp only [U.par, MalaSt.mapPreds, Cache.mapPreds, List.map_append]
  congr 2
  split <;> rfl

theorem Restated.malaBody (R : Rng) (tune : Bool) (A0 : Arrays) (st : MalaSt R) (h : st.cur.preds.length = n) :
    Pxmcmc.malaBody M' R tune (A0.mapPreds q) (st.mapPreds q) = (Pxmcmc.malaBody M R tune A0 st).map (MalaSt.mapPreds q) ∧
    ∀ t, Pxmcmc.malaBody M R tune A0 st = .ok t → t.cur.preds.length = n := by
  classical
  obtain ⟨hp, hl⟩ := U.malaPropose R st.delta st.rng st.cur
  constructor
  · unfold Pxmcmc.malaBody
    rw [show (st.mapPreds q).cur = st.cur.mapPreds q from rfl, show (st.mapPreds q).delta = st.delta from rfl,
      show (st.mapPreds q).rng = st.rng from rfl, hp]
    cases hpr : Pxmcmc.malaPropose M R st.delta st.rng st.cur with
    | error e => rfl
    | ok pr =>
      simp only [Except.map, bind, Except.bind]
      rw [U.malaLogAlpha]
      cases Pxmcmc.malaLogAlpha M st.delta st.cur pr.1 with
      | error e => rfl
      | ok a =>
        simp only []
        set b := acceptTest (R.rand pr.2).1 a
        have h1 : (⟨(st.mapPreds q).i, (st.mapPreds q).j, if b then pr.1.mapPreds q else st.cur.mapPreds q, (R.rand pr.2).2, st.delta,
              (st.mapPreds q).acc ++ [if b then 1 else 0], (st.mapPreds q).deltas, (st.mapPreds q).ev⟩ : MalaSt R) =
            MalaSt.mapPreds q { st with
              rng := (R.rand pr.2).2
              cur := if b then pr.1 else st.cur
              acc := st.acc ++ [if b then 1 else 0] } := by
          simp only [MalaSt.mapPreds]
          by_cases hb : b <;> simp [hb]
        rw [h1, (U.malaTune tune _).1]
        cases ht : Pxmcmc.malaTune M tune ({ st with
              rng := (R.rand pr.2).2
              cur := if b then pr.1 else st.cur
              acc := st.acc ++ [if b then 1 else 0] } : MalaSt R) with
        | error e => rfl
        | ok s2 =>
          simp only [Except.map]
          have hs2 : s2.cur.preds.length = n := by
            rw [(U.malaTune tune _).2 s2 ht]
            show (if b then pr.1 else st.cur).preds.length = n
            split
            · exact hl pr hpr
            · exact h
          rw [(U.malaSave A0 b s2 hs2).1]
          cases Pxmcmc.malaSave M A0 b s2 with
          | error e => rfl
          | ok s3 => simp only [Except.map, U.malaFinish]
  · intro t ht
    unfold Pxmcmc.malaBody at ht
    obtain ⟨pr, hpr, ht⟩ := bind_ok ht
    obtain ⟨a, -, ht⟩ := bind_ok ht
    obtain ⟨s2, h2, ht⟩ := bind_ok ht
    obtain ⟨s3, h3, ht⟩ := bind_ok ht
    cases ht
    have hs2 : s2.cur.preds.length = n := by
      rw [(U.malaTune tune _).2 s2 h2]
      show (if acceptTest (R.rand pr.2).1 a then pr.1 else st.cur).preds.length = n
      split
      · exact hl pr hpr
      · exact h
    show s3.cur.preds.length = n
    rw [(U.malaSave A0 _ s2 hs2).2 s3 h3]
    exact hs2

theorem Restated.malaRun (R : Rng) (tune : Bool) (δ : ℝ) (A : Arrays) (r : R.σ) (sp : StartPoint) (fuel : ℕ) :
    Pxmcmc.malaRun M' R tune δ (A.mapPreds q) r sp fuel =
      (Pxmcmc.malaRun M R tune δ A r sp fuel).map (Option.map (MalaSt.mapPreds q)) := by
  have hi : malaInit M' R δ r sp = (malaInit M R δ r sp).map (MalaSt.mapPreds q) ∧
      ∀ s, malaInit M R δ r sp = .ok s → s.cur.preds.length = n := by
    constructor
    · unfold malaInit
      rw [U.initialSample]
      cases hx : Pxmcmc.initialSample M R r sp with
      | error e => rfl
      | ok x =>
        have hl := U.initialSample_len R r sp x hx
        simp only [Except.map, bind, Except.bind]
        rw [U.grad _ hl, U.logpi _ _ hl, U.P]
        cases M.F.calcGradg x.2.1 with
        | error e => rfl
        | ok g =>
          simp only []
          cases M.P.proxf x.1 with
          | error e => rfl
          | ok f =>
            simp only []
            cases Pxmcmc.logpi M.F M.P M.par.mu x.1 x.2.1 <;> rfl
    · intro s h
      unfold malaInit at h
      obtain ⟨x, hx, h⟩ := bind_ok h
      obtain ⟨g, -, h⟩ := bind_ok h
      obtain ⟨f, -, h⟩ := bind_ok h
      obtain ⟨l, -, h⟩ := bind_ok h
      cases h
      exact U.initialSample_len R r sp x hx
  unfold Pxmcmc.malaRun
  rw [hi.1]
  cases h0 : malaInit M R δ r sp with
  | error e => rfl
  | ok s0 =>
    simp only [Except.map, bind, Except.bind]
    rw [whileFuel_simOn (fun s : MalaSt R => s.cur.preds.length = n) (MalaSt.mapPreds q) (malaCond M) (malaCond M')
      (Pxmcmc.malaBody M R tune A) (Pxmcmc.malaBody M' R tune (A.mapPreds q)) (fun s => by simp [malaCond, U.par, MalaSt.mapPreds])
      (fun s hs => U.malaBody R tune A s hs) fuel s0 (hi.2 s0 h0)]
    cases whileFuel (malaCond M) (Pxmcmc.malaBody M R tune A) fuel s0 with
    | error e => rfl
    | ok o =>
      cases o with
      | none => rfl
      | some st => simp [Except.map, MalaSt.mapPreds, Event.mapPreds]

end

end Pxmcmc
