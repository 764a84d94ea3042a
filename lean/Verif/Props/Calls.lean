import Verif.Model.Calls
import Verif.Props.Myula
import Verif.Props.MalaExamples

/-!
# C155: how often a run evaluates the user's operators
-/

namespace Pxmcmc

/-! ## Logged code -/

/-- `t` does what `x` does and notes the calls `l`. -/
def Logs {α : Type} (t : Logged α) (x : Py α) (l : List Call) : Prop :=
  ∀ h : List Call, t h = x.map fun a => (a, h ++ l)

theorem Logs.quiet {α : Type} (x : Py α) : Logs (quiet x) x [] := by
  intro h
  cases x <;> simp [Pxmcmc.quiet, Except.map]

theorem Logs.logged {α : Type} (c : Call) (x : Py α) : Logs (logged c x) x [c] := by
  intro h
  cases x <;> simp [Pxmcmc.logged, Except.map]

theorem Logs.pure {α : Type} (a : α) : Logs (Pure.pure a : Logged α) (.ok a) [] := by
  intro h
  simp [Pure.pure, StateT.pure, Except.map, Except.pure]

theorem Logs.bind {α β : Type} {t : Logged α} {x : Py α} {l : List Call} {f : α → Logged β} {g : α → Py β} {m : List Call}
    (hx : Logs t x l) (hf : ∀ a, Logs (f a) (g a) m) : Logs (t >>= f) (x >>= g) (l ++ m) := by
  intro h
  show StateT.bind t f h = _
  unfold StateT.bind
  rw [hx h]
  cases x with
  | error e => rfl
  | ok a =>
    show f a (h ++ l) = _
    rw [hf a (h ++ l), List.append_assoc]
    rfl

theorem Logs.cast {α : Type} {t : Logged α} {x : Py α} {l m : List Call} (h : Logs t x l) (hl : l = m) : Logs t x m := hl ▸ h

/-! ## The steps -/

theorem logpiL_logs {n : ℕ} (F : ForwardOp n) (P : PriorObj) (mu : ℝ) (X preds : List ℂ) :
    Logs (logpiL F P mu X preds) (logpi F P mu X preds) [.prior] :=
  (Logs.quiet _).bind fun _ => (Logs.quiet _).bind fun _ => (Logs.quiet _).bind fun _ => (Logs.logged _ _).bind fun _ => Logs.pure _

theorem initialSampleL_logs {n : ℕ} (M : Sampler n) (R : Rng) (r : R.σ) (sp : StartPoint) :
    Logs (initialSampleL M R r sp) (initialSample M R r sp) [.forward] :=
  (Logs.quiet _).bind fun _ => (Logs.logged _ _).bind fun _ => Logs.pure _

theorem myulaStepL_logs {n : ℕ} (M : Sampler n) (R : Rng) (c : Cur R) :
    Logs (myulaStepL M R c) (myulaStep M R c) [.gradg, .proxf, .forward] :=
  (Logs.logged _ _).bind fun _ => (Logs.logged _ _).bind fun _ => (Logs.quiet _).bind fun _ => (Logs.logged _ _).bind fun _ => Logs.pure _

theorem recordRowL_logs {n : ℕ} (M : Sampler n) {R : Rng} (A0 : Arrays) (st : St R) :
    Logs (recordRowL M A0 st) (recordRow M A0 st) [.prior] :=
  (logpiL_logs _ _ _ _ _).bind fun _ => (Logs.quiet _).bind fun _ => Logs.pure _

theorem malaProposeL_logs {n : ℕ} (M : Sampler n) (R : Rng) (delta : ℝ) (r : R.σ) (c : Cache) :
    Logs (malaProposeL M R delta r c) (malaPropose M R delta r c) [.forward, .gradg, .proxf, .prior] :=
  (Logs.quiet _).bind fun _ => (Logs.logged _ _).bind fun _ => (Logs.logged _ _).bind fun _ => (Logs.logged _ _).bind fun _ =>
    (logpiL_logs _ _ _ _ _).bind fun _ => Logs.pure _

theorem malaBodyL_logs {n : ℕ} (M : Sampler n) (R : Rng) (tune : Bool) (A0 : Arrays) (st : MalaSt R) :
    Logs (malaBodyL M R tune A0 st) (malaBody M R tune A0 st) [.forward, .gradg, .proxf, .prior] :=
  (malaProposeL_logs _ _ _ _ _).bind fun _ => (Logs.quiet _).bind fun _ => (Logs.quiet _).bind fun _ => (Logs.quiet _).bind fun _ =>
    Logs.pure _

theorem malaInitL_logs {n : ℕ} (M : Sampler n) (R : Rng) (delta : ℝ) (r : R.σ) (sp : StartPoint) :
    Logs (malaInitL M R delta r sp) (malaInit M R delta r sp) [.forward, .gradg, .proxf, .prior] :=
  (initialSampleL_logs _ _ _ _).bind fun _ => (Logs.logged _ _).bind fun _ => (Logs.logged _ _).bind fun _ =>
    (logpiL_logs _ _ _ _ _).bind fun _ => Logs.pure _

theorem gradlogpiL_logs {n : ℕ} (F : ForwardOp n) (P : PriorObj) (lmda : ℝ) (X : List ℂ) :
    Logs (gradlogpiL F P lmda X) (gradlogpi F P lmda X none) [.proxf, .forward, .gradg] := by
  have h : gradlogpi F P lmda X none = (P.proxf X >>= fun p => npSub X p >>= fun d => F.forward X >>= fun preds =>
      F.calcGradg preds >>= fun gg => npSub ((d.map fun z => z / (lmda : ℂ)).map fun z => -z) gg) := by
    unfold gradlogpi gradf
    cases P.proxf X with
    | error e => rfl
    | ok p =>
      cases h : npSub X p with
      | error e => simp [bind, Except.bind, h]
      | ok d => simp [bind, Except.bind, h]
  rw [h]
  exact (Logs.logged _ _).bind fun _ => (Logs.quiet _).bind fun _ => (Logs.logged _ _).bind fun _ => (Logs.logged _ _).bind fun _ =>
    Logs.quiet _

/-- The calls of `m` gradients. -/
def gradCalls (m : ℕ) : List Call := (List.replicate m [Call.proxf, .forward, .gradg]).flatten

theorem gradCalls_add (a b : ℕ) : gradCalls a ++ gradCalls b = gradCalls (a + b) := by
  unfold gradCalls
  rw [List.replicate_add, List.flatten_append]

theorem kRecL_logs {k : ℕ} (c : SkrockCoefs) (delta : ℝ) (gradL : (Fin k → ℂ) → Logged (Fin k → ℂ)) (grad : (Fin k → ℂ) → Py (Fin k → ℂ))
    (hg : ∀ v, Logs (gradL v) (grad v) (gradCalls 1)) (X Z : Fin k → ℂ) (s : ℕ) :
    Logs (kRecL c delta gradL X Z s) ((kRec c delta grad X Z s).map Prod.fst) (gradCalls (gradCount s)) := by
  induction s using Nat.strong_induction_on with
  | _ s ih =>
    match s with
    | 0 => exact Logs.pure _
    | 1 =>
      have h := (hg fun i => X i + ((c.nus.getD 1 0 * √(2 * delta) : ℝ) : ℂ) * Z i).bind fun g =>
        Logs.pure fun i => X i + ((c.mus.getD 1 0 * delta : ℝ) : ℂ) * g i + ((c.ks.getD 1 0 * √(2 * delta) : ℝ) : ℂ) * Z i
      have e : (kRec c delta grad X Z 1).map Prod.fst = (grad fun i => X i + ((c.nus.getD 1 0 * √(2 * delta) : ℝ) : ℂ) * Z i) >>= fun g =>
          .ok fun i => X i + ((c.mus.getD 1 0 * delta : ℝ) : ℂ) * g i + ((c.ks.getD 1 0 * √(2 * delta) : ℝ) : ℂ) * Z i := by
        unfold kRec
        simp only [bind, Except.bind]
        split <;> simp_all [Except.map]
      rw [e]
      exact h.cast (by simp [gradCount])
    | s + 2 =>
      have h1 := ih (s + 1) (by omega)
      have h0 := ih s (by omega)
      have e : (kRec c delta grad X Z (s + 2)).map Prod.fst = ((kRec c delta grad X Z (s + 1)).map Prod.fst >>= fun a => grad a >>= fun g =>
          (kRec c delta grad X Z (s + 1)).map Prod.fst >>= fun b => (kRec c delta grad X Z s).map Prod.fst >>= fun d =>
          .ok fun i => ((c.mus.getD (s + 2) 0 * delta : ℝ) : ℂ) * g i + ((c.nus.getD (s + 2) 0 : ℝ) : ℂ) * b i
            + ((c.ks.getD (s + 2) 0 : ℝ) : ℂ) - d i) := by
        rw [kRec]
        cases kRec c delta grad X Z (s + 1) with
        | error e => rfl
        | ok a =>
          obtain ⟨a, na⟩ := a
          simp only [bind, Except.bind, Except.map]
          cases grad a with
          | error e => rfl
          | ok g =>
            cases kRec c delta grad X Z s with
            | error e => rfl
            | ok d => rfl
      rw [e, kRecL]
      refine (h1.bind fun a => (hg a).bind fun g => h1.bind fun b => h0.bind fun d => Logs.pure _).cast ?_
      simp only [List.append_nil, gradCalls_add, gradCount]
      congr 1
      omega

theorem skrockTransitionL_logs {n : ℕ} (M : Sampler n) (R : Rng) (co : SkrockCoefs) (c : Cur R) :
    Logs (skrockTransitionL M R co c) (skrockTransition M R co c) (gradCalls (gradCount M.par.s) ++ [.forward]) := by
  have hg : ∀ v : Fin c.X.length → ℂ, Logs (do
      let g ← gradlogpiL M.F M.P M.par.lmda (List.ofFn v)
      quiet (asVec c.X.length g)) (do
      let g ← gradlogpi M.F M.P M.par.lmda (List.ofFn v) none
      asVec c.X.length g) (gradCalls 1) := fun v => (gradlogpiL_logs _ _ _ _).bind fun _ => Logs.quiet _
  refine ((Logs.quiet _).bind fun x => (Logs.quiet _).bind fun z => Logs.bind (x := skrockStep (𝕜 := ℂ) co M.par.s M.par.delta _ x z) ?_ fun y =>
    (Logs.logged _ _).bind fun _ => Logs.pure _ : Logs _ _ ([] ++ ([] ++ (gradCalls (gradCount M.par.s) ++ ([.forward] ++ [])))))
  have := kRecL_logs co M.par.delta _ _ hg x z M.par.s
  have e : ∀ g, skrockStep co M.par.s M.par.delta g x z = (kRec co M.par.delta g x z M.par.s).map Prod.fst := by
    intro g
    unfold skrockStep
    cases kRec co M.par.delta g x z M.par.s <;> rfl
  rw [e]
  exact this

/-! ## The bookkeeping -/

/-- Whether iteration `i` saves a row. -/
def savesRow (par : Params) (i : ℕ) : Prop := (i : ℤ) ≥ par.nburn ∧ thinned par i

instance (par : Params) (i : ℕ) : Decidable (savesRow par i) := by unfold savesRow; infer_instance

theorem myulaBookL_logs {n : ℕ} (M : Sampler n) {R : Rng} (A0 : Arrays) (st : St R) :
    Logs (myulaBookL M A0 st) (myulaBook M A0 st) (if savesRow M.par st.i then [.prior] else []) := by
  unfold myulaBookL myulaBook savesRow
  by_cases hb : (st.i : ℤ) ≥ M.par.nburn
  · simp only [hb, if_true, true_and]
    by_cases ht : thinned M.par st.i
    · simp only [ht, if_true]
      exact (recordRowL_logs M A0 st).bind fun _ => (Logs.quiet _).bind fun _ => Logs.pure _
    · simp only [ht, if_false]
      exact (Logs.pure st).bind fun _ => (Logs.quiet _).bind fun _ => Logs.pure _
  · simp only [hb, if_false, false_and]
    exact Logs.pure _

theorem skrockBookL_logs {n : ℕ} (M : Sampler n) {R : Rng} (A0 : Arrays) (st : St R) :
    Logs (skrockBookL M A0 st) (skrockBook M A0 st) (if savesRow M.par st.i then [.prior] else []) := by
  unfold skrockBookL skrockBook savesRow
  by_cases hb : (st.i : ℤ) ≥ M.par.nburn
  · simp only [hb, if_true, true_and]
    by_cases ht : thinned M.par st.i
    · simp only [ht, if_true]
      exact (recordRowL_logs M A0 st).bind fun _ => (Logs.quiet _).bind fun _ => Logs.pure _
    · simp only [ht, if_false]
      exact (Logs.pure st).bind fun _ => (Logs.quiet _).bind fun _ => Logs.pure _
  · simp only [hb, if_false, false_and]
    exact (Logs.pure st).bind fun _ => (Logs.quiet _).bind fun _ => Logs.pure _

/-! ## The loops -/

theorem whileLogged_inv {σ : Type} (cond : σ → Bool) (bodyL : σ → Logged σ) (body : σ → Py σ) (Inv : σ → List Call → Prop)
    (hstep : ∀ s h, Inv s h → ∃ l, Logs (bodyL s) (body s) l ∧ ∀ s', body s = .ok s' → Inv s' (h ++ l)) (fuel : ℕ) :
    ∀ s h, Inv s h → (whileLogged cond bodyL fuel s h).map Prod.fst = whileFuel cond body fuel s ∧
      ∀ r h', whileLogged cond bodyL fuel s h = .ok (some r, h') → Inv r h' := by
  induction fuel with
  | zero =>
    intro s h hi
    unfold whileLogged whileFuel
    cases cond s with
    | false =>
      refine ⟨rfl, fun r h' e => ?_⟩
      have e' : (Except.ok (some s, h) : Except PyErr _) = .ok (some r, h') := e
      simp only [Except.ok.injEq, Prod.mk.injEq, Option.some.injEq] at e'
      rw [← e'.1, ← e'.2]
      exact hi
    | true =>
      refine ⟨rfl, fun r h' e => ?_⟩
      have e' : (Except.ok (none, h) : Except PyErr (Option σ × List Call)) = .ok (some r, h') := e
      simp at e'
  | succ fuel ih =>
    intro s h hi
    unfold whileLogged whileFuel
    cases cond s with
    | false =>
      refine ⟨rfl, fun r h' e => ?_⟩
      have e' : (Except.ok (some s, h) : Except PyErr _) = .ok (some r, h') := e
      simp only [Except.ok.injEq, Prod.mk.injEq, Option.some.injEq] at e'
      rw [← e'.1, ← e'.2]
      exact hi
    | true =>
      obtain ⟨l, hl, hs'⟩ := hstep s h hi
      have e : (bodyL s >>= fun s' => whileLogged cond bodyL fuel s') h
          = (bodyL s h) >>= fun p => whileLogged cond bodyL fuel p.1 p.2 := rfl
      simp only [if_true]
      rw [e, hl h]
      cases hb : body s with
      | error e => exact ⟨rfl, fun r h' e' => by cases e'⟩
      | ok s' => exact ih s' (h ++ l) (hs' s' hb)

/-- The numbers of calls of `forward`, `calc_gradg`, `proxf` and `prior`. -/
def Counts (l : List Call) (f g x p : ℕ) : Prop :=
  l.count .forward = f ∧ l.count .gradg = g ∧ l.count .proxf = x ∧ l.count .prior = p

theorem Counts.append {l l' : List Call} {f g x p f' g' x' p' : ℕ} (h : Counts l f g x p) (h' : Counts l' f' g' x' p') :
    Counts (l ++ l') (f + f') (g + g') (x + x') (p + p') := by
  unfold Counts at *
  simp only [List.count_append]
  omega

theorem gradCalls_counts (m : ℕ) : Counts (gradCalls m) m m m 0 := by
  induction m with
  | zero => simp [gradCalls, Counts]
  | succ m ih =>
    rw [← gradCalls_add]
    exact ih.append (show Counts (gradCalls 1) 1 1 1 0 by simp [gradCalls, Counts])

theorem ok_of_map {α : Type} {x : Except PyErr (α × List Call)} {a : α} (h : x.map Prod.fst = .ok a) : ∃ l, x = .ok (a, l) := by
  cases x with
  | error e => cases h
  | ok p => exact ⟨p.2, by cases h; rfl⟩

/-- The iteration and row counters after the bookkeeping. -/
theorem myulaBook_counters {n : ℕ} (M : Sampler n) {R : Rng} (A0 : Arrays) (st st' : St R) (h : myulaBook M A0 st = .ok st') :
    st'.i = st.i + 1 ∧ st'.j = st.j + if savesRow M.par st.i then 1 else 0 := by
  unfold myulaBook at h
  unfold savesRow
  by_cases hb : (st.i : ℤ) ≥ M.par.nburn
  · simp only [hb, if_true, true_and] at h ⊢
    by_cases ht : thinned M.par st.i
    · simp only [ht, if_true] at h ⊢
      obtain ⟨s1, h1, h⟩ := bind_ok h
      obtain ⟨ev, -, h⟩ := bind_ok h
      obtain ⟨l, -, h1⟩ := bind_ok h1
      obtain ⟨evs, -, h1⟩ := bind_ok h1
      cases h1
      cases h
      exact ⟨rfl, rfl⟩
    · simp only [ht, if_false] at h ⊢
      obtain ⟨s1, h1, h⟩ := bind_ok h
      obtain ⟨ev, -, h⟩ := bind_ok h
      cases h1
      cases h
      exact ⟨rfl, rfl⟩
  · simp only [hb, if_false, false_and] at h ⊢
    cases h
    exact ⟨rfl, rfl⟩

theorem skrockBook_counters {n : ℕ} (M : Sampler n) {R : Rng} (A0 : Arrays) (st st' : St R) (h : skrockBook M A0 st = .ok st') :
    st'.i = st.i + 1 ∧ st'.j = st.j + if savesRow M.par st.i then 1 else 0 := by
  unfold skrockBook at h
  unfold savesRow
  by_cases hb : (st.i : ℤ) ≥ M.par.nburn
  · simp only [hb, if_true, true_and] at h ⊢
    by_cases ht : thinned M.par st.i
    · simp only [ht, if_true] at h ⊢
      obtain ⟨s1, h1, h⟩ := bind_ok h
      obtain ⟨ev, -, h⟩ := bind_ok h
      obtain ⟨l, -, h1⟩ := bind_ok h1
      obtain ⟨evs, -, h1⟩ := bind_ok h1
      cases h1
      cases h
      exact ⟨rfl, rfl⟩
    · simp only [ht, if_false] at h ⊢
      obtain ⟨s1, h1, h⟩ := bind_ok h
      obtain ⟨ev, -, h⟩ := bind_ok h
      cases h1
      cases h
      exact ⟨rfl, rfl⟩
  · simp only [hb, if_false, false_and] at h ⊢
    obtain ⟨s1, h1, h⟩ := bind_ok h
    obtain ⟨ev, -, h⟩ := bind_ok h
    cases h1
    cases h
    exact ⟨rfl, rfl⟩

theorem saves_counts (P : Prop) [Decidable P] : Counts (if P then [.prior] else []) 0 0 0 (if P then 1 else 0) := by
  split <;> simp [Counts]

/-- A run: an initial part, a loop and a final change of the events. -/
theorem logged_run {α σ : Type} (ini : Logged α) (ini' : Py α) (l0 : List Call) (h0 : Logs ini ini' l0) (start : α → σ) (cond : σ → Bool)
    (bodyL : σ → Logged σ) (body : σ → Py σ) (fin : σ → σ) (Inv : σ → List Call → Prop) (hI : ∀ a, ini' = .ok a → Inv (start a) l0)
    (hstep : ∀ s h, Inv s h → ∃ l, Logs (bodyL s) (body s) l ∧ ∀ s', body s = .ok s' → Inv s' (h ++ l)) (fuel : ℕ) :
    ((do
      let x ← ini
      let res ← whileLogged cond bodyL fuel (start x)
      pure (res.map fin) : Logged (Option σ)) []).map Prod.fst = (do
      let x ← ini'
      let res ← whileFuel cond body fuel (start x)
      .ok (res.map fin) : Py (Option σ)) ∧
    ∀ st calls, (do
      let x ← ini
      let res ← whileLogged cond bodyL fuel (start x)
      pure (res.map fin) : Logged (Option σ)) [] = .ok (some st, calls) → ∃ s, st = fin s ∧ Inv s calls := by
  have e : (do
      let x ← ini
      let res ← whileLogged cond bodyL fuel (start x)
      pure (res.map fin) : Logged (Option σ)) [] = (ini [] >>= fun p => whileLogged cond bodyL fuel (start p.1) p.2 >>= fun q =>
        .ok (q.1.map fin, q.2)) := rfl
  rw [e, h0 []]
  cases hi : ini' with
  | error e => exact ⟨rfl, fun st calls h => by cases h⟩
  | ok a =>
    obtain ⟨hw, hinv⟩ := whileLogged_inv cond bodyL body Inv hstep fuel (start a) l0 (hI a hi)
    have e2 : ((Except.map (fun a => (a, [] ++ l0)) (.ok a) : Except PyErr (α × List Call)) >>= fun p =>
        whileLogged cond bodyL fuel (start p.1) p.2 >>= fun q => .ok (q.1.map fin, q.2))
        = (whileLogged cond bodyL fuel (start a) l0 >>= fun q => .ok (q.1.map fin, q.2)) := rfl
    rw [e2]
    have e3 : ((.ok a : Py α) >>= fun x => whileFuel cond body fuel (start x) >>= fun res => .ok (res.map fin))
        = (whileFuel cond body fuel (start a) >>= fun res => .ok (res.map fin)) := rfl
    rw [e3, ← hw]
    cases hq : whileLogged cond bodyL fuel (start a) l0 with
    | error e => exact ⟨rfl, fun st calls h => by cases h⟩
    | ok q =>
      refine ⟨rfl, fun st calls h => ?_⟩
      have h' : (Except.ok (q.1.map fin, q.2) : Except PyErr (Option σ × List Call)) = .ok (some st, calls) := h
      simp only [Except.ok.injEq, Prod.mk.injEq, Option.map_eq_some_iff] at h'
      obtain ⟨⟨s, hs, rfl⟩, rfl⟩ := h'
      refine ⟨s, rfl, hinv s q.2 ?_⟩
      rw [hq, ← hs]

/-! ## C155 -/

theorem myulaRunL_counts {n : ℕ} (M : Sampler n) (R : Rng) (A0 : Arrays) (r : R.σ) (sp : StartPoint) (fuel : ℕ) :
    (myulaRunL M R A0 r sp fuel []).map Prod.fst = myulaRun M R A0 r sp fuel ∧
    ∀ st calls, myulaRunL M R A0 r sp fuel [] = .ok (some st, calls) → Counts calls (st.i + 1) st.i st.i st.j := by
  obtain ⟨h1, h2⟩ := logged_run (initialSampleL M R r sp) (initialSample M R r sp) [.forward] (initialSampleL_logs M R r sp)
    (fun x => (⟨0, 0, ⟨x.1, x.2.1, x.2.2⟩, []⟩ : St R)) (loopCond M) (myulaBodyL M R A0) (myulaBody M R A0)
    (fun st => { st with ev := st.ev ++ [Event.done] }) (fun s h => Counts h (s.i + 1) s.i s.i s.j) (fun a _ => by simp [Counts])
    (fun s h hi => by
      refine ⟨_, (myulaStepL_logs M R s.cur).bind (m := if savesRow M.par s.i then [.prior] else []) fun c =>
          myulaBookL_logs M A0 { s with cur := c }, fun s' hs' => ?_⟩
      obtain ⟨c, -, hs'⟩ := bind_ok hs'
      obtain ⟨e1, e2⟩ := myulaBook_counters M A0 _ _ hs'
      rw [e1, e2]
      have := hi.append ((show Counts [.gradg, .proxf, .forward] 1 1 1 0 by simp [Counts]).append (saves_counts (savesRow M.par s.i)))
      simpa using this) fuel
  refine ⟨h1, fun st calls h => ?_⟩
  obtain ⟨s, rfl, hs⟩ := h2 st calls h
  exact hs

theorem skrockRunL_counts {n : ℕ} (M : Sampler n) (R : Rng) (A0 : Arrays) (r : R.σ) (sp : StartPoint) (fuel : ℕ) :
    (skrockRunL M R A0 r sp fuel []).map Prod.fst = skrockRun M R A0 r sp fuel ∧
    ∀ st calls, skrockRunL M R A0 r sp fuel [] = .ok (some st, calls) →
      Counts calls (st.i * (gradCount M.par.s + 1) + 1) (st.i * gradCount M.par.s) (st.i * gradCount M.par.s) st.j := by
  unfold skrockRunL skrockRun
  cases hco : skrockInit M.par.s with
  | error e => exact ⟨rfl, fun st calls h => by cases h⟩
  | ok co =>
    obtain ⟨h1, h2⟩ := logged_run (initialSampleL M R r sp) (initialSample M R r sp) [.forward] (initialSampleL_logs M R r sp)
      (fun x => (⟨0, 0, ⟨x.1, x.2.1, x.2.2⟩, []⟩ : St R)) (loopCond M) (skrockBodyL M R co A0) (skrockBody M R co A0)
      (fun st => { st with ev := st.ev ++ [Event.done] })
      (fun s h => Counts h (s.i * (gradCount M.par.s + 1) + 1) (s.i * gradCount M.par.s) (s.i * gradCount M.par.s) s.j)
      (fun a _ => by simp [Counts])
      (fun s h hi => by
        refine ⟨_, (skrockTransitionL_logs M R co s.cur).bind (m := if savesRow M.par s.i then [.prior] else []) fun c =>
          skrockBookL_logs M A0 { s with cur := c }, fun s' hs' => ?_⟩
        obtain ⟨c, -, hs'⟩ := bind_ok hs'
        obtain ⟨e1, e2⟩ := skrockBook_counters M A0 _ _ hs'
        rw [e1, e2]
        have := hi.append (((gradCalls_counts (gradCount M.par.s)).append (show Counts [.forward] 1 0 0 0 by simp [Counts])).append
          (saves_counts (savesRow M.par s.i)))
        convert this using 1 <;> simp <;> ring) fuel
    refine ⟨h1, fun st calls h => ?_⟩
    obtain ⟨s, rfl, hs⟩ := h2 st calls h
    exact hs

theorem malaBody_counters {n : ℕ} (M : Sampler n) (R : Rng) (tune : Bool) (A0 : Arrays) (st st' : MalaSt R)
    (h : malaBody M R tune A0 st = .ok st') : st'.i = st.i + 1 ∧ st'.acc.length = st.acc.length + 1 := by
  unfold malaBody at h
  obtain ⟨pr, -, h⟩ := bind_ok h
  obtain ⟨a, -, h⟩ := bind_ok h
  obtain ⟨st2, h2, h⟩ := bind_ok h
  obtain ⟨st3, h3, h⟩ := bind_ok h
  have e2 : st2.i = st.i ∧ st2.acc.length = st.acc.length + 1 := by
    unfold malaTune at h2
    split at h2
    · obtain ⟨d, -, h2⟩ := bind_ok h2
      cases h2
      simp
    · cases h2
      simp
  have e3 : st3.i = st2.i ∧ st3.acc = st2.acc := by
    unfold malaSave at h3
    split at h3
    · split at h3
      · obtain ⟨d, -, h3⟩ := bind_ok h3
        cases h3
        simp
      · cases h3
        simp
    · cases h3
      simp
  cases h
  unfold malaFinish
  simp [e3.1, e3.2, e2.1, e2.2]

theorem malaRunL_counts {n : ℕ} (M : Sampler n) (R : Rng) (tune : Bool) (delta : ℝ) (A0 : Arrays) (r : R.σ) (sp : StartPoint) (fuel : ℕ) :
    (malaRunL M R tune delta A0 r sp fuel []).map Prod.fst = malaRun M R tune delta A0 r sp fuel ∧
    ∀ st calls, malaRunL M R tune delta A0 r sp fuel [] = .ok (some st, calls) →
      Counts calls (st.i + 1) (st.i + 1) (st.i + 1) (st.i + 1) ∧ st.acc.length = st.i := by
  obtain ⟨h1, h2⟩ := logged_run (malaInitL M R delta r sp) (malaInit M R delta r sp) _ (malaInitL_logs M R delta r sp)
    (fun x => x) (malaCond M) (malaBodyL M R tune A0) (malaBody M R tune A0)
    (fun st => { st with ev := st.ev ++ [Event.done] })
    (fun s h => Counts h (s.i + 1) (s.i + 1) (s.i + 1) (s.i + 1) ∧ s.acc.length = s.i)
    (fun a ha => by
      unfold malaInit at ha
      obtain ⟨x, -, ha⟩ := bind_ok ha
      obtain ⟨g, -, ha⟩ := bind_ok ha
      obtain ⟨p, -, ha⟩ := bind_ok ha
      obtain ⟨l, -, ha⟩ := bind_ok ha
      cases ha
      simp [Counts])
    (fun s h hi => by
      refine ⟨_, malaBodyL_logs M R tune A0 s, fun s' hs' => ?_⟩
      obtain ⟨e1, e2⟩ := malaBody_counters M R tune A0 s s' hs'
      rw [e1, e2, hi.2]
      exact ⟨hi.1.append (by simp [Counts]), rfl⟩) fuel
  refine ⟨h1, fun st calls h => ?_⟩
  obtain ⟨s, rfl, hs⟩ := h2 st calls h
  exact hs

/-- C155 for MYULA: a run that returns has made `N = nburn + (nsamples-1) max(ngap,1) + 1` iterations and has called `forward` once at the start
and once in each iteration, `calc_gradg` and `proxf` once in each iteration, and `prior` once for each saved row. -/
theorem C155_myula {n : ℕ} (M : Sampler n) (R : Rng) (A0 : Arrays) (b g : ℕ) (hb : M.par.nburn = b) (hg : M.par.ngap = g)
    (r : R.σ) (sp : StartPoint) (N : ℕ) (hN : N = if M.par.nsamples = 0 then 0 else b + (M.par.nsamples - 1) * max g 1 + 1) (fuel : ℕ) :
    (myulaRunL M R A0 r sp fuel []).map Prod.fst = myulaRun M R A0 r sp fuel ∧
    ∀ st calls, myulaRunL M R A0 r sp fuel [] = .ok (some st, calls) →
      calls.count .forward = N + 1 ∧ calls.count .gradg = N ∧ calls.count .proxf = N ∧ calls.count .prior = M.par.nsamples := by
  obtain ⟨h1, h2⟩ := myulaRunL_counts M R A0 r sp fuel
  refine ⟨h1, fun st calls h => ?_⟩
  have hr : myulaRun M R A0 r sp fuel = .ok (some st) := by rw [← h1, h]; rfl
  obtain ⟨-, hi, hj⟩ := (C41_terminates M R A0 b g hb hg r sp N hN).2 fuel st hr
  have := h2 st calls h
  rw [hi, hj] at this
  exact this

/-- C155 for PxMALA: one call of each method at the start and one in each iteration, whatever is accepted, saved, tuned or printed. -/
theorem C155_mala {n : ℕ} (M : Sampler n) (R : Rng) (tune : Bool) (delta : ℝ) (A0 : Arrays) (r : R.σ) (sp : StartPoint) (fuel : ℕ) :
    (malaRunL M R tune delta A0 r sp fuel []).map Prod.fst = malaRun M R tune delta A0 r sp fuel ∧
    ∀ st calls, malaRunL M R tune delta A0 r sp fuel [] = .ok (some st, calls) →
      ∀ c : Call, calls.count c = st.acc.length + 1 := by
  obtain ⟨h1, h2⟩ := malaRunL_counts M R tune delta A0 r sp fuel
  refine ⟨h1, fun st calls h c => ?_⟩
  obtain ⟨⟨a, b, d, e⟩, hl⟩ := h2 st calls h
  rw [hl]
  cases c <;> assumption

/-- C155 for SKROCK with `s` stages: each of the `N` iterations evaluates `G` gradients, `2^s - 1 ≤ G`, and each gradient calls `proxf`, `forward` and
`calc_gradg` once; the predictions of the new sample are another call of `forward`. -/
theorem C155_skrock {n : ℕ} (M : Sampler n) (R : Rng) (A0 : Arrays) (b g : ℕ) (hb : M.par.nburn = b) (hg : M.par.ngap = g)
    (r : R.σ) (sp : StartPoint) (N : ℕ) (hN : N = if M.par.nsamples = 0 then 0 else b + (M.par.nsamples - 1) * max g 1 + 1) (fuel : ℕ) :
    (skrockRunL M R A0 r sp fuel []).map Prod.fst = skrockRun M R A0 r sp fuel ∧
    ∃ G, (G = M.par.s ↔ M.par.s ≤ 1) ∧ 2 ^ M.par.s ≤ G + 1 ∧
    ∀ st calls, skrockRunL M R A0 r sp fuel [] = .ok (some st, calls) →
      calls.count .forward = N * (G + 1) + 1 ∧ calls.count .gradg = N * G ∧ calls.count .proxf = N * G ∧
      calls.count .prior = M.par.nsamples := by
  obtain ⟨h1, h2⟩ := skrockRunL_counts M R A0 r sp fuel
  obtain ⟨co⟩ : Nonempty SkrockCoefs := ⟨⟨0, 0, [], [], []⟩⟩
  obtain ⟨K, cnt, hK, hc1, hc2⟩ := C21_cost_partial co 1 (fun x : Fin 1 → ℝ => x) (fun _ => 0) (fun _ => 0) M.par.s
  obtain ⟨K', hK'⟩ := kRec_count co 1 (fun x : Fin 1 → ℝ => x) (fun _ => 0) (fun _ => 0) M.par.s
  rw [hK'] at hK
  obtain rfl : gradCount M.par.s = cnt := by cases hK; rfl
  refine ⟨h1, gradCount M.par.s, hc1, hc2, fun st calls h => ?_⟩
  have hr : skrockRun M R A0 r sp fuel = .ok (some st) := by rw [← h1, h]; rfl
  obtain ⟨-, hi, hj⟩ := (C42_terminates M R A0 b g hb hg r sp N hN).2 fuel st hr
  have := h2 st calls h
  rw [hi, hj] at this
  exact this

/-! ### Concrete runs -/

/-- The demo sampler with burn-in 3, thinning 2 and 4 samples: ten iterations, eleven calls of `forward`. -/
example : ∃ st calls, myulaRunL (demo ⟨1, 1 / 2, 1, 1, 4, (3 : ℕ), (2 : ℕ), false, 0, ["chain"]⟩) (constRng 1 0)
    (initArrays (demo ⟨1, 1 / 2, 1, 1, 4, (3 : ℕ), (2 : ℕ), false, 0, ["chain"]⟩)) () (.array1 (List.ofFn fun _ : Fin 1 => 5)) 10 [] =
      .ok (some st, calls) ∧ calls.count .forward = 11 ∧ calls.count .gradg = 10 ∧ calls.count .prior = 4 := by
  have tot := demo_total ⟨1, 1 / 2, 1, 1, 4, (3 : ℕ), (2 : ℕ), false, 0, ["chain"]⟩ one_ne_zero
  obtain ⟨-, st, hst, -, -⟩ := C41_schedule _ (constRng 1 0) _ (initArrays_shaped _) (.inl le_rfl) 3 2 rfl rfl tot _ (fun x => gradlogpi_vec _ tot x)
    () () _ (fun _ => 5) (demo_start _ _ _ _ one_ne_zero) 10 rfl
  have h := C155_myula (demo ⟨1, 1 / 2, 1, 1, 4, (3 : ℕ), (2 : ℕ), false, 0, ["chain"]⟩) (constRng 1 0)
    (initArrays (demo ⟨1, 1 / 2, 1, 1, 4, (3 : ℕ), (2 : ℕ), false, 0, ["chain"]⟩)) 3 2 rfl rfl () (.array1 (List.ofFn fun _ : Fin 1 => 5)) 10 rfl 10
  obtain ⟨l, hl⟩ := ok_of_map (h.1.trans (hst 10 le_rfl))
  obtain ⟨a, b, -, d⟩ := h.2 st l hl
  exact ⟨st, l, hl, a, b, d⟩

/-- The same sampler with two stages: each of the ten iterations evaluates three gradients. -/
example : ∃ st calls, skrockRunL (demo ⟨1, 1 / 2, 1, 2, 4, (3 : ℕ), (2 : ℕ), false, 0, ["chain"]⟩) (constRng 1 0)
    (initArrays (demo ⟨1, 1 / 2, 1, 2, 4, (3 : ℕ), (2 : ℕ), false, 0, ["chain"]⟩)) () (.array1 (List.ofFn fun _ : Fin 1 => 5)) 10 [] =
      .ok (some st, calls) ∧ 41 ≤ calls.count .forward := by
  have tot := demo_total ⟨1, 1 / 2, 1, 2, 4, (3 : ℕ), (2 : ℕ), false, 0, ["chain"]⟩ one_ne_zero
  obtain ⟨co, f, -, -, -, st, hst, -, -⟩ := C42_schedule _ (constRng 1 0) _ (initArrays_shaped _) (.inl le_rfl) (by decide) 3 2 rfl rfl tot _
    (fun x => gradlogpi_vec _ tot x) () () _ (fun _ => 5) (demo_start _ _ _ _ one_ne_zero) 10 rfl
  have h := C155_skrock (demo ⟨1, 1 / 2, 1, 2, 4, (3 : ℕ), (2 : ℕ), false, 0, ["chain"]⟩) (constRng 1 0)
    (initArrays (demo ⟨1, 1 / 2, 1, 2, 4, (3 : ℕ), (2 : ℕ), false, 0, ["chain"]⟩)) 3 2 rfl rfl () (.array1 (List.ofFn fun _ : Fin 1 => 5)) 10 rfl 10
  obtain ⟨l, hl⟩ := ok_of_map (h.1.trans (hst 10 le_rfl))
  obtain ⟨-, G, -, hG, hc⟩ := h
  have hG' : 2 ^ 2 ≤ G + 1 := hG
  obtain ⟨a, -⟩ := hc st l hl
  exact ⟨st, l, hl, by omega⟩

/-- PxMALA with a rejected and an accepted proposal. -/
example : ∃ st calls, malaRunL (demo (demoPar 1 (0 : ℕ))) (seqRng rejectOnce) false (1 / 2) (demoArr 1 0) (0 : ℕ) demoSp 2 [] =
    .ok (some st, calls) ∧ ∀ c, calls.count c = st.acc.length + 1 := by
  obtain ⟨st, hst⟩ := demoRun1
  have h := C155_mala (demo (demoPar 1 (0 : ℕ))) (seqRng rejectOnce) false (1 / 2) (demoArr 1 0) (0 : ℕ) demoSp 2
  obtain ⟨l, hl⟩ := ok_of_map (h.1.trans hst)
  exact ⟨st, l, hl, h.2 st l hl⟩

end Pxmcmc
