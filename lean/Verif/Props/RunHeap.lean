import Verif.Model.RunHeap
import Verif.Props.MalaExamples

/-!
# C157: a run writes into no array but the tracking arrays
-/

namespace Pxmcmc

/-- In the store `H` the reference `a` refers to an array with the values `X`. -/
def Refers (H : Store) (a : ℕ) (X : List ℂ) : Prop := H[a]? = some X

theorem Refers.mono {H H' : Store} {a : ℕ} {X : List ℂ} (h : Refers H a X) (hp : H <+: H') : Refers H' a X := by
  unfold Refers at *
  have hlt : a < H.length := by
    by_contra hc
    rw [List.getElem?_eq_none (by omega)] at h
    cases h
  obtain ⟨t, rfl⟩ := hp
  rw [List.getElem?_append_left hlt, h]

/-- `t`, started in `H`, does what `x` does: it raises the same exception, or it returns a result that corresponds to that of `x` by `rel`; it may have
created arrays, but all arrays of `H` are as before. -/
def Sim {α β : Type} (rel : Store → α → β → Prop) (H : Store) (t : Mem α) (x : Py β) : Prop :=
  match x with
  | .error e => t H = .error e
  | .ok b => ∃ a H', t H = .ok (a, H') ∧ H <+: H' ∧ rel H' a b

theorem Sim.bind {α β γ δ : Type} {rel : Store → α → β → Prop} {rel' : Store → γ → δ → Prop} {H : Store} {t : Mem α} {x : Py β}
    {f : α → Mem γ} {g : β → Py δ} (ht : Sim rel H t x) (hf : ∀ H' a b, H <+: H' → rel H' a b → Sim rel' H' (f a) (g b)) :
    Sim rel' H (t >>= f) (x >>= g) := by
  have e : (t >>= f) H = (t H >>= fun p => f p.1 p.2) := rfl
  cases x with
  | error err =>
    show (t >>= f) H = .error err
    rw [e, show t H = .error err from ht]
    rfl
  | ok b =>
    obtain ⟨a, H', h1, h2, h3⟩ := ht
    have h4 := hf H' a b h2 h3
    have e2 : (t >>= f) H = f a H' := by rw [e, h1]; rfl
    show Sim rel' H (t >>= f) (g b)
    cases hg : g b with
    | error err =>
      rw [hg] at h4
      show (t >>= f) H = .error err
      rw [e2]
      exact h4
    | ok d =>
      rw [hg] at h4
      obtain ⟨c, H'', h5, h6, h7⟩ := h4
      exact ⟨c, H'', by rw [e2, h5], h2.trans h6, h7⟩

theorem Sim.ret {α β : Type} {rel : Store → α → β → Prop} {H : Store} {a : α} {b : β} (h : rel H a b) : Sim rel H (pure a) (.ok b) :=
  ⟨a, H, rfl, List.prefix_rfl, h⟩

theorem Sim.raise {α β : Type} {rel : Store → α → β → Prop} {H : Store} {e : PyErr} : Sim rel H (val (.error e) : Mem α) (.error e : Py β) := rfl

theorem Sim.val {α : Type} {H : Store} (x : Py α) : Sim (fun _ a b => a = b) H (val x) x := by
  cases x with
  | error e => rfl
  | ok a => exact ⟨a, H, rfl, List.prefix_rfl, rfl⟩

theorem Sim.new {H : Store} (l : List ℂ) : Sim Refers H (new l) (.ok l) :=
  ⟨H.length, H ++ [l], rfl, List.prefix_append _ _, by simp [Refers]⟩

/-- Reading an array whose values are known: continue with these values. -/
theorem Sim.rd {γ δ : Type} {rel' : Store → γ → δ → Prop} {H : Store} {a : ℕ} {X : List ℂ} (h : Refers H a X) {f : List ℂ → Mem γ} {y : Py δ}
    (hf : Sim rel' H (f X) y) : Sim rel' H (rd a >>= f) y := by
  have e : (Pxmcmc.rd a >>= f) H = f X H := by
    show (Pxmcmc.rd a H >>= fun p => f p.1 p.2) = _
    unfold Pxmcmc.rd
    rw [show H[a]? = some X from h]
    rfl
  cases y with
  | error err => exact e.trans hf
  | ok d =>
    obtain ⟨c, H', h1, h2, h3⟩ := hf
    exact ⟨c, H', e.trans h1, h2, h3⟩

/-- Creating an array in the middle of other code. -/
theorem Sim.new_then {γ δ : Type} {rel' : Store → γ → δ → Prop} {H : Store} (l : List ℂ) {f : ℕ → Mem γ} {y : Py δ}
    (hf : ∀ H' a, H <+: H' → Refers H' a l → Sim rel' H' (f a) y) : Sim rel' H (Pxmcmc.new l >>= f) y := by
  have e : (Pxmcmc.new l >>= f) H = f H.length (H ++ [l]) := rfl
  have h := hf (H ++ [l]) H.length (List.prefix_append _ _) (by simp [Refers])
  cases y with
  | error err => exact e.trans h
  | ok d =>
    obtain ⟨c, H', h1, h2, h3⟩ := h
    exact ⟨c, H', e.trans h1, (List.prefix_append _ _).trans h2, h3⟩

theorem Sim.weaken {α β : Type} {rel rel' : Store → α → β → Prop} {H : Store} {t : Mem α} {x : Py β} (h : Sim rel H t x)
    (hr : ∀ H' a b, H <+: H' → rel H' a b → rel' H' a b) : Sim rel' H t x := by
  cases x with
  | error e => exact h
  | ok b =>
    obtain ⟨a, H', h1, h2, h3⟩ := h
    exact ⟨a, H', h1, h2, hr H' a b h2 h3⟩

theorem Sim.via {α β γ : Type} {rel : Store → α → β → Prop} {rel' : Store → γ → β → Prop} {H : Store} {t : Mem α} {x : Py β} {f : α → Mem γ}
    (h : Sim rel H t x) (hf : ∀ H' a b, H <+: H' → rel H' a b → Sim rel' H' (f a) (.ok b)) : Sim rel' H (t >>= f) x := by
  have : x = (x >>= fun r => .ok r) := by cases x <;> rfl
  rw [this]
  exact h.bind hf

/-- Operators that compute what those of the sampler `M` compute and write into no array that existed before the call.  They may return their argument. -/
structure MemOps.Respects {n : ℕ} (O : MemOps) (M : Sampler n) : Prop where
  forward : ∀ H a X, Refers H a X → Sim Refers H (O.forward a) (M.F.forward X)
  gradg : ∀ H a X, Refers H a X → Sim Refers H (O.gradg a) (M.F.calcGradg X)
  proxf : ∀ H a X, Refers H a X → Sim Refers H (O.proxf a) (M.P.proxf X)
  prior : ∀ H a X, Refers H a X → Sim (fun _ v w => v = w) H (O.prior a) (M.P.prior X)

section
variable {n : ℕ} {M : Sampler n} {O : MemOps} {data : ℕ} {R : Rng}

/-! ## The pieces -/

theorem logpiM_sim (hO : O.Respects M) {H : Store} (hd : Refers H data (List.ofFn M.F.data.vals)) {a b : ℕ} {X p : List ℂ} (ha : Refers H a X)
    (hb : Refers H b p) : Sim (fun _ v w => v = w) H (logpiM M O data a b) (logpi M.F M.P M.par.mu X p) := by
  refine Sim.rd hd (Sim.rd hb ?_)
  refine (Sim.val _).bind fun H1 d1 d1' h1 e1 => ?_
  subst e1
  refine (Sim.val _).bind fun H2 d2 d2' h2 e2 => ?_
  subst e2
  refine (Sim.val _).bind fun H3 d3 d3' h3 e3 => ?_
  subst e3
  refine (hO.prior H3 a X (ha.mono (h1.trans (h2.trans h3)))).bind fun H4 v w _ e4 => ?_
  subst e4
  exact Sim.ret rfl

/-- `gradlogpi` as one chain of statements. -/
theorem gradlogpi_flat (F : ForwardOp n) (P : PriorObj) (lmda : ℝ) (X : List ℂ) :
    gradlogpi F P lmda X none = (P.proxf X >>= fun p => npSub X p >>= fun d => F.forward X >>= fun preds =>
      F.calcGradg preds >>= fun gg => npSub ((d.map fun z => z / (lmda : ℂ)).map fun z => -z) gg) := by
  unfold gradlogpi gradf
  cases P.proxf X with
  | error e => rfl
  | ok p =>
    cases h : npSub X p with
    | error e => simp [bind, Except.bind, h]
    | ok d => simp [bind, Except.bind, h]

theorem gradlogpiM_sim (hO : O.Respects M) {H : Store} {a : ℕ} {X : List ℂ} (ha : Refers H a X) :
    Sim Refers H (gradlogpiM M O a) (gradlogpi M.F M.P M.par.lmda X none) := by
  rw [gradlogpi_flat]
  refine (hO.proxf H a X ha).bind fun H1 p pv h1 hp => ?_
  refine Sim.rd (ha.mono h1) (Sim.rd hp ?_)
  refine (Sim.val _).bind fun H2 d d' h2 e2 => ?_
  subst e2
  refine (hO.forward H2 a X (ha.mono (h1.trans h2))).bind fun H3 b bv h3 hb => ?_
  refine (hO.gradg H3 b bv hb).bind fun H4 g gv h4 hg => ?_
  refine Sim.rd hg ?_
  refine Sim.via (Sim.val _) fun H5 r r' h5 e5 => ?_
  subst e5
  exact Sim.new _

/-- The start point that a reference stands for. -/
def StartRef.Is (sp : StartRef) (H : Store) (sp' : StartPoint) : Prop :=
  match sp, sp' with
  | .none, .none => True
  | .array1 a, .array1 v => Refers H a v
  | .arrayNd k _, .arrayNd k' _ => k = k'
  | .other, .other => True
  | _, _ => False

theorem initialSampleM_sim (hO : O.Respects M) {H : Store} {sp : StartRef} {sp' : StartPoint} (hs : sp.Is H sp') (r : R.σ) :
    Sim (fun H' x y => Refers H' x.1 y.1 ∧ Refers H' x.2.1 y.2.1 ∧ x.2.2 = y.2.2) H (initialSampleM M O R r sp) (initialSample M R r sp') := by
  unfold initialSampleM initialSample
  refine Sim.bind (rel := fun H' x y => Refers H' x.1 y.1 ∧ x.2 = y.2) ?_ fun H1 x y h1 hxy => ?_
  · cases sp <;> cases sp' <;> simp only [StartRef.Is] at hs
    · exact Sim.new_then _ fun H' a _ ha => Sim.ret ⟨ha, rfl⟩
    · rename_i a v
      refine Sim.rd hs ?_
      unfold startVector
      by_cases hl : v.length = M.nparams
      · simp only [hl, if_true]
        exact Sim.ret ⟨hs, rfl⟩
      · simp only [hl, if_false]
        exact Sim.raise
    · exact Sim.raise
    · exact Sim.raise
  · refine (hO.forward H1 x.1 y.1 hxy.1).bind fun H2 b bv h2 hb => ?_
    exact Sim.ret ⟨hxy.1.mono h2, hb, hxy.2⟩

theorem chainStepM_sim {H : Store} {a b c : ℕ} {X p g : List ℂ} (ha : Refers H a X) (hb : Refers H b p) (hc : Refers H c g) (delta : ℝ) (r : R.σ) :
    Sim (fun H' x y => Refers H' x.1 y.1 ∧ x.2 = y.2) H (chainStepM M R delta r a b c) (chainStep M R delta r X p g) := by
  refine Sim.rd ha (Sim.rd hb (Sim.rd hc ?_))
  refine Sim.via (Sim.val _) fun H1 x x' h1 e1 => ?_
  subst e1
  exact Sim.new_then _ fun H' a _ ha => Sim.ret ⟨ha, rfl⟩

/-! ## MYULA -/

/-- References that stand for the values of the loop variables. -/
def CurRef.Is (c : CurRef R) (H : Store) (c' : Cur R) : Prop := Refers H c.X c'.X ∧ Refers H c.preds c'.preds ∧ c.rng = c'.rng

/-- The same with the counters and the events. -/
def StRef.Is (H : Store) (s : StRef R) (s' : St R) : Prop := s.i = s'.i ∧ s.j = s'.j ∧ s.cur.Is H s'.cur ∧ s.ev = s'.ev

theorem CurRef.Is.mono {c : CurRef R} {H H' : Store} {c' : Cur R} (h : c.Is H c') (hp : H <+: H') : c.Is H' c' :=
  ⟨h.1.mono hp, h.2.1.mono hp, h.2.2⟩

theorem myulaStepM_sim (hO : O.Respects M) {H : Store} {c : CurRef R} {c' : Cur R} (hc : c.Is H c') :
    Sim (fun H' x y => CurRef.Is x H' y) H (myulaStepM M O R c) (myulaStep M R c') := by
  obtain ⟨X, preds, rng⟩ := c
  obtain ⟨X', preds', rng'⟩ := c'
  obtain ⟨hX, hp, hr⟩ := hc
  simp only at hX hp hr
  subst hr
  refine (hO.gradg H _ _ hp).bind fun H1 g gv h1 hg => ?_
  refine (hO.proxf H1 _ _ (hX.mono h1)).bind fun H2 p pv h2 hpv => ?_
  refine (chainStepM_sim (hX.mono (h1.trans h2)) hpv (hg.mono h2) M.par.delta rng).bind fun H3 x y h3 hxy => ?_
  refine (hO.forward H3 _ _ hxy.1).bind fun H4 b bv h4 hb => ?_
  exact Sim.ret ⟨hxy.1.mono h4, hb, hxy.2⟩

theorem recordRowM_sim (hO : O.Respects M) (A0 : Arrays) {H : Store} (hd : Refers H data (List.ofFn M.F.data.vals)) {s : StRef R} {s' : St R}
    (hs : StRef.Is H s s') : Sim (fun H' x y => StRef.Is H' x y ∧ x.i = s.i) H (recordRowM M O data A0 s) (recordRow M A0 s') := by
  obtain ⟨i, j, c, ev⟩ := s
  obtain ⟨i', j', c', ev'⟩ := s'
  obtain ⟨hi, hj, hc, he⟩ := hs
  simp only at hi hj hc he
  subst hi hj he
  refine (logpiM_sim hO hd hc.1 hc.2.1).bind fun H1 l l' h1 e1 => ?_
  subst e1
  refine Sim.rd (hc.1.mono h1) (Sim.rd (hc.2.1.mono h1) ?_)
  refine (Sim.val _).bind fun H2 ev ev' h2 e2 => ?_
  subst e2
  exact Sim.ret ⟨⟨rfl, rfl, hc.mono (h1.trans h2), rfl⟩, rfl⟩

theorem progressM_sim (A0 : Arrays) {H : Store} {s : StRef R} {s' : St R} (hs : StRef.Is H s s') :
    Sim (fun _ v w => v = w) H (progressM M A0 s) (if verbose M.par s'.i then progressArrays M A0 s' else .ok [] : Py (List Event)) := by
  obtain ⟨i, j, c, ev⟩ := s
  obtain ⟨i', j', c', ev'⟩ := s'
  obtain ⟨hi, hj, hc, he⟩ := hs
  simp only at hi hj hc he
  subst hi hj he
  exact Sim.val _

theorem StRef.Is.mono {H H' : Store} {s : StRef R} {s' : St R} (h : StRef.Is H s s') (hp : H <+: H') : StRef.Is H' s s' :=
  ⟨h.1, h.2.1, h.2.2.1.mono hp, h.2.2.2⟩

theorem advance_sim {H : Store} {s : StRef R} {s' : St R} (hs : StRef.Is H s s') (ev : List Event) :
    StRef.Is H { s with ev := s.ev ++ ev, i := s.i + 1 } { s' with ev := s'.ev ++ ev, i := s'.i + 1 } :=
  ⟨by simp [hs.1], hs.2.1, hs.2.2.1, by simp [hs.2.2.2]⟩

theorem myulaBodyM_sim (hO : O.Respects M) (A0 : Arrays) {H : Store} (hd : Refers H data (List.ofFn M.F.data.vals)) {s : StRef R} {s' : St R}
    (hs : StRef.Is H s s') : Sim StRef.Is H (myulaBodyM M O data R A0 s) (myulaBody M R A0 s') := by
  obtain ⟨i, j, c, ev⟩ := s
  obtain ⟨i', j', c', ev'⟩ := s'
  obtain ⟨hi, hj, hc, he⟩ := hs
  simp only at hi hj hc he
  subst hi hj he
  refine (myulaStepM_sim hO hc).bind fun H1 c1 c1' h1 hc1 => ?_
  unfold myulaBook
  by_cases hb : (i : ℤ) ≥ M.par.nburn
  · simp only [hb, if_true]
    refine Sim.bind (rel := StRef.Is) ?_ fun H2 s2 s2' h2 hs2 => ?_
    · by_cases ht : thinned M.par i
      · simp only [ht, if_true]
        exact (recordRowM_sim hO A0 (hd.mono h1) ⟨rfl, rfl, hc1, rfl⟩).weaken fun _ _ _ _ h => h.1
      · simp only [ht, if_false]
        exact Sim.ret ⟨rfl, rfl, hc1, rfl⟩
    · refine (progressM_sim A0 hs2).bind fun H3 e e' h3 he => ?_
      subst he
      exact Sim.ret (advance_sim (hs2.mono h3) _)
  · simp only [hb, if_false]
    exact Sim.ret (advance_sim (s := ⟨i, j, c1, ev⟩) (s' := ⟨i, j, c1', ev⟩) ⟨rfl, rfl, hc1, rfl⟩ _)

theorem whileMem_sim {σ τ : Type} (rel : Store → σ → τ → Prop) (cond : σ → Bool) (cond' : τ → Bool) (body : σ → Mem σ) (body' : τ → Py τ)
    (D : Store → Prop) (hD : ∀ H H', D H → H <+: H' → D H')
    (hcond : ∀ H s s', rel H s s' → cond s = cond' s') (hbody : ∀ H s s', D H → rel H s s' → Sim rel H (body s) (body' s')) (fuel : ℕ) :
    ∀ H s s', D H → rel H s s' → Sim (fun H' => Option.Rel (rel H')) H (whileMem cond body fuel s) (whileFuel cond' body' fuel s') := by
  induction fuel with
  | zero =>
    intro H s s' _ hs
    unfold whileMem whileFuel
    rw [hcond H s s' hs]
    cases cond' s' with
    | true => exact Sim.ret Option.Rel.none
    | false => exact Sim.ret (Option.Rel.some hs)
  | succ fuel ih =>
    intro H s s' hd hs
    unfold whileMem whileFuel
    rw [hcond H s s' hs]
    cases cond' s' with
    | true =>
      simp only [if_true]
      have e := (hbody H s s' hd hs).bind (g := fun t => whileFuel cond' body' fuel t) (f := fun t => whileMem cond body fuel t)
        fun H1 t t' h1 ht => ih H1 t t' (hD H H1 hd h1) ht
      cases hb : body' s' with
      | error err =>
        rw [hb] at e
        exact e
      | ok t =>
        rw [hb] at e
        exact e
    | false => exact Sim.ret (Option.Rel.some hs)

theorem finish_sim {H : Store} {s : Option (StRef R)} {s' : Option (St R)} (h : Option.Rel (StRef.Is H) s s') :
    Option.Rel (StRef.Is H) (s.map fun st => { st with ev := st.ev ++ [Event.done] }) (s'.map fun st => { st with ev := st.ev ++ [Event.done] }) := by
  cases h with
  | none => exact Option.Rel.none
  | some h => exact Option.Rel.some ⟨h.1, h.2.1, h.2.2.1, by simp [h.2.2.2]⟩

theorem loop_sim (H : Store) (s : StRef R) (s' : St R) (h : StRef.Is H s s') : decide (s.j < M.par.nsamples) = loopCond M s' := by
  unfold loopCond
  rw [h.2.1]

/-- C157 for MYULA: the run with references does what the run with values does, and all arrays that existed before (the start point, the data, ...) have their
values afterwards. -/
theorem C157_myula (hO : O.Respects M) (A0 : Arrays) (r : R.σ) {H : Store} (hd : Refers H data (List.ofFn M.F.data.vals)) {sp : StartRef} {sp' : StartPoint}
    (hs : sp.Is H sp') (fuel : ℕ) :
    Sim (fun H' => Option.Rel (StRef.Is H')) H (myulaRunM M O data R A0 r sp fuel) (myulaRun M R A0 r sp' fuel) := by
  refine (initialSampleM_sim hO hs r).bind fun H1 x y h1 hxy => ?_
  refine (whileMem_sim StRef.Is _ (loopCond M) _ _ (fun H => Refers H data (List.ofFn M.F.data.vals)) (fun _ _ h hp => h.mono hp) loop_sim
    (fun H s s' hd hs => myulaBodyM_sim hO A0 hd hs) fuel H1 _ _ (hd.mono h1)
    (show StRef.Is H1 ⟨0, 0, ⟨x.1, x.2.1, x.2.2⟩, []⟩ ⟨0, 0, ⟨y.1, y.2.1, y.2.2⟩, []⟩ from ⟨rfl, rfl, hxy, rfl⟩)).bind fun H2 s s' h2 hs => ?_
  exact Sim.ret (finish_sim hs)

/-! ## SKROCK -/

theorem rdVec_val {k : ℕ} {H : Store} {a : ℕ} {l : List ℂ} (h : Refers H a l) : Sim (fun _ v w => v = w) H (rdVec k a) (asVec k l) :=
  Sim.rd h (Sim.val _)

theorem rdVec_then {γ δ : Type} {rel' : Store → γ → δ → Prop} {k : ℕ} {H : Store} {a : ℕ} {v : Fin k → ℂ} (h : Refers H a (List.ofFn v))
    {f : (Fin k → ℂ) → Mem γ} {y : Py δ} (hf : Sim rel' H (f v) y) : Sim rel' H (rdVec k a >>= f) y := by
  have e : (rdVec k a >>= f) H = f v H := by
    show ((Pxmcmc.rd a H >>= fun p => Pxmcmc.val (asVec k p.1) p.2) >>= fun p => f p.1 p.2) = _
    unfold Pxmcmc.rd
    rw [show H[a]? = some (List.ofFn v) from h]
    show (Pxmcmc.val (asVec k (List.ofFn v)) H >>= fun p => f p.1 p.2) = _
    rw [asVec_ofFn]
    rfl
  cases y with
  | error err => exact e.trans hf
  | ok d =>
    obtain ⟨c, H', h1, h2, h3⟩ := hf
    exact ⟨c, H', e.trans h1, h2, h3⟩

theorem gradVec_then {γ δ : Type} {rel' : Store → γ → δ → Prop} {k : ℕ} {H : Store} {t : Mem ℕ} {x : Py (List ℂ)} (h : Sim Refers H t x)
    {f : (Fin k → ℂ) → Mem γ} {y : (Fin k → ℂ) → Py δ} (hf : ∀ H' g, H <+: H' → Sim rel' H' (f g) (y g)) :
    Sim rel' H (t >>= fun ga => rdVec k ga >>= f) ((x >>= asVec k) >>= y) := by
  have e : ((x >>= asVec k) >>= y) = (x >>= fun l => asVec k l >>= y) := by cases x <;> rfl
  rw [e]
  refine h.bind fun H1 ga gv h1 hg => ?_
  refine (rdVec_val hg).bind fun H2 g g' h2 e2 => ?_
  subst e2
  exact hf H2 g (h1.trans h2)

theorem kRecM_sim {k : ℕ} (co : SkrockCoefs) (delta : ℝ) {X Z : ℕ} {x z : Fin k → ℂ} {grad : ℕ → Mem ℕ} {gl : List ℂ → Py (List ℂ)}
    (hgrad : ∀ H a v, Refers H a v → Sim Refers H (grad a) (gl v)) (s : ℕ) :
    ∀ {H : Store}, Refers H X (List.ofFn x) → Refers H Z (List.ofFn z) →
      Sim (fun H' a b => Refers H' a (List.ofFn b.1)) H (kRecM co delta k grad X Z s) (kRec co delta (fun v => gl (List.ofFn v) >>= asVec k) x z s) := by
  induction s using Nat.strong_induction_on with
  | _ s ih =>
    intro H hX hZ
    match s with
    | 0 => exact Sim.ret hX
    | 1 =>
      unfold kRecM kRec
      refine rdVec_then hX (rdVec_then hZ ?_)
      refine Sim.new_then _ fun H1 v h1 hv => ?_
      refine gradVec_then (hgrad H1 v _ hv) fun H2 g h2 => ?_
      refine rdVec_then (hX.mono (h1.trans h2)) (rdVec_then (hZ.mono (h1.trans h2)) ?_)
      exact ⟨H2.length, H2 ++ [_], rfl, List.prefix_append _ _, by simp [Refers]⟩
    | s + 2 =>
      unfold kRecM kRec
      refine (ih (s + 1) (by omega) hX hZ).bind fun H1 a b h1 ha => ?_
      refine gradVec_then (hgrad H1 a _ ha) fun H2 g h2 => ?_
      refine (ih (s + 1) (by omega) (hX.mono (h1.trans h2)) (hZ.mono (h1.trans h2))).bind fun H3 ba bb h3 hb => ?_
      refine rdVec_then hb ?_
      refine (ih s (by omega) (hX.mono (h1.trans (h2.trans h3))) (hZ.mono (h1.trans (h2.trans h3)))).bind fun H4 da dd h4 hdd => ?_
      refine rdVec_then hdd ?_
      exact ⟨H4.length, H4 ++ [_], rfl, List.prefix_append _ _, by simp [Refers]⟩

theorem asVec_self (l : List ℂ) : asVec l.length l = .ok fun i => l[i] := by
  unfold asVec
  rw [dif_pos rfl]

theorem noise_length (draw : R.σ → (k : ℕ) → (Fin k → ℝ) × R.σ) (cplx : Bool) (r : R.σ) (k : ℕ) : (noise R draw cplx r k).1.length = k := by
  unfold noise
  cases cplx <;> simp

theorem asVec_some {k : ℕ} (l : List ℂ) (h : l.length = k) : ∃ v : Fin k → ℂ, asVec k l = .ok v ∧ List.ofFn v = l := by
  subst h
  exact ⟨fun i => l[i], asVec_self l, List.ofFn_getElem⟩

theorem skrockTransitionM_sim (hO : O.Respects M) (co : SkrockCoefs) {H : Store} {c : CurRef R} {c' : Cur R} (hc : c.Is H c') :
    Sim (fun H' x y => CurRef.Is x H' y) H (skrockTransitionM M O R co c) (skrockTransition M R co c') := by
  obtain ⟨X, preds, rng⟩ := c
  obtain ⟨X', preds', rng'⟩ := c'
  obtain ⟨hX, hp, hr⟩ := hc
  simp only at hX hp hr
  subst hr
  obtain ⟨x, hx, hx'⟩ := asVec_some X' rfl
  obtain ⟨z, hz, hz'⟩ := asVec_some (noise R R.randn M.par.complex rng X'.length).1 (noise_length _ _ _ _)
  refine Sim.rd hX ?_
  unfold skrockTransition
  simp only
  rw [hx, hz]
  refine Sim.new_then _ fun H1 za h1 hza => ?_
  have hs := kRecM_sim (k := X'.length) (x := x) (z := z) co M.par.delta (fun H a v h => gradlogpiM_sim hO h) M.par.s
    (by rw [hx']; exact hX.mono h1) (by rw [hz']; exact hza)
  have e : ∀ w : Py ((Fin X'.length → ℂ) × ℕ), ∀ q : (Fin X'.length → ℂ) → Py (Cur R),
      ((w >>= fun r => .ok r.1) >>= q) = (w >>= fun r => q r.1) := fun w q => by cases w <;> rfl
  show Sim _ H1 _ ((kRec co M.par.delta _ x z M.par.s >>= fun r => .ok r.1) >>= _)
  rw [e]
  refine hs.bind fun H2 y b h2 hy => ?_
  refine (hO.forward H2 y _ hy).bind fun H3 q qv h3 hq => ?_
  exact Sim.ret ⟨hy.mono h3, hq, rfl⟩

theorem skrockBodyM_sim (hO : O.Respects M) (co : SkrockCoefs) (A0 : Arrays) {H : Store} (hd : Refers H data (List.ofFn M.F.data.vals)) {s : StRef R}
    {s' : St R} (hs : StRef.Is H s s') : Sim StRef.Is H (skrockBodyM M O data R co A0 s) (skrockBody M R co A0 s') := by
  obtain ⟨i, j, c, ev⟩ := s
  obtain ⟨i', j', c', ev'⟩ := s'
  obtain ⟨hi, hj, hc, he⟩ := hs
  simp only at hi hj hc he
  subst hi hj he
  refine (skrockTransitionM_sim hO co hc).bind fun H1 c1 c1' h1 hc1 => ?_
  unfold skrockBook
  refine Sim.bind (rel := StRef.Is) ?_ fun H2 s2 s2' h2 hs2 => ?_
  · by_cases hb : (i : ℤ) ≥ M.par.nburn
    · simp only [hb, if_true]
      by_cases ht : thinned M.par i
      · simp only [ht, if_true]
        exact (recordRowM_sim hO A0 (hd.mono h1) ⟨rfl, rfl, hc1, rfl⟩).weaken fun _ _ _ _ h => h.1
      · simp only [ht, if_false]
        exact Sim.ret ⟨rfl, rfl, hc1, rfl⟩
    · simp only [hb, if_false]
      exact Sim.ret ⟨rfl, rfl, hc1, rfl⟩
  · refine (progressM_sim A0 hs2).bind fun H3 e e' h3 he => ?_
    subst he
    exact Sim.ret (advance_sim (hs2.mono h3) _)

/-- C157 for SKROCK. -/
theorem C157_skrock (hO : O.Respects M) (A0 : Arrays) (r : R.σ) {H : Store} (hd : Refers H data (List.ofFn M.F.data.vals)) {sp : StartRef} {sp' : StartPoint}
    (hs : sp.Is H sp') (fuel : ℕ) :
    Sim (fun H' => Option.Rel (StRef.Is H')) H (skrockRunM M O data R A0 r sp fuel) (skrockRun M R A0 r sp' fuel) := by
  refine (Sim.val _).bind fun H0 co co' h0 e0 => ?_
  subst e0
  have hs0 : sp.Is H0 sp' := by
    cases sp <;> cases sp' <;> simp only [StartRef.Is] at hs ⊢
    · exact hs.mono h0
    · exact hs
  refine (initialSampleM_sim hO hs0 r).bind fun H1 x y h1 hxy => ?_
  refine (whileMem_sim StRef.Is _ (loopCond M) _ _ (fun H => Refers H data (List.ofFn M.F.data.vals)) (fun _ _ h hp => h.mono hp) loop_sim
    (fun H s s' hd hs => skrockBodyM_sim hO co A0 hd hs) fuel H1 _ _ (hd.mono (h0.trans h1))
    (show StRef.Is H1 ⟨0, 0, ⟨x.1, x.2.1, x.2.2⟩, []⟩ ⟨0, 0, ⟨y.1, y.2.1, y.2.2⟩, []⟩ from ⟨rfl, rfl, hxy, rfl⟩)).bind fun H2 s s' h2 hs => ?_
  exact Sim.ret (finish_sim hs)

/-! ## PxMALA -/

/-- References that stand for the cached values. -/
def CacheRef.Is (H : Store) (c : CacheRef) (c' : Cache) : Prop :=
  Refers H c.X c'.X ∧ Refers H c.preds c'.preds ∧ Refers H c.gradg c'.gradg ∧ Refers H c.proxf c'.proxf ∧ c.logpi = c'.logpi ∧ c.L2 = c'.L2 ∧ c.prior = c'.prior

theorem CacheRef.Is.mono {H H' : Store} {c : CacheRef} {c' : Cache} (h : CacheRef.Is H c c') (hp : H <+: H') : CacheRef.Is H' c c' :=
  ⟨h.1.mono hp, h.2.1.mono hp, h.2.2.1.mono hp, h.2.2.2.1.mono hp, h.2.2.2.2⟩

/-- References that stand for the variables of the loop. -/
def MalaRef.Is (H : Store) (s : MalaRef R) (s' : MalaSt R) : Prop :=
  s.i = s'.i ∧ s.j = s'.j ∧ CacheRef.Is H s.cur s'.cur ∧ s.rng = s'.rng ∧ s.delta = s'.delta ∧ s.acc = s'.acc ∧ s.deltas = s'.deltas ∧ s.ev = s'.ev

theorem read_then {γ δ : Type} {rel' : Store → γ → δ → Prop} {H : Store} {c : CacheRef} {c' : Cache} (h : CacheRef.Is H c c') {f : Cache → Mem γ} {y : Py δ}
    (hf : Sim rel' H (f c') y) : Sim rel' H (c.read >>= f) y := by
  obtain ⟨X, p, g, q, l, L, pr⟩ := c
  obtain ⟨X', p', g', q', l', L', pr'⟩ := c'
  obtain ⟨h1, h2, h3, h4, h5, h6, h7⟩ := h
  simp only at h1 h2 h3 h4 h5 h6 h7
  subst h5 h6 h7
  have hr : ∀ a v, Refers H a v → Pxmcmc.rd a H = .ok (v, H) := fun a v h => by
    unfold Pxmcmc.rd
    rw [show H[a]? = some v from h]
  have e : (CacheRef.read ⟨X, p, g, q, l, L, pr⟩ >>= f) H = f ⟨X', p', g', q', l, L, pr⟩ H := by
    show ((Pxmcmc.rd X H >>= fun x => Pxmcmc.rd p x.2 >>= fun y => Pxmcmc.rd g y.2 >>= fun z => Pxmcmc.rd q z.2 >>= fun w =>
      (.ok (⟨x.1, y.1, z.1, w.1, l, L, pr⟩, w.2) : Except PyErr (Cache × Store))) >>= fun t => f t.1 t.2) = _
    rw [hr _ _ h1]
    simp only [bind, Except.bind]
    rw [hr _ _ h2]
    simp only
    rw [hr _ _ h3]
    simp only
    rw [hr _ _ h4]
  cases y with
  | error err => exact e.trans hf
  | ok d =>
    obtain ⟨a, H', a1, a2, a3⟩ := hf
    exact ⟨a, H', e.trans a1, a2, a3⟩

theorem malaProposeM_sim (hO : O.Respects M) {H : Store} (hd : Refers H data (List.ofFn M.F.data.vals)) {c : CacheRef} {c' : Cache}
    (hc : CacheRef.Is H c c') (delta : ℝ) (r : R.σ) :
    Sim (fun H' x y => CacheRef.Is H' x.1 y.1 ∧ x.2 = y.2) H (malaProposeM M O data R delta r c) (malaPropose M R delta r c') := by
  refine (chainStepM_sim hc.1 hc.2.2.2.1 hc.2.2.1 delta r).bind fun H1 x y h1 hxy => ?_
  refine (hO.forward H1 _ _ hxy.1).bind fun H2 p pv h2 hp => ?_
  refine (hO.gradg H2 _ _ hp).bind fun H3 g gv h3 hg => ?_
  refine (hO.proxf H3 _ _ (hxy.1.mono (h2.trans h3))).bind fun H4 q qv h4 hq => ?_
  refine (logpiM_sim hO (hd.mono (h1.trans (h2.trans (h3.trans h4)))) (hxy.1.mono (h2.trans (h3.trans h4))) (hp.mono (h3.trans h4))).bind
    fun H5 l l' h5 e5 => ?_
  subst e5
  exact Sim.ret ⟨⟨hxy.1.mono (h2.trans (h3.trans (h4.trans h5))), hp.mono (h3.trans (h4.trans h5)), hg.mono (h4.trans h5), hq.mono h5, rfl, rfl, rfl⟩, hxy.2⟩

open Classical in
theorem malaBodyM_sim (hO : O.Respects M) (tune : Bool) (A0 : Arrays) {H : Store} (hd : Refers H data (List.ofFn M.F.data.vals)) {s : MalaRef R}
    {s' : MalaSt R} (hs : MalaRef.Is H s s') : Sim MalaRef.Is H (malaBodyM M O data R tune A0 s) (malaBody M R tune A0 s') := by
  obtain ⟨i, j, c, rng, delta, acc, deltas, ev⟩ := s
  obtain ⟨i', j', c', rng', delta', acc', deltas', ev'⟩ := s'
  obtain ⟨hi, hj, hc, hr, hdl, ha, hds, he⟩ := hs
  simp only at hi hj hc hr hdl ha hds he
  subst hi hj hr hdl ha hds he
  refine (malaProposeM_sim hO hd hc delta rng).bind fun H1 x y h1 hxy => ?_
  refine read_then (hc.mono h1) (read_then hxy.1 ?_)
  refine (Sim.val _).bind fun H2 a a' h2 e2 => ?_
  subst e2
  rw [hxy.2]
  have hcur : CacheRef.Is H2 (if acceptTest (R.rand y.2).1 a then x.1 else c) (if acceptTest (R.rand y.2).1 a then y.1 else c') := by
    split
    · exact hxy.1.mono h2
    · exact hc.mono (h1.trans h2)
  unfold malaTune malaSave malaFinish
  refine Sim.bind (rel := MalaRef.Is) ?_ fun H3 s3 s3' h3 hs3 => ?_
  · cases tune with
    | true =>
      simp only [if_true]
      refine (Sim.val _).bind fun H4 d d' h4 e4 => ?_
      subst e4
      exact Sim.ret ⟨rfl, rfl, hcur.mono h4, rfl, rfl, rfl, rfl, rfl⟩
    | false => exact Sim.ret ⟨rfl, rfl, hcur, rfl, rfl, rfl, rfl, rfl⟩
  · obtain ⟨i3, j3, c3, rng3, delta3, acc3, deltas3, ev3⟩ := s3
    obtain ⟨i3', j3', c3', rng3', delta3', acc3', deltas3', ev3'⟩ := s3'
    obtain ⟨hi, hj, hc3, hr, hdl, ha, hds, he⟩ := hs3
    simp only at hi hj hc3 hr hdl ha hds he
    subst hi hj hr hdl ha hds he
    refine Sim.bind (rel := MalaRef.Is) ?_ fun H4 s4 s4' h4 hs4 => ?_
    · by_cases hb : (i3 : ℤ) ≥ M.par.nburn
      · simp only [hb, if_true]
        by_cases ht : thinned M.par i3 ∧ acceptTest (R.rand y.2).1 a
        · simp only [ht, and_self, if_true]
          refine Sim.rd hc3.1 (Sim.rd hc3.2.1 ?_)
          rw [hc3.2.2.2.2.1, hc3.2.2.2.2.2.1, hc3.2.2.2.2.2.2]
          refine (Sim.val _).bind fun H5 e e' h5 e5 => ?_
          subst e5
          exact Sim.ret ⟨rfl, rfl, hc3.mono h5, rfl, rfl, rfl, rfl, rfl⟩
        · simp only [ht, if_false]
          exact Sim.ret ⟨rfl, rfl, hc3, rfl, rfl, rfl, rfl, rfl⟩
      · simp only [hb, if_false]
        exact Sim.ret ⟨rfl, rfl, hc3, rfl, rfl, rfl, rfl, rfl⟩
    · obtain ⟨i4, j4, c4, rng4, delta4, acc4, deltas4, ev4⟩ := s4
      obtain ⟨i4', j4', c4', rng4', delta4', acc4', deltas4', ev4'⟩ := s4'
      obtain ⟨hi, hj, hc4, hr, hdl, ha, hds, he⟩ := hs4
      simp only at hi hj hc4 hr hdl ha hds he
      subst hi hj hr hdl ha hds he
      refine Sim.ret ⟨rfl, rfl, hc4, rfl, rfl, rfl, rfl, ?_⟩
      simp only [hc4.2.2.2.2.1, hc4.2.2.2.2.2.1, hc4.2.2.2.2.2.2]

theorem malaInitM_sim (hO : O.Respects M) {H : Store} (hd : Refers H data (List.ofFn M.F.data.vals)) {sp : StartRef} {sp' : StartPoint} (hs : sp.Is H sp')
    (delta : ℝ) (r : R.σ) : Sim MalaRef.Is H (malaInitM M O data R delta r sp) (malaInit M R delta r sp') := by
  refine (initialSampleM_sim hO hs r).bind fun H1 x y h1 hxy => ?_
  refine (hO.gradg H1 _ _ hxy.2.1).bind fun H2 g gv h2 hg => ?_
  refine (hO.proxf H2 _ _ (hxy.1.mono h2)).bind fun H3 q qv h3 hq => ?_
  refine (logpiM_sim hO (hd.mono (h1.trans (h2.trans h3))) (hxy.1.mono (h2.trans h3)) (hxy.2.1.mono (h2.trans h3))).bind fun H4 l l' h4 e4 => ?_
  subst e4
  exact Sim.ret ⟨rfl, rfl, ⟨hxy.1.mono (h2.trans (h3.trans h4)), hxy.2.1.mono (h2.trans (h3.trans h4)), hg.mono (h3.trans h4), hq.mono h4, rfl, rfl, rfl⟩,
    hxy.2.2, rfl, rfl, rfl, rfl⟩

/-- C157 for PxMALA, tuned or not. -/
theorem C157_mala (hO : O.Respects M) (tune : Bool) (delta : ℝ) (A0 : Arrays) (r : R.σ) {H : Store} (hd : Refers H data (List.ofFn M.F.data.vals))
    {sp : StartRef} {sp' : StartPoint} (hs : sp.Is H sp') (fuel : ℕ) :
    Sim (fun H' => Option.Rel (MalaRef.Is H')) H (malaRunM M O data R tune delta A0 r sp fuel) (malaRun M R tune delta A0 r sp' fuel) := by
  refine (malaInitM_sim hO hd hs delta r).bind fun H1 x y h1 hxy => ?_
  refine (whileMem_sim MalaRef.Is _ (malaCond M) _ _ (fun H => Refers H data (List.ofFn M.F.data.vals)) (fun _ _ h hp => h.mono hp)
    (fun H s s' h => by unfold malaCond; rw [h.2.1]) (fun H s s' hd hs => malaBodyM_sim hO tune A0 hd hs) fuel H1 x y (hd.mono h1) hxy).bind
    fun H2 s s' h2 hs => ?_
  refine Sim.ret ?_
  cases hs with
  | none => exact Option.Rel.none
  | some h => exact Option.Rel.some ⟨h.1, h.2.1, h.2.2.1, h.2.2.2.1, h.2.2.2.2.1, h.2.2.2.2.2.1, h.2.2.2.2.2.2.1, by simp [h.2.2.2.2.2.2.2]⟩

end

/-! ### Operators with and without effects on their argument -/

open Classical in
/-- A method that computes `f` and returns its argument itself where the result has the same values (as `IdentityTransform.forward` does), a new array
otherwise. -/
noncomputable def sharing (f : List ℂ → Py (List ℂ)) (a : ℕ) : Mem ℕ := do
  let x ← rd a
  let y ← val (f x)
  if y = x then pure a else new y

theorem sharing_sim (f : List ℂ → Py (List ℂ)) (H : Store) (a : ℕ) (X : List ℂ) (h : Refers H a X) : Sim Refers H (sharing f a) (f X) := by
  refine Sim.rd h (Sim.via (Sim.val _) fun H1 y y' h1 e1 => ?_)
  subst e1
  by_cases hy : y = X
  · simp only [hy, if_true]
    exact Sim.ret (h.mono h1)
  · simp only [hy, if_false]
    exact Sim.new y

/-- The operators of any sampler, as methods that share arrays where they can. -/
noncomputable def sharingOps {n : ℕ} (M : Sampler n) : MemOps :=
  ⟨sharing M.F.forward, sharing M.F.calcGradg, sharing M.P.proxf, fun a => do
    let x ← rd a
    val (M.P.prior x)⟩

theorem sharingOps_respects {n : ℕ} (M : Sampler n) : (sharingOps M).Respects M :=
  ⟨sharing_sim _, sharing_sim _, sharing_sim _, fun _ _ _ h => Sim.rd h (Sim.val _)⟩

/-- A method that writes its result into its argument and returns that (as `utils.hard` does). -/
noncomputable def inPlace (f : List ℂ → Py (List ℂ)) (a : ℕ) : Mem ℕ := do
  let x ← rd a
  let y ← val (f x)
  wr a y
  pure a

/-- An operator that works in place is not covered by C157 unless it changes nothing: as soon as the proximal map moves one point, the requirement
`Respects` fails. -/
theorem inPlace_not_respects {n : ℕ} (M : Sampler n) (O : MemOps) (hp : O.proxf = inPlace M.P.proxf) (x y : List ℂ) (hxy : M.P.proxf x = .ok y)
    (hne : y ≠ x) : ¬ O.Respects M := by
  intro h
  have h1 := h.proxf [x] 0 x rfl
  rw [hp, hxy] at h1
  obtain ⟨a, H', h2, h3, -⟩ := h1
  have e : inPlace M.P.proxf 0 [x] = .ok (0, [y]) := by
    show (Pxmcmc.val (M.P.proxf x) [x] >>= fun p => (.ok (0, p.2.set 0 p.1) : Except PyErr (ℕ × Store))) = _
    rw [hxy]
    rfl
  rw [e] at h2
  cases h2
  obtain ⟨t, ht⟩ := h3
  rw [List.singleton_append, List.cons.injEq] at ht
  exact hne ht.1.symm

/-- The proximal map of a Gaussian prior, `X / 2`, written as `X /= 2`, is such a case. -/
example : ¬ (MemOps.mk (sharing (demo (demoPar 1 0)).F.forward) (sharing (demo (demoPar 1 0)).F.calcGradg) (inPlace fun X => .ok (X.map fun z => z / 2))
    fun _ => pure 0).Respects { demo (demoPar 1 0) with P := ⟨fun _ => .ok 0, fun X => .ok (X.map fun z => z / 2)⟩ } :=
  inPlace_not_respects _ _ rfl [1] [1 / 2] rfl (by
    simp only [ne_eq, List.cons.injEq, and_true]
    norm_num)

/-! ### Concrete runs -/

/-- The caller's start array (reference 0) and the data (reference 1) exist before the run.  The identity operators of the demo sampler share the start
array: the first predictions are the same array.  The run returns the chain of the model with values, and both arrays are unchanged. -/
example : ∃ s H' s', myulaRunM (demo ⟨1, 1 / 2, 1, 1, 4, (3 : ℕ), (2 : ℕ), false, 0, ["chain"]⟩)
    (sharingOps (demo ⟨1, 1 / 2, 1, 1, 4, (3 : ℕ), (2 : ℕ), false, 0, ["chain"]⟩)) 1 (constRng 1 0)
    (initArrays (demo ⟨1, 1 / 2, 1, 1, 4, (3 : ℕ), (2 : ℕ), false, 0, ["chain"]⟩)) () (.array1 0) 10 [[5], [0]] = .ok (some s, H') ∧
    myulaRun (demo ⟨1, 1 / 2, 1, 1, 4, (3 : ℕ), (2 : ℕ), false, 0, ["chain"]⟩) (constRng 1 0)
    (initArrays (demo ⟨1, 1 / 2, 1, 1, 4, (3 : ℕ), (2 : ℕ), false, 0, ["chain"]⟩)) () (.array1 [5]) 10 = .ok (some s') ∧
    s.ev = s'.ev ∧ H'[0]? = some [5] ∧ H'[1]? = some [0] := by
  have tot := demo_total ⟨1, 1 / 2, 1, 1, 4, (3 : ℕ), (2 : ℕ), false, 0, ["chain"]⟩ one_ne_zero
  obtain ⟨-, st, hst, -, -⟩ := C41_schedule _ (constRng 1 0) _ (initArrays_shaped _) (.inl le_rfl) 3 2 rfl rfl tot _ (fun x => gradlogpi_vec _ tot x)
    () () _ (fun _ => 5) (demo_start _ _ _ _ one_ne_zero) 10 rfl
  have h := C157_myula (R := constRng 1 0) (data := 1) (H := [[5], [0]]) (sp := .array1 0) (sp' := .array1 [5])
    (sharingOps_respects (demo ⟨1, 1 / 2, 1, 1, 4, (3 : ℕ), (2 : ℕ), false, 0, ["chain"]⟩))
    (initArrays (demo ⟨1, 1 / 2, 1, 1, 4, (3 : ℕ), (2 : ℕ), false, 0, ["chain"]⟩)) () (by simp [Refers, demo, idOp]) rfl 10
  have hst' := hst 10 le_rfl
  have hl : (List.ofFn fun _ : Fin 1 => (5 : ℂ)) = [5] := by simp
  rw [hl] at hst'
  rw [hst'] at h
  obtain ⟨a, H', h1, h2, h3⟩ := h
  cases h3 with
  | some h3 =>
    refine ⟨_, H', st, h1, hst', h3.2.2.2, ?_, ?_⟩
    · exact Refers.mono (H := [[5], [0]]) rfl h2
    · exact Refers.mono (H := [[5], [0]]) rfl h2

/-- PxMALA with a rejected and an accepted proposal: start array and data are unchanged. -/
example : ∃ s H', malaRunM (demo (demoPar 1 (0 : ℕ))) (sharingOps (demo (demoPar 1 (0 : ℕ)))) 1 (seqRng rejectOnce) false (1 / 2) (demoArr 1 0) (0 : ℕ)
    (.array1 0) 2 [[0], [0]] = .ok (some s, H') ∧ H'[0]? = some [0] ∧ H'[1]? = some [0] := by
  obtain ⟨st, hst⟩ := demoRun1
  have h := C157_mala (R := seqRng rejectOnce) (data := 1) (H := [[0], [0]]) (sp := .array1 0) (sp' := demoSp)
    (sharingOps_respects (demo (demoPar 1 (0 : ℕ)))) false (1 / 2) (demoArr 1 0) (0 : ℕ) (by simp [Refers, demo, idOp])
    (by simp [StartRef.Is, demoSp, Refers]) 2
  rw [hst] at h
  obtain ⟨a, H', h1, h2, h3⟩ := h
  cases h3 with
  | some h3 => exact ⟨_, H', h1, Refers.mono (H := [[0], [0]]) rfl h2, Refers.mono (H := [[0], [0]]) rfl h2⟩

/-- SKROCK with two stages. -/
example : ∃ s H', skrockRunM (demo ⟨1, 1 / 2, 1, 2, 4, (3 : ℕ), (2 : ℕ), false, 0, ["chain"]⟩)
    (sharingOps (demo ⟨1, 1 / 2, 1, 2, 4, (3 : ℕ), (2 : ℕ), false, 0, ["chain"]⟩)) 1 (constRng 1 0)
    (initArrays (demo ⟨1, 1 / 2, 1, 2, 4, (3 : ℕ), (2 : ℕ), false, 0, ["chain"]⟩)) () (.array1 0) 10 [[5], [0]] = .ok (some s, H') ∧
    H'[0]? = some [5] ∧ H'[1]? = some [0] := by
  have tot := demo_total ⟨1, 1 / 2, 1, 2, 4, (3 : ℕ), (2 : ℕ), false, 0, ["chain"]⟩ one_ne_zero
  obtain ⟨co, f, -, -, -, st, hst, -, -⟩ := C42_schedule _ (constRng 1 0) _ (initArrays_shaped _) (.inl le_rfl) (by decide) 3 2 rfl rfl tot _
    (fun x => gradlogpi_vec _ tot x) () () _ (fun _ => 5) (demo_start _ _ _ _ one_ne_zero) 10 rfl
  have h := C157_skrock (R := constRng 1 0) (data := 1) (H := [[5], [0]]) (sp := .array1 0) (sp' := .array1 [5])
    (sharingOps_respects (demo ⟨1, 1 / 2, 1, 2, 4, (3 : ℕ), (2 : ℕ), false, 0, ["chain"]⟩))
    (initArrays (demo ⟨1, 1 / 2, 1, 2, 4, (3 : ℕ), (2 : ℕ), false, 0, ["chain"]⟩)) () (by simp [Refers, demo, idOp]) rfl 10
  have hst' := hst 10 le_rfl
  have hl : (List.ofFn fun _ : Fin 1 => (5 : ℂ)) = [5] := by simp
  rw [hl] at hst'
  rw [hst'] at h
  obtain ⟨a, H', h1, h2, h3⟩ := h
  cases h3 with
  | some h3 => exact ⟨_, H', h1, Refers.mono (H := [[5], [0]]) rfl h2, Refers.mono (H := [[5], [0]]) rfl h2⟩

end Pxmcmc
