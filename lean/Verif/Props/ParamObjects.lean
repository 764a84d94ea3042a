import Verif.Model.ParamObjects

/-! # Property C98: parameter objects and their defaults -/

namespace Pxmcmc

/-- The documented defaults with the given arguments substituted. -/
noncomputable def documented (kw : Kw) : Params where
  lmda := kw.lmda.getD (3 / 100000)
  delta := kw.delta.getD (1 / 100000)
  mu := kw.mu.getD 1
  s := kw.s.getD 1
  nsamples := kw.nsamples.getD 1000000
  nburn := kw.nburn.getD 1000
  ngap := kw.ngap.getD 100
  complex := kw.complex.getD false
  verbosity := kw.verbosity.getD 100
  track := kw.track.getD ["logposterior", "L2", "prior", "chain"]

/-- No statement of the program appends to a list through an object that holds the default list at that moment. -/
def AppendsToOwn : World → List Stmt → Prop
  | _, [] => True
  | w, s :: prog => (∀ i name, s = .append i name → ∀ o, w.objs[i]? = some o → o.trackAddr ≠ 0) ∧ AppendsToOwn (w.exec s) prog

theorem value_fresh (w : World) (kw : Kw) (h0 : w.lists[0]? = some defaultTrack) :
    (w.exec (.params kw)).value w.objs.length = some (documented kw) := by
  have ht : (w.lists ++ kw.track.toList)[if kw.track.isSome then w.lists.length else 0]? =
      some (kw.track.getD defaultTrack) := by
    cases h : kw.track with
    | none => simpa using h0
    | some t => simp
  simp only [World.value, World.exec]
  rw [List.getElem?_append_right le_rfl]
  simp only [Nat.sub_self, List.getElem?_cons_zero, Option.bind_eq_bind, Option.bind_some]
  have e : (kw.update w.lists.length paramDefaults).trackAddr = if kw.track.isSome then w.lists.length else 0 := rfl
  rw [e, ht]
  rfl

theorem lists_keep (w : World) (s : Stmt) (t : List String) (h : w.lists[0]? = some t)
    (hs : ∀ i name, s = .append i name → ∀ o, w.objs[i]? = some o → o.trackAddr ≠ 0) : (w.exec s).lists[0]? = some t := by
  have happ : ∀ l : List (List String), (w.lists ++ l)[0]? = some t := by
    intro l
    have : 0 < w.lists.length := by
      by_contra hc
      have : w.lists = [] := List.length_eq_zero_iff.mp (by omega)
      simp [this] at h
    rw [List.getElem?_append_left this, h]
  cases s with
  | params kw => exact happ _
  | sampler i => exact h
  | assign i kw => exact happ _
  | append i name =>
    simp only [World.exec]
    split
    · exact h
    · rename_i o ho
      have := hs i name rfl o ho
      simp only
      rw [List.getElem?_modify]
      simp [this, h]

/-- C98 (partial): after any program that never appends to the default list in place, `PxMCMCParams(**kw)` still has the
documented defaults.  Missing: programs that do append, for which it is false (`C98_defaults_refuted`). -/
theorem C98_defaults_partial (prog : List Stmt) (hp : AppendsToOwn World.initial prog) (kw : Kw) :
    ((World.initial.run prog).exec (.params kw)).value (World.initial.run prog).objs.length = some (documented kw) := by
  apply value_fresh
  have key : ∀ (prog : List Stmt) (w : World), w.lists[0]? = some defaultTrack → AppendsToOwn w prog →
      (w.run prog).lists[0]? = some defaultTrack := by
    intro prog
    induction prog with
    | nil => intro w h _; exact h
    | cons s prog ih =>
      intro w h hp
      exact ih (w.exec s) (lists_keep w s _ h hp.1) hp.2
  exact key prog _ rfl hp

/-- A program that sets its own list, and appends to it, is of that kind. -/
example : AppendsToOwn World.initial
    [.params { track := some ["chain"], nsamples := some 10 }, .sampler 4, .append 5 "predictions", .assign 4 { ngap := some 0 }] := by
  refine ⟨?_, ?_, ?_, ?_, trivial⟩
  · rintro i name ⟨⟩
  · rintro i name ⟨⟩
  · intro i name h o ho
    injection h with h1 h2
    subst h1
    simp [World.exec, World.initial, Kw.update] at ho
    rw [← ho]
    simp
  · rintro i name ⟨⟩

/-- C98, refutation: the claim that `PxMCMCParams(**kw)` always has the documented defaults.  Appending to the `track` list
of one default parameter object changes the default of every later one. -/
theorem C98_defaults_refuted : ¬ ∀ (prog : List Stmt) (kw : Kw),
    ((World.initial.run prog).exec (.params kw)).value (World.initial.run prog).objs.length = some (documented kw) := by
  intro h
  have := h [.params {}, .append 4 "predictions"] {}
  have h2 : ((World.initial.run [.params {}, .append 4 "predictions"]).exec (.params {})).value
      (World.initial.run [.params {}, .append 4 "predictions"]).objs.length =
      some { documented {} with track := ["logposterior", "L2", "prior", "chain", "predictions"] } := by
    simp [World.run, World.exec, World.initial, Kw.update, World.value, paramDefaults, defaultTrack, documented]
  rw [h2] at this
  have h3 := congrArg Params.track (Option.some.inj this)
  simp [documented] at h3

/-- C98: a sampler takes its parameters when it is constructed: it then has the values of the parameter object, and later
assignments to attributes of that object (or any other) do not change it. -/
theorem C98_sampler_copies (w : World) (i : ℕ) (hi : i < w.objs.length) (later : List (ℕ × Kw))
    (hne : ∀ a ∈ later, a.1 ≠ w.objs.length) (hok : ∀ o ∈ w.objs, o.trackAddr < w.lists.length) :
    ((w.exec (.sampler i)).run (later.map fun a => .assign a.1 a.2)).value w.objs.length = w.value i := by
  have key : ∀ (later : List (ℕ × Kw)) (v : World) (k : ℕ) (o : PObj) (t : List String), (∀ a ∈ later, a.1 ≠ k) →
      v.objs[k]? = some o → v.lists[o.trackAddr]? = some t →
      (v.run (later.map fun a => Stmt.assign a.1 a.2)).objs[k]? = some o ∧
      (v.run (later.map fun a => Stmt.assign a.1 a.2)).lists[o.trackAddr]? = some t := by
    intro later
    induction later with
    | nil => intro v k o t _ h1 h2; exact ⟨h1, h2⟩
    | cons a later ih =>
      intro v k o t hne h1 h2
      refine ih (v.exec (.assign a.1 a.2)) k o t (fun b hb => hne b (List.mem_cons_of_mem _ hb)) ?_ ?_
      · simp only [World.exec]
        rw [List.getElem?_modify]
        simp [hne a List.mem_cons_self, h1]
      · simp only [World.exec]
        have : o.trackAddr < v.lists.length := by
          by_contra hc
          rw [List.getElem?_eq_none (by omega)] at h2
          cases h2
        rw [List.getElem?_append_left this, h2]
  obtain ⟨o, ho⟩ : ∃ o, w.objs[i]? = some o := ⟨_, List.getElem?_eq_getElem hi⟩
  obtain ⟨t, ht⟩ : ∃ t, w.lists[o.trackAddr]? = some t :=
    ⟨_, List.getElem?_eq_getElem (hok o (List.mem_of_getElem? ho))⟩
  have h1 : (w.exec (.sampler i)).objs[w.objs.length]? = some o := by
    simp [World.exec, ho]
  obtain ⟨h3, h4⟩ := key later (w.exec (.sampler i)) w.objs.length o t hne h1 ht
  simp only [World.value, h3, h4, ho, ht, Option.bind_eq_bind, Option.bind_some]

/-- C98, refutation: the claim that a sampler, once constructed, is independent of its parameter object.  Appending to the
object's `track` list changes the list the sampler holds (its tracking arrays were made for the old one). -/
theorem C98_sampler_refuted : ¬ ∀ (w : World) (i j : ℕ) (name : String), i < w.objs.length → j < w.objs.length →
    (∀ o ∈ w.objs, o.trackAddr < w.lists.length) →
    ((w.exec (.sampler i)).exec (.append j name)).value w.objs.length = w.value i := by
  intro h
  have := h World.initial 1 1 "predictions" (by simp [World.initial]) (by simp [World.initial])
    (by intro o ho; rw [List.eq_of_mem_replicate ho]; simp [World.initial, paramDefaults])
  simp [World.exec, World.initial, World.value, paramDefaults, defaultTrack] at this

/-- The state after import meets the hypotheses. -/
example : 1 < World.initial.objs.length ∧ ∀ o ∈ World.initial.objs, o.trackAddr < World.initial.lists.length := by
  constructor
  · simp [World.initial]
  · intro o ho
    rw [List.eq_of_mem_replicate ho]
    simp [World.initial, paramDefaults]

end Pxmcmc
