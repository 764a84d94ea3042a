import Verif.Model.Construct
import Verif.Props.MalaExamples

/-! # Property C124: the tracking arrays have the documented shapes, at all times -/

namespace Pxmcmc
variable {n : ℕ}

/-- The arrays a sampler with `ns` samples, `nd` data and `np` parameters should have: those named in `track`, one row per sample, the
predictions real and of width `nd`, the chain of width `np` and real unless the sampler is complex. -/
structure ProperShape (track : List String) (ns nd np : ℕ) (cplx : Bool) (A : Arrays) : Prop where
  logPi : if "logposterior" ∈ track then ∃ l, A.logPi = some l ∧ l.length = ns else A.logPi = none
  L2s : if "L2" ∈ track then ∃ l, A.L2s = some l ∧ l.length = ns else A.L2s = none
  priors : if "prior" ∈ track then ∃ l, A.priors = some l ∧ l.length = ns else A.priors = none
  preds : if "predictions" ∈ track then
      ∃ l, A.preds = some l ∧ l.length = ns ∧ ∀ row ∈ l, row.length = nd ∧ ∀ z ∈ row, z.im = 0
    else A.preds = none
  chain : if "chain" ∈ track then
      ∃ l, A.chain = some l ∧ l.length = ns ∧ ∀ row ∈ l, row.length = np ∧ (cplx = false → ∀ z ∈ row, z.im = 0)
    else A.chain = none

/-- A write that does not change the shapes. -/
def Event.Fits (nd np : ℕ) (cplx : Bool) : Event → Prop
  | .preds _ row => row.length = nd ∧ ∀ z ∈ row, z.im = 0
  | .chain _ row => row.length = np ∧ (cplx = false → ∀ z ∈ row, z.im = 0)
  | _ => True

theorem proper_init (M : Sampler n) : ProperShape M.par.track M.par.nsamples n M.nparams M.par.complex (initArrays M) := by
  have hz : ∀ k (z : ℂ), z ∈ List.replicate k (0 : ℂ) → z.im = 0 := fun k z hz => by rw [List.eq_of_mem_replicate hz]; rfl
  constructor
  · split
    · rename_i h
      exact ⟨_, if_pos h, List.length_replicate⟩
    · rename_i h
      exact if_neg h
  · split
    · rename_i h
      exact ⟨_, if_pos h, List.length_replicate⟩
    · rename_i h
      exact if_neg h
  · split
    · rename_i h
      exact ⟨_, if_pos h, List.length_replicate⟩
    · rename_i h
      exact if_neg h
  · split
    · rename_i h
      refine ⟨_, if_pos h, List.length_replicate, fun row hr => ?_⟩
      rw [List.eq_of_mem_replicate hr]
      exact ⟨List.length_replicate, hz _⟩
    · rename_i h
      exact if_neg h
  · split
    · rename_i h
      refine ⟨_, if_pos h, List.length_replicate, fun row hr => ?_⟩
      rw [List.eq_of_mem_replicate hr]
      exact ⟨List.length_replicate, fun _ => hz _⟩
    · rename_i h
      exact if_neg h

theorem proper_apply {track : List String} {ns nd np : ℕ} {cplx : Bool} {A : Arrays} (h : ProperShape track ns nd np cplx A) (e : Event)
    (he : e.Fits nd np cplx) : ProperShape track ns nd np cplx (A.apply e) := by
  obtain ⟨h1, h2, h3, h4, h5⟩ := h
  have hs : ∀ (t : String) (o : Option (List ℝ)) (j : ℕ) (v : ℝ), (if t ∈ track then ∃ l, o = some l ∧ l.length = ns else o = none) →
      if t ∈ track then ∃ l, (o.map fun l => l.set j v) = some l ∧ l.length = ns else (o.map fun l => l.set j v) = none := by
    intro t o j v h
    split_ifs at h ⊢ with ht
    · obtain ⟨l, rfl, hl⟩ := h
      exact ⟨_, rfl, by simpa using hl⟩
    · rw [h]; rfl
  have hr : ∀ (t : String) (o : Option (List (List ℂ))) (j : ℕ) (v : List ℂ) (Q : List ℂ → Prop), Q v →
      (if t ∈ track then ∃ l, o = some l ∧ l.length = ns ∧ ∀ row ∈ l, Q row else o = none) →
      if t ∈ track then ∃ l, (o.map fun l => l.set j v) = some l ∧ l.length = ns ∧ ∀ row ∈ l, Q row
      else (o.map fun l => l.set j v) = none := by
    intro t o j v Q hv h
    split_ifs at h ⊢ with ht
    · obtain ⟨l, rfl, hl, hQ⟩ := h
      refine ⟨_, rfl, by simpa using hl, fun row hrow => ?_⟩
      rcases List.mem_or_eq_of_mem_set hrow with hrow | rfl
      · exact hQ row hrow
      · exact hv
    · rw [h]; rfl
  cases e with
  | logPi j v => exact ⟨hs _ _ _ _ h1, h2, h3, h4, h5⟩
  | L2 j v => exact ⟨h1, hs _ _ _ _ h2, h3, h4, h5⟩
  | prior j v => exact ⟨h1, h2, hs _ _ _ _ h3, h4, h5⟩
  | preds j r => exact ⟨h1, h2, h3, hr _ _ _ _ (fun row => row.length = nd ∧ ∀ z ∈ row, z.im = 0) he h4, h5⟩
  | chain j r => exact ⟨h1, h2, h3, h4, hr _ _ _ _ (fun row => row.length = np ∧ (cplx = false → ∀ z ∈ row, z.im = 0)) he h5⟩
  | progress _ _ _ _ _ _ => exact ⟨h1, h2, h3, h4, h5⟩
  | burning => exact ⟨h1, h2, h3, h4, h5⟩
  | done => exact ⟨h1, h2, h3, h4, h5⟩

theorem proper_applyAll {track : List String} {ns nd np : ℕ} {cplx : Bool} (ev : List Event) :
    ∀ {A : Arrays}, ProperShape track ns nd np cplx A → (∀ e ∈ ev, e.Fits nd np cplx) →
      ProperShape track ns nd np cplx (A.applyAll ev) := by
  induction ev with
  | nil => intro A h _; exact h
  | cons e ev ih =>
    intro A h he
    exact ih (proper_apply h e (he e List.mem_cons_self)) fun e' h' => he e' (List.mem_cons_of_mem _ h')

theorem rowAssign_length {w : ℕ} {v r : List ℂ} (h : rowAssign w v = .ok r) : r.length = w := by
  unfold rowAssign at h
  split at h
  · rename_i hv
    rw [← Except.ok.inj h, hv]
  · split at h
    · rw [← Except.ok.inj h]; simp
    · exact nomatch h

theorem writeScalar_mem {o : Option (List ℝ)} {j : ℕ} {e : Event} {evs : List Event} (h : writeScalar o j e = .ok evs) :
    ∀ e' ∈ evs, e' = e := by
  unfold writeScalar at h
  split at h
  · rw [← Except.ok.inj h]; simp
  · split at h
    · rw [← Except.ok.inj h]; simp
    · exact nomatch h

theorem writeRow_mem {o : Option (List (List ℂ))} {w : ℕ} {cplx : Bool} {j : ℕ} {v : List ℂ} {e : List ℂ → Event} {evs : List Event}
    (h : writeRow o w cplx j v e = .ok evs) :
    ∀ e' ∈ evs, ∃ row : List ℂ, e' = e row ∧ row.length = w ∧ (cplx = false → ∀ z ∈ row, z.im = 0) := by
  unfold writeRow at h
  split at h
  · rw [← Except.ok.inj h]; simp
  · split at h
    · obtain ⟨r, hr, h⟩ := bind_ok h
      intro e' he'
      rw [← Except.ok.inj h, List.mem_singleton] at he'
      refine ⟨_, he', by rw [List.length_map, rowAssign_length hr], fun hc z hz => ?_⟩
      obtain ⟨y, -, rfl⟩ := List.mem_map.mp hz
      simp [store, hc]
    · exact nomatch h

theorem tracking_fits (M : Sampler n) (A : Arrays) (j : ℕ) (X preds : List ℂ) (lp L2 : ℂ) (pr : ℝ) (evs : List Event)
    (h : tracking M A j X preds lp L2 pr = .ok evs) : ∀ e ∈ evs, e.Fits n M.nparams M.par.complex := by
  unfold tracking at h
  obtain ⟨a, ha, h⟩ := bind_ok h
  obtain ⟨b, hb, h⟩ := bind_ok h
  obtain ⟨c, hc, h⟩ := bind_ok h
  obtain ⟨d, hd, h⟩ := bind_ok h
  obtain ⟨e, he, h⟩ := bind_ok h
  intro x hx
  rw [← Except.ok.inj h] at hx
  simp only [List.mem_append] at hx
  rcases hx with (((hx | hx) | hx) | hx) | hx
  · rw [writeScalar_mem ha x hx]; trivial
  · rw [writeScalar_mem hb x hx]; trivial
  · rw [writeScalar_mem hc x hx]; trivial
  · obtain ⟨row, rfl, h1, h2⟩ := writeRow_mem hd x hx
    exact ⟨h1, h2 rfl⟩
  · obtain ⟨row, rfl, h1, h2⟩ := writeRow_mem he x hx
    exact ⟨h1, h2⟩

theorem recordRow_fits (M : Sampler n) {R : Rng} (A0 : Arrays) (st st' : St R) (h : recordRow M A0 st = .ok st')
    (hst : ∀ e ∈ st.ev, e.Fits n M.nparams M.par.complex) : ∀ e ∈ st'.ev, e.Fits n M.nparams M.par.complex := by
  unfold recordRow at h
  obtain ⟨l, -, h⟩ := bind_ok h
  obtain ⟨evs, he, h⟩ := bind_ok h
  obtain rfl := Except.ok.inj h
  intro e hx
  rcases List.mem_append.mp hx with hx | hx
  · exact hst e hx
  · exact tracking_fits M _ _ _ _ _ _ _ _ he e hx

theorem progress_fits (M : Sampler n) {R : Rng} (A0 : Arrays) (st : St R) (evs : List Event)
    (h : (if verbose M.par st.i then progressArrays M A0 st else .ok [] : Py (List Event)) = .ok evs) :
    ∀ e ∈ evs, e.Fits n M.nparams M.par.complex := by
  split_ifs at h
  · obtain ⟨a, b, c, rfl⟩ := progressArrays_counter M A0 st evs h
    simp [Event.Fits]
  · rw [← Except.ok.inj h]; simp

theorem myulaBody_fits (M : Sampler n) (R : Rng) (A0 : Arrays) (st st' : St R) (h : myulaBody M R A0 st = .ok st')
    (hst : ∀ e ∈ st.ev, e.Fits n M.nparams M.par.complex) : ∀ e ∈ st'.ev, e.Fits n M.nparams M.par.complex := by
  unfold myulaBody at h
  obtain ⟨c, -, h⟩ := bind_ok h
  unfold myulaBook at h
  split at h
  · obtain ⟨st1, h1, h⟩ := bind_ok h
    obtain ⟨evs, he, h⟩ := bind_ok h
    obtain rfl := Except.ok.inj h
    have hf : ∀ e ∈ st1.ev, e.Fits n M.nparams M.par.complex := by
      split at h1
      · exact recordRow_fits M A0 _ _ h1 hst
      · obtain rfl := Except.ok.inj h1
        exact hst
    intro e hx
    rcases List.mem_append.mp hx with hx | hx
    · exact hf e hx
    · exact progress_fits M A0 _ _ he e hx
  · obtain rfl := Except.ok.inj h
    intro e hx
    rcases List.mem_append.mp hx with hx | hx
    · exact hst e hx
    · split_ifs at hx
      · rw [List.mem_singleton.mp hx]; trivial
      · exact nomatch hx

theorem skrockBody_fits (M : Sampler n) (R : Rng) (co : SkrockCoefs) (A0 : Arrays) (st st' : St R)
    (h : skrockBody M R co A0 st = .ok st') (hst : ∀ e ∈ st.ev, e.Fits n M.nparams M.par.complex) :
    ∀ e ∈ st'.ev, e.Fits n M.nparams M.par.complex := by
  unfold skrockBody at h
  obtain ⟨c, -, h⟩ := bind_ok h
  unfold skrockBook at h
  obtain ⟨st1, h1, h⟩ := bind_ok h
  obtain ⟨evs, he, h⟩ := bind_ok h
  obtain rfl := Except.ok.inj h
  have hf : ∀ e ∈ st1.ev, e.Fits n M.nparams M.par.complex := by
    split at h1
    · split at h1
      · exact recordRow_fits M A0 _ _ h1 hst
      · obtain rfl := Except.ok.inj h1
        exact hst
    · obtain rfl := Except.ok.inj h1
      exact hst
  intro e hx
  rcases List.mem_append.mp hx with hx | hx
  · exact hf e hx
  · exact progress_fits M A0 _ _ he e hx

theorem malaBody_fits (M : Sampler n) (R : Rng) (tune : Bool) (A0 : Arrays) (st st' : MalaSt R)
    (h : malaBody M R tune A0 st = .ok st') (hst : ∀ e ∈ st.ev, e.Fits n M.nparams M.par.complex) :
    ∀ e ∈ st'.ev, e.Fits n M.nparams M.par.complex := by
  unfold malaBody at h
  obtain ⟨pr, -, h⟩ := bind_ok h
  obtain ⟨a, -, h⟩ := bind_ok h
  obtain ⟨st2, h2, h⟩ := bind_ok h
  obtain ⟨st3, h3, h⟩ := bind_ok h
  obtain rfl := Except.ok.inj h
  have hf2 : st2.ev = st.ev := by
    unfold malaTune at h2
    split at h2
    · obtain ⟨d, -, h2⟩ := bind_ok h2
      rw [← Except.ok.inj h2]
    · rw [← Except.ok.inj h2]
  have hf3 : ∀ e ∈ st3.ev, e.Fits n M.nparams M.par.complex := by
    rw [← hf2] at hst
    unfold malaSave at h3
    split at h3
    · split at h3
      · obtain ⟨evs, he, h3⟩ := bind_ok h3
        obtain rfl := Except.ok.inj h3
        intro e hx
        rcases List.mem_append.mp hx with hx | hx
        · exact hst e hx
        · exact tracking_fits M _ _ _ _ _ _ _ _ he e hx
      · obtain rfl := Except.ok.inj h3
        exact hst
    · obtain rfl := Except.ok.inj h3
      exact hst
  intro e hx
  unfold malaFinish at hx
  rcases List.mem_append.mp hx with hx | hx
  · exact hf3 e hx
  · split_ifs at hx
    · rw [List.mem_singleton.mp hx]; trivial
    · exact nomatch hx

/-- C124, the constructor: a forward operator with `nparams` gives a sampler that works with that number of parameters and has, all zero,
exactly the arrays named in `track`, with one row per sample and rows of `nparams` resp. `ndata` entries. -/
theorem C124_constructor (F : ForwardOp n) (P : PriorObj) (par : Params) (k : ℕ) (hk : F.nparams = some k) :
    ∃ M A, samplerInit F P par = .ok (M, A) ∧ M.F = F ∧ M.P = P ∧ M.par = par ∧ M.nparams = k ∧
      ProperShape par.track par.nsamples n k par.complex A ∧
      (∀ l, A.chain = some l → ∀ row ∈ l, ∀ z ∈ row, z = 0) ∧ (∀ l, A.preds = some l → ∀ row ∈ l, ∀ z ∈ row, z = 0) ∧
      (∀ l, A.logPi = some l ∨ A.L2s = some l ∨ A.priors = some l → ∀ v ∈ l, v = 0) := by
  refine ⟨⟨F, P, par, k⟩, initArrays ⟨F, P, par, k⟩, by simp [samplerInit, hk], rfl, rfl, rfl, rfl,
    proper_init ⟨F, P, par, k⟩, ?_, ?_, ?_⟩
  · intro l hl row hr z hz
    simp only [initArrays, Option.ite_none_right_eq_some, Option.some.injEq] at hl
    obtain ⟨-, rfl⟩ := hl
    rw [List.eq_of_mem_replicate hr] at hz
    exact List.eq_of_mem_replicate hz
  · intro l hl row hr z hz
    simp only [initArrays, Option.ite_none_right_eq_some, Option.some.injEq] at hl
    obtain ⟨-, rfl⟩ := hl
    rw [List.eq_of_mem_replicate hr] at hz
    exact List.eq_of_mem_replicate hz
  · intro l hl v hv
    simp only [initArrays, Option.ite_none_right_eq_some, Option.some.injEq] at hl
    rcases hl with ⟨-, rfl⟩ | ⟨-, rfl⟩ | ⟨-, rfl⟩ <;> exact List.eq_of_mem_replicate hv

/-- C124 for MYULA and SKROCK: whatever the operators do, at every moment of a run (after any number of iterations and between any two
writes) the arrays have their shapes, the predictions are real, and so is the chain of a sampler that is not complex. -/
theorem C124_myula_skrock (M : Sampler n) (R : Rng) (A0 : Arrays)
    (hA : ProperShape M.par.track M.par.nsamples n M.nparams M.par.complex A0) (c0 : Cur R) (m : ℕ) (st : St R)
    (h : Reach (loopCond M) (myulaBody M R A0) ⟨0, 0, c0, []⟩ m st ∨
      ∃ co, Reach (loopCond M) (skrockBody M R co A0) ⟨0, 0, c0, []⟩ m st) (ev : List Event) (hev : ev <+: st.ev) :
    ProperShape M.par.track M.par.nsamples n M.nparams M.par.complex (A0.applyAll ev) := by
  refine proper_applyAll ev hA fun e he => ?_
  have hall : ∀ e ∈ st.ev, e.Fits n M.nparams M.par.complex := by
    rcases h with h | ⟨co, h⟩
    · exact h.invariant (fun _ s => ∀ e ∈ s.ev, e.Fits n M.nparams M.par.complex) (by simp)
        fun _ s s' hi _ hb => myulaBody_fits M R A0 s s' hb hi
    · exact h.invariant (fun _ s => ∀ e ∈ s.ev, e.Fits n M.nparams M.par.complex) (by simp)
        fun _ s s' hi _ hb => skrockBody_fits M R co A0 s s' hb hi
  exact hall e (hev.subset he)

/-- C124 for PxMALA. -/
theorem C124_mala (M : Sampler n) (R : Rng) (tune : Bool) (A0 : Arrays)
    (hA : ProperShape M.par.track M.par.nsamples n M.nparams M.par.complex A0) (delta : ℝ) (r : R.σ) (sp : StartPoint) (s0 : MalaSt R)
    (h0 : malaInit M R delta r sp = .ok s0) (m : ℕ) (st : MalaSt R) (h : Reach (malaCond M) (malaBody M R tune A0) s0 m st)
    (ev : List Event) (hev : ev <+: st.ev) :
    ProperShape M.par.track M.par.nsamples n M.nparams M.par.complex (A0.applyAll ev) := by
  refine proper_applyAll ev hA fun e he => ?_
  have hs0 : s0.ev = [] := by
    unfold malaInit at h0
    obtain ⟨x, -, h0⟩ := bind_ok h0
    obtain ⟨g, -, h0⟩ := bind_ok h0
    obtain ⟨p, -, h0⟩ := bind_ok h0
    obtain ⟨l, -, h0⟩ := bind_ok h0
    rw [← Except.ok.inj h0]
  have hall : ∀ e ∈ st.ev, e.Fits n M.nparams M.par.complex :=
    h.invariant (fun _ s => ∀ e ∈ s.ev, e.Fits n M.nparams M.par.complex) (by simp [hs0])
      fun _ s s' hi _ hb => malaBody_fits M R tune A0 s s' hb hi
  exact hall e (hev.subset he)

/-- The hypotheses of C124_mala are met by the two-sample demo run. -/
example : ∃ s0 s m, malaInit (demo (demoPar 2 (0 : ℕ))) (seqRng rejectOnce) (1 / 2) (0 : ℕ) demoSp = .ok s0 ∧
    Reach (malaCond (demo (demoPar 2 (0 : ℕ)))) (malaBody (demo (demoPar 2 (0 : ℕ))) (seqRng rejectOnce) false (demoArr 2 0)) s0 m s ∧
    ∃ l, ((demoArr 2 0).applyAll s.ev).chain = some l ∧ l.length = 2 ∧ ∀ row ∈ l, row.length = 1 := by
  obtain ⟨st, h⟩ := demoRun2
  obtain ⟨s0, s, m, h0, hr, -, -, -⟩ := malaRun_ok _ _ _ _ _ _ _ _ _ h
  have hp := (C124_mala _ _ _ _ (proper_init _) _ _ _ s0 h0 m s hr s.ev (List.prefix_refl _)).chain
  rw [if_pos (by simp [demo, demoPar])] at hp
  obtain ⟨l, h1, h2, h3⟩ := hp
  exact ⟨s0, s, m, h0, hr, l, h1, h2, fun row hrow => (h3 row hrow).1⟩

/-- The hypotheses of C124_constructor are met by an operator with one datum and one parameter. -/
example : (demo ⟨1, 1 / 2, 1, 1, 5, 3, 2, true, 0, ["chain"]⟩).F.nparams = some 1 := rfl

end Pxmcmc
