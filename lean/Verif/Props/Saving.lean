import Verif.Model.Saving
import Verif.Props.MyulaRows

/-! # Properties C65 and C66: saving (`pxmcmc/saving.py`) -/

namespace Pxmcmc
variable {V : Type}

/-! ## Helper lemmas -/

theorem runOps_append (st : V → Bool) (a b : List (FileOp V)) (f : H5File V) (g : H5File V)
    (h : runOps st a f = (g, none)) : runOps st (a ++ b) f = runOps st b g := by
  induction a generalizing f with
  | nil =>
    simp only [runOps, Prod.mk.injEq, and_true] at h
    rw [h]
    rfl
  | cons o os ih =>
    rw [List.cons_append]
    have e1 : ∀ l : List (FileOp V), runOps st (o :: l) f = match o.run st f with
      | .ok f' => runOps st l f'
      | .error e => (f, some e) := fun l => rfl
    rw [e1] at h ⊢
    cases ho : o.run st f with
    | error e => rw [ho] at h; simp at h
    | ok f' =>
      rw [ho] at h
      exact ih f' h

/-- Writing an optional dataset under a free name. -/
theorem runOps_opt (st : V → Bool) (name : String) (o : Option DVal) (f : H5File V) (h : f.ds name = none) :
    runOps st (optOp name o) f = (⟨fun s => if s = name then o else f.ds s, f.attrs⟩, none) := by
  cases o with
  | none =>
    simp only [optOp, runOps]
    congr 1
    cases f with
    | mk ds attrs =>
      congr 1
      funext s
      by_cases hs : s = name
      · rw [if_pos hs, hs]; exact h
      · rw [if_neg hs]
  | some v => simp [optOp, runOps, FileOp.run, h]

/-- Writing attributes. -/
theorem runOps_attrs (st : V → Bool) (l : List (String × V)) (hl : ∀ p ∈ l, st p.2 = true) (f : H5File V) :
    runOps st (l.map fun p => .attr p.1 p.2) f =
      (⟨f.ds, fun s => ((l.reverse.find? fun p => p.1 = s).map Prod.snd).or (f.attrs s)⟩, none) := by
  induction l generalizing f with
  | nil => simp [runOps]
  | cons p l ih =>
    rw [List.map_cons]
    unfold runOps
    simp only [FileOp.run, hl p (by simp), if_true]
    rw [ih (fun q hq => hl q (by simp [hq]))]
    congr 1
    congr 1
    funext s
    rw [List.reverse_cons, List.find?_append]
    cases hf : l.reverse.find? fun p => p.1 = s with
    | some q => simp
    | none =>
      by_cases hp : p.1 = s
      · simp [hp]
      · have : ¬ s = p.1 := fun e => hp e.symm
        simp [hp, this]

/-- The last value given for a name. -/
def lastValue (l : List (String × V)) (s : String) : Option V := (l.reverse.find? fun p => p.1 = s).map Prod.snd

theorem lastValue_none (l : List (String × V)) (s : String) : lastValue l s = none ↔ s ∉ l.map Prod.fst := by
  unfold lastValue
  rw [Option.map_eq_none_iff, List.find?_eq_none]
  simp only [List.mem_reverse, decide_eq_true_eq, List.mem_map, not_exists, not_and]

theorem lastValue_some (l : List (String × V)) (hn : (l.map Prod.fst).Nodup) (s : String) (v : V) (h : (s, v) ∈ l) :
    lastValue l s = some v := by
  unfold lastValue
  cases hf : l.reverse.find? fun p => p.1 = s with
  | none =>
    exfalso
    have := List.find?_eq_none.mp hf (s, v) (List.mem_reverse.mpr h)
    simp at this
  | some q =>
    have h1 := List.find?_some hf
    have h2 := List.mem_reverse.mp (List.mem_of_find?_eq_some hf)
    simp only [decide_eq_true_eq] at h1
    have := List.inj_on_of_nodup_map hn h2 h (by rw [h1])
    rw [this]
    rfl

/-- The datasets a saved file should have. -/
def McmcObj.expected (m : McmcObj) (s : String) : Option DVal :=
  if s = "logposterior" then m.arrays.logPi.map .vec
  else if s = "predictions" then m.arrays.preds.map .mat
  else if s = "chain" then m.arrays.chain.map .mat
  else if s = "L2s" then m.arrays.L2s.map .vec
  else if s = "priors" then m.arrays.priors.map .vec
  else if s = "acceptances" then m.acceptanceTrace.map .i1
  else if s = "deltas" then m.deltasTrace.map .vec
  else none

/-- The dataset part of the writes. -/
def dataOps (m : McmcObj) : List (FileOp V) :=
  optOp "logposterior" (m.arrays.logPi.map .vec) ++ optOp "predictions" (m.arrays.preds.map .mat) ++
  optOp "chain" (m.arrays.chain.map .mat) ++ optOp "L2s" (m.arrays.L2s.map .vec) ++
  optOp "priors" (m.arrays.priors.map .vec) ++ optOp "acceptances" (m.acceptanceTrace.map .i1) ++
  optOp "deltas" (m.deltasTrace.map .vec)

theorem runOps_dataOps (st : V → Bool) (m : McmcObj) :
    runOps st (dataOps m) H5File.empty = (⟨m.expected, fun _ => none⟩, none) := by
  have key : ∀ (o1 o2 o3 o4 o5 o6 o7 : Option DVal), runOps st (optOp "logposterior" o1 ++ optOp "predictions" o2 ++
      optOp "chain" o3 ++ optOp "L2s" o4 ++ optOp "priors" o5 ++ optOp "acceptances" o6 ++ optOp "deltas" o7)
      (H5File.empty : H5File V) = (⟨fun s => if s = "deltas" then o7 else if s = "acceptances" then o6 else
        if s = "priors" then o5 else if s = "L2s" then o4 else if s = "chain" then o3 else if s = "predictions" then o2 else
        if s = "logposterior" then o1 else none, fun _ => none⟩, none) := by
    intro o1 o2 o3 o4 o5 o6 o7
    simp only [List.append_assoc]
    rw [runOps_append st _ _ _ _ (runOps_opt st _ o1 _ rfl), runOps_append st _ _ _ _ (runOps_opt st _ o2 _ (by simp; rfl)),
      runOps_append st _ _ _ _ (runOps_opt st _ o3 _ (by simp; rfl)), runOps_append st _ _ _ _ (runOps_opt st _ o4 _ (by simp; rfl)),
      runOps_append st _ _ _ _ (runOps_opt st _ o5 _ (by simp; rfl)), runOps_append st _ _ _ _ (runOps_opt st _ o6 _ (by simp; rfl)),
      runOps_opt st _ o7 _ (by simp; rfl)]
    rfl
  unfold dataOps
  rw [key]
  congr 2
  funext s
  unfold McmcObj.expected
  by_cases h1 : s = "logposterior"
  · simp [h1]
  by_cases h2 : s = "predictions"
  · simp [h2]
  by_cases h3 : s = "chain"
  · simp [h3]
  by_cases h4 : s = "L2s"
  · simp [h4]
  by_cases h5 : s = "priors"
  · simp [h5]
  by_cases h6 : s = "acceptances"
  · simp [h6]
  · simp [h1, h2, h3, h4, h5, h6]

/-! ## C65 -/

/-- C65: if the file can be opened and all values can be stored, `save_mcmc` succeeds; the file then has exactly the datasets
of the sampler's arrays and traces, every keyword (the last value wins over parameters) and every other parameter as
attribute, and nothing else, whatever the disk was before; no other file changes. -/
theorem C65_saved (st : V → Bool) (openable : String → Bool) (D : Disk V) (m : McmcObj) (params kwargs : List (String × V))
    (hp : (params.map Prod.fst).Nodup) (hk : (kwargs.map Prod.fst).Nodup) (outpath filename : String)
    (ho : openable (savePath outpath filename) = true) (hs : ∀ p ∈ params ++ kwargs, st p.2 = true) :
    ∃ D' f, saveMcmc st openable D m params outpath filename kwargs = (D', none) ∧
      D' (savePath outpath filename) = some f ∧ (∀ s, s ≠ savePath outpath filename → D' s = D s) ∧
      f.ds "logposterior" = m.arrays.logPi.map .vec ∧ f.ds "predictions" = m.arrays.preds.map .mat ∧
      f.ds "chain" = m.arrays.chain.map .mat ∧ f.ds "L2s" = m.arrays.L2s.map .vec ∧
      f.ds "priors" = m.arrays.priors.map .vec ∧ f.ds "acceptances" = m.acceptanceTrace.map .i1 ∧
      f.ds "deltas" = m.deltasTrace.map .vec ∧
      (∀ s, s ∉ ["logposterior", "predictions", "chain", "L2s", "priors", "acceptances", "deltas"] → f.ds s = none) ∧
      (∀ k v, (k, v) ∈ kwargs → f.attrs k = some v) ∧
      (∀ k v, (k, v) ∈ params → k ∉ kwargs.map Prod.fst → f.attrs k = some v) ∧
      (∀ k, k ∉ kwargs.map Prod.fst → k ∉ params.map Prod.fst → f.attrs k = none) := by
  have hrun : runOps st (saveOps m params kwargs) H5File.empty =
      (⟨m.expected, fun s => (lastValue kwargs s).or ((lastValue params s).or none)⟩, none) := by
    have e : saveOps m params kwargs = dataOps m ++ (params.map (fun p => FileOp.attr p.1 p.2) ++
        kwargs.map (fun p => FileOp.attr p.1 p.2)) := by
      unfold saveOps dataOps
      simp only [List.append_assoc]
    rw [e, runOps_append st _ _ _ _ (runOps_dataOps st m),
      runOps_append st _ _ _ _ (runOps_attrs st params (fun p h => hs p (List.mem_append_left _ h)) _),
      runOps_attrs st kwargs (fun p h => hs p (List.mem_append_right _ h)) _]
    rfl
  refine ⟨fun s => if s = savePath outpath filename then some (runOps st (saveOps m params kwargs) H5File.empty).1 else D s,
    ⟨m.expected, fun s => (lastValue kwargs s).or ((lastValue params s).or none)⟩, ?_, ?_, ?_, ?_⟩
  · unfold saveMcmc
    simp only [if_pos ho]
    rw [hrun]
  · simp only [if_true, hrun]
  · intro s hs
    simp only [if_neg hs]
  · refine ⟨by simp [McmcObj.expected], by simp [McmcObj.expected], by simp [McmcObj.expected], by simp [McmcObj.expected],
      by simp [McmcObj.expected], by simp [McmcObj.expected], by simp [McmcObj.expected], ?_, ?_, ?_, ?_⟩
    · intro s hs
      simp only [List.mem_cons, List.not_mem_nil, or_false, not_or] at hs
      simp [McmcObj.expected, hs]
    · intro k v h
      simp only
      rw [lastValue_some kwargs hk k v h]
      rfl
    · intro k v h hn
      simp only
      rw [(lastValue_none kwargs k).mpr hn, lastValue_some params hp k v h]
      rfl
    · intro k hn hn'
      simp only
      rw [(lastValue_none kwargs k).mpr hn, (lastValue_none params k).mpr hn']
      rfl

/-- C65: the arrays a sampler has after any sequence of writes of a run are those of its track list, so the file has a dataset
for exactly the tracked quantities. -/
theorem C65_tracked {n : ℕ} (M : Sampler n) (ev : List Event) :
    let A := (initArrays M).applyAll ev
    (A.logPi.isSome ↔ "logposterior" ∈ M.par.track) ∧ (A.preds.isSome ↔ "predictions" ∈ M.par.track) ∧
    (A.chain.isSome ↔ "chain" ∈ M.par.track) ∧ (A.L2s.isSome ↔ "L2" ∈ M.par.track) ∧
    (A.priors.isSome ↔ "prior" ∈ M.par.track) := by
  have inv : ∀ (ev : List Event) (A : Arrays), ((A.applyAll ev).logPi.isSome = A.logPi.isSome) ∧
      ((A.applyAll ev).preds.isSome = A.preds.isSome) ∧ ((A.applyAll ev).chain.isSome = A.chain.isSome) ∧
      ((A.applyAll ev).L2s.isSome = A.L2s.isSome) ∧ ((A.applyAll ev).priors.isSome = A.priors.isSome) := by
    intro ev
    induction ev with
    | nil => intro A; exact ⟨rfl, rfl, rfl, rfl, rfl⟩
    | cons e ev ih =>
      intro A
      obtain ⟨h1, h2, h3, h4, h5⟩ := ih (A.apply e)
      have hc : A.applyAll (e :: ev) = (A.apply e).applyAll ev := rfl
      rw [hc, h1, h2, h3, h4, h5]
      cases e <;> simp [Arrays.apply]
  obtain ⟨h1, h2, h3, h4, h5⟩ := inv ev (initArrays M)
  simp only
  rw [h1, h2, h3, h4, h5]
  refine ⟨?_, ?_, ?_, ?_, ?_⟩ <;> (simp only [initArrays]; split <;> simp_all)

/-- C65: a value that h5py cannot store, or a path that cannot be opened, makes the call raise. -/
theorem C65_raises (st : V → Bool) (openable : String → Bool) (D : Disk V) (m : McmcObj) (params kwargs : List (String × V))
    (outpath filename : String)
    (h : openable (savePath outpath filename) = false ∨ ∃ p ∈ params ++ kwargs, st p.2 = false) :
    ∃ e, (saveMcmc st openable D m params outpath filename kwargs).2 = some e := by
  unfold saveMcmc
  simp only
  by_cases ho : openable (savePath outpath filename) = true
  swap
  · rw [if_neg ho]
    exact ⟨_, rfl⟩
  rw [if_pos ho]
  rcases h with h | ⟨p, hp, hpst⟩
  · rw [ho] at h; cases h
  have e : saveOps m params kwargs = dataOps m ++ ((params ++ kwargs).map fun p => FileOp.attr p.1 p.2) := by
    unfold saveOps dataOps
    simp only [List.append_assoc, List.map_append]
  rw [e, runOps_append st _ _ _ _ (runOps_dataOps st m)]
  generalize (⟨m.expected, fun _ => none⟩ : H5File V) = f
  clear e
  generalize params ++ kwargs = l at hp
  induction l generalizing f with
  | nil => simp at hp
  | cons q l ih =>
    rw [List.map_cons]
    unfold runOps
    simp only [FileOp.run]
    by_cases hq : st q.2 = true
    · rw [if_pos hq]
      rcases List.mem_cons.mp hp with rfl | hp
      · rw [hpst] at hq; cases hq
      · exact ih _ hp
    · rw [if_neg hq]
      exact ⟨_, rfl⟩

/-- C65 is not vacuous: a finished run that tracked the chain and the prior, saved over an older file. -/
example : ∃ (st : ℕ → Bool) (openable : String → Bool) (m : McmcObj) (params kwargs : List (String × ℕ)),
    m.arrays.chain = some [[1, 2]] ∧ m.arrays.logPi = none ∧ (params.map Prod.fst).Nodup ∧ (kwargs.map Prod.fst).Nodup ∧
    "delta" ∈ params.map Prod.fst ∧ "delta" ∈ kwargs.map Prod.fst ∧ openable (savePath "out" "run") = true ∧
    ∀ p ∈ params ++ kwargs, st p.2 = true :=
  ⟨fun _ => true, fun _ => true, ⟨⟨none, none, some [7], none, some [[1, 2]]⟩, none, none⟩, [("lmda", 1), ("delta", 2)],
    [("delta", 3), ("L", 4)], rfl, rfl, by decide, by decide, by decide, by decide, rfl, fun _ _ => rfl⟩

/-- C65: the file is `outpath/filename.hdf5` (without a second slash if `outpath` ends in one; an empty `outpath` is the current
directory). -/
theorem C65_path (outpath filename : String) (hf : ¬ "/".toList <+: (filename ++ ".hdf5").toList) :
    (outpath ≠ "" → ¬ "/".toList <:+ outpath.toList → savePath outpath filename = outpath ++ "/" ++ filename ++ ".hdf5") ∧
    ("/".toList <:+ outpath.toList → savePath outpath filename = outpath ++ filename ++ ".hdf5") ∧
    (outpath = "" → savePath outpath filename = filename ++ ".hdf5") := by
  have h1 : (filename ++ ".hdf5").startsWith "/" = false := String.startsWith_string_eq_false_iff.mpr hf
  unfold savePath pathJoin
  simp only [h1, Bool.false_eq_true, if_false]
  refine ⟨fun h2 h3 => ?_, fun h3 => ?_, fun h2 => ?_⟩
  · have h4 : outpath.endsWith "/" = false := by rw [String.endsWith_eq_endsWith_toSlice, String.Slice.endsWith_string_eq_false_iff]; simpa using h3
    have h5 : outpath.isEmpty = false := by simpa using h2
    simp only [h4, h5, Bool.or_self, Bool.false_eq_true, if_false, String.append_assoc]
  · have h4 : outpath.endsWith "/" = true := by rw [String.endsWith_eq_endsWith_toSlice, String.Slice.endsWith_string_iff]; simpa using h3
    simp only [h4, Bool.or_true, if_true]
    rw [String.append_assoc]
  · subst h2
    simp

example : ¬ "/".toList <+: ("run" ++ ".hdf5").toList ∧ ("out" : String) ≠ "" ∧ ¬ "/".toList <:+ "out".toList := by decide

/-! ## C66 -/

/-- C66 refuted by an interruption: for *every* sampler, parameters and older file with some content, dying right after the
file was opened loses the older content. -/
theorem C66_interrupted_refuted (st : V → Bool) (D : Disk V) (m : McmcObj) (params kwargs : List (String × V))
    (outpath filename : String) (old : H5File V) (hold : D (savePath outpath filename) = some old) (name : String) (v : DVal)
    (hv : old.ds name = some v) :
    saveInterrupted st D m params outpath filename kwargs 0 (savePath outpath filename) ≠ D (savePath outpath filename) := by
  unfold saveInterrupted
  simp only [if_true, List.take_zero, runOps]
  rw [hold]
  intro h
  have := congrArg (fun o => o.bind fun f : H5File V => f.ds name) h
  simp only [Option.bind, H5File.empty, hv] at this
  cases this

/-- C66 refuted by an exception: a keyword value that h5py cannot store raises, and the older chain is gone. -/
theorem C66_failed_save_refuted : ∃ (st : ℕ → Bool) (D : Disk ℕ) (m : McmcObj) (old : H5File ℕ) (e : PyErr),
    D (savePath "out" "run") = some old ∧ old.ds "chain" = some (.mat [[1]]) ∧
    (saveMcmc st (fun _ => true) D m [] "out" "run" [("note", 0)]).2 = some e ∧
    ((saveMcmc st (fun _ => true) D m [] "out" "run" [("note", 0)]).1 (savePath "out" "run")).bind (·.ds "chain") = none := by
  refine ⟨fun _ => false, fun _ => some ⟨fun s => if s = "chain" then some (.mat [[1]]) else none, fun _ => none⟩,
    ⟨⟨none, none, none, none, none⟩, none, none⟩, _, .TypeError, rfl, by simp, ?_, ?_⟩
  · simp [saveMcmc, saveOps, optOp, runOps, FileOp.run]
  · simp [saveMcmc, saveOps, optOp, runOps, FileOp.run, H5File.empty]

/-- C66, the part that holds: other files are never touched, at any crash point or failure; if the file cannot be opened
nothing changes; and when a value cannot be stored, all datasets of the new run are in the file all the same. -/
theorem C66_preserved_partial (st : V → Bool) (openable : String → Bool) (D : Disk V) (m : McmcObj)
    (params kwargs : List (String × V)) (outpath filename : String) :
    (∀ k s, s ≠ savePath outpath filename → saveInterrupted st D m params outpath filename kwargs k s = D s) ∧
    (∀ s, s ≠ savePath outpath filename → (saveMcmc st openable D m params outpath filename kwargs).1 s = D s) ∧
    (openable (savePath outpath filename) = false → (saveMcmc st openable D m params outpath filename kwargs).1 = D) ∧
    (openable (savePath outpath filename) = true → ∃ f,
      (saveMcmc st openable D m params outpath filename kwargs).1 (savePath outpath filename) = some f ∧ f.ds = m.expected) := by
  refine ⟨fun k s hs => ?_, fun s hs => ?_, fun ho => ?_, fun ho => ?_⟩
  · simp only [saveInterrupted, if_neg hs]
  · unfold saveMcmc
    simp only
    split
    · simp only [if_neg hs]
    · rfl
  · unfold saveMcmc
    simp only [ho]
    rfl
  · unfold saveMcmc
    simp only [if_pos ho, if_true]
    refine ⟨_, rfl, ?_⟩
    have e : saveOps m params kwargs = dataOps m ++ ((params ++ kwargs).map fun p => FileOp.attr p.1 p.2) := by
      unfold saveOps dataOps
      simp only [List.append_assoc, List.map_append]
    rw [e, runOps_append st _ _ _ _ (runOps_dataOps st m)]
    have : ∀ (l : List (String × V)) (f : H5File V), (runOps st (l.map fun p => FileOp.attr p.1 p.2) f).1.ds = f.ds := by
      intro l
      induction l with
      | nil => intro f; rfl
      | cons q l ih =>
        intro f
        rw [List.map_cons]
        unfold runOps
        simp only [FileOp.run]
        by_cases hq : st q.2 = true
        · rw [if_pos hq]
          exact ih _
        · rw [if_neg hq]
    rw [this]

example : ∃ (D : Disk ℕ) (old : H5File ℕ), D (savePath "out" "run") = some old ∧ old.ds "chain" = some (.mat [[1]]) :=
  ⟨fun _ => some ⟨fun s => if s = "chain" then some (.mat [[1]]) else none, fun _ => none⟩, _, rfl, by simp⟩

end Pxmcmc
