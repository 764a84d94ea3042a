import Verif.Model.Sampler

/-!
# Model of parameter objects (`pxmcmc/mcmc.py:6-61`)

`PxMCMCParams` objects and samplers hold numbers (immutable) and a reference to a list, `track`.  The default value of
`track` is one list object created when the class is defined (mcmc.py:32).  A program is a list of statements.
-/

namespace Pxmcmc

/-- The attributes of a parameter object, or their copies in a sampler; `trackAddr` is the address of the list. -/
structure PObj where
  lmda : ℝ
  delta : ℝ
  mu : ℝ
  s : ℕ
  nsamples : ℕ
  nburn : ℤ
  ngap : ℤ
  complex : Bool
  verbosity : ℤ
  trackAddr : ℕ

/-- Keyword arguments, or a set of attribute assignments; `none` means not given. -/
structure Kw where
  lmda : Option ℝ := none
  delta : Option ℝ := none
  mu : Option ℝ := none
  s : Option ℕ := none
  nsamples : Option ℕ := none
  nburn : Option ℤ := none
  ngap : Option ℤ := none
  complex : Option Bool := none
  verbosity : Option ℤ := none
  track : Option (List String) := none

/-- All objects in order of creation, and the list objects; address 0 is the default `track` list. -/
structure World where
  objs : List PObj
  lists : List (List String)

/-- `o.attr = value` for the given attributes; a list literal is a new list at address `fresh`. -/
def Kw.update (kw : Kw) (fresh : ℕ) (o : PObj) : PObj where
  lmda := kw.lmda.getD o.lmda
  delta := kw.delta.getD o.delta
  mu := kw.mu.getD o.mu
  s := kw.s.getD o.s
  nsamples := kw.nsamples.getD o.nsamples
  nburn := kw.nburn.getD o.nburn
  ngap := kw.ngap.getD o.ngap
  complex := kw.complex.getD o.complex
  verbosity := kw.verbosity.getD o.verbosity
  trackAddr := if kw.track.isSome then fresh else o.trackAddr

/-- mcmc.py:21-33: the default values of the parameters. -/
noncomputable def paramDefaults : PObj := ⟨3 / 100000, 1 / 100000, 1, 1, 1000000, 1000, 100, false, 100, 0⟩

/-- Statements. -/
inductive Stmt where
  /-- mcmc.py:21-43 `PxMCMCParams(**kw)`. -/
  | params (kw : Kw)
  /-- mcmc.py:56-60: a sampler constructed with the object `i` as `mcmcparams`; every attribute is copied (the list by
  reference). -/
  | sampler (i : ℕ)
  /-- `obj.attr = value`. -/
  | assign (i : ℕ) (kw : Kw)
  /-- `obj.track.append(name)`. -/
  | append (i : ℕ) (name : String)

/-- Execution of one statement; a statement on an object that does not exist has no effect. -/
noncomputable def World.exec (w : World) : Stmt → World
  | .params kw => ⟨w.objs ++ [kw.update w.lists.length paramDefaults], w.lists ++ kw.track.toList⟩
  | .sampler i => ⟨w.objs ++ (w.objs[i]?).toList, w.lists⟩
  | .assign i kw => ⟨w.objs.modify i (kw.update w.lists.length), w.lists ++ kw.track.toList⟩
  | .append i name =>
    match w.objs[i]? with
    | none => w
    | some o => ⟨w.objs, w.lists.modify o.trackAddr (· ++ [name])⟩

/-- mcmc.py:32. -/
def defaultTrack : List String := ["logposterior", "L2", "prior", "chain"]

/-- The state after `import pxmcmc.mcmc`: the default list exists, and the four constructors' default `mcmcparams`
(mcmc.py:56, 147, 214, 300). -/
noncomputable def World.initial : World := ⟨List.replicate 4 paramDefaults, [defaultTrack]⟩

/-- Execution of a program. -/
noncomputable def World.run (w : World) (prog : List Stmt) : World := prog.foldl World.exec w

/-- The attribute values of object `i`, as a sampler would use them. -/
def World.value (w : World) (i : ℕ) : Option Params := do
  let o ← w.objs[i]?
  let t ← w.lists[o.trackAddr]?
  some ⟨o.lmda, o.delta, o.mu, o.s, o.nsamples, o.nburn, o.ngap, o.complex, o.verbosity, t⟩

end Pxmcmc
