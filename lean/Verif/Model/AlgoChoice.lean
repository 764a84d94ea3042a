import Verif.Model.Saving
import Verif.Model.Scripts

/-!
# Model of the last part of the three `main.py` scripts

Choosing the sampler by `--algo`, running it and saving the results (earthtopography/main.py:155-184, phasevel/main.py:175-205,
weaklensing/main.py:135-162).  The three scripts do not differ here except in the keyword arguments saved.
-/

namespace Pxmcmc

/-- How far a script has come: still in the loop of the sampler when the fuel ran out, ended by an exception, or finished. -/
inductive ScriptEnd where
  | running
  | raised (e : PyErr)
  | finished

/-- earthtopography/main.py:155-166, phasevel/main.py:175-186, weaklensing/main.py:135-148: the sampler with its arrays and traces
after `mcmc.run()`.  The start point is left to the sampler.  `M` stands for operator, prior and parameters. -/
noncomputable def runChosen {n : ℕ} (algo : String) (M : Sampler n) (R : Rng) (r : R.σ) (fuel : ℕ) : Py (Option McmcObj) :=
  if algo = "myula" then do
    let res ← myulaRun M R (initArrays M) r .none fuel
    .ok (res.map fun st => ⟨(initArrays M).applyAll st.ev, none, none⟩)
  else if algo = "pxmala" then do
    let res ← malaRun M R true M.par.delta (initArrays M) r .none fuel
    .ok (res.map fun st => ⟨(initArrays M).applyAll st.ev, some st.acc, some st.deltas⟩)
  else if algo = "skrock" then do
    let res ← skrockRun M R (initArrays M) r .none fuel
    .ok (res.map fun st => ⟨(initArrays M).applyAll st.ev, none, none⟩)
  else .error .ValueError

/-- earthtopography/main.py:155-184, phasevel/main.py:175-205, weaklensing/main.py:135-162: the disk afterwards and how the script
ended.  `t` is the moment before the run (`NOW`), `params` the items of `params.__dict__` and `kwargs` the keyword arguments. -/
noncomputable def runAndSave {V : Type} {n : ℕ} (st : V → Bool) (openable : String → Bool) (D : Disk V) (algo setting jobid outdir : String)
    (t : Stamp) (M : Sampler n) (R : Rng) (r : R.σ) (fuel : ℕ) (params kwargs : List (String × V)) : Disk V × ScriptEnd :=
  match runChosen algo M R r fuel with
  | .error e => (D, .raised e)
  | .ok none => (D, .running)
  | .ok (some m) =>
    let s := saveMcmc st openable D m params outdir (runName algo setting t jobid) kwargs
    (s.1, match s.2 with
      | none => .finished
      | some e => .raised e)

end Pxmcmc
