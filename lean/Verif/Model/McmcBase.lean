import Verif.Model.Forward

/-!
# Model of the log-posterior and gradient of `pxmcmc/mcmc.py` (class `PxMCMC`)
-/

namespace Pxmcmc

/-- The interface of a prior object (`prior.py`): `prior(X)` and `proxf(X)`. -/
structure PriorObj where
  prior : List ℂ → Py ℝ
  proxf : List ℂ → Py (List ℂ)

/-- `L1` objects (prior.py:8-53) as priors. -/
noncomputable def L1.toPrior (P : L1 ℂ) : PriorObj := ⟨fun X => .ok (P.prior X), P.proxf⟩

/-- `np.vdot` of 1-D arrays: conjugates its first argument; lengths must agree. -/
noncomputable def npVdot (x y : List ℂ) : Py ℂ :=
  if x.length = y.length then .ok ((x.zip y).map fun p => (starRingEnd ℂ) p.1 * p.2).sum else .error .ValueError

/-- mcmc.py:71-82 `logpi`: returns `(logPi, L2, prior)`. -/
noncomputable def logpi {n : ℕ} (F : ForwardOp n) (P : PriorObj) (mu : ℝ) (X preds : List ℂ) :
    Py (ℂ × ℂ × ℝ) := do
  let diff ← npSub (List.ofFn F.data.vals) preds
  let wd ← matDot F.invcov diff
  let L2 ← npVdot diff wd
  let prior ← P.prior X
  let logPi : ℂ := ((-mu * prior : ℝ) : ℂ) - L2
  .ok (logPi, L2, prior)

/-- mcmc.py:85 `gradf = (X - proxf(X)) / lmda`. -/
noncomputable def gradf (P : PriorObj) (lmda : ℝ) (X : List ℂ) : Py (List ℂ) := do
  let p ← P.proxf X
  let d ← npSub X p
  .ok (d.map fun z => z / (lmda : ℂ))

/-- mcmc.py:84-89 `_gradlogpi`. -/
noncomputable def gradlogpi {n : ℕ} (F : ForwardOp n) (P : PriorObj) (lmda : ℝ) (X : List ℂ)
    (preds : Option (List ℂ)) : Py (List ℂ) := do
  let gf ← gradf P lmda X
  let preds ← match preds with
    | none => F.forward X
    | some p => .ok p
  let gg ← F.calcGradg preds
  npSub (gf.map fun z => -z) gg

end Pxmcmc
