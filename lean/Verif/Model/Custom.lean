import Verif.Model.Sampler

/-!
# Operators written by the user: the base classes of `pxmcmc/measurements.py` and `pxmcmc/transforms.py`

A child class of `Measurement` or `Transform` is the list of the methods it overrides; the other ones are inherited.  The constructors of the
child classes are not modelled, and an overriding method is taken to accept one argument.
-/

namespace Pxmcmc

/-- The methods that a child class of `Measurement` overrides. -/
structure UserMeasurement where
  forward : Option (List ℂ → Py (List ℂ))
  adjoint : Option (List ℂ → Py (List ℂ))

/-- The methods that a child class of `Transform` overrides. -/
structure UserTransform where
  forward : Option (List ℂ → Py (List ℂ))
  inverse : Option (List ℂ → Py (List ℂ))
  forwardAdjoint : Option (List ℂ → Py (List ℂ))
  inverseAdjoint : Option (List ℂ → Py (List ℂ))

/-- A call `measurement.method(X)`: the inherited methods raise `NotImplementedError` (measurements.py:19-35). -/
def measurementCall (method : Option (List ℂ → Py (List ℂ))) (X : List ℂ) : Py (List ℂ) :=
  match method with
  | some f => f X
  | none => .error .NotImplementedError

/-- A call `transform.method(X)`: the inherited methods take no argument besides `self` (transforms.py:11, 17, 23, 29), so Python raises
`TypeError` before their body is reached. -/
def transformCall (method : Option (List ℂ → Py (List ℂ))) (X : List ℂ) : Py (List ℂ) :=
  match method with
  | some f => f X
  | none => .error .TypeError

/-- The calls that `ForwardOperator` makes of a measurement (forward.py:61, 64, 67). -/
def UserMeasurement.handles (m : UserMeasurement) : OpPair := ⟨measurementCall m.forward, measurementCall m.adjoint⟩

/-- The calls that `ForwardOperator` makes of a transform (forward.py:64, 72). -/
def UserTransform.handles (t : UserTransform) : OpPair := ⟨transformCall t.inverse, transformCall t.inverseAdjoint⟩

/-- forward.py:21-34: `ForwardOperator(data, sig_d, setting, transform, measurement, nparams)` with the user's objects; `none` is `None`, the
default. -/
noncomputable def customOp {n : ℕ} (data : DataVec n) (sig : SigD) (setting : String) (t : Option UserTransform) (m : Option UserMeasurement)
    (nparams : Option ℕ) : Py (ForwardOp n) :=
  ForwardOp.init data sig setting (t.map UserTransform.handles) (m.map UserMeasurement.handles) nparams

/-- Construct a sampler and run it.  Without `nparams` the attribute `forward.nparams` does not exist: with a tracked chain the constructor needs it
(mcmc.py:121-125), otherwise `_initial_sample` does, after it has checked the type of the start point (mcmc.py:98-106). -/
def createAndRun {n : ℕ} {α : Type} (run : Sampler n → Py α) (F : ForwardOp n) (P : PriorObj) (par : Params) (sp : StartPoint) : Py α :=
  match F.nparams with
  | some k => run ⟨F, P, par, k⟩
  | none =>
    if "chain" ∈ par.track then .error .AttributeError
    else match sp with
      | .arrayNd _ _ => .error .TypeError
      | .other => .error .TypeError
      | .none => .error .AttributeError
      | .array1 _ => .error .AttributeError

end Pxmcmc
