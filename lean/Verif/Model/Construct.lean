import Verif.Model.Sampler

/-!
# Model of the constructors that put a sampling problem together

`IdentityTransform`, the operator pairs held by a `ForwardOperator`, and `PxMCMC.__init__`.
-/

namespace Pxmcmc

/-- transforms.py:36-57 `IdentityTransform`: `inverse` and `inverse_adjoint` return their argument (as do `forward` and
`forward_adjoint`). -/
def identityTransform : OpPair := ⟨fun X => .ok X, fun X => .ok X⟩

/-- measurements.py:38-56 `Identity(ndata, npix)` as the pair `(forward, adjoint)`. -/
noncomputable def identityMeasurement (ndata npix : ℕ) : OpPair := ⟨identityForward ndata npix, identityAdjoint ndata npix⟩

/-- mcmc.py:56-61 `PxMCMC.__init__`: the parameters are copied and the tracking arrays allocated.  A forward operator constructed
without `nparams` has no such attribute (forward.py:33-34), so that allocating the chain (mcmc.py:121) raises `AttributeError`; without
a tracked chain the constructor would succeed and the sampler is outside the model. -/
noncomputable def samplerInit {n : ℕ} (F : ForwardOp n) (P : PriorObj) (par : Params) : Py (Sampler n × Arrays) :=
  match F.nparams with
  | some k => .ok (⟨F, P, par, k⟩, initArrays ⟨F, P, par, k⟩)
  | none => if "chain" ∈ par.track then .error .AttributeError else .error (.Other "nparams")

end Pxmcmc
