import Verif.Model.Forward
import Verif.Model.Transforms

/-!
# Model of the two concrete operators of `pxmcmc/forward.py`

The pys2let routines are parameters as in `Model/Transforms.lean`.
-/

namespace Pxmcmc

/-- `pys2let.mw_size(L)` and `pyssht.sample_length(L)`: the number of MW samples, `L(2L-1)`. -/
def mwSize (L : ℕ) : ℕ := L * (2 * L - 1)

/-- forward.py:91-123 `SphericalWaveletTransformOperator.__init__`.  `px` and `lm` are the pixel and harmonic pys2let routines
for the given `L`, `B`, `J_min`, `dirs`, `spin`; `empty` is the uninitialised array of transforms.py:163. The constructed
transform has `harmonic=False` (the default). -/
noncomputable def waveletOperator {n : ℕ} (px lm : S2Routines) (empty : List ℂ) (data : DataVec n) (sig : SigD)
    (setting : String) (L : ℕ) : Py (ForwardOp n) := do
  let T ← WaveletTransform.init px lm false empty
  let nparams := if setting = "analysis" then mwSize L else T.ncoefs
  ForwardOp.init data sig setting (some ⟨T.inverse, T.inverseAdjoint⟩)
    (some ⟨identityForward n (mwSize L), identityAdjoint n (mwSize L)⟩) (some nparams)

/-- forward.py:126-163 `PathIntegralOperator.__init__`, the path matrix having `r` rows and `c` columns. -/
noncomputable def pathOperator {n r c : ℕ} (px lm : S2Routines) (empty : List ℂ) (A : Matrix (Fin r) (Fin c) ℂ)
    (data : DataVec n) (sig : SigD) (setting : String) (L : ℕ) : Py (ForwardOp n) := do
  let T ← WaveletTransform.init px lm false empty
  let nparams := if setting = "analysis" then mwSize L else T.ncoefs
  ForwardOp.init data sig setting (some ⟨T.inverse, T.inverseAdjoint⟩)
    (some ⟨pathForward A, pathAdjoint A⟩) (some nparams)

end Pxmcmc
