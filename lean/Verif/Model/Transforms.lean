import Verif.Model.UtilsArrays
import Mathlib.Analysis.Complex.Basic

/-!
# Model of `pxmcmc/transforms.py`

The pys2let routines are parameters (their `B`, `L`, `J_min`, `N`, `spin`, `upsample` arguments are the same in all calls of one
object and are fixed).  Arrays are 1-D complex arrays; `astype(complex)` is the identity on them.
-/

namespace Pxmcmc

/-- The four pys2let routines of one setting (pixels or harmonic coefficients): analysis gives the wavelet and the scaling
coefficients. -/
structure S2Routines where
  fwd : List ℂ → Py (List ℂ × List ℂ)
  fwdAdj : List ℂ → List ℂ → Py (List ℂ)
  inv : List ℂ → List ℂ → Py (List ℂ)
  invAdj : List ℂ → Py (List ℂ × List ℂ)

/-- A `SphericalWaveletTransform` object: the chosen routines and the numbers of coefficients. -/
structure WaveletTransform where
  r : S2Routines
  nwav : ℕ
  nscal : ℕ

/-- transforms.py:166. -/
def WaveletTransform.ncoefs (T : WaveletTransform) : ℕ := T.nwav + T.nscal

/-- transforms.py:71-100 and 156-166, the constructor.  `px` are the pixel routines (`analysis_px2wav` ...), `lm` the harmonic
ones (`analysis_lm2lmn` ...), `empty` is the uninitialised array of line 163.  The coefficients are counted with
`analysis_px2wav` in both settings. -/
def WaveletTransform.init (px lm : S2Routines) (harmonic : Bool) (empty : List ℂ) : Py WaveletTransform := do
  let c ← px.fwd empty
  .ok ⟨if harmonic then lm else px, c.1.length, c.2.length⟩

/-- transforms.py:102-112 `forward`. -/
def WaveletTransform.forward (T : WaveletTransform) (X : List ℂ) : Py (List ℂ) := do
  let c ← T.r.fwd X
  .ok (flattenMlm (.d1 c.1) c.2)

/-- transforms.py:114-127 `inverse`. -/
noncomputable def WaveletTransform.inverse (T : WaveletTransform) (X : List ℂ) : Py (List ℂ) := do
  let c ← expandMlm X none (some (T.nscal : ℤ))
  T.r.inv c.1.ravelF c.2

/-- transforms.py:129-139 `inverse_adjoint`. -/
def WaveletTransform.inverseAdjoint (T : WaveletTransform) (X : List ℂ) : Py (List ℂ) := do
  let c ← T.r.invAdj X
  .ok (flattenMlm (.d1 c.1) c.2)

/-- transforms.py:141-154 `forward_adjoint`. -/
noncomputable def WaveletTransform.forwardAdjoint (T : WaveletTransform) (X : List ℂ) : Py (List ℂ) := do
  let c ← expandMlm X none (some (T.nscal : ℤ))
  T.r.fwdAdj c.1.ravelF c.2

end Pxmcmc
