import Verif.Py
import Mathlib.Analysis.RCLike.Basic
import Mathlib.Analysis.SpecialFunctions.Sqrt
import Mathlib.LinearAlgebra.Matrix.ConjTranspose
import Mathlib.Data.Matrix.Mul
import Mathlib.Analysis.Complex.Basic

/-!
# Model of `pxmcmc/measurements.py`

Arrays are flattened in C order; `NdArr` keeps the shape where the code looks at it.
-/

namespace Pxmcmc

/-! ## Matrix measurements -/

section
variable {𝕜 : Type} [RCLike 𝕜] {r c : ℕ}

/-- `A.dot(X)` for a (sparse) matrix and a 1-D array of matching length. -/
def matDot (A : Matrix (Fin r) (Fin c) 𝕜) (X : List 𝕜) : Py (List 𝕜) :=
  if h : X.length = c then .ok (List.ofFn (A.mulVec fun j => X[j])) else .error .ValueError

/-- `sparse.eye(ndata, npix)` (measurements.py:45): ones on the main diagonal. -/
def eye (r c : ℕ) : Matrix (Fin r) (Fin c) 𝕜 := fun i j => if i.val = j.val then 1 else 0

/-- measurements.py:48-51 `Identity.forward`. -/
def identityForward (ndata npix : ℕ) (X : List 𝕜) : Py (List 𝕜) :=
  if X.length = npix then matDot (eye ndata npix) X else .error .AssertionError

/-- measurements.py:53-56 `Identity.adjoint`, with `eye_adj = eye.getH()` (line 46). -/
def identityAdjoint (ndata npix : ℕ) (Y : List 𝕜) : Py (List 𝕜) :=
  if Y.length = ndata then matDot (eye ndata npix : Matrix (Fin ndata) (Fin npix) 𝕜).conjTranspose Y
  else .error .AssertionError

/-- measurements.py:75-78 `PathIntegral.forward`. -/
def pathForward (A : Matrix (Fin r) (Fin c) 𝕜) (X : List 𝕜) : Py (List 𝕜) :=
  if X.length = c then matDot A X else .error .AssertionError

/-- measurements.py:80-83 `PathIntegral.adjoint`, with `path_matrix_adj = path_matrix.getH()` (line 71). -/
def pathAdjoint (A : Matrix (Fin r) (Fin c) 𝕜) (Y : List 𝕜) : Py (List 𝕜) :=
  if Y.length = r then matDot A.conjTranspose Y else .error .AssertionError

end

/-! ## Weak lensing, harmonic space -/

/-- `k[index] = v`, `index` never negative here. -/
def pySet {α : Type} (k : List α) (index : ℕ) (v : α) : Py (List α) :=
  if index < k.length then .ok (k.set index v) else .error .IndexError

/-- measurements.py:158, the value written for degree `l`. -/
noncomputable def kernelValue (l : ℕ) : ℝ :=
  -1 * √((((l : ℝ) + 2) * ((l : ℝ) - 1)) / (((l : ℝ) + 1) * (l : ℝ)))

/-- measurements.py:155-159: the iterations of the two nested loops, `(l, m)` in order; the body only uses `l`. -/
def kernelIters (L : ℕ) : List (ℕ × ℤ) :=
  (List.range' 2 (L - 2)).flatMap fun (l : ℕ) =>
    (List.range (2 * l + 1)).map fun (k : ℕ) => (l, (k : ℤ) - (l : ℤ))

/-- measurements.py:151-160 `compute_harmonic_kernel`. -/
noncomputable def harmonicKernel (L : ℕ) : Py (List ℝ) := do
  let r ← (kernelIters L).foldlM (init := (List.replicate (L ^ 2) (1 : ℝ), 4)) fun s lm => do
    let k ← pySet s.1 s.2 (kernelValue lm.1)
    .ok (k, s.2 + 1)
  .ok r.1

/-- measurements.py:91-121 `WeakLensingHarmonic.__init__`: returns the kernel (`warn` is not modelled). -/
noncomputable def wlHarmonicInit (L : ℤ) : Py (List ℝ) :=
  if L < 1 then .error .ValueError else harmonicKernel L.toNat

section
variable {𝕜 : Type} [RCLike 𝕜]

/-- `out[:4] = 0`. -/
def zeroFirst4 (out : List 𝕜) : List 𝕜 := (out.take 4).map (fun _ => 0) ++ out.drop 4

/-- measurements.py:162-171 `harmonic_mapping`. -/
noncomputable def harmonicMapping (kernel : List ℝ) (flm : List 𝕜) : Py (List 𝕜) := do
  let ps ← bcast flm kernel
  .ok (zeroFirst4 (ps.map fun p => p.1 * (p.2 : 𝕜)))

/-- measurements.py:173-182 `harmonic_inverse_mapping` (the kernel has no zero entry). -/
noncomputable def harmonicInverseMapping (kernel : List ℝ) (flm : List 𝕜) : Py (List 𝕜) := do
  let ps ← bcast flm kernel
  .ok (zeroFirst4 (ps.map fun p => p.1 / (p.2 : 𝕜)))

/-- measurements.py:123-131 `WeakLensingHarmonic.forward`. -/
noncomputable def wlHarmonicForward (kernel : List ℝ) (klm : List 𝕜) : Py (List 𝕜) := harmonicMapping kernel klm

/-- measurements.py:133-140 `WeakLensingHarmonic.adjoint`. -/
noncomputable def wlHarmonicAdjoint (kernel : List ℝ) (glm : List 𝕜) : Py (List 𝕜) := harmonicMapping kernel glm

/-- measurements.py:142-149 `sks_estimate`. -/
noncomputable def sksEstimate (kernel : List ℝ) (glm : List 𝕜) : Py (List 𝕜) := harmonicInverseMapping kernel glm

end

/-! ## Weak lensing, pixel space -/

/-- An n-dimensional array: shape and C-ordered data. -/
structure NdArr (α : Type) where
  shape : List ℕ
  data : List α

/-- The number of entries matches the shape. -/
def NdArr.WF {α : Type} (a : NdArr α) : Prop := a.data.length = a.shape.prod

/-- The blocks of `data` (of `b` entries each) at which the mask is true. -/
def selectBlocks {α : Type} (b : ℕ) : List α → List Bool → List α
  | _, [] => []
  | data, m :: ms => (if m then data.take b else []) ++ selectBlocks b (data.drop b) ms

/-- numpy boolean indexing `f[mask]`: the mask's shape must be a leading part of `f`'s shape. The result is flattened
(it is 1-D when the shapes agree). -/
def boolIndex {α : Type} (f : NdArr α) (mask : NdArr Bool) : Py (List α) :=
  if mask.shape <+: f.shape then
    .ok (selectBlocks (f.shape.drop mask.shape.length).prod f.data mask.data)
  else .error .IndexError

/-- measurements.py:242-261 `mask_forward`.  Line 255 tests `f is not f`, i.e. whether an object is not
identical to itself, which is false for every object. -/
def maskForward {α : Type} (shape : List ℕ) (mask : NdArr Bool) (f : NdArr α) : Py (List α) :=
  let fIsNotF := false
  if fIsNotF then .error .ValueError
  else if f.shape ≠ shape then .error .ValueError
  else boolIndex f mask

/-- `f = zeros; f[mask] = x` with one value per true entry. -/
def scatter {α : Type} [Zero α] : List Bool → List α → List α
  | [], _ => []
  | true :: ms, x :: xs => x :: scatter ms xs
  | true :: ms, [] => 0 :: scatter ms []
  | false :: ms, xs => 0 :: scatter ms xs

/-- measurements.py:263-280 `mask_adjoint` for a mask of the right shape (data flattened); line 275 as in
`maskForward`.  numpy accepts one value per true entry, or a single value that is broadcast. -/
def maskAdjoint {α : Type} [Zero α] (mask : List Bool) (x : List α) : Py (List α) :=
  let xIsNotX := false
  if xIsNotX then .error .ValueError
  else if x.length = mask.count true then .ok (scatter mask x)
  else match x with
    | [a] => .ok (scatter mask (List.replicate (mask.count true) a))
    | _ => .error .ValueError

/-- State of a `WeakLensing` object. -/
structure WL where
  L : ℕ
  kernel : List ℝ
  mask : NdArr Bool
  invCov : List ℝ

/-- measurements.py:192 `self.shape`. -/
def WL.shape (w : WL) : List ℕ := [w.L, 2 * w.L - 1]

/-- measurements.py:121 `self.var_e`. -/
noncomputable def varE : ℝ := (37 / 100) ^ 2

/-- measurements.py:282-293 `ngal_to_inv_cov`; counts are assumed non-negative (`np.sqrt` gives NaN otherwise). -/
noncomputable def ngalToInvCov (shape : List ℕ) (mask : NdArr Bool) (ngal : NdArr ℝ) : Py (List ℝ) := do
  let m ← maskForward shape mask ngal
  .ok (m.map fun x => √(2 * x / varE))

/-- measurements.py:195-198: the default mask is all true. -/
def wlMask (n : ℕ) : Option (NdArr Bool) → NdArr Bool
  | none => ⟨[n, 2 * n - 1], List.replicate (n * (2 * n - 1)) true⟩
  | some m => m

/-- measurements.py:201-204: the covariance weights. -/
noncomputable def wlInvCov (n : ℕ) (m : NdArr Bool) : Option (NdArr ℝ) → Py (List ℝ)
  | none => maskForward [n, 2 * n - 1] m ⟨[n, 2 * n - 1], List.replicate (n * (2 * n - 1)) (1 : ℝ)⟩
  | some g => ngalToInvCov [n, 2 * n - 1] m g

/-- measurements.py:189-207 `WeakLensing.__init__`. -/
noncomputable def WL.init (L : ℤ) (mask : Option (NdArr Bool)) (ngal : Option (NdArr ℝ)) : Py WL := do
  let kernel ← wlHarmonicInit L
  let invCov ← wlInvCov L.toNat (wlMask L.toNat mask) ngal
  if (wlMask L.toNat mask).shape ≠ [L.toNat, 2 * L.toNat - 1] then .error .ValueError
  else .ok ⟨L.toNat, kernel, wlMask L.toNat mask, invCov⟩

/-- The four pyssht transforms used, at a fixed bandlimit, on flattened arrays (parameters of the model). -/
structure Ssht where
  fwd0 : List ℂ → List ℂ
  inv2 : List ℂ → List ℂ
  invAdj2 : List ℂ → List ℂ
  fwdAdj0 : List ℂ → List ℂ

/-- measurements.py:295-304 `cov_weight`. -/
noncomputable def covWeight (w : WL) (x : List ℂ) : Py (List ℂ) := do
  let ps ← bcast x w.invCov
  .ok (ps.map fun p => p.1 * (p.2 : ℂ))

/-- measurements.py:209-216, 221-230 `WeakLensing.forward` (masking and covariance weighting on);
`reshape` (line 222) needs the right number of entries. -/
noncomputable def WL.forward (T : Ssht) (w : WL) (kappa : List ℂ) : Py (List ℂ) :=
  if kappa.length ≠ w.L * (2 * w.L - 1) then .error .ValueError
  else do
    let klm := T.fwd0 kappa
    let glm ← wlHarmonicForward w.kernel klm
    let gamma := T.inv2 glm
    let g1 ← maskForward w.shape w.mask ⟨w.shape, gamma⟩
    covWeight w g1

/-- measurements.py:218-219, 232-240 `WeakLensing.adjoint`. -/
noncomputable def WL.adjoint (T : Ssht) (w : WL) (gamma : List ℂ) : Py (List ℂ) := do
  let g1 ← covWeight w gamma
  let g2 ← maskAdjoint w.mask.data g1
  let glm := T.invAdj2 g2
  let klm ← wlHarmonicAdjoint w.kernel glm
  .ok (T.fwdAdj0 klm)

end Pxmcmc
