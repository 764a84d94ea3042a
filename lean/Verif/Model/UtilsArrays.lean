import Verif.Py
import Mathlib.Analysis.Complex.Basic
import Mathlib.Data.List.Sort
import Mathlib.Data.List.FinRange
import Mathlib.Algebra.Order.Floor.Ring

/-!
# Model of `pxmcmc/utils.py`: packing, thresholding, bandlimits

Numbers are exact (`RCLike 𝕜` for float/complex arrays); dtype conversions that preserve values are
identities.
-/

namespace Pxmcmc

/-! ## Two-dimensional arrays -/

/-- A two-dimensional numpy array with `rows × cols` entries. -/
structure Arr2 (α : Type _) where
  rows : ℕ
  cols : ℕ
  get : Fin rows → Fin cols → α

/-- `a.ravel(order="F")`: column-major flattening. -/
def Arr2.ravelF {α : Type _} (a : Arr2 α) : List α :=
  (List.finRange a.cols).flatMap fun j => (List.finRange a.rows).map fun i => a.get i j

/-- The wavelet array handed around by the packing routines: 1-D or 2-D. -/
inductive WavArr (α : Type _) where
  | d1 (l : List α)
  | d2 (a : Arr2 α)

/-- `wav_lm.ravel(order="F")` (utils.py:20): a 1-D array is returned as it is. -/
def WavArr.ravelF {α : Type _} : WavArr α → List α
  | .d1 l => l
  | .d2 a => a.ravelF

/-- utils.py:11-22 `flatten_mlm`. -/
def flattenMlm {α : Type _} (wav : WavArr α) (scal : List α) : List α :=
  let buff := wav.ravelF
  scal ++ buff

/-- The column `mlm[(i+1)*v : (i+2)*v]` (utils.py:46). -/
def mlmColumn {α : Type _} (mlm : List α) (v i : ℕ) : List α :=
  slice mlm ((i + 1) * v) ((i + 2) * v)

/-- utils.py:40-48, the `nscales` branch (line 48 concatenates the columns, which is column-major
flattening) once `v_len > 0` is known and `nscales = S ≥ 0`.
`wav_lm` starts as zeros and every column is overwritten by a slice of `mlm`; a slice of the wrong
length would raise (it cannot happen, but the branch is kept: numpy raises `ValueError`). -/
def expandFull {α : Type _} [Zero α] (mlm : List α) (v S : ℕ) (flattenWavs : Bool) :
    Py (WavArr α × List α) :=
  let scal := slice mlm 0 v
  if (List.range S).all (fun i => (mlmColumn mlm v i).length = v) then
    let wav : Arr2 α := ⟨v, S, fun r c => (mlmColumn mlm v c).getD r 0⟩
    if flattenWavs then
      -- `np.concatenate([...])` of an empty list raises ValueError
      if S = 0 then .error .ValueError
      else .ok (.d1 wav.ravelF, scal)
    else .ok (.d2 wav, scal)
  else .error .ValueError

/-- utils.py:25-52 `expand_mlm`.  `//` is Python's floor division; `nscales = -1` divides by zero and
smaller values give `v_len ≤ 0`, caught by the assertion. -/
def expandMlm {α : Type _} [Zero α] (mlm : List α) (nscales nscalcoefs : Option ℤ)
    (flattenWavs : Bool := false) : Py (WavArr α × List α) :=
  match nscales, nscalcoefs with
  | none, none => .error .ValueError
  | some _, some _ => .error .ValueError
  | some S, none =>
    if S + 1 = 0 then .error .ZeroDivisionError
    else
      let v : ℤ := Int.fdiv mlm.length (S + 1)
      if 0 < v then expandFull mlm v.toNat S.toNat flattenWavs
      else .error .AssertionError
  | none, some k => .ok (.d1 (sliceFrom mlm k), sliceTo mlm k)

/-! ## Thresholding -/

section
variable {𝕜 : Type} [RCLike 𝕜]

open Classical in
/-- utils.py:84-88 `_sign`, per entry: zero moduli are replaced by one before dividing. -/
noncomputable def signEntry (z : 𝕜) : 𝕜 :=
  (if ‖z‖ = 0 then 0 else z) / (((if ‖z‖ = 0 then 1 else ‖z‖) : ℝ) : 𝕜)

open Classical in
/-- utils.py:65-66, per entry: `t = _sign(X) * (np.abs(X) - T)`, then `t[np.abs(X) <= T] = 0`. -/
noncomputable def softEntry (x : 𝕜) (t : ℝ) : 𝕜 :=
  let v := signEntry x * ((‖x‖ - t : ℝ) : 𝕜)
  if ‖x‖ ≤ t then 0 else v

/-- The threshold argument of `soft`: "Can be a vector of same size as X" (utils.py:60). -/
inductive Thresh where
  | scalar (t : ℝ)
  | vector (ts : List ℝ)

/-- The threshold as an array for broadcasting. -/
def Thresh.arr : Thresh → List ℝ
  | .scalar t => [t]
  | .vector ts => ts

/-- utils.py:55-67 `soft` on one-dimensional arrays (a 0-d `X` is rejected by the item assignment and
not modelled).  `X` is copied first (`np.array(X)`), so the caller's array is not touched. -/
noncomputable def soft (X : List 𝕜) (T : Thresh) : Py (List 𝕜) := do
  let ps ← bcast X T.arr
  .ok (ps.map fun p => softEntry p.1 p.2)

/-- Python's `int(x)`: truncation towards zero. -/
noncomputable def pyInt (x : ℝ) : ℤ := if 0 ≤ x then ⌊x⌋ else ⌈x⌉

/-- `np.sort`. -/
noncomputable def npSort (l : List ℝ) : List ℝ := l.insertionSort (· ≤ ·)

open Classical in
/-- utils.py:70-81 `hard`: the value returned (also written into the caller's array, see
`hardHeap`). -/
noncomputable def hard (X : List 𝕜) (T : ℝ) : Py (List 𝕜) := do
  let srt := npSort (X.map fun x => ‖x‖)
  let threshInd := pyInt (T * X.length)
  let threshVal ← pyGet srt (-threshInd)
  .ok (X.map fun x => if ‖x‖ < threshVal then 0 else x)

/-! ### The same functions on a heap of arrays (aliasing) -/

/-- A heap: arrays addressed by natural numbers. -/
abbrev Heap (𝕜 : Type) := ℕ → Option (List 𝕜)

/-- Write an array. -/
def Heap.write (h : Heap 𝕜) (a : ℕ) (l : List 𝕜) : Heap 𝕜 := fun b => if b = a then some l else h b

/-- utils.py:55-67 with the caller's array at address `a`: line 64 `X = np.array(X)` copies it to the
fresh address `f`; `_sign` (utils.py:86 `z[abs == 0] = 0`) writes into that copy only, before the rest of line 65 and line 66 read it.
Returns the heap and the result array. -/
noncomputable def softHeap (h : Heap 𝕜) (a f : ℕ) (T : Thresh) : Py (Heap 𝕜 × List 𝕜) :=
  match h a with
  | none => .error .TypeError
  | some X => do
    -- line 64: fresh copy
    let h1 := h.write f X
    -- line 65 via `_sign`, line 86: `z[abs == 0] = 0` in place on the copy
    let X' := X.map fun z => open Classical in if ‖z‖ = 0 then 0 else z
    let h2 := h1.write f X'
    let t ← soft X' T
    .ok (h2, t)

/-- utils.py:70-81 with the caller's array at address `a`: line 80 assigns into `X` itself. -/
noncomputable def hardHeap (h : Heap 𝕜) (a : ℕ) (T : ℝ) : Py (Heap 𝕜 × List 𝕜) :=
  match h a with
  | none => .error .TypeError
  | some X => do
    let r ← hard X T
    .ok (h.write a r, r)

end

/-! ## Bandlimits -/

open Classical in
/-- `np.nonzero(gamma)[0]`. -/
noncomputable def nonzeroIdx (g : List ℂ) : List ℕ :=
  (List.range g.length).filter fun i => g.getD i 0 ≠ 0

/-- `np.nonzero(gamma)[0].max() + 1` (utils.py:124); `max` of an empty array raises `ValueError`. -/
noncomputable def bandlimitOf (g : List ℂ) : Py ℕ :=
  match (nonzeroIdx g).max? with
  | some k => .ok (k + 1)
  | none => .error .ValueError

/-- utils.py:120: the `m = 0` entries `psi[el**2 + el]`, `el < L`, of one wavelet; a column shorter than
`L²` raises `IndexError`. -/
def degreeZeroPart (L : ℕ) (psi : List ℂ) : Py (List ℂ) :=
  (List.range L).mapM fun (el : ℕ) => pyGet psi ((el ^ 2 + el : ℕ) : ℤ)

/-- utils.py:116-125 `_multires_bandlimits`.  `phi` and the columns `psis` of `psi_lm` are what
`pys2let.wavelet_tiling` returned. -/
noncomputable def multiresBandlimits (L : ℕ) (phi : List ℂ) (psis : List (List ℂ)) : Py (List ℕ) := do
  let psil ← psis.mapM (degreeZeroPart L)
  -- `np.vstack` requires `phi` to have length `L`
  if phi.length = L then (phi :: psil).mapM bandlimitOf else .error .ValueError

end Pxmcmc
