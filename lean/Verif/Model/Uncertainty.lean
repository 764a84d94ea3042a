import Verif.Model.UtilsArrays
import Verif.Model.UtilsSphere
import Verif.Model.Measurements

/-!
# Model of `pxmcmc/uncertainty.py`

`np.quantile` is that of numpy 1.24 (`poetry.lock`), method `linear`.  Arithmetic is exact and there are no NaNs.
The element type `K` is `ℝ` or `ℂ`; `le` is the order numpy sorts with (`≤`, or lexicographic for complex numbers).
-/

namespace Pxmcmc

section
variable {K : Type} [AddCommGroup K] [Module ℝ K] (le : K → K → Prop) [DecidableRel le]

/-- numpy `_lerp`: `a + (b-a)*t`, computed from the other end when `t >= 0.5`. -/
noncomputable def npLerp (a b : K) (t : ℝ) : K :=
  if 1 / 2 ≤ t then b - (1 - t) • (b - a) else a + t • (b - a)

/-- `np.quantile(xs, q)` for one-dimensional `xs`: `q` must be in [0,1] (`ValueError`), the sample must not be empty
(`IndexError`); linear interpolation between the order statistics around position `(n-1)*q`; positions from `n-1` on use
index `-1` twice. -/
noncomputable def npQuantile (xs : List K) (q : ℝ) : Py K := do
  if ¬ (0 ≤ q ∧ q ≤ 1) then throw .ValueError
  let s := xs.insertionSort le
  let n : ℝ := (s.length : ℝ) - 1
  let v := n * q
  let i : ℤ := if n ≤ v then -1 else ⌊v⌋
  let j : ℤ := if n ≤ v then -1 else ⌊v⌋ + 1
  let a ← pyGet s i
  let b ← pyGet s j
  return npLerp a b (v - i)

/-- A chain of samples: `nsamples × nparams`, stored by columns (one list of `nsamples` values per parameter). -/
structure SampleArr (K : Type) where
  nsamples : ℕ
  cols : List (List K)

/-- All columns have `nsamples` entries. -/
def SampleArr.WF {K : Type} (C : SampleArr K) : Prop := ∀ c ∈ C.cols, c.length = C.nsamples

/-- uncertainty.py:7-16 `credible_interval_range`.  The two levels are checked before anything else; an array without
samples raises `IndexError` also when there are no columns. -/
noncomputable def credibleIntervalRange (C : SampleArr K) (alpha : ℝ) : Py (List K) := do
  if ¬ (0 ≤ alpha / 2 ∧ alpha / 2 ≤ 1) ∨ ¬ (0 ≤ 1 - alpha / 2 ∧ 1 - alpha / 2 ≤ 1) then throw .ValueError
  if C.nsamples = 0 then throw .IndexError
  C.cols.mapM fun c => do
    let lo ← npQuantile le c (alpha / 2)
    let hi ← npQuantile le c (1 - alpha / 2)
    return hi - lo

/-- `a.reshape(shape)` for one-dimensional `a` (C order): sizes must agree. -/
def npReshape {α : Type} (a : List α) (shape : List ℕ) : Py (NdArr α) :=
  if a.length = shape.prod then .ok ⟨shape, a⟩ else .error .ValueError

/-- uncertainty.py:33-39: the loop over the bandlimits, `start` being `scale_start`. -/
noncomputable def wavCILoop (C : SampleArr K) (alpha : ℝ) : List ℕ → ℕ → Py (List (NdArr K))
  | [], _ => .ok []
  | bl :: bls, start => do
    let wav : SampleArr K := ⟨C.nsamples, slice C.cols start (start + mwLength bl)⟩
    let r ← credibleIntervalRange le wav alpha
    let m ← npReshape r [bl, 2 * bl - 1]
    let rest ← wavCILoop C alpha bls (start + mwLength bl)
    return m :: rest

/-- uncertainty.py:19-40 `wavelet_credible_interval_range`; `bls` is the result of `_multires_bandlimits` (line 30). -/
noncomputable def waveletCredibleIntervalRange (C : SampleArr K) (bls : List ℕ) (alpha : ℝ) : Py (List (NdArr K)) :=
  wavCILoop le C alpha bls 0

end

/-- uncertainty.py:43-51 `credible_region_threshold`. -/
noncomputable def credibleRegionThreshold (logpis : List ℝ) (alpha : ℝ) : Py ℝ :=
  npQuantile (· ≤ ·) logpis (1 - alpha)

/-- uncertainty.py:54-56 `in_credible_region`. -/
noncomputable def inCredibleRegion (logpi threshold : ℝ) : Bool := if logpi ≤ threshold then true else false

/-- numpy's order on complex numbers: real part first, then imaginary part. -/
def lexLe (a b : ℂ) : Prop := a.re < b.re ∨ (a.re = b.re ∧ a.im ≤ b.im)

noncomputable instance : DecidableRel lexLe := fun _ _ => Classical.dec _

end Pxmcmc
