import Verif.Model.Experiments
import Verif.Model.Saving
import Verif.Model.UtilsSphere
import Verif.Model.Uncertainty

/-!
# Model of further parts of the example scripts

Path-matrix cache, names of result files, printed reconstruction summaries.
-/

namespace Pxmcmc

/-! ## `phasevel/main.py`: the path-matrix cache -/

/-- A scipy sparse matrix: its rows (as full vectors) and number of columns. -/
structure SparseMat where
  rows : List (List ℝ)
  ncols : ℕ

/-- `sparse.csr_matrix(paths)` for a list of equally long arrays (experiments/phasevel/main.py:59). -/
def csrMatrix (paths : List (List ℝ)) : SparseMat := ⟨paths, (paths.headD []).length⟩

/-- The name `scipy.sparse.save_npz` (through `numpy.savez`) writes to: `.npz` is appended unless the name ends with it. -/
def npzName (file : String) : String := if ".npz".toList <:+ file.toList then file else file ++ ".npz"

/-- The `.npz` files on disk. -/
abbrev NpzDisk := String → Option SparseMat

/-- experiments/phasevel/main.py:129-136: the path matrix used for the data, and the disk afterwards.  `path.exists` is true
exactly for stored matrices (directories and other files are not modelled); `save_npz` succeeds. -/
def cachedPaths (buildPath : ℝ × ℝ → ℝ × ℝ → ℕ → List ℝ) (D : NpzDisk) (pathsfile : String) (start stop : List (ℝ × ℝ))
    (ndata L : ℕ) : Py SparseMat × NpzDisk :=
  let r : SparseMat × NpzDisk := match D pathsfile with
    | some A => (A, D)
    | none =>
      let A := csrMatrix (getPathMatrix buildPath start stop L)
      (A, fun s => if s = npzName pathsfile then some A else D s)
  if r.1.rows.length = ndata then (.ok r.1, r.2) else (.error .AssertionError, r.2)

/-- experiments/phasevel/main.py:128-136: reading the data file and getting its path matrix. -/
noncomputable def phasevelPaths (buildPath : ℝ × ℝ → ℝ × ℝ → ℕ → List ℝ) (D : NpzDisk) (pathsfile : String) (rows : List PathRow) (L : ℕ) :
    Py SparseMat × NpzDisk :=
  match readDatafile rows with
  | .error e => (.error e, D)
  | .ok d => cachedPaths buildPath D pathsfile d.start d.stop d.data.length L

/-- The matrix `PathIntegral` works with (measurements.py:69-73). -/
def SparseMat.toMatrix (A : SparseMat) : Matrix (Fin A.rows.length) (Fin A.ncols) ℂ :=
  fun i j => (((A.rows[i]).getD j 0 : ℝ) : ℂ)

/-! ## Names of result files -/

/-- A moment as `strftime('%d%m%y_%H%M%S')` sees it. -/
structure Stamp where
  day : ℕ
  month : ℕ
  year : ℕ
  hour : ℕ
  minute : ℕ
  second : ℕ

/-- A number below 100 with two digits. -/
def two (n : ℕ) : List Char := [Nat.digitChar (n / 10 % 10), Nat.digitChar (n % 10)]

/-- `NOW.strftime('%d%m%y_%H%M%S')`; `%y` is the year without century. -/
def Stamp.format (t : Stamp) : List Char :=
  two t.day ++ two t.month ++ two (t.year % 100) ++ '_' :: (two t.hour ++ two t.minute ++ two t.second)

/-- The name of the results file: `f"{args.algo}_{args.setting}_{NOW.strftime(...)}_{args.jobid}"` (earthtopography/main.py:169,
phasevel/main.py:190, weaklensing/main.py:150). -/
def runName (algo setting : String) (t : Stamp) (jobid : String) : String :=
  String.ofList (algo.toList ++ '_' :: (setting.toList ++ '_' :: (t.format ++ '_' :: jobid.toList)))

/-! ## Printed summaries -/

/-- `(norm(preds - data_obs) / norm(data_obs)) ** 2` (phasevel/plot.py:161, 164; weaklensing/plot.py:190, 193); a zero `data_obs`
gives NaN or infinity in numpy and is excluded in the theorems. -/
noncomputable def relSqError (preds obs : List ℂ) : Py ℝ := do
  let d ← npSub preds obs
  .ok ((npNorm d / npNorm obs) ^ 2)

end Pxmcmc
