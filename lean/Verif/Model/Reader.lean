import Verif.Py

/-!
# Model of `experiments/weaklensing/download_takahasi.py`

The file is a sequence of 4-byte words of an abstract type; `int64` combines two of them.  `print` is left out.
-/

namespace Pxmcmc

/-- download_takahasi.py:21. -/
def skipList : List ℤ := [0, 536870908, 1073741818, 1610612728, 2147483638, 2684354547, 3221225457]

/-- download_takahasi.py:22: `[skip[i + 1] - skip[i] for i in range(0, 6)]`. -/
def loadBlocks : List ℤ := (List.range 6).map fun i => skipList.getD (i + 1) 0 - skipList.getD i 0

/-- `np.fromfile(f, count=k)` for 4-byte items: at most what is left; everything for negative `k`.  Returns the items and the
rest of the file. -/
def fromFile {W : Type} (s : List W) (k : ℤ) : List W × List W :=
  if k < 0 then (s, []) else (s.take k.toNat, s.drop k.toNat)

/-- download_takahasi.py:33-46 (and the three copies below): the loop for one field with `r` values to go. -/
def readField {W : Type} : List ℤ → ℤ → List W → List W × List W
  | [], _, s => ([], s)
  | l :: ls, r, s =>
    let blocks := min l r
    let load := fromFile s blocks
    let s2 := (fromFile load.2 2).2
    let r' := r - blocks
    if r' = 0 then (load.1, s2)
    else if 0 < r' ∧ ls = [] then
      let load' := fromFile s2 r'
      (load.1 ++ load'.1, (fromFile load'.2 2).2)
    else
      let rest := readField ls r' s2
      (load.1 ++ rest.1, rest.2)

/-- download_takahasi.py:16-96 `binary_to_fits`: the fields kappa, gamma1, gamma2 and omega.  (kappa is then written with
healpy.)  Each header item is `np.fromfile(...)[0]`, an `IndexError` at the end of the file; the header has the words
rec, nside, npix (two words), rec, rec. -/
def binaryToFits {W : Type} (int64 : W → W → ℤ) (file : List W) : Py (List W × List W × List W × List W) :=
  match file with
  | _rec :: _nside :: lo :: hi :: _rec1 :: _rec2 :: body =>
    let npix := int64 lo hi
    let kappa := readField loadBlocks npix body
    let gamma1 := readField loadBlocks npix kappa.2
    let gamma2 := readField loadBlocks npix gamma1.2
    let omega := readField loadBlocks npix gamma2.2
    .ok (kappa.1, gamma1.1, gamma2.1, omega.1)
  | _ => .error .IndexError

/-- download_takahasi.py:116-127: the checks of the script's settings. -/
def scriptChecks (nres realisation redshiftId : ℤ) : Py Unit :=
  if ¬ (nres = 12 ∨ nres = 13 ∨ nres = 14) then .error .AssertionError
  else if (nres = 12 ∨ nres = 13) ∧ ¬ (0 ≤ realisation ∧ realisation ≤ 107) then .error .AssertionError
  else if ¬ (nres = 12 ∨ nres = 13) ∧ ¬ nres = 0 then .error .AssertionError
  else if ¬ (1 ≤ redshiftId ∧ redshiftId ≤ 66) then .error .AssertionError
  else .ok ()

end Pxmcmc
