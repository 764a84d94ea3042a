import Verif.Model.Reader
import Mathlib.Data.Nat.Basic

/-!
# Model of the download script (`experiments/weaklensing/download_takahasi.py:99-139`)

File names are lists of characters.  The disk maps a name to what is stored under it.  The script is modelled with every intermediate
state of the disk, because the process can be killed (or the connection lost) at any of them.  `print` and the progress bar are left out.
-/

namespace Pxmcmc

/-- What a file contains: words (binary data), a complete FITS map, or an incomplete FITS file. -/
inductive FileData (W : Type) where
  | words (l : List W)
  | fits (m : List W)
  | cutFits

/-- The files on disk. -/
abbrev SimDisk (W : Type) := List Char → Option (FileData W)

/-- `D` with `c` stored under `name`. -/
def SimDisk.put {W : Type} (D : SimDisk W) (name : List Char) (c : FileData W) : SimDisk W := fun s => if s = name then some c else D s

/-- `os.rename(a, b)`; replaces `b` (POSIX). -/
def SimDisk.rename {W : Type} (D : SimDisk W) (a b : List Char) : SimDisk W := fun s => if s = b then D a else if s = a then none else D s

/-- The settings of the script after the checks (download_takahasi.py:115-125). -/
structure SimSettings where
  nres : ℕ
  realisation : ℕ
  redshift : ℕ

/-- download_takahasi.py:115-125: the checks of the three numbers, which are edited in the source (comments: "only options are 12, 13 or
14", "max is 107 (0 if nres=14)", "between 1 and 66"). -/
def checkSettings (nres realisation redshift : ℤ) : Py SimSettings :=
  if ¬ (nres = 12 ∨ nres = 13 ∨ nres = 14) then .error .AssertionError
  else if nres = 12 ∨ nres = 13 then
    if ¬ (0 ≤ realisation ∧ realisation ≤ 107) then .error .AssertionError
    else if ¬ (1 ≤ redshift ∧ redshift ≤ 66) then .error .AssertionError
    else .ok ⟨nres.toNat, realisation.toNat, redshift.toNat⟩
  else if ¬ nres = 0 then .error .AssertionError
  else if ¬ (1 ≤ redshift ∧ redshift ≤ 66) then .error .AssertionError
  else .ok ⟨nres.toNat, realisation.toNat, redshift.toNat⟩

/-- `f"{k:03}"` for a natural number. -/
def pad3 (k : ℕ) : List Char := List.replicate (3 - (Nat.toDigits 10 k).length) '0' ++ Nat.toDigits 10 k

/-- download_takahasi.py:127: `f"allskymap_nres{nres}r{realisation:03}.zs{redshift_id}.mag.dat"`. -/
def binName (s : SimSettings) : List Char :=
  ['a', 'l', 'l', 's', 'k', 'y', 'm', 'a', 'p', '_', 'n', 'r', 'e', 's'] ++ (Nat.toDigits 10 s.nres ++ 'r' :: (pad3 s.realisation ++
    ['.', 'z', 's'] ++ (Nat.toDigits 10 s.redshift ++ ['.', 'm', 'a', 'g', '.', 'd', 'a', 't'])))

/-- download_takahasi.py:128-130: `f"takahasi_{int(2**nres)}_{realisation:03}_zs{redshift_id}_kappa.fits"`. -/
def fitsName (s : SimSettings) : List Char :=
  ['t', 'a', 'k', 'a', 'h', 'a', 's', 'i', '_'] ++ (Nat.toDigits 10 (2 ^ s.nres) ++ '_' :: (pad3 s.realisation ++
    ['_', 'z', 's'] ++ (Nat.toDigits 10 s.redshift ++ ['_', 'k', 'a', 'p', 'p', 'a', '.', 'f', 'i', 't', 's'])))

/-- The name binary_to_fits writes to (download_takahasi.py:96). -/
def outputName : List Char := ['o', 'u', 't', 'p', 'u', 't', '.', 'f', 'i', 't', 's']

/-- `s.find(sub)`: the first position at which `sub` occurs, `-1` if there is none. -/
def pyFind (sub : List Char) : List Char → ℤ
  | [] => if sub = [] then 0 else -1
  | c :: s => if sub <+: c :: s then 0 else if pyFind sub s = -1 then -1 else pyFind sub s + 1

/-- `int(s)` for a string of decimal digits; anything else raises (signs, blanks and underscores, which `int` accepts in places, do not
occur behind "nres" in the names of the script). -/
def pyIntDigits (s : List Char) : Py ℕ :=
  if s ≠ [] ∧ ∀ c ∈ s, c.isDigit then .ok (Nat.ofDigitChars 10 s 0) else .error .ValueError

/-- The fixed part of the address (download_takahasi.py:106). -/
def urlBase : List Char := "http://cosmo.phys.hirosaki-u.ac.jp/takahasi/allsky_raytracing/sub1/nres".toList

/-- download_takahasi.py:104-106: `ind = filename.find("nres")`, `nres = int(filename[ind + 4 : ind + 6])` and the address. -/
def downloadUrl (filename : List Char) : Py (List Char) :=
  let ind := pyFind ['n', 'r', 'e', 's'] filename
  match pyIntDigits (slice filename (ind + 4).toNat (ind + 6).toNat) with
  | .error e => .error e
  | .ok nres => .ok (urlBase ++ (Nat.toDigits 10 nres ++ '/' :: filename))

/-- The answer to `requests.get(url, stream=True)`: whether it has a `Content-Length`, what arrives, and the exception with which the
connection breaks, if it does.  The status code is not looked at by the code. -/
structure Response (W : Type) where
  hasLength : Bool
  arrives : List W
  broken : Option PyErr

/-- A run: the successive states of the disk (the start excluded) and the result. -/
structure DiskRun (W : Type) where
  states : List (SimDisk W)
  result : Py Unit

/-- The disk at the end of a run that started with `D`. -/
def DiskRun.final {W : Type} (r : DiskRun W) (D : SimDisk W) : SimDisk W := r.states.getLastD D

/-- Sequential composition: the second part runs on the disk the first part left, unless it raised. -/
def DiskRun.next {W : Type} (r : DiskRun W) (D : SimDisk W) (k : SimDisk W → DiskRun W) : DiskRun W :=
  match r.result with
  | .error e => ⟨r.states, .error e⟩
  | .ok () => ⟨r.states ++ (k (r.final D)).states, (k (r.final D)).result⟩

/-- download_takahasi.py:99-111 `download_binary`: the address, the request, `int(r.headers.get("Content-Length"))` (`int(None)` raises
`TypeError`), `open(filename, "wb")` and the copying. -/
def downloadBinary {W : Type} (fetch : List Char → Py (Response W)) (filename : List Char) (D : SimDisk W) : DiskRun W :=
  match downloadUrl filename with
  | .error e => ⟨[], .error e⟩
  | .ok url =>
    match fetch url with
    | .error e => ⟨[], .error e⟩
    | .ok resp =>
      if resp.hasLength then
        ⟨(List.range (resp.arrives.length + 1)).map fun k => D.put filename (.words (resp.arrives.take k)),
          match resp.broken with
          | some e => .error e
          | none => .ok ()⟩
      else ⟨[], .error .TypeError⟩

/-- `12 * nside**2` for some `nside`: the map sizes healpy accepts. -/
def HealpixSize (k : ℕ) : Prop := ∃ m, 0 < m ∧ k = 12 * m ^ 2

open Classical in
/-- download_takahasi.py:16-96 with the disk: reading the binary file, and `hp.fitsfunc.write_map("output.fits", kappa)`, which refuses to
overwrite a file and to write an array that is no map (healpy 1.16). -/
noncomputable def convertFile {W : Type} (int64 : W → W → ℤ) (filename : List Char) (D : SimDisk W) : DiskRun W :=
  match D filename with
  | some (.words l) =>
    match binaryToFits int64 l with
    | .error e => ⟨[], .error e⟩
    | .ok (kappa, _, _, _) =>
      if (D outputName).isSome then ⟨[], .error (.Other "OSError")⟩
      else if ¬ HealpixSize kappa.length then ⟨[], .error .TypeError⟩
      else ⟨[D.put outputName .cutFits, D.put outputName (.fits kappa)], .ok ()⟩
  | some _ => ⟨[], .error (.Other "not a binary file")⟩
  | none => ⟨[], .error (.Other "FileNotFoundError")⟩

/-- download_takahasi.py:131-139: the script after the checks. -/
noncomputable def simScript {W : Type} (int64 : W → W → ℤ) (fetch : List Char → Py (Response W)) (s : SimSettings) (D : SimDisk W) : DiskRun W :=
  if (D (fitsName s)).isSome then ⟨[], .ok ()⟩
  else
    let first : DiskRun W := if (D (binName s)).isSome then ⟨[], .ok ()⟩ else downloadBinary fetch (binName s) D
    first.next D fun D1 => (convertFile int64 (binName s) D1).next D1 fun D2 => ⟨[D2.rename outputName (fitsName s)], .ok ()⟩

end Pxmcmc
