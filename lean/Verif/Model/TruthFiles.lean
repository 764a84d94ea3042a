import Verif.Model.PlotScripts
import Verif.Model.Measurements
import Verif.Model.Experiments

/-!
# Files that the example scripts take their data and ground truths from

The `main.py` scripts are told the name of their input; the `plot.py` scripts open files with fixed names in the working directory.
-/

namespace Pxmcmc

/-- The input files, by name: healpix maps (`fits`, of any type), tables of paths (`txt`), path matrices (`npz`), arrays (`npy`). -/
structure ExpFiles (K : Type) where
  fits : String → Option K
  txt : String → Option (List PathRow)
  npz : NpzDisk
  npy : String → Option (NdArr ℂ)

/-- Opening a file. -/
def openFile {α : Type} (f : Option α) : Py α :=
  match f with
  | none => .error (.Other "FileNotFoundError")
  | some x => .ok x

/-! ## `weaklensing` -/

/-- weaklensing/main.py:91-93 and `load_gammas` (lines 23-39): the data of the run.  `pipe` stands for bandlimiting, smoothing and
sampling the healpix map at bandlimit `L` (lines 32-37, flattened), `T` for pyssht at that bandlimit; every pixel has 30 galaxies. -/
noncomputable def wlRunData {K : Type} (T : Ssht) (pipe : K → ℕ → List ℂ) (galb : ℝ → ℝ → ℝ) (F : ExpFiles K) (infile : String) (L : ℕ) :
    Py (List ℂ) := do
  let w ← WL.init L (some (mainMask galb L)) (some ⟨[L, 2 * L - 1], List.replicate (L * (2 * L - 1)) 30⟩)
  let kappa ← openFile (F.fits infile)
  w.forward T (pipe kappa L)

/-- weaklensing/plot.py:70-74, 79-86, 187-188: the data that the predictions of the results are compared with.  Lines 71-74 repeat
`load_gammas`. -/
noncomputable def wlPlotObs {K : Type} (T : Ssht) (pipe : K → ℕ → List ℂ) (galb : ℝ → ℝ → ℝ) (F : ExpFiles K) (L : ℕ) (noMask : Bool) :
    Py (List ℂ) := do
  let kappa ← openFile (F.fits "takahasi_4096_000_zs16_kappa.fits")
  let w ← WL.init L (some (wlPlotMasks galb L noMask).1) none
  w.forward T (pipe kappa L)

/-! ## `phasevel` -/

/-- phasevel/main.py:128-142: path matrix and data of the run, and the matrices on disk afterwards. -/
noncomputable def phasevelRun {K : Type} (buildPath : ℝ × ℝ → ℝ × ℝ → ℕ → List ℝ) (F : ExpFiles K) (infile pathsfile : String) (L : ℕ) :
    Py (SparseMat × List ℝ) × ExpFiles K :=
  match openFile (F.txt infile) with
  | .error e => (.error e, F)
  | .ok rows =>
    let r := phasevelPaths buildPath F.npz pathsfile rows L
    (do let A ← r.1
        let d ← readDatafile rows
        .ok (A, d.data), { F with npz := r.2 })

/-- phasevel/plot.py:79-80 and 155-165: the difference with the truth (shapes only), then the relative squared error of the map `m`, of
shape `(L, 2L-1)`.  `np.loadtxt` of a file with one row is 1-D, which `[:, 4]` does not index. -/
noncomputable def phasevelError {K : Type} (F : ExpFiles K) (L : ℕ) (m : List ℂ) : Py ℝ := do
  let truth ← openFile (F.npy "GDM40_L28.npy")
  let _ ← bcastShape truth.shape [L, 2 * L - 1]
  let A ← openFile (F.npz "0S254L28.npz")
  let rows ← openFile (F.txt "synthetic_GDM40_0S254_L28.txt")
  if rows.length ≤ 1 then throw .IndexError
  let obs := rows.map fun r => (r.datum : ℂ)
  let preds ← pathForward A.toMatrix m
  relSqError preds obs

/-! ## `earthtopography` -/

/-- earthtopography/main.py:79-87 and 119, without noise: the data of the run.  `alm` is `lm_hp2lm(hp.map2alm(·, L - 1), L)`, `synth`
is `alm2map_mw`. -/
noncomputable def topoRunData {K : Type} (alm : K → ℕ → List ℂ) (synth : List ℂ → ℕ → List ℂ) (F : ExpFiles K) (infile : String)
    (L : ℕ) : Py (List ℂ) :=
  if "_hpx_".toList <:+: infile.toList then do
    let topo ← openFile (F.fits infile)
    .ok ((synth (alm topo L) L).map (· / 1000))
  else if "_mw_".toList <:+: infile.toList then do
    let topo ← openFile (F.npy infile)
    if topo.data.length = L * (2 * L - 1) then .ok (topo.data.map (· / 1000)) else .error .ValueError
  else .error .ValueError

/-- earthtopography/plot.py:67-68: the truth that the results are compared with; `inv` is `pyssht.inverse(·, L, Reality=True)`. -/
noncomputable def topoTruth {K : Type} (alm : K → ℕ → List ℂ) (inv : List ℂ → ℕ → List ℝ) (F : ExpFiles K) (L : ℕ) : Py (List ℝ) := do
  let topo ← openFile (F.fits "ETOPO1_Ice_hpx_256.fits")
  .ok ((inv (alm topo L) L).map (· / 1000))

end Pxmcmc
