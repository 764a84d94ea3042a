import Verif.Model.Operators
import Verif.Model.Sampler

/-!
# Model of the decision and data-flow parts of `experiments/*/main.py` and `experiments/*/plot.py`

File input, argument parsing, drawing and the pys2let/pyssht/healpy transforms are parameters or omitted.
-/

namespace Pxmcmc

/-! ## `main.py` of the three experiments: operator and prior -/

/-- experiments/earthtopography/main.py:118-120, 140-148: operator, then prior with threshold `lmda*mu`.  The value is the operator and
the prior together with the heap that holds the prior's threshold array.  `bls` are the multiresolution bandlimits. -/
noncomputable def topoSetup {n : ℕ} (px lm : S2Routines) (empty : List ℂ) (bls : List ℕ) (data : DataVec n) (sig : SigD)
    (setting : String) (L : ℕ) (lmda mu : ℝ) : Py (ForwardOp n × Heap ℝ × S2L1) := do
  let F ← waveletOperator px lm empty data sig setting L
  let P ← S2L1.init (fun _ => none) setting (.float (lmda * mu)) bls 0
  .ok (F, P.1, P.2)

/-- experiments/weaklensing/main.py:96-107, 122-130: transform, operator (with `nparams=transform.ncoefs` in both settings), prior. `meas`
is the `WeakLensing` object's pair of operators, `sig` the argument `1 / measurement.inv_cov`. -/
noncomputable def lensingSetup {n : ℕ} (px lm : S2Routines) (empty : List ℂ) (bls : List ℕ) (meas : OpPair) (data : DataVec n)
    (sig : SigD) (setting : String) (lmda mu : ℝ) : Py (ForwardOp n × Heap ℝ × S2L1) := do
  let T ← WaveletTransform.init px lm false empty
  let F ← ForwardOp.init data sig setting (some ⟨T.inverse, T.inverseAdjoint⟩) (some meas) (some T.ncoefs)
  let P ← S2L1.init (fun _ => none) setting (.float (lmda * mu)) bls 0
  .ok (F, P.1, P.2)

/-- experiments/phasevel/main.py:143, 160-169: operator, then the power-weighted prior. -/
noncomputable def phasevelSetup {n r c : ℕ} (px lm : S2Routines) (empty : List ℂ) (phi : List ℂ) (psis : List (List ℂ))
    (bls bls1 peaks : List ℕ) (eta : ℝ) (A : Matrix (Fin r) (Fin c) ℂ) (data : DataVec n) (sig : SigD) (setting : String)
    (L : ℕ) (lmda mu : ℝ) : Py (ForwardOp n × Heap ℝ × S2L1) := do
  let F ← pathOperator px lm empty A data sig setting L
  let P ← S2L1.initPower (fun _ => none) setting (.float (lmda * mu)) phi psis bls bls1 peaks eta 0
  .ok (F, P.1, P.2)

/-! ## `earthtopography/main.py`: noise and input formats -/

/-- experiments/earthtopography/main.py:91-103: `sig_d`.  `areas` are the pixel areas and `block` says which pixels lie in the
African block (both flattened; `Model/TopoBlock.lean` computes it); the scaling is applied only if it is not zero. -/
noncomputable def topoSig (sigma : ℝ) (scale : ℤ) (areas : List ℝ) (block : List Bool) : List ℝ :=
  (areas.zip block).map fun ab =>
    if scale ≠ 0 ∧ ab.2 = true then √(sigma ^ 2 / ab.1) * (scale : ℝ) else √(sigma ^ 2 / ab.1)

/-- experiments/earthtopography/main.py:104: `noise = np.random.normal(0, sig_d)`, i.e. `sig_d` times standard normal numbers
`z`; a negative scale raises `ValueError`. -/
noncomputable def topoNoise (sig z : List ℝ) : Py (List ℝ) :=
  if ∃ s ∈ sig, s < 0 then .error .ValueError else .ok (List.zipWith (· * ·) sig z)

/-- experiments/earthtopography/main.py:105 and 119: the data given to the operator, `(topo_d + noise) / 1000`. -/
noncomputable def topoData (topo : List ℂ) (noise : List ℝ) : List ℂ :=
  (List.zipWith (fun (t : ℂ) (e : ℝ) => t + (e : ℂ)) topo noise).map (· / 1000)

/-- numpy's broadcasting of two shapes, aligned at the end (arguments reversed: last axis first). -/
def bcastRev : List ℕ → List ℕ → Option (List ℕ)
  | [], b => some b
  | a, [] => some a
  | a :: as, b :: bs =>
    match bcastRev as bs with
    | none => none
    | some r => if a = b then some (a :: r) else if a = 1 then some (b :: r) else if b = 1 then some (a :: r) else none

/-- numpy's broadcasting of two shapes. -/
def bcastShape (a b : List ℕ) : Py (List ℕ) :=
  match bcastRev a.reverse b.reverse with
  | none => .error .ValueError
  | some r => .ok r.reverse

/-- `x += y` on arrays with these shapes: the result must have the shape of `x`. -/
def iaddShape (a b : List ℕ) : Py (List ℕ) := do
  let r ← bcastShape a b
  if r = a then .ok a else .error .ValueError

/-- The two input formats of experiments/earthtopography/main.py:79-87. -/
inductive TopoFormat where
  | hpx | mw

/-- experiments/earthtopography/main.py:79-85: shape of `topo_d`. `alm2map_mw` returns a 1-D array, the MW branch reshapes an
array with `size` entries. -/
def topoShape (L size : ℕ) : TopoFormat → Py (List ℕ)
  | .hpx => .ok [L * (2 * L - 1)]
  | .mw => if size = L * (2 * L - 1) then .ok [L, 2 * L - 1] else .error .ValueError

/-- Shapes only: experiments/earthtopography/main.py:79-120 and the first gradient evaluation of the run in the synthesis
setting.  `sig_d` is 1-D with `noise` and a float otherwise; `len(data)` is the first axis (forward.py:84-85, 109); the
prediction is `eye(len(data), mw_size(L)).dot(image)`, and forward.py:68 computes `preds - self.data`. -/
def topoResidualShape (L size : ℕ) (fmt : TopoFormat) (noise : Bool) : Py (List ℕ) := do
  let s ← topoShape L size fmt
  let s ← (if noise then iaddShape s [L * (2 * L - 1)] else .ok s : Py (List ℕ))
  let ndata := s.headD 0
  if noise = true ∧ ndata ≠ L * (2 * L - 1) then throw .TypeError
  bcastShape [ndata] s

/-! ## `plot.py` -/

/-- experiments/earthtopography/plot.py:40-41 `filename(name)`: one parameter. Arguments as given by the caller. -/
def topoFilename (dir suffix : String) : List String → Py String
  | [name] => .ok (dir ++ "/" ++ name ++ suffix ++ ".png")
  | _ => .error .TypeError

/-- experiments/phasevel/plot.py:41-42 and experiments/weaklensing/plot.py:45-46 `filename(name, ext="png")`. -/
def plotFilename (dir suffix : String) : List String → Py String
  | [name] => .ok (dir ++ "/" ++ name ++ suffix ++ ".png")
  | [name, ext] => .ok (dir ++ "/" ++ name ++ suffix ++ "." ++ ext)
  | _ => .error .TypeError

/-- The five `np.save(filename(name, "npy"), array)` calls of each plot script (earthtopography/plot.py:153-157, phasevel/plot.py:169-173,
weaklensing/plot.py:198-202): the files written and their
contents, in order (`filename` is evaluated before the file is written). -/
def saveNpy {α : Type} (filename : List String → Py String) (mean MAP ci diff diffMean : α) :
    Py (List (String × α)) :=
  [("mean", mean), ("MAP", MAP), ("CI", ci), ("diff", diff), ("diff_mean", diffMean)].mapM fun p => do
    let f ← filename [p.1, "npy"]
    .ok (f, p.2)

/-- `chain_pix[i] = v` on a 2-D array given by its rows. -/
def setRow (cplx : Bool) (npix : ℕ) (rows : List (List ℂ)) (i : ℕ) (v : List ℂ) : Py (List (List ℂ)) :=
  if i < rows.length then do
    let r ← rowAssign npix v
    .ok (rows.set i (r.map (store cplx)))
  else .error .IndexError

/-- The loop `for i, sample in enumerate(...)` filling `chain_pix`. -/
def fillRows (cplx : Bool) (npix : ℕ) (toPix : List ℂ → Py (List ℂ)) : List (List ℂ) → ℕ → List (List ℂ) →
    Py (List (List ℂ))
  | rows, _, [] => .ok rows
  | rows, i, s :: ss => do
    let v ← toPix s
    let rows' ← setRow cplx npix rows i v
    fillRows cplx npix toPix rows' (i + 1) ss

/-- experiments/earthtopography/plot.py:105-112, phasevel/plot.py:96-103, weaklensing/plot.py:127-135: the samples after burn-in
as images.  `cplx` is the dtype of `chain_pix` (complex only for weak lensing), `toPix` the inverse transform or a copy. -/
def chainPix (cplx : Bool) (nsamples burn : ℤ) (npix : ℕ) (toPix : List ℂ → Py (List ℂ)) (chain : List (List ℂ)) :
    Py (List (List ℂ)) :=
  if nsamples - burn < 0 then .error .ValueError
  else fillRows cplx npix toPix (List.replicate (nsamples - burn).toNat (List.replicate npix 0)) 0 (sliceFrom chain burn)

/-- A float that may be NaN (`none`). -/
abbrev NFloat := Option ℝ

open Classical in
/-- `a > b` on floats. -/
noncomputable def NFloat.gt : NFloat → NFloat → Bool
  | some a, some b => decide (b < a)
  | _, _ => false

open Classical in
/-- `a == b` on floats. -/
noncomputable def NFloat.eq : NFloat → NFloat → Bool
  | some a, some b => decide (a = b)
  | _, _ => false

/-- Python's `max(iterable)`: keeps the first item that no later item exceeds. -/
noncomputable def pyMax : List NFloat → Py NFloat
  | [] => .error .ValueError
  | x :: xs => .ok (xs.foldl (fun m y => if y.gt m then y else m) x)

/-- `MAP_idx = np.where(logpi == max(logpi)); MAP_X = file["chain"][MAP_idx][0]` (earthtopography/plot.py:75-76,
phasevel/plot.py:61-62, weaklensing/plot.py:89-90).  An empty selection makes the final `[0]` raise `IndexError`. -/
noncomputable def mapSample {α : Type} (logpi : List NFloat) (chain : List α) : Py α := do
  let m ← pyMax logpi
  let sel := ((logpi.zip chain).filter fun p => p.1.eq m).map fun p => p.2
  match sel with
  | [] => .error .IndexError
  | x :: _ => .ok x

open Classical in
/-- The truth value of an array with the given entries: more than one entry raises `ValueError`; numpy 1.24 takes an empty
array as false. -/
noncomputable def arrTruth : List ℝ → Py Bool
  | [] => .ok false
  | [x] => .ok (decide (x ≠ 0))
  | _ => .error .ValueError

/-- experiments/earthtopography/plot.py:138: `"noise" in params and params["noise"]`; the attribute is the scalar 0 of
main.py:109 or the noise array.  The value says whether the noise map is plotted. -/
noncomputable def plotsNoise : Option (ℝ ⊕ List ℝ) → Py Bool
  | none => .ok false
  | some (.inl x) => arrTruth [x]
  | some (.inr xs) => arrTruth xs

/-! ## `phasevel/main.py`: reading the data -/

/-- One row of the data file: start latitude and longitude, stop latitude and longitude, datum, error, minor/major, number of
similar paths. -/
structure PathRow where
  startLat : ℝ
  startLon : ℝ
  stopLat : ℝ
  stopLon : ℝ
  datum : ℝ
  err : ℝ
  mima : ℝ
  nsim : ℝ

/-- What `read_datafile` returns, and whether it warned. -/
structure PathData where
  start : List (ℝ × ℝ)
  stop : List (ℝ × ℝ)
  data : List ℝ
  sig : List ℝ
  mima : List ℝ
  nsim : List ℝ
  warned : Bool

open Classical in
/-- experiments/phasevel/main.py:23-37 `read_datafile`.  `np.loadtxt(..., unpack=True)` squeezes: a file with one row gives eight
scalars, on which `np.stack(..., axis=1)` raises `AxisError`; a file without rows cannot be unpacked (`ValueError`). -/
noncomputable def readDatafile (rows : List PathRow) : Py PathData :=
  match rows with
  | [] => .error .ValueError
  | [_] => .error (.Other "AxisError")
  | _ =>
    let sig := rows.map PathRow.err
    let neg : Bool := decide (∃ s ∈ sig, s < 0)
    .ok ⟨rows.map fun r => (r.startLat, r.startLon), rows.map fun r => (r.stopLat, r.stopLon), rows.map PathRow.datum,
      if neg then sig.map fun s => |s| else sig, rows.map PathRow.mima, rows.map PathRow.nsim, neg⟩

/-- experiments/phasevel/main.py:50-59 `get_path_matrix`: one row per pair (`starmap` keeps the order; `build_path` is a
parameter). -/
def getPathMatrix {α : Type} (buildPath : ℝ × ℝ → ℝ × ℝ → ℕ → α) (start stop : List (ℝ × ℝ)) (L : ℕ) : List α :=
  (start.zip stop).map fun p => buildPath p.1 p.2 L

/-- experiments/phasevel/main.py:138-139: `sig_d *= np.sqrt(nsim)`. -/
noncomputable def applyNsim (sig nsim : List ℝ) : List ℝ := List.zipWith (fun s k => s * √k) sig nsim

end Pxmcmc
