import Verif.Model.Uncertainty

/-!
# Model of `pxmcmc/plotting.py`

What the functions compute before they hand over to matplotlib: the array given to the projection, colour limits, titles, and
the effect on the caller's arrays.  pyssht and matplotlib are parameters or left out.
-/

namespace Pxmcmc

/-- A pixel of a real map; `none` is NaN. -/
abbrev Pixel := Option ℝ

/-- The larger of two pixels, NaN if one is NaN (`np.maximum`). -/
noncomputable def pixMax : Pixel → Pixel → Pixel
  | some u, some v => some (max u v)
  | _, _ => none

/-- The smaller of two pixels, NaN if one is NaN (`np.minimum`). -/
noncomputable def pixMin : Pixel → Pixel → Pixel
  | some u, some v => some (min u v)
  | _, _ => none

/-- numpy's `max` of an array: NaN if any entry is NaN; an empty array raises. -/
noncomputable def npMaxPix (l : List Pixel) : Py Pixel :=
  match l with
  | [] => .error .ValueError
  | x :: xs => .ok (xs.foldl pixMax x)

/-- numpy's `min`, likewise. -/
noncomputable def npMinPix (l : List Pixel) : Py Pixel :=
  match l with
  | [] => .error .ValueError
  | x :: xs => .ok (xs.foldl pixMin x)

/-- Python's `max([a, b])`: `b` only if `b > a`, which is false for NaN. -/
noncomputable def pyMax2 (a b : Pixel) : Pixel :=
  match a, b with
  | some u, some v => if u < v then some v else some u
  | _, _ => a

/-- The blocks of `b` consecutive entries selected by the mask are replaced by NaN. -/
def nanBlocks (b : ℕ) : List Pixel → List Bool → List Pixel
  | data, [] => data
  | data, m :: ms => (if m then (data.take b).map (fun _ => none) else data.take b) ++ nanBlocks b (data.drop b) ms

/-- `f[mask] = np.nan` for a boolean mask. -/
def maskNan (f : NdArr Pixel) (mask : NdArr Bool) : Py (NdArr Pixel) :=
  if mask.shape <+: f.shape then
    .ok ⟨f.shape, nanBlocks (f.shape.drop mask.shape.length).prod f.data mask.data⟩
  else .error .IndexError

/-- The pyssht routines used for plotting, for real signals: harmonic transform at a bandlimit and its inverse. -/
structure PlotSsht where
  forward : NdArr Pixel → ℕ → Py (List ℂ)
  inverse : List ℂ → ℕ → Py (NdArr Pixel)

/-- plotting.py:189-193 `_oversample`. -/
noncomputable def oversampleMap (S : PlotSsht) (f : NdArr Pixel) (L : ℕ) : Py (NdArr Pixel) :=
  match f.shape with
  | [] => .error .IndexError
  | L0 :: _ => do
    let flm ← S.forward f L0
    -- `np.zeros` of a negative size raises
    if L ^ 2 < L0 ^ 2 then .error .ValueError
    else S.inverse (flm ++ List.replicate (L ^ 2 - L0 ^ 2) 0) L

/-- Options of `plot_map` that matter before drawing. -/
structure MapOpts where
  title : Option String
  vmin : Option Pixel
  vmax : Option Pixel
  oversample : Bool
  centre0 : Bool
  mask : Option (NdArr Bool)

/-- What is drawn: the array projected (with its bandlimit), the colour limits given to `imshow` and the title. -/
structure MapFig where
  data : NdArr Pixel
  L : ℕ
  title : Option String
  vmin : Option Pixel
  vmax : Option Pixel

/-- Memory: arrays by address. -/
abbrev MapHeap := ℕ → Option (NdArr Pixel)

/-- plotting.py:50-54: the address of the array `f` now refers to and the bandlimit.  The oversampled array is new (address
`fresh`), otherwise `f` is still the caller's array. -/
noncomputable def plotSource (S : PlotSsht) (h : MapHeap) (a fresh : ℕ) (f : NdArr Pixel) (over : Bool) :
    Py (MapHeap × ℕ × NdArr Pixel × ℕ) :=
  if over then do
    let g ← oversampleMap S f 256
    .ok (fun b => if b = fresh then some g else h b, fresh, g, 256)
  else match f.shape with
    | [] => .error .IndexError
    | L :: _ => .ok (h, a, f, L)

/-- plotting.py:56-59: the colour limits. -/
noncomputable def colourRange (f : NdArr Pixel) (o : MapOpts) : Py (Option Pixel × Option Pixel) :=
  if o.centre0 then do
    let hi ← npMaxPix f.data
    let lo ← npMinPix f.data
    let e := pyMax2 hi (lo.map fun x => |x|)
    .ok (some (e.map fun x => -x), some e)
  else .ok (o.vmin, o.vmax)

/-- plotting.py:17-84 `plot_map` on the array at address `a`: the memory afterwards and the figure or exception.  Drawing
itself is assumed to succeed and not to touch arrays.  `f[mask] = nan` writes where `f` refers to. -/
noncomputable def plotMap (S : PlotSsht) (h : MapHeap) (a fresh : ℕ) (o : MapOpts) : MapHeap × Py MapFig :=
  match h a with
  | none => (h, .error (.Other "dangling"))
  | some f =>
    match plotSource S h a fresh f o.oversample with
    | .error e => (h, .error e)
    | .ok (h1, b, g, L) =>
      match colourRange g o with
      | .error e => (h1, .error e)
      | .ok (vmin, vmax) =>
        match o.mask with
        | none => (h1, .ok ⟨g, L, o.title, vmin, vmax⟩)
        | some m => match maskNan g m with
          | .error e => (h1, .error e)
          | .ok g' => (fun x => if x = b then some g' else h1 x, .ok ⟨g', L, o.title, vmin, vmax⟩)

/-! ## `plot_wavelet_maps` -/

/-- The keyword arguments passed on to `plot_map`: title and upper colour limit are changed on the way, `rest` is not. -/
structure WavMapArgs (R : Type) where
  title : Option String
  vmax : Option ℝ
  rest : R

/-- `np.max` of a complex array (numpy's lexicographic order). -/
noncomputable def npMaxC : List ℂ → Py ℂ
  | [] => .error .ValueError
  | x :: xs => .ok (xs.foldl (fun a b => if lexLe a b then b else a) x)

/-- plotting.py:114-115: the upper colour limit for the wavelet maps. -/
noncomputable def sameScaleArgs {R : Type} (fwav : List ℂ) (sameScale : Bool) (args : WavMapArgs R) : Py (WavMapArgs R) :=
  if sameScale then do
    let mx ← npMaxC fwav
    .ok { args with vmax := some mx.re }
  else .ok args

/-- plotting.py:117-123: the loop over the wavelet scales, `i` counting from 1. -/
noncomputable def wavMapLoop {R φ : Type} (plot : NdArr ℂ → WavMapArgs R → Py φ) (fwav : List ℂ) (base : String)
    (args : WavMapArgs R) : List ℕ → ℕ → ℕ → Py (List φ)
  | [], _, _ => .ok []
  | bl :: bls, i, start => do
    let m ← npReshape (slice fwav start (start + mwLength bl)) [bl, 2 * bl - 1]
    let fig ← plot m { args with title := some (base ++ " Wavelet scale " ++ toString i) }
    let rest ← wavMapLoop plot fwav base args bls (i + 1) (start + mwLength bl)
    .ok (fig :: rest)

/-- plotting.py:87-125 `plot_wavelet_maps`.  `bls` is what `_multires_bandlimits` returned, `fwav` and `fscal` what
`analysis_px2wav` returned, `plot` is `plot_map`, a title is represented by its `str`. -/
noncomputable def plotWaveletMaps {R φ : Type} (plot : NdArr ℂ → WavMapArgs R → Py φ) (bls : List ℕ) (fwav fscal : List ℂ)
    (sameScale : Bool) (args : WavMapArgs R) : Py (List φ) :=
  match bls with
  | [] => .error .IndexError
  | b0 :: bs => do
    let base := args.title.getD ""
    let m ← npReshape fscal [b0, 2 * b0 - 1]
    let fig ← plot m { args with title := some (base ++ " Scaling function") }
    let args' ← sameScaleArgs fwav sameScale args
    let rest ← wavMapLoop plot fwav base args' bs 1 0
    .ok (fig :: rest)

/-- plotting.py:150: the indices marked by `plot_evolution` (Python's `max`, then `np.where`). -/
noncomputable def mapIndices (logposteriors : List ℝ) : Py (List ℕ) :=
  match logposteriors with
  | [] => .error .ValueError
  | x :: xs =>
    let m := xs.foldl (fun a b => if a < b then b else a) x
    .ok ((List.range (xs.length + 1)).filter fun i => (x :: xs).getD i 0 = m)

end Pxmcmc
