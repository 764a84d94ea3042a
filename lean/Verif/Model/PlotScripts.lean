import Verif.Model.Plotting
import Verif.Model.Scripts

/-!
# Model of further parts of the plot scripts

What is computed from the maximum a posteriori map after it has been drawn, colour limits of the difference plots, the credible
intervals of `phasevel/plot.py`, and the figure numbers of `mollview`.
-/

namespace Pxmcmc

/-! ## Arithmetic with NaN -/

/-- `a - b` for possibly-NaN numbers. -/
noncomputable def pixSub : Pixel → Pixel → Pixel
  | some u, some v => some (u - v)
  | _, _ => none

/-- `a * m` for a boolean `m` (NaN times False is NaN). -/
noncomputable def pixMask : Pixel → Bool → Pixel
  | some u, m => some (if m then u else 0)
  | none, _ => none

/-- Python's `min(a, 100)`: `100` only if `100 < a`, which is false for NaN. -/
noncomputable def pyMinHundred : Pixel → Pixel
  | some u => if 100 < u then some 100 else some u
  | none => none

/-- `max([abs(np.min(d)), np.max(d)])` (earthtopography/plot.py:89, 127; the inner part of phasevel/plot.py:82 and
weaklensing/plot.py:111, 165). -/
noncomputable def diffRange (d : List Pixel) : Py Pixel := do
  let lo ← npMinPix d
  let hi ← npMaxPix d
  .ok (pyMax2 (lo.map fun x => |x|) hi)

/-- `cbar_end = min(max([abs(np.min(d)), np.max(d)]), 100)` (phasevel/plot.py:82, weaklensing/plot.py:111, 165). -/
noncomputable def cbarEnd (d : List Pixel) : Py Pixel := do
  let e ← diffRange d
  .ok (pyMinHundred e)

/-! ## `weaklensing/plot.py` -/

/-- `build_mask(L, size=20).astype(bool)` as an array (weaklensing/plot.py:85-86). -/
noncomputable def plotMask (galb : ℝ → ℝ → ℝ) (L : ℕ) : NdArr Bool :=
  ⟨[L, 2 * L - 1], (buildMask galb L 20).flatten.map fun x => decide (x ≠ 0)⟩

/-- weaklensing/main.py:91 `build_mask(L, size=10)` as `WeakLensing` keeps it, `mask.astype(bool)` (measurements.py:199): the pixels
with data. -/
noncomputable def mainMask (galb : ℝ → ℝ → ℝ) (L : ℕ) : NdArr Bool :=
  ⟨[L, 2 * L - 1], (buildMask galb L 10).flatten.map fun x => decide (x ≠ 0)⟩

/-- weaklensing/plot.py:79-86: the mask at the bandlimit of the results and the one used for drawing. -/
noncomputable def wlPlotMasks (galb : ℝ → ℝ → ℝ) (L : ℕ) (noMask : Bool) : NdArr Bool × NdArr Bool :=
  if noMask then
    let m : NdArr Bool := ⟨[L, 2 * L - 1], List.replicate (L * (2 * L - 1)) true⟩
    (m, if L < 256 then ⟨[256, 511], List.replicate (256 * 511) true⟩ else m)
  else (plotMask galb L, if L < 256 then plotMask galb 256 else plotMask galb L)

/-- `norm(preds - obs)/norm(obs)` squared when some entries may be NaN: any NaN makes the result NaN. -/
noncomputable def relSqErrorNan (preds obs : List (Option ℂ)) : Py (Option ℝ) :=
  match preds.mapM id, obs.mapM id with
  | some p, some o => (relSqError p o).map some
  | _, _ => .ok none

/-- What `weaklensing/plot.py` draws, prints and saves about the maximum a posteriori map. -/
structure WlMapOut where
  /-- the array saved as `MAP.npy` (line 199) -/
  saved : NdArr Pixel
  /-- the array saved as `diff.npy` (line 201) -/
  diff : List Pixel
  /-- upper colour limit of the difference plot (line 111) -/
  cbar : Pixel
  /-- the printed `MAP R2E` (line 191); `none` is printed as `nan` -/
  r2e : Option ℝ

/-- weaklensing/plot.py:79-120, 187-201 for the map `m` (the script's own array `MAP`, real, line 97): masks, drawing of the map,
difference with the truth, colour limit, predictions and relative error, saved arrays.  `W` is `wl.forward` on arrays that may
contain NaN, `obs` the data computed from the truth; `truth` stands for its real part, the only part `diff` keeps. -/
noncomputable def wlMapSummary (S : PlotSsht) (galb : ℝ → ℝ → ℝ) (L : ℕ) (noMask : Bool) (W : List Pixel → List (Option ℂ))
    (obs : List (Option ℂ)) (m : NdArr Pixel) (truth : List Pixel) : Py WlMapOut :=
  let masks := wlPlotMasks galb L noMask
  -- the script's variable `MAP` is at address 0, address 1 is free
  let r := plotMap S (fun a => if a = 0 then some m else none) 0 1
    { title := some "Maximum a posetriori solution", vmin := none, vmax := none, oversample := decide (L < 256),
      centre0 := false, mask := some ⟨masks.2.shape, masks.2.data.map not⟩ }
  match r.2 with
  | .error e => .error e
  | .ok _ => do
    let map := (r.1 0).getD m
    let diff ← (do if truth.length = map.data.length then .ok (List.zipWith pixSub truth map.data) else .error .ValueError : Py (List Pixel))
    let cbar ← cbarEnd (List.zipWith pixMask diff masks.1.data)
    let r2e ← relSqErrorNan (W map.data) obs
    .ok ⟨map, diff, cbar, r2e⟩

/-! ## `phasevel/plot.py` -/

/-- phasevel/plot.py:106-109: the range drawn as "95% credible interval range". -/
noncomputable def phasevelCi (C : SampleArr ℝ) : Py (List ℝ) := do
  let alpha : ℝ := 1 / 100
  if ¬ (0 ≤ alpha / 2 ∧ alpha / 2 ≤ 1) ∨ ¬ (0 ≤ 1 - alpha / 2 ∧ 1 - alpha / 2 ≤ 1) then throw .ValueError
  if C.nsamples = 0 then throw .IndexError
  C.cols.mapM fun c => do
    let lo ← npQuantile (· ≤ ·) c (alpha / 2)
    let hi ← npQuantile (· ≤ ·) c (1 - alpha / 2)
    return hi - lo

/-! ## `mollview` -/

/-- matplotlib's figure manager as seen by `plt.figure(num=i)`: an existing figure with that number is made current and
returned, otherwise a new one is made.  Figures are named by the call that made them. -/
abbrev FigMgr := ℕ → Option ℕ

/-- plotting.py:128-136 `mollview`, the `k`-th figure-making call: draws the number `i` below 1000 from the global generator, gets
figure `i`, draws on it (healpy's drawing is left out).  Returns generator state, figures and the figure returned. -/
def mollview {σ : Type} (randint : ℕ → σ → ℕ × σ) (k : ℕ) (s : σ) (F : FigMgr) : σ × FigMgr × ℕ :=
  let r := randint 1000 s
  match F r.1 with
  | some fig => (r.2, F, fig)
  | none => (r.2, fun i => if i = r.1 then some k else F i, k)

/-- Successive calls of `mollview` without closing figures: the figures returned. -/
def mollviews {σ : Type} (randint : ℕ → σ → ℕ × σ) : ℕ → ℕ → σ → FigMgr → List ℕ
  | 0, _, _, _ => []
  | n + 1, k, s, F =>
    let r := mollview randint k s F
    r.2.2 :: mollviews randint n (k + 1) r.1 r.2.1

end Pxmcmc
