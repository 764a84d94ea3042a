import Verif.Model.PlotScripts

/-!
# Model of `experiments/phasevel/plot.py`: credible interval ranges per wavelet scale

Lines 118-134: the ranges, the common upper colour limit and the figures, with the names they are saved under.
-/

namespace Pxmcmc

/-- A real map without NaN as `plot_map` gets it. -/
def toPixels (m : NdArr ℝ) : NdArr Pixel := ⟨m.shape, m.data.map some⟩

/-- experiments/phasevel/plot.py:122-124: the common upper colour limit, `v` being the value of `vmax` so far. -/
noncomputable def commonVmax (S : PlotSsht) : List (NdArr Pixel) → Pixel → Py Pixel
  | [], v => .ok v
  | m :: ms, v => do
    let g ← oversampleMap S m 256
    let x ← npMaxPix g.data
    commonVmax S ms (pyMax2 v x)

/-- experiments/phasevel/plot.py:126-130: the title of figure `i`. -/
def scaleTitle (i : ℕ) : String :=
  if i = 0 then "95% credible interval range" ++ " Scaling function"
  else "95% credible interval range" ++ (" Wavelet scale " ++ toString i)

/-- experiments/phasevel/plot.py:125-134: one figure per scale and the file it is saved in, `i` counting the scales.  The map is
handed to `plot_map` at address 0 of a memory that holds nothing else; titles, colour limits as in the call, other options at
their defaults (`cmap` is left out). -/
noncomputable def scaleFigLoop (S : PlotSsht) (dir suffix : String) (vmax : Pixel) :
    List (NdArr Pixel) → ℕ → Py (List (String × MapFig))
  | [], _ => .ok []
  | m :: ms, i => do
    let fig ← (plotMap S (fun a => if a = 0 then some m else none) 0 1
      ⟨some (scaleTitle i), some (some 0), some vmax, true, false, none⟩).2
    let name ← plotFilename dir suffix ["ci_map_scale" ++ toString i]
    let rest ← scaleFigLoop S dir suffix vmax ms (i + 1)
    .ok ((name, fig) :: rest)

/-- experiments/phasevel/plot.py:119-134 for the samples `C` after burn-in (real, since `complex=False` in main.py:153); `bls` is what
`_multires_bandlimits` returns.  The level is the default of `wavelet_credible_interval_range`, 0.05. -/
noncomputable def scaleCiFigs (S : PlotSsht) (dir suffix : String) (C : SampleArr ℝ) (bls : List ℕ) :
    Py (List (String × MapFig)) := do
  let maps ← waveletCredibleIntervalRange (· ≤ ·) C bls (1 / 20)
  let vmax ← commonVmax S (maps.map toPixels) (some 0)
  scaleFigLoop S dir suffix vmax (maps.map toPixels) 0

end Pxmcmc
