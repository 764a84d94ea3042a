import Verif.Py
import Mathlib.Analysis.SpecialFunctions.Complex.Circle
import Mathlib.Analysis.SpecialFunctions.Trigonometric.Basic
import Mathlib.Analysis.SpecialFunctions.Log.Base

/-!
# Model of `pxmcmc/utils.py`: MW sampling, pixel areas, quadrature weights, masks, snr

`pyssht` is not modelled; the sampling positions of the MW scheme are given by their published formulas
(McEwen & Wiaux 2011, the default of `pyssht.sample_positions`).
-/

namespace Pxmcmc
open Complex

/-! ## MW sampling (pyssht) -/

/-- `pyssht.sample_positions(L)[0]`: colatitudes `θ_t = (2t+1)π/(2L-1)`, `0 ≤ t < L`. -/
noncomputable def mwThetas (L : ℕ) : List ℝ :=
  (List.range L).map fun (t : ℕ) => (2 * (t : ℝ) + 1) * Real.pi / (2 * L - 1)

/-- `pyssht.sample_positions(L)[1]`: longitudes `φ_p = 2πp/(2L-1)`, `0 ≤ p < 2L-1`. -/
noncomputable def mwPhis (L : ℕ) : List ℝ :=
  (List.range (2 * L - 1)).map fun (p : ℕ) => 2 * Real.pi * (p : ℝ) / (2 * L - 1)

/-- `pyssht.sample_length(L)` (MW): `L(2L-1)`; also `pys2let.mw_size`. -/
def mwLength (L : ℕ) : ℕ := L * (2 * L - 1)

/-! ## Areas -/

/-- utils.py:200-212 `pixel_area`. -/
noncomputable def pixelArea (r theta1 theta2 phi1 phi2 : ℝ) : ℝ :=
  r ^ 2 * (Real.cos theta1 - Real.cos theta2) * (phi2 - phi1)

/-- utils.py:215-224 `polar_cap_area`. -/
noncomputable def polarCapArea (r theta : ℝ) : ℝ := 2 * Real.pi * r ^ 2 * (1 - Real.cos theta)

/-- Consecutive pairs: `for t, x in enumerate(l[:-1]): ... l[t + 1]` (utils.py:241-244). -/
def pairs {α : Type} (l : List α) : List (α × α) := l.zip l.tail

/-- utils.py:227-246 `calc_pixel_areas`, as the list of rows.  Row 0 is overwritten by line 240, row
`t+1` by the loops of lines 241-245, so the initial zeros are never visible (for `L ≥ 1`; for `L = 0`
`thetas[0]` raises `IndexError`). -/
noncomputable def calcPixelAreas (L : ℕ) (r : ℝ) : Py (List (List ℝ)) := do
  let thetas := mwThetas L
  let nphis := (mwPhis L).length
  let phis := mwPhis L ++ [2 * Real.pi]
  let theta0 ← pyGet thetas 0
  let row0 := List.replicate nphis (polarCapArea r theta0 / nphis)
  let rows := (pairs thetas).map fun th => (pairs phis).map fun ph => pixelArea r th.1 th.2 ph.1 ph.2
  .ok (row0 :: rows)

/-! ## Quadrature -/

/-- utils.py:249-259 `mw_weights`. -/
noncomputable def mwWeights (m : ℤ) : ℂ :=
  if m = 1 then I * Real.pi / 2
  else if m = -1 then -I * Real.pi / 2
  else if m % 2 = 0 then 2 / (1 - m * m)
  else 0

/-- `np.fft.ifftshift` of a one-dimensional array: `np.roll(x, -(n // 2))`. -/
def ifftshift {α : Type} (x : List α) : List α := x.rotate (x.length / 2)

/-- `np.fft.fft`: `out[t] = Σ_k x[k] exp(-2πi k t / n)`. -/
noncomputable def fft (x : List ℂ) : List ℂ :=
  (List.range x.length).map fun (t : ℕ) =>
    ((List.range x.length).map fun (k : ℕ) =>
      x.getD k 0 * exp (-2 * Real.pi * I * k * t / x.length)).sum

/-- utils.py:262-267 `weights_theta` (`L ≥ 1`; for `L = 0` `np.zeros(-1)` raises, not modelled). -/
noncomputable def weightsTheta (L : ℕ) : List ℝ :=
  let wr := (List.range (2 * L - 1)).map fun (i : ℕ) =>
    let m : ℤ := (i : ℤ) - ((L : ℤ) - 1)
    mwWeights m * exp (-1 * I * m * Real.pi / (2 * L - 1))
  (fft (ifftshift wr)).map fun z => (z * 2 * Real.pi / (2 * L - 1) ^ 2).re

/-- utils.py:279-281: `q = wr[0:L]`, then `q[i] += wr[2L-2-i]` for `i = 0, …, L-2` (the loop variable `j` runs
down from `2L-2` to `L`). -/
noncomputable def mwQ (L : ℕ) : List ℝ :=
  let wr := weightsTheta L
  (List.range L).map fun (i : ℕ) => if i < L - 1 then wr.getD i 0 + wr.getD (2 * L - 2 - i) 0 else wr.getD i 0

/-- utils.py:270-283 `mw_map_weights`: `np.outer(q, np.ones(2L-1)).flatten()`. -/
noncomputable def mwMapWeights (L : ℕ) : List ℝ :=
  (mwQ L).flatMap fun q => List.replicate (2 * L - 1) q

/-- utils.py:286-299 `s2_integrate`: weighted sum; shapes that do not broadcast raise. -/
noncomputable def s2Integrate (f : List ℂ) (L : ℕ) : Py ℂ := do
  let ps ← bcast (mwMapWeights L) f
  .ok (ps.map fun p => (p.1 : ℂ) * p.2).sum

/-! ## Mask -/

/-- `np.degrees`. -/
noncomputable def degrees (x : ℝ) : ℝ := x * 180 / Real.pi

open Classical in
/-- utils.py:320-349 `build_mask`, row by row.  `galb lon lat` is the galactic latitude in degrees returned by
astropy for ecliptic-like coordinates `lon = φ-180`, `lat = θ-90` in degrees.
The mask starts at one; the first double loop (332-335) and the second (344-347) set entries to zero. -/
noncomputable def buildMask (galb : ℝ → ℝ → ℝ) (L : ℕ) (size : ℝ) : List (List ℝ) :=
  (mwThetas L).map fun t => (mwPhis L).map fun p =>
    let m0 : ℝ := if |90 - degrees t| < size then 0 else 1
    if |galb (degrees p - 180) (degrees t - 90)| < size then 0 else m0

/-! ## snr -/

/-- utils.py:302-303 `norm` (`np.linalg.norm` of a one-dimensional array). -/
noncomputable def npNorm {𝕜 : Type} [RCLike 𝕜] (x : List 𝕜) : ℝ :=
  Real.sqrt (x.map fun a => ‖a‖ ^ 2).sum

/-- utils.py:306-317 `snr` (`log10` of the quotient; zero norms give infinities in numpy and are
excluded by the hypotheses of the theorems). -/
noncomputable def snr {𝕜 : Type} [RCLike 𝕜] (signal noise : List 𝕜) : ℝ :=
  20 * Real.logb 10 (npNorm signal / npNorm noise)

end Pxmcmc
