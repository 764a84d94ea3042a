import Verif.Model.UtilsSphere
import Mathlib.Analysis.SpecialFunctions.Trigonometric.Inverse

/-!
# Where `build_mask` puts its bands on the sky

utils.py:341-343 lets astropy turn positions into galactic latitudes; `Verif.Model.UtilsSphere.buildMask` leaves that
conversion open.  Here it is spelled out, so that the mask can be compared with the two planes it is meant to cover.
-/

namespace Pxmcmc

/-- The product of two vectors of space. -/
def dot3 (a b : Fin 3 → ℝ) : ℝ := a 0 * b 0 + a 1 * b 1 + a 2 * b 2

/-- The direction with longitude `lon` and latitude `lat`, both in degrees. -/
noncomputable def lonLatDir (lon lat : ℝ) : Fin 3 → ℝ :=
  ![Real.cos (lat * Real.pi / 180) * Real.cos (lon * Real.pi / 180),
    Real.cos (lat * Real.pi / 180) * Real.sin (lon * Real.pi / 180), Real.sin (lat * Real.pi / 180)]

/-- utils.py:341-343: `SkyCoord(lon, lat, unit="deg").transform_to("galactic").b.degree`.  `SkyCoord` takes positions to be
equatorial (ICRS) and astropy's change to galactic coordinates is a fixed rotation, so the latitude is the arc sine of the
component along `ngp`, the north galactic pole in equatorial coordinates. -/
noncomputable def galacticLat (ngp : Fin 3 → ℝ) (lon lat : ℝ) : ℝ :=
  degrees (Real.arcsin (dot3 ngp (lonLatDir lon lat)))

end Pxmcmc
