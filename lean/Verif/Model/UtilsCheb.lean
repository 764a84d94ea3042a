import Verif.Py
import Mathlib.Algebra.Ring.Basic
import Mathlib.Tactic.Linarith

/-!
# Model of `pxmcmc/utils.py`: Chebyshev polynomials
-/

namespace Pxmcmc

variable {R : Type _} [CommRing R]

/-- utils.py:128-151 `chebyshev1`. -/
def chebyshev1 (X : R) (order : ℤ) : Py R :=
  if order < 0 then .error .ValueError
  else if order = 0 then .ok 1
  else if order = 1 then .ok X
  else do
    let a ← chebyshev1 X (order - 1)
    let b ← chebyshev1 X (order - 2)
    .ok (2 * X * a - b)
termination_by order.toNat
decreasing_by all_goals omega

/-- utils.py:154-177 `chebyshev2`. -/
def chebyshev2 (X : R) (order : ℤ) : Py R :=
  if order < 0 then .error .ValueError
  else if order = 0 then .ok 1
  else if order = 1 then .ok (2 * X)
  else do
    let a ← chebyshev2 X (order - 1)
    let b ← chebyshev2 X (order - 2)
    .ok (2 * X * a - b)
termination_by order.toNat
decreasing_by all_goals omega

/-- utils.py:180-197 `cheb1der`. -/
def cheb1der (X : R) (order : ℤ) : Py R :=
  if order < 0 then .error .ValueError
  else if order = 0 then .ok 0
  else do
    let u ← chebyshev2 X (order - 1)
    .ok (order * u)

end Pxmcmc
