import Verif.Model.Construct
import Mathlib.Data.Matrix.Mul
import Mathlib.Algebra.BigOperators.Fin

/-!
# The same sampling problem in the synthesis and in the analysis setting, for an orthonormal transform

Not code of the repository: the definitions say what the start (mcmc.py:97), the random numbers (mcmc.py:99, 190, 319) and the recorded
results of the analysis problem are when every array of coefficients of the synthesis problem is replaced by the image with these
coefficients.
-/

namespace Pxmcmc
variable {p : ℕ}

/-- The image with the coefficients `x`. -/
noncomputable def turnVec (O : Matrix (Fin p) (Fin p) ℝ) (x : Fin p → ℂ) : Fin p → ℂ := fun i => ∑ j, (O i j : ℂ) * x j

/-- The same for an array (with zeros for missing entries). -/
noncomputable def turnList (O : Matrix (Fin p) (Fin p) ℝ) (l : List ℂ) : List ℂ := List.ofFn (turnVec O fun j => l.getD j 0)

/-- Draws of `p` numbers, multiplied by the matrix. -/
noncomputable def turnDraw (O : Matrix (Fin p) (Fin p) ℝ) {σ : Type} (draw : σ → (k : ℕ) → (Fin k → ℝ) × σ) (r : σ) (k : ℕ) :
    (Fin k → ℝ) × σ :=
  if h : k = p then (fun i => ∑ j, O (Fin.cast h i) j * (draw r k).1 (Fin.cast h.symm j), (draw r k).2) else draw r k

/-- A generator whose normal and Laplace vectors are the images with the vectors of `R` as coefficients; the uniform numbers are the
same. -/
noncomputable def Rng.turned (O : Matrix (Fin p) (Fin p) ℝ) (R : Rng) : Rng where
  σ := R.σ
  randn := turnDraw O R.randn
  laplace := turnDraw O R.laplace
  rand := R.rand

/-- The start argument. -/
noncomputable def StartPoint.turned (O : Matrix (Fin p) (Fin p) ℝ) : StartPoint → StartPoint
  | .array1 v => .array1 (turnList O v)
  | sp => sp

/-- The recorded samples are the images with the other run's samples as coefficients; predictions and misfits are equal. -/
structure SameImages (O : Matrix (Fin p) (Fin p) ℝ) (A A' : Arrays) : Prop where
  chain : A'.chain = A.chain.map fun l => l.map (turnList O)
  preds : A'.preds = A.preds
  L2s : A'.L2s = A.L2s

end Pxmcmc
