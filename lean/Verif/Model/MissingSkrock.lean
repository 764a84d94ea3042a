import Verif.Model.Missing

/-!
# SKROCK with NaN among the data

`SKROCK.run` (`pxmcmc/mcmc.py:300-383`) in the setting of `Model/Missing.lean`.
-/

namespace Pxmcmc
variable {m n : ℕ}

/-- mcmc.py:84-89 `_gradlogpi`, without `preds`. -/
noncomputable def missGradlogpi (A : Stored m n) (w : Fin m → ℝ) (d : Fin m → NanReal) (t : ℝ) (par : Params) (X : Fin n → NanReal) :
    Fin n → NanReal := fun j =>
  nanOp (· - ·) ((nanOp (· - ·) (X j) (missProxf t X j)).map fun x => -(x / par.lmda)) (missGradg A w d (A.dot X) j)

/-- mcmc.py:349-368 `_K_recursion(X, s, Z)`. -/
noncomputable def missK (A : Stored m n) (w : Fin m → ℝ) (d : Fin m → NanReal) (t : ℝ) (par : Params) (co : SkrockCoefs)
    (X : Fin n → NanReal) (Z : Fin n → ℝ) : ℕ → Fin n → NanReal
  | 0 => X
  | 1 => fun j => nanOp (· + ·) (nanOp (· + ·) (X j)
      ((missGradlogpi A w d t par (fun j => (X j).map (· + co.nus.getD 1 0 * √(2 * par.delta) * Z j)) j).map
        (co.mus.getD 1 0 * par.delta * ·)))
      (some (co.ks.getD 1 0 * √(2 * par.delta) * Z j))
  | s + 2 => fun j => nanOp (· - ·) ((nanOp (· + ·)
      ((missGradlogpi A w d t par (missK A w d t par co X Z (s + 1)) j).map (co.mus.getD (s + 2) 0 * par.delta * ·))
      ((missK A w d t par co X Z (s + 1) j).map (co.nus.getD (s + 2) 0 * ·))).map (· + co.ks.getD (s + 2) 0))
      (missK A w d t par co X Z s j)

/-- mcmc.py:316-334: one iteration. -/
noncomputable def missSkBody (R : Rng) (A : Stored m n) (w : Fin m → ℝ) (d : Fin m → NanReal) (t : ℝ) (par : Params) (co : SkrockCoefs)
    (st : MissSt R m n) : Py (MissSt R m n) :=
  let z := R.randn st.rng n
  let X := missK A w d t par co st.X z.1 par.s
  let preds := A.dot X
  if (st.i : ℤ) ≥ par.nburn ∧ thinned par st.i then
    .ok ⟨st.i + 1, st.j + 1, X, preds, z.2, st.rows ++ [missRow par w d preds X]⟩
  else .ok ⟨st.i + 1, st.j, X, preds, z.2, st.rows⟩

/-- mcmc.py:300-336: the constructor and `SKROCK.run` with a start array. -/
noncomputable def missSkRun (R : Rng) (A : Stored m n) (w : Fin m → ℝ) (d : Fin m → NanReal) (t : ℝ) (par : Params) (r : R.σ)
    (x0 : Fin n → ℝ) (fuel : ℕ) : Py (Option (MissSt R m n)) := do
  let co ← skrockInit par.s
  let X : Fin n → NanReal := fun j => some (x0 j)
  whileFuel (fun st => decide (st.j < par.nsamples)) (missSkBody R A w d t par co) fuel ⟨0, 0, X, A.dot X, r, []⟩

end Pxmcmc
