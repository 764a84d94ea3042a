import Verif.Model.Sampler
import Verif.Model.UtilsArrays
import Mathlib.Data.Option.NAry

/-!
# MYULA and PxMALA with NaN among the data

Copies of `MYULA.run` (`pxmcmc/mcmc.py:150-183`) and `PxMALA.run` (218-275) in which numbers may be NaN, for real samples, an identity transform, a sparse real
measurement matrix (`Identity` or `PathIntegral`), a scalar or vector `sig_d` and an `L1` prior.  Finite arithmetic is exact; infinities
do not occur.  Progress lines are left out (NaN is printed like any number).
-/

namespace Pxmcmc

/-- A double: a number or NaN (`none`). -/
abbrev NanReal := Option ℝ

/-- Any binary arithmetic operation: NaN if an operand is. -/
def nanOp (f : ℝ → ℝ → ℝ) (a b : NanReal) : NanReal := Option.map₂ f a b

/-- A sum of doubles. -/
noncomputable def nanSum (l : List NanReal) : NanReal := l.foldl (nanOp (· + ·)) (some 0)

/-- A scipy sparse matrix of `m` rows and `n` columns: which entries are stored, and their values. -/
structure Stored (m n : ℕ) where
  has : Fin m → Fin n → Bool
  val : Fin m → Fin n → ℝ

variable {m n : ℕ}

/-- `path_matrix.dot(X)` (measurements.py:52, 78): entries that are not stored take no part, so that NaN is not multiplied by zero. -/
noncomputable def Stored.dot (A : Stored m n) (X : Fin n → NanReal) (i : Fin m) : NanReal :=
  nanSum (((List.finRange n).filter fun j => A.has i j).map fun j => (X j).map (A.val i j * ·))

/-- `path_matrix.getH()` (measurements.py:47, 71), for real entries. -/
def Stored.adj (A : Stored m n) : Stored n m := ⟨fun j i => A.has i j, fun j i => A.val i j⟩

/-- forward.py:64-67 (and 69-70 for the identity transform): the gradient of the misfit; `w` is the diagonal of `invcov`. -/
noncomputable def missGradg (A : Stored m n) (w : Fin m → ℝ) (d preds : Fin m → NanReal) : Fin n → NanReal :=
  A.adj.dot fun i => (nanOp (· - ·) (preds i) (d i)).map (w i * ·)

/-- prior.py:51-52 and utils.py:64-67 `soft`, per entry: `np.abs(nan) <= T` is false and the product with `_sign(nan)` is NaN. -/
noncomputable def missProxf (t : ℝ) (X : Fin n → NanReal) : Fin n → NanReal := fun j => (X j).map fun x => softEntry x t

/-- mcmc.py:185-200 `chain_step`. -/
noncomputable def missStep (par : Params) (X proxf gradg : Fin n → NanReal) (w : Fin n → ℝ) : Fin n → NanReal := fun j =>
  nanOp (· + ·) (nanOp (· - ·) (nanOp (· + ·) ((X j).map ((1 - par.delta / par.lmda) * ·)) ((proxf j).map (par.delta / par.lmda * ·)))
    ((gradg j).map (par.delta * ·))) (some (√(2 * par.delta) * w j))

/-- A saved row: log-posterior, misfit, prior, predictions and sample. -/
structure MissRow (m n : ℕ) where
  logPi : NanReal
  L2 : NanReal
  prior : NanReal
  preds : Fin m → NanReal
  X : Fin n → NanReal

/-- mcmc.py:72-83 `logpi` and 127-137 `_tracking`. -/
noncomputable def missRow (par : Params) (w : Fin m → ℝ) (d preds : Fin m → NanReal) (X : Fin n → NanReal) : MissRow m n :=
  let diff := fun i => nanOp (· - ·) (d i) (preds i)
  let L2 := nanSum ((List.finRange m).map fun i => nanOp (· * ·) (diff i) ((diff i).map (w i * ·)))
  let prior := nanSum ((List.finRange n).map fun j => (X j).map fun x => |x|)
  ⟨nanOp (· - ·) (prior.map (-par.mu * ·)) L2, L2, prior, preds, X⟩

/-- The variables of the loop; `rows` are the rows of the tracking arrays written so far. -/
structure MissSt (R : Rng) (m n : ℕ) where
  i : ℕ
  j : ℕ
  X : Fin n → NanReal
  preds : Fin m → NanReal
  rng : R.σ
  rows : List (MissRow m n)

/-- mcmc.py:157-181: one iteration. -/
noncomputable def missBody (R : Rng) (A : Stored m n) (w : Fin m → ℝ) (d : Fin m → NanReal) (t : ℝ) (par : Params) (st : MissSt R m n) :
    Py (MissSt R m n) :=
  let gradg := missGradg A w d st.preds
  let proxf := missProxf t st.X
  let z := R.randn st.rng n
  let X := missStep par st.X proxf gradg z.1
  let preds := A.dot X
  if (st.i : ℤ) ≥ par.nburn ∧ thinned par st.i then
    .ok ⟨st.i + 1, st.j + 1, X, preds, z.2, st.rows ++ [missRow par w d preds X]⟩
  else .ok ⟨st.i + 1, st.j, X, preds, z.2, st.rows⟩

/-- mcmc.py:150-183 `MYULA.run` with a start array. -/
noncomputable def missRun (R : Rng) (A : Stored m n) (w : Fin m → ℝ) (d : Fin m → NanReal) (t : ℝ) (par : Params) (r : R.σ)
    (x0 : Fin n → ℝ) (fuel : ℕ) : Py (Option (MissSt R m n)) :=
  let X : Fin n → NanReal := fun j => some (x0 j)
  whileFuel (fun st => decide (st.j < par.nsamples)) (missBody R A w d t par) fuel ⟨0, 0, X, A.dot X, r, []⟩

/-! ## PxMALA -/

/-- mcmc.py:281-289 `calc_logtransition` (with the step size `delta`). -/
noncomputable def missLogTrans (par : Params) (delta : ℝ) (X1 X2 proxf gradg : Fin n → NanReal) : NanReal :=
  let g := fun j => nanOp (· - ·) ((nanOp (· - ·) (X1 j) (proxf j)).map fun x => -(x / par.lmda)) (gradg j)
  (nanSum ((List.finRange n).map fun j =>
    (nanOp (· - ·) (nanOp (· - ·) (X2 j) (X1 j)) ((g j).map (delta / 2 * ·))).map (· ^ 2))).map fun x => -(1 / 2 * delta) * x ^ 2

open Classical in
/-- mcmc.py:245 `np.log(u) < logalpha`: `np.log(0.0)` is `-inf`, and comparisons with NaN are false. -/
noncomputable def missAccept (u : ℝ) (logalpha : NanReal) : Bool :=
  match logalpha with
  | some x => decide (u = 0 ∨ Real.log u < x)
  | none => false

/-- The variables of the loop of `PxMALA.run`; predictions, gradient, prox and log-posterior are functions of the sample. -/
structure MissMala (R : Rng) (m n : ℕ) where
  i : ℕ
  j : ℕ
  X : Fin n → NanReal
  rng : R.σ
  delta : ℝ
  acc : List ℕ
  rows : List (MissRow m n)

/-- mcmc.py:230-274: one iteration.  `tuned delta acc i` is the step size after `_tune_delta` (or `delta` itself, without tuning). -/
noncomputable def missMalaBody (R : Rng) (A : Stored m n) (w : Fin m → ℝ) (d : Fin m → NanReal) (t : ℝ) (par : Params)
    (tuned : ℝ → List ℕ → ℕ → ℝ) (st : MissMala R m n) : Py (MissMala R m n) :=
  let proxf := missProxf t st.X
  let gradg := missGradg A w d (A.dot st.X)
  let cur := missRow par w d (A.dot st.X) st.X
  let z := R.randn st.rng n
  let X' := missStep { par with delta := st.delta } st.X proxf gradg z.1
  let prop := missRow par w d (A.dot X') X'
  let transCP := missLogTrans par st.delta st.X X' proxf gradg
  let transPC := missLogTrans par st.delta X' st.X (missProxf t X') (missGradg A w d (A.dot X'))
  let logalpha := nanOp (· - ·) (nanOp (· - ·) (nanOp (· + ·) transPC prop.logPi) transCP) cur.logPi
  let u := R.rand z.2
  let accept := missAccept u.1 logalpha
  let acc := st.acc ++ [if accept then 1 else 0]
  let X := if accept then X' else st.X
  if ((st.i : ℤ) ≥ par.nburn ∧ thinned par st.i) ∧ accept = true then
    .ok ⟨st.i + 1, st.j + 1, X, u.2, tuned st.delta acc st.i, acc, st.rows ++ [prop]⟩
  else .ok ⟨st.i + 1, st.j, X, u.2, tuned st.delta acc st.i, acc, st.rows⟩

/-- mcmc.py:218-275 `PxMALA.run` with a start array. -/
noncomputable def missMalaRun (R : Rng) (A : Stored m n) (w : Fin m → ℝ) (d : Fin m → NanReal) (t : ℝ) (par : Params)
    (tuned : ℝ → List ℕ → ℕ → ℝ) (r : R.σ) (x0 : Fin n → ℝ) (fuel : ℕ) : Py (Option (MissMala R m n)) :=
  whileFuel (fun st => decide (st.j < par.nsamples)) (missMalaBody R A w d t par tuned) fuel
    ⟨0, 0, fun j => some (x0 j), r, par.delta, [], []⟩

/-- Python's `max` of a non-empty array: a later element replaces the current one if it is greater; comparisons with NaN are false. -/
noncomputable def pyMaxNan : List NanReal → NanReal
  | [] => none
  | a :: l => l.foldl (fun cur b => match cur, b with
    | some x, some y => if x < y then some y else cur
    | _, _ => cur) a

/-- `np.where(logpi == max(logpi))` (experiments/*/plot.py): the positions; `==` with NaN is false. -/
noncomputable def bestPositions (l : List NanReal) : List ℕ :=
  (List.range l.length).filter fun k => match l[k]?.join, pyMaxNan l with
    | some x, some y => decide (x = y)
    | _, _ => false

end Pxmcmc
