import Verif.Model.Prior
import Verif.Model.Measurements

/-!
# Model of `pxmcmc/forward.py`

Values are complex; whether an array has a complex *dtype* (`np.iscomplexobj`) is a flag.
`PyErr.Other "nonfinite"` marks executions in which numpy would produce inf/nan instead of raising; they are outside
the model.
-/

namespace Pxmcmc

/-- The observed data: a 1-D array of length `n`. -/
structure DataVec (n : ℕ) where
  cplx : Bool
  vals : Fin n → ℂ

/-- The argument `sig_d`. -/
inductive SigD where
  /-- A Python number or a numpy double (`np.float64`, `np.complex128` are subclasses of `float`, `complex`);
  the flag says whether it is complex. -/
  | num (x : ℂ) (cplx : Bool)
  /-- A real numpy scalar of another type (`np.int64`, `np.float32`, …). -/
  | npScalar (x : ℝ)
  /-- A 1-D array. -/
  | vec (xs : List ℂ) (cplx : Bool)
  /-- A 2-D array. -/
  | mat (rows cols : ℕ) (M : Matrix (Fin rows) (Fin cols) ℂ)
  /-- An array with three or more dimensions. -/
  | nd (shape : List ℕ)

/-- forward.py:81-82: the variance of complex data with a real `sig_d`. -/
noncomputable def complexVar (data_cplx sig_cplx : Bool) (var : ℂ) : ℂ :=
  if data_cplx && !sig_cplx then var / ((√2 : ℝ) : ℂ) * (1 + Complex.I) else var

open Classical in
/-- forward.py:74-88 `_build_inverse_covariance_matrix`.
* 2-D: non-square raises; `sparse.linalg.inv` (line 78) accepts only sparse matrices and raises `TypeError` for the
  `np.ndarray` it is given here.
* `sparse.identity(n).dot(1/var)`, `sparse.diags(1/var)` are diagonal matrices.
* Real numpy scalars other than doubles are not instances of `float`/`int`/`complex` and fail the shape test of line 85
  (`len(var.shape)` is 0); with complex data line 82 has turned them into `np.complex128`.
* `1/0` raises for Python numbers (`num` stands for a Python number here: a numpy double equal to zero gives inf with a warning,
  which is outside the model); in the complex-data branch and for arrays numpy yields inf/nan. -/
noncomputable def buildInvCov {n : ℕ} (data : DataVec n) : SigD → Py (Matrix (Fin n) (Fin n) ℂ)
  | .mat r c _ => if r ≠ c then .error .ValueError else .error .TypeError
  | .num x cplx =>
    let var := complexVar data.cplx cplx (x ^ 2)
    if var = 0 then (if data.cplx && !cplx then .error (.Other "nonfinite") else .error .ZeroDivisionError)
    else .ok (Matrix.diagonal fun _ => 1 / var)
  | .npScalar x =>
    if data.cplx then
      let var := complexVar true false ((x : ℂ) ^ 2)
      if var = 0 then .error (.Other "nonfinite") else .ok (Matrix.diagonal fun _ => 1 / var)
    else .error .TypeError
  | .vec xs cplx =>
    if h : xs.length = n then
      let var : Fin n → ℂ := fun i => complexVar data.cplx cplx (xs[i] ^ 2)
      if ∃ i, var i = 0 then .error (.Other "nonfinite") else .ok (Matrix.diagonal fun i => 1 / var i)
    else .error .TypeError
  | .nd _ => .error .TypeError

/-- A pair of array handles (an operator and its adjoint). -/
structure OpPair where
  op : List ℂ → Py (List ℂ)
  adj : List ℂ → Py (List ℂ)

/-- The state of a `ForwardOperator`.  `transform` holds `(inverse, inverse_adjoint)`, `measurement` holds
`(forward, adjoint)`. -/
structure ForwardOp (n : ℕ) where
  data : DataVec n
  invcov : Matrix (Fin n) (Fin n) ℂ
  setting : Setting
  transform : Option OpPair
  measurement : Option OpPair
  nparams : Option ℕ

/-- forward.py:21-34 `ForwardOperator.__init__`: the covariance is built before the setting is checked. -/
noncomputable def ForwardOp.init {n : ℕ} (data : DataVec n) (sig : SigD) (setting : String)
    (transform measurement : Option OpPair) (nparams : Option ℕ) : Py (ForwardOp n) := do
  let invcov ← buildInvCov data sig
  match Setting.parse setting with
  | none => .error .ValueError
  | some s => .ok ⟨data, invcov, s, transform, measurement, nparams⟩

/-- `self.measurement`, `self.transform`: absent attributes raise. -/
def attr (o : Option OpPair) : Py OpPair :=
  match o with
  | none => .error .AttributeError
  | some p => .ok p

/-- forward.py:60-61 `_forward_analysis`. -/
def ForwardOp.forwardAnalysis {n : ℕ} (F : ForwardOp n) (X : List ℂ) : Py (List ℂ) := do
  let m ← attr F.measurement
  m.op X

/-- forward.py:63-64 `_forward_synthesis`. -/
def ForwardOp.forwardSynthesis {n : ℕ} (F : ForwardOp n) (X : List ℂ) : Py (List ℂ) := do
  let m ← attr F.measurement
  let t ← attr F.transform
  let y ← t.op X
  m.op y

/-- forward.py:36-46 `forward`. -/
def ForwardOp.forward {n : ℕ} (F : ForwardOp n) (X : List ℂ) : Py (List ℂ) :=
  match F.setting with
  | .analysis => F.forwardAnalysis X
  | .synthesis => F.forwardSynthesis X

/-- forward.py:66-69 `_gradg_analysis`: `adjoint(invcov @ (preds - data))`. -/
noncomputable def ForwardOp.gradgAnalysis {n : ℕ} (F : ForwardOp n) (preds : List ℂ) : Py (List ℂ) := do
  let m ← attr F.measurement
  let diff ← npSub preds (List.ofFn F.data.vals)
  let wd ← matDot F.invcov diff
  m.adj wd

/-- forward.py:48-58, 71-72 `calc_gradg`, `_gradg_synthesis`. -/
noncomputable def ForwardOp.calcGradg {n : ℕ} (F : ForwardOp n) (preds : List ℂ) : Py (List ℂ) :=
  match F.setting with
  | .analysis => F.gradgAnalysis preds
  | .synthesis => do
    let t ← attr F.transform
    let g ← F.gradgAnalysis preds
    t.adj g

end Pxmcmc
