import Mathlib.Analysis.SpecialFunctions.Log.Basic
import Mathlib.Data.Complex.Basic

/-!
# The acceptance test of PxMALA with IEEE special values (`pxmcmc/mcmc.py:231-256`)

The only place where the model has NaN and infinities.  Finite arithmetic is exact (no rounding, no overflow): what matters
here is how NaN and infinities propagate through additions and comparisons.
-/

namespace Pxmcmc

/-- A double: NaN, an infinity or a number. -/
inductive Fl where
  | nan | pinf | ninf
  | fin (x : ℝ)

/-- `np.isnan`. -/
def Fl.isNaN : Fl → Prop
  | .nan => True
  | _ => False

/-- IEEE addition: NaN propagates and `inf + (-inf)` is NaN. -/
noncomputable def Fl.add : Fl → Fl → Fl
  | .nan, _ => .nan
  | _, .nan => .nan
  | .pinf, .ninf => .nan
  | .ninf, .pinf => .nan
  | .pinf, _ => .pinf
  | _, .pinf => .pinf
  | .ninf, _ => .ninf
  | _, .ninf => .ninf
  | .fin x, .fin y => .fin (x + y)

/-- IEEE negation. -/
noncomputable def Fl.neg : Fl → Fl
  | .nan => .nan
  | .pinf => .ninf
  | .ninf => .pinf
  | .fin x => .fin (-x)

/-- IEEE `<`: false as soon as an operand is NaN. -/
def Fl.lt : Fl → Fl → Prop
  | .nan, _ => False
  | _, .nan => False
  | .ninf, .ninf => False
  | .ninf, _ => True
  | _, .ninf => False
  | .pinf, _ => False
  | .fin _, .pinf => True
  | .fin x, .fin y => x < y

/-- IEEE `==`: false as soon as an operand is NaN. -/
def Fl.eq : Fl → Fl → Prop
  | .pinf, .pinf => True
  | .ninf, .ninf => True
  | .fin x, .fin y => x = y
  | _, _ => False

/-- A complex double. -/
structure CFl where
  re : Fl
  im : Fl

/-- `np.isnan` of a complex number: some part is NaN. -/
def CFl.isNaN (z : CFl) : Prop := z.re.isNaN ∨ z.im.isNaN

/-- Complex addition. -/
noncomputable def CFl.add (a b : CFl) : CFl := ⟨a.re.add b.re, a.im.add b.im⟩

/-- Complex subtraction. -/
noncomputable def CFl.sub (a b : CFl) : CFl := ⟨a.re.add b.re.neg, a.im.add b.im.neg⟩

/-- numpy's `<` on complex numbers (macro `CLT` of numpy 1.24): lexicographic, false when an imaginary part is NaN. -/
def CFl.lt (a b : CFl) : Prop := (a.re.lt b.re ∧ ¬ a.im.isNaN ∧ ¬ b.im.isNaN) ∨ (a.re.eq b.re ∧ a.im.lt b.im)

/-- A value of the code: a double (real data) or a complex double (complex data). -/
inductive NpNum where
  | real (x : Fl)
  | cplx (z : CFl)

/-- Conversion of a double to a complex one. -/
noncomputable def NpNum.toC : NpNum → CFl
  | .real x => ⟨x, .fin 0⟩
  | .cplx z => z

/-- `np.isnan`. -/
def NpNum.isNaN : NpNum → Prop
  | .real x => x.isNaN
  | .cplx z => z.isNaN

/-- numpy `+` with type promotion. -/
noncomputable def NpNum.add : NpNum → NpNum → NpNum
  | .real x, .real y => .real (x.add y)
  | a, b => .cplx (a.toC.add b.toC)

/-- numpy `-` with type promotion. -/
noncomputable def NpNum.sub : NpNum → NpNum → NpNum
  | .real x, .real y => .real (x.add y.neg)
  | a, b => .cplx (a.toC.sub b.toC)

/-- numpy `<` with type promotion, for a real number on the left (the only case that occurs, mcmc.py:245). -/
def NpNum.lt (x : Fl) : NpNum → Prop
  | .real y => x.lt y
  | .cplx z => CFl.lt ⟨x, .fin 0⟩ z

open Classical in
/-- `np.log` on `[0, 1)`: `np.log(0.0)` is `-inf`. -/
noncomputable def flLog (u : ℝ) : Fl := if u = 0 then .ninf else .fin (Real.log u)

/-- What an iteration computes before the decision: the proposal, its log-posterior, the two transition values and the
uniform number.  These are arbitrary: nothing is assumed about the operators. -/
structure FProp (α : Type) where
  X : α
  logpi : NpNum
  transCP : NpNum
  transPC : NpNum
  u : ℝ

/-- The loop variables that matter: `X_curr`, `logpiXc` and `acceptance_trace`. -/
structure FState (α : Type) where
  X : α
  logpi : NpNum
  acc : List ℕ

open Classical in
/-- mcmc.py:244-256: `logalpha = logtransXpXc + logpiXp - logtransXcXp - logpiXc`, the test and the update. -/
noncomputable def floatStep {α : Type} (s : FState α) (p : FProp α) : FState α :=
  let logalpha := ((p.transPC.add p.logpi).sub p.transCP).sub s.logpi
  if NpNum.lt (flLog p.u) logalpha then ⟨p.X, p.logpi, s.acc ++ [1]⟩ else ⟨s.X, s.logpi, s.acc ++ [0]⟩

/-- A run of iterations. -/
noncomputable def floatRun {α : Type} (s : FState α) (ps : List (FProp α)) : FState α := ps.foldl floatStep s

end Pxmcmc
