import Verif.Model.Sampler
import Mathlib.Logic.Equiv.Defs

/-!
# The same sampling problem with parameters and data in another order

Not code of the repository: the definitions say what the arguments of the constructors (`forward.py:21-34`, `prior.py:21-26`,
`mcmc.py:46-61`), the random numbers and the recorded results are when the parameters, the pixels and the data are numbered differently.
-/

namespace Pxmcmc

/-- A renumbering: for every length, a permutation of the positions. -/
abbrev Order := (k : ℕ) → Equiv.Perm (Fin k)

/-- The array in the other order: position `i` holds the entry that was at position `τ i`. -/
def reord {α : Type _} (τ : Order) (l : List α) : List α := List.ofFn fun i => l[τ l.length i]

/-- A generator whose normal (mcmc.py:190, 319) and Laplace (mcmc.py:99) numbers come in the other order; the uniform ones (mcmc.py:245) are
the same. -/
def Rng.reord (τ : Order) (R : Rng) : Rng where
  σ := R.σ
  randn := fun r k => (fun i => (R.randn r k).1 (τ k i), (R.randn r k).2)
  laplace := fun r k => (fun i => (R.laplace r k).1 (τ k i), (R.laplace r k).2)
  rand := R.rand

/-- The start argument (mcmc.py:97) in the other order. -/
def StartPoint.reord (τ : Order) : StartPoint → StartPoint
  | .none => .none
  | .array1 v => .array1 (Pxmcmc.reord τ v)
  | .arrayNd k h => .arrayNd k h
  | .other => .other

/-- The data (`data`, forward.py:21) in the other order. -/
def DataVec.reord {n : ℕ} (ρ : Order) (data : DataVec n) : DataVec n := ⟨data.cplx, fun i => data.vals (ρ n i)⟩

/-- The argument `sig_d` (forward.py:21): only arrays of standard deviations change. -/
def SigD.reord (ρ : Order) : SigD → SigD
  | .vec xs cplx => .vec (Pxmcmc.reord ρ xs) cplx
  | .num x c => .num x c
  | .npScalar x => .npScalar x
  | .mat r c M => .mat r c (M.submatrix (ρ r) (ρ c))
  | .nd s => .nd s

/-- The threshold argument (prior.py:21): only arrays change. -/
def Thresh.reord (κ : Order) : Thresh → Thresh
  | .scalar t => .scalar t
  | .vector ts => .vector (Pxmcmc.reord κ ts)

/-- The recorded results: samples and predictions are in the other order, everything else is equal. -/
def Arrays.reord (τ ρ : Order) (A : Arrays) : Arrays :=
  { A with
    preds := A.preds.map fun l => l.map (Pxmcmc.reord ρ)
    chain := A.chain.map fun l => l.map (Pxmcmc.reord τ) }

/-- One effect of the run. -/
def Event.reord (τ ρ : Order) : Event → Event
  | .preds j row => .preds j (Pxmcmc.reord ρ row)
  | .chain j row => .chain j (Pxmcmc.reord τ row)
  | e => e

/-- The current sample. -/
def Cur.reord (τ ρ : Order) {R : Rng} (x : Cur R) : Cur (R.reord τ) := ⟨Pxmcmc.reord τ x.X, Pxmcmc.reord ρ x.preds, x.rng⟩

/-- The loop variables. -/
def St.reord (τ ρ : Order) {R : Rng} (st : St R) : St (R.reord τ) := ⟨st.i, st.j, st.cur.reord τ ρ, st.ev.map (Event.reord τ ρ)⟩

/-- The cached quantities of PxMALA. -/
def Cache.reord (τ ρ : Order) (x : Cache) : Cache :=
  ⟨Pxmcmc.reord τ x.X, Pxmcmc.reord ρ x.preds, Pxmcmc.reord τ x.gradg, Pxmcmc.reord τ x.proxf, x.logpi, x.L2, x.prior⟩

/-- The loop variables of PxMALA: acceptances and step sizes are the same. -/
def MalaSt.reord (τ ρ : Order) {R : Rng} (st : MalaSt R) : MalaSt (R.reord τ) :=
  ⟨st.i, st.j, st.cur.reord τ ρ, st.rng, st.delta, st.acc, st.deltas, st.ev.map (Event.reord τ ρ)⟩

/-- The handle `H'` does what `H` does, on inputs numbered by `τ`, with outputs numbered by `κ`. -/
def SameMap (τ κ : Order) (H H' : List ℂ → Py (List ℂ)) : Prop := ∀ X, H' (reord τ X) = (H X).map (reord κ)

end Pxmcmc
