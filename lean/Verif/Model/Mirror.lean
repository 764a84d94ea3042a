import Verif.Model.Units

/-!
# The same sampling problem with the opposite sign

Not code of the repository: the definitions say what the arguments of the constructors (`forward.py:21-34`, `mcmc.py:46-61`), the random numbers
and the recorded results are when the sign convention of the parameters and of the data is changed.
-/

namespace Pxmcmc

/-- The numbers of an array with the opposite sign. -/
noncomputable def flip (l : List ℂ) : List ℂ := sc (-1) l

/-- A generator whose normal (mcmc.py:190, 319) and Laplace (mcmc.py:99) numbers have the opposite sign; the uniform ones (mcmc.py:245) are the
same. -/
def Rng.mirror (R : Rng) : Rng where
  σ := R.σ
  randn := fun r k => (fun i => -(R.randn r k).1 i, (R.randn r k).2)
  laplace := fun r k => (fun i => -(R.laplace r k).1 i, (R.laplace r k).2)
  rand := R.rand

/-- The start argument (mcmc.py:97) with the opposite sign. -/
noncomputable def StartPoint.mirror : StartPoint → StartPoint
  | .none => .none
  | .array1 v => .array1 (flip v)
  | .arrayNd k h => .arrayNd k h
  | .other => .other

/-- The data (`data`, forward.py:21) with the opposite sign. -/
noncomputable def DataVec.mirror {n : ℕ} (data : DataVec n) : DataVec n := ⟨data.cplx, fun i => -data.vals i⟩

/-- The recorded results: samples and predictions have the opposite sign, everything else is equal. -/
noncomputable def Arrays.mirror (A : Arrays) : Arrays :=
  { A with preds := A.preds.map fun l => l.map flip, chain := A.chain.map fun l => l.map flip }

/-- One effect of the run. -/
noncomputable def Event.mirror : Event → Event
  | .preds j row => .preds j (flip row)
  | .chain j row => .chain j (flip row)
  | e => e

/-- The current sample. -/
noncomputable def Cur.mirror {R : Rng} (x : Cur R) : Cur R.mirror := ⟨flip x.X, flip x.preds, x.rng⟩

/-- The loop variables. -/
noncomputable def St.mirror {R : Rng} (st : St R) : St R.mirror := ⟨st.i, st.j, st.cur.mirror, st.ev.map Event.mirror⟩

/-- The cached quantities of PxMALA. -/
noncomputable def Cache.mirror (x : Cache) : Cache := ⟨flip x.X, flip x.preds, flip x.gradg, flip x.proxf, x.logpi, x.L2, x.prior⟩

/-- The loop variables of PxMALA: acceptances and step sizes are the same. -/
noncomputable def MalaSt.mirror {R : Rng} (st : MalaSt R) : MalaSt R.mirror :=
  ⟨st.i, st.j, st.cur.mirror, st.rng, st.delta, st.acc, st.deltas, st.ev.map Event.mirror⟩

/-- A handle that maps opposite arrays to opposite arrays. -/
def OddMap (H : List ℂ → Py (List ℂ)) : Prop := ∀ X, H (flip X) = (H X).map flip

end Pxmcmc
