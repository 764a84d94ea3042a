import Verif.Model.Sampler

/-!
# The same sampling problem with the opposite sign of all imaginary parts

Not code of the repository: the definitions say what the arguments of the constructors (`forward.py:21-34`, `mcmc.py:46-61`), the random numbers
and the recorded results are when the other sign convention is used for the imaginary parts (in weak lensing, for the second component of the
shear).
-/

namespace Pxmcmc

/-- The complex conjugates of the numbers of an array. -/
noncomputable def cj (l : List ℂ) : List ℂ := l.map (starRingEnd ℂ)

/-- The generator for the other convention.  If the sampler is complex (`cplx`), mcmc.py:99-101, 190-192 and 319 draw first the real and then the
imaginary parts of the noise; the second ones get the opposite sign, and the flag in the state says which ones come next.  Otherwise nothing
changes.  The uniform numbers (mcmc.py:245) are the same. -/
def Rng.conjug (cplx : Bool) (R : Rng) : Rng where
  σ := R.σ × Bool
  randn := fun r k => (fun i => if cplx && r.2 then -(R.randn r.1 k).1 i else (R.randn r.1 k).1 i,
    ((R.randn r.1 k).2, if cplx then !r.2 else r.2))
  laplace := fun r k => (fun i => if cplx && r.2 then -(R.laplace r.1 k).1 i else (R.laplace r.1 k).1 i,
    ((R.laplace r.1 k).2, if cplx then !r.2 else r.2))
  rand := fun r => ((R.rand r.1).1, ((R.rand r.1).2, r.2))

/-- The start argument (mcmc.py:97). -/
noncomputable def StartPoint.conjug : StartPoint → StartPoint
  | .none => .none
  | .array1 v => .array1 (cj v)
  | .arrayNd k h => .arrayNd k h
  | .other => .other

/-- The data (`data`, forward.py:21). -/
noncomputable def DataVec.conjug {n : ℕ} (data : DataVec n) : DataVec n := ⟨data.cplx, fun i => starRingEnd ℂ (data.vals i)⟩

/-- The argument `sig_d` (forward.py:21); real standard deviations stay the same. -/
noncomputable def SigD.conjug : SigD → SigD
  | .num x c => .num (starRingEnd ℂ x) c
  | .npScalar x => .npScalar x
  | .vec xs c => .vec (cj xs) c
  | .mat r c M => .mat r c (M.map (starRingEnd ℂ))
  | .nd s => .nd s

/-- Whether `sig_d` is a real number or a real 1-D array: then forward.py:81-82 makes the variances of complex data complex. -/
def SigD.isReal : SigD → Bool
  | .num _ c => !c
  | .npScalar _ => true
  | .vec _ c => !c
  | _ => false

/-- The recorded results: samples and predictions are conjugated, everything else is equal. -/
noncomputable def Arrays.conjug (A : Arrays) : Arrays :=
  { A with preds := A.preds.map fun l => l.map cj, chain := A.chain.map fun l => l.map cj }

/-- One effect of the run.  PxMALA prints complex numbers (mcmc.py:268-273), which are conjugated. -/
noncomputable def Event.conjug : Event → Event
  | .preds j row => .preds j (cj row)
  | .chain j row => .chain j (cj row)
  | .progress c t l l2 p a => .progress c t (starRingEnd ℂ l) (starRingEnd ℂ l2) (starRingEnd ℂ p) a
  | e => e

/-- The current sample. -/
noncomputable def Cur.conjug (b : Bool) {R : Rng} (x : Cur R) : Cur (R.conjug b) := ⟨cj x.X, cj x.preds, (x.rng, false)⟩

/-- The loop variables. -/
noncomputable def St.conjug (b : Bool) {R : Rng} (st : St R) : St (R.conjug b) := ⟨st.i, st.j, st.cur.conjug b, st.ev.map Event.conjug⟩

/-- The cached quantities of PxMALA. -/
noncomputable def Cache.conjug (x : Cache) : Cache :=
  ⟨cj x.X, cj x.preds, cj x.gradg, cj x.proxf, starRingEnd ℂ x.logpi, starRingEnd ℂ x.L2, x.prior⟩

/-- The loop variables of PxMALA: acceptances and step sizes are the same. -/
noncomputable def MalaSt.conjug (b : Bool) {R : Rng} (st : MalaSt R) : MalaSt (R.conjug b) :=
  ⟨st.i, st.j, st.cur.conjug, (st.rng, false), st.delta, st.acc, st.deltas, st.ev.map Event.conjug⟩

/-- The handle `H'` does on conjugate arrays what `H` does, with conjugate results. -/
def ConjMap (H H' : List ℂ → Py (List ℂ)) : Prop := ∀ X, H' (cj X) = (H X).map cj

end Pxmcmc
