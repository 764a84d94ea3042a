import Verif.Model.Construct
import Verif.Model.PowerPrior

/-!
# The same sampling problem in other units

Not code of the repository: the definitions say what the arguments of the constructors (`forward.py:21-34`, `prior.py:21-26`,
`mcmc.py:6-61`) and the recorded results are after the parameters are measured in units `c` times smaller (all numbers are `c` times as large)
and the data in units `d` times smaller.
-/

namespace Pxmcmc

/-- The numbers of an array in units `c` times smaller. -/
noncomputable def sc (c : ℝ) (l : List ℂ) : List ℂ := l.map fun z => (c : ℂ) * z

/-- The data (`data`, forward.py:21) in units `d` times smaller. -/
noncomputable def DataVec.units {n : ℕ} (d : ℝ) (data : DataVec n) : DataVec n := ⟨data.cplx, fun i => (d : ℂ) * data.vals i⟩

/-- The standard deviations (`sig_d`, forward.py:21) in units `d` times smaller; a covariance matrix is in squared units. -/
noncomputable def SigD.units (d : ℝ) : SigD → SigD
  | .num x cplx => .num ((d : ℂ) * x) cplx
  | .npScalar x => .npScalar (d * x)
  | .vec xs cplx => .vec (sc d xs) cplx
  | .mat r k M => .mat r k (((d ^ 2 : ℝ) : ℂ) • M)
  | .nd shape => .nd shape

/-- An operator from parameters to data (and its adjoint) multiplied by `a`; `a = d/c` after the change of units. -/
noncomputable def OpPair.scaled (a : ℝ) (o : OpPair) : OpPair := ⟨fun X => (o.op X).map (sc a), fun Y => (o.adj Y).map (sc a)⟩

/-- The threshold (`T`, prior.py:21) in the units of the parameters. -/
noncomputable def Thresh.units (c : ℝ) : Thresh → Thresh
  | .scalar t => .scalar (c * t)
  | .vector ts => .vector (ts.map fun t => c * t)

/-- The tuning parameters (mcmc.py:6-43): `lmda` and `delta` are squared parameters, `mu` is an inverse parameter. -/
noncomputable def Params.units (c : ℝ) (par : Params) : Params :=
  { par with lmda := c ^ 2 * par.lmda, delta := c ^ 2 * par.delta, mu := par.mu / c }

/-- The recorded results in the new units: log-posteriors and misfits are pure numbers, the l1 norm and the samples are in units of the
parameters, the predictions in units of the data. -/
noncomputable def Arrays.units (c d : ℝ) (A : Arrays) : Arrays where
  logPi := A.logPi
  L2s := A.L2s
  priors := A.priors.map fun l => l.map fun v => c * v
  preds := A.preds.map fun l => l.map (sc d)
  chain := A.chain.map fun l => l.map (sc c)

/-- One effect of the run in the new units. -/
noncomputable def Event.units (c d : ℝ) : Event → Event
  | .logPi j v => .logPi j v
  | .L2 j v => .L2 j v
  | .prior j v => .prior j (c * v)
  | .preds j row => .preds j (sc d row)
  | .chain j row => .chain j (sc c row)
  | .progress k N l l2 pr acc => .progress k N l l2 ((c : ℂ) * pr) acc
  | .burning => .burning
  | .done => .done

/-- The current sample in the new units. -/
noncomputable def Cur.units {R : Rng} (c d : ℝ) (x : Cur R) : Cur R := ⟨sc c x.X, sc d x.preds, x.rng⟩

/-- The loop variables in the new units. -/
noncomputable def St.units {R : Rng} (c d : ℝ) (st : St R) : St R := ⟨st.i, st.j, st.cur.units c d, st.ev.map (Event.units c d)⟩

/-- The cached quantities of PxMALA in the new units. -/
noncomputable def Cache.units (c d : ℝ) (x : Cache) : Cache :=
  ⟨sc c x.X, sc d x.preds, sc c⁻¹ x.gradg, sc c x.proxf, x.logpi, x.L2, c * x.prior⟩

/-- The handles of a transform or measurement operator do not depend on the units of what they are applied to. -/
def Homogeneous (H : List ℂ → Py (List ℂ)) : Prop := ∀ a : ℝ, 0 < a → ∀ X, H (sc a X) = (H X).map (sc a)

end Pxmcmc
