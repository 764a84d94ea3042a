import Verif.Model.McmcBase
import Verif.Model.Skrock
import Mathlib.Analysis.SpecialFunctions.Pow.Real
import Mathlib.Analysis.SpecialFunctions.Log.Basic

/-!
# Model of the samplers of `pxmcmc/mcmc.py`

* Array values are complex; storing into a float array keeps the real part (numpy emits only a warning).
* The effects of a run (array writes, printed lines) are recorded in order as `Event`s; the tracking arrays at any moment
  are the initial ones with the writes so far applied.
* The random generator is an arbitrary state machine.
* `while` loops are run with fuel (`whileFuel`).
* `nsamples` is a natural number (`np.zeros` rejects negative sizes), `forward.nparams` is an integer (the `None` default
  of the base class is not modelled), and `delta ≥ 0` wherever a square root is taken in a theorem.
-/

namespace Pxmcmc

/-- mcmc.py:6-43 `PxMCMCParams`; copied to attributes of the sampler by `PxMCMC.__init__` (mcmc.py:56-61). -/
structure Params where
  lmda : ℝ
  delta : ℝ
  mu : ℝ
  s : ℕ
  nsamples : ℕ
  nburn : ℤ
  ngap : ℤ
  complex : Bool
  verbosity : ℤ
  track : List String

/-- A sampler object (without its tracking arrays). -/
structure Sampler (n : ℕ) where
  F : ForwardOp n
  P : PriorObj
  par : Params
  nparams : ℕ

/-- numpy's global generator as a state machine. -/
structure Rng where
  σ : Type
  randn : σ → (k : ℕ) → (Fin k → ℝ) × σ
  laplace : σ → (k : ℕ) → (Fin k → ℝ) × σ
  rand : σ → ℝ × σ

/-- The tracking arrays that exist as attributes. -/
structure Arrays where
  logPi : Option (List ℝ)
  L2s : Option (List ℝ)
  priors : Option (List ℝ)
  preds : Option (List (List ℂ))
  chain : Option (List (List ℂ))

/-- mcmc.py:113-128 `_initialise_tracking_arrays`. -/
noncomputable def initArrays {n : ℕ} (M : Sampler n) : Arrays where
  logPi := if "logposterior" ∈ M.par.track then some (List.replicate M.par.nsamples 0) else none
  preds := if "predictions" ∈ M.par.track then some (List.replicate M.par.nsamples (List.replicate n 0)) else none
  chain := if "chain" ∈ M.par.track then some (List.replicate M.par.nsamples (List.replicate M.nparams 0)) else none
  L2s := if "L2" ∈ M.par.track then some (List.replicate M.par.nsamples 0) else none
  priors := if "prior" ∈ M.par.track then some (List.replicate M.par.nsamples 0) else none

/-- The observable effects of a run. -/
inductive Event where
  | logPi (j : ℕ) (v : ℝ)
  | L2 (j : ℕ) (v : ℝ)
  | prior (j : ℕ) (v : ℝ)
  | preds (j : ℕ) (row : List ℂ)
  | chain (j : ℕ) (row : List ℂ)
  /-- A progress line: counter, total, logposterior, L2, prior, acceptance rate. -/
  | progress (counter : ℤ) (total : ℕ) (logpi L2 prior : ℂ) (acc : Option ℝ)
  | burning
  | done

/-- The effect of one event on the arrays (printing has none). -/
def Arrays.apply (A : Arrays) : Event → Arrays
  | .logPi j v => { A with logPi := A.logPi.map fun l => l.set j v }
  | .L2 j v => { A with L2s := A.L2s.map fun l => l.set j v }
  | .prior j v => { A with priors := A.priors.map fun l => l.set j v }
  | .preds j r => { A with preds := A.preds.map fun l => l.set j r }
  | .chain j r => { A with chain := A.chain.map fun l => l.set j r }
  | _ => A

/-- All events in order. -/
def Arrays.applyAll (A : Arrays) (ev : List Event) : Arrays := ev.foldl Arrays.apply A

/-- Assigning a 1-D array to a row of the given width: equal length, or a single value repeated; anything else raises. -/
def rowAssign (width : ℕ) (v : List ℂ) : Py (List ℂ) :=
  if v.length = width then .ok v
  else match v with
    | [a] => .ok (List.replicate width a)
    | _ => .error .ValueError

/-- Storing a complex value in an array with or without complex dtype. -/
def store (cplx : Bool) (z : ℂ) : ℂ := if cplx then z else (z.re : ℂ)

/-- `self.logPi[j] = v` and the like. -/
def writeScalar (o : Option (List ℝ)) (j : ℕ) (e : Event) : Py (List Event) :=
  match o with
  | none => .ok []
  | some l => if j < l.length then .ok [e] else .error .IndexError

/-- `self.preds[j] = …`, `self.chain[j] = …` for rows of width `w` and the given dtype. -/
def writeRow (o : Option (List (List ℂ))) (w : ℕ) (cplx : Bool) (j : ℕ) (v : List ℂ) (e : List ℂ → Event) :
    Py (List Event) :=
  match o with
  | none => .ok []
  | some l =>
    if j < l.length then do
      let r ← rowAssign w v
      .ok [e (r.map (store cplx))]
    else .error .IndexError

/-- mcmc.py:130-140 `_tracking`: the writes, in order. -/
def tracking {n : ℕ} (M : Sampler n) (A : Arrays) (j : ℕ) (X preds : List ℂ) (logPi L2 : ℂ) (prior : ℝ) :
    Py (List Event) := do
  let a ← writeScalar A.logPi j (.logPi j logPi.re)
  let b ← writeScalar A.L2s j (.L2 j L2.re)
  let c ← writeScalar A.priors j (.prior j prior)
  let d ← writeRow A.preds n false j preds (.preds j)
  let e ← writeRow A.chain M.nparams M.par.complex j X (.chain j)
  .ok (a ++ b ++ c ++ d ++ e)

/-- The argument of `run`. -/
inductive StartPoint where
  | none
  /-- A 1-D numpy array. -/
  | array1 (v : List ℂ)
  /-- A numpy array of another dimension. -/
  | arrayNd (ndim : ℕ) (h : ndim ≠ 1)
  /-- Anything else (a list, a number, …). -/
  | other

/-- Noise with the sampler's dtype: `w = draw(k)`, plus `draw(k) * 1j` if complex. -/
noncomputable def noise (R : Rng) (draw : R.σ → (k : ℕ) → (Fin k → ℝ) × R.σ) (cplx : Bool) (r : R.σ) (k : ℕ) :
    List ℂ × R.σ :=
  let (a, r1) := draw r k
  if cplx then
    let (b, r2) := draw r1 k
    (List.ofFn fun i => (a i : ℂ) + (b i : ℂ) * Complex.I, r2)
  else (List.ofFn fun i => (a i : ℂ), r1)

/-- mcmc.py:98-109: the start vector of `_initial_sample`. -/
noncomputable def startVector {n : ℕ} (M : Sampler n) (R : Rng) (r : R.σ) (sp : StartPoint) : Py (List ℂ × R.σ) :=
  match sp with
  | .none => .ok (noise R R.laplace M.par.complex r M.nparams)
  | .arrayNd _ _ => .error .TypeError
  | .other => .error .TypeError
  | .array1 v => if v.length = M.nparams then .ok (v, r) else .error .ValueError

/-- mcmc.py:97-111 `_initial_sample`. -/
noncomputable def initialSample {n : ℕ} (M : Sampler n) (R : Rng) (r : R.σ) (sp : StartPoint) :
    Py (List ℂ × List ℂ × R.σ) := do
  let xr ← startVector M R r sp
  let preds ← M.F.forward xr.1
  .ok (xr.1, preds, xr.2)

/-- mcmc.py:185-201 `MYULA.chain_step` (for the current value of `self.delta`). -/
noncomputable def chainStep {n : ℕ} (M : Sampler n) (R : Rng) (delta : ℝ) (r : R.σ) (X proxf gradg : List ℂ) :
    Py (List ℂ × R.σ) := do
  let (w, r) := noise R R.randn M.par.complex r M.nparams
  let q ← pyDiv delta M.par.lmda
  let a ← npAdd (X.map fun z => ((1 - q : ℝ) : ℂ) * z) (proxf.map fun z => ((q : ℝ) : ℂ) * z)
  let b ← npSub a (gradg.map fun z => (delta : ℂ) * z)
  let c ← npAdd b (w.map fun z => ((√(2 * delta) : ℝ) : ℂ) * z)
  .ok (c, r)

/-- The current sample, its predictions and the generator. -/
structure Cur (R : Rng) where
  X : List ℂ
  preds : List ℂ
  rng : R.σ

/-- The loop variables of `MYULA.run`/`SKROCK.run` with the events so far. -/
structure St (R : Rng) where
  i : ℕ
  j : ℕ
  cur : Cur R
  ev : List Event

/-- mcmc.py:158-164: one MYULA transition. -/
noncomputable def myulaStep {n : ℕ} (M : Sampler n) (R : Rng) (c : Cur R) : Py (Cur R) := do
  let gradg ← M.F.calcGradg c.preds
  let proxf ← M.P.proxf c.X
  let xr ← chainStep M R M.par.delta c.rng c.X proxf gradg
  let preds ← M.F.forward xr.1
  .ok ⟨xr.1, preds, xr.2⟩

/-- mcmc.py:167, 323 (and 263): `self.ngap == 0 or (i - self.nburn) % self.ngap == 0`. -/
def thinned (par : Params) (i : ℕ) : Prop := par.ngap = 0 ∨ Int.fmod ((i : ℤ) - par.nburn) par.ngap = 0

instance (par : Params) (i : ℕ) : Decidable (thinned par i) := by unfold thinned; infer_instance

/-- mcmc.py:171, 179, 266, 327: `self.verbosity > 0 and (i + 1) % self.verbosity == 0`. -/
def verbose (par : Params) (i : ℕ) : Prop := par.verbosity > 0 ∧ Int.fmod ((i : ℤ) + 1) par.verbosity = 0

instance (par : Params) (i : ℕ) : Decidable (verbose par i) := by unfold verbose; infer_instance

/-- mcmc.py:168-170, 324-326: compute `logpi`, write row `j`, increment `j`. -/
noncomputable def recordRow {n : ℕ} (M : Sampler n) {R : Rng} (A0 : Arrays) (st : St R) : Py (St R) := do
  let l ← logpi M.F M.P M.par.mu st.cur.X st.cur.preds
  let evs ← tracking M (A0.applyAll st.ev) st.j st.cur.X st.cur.preds l.1 l.2.1 l.2.2
  .ok { st with ev := st.ev ++ evs, j := st.j + 1 }

/-- `self.logPi` etc.: absent attributes raise. -/
def attrArr (o : Option (List ℝ)) : Py (List ℝ) :=
  match o with
  | none => .error .AttributeError
  | some l => .ok l

/-- mcmc.py:172-177, 328-333 with `_print_progress` (mcmc.py:91-95): the progress line from the arrays. -/
noncomputable def progressArrays {n : ℕ} (M : Sampler n) {R : Rng} (A0 : Arrays) (st : St R) : Py (List Event) := do
  let lp ← attrArr (A0.applyAll st.ev).logPi
  let a ← pyGet lp ((st.j : ℤ) - 1)
  let l2 ← attrArr (A0.applyAll st.ev).L2s
  let b ← pyGet l2 ((st.j : ℤ) - 1)
  let ps ← attrArr (A0.applyAll st.ev).priors
  let c ← pyGet ps ((st.j : ℤ) - 1)
  .ok [.progress ((st.j : ℤ) - 1 + 1) M.par.nsamples a b c none]

/-- mcmc.py:166-181: the bookkeeping of a MYULA iteration. -/
noncomputable def myulaBook {n : ℕ} (M : Sampler n) {R : Rng} (A0 : Arrays) (st : St R) : Py (St R) :=
  if (st.i : ℤ) ≥ M.par.nburn then do
    let st ← (if thinned M.par st.i then recordRow M A0 st else .ok st : Py (St R))
    let evs ← (if verbose M.par st.i then progressArrays M A0 st else .ok [] : Py (List Event))
    .ok { st with ev := st.ev ++ evs, i := st.i + 1 }
  else
    let evs := if verbose M.par st.i then [Event.burning] else []
    .ok { st with ev := st.ev ++ evs, i := st.i + 1 }

/-- mcmc.py:158-181: the loop body of `MYULA.run`. -/
noncomputable def myulaBody {n : ℕ} (M : Sampler n) (R : Rng) (A0 : Arrays) (st : St R) : Py (St R) := do
  let c ← myulaStep M R st.cur
  myulaBook M A0 { st with cur := c }

/-- mcmc.py:157, 315: the loop condition. -/
def loopCond {n : ℕ} (M : Sampler n) {R : Rng} (st : St R) : Bool := st.j < M.par.nsamples

/-- mcmc.py:150-183 `MYULA.run`, on a sampler whose arrays are `A0`.  `none` means that the loop was still running when
the fuel ran out. -/
noncomputable def myulaRun {n : ℕ} (M : Sampler n) (R : Rng) (A0 : Arrays) (r : R.σ) (sp : StartPoint) (fuel : ℕ) :
    Py (Option (St R)) := do
  let x ← initialSample M R r sp
  let res ← whileFuel (loopCond M) (myulaBody M R A0) fuel ⟨0, 0, ⟨x.1, x.2.1, x.2.2⟩, []⟩
  .ok (res.map fun st => { st with ev := st.ev ++ [Event.done] })

/-! ## SKROCK -/

/-- A 1-D array of known length (numpy operations on arrays of different lengths would raise; the broadcasting of
one-element gradients is not represented). -/
def asVec (k : ℕ) (l : List ℂ) : Py (Fin k → ℂ) :=
  if h : l.length = k then .ok fun i => l[i] else .error .ValueError

/-- mcmc.py:316-320, 338-347: one SKROCK transition; `c` are the coefficients from `__init__`. -/
noncomputable def skrockTransition {n : ℕ} (M : Sampler n) (R : Rng) (co : SkrockCoefs) (c : Cur R) : Py (Cur R) := do
  let k := c.X.length
  let x ← asVec k c.X
  let zr := noise R R.randn M.par.complex c.rng k
  let z ← asVec k zr.1
  let y ← skrockStep co M.par.s M.par.delta
    (fun v => do
      let g ← gradlogpi M.F M.P M.par.lmda (List.ofFn v) none
      asVec k g) x z
  let preds ← M.F.forward (List.ofFn y)
  .ok ⟨List.ofFn y, preds, zr.2⟩

/-- mcmc.py:322-334: the bookkeeping of a SKROCK iteration. -/
noncomputable def skrockBook {n : ℕ} (M : Sampler n) {R : Rng} (A0 : Arrays) (st : St R) : Py (St R) := do
  let st ← (if (st.i : ℤ) ≥ M.par.nburn then
      (if thinned M.par st.i then recordRow M A0 st else .ok st)
    else .ok st : Py (St R))
  let evs ← (if verbose M.par st.i then progressArrays M A0 st else .ok [] : Py (List Event))
  .ok { st with ev := st.ev ++ evs, i := st.i + 1 }

/-- mcmc.py:316-334: the loop body of `SKROCK.run`. -/
noncomputable def skrockBody {n : ℕ} (M : Sampler n) (R : Rng) (co : SkrockCoefs) (A0 : Arrays) (st : St R) :
    Py (St R) := do
  let c ← skrockTransition M R co st.cur
  skrockBook M A0 { st with cur := c }

/-- mcmc.py:300-336: construct the SKROCK coefficients and run. -/
noncomputable def skrockRun {n : ℕ} (M : Sampler n) (R : Rng) (A0 : Arrays) (r : R.σ) (sp : StartPoint) (fuel : ℕ) :
    Py (Option (St R)) := do
  let co ← skrockInit M.par.s
  let x ← initialSample M R r sp
  let res ← whileFuel (loopCond M) (skrockBody M R co A0) fuel ⟨0, 0, ⟨x.1, x.2.1, x.2.2⟩, []⟩
  .ok (res.map fun st => { st with ev := st.ev ++ [Event.done] })

/-! ## PxMALA -/

/-- The cached quantities of a sample (mcmc.py:226-229, 231-234, 242). -/
structure Cache where
  X : List ℂ
  preds : List ℂ
  gradg : List ℂ
  proxf : List ℂ
  logpi : ℂ
  L2 : ℂ
  prior : ℝ

/-- The loop variables and attributes of `PxMALA.run`. -/
structure MalaSt (R : Rng) where
  i : ℕ
  j : ℕ
  cur : Cache
  rng : R.σ
  delta : ℝ
  acc : List ℕ
  deltas : List ℝ
  ev : List Event

/-- mcmc.py:281-289 `calc_logtransition(X1, X2, proxf, gradg)`. -/
noncomputable def calcLogtransition {n : ℕ} (M : Sampler n) (delta : ℝ) (X1 X2 proxf gradg : List ℂ) : Py ℂ := do
  let d ← npSub X1 proxf
  let g ← npSub (d.map fun z => -(z / (M.par.lmda : ℂ))) gradg
  let e ← npSub X2 X1
  let f ← npSub e (g.map fun z => ((delta / 2 : ℝ) : ℂ) * z)
  .ok (-((1 / 2 * delta : ℝ) : ℂ) * ((f.map fun z => z ^ 2).sum) ^ 2)

/-- mcmc.py:245 `np.log(np.random.rand()) < logalpha`: `np.log(0)` is `-inf`; complex numbers compare
lexicographically. -/
noncomputable def acceptTest (u : ℝ) (a : ℂ) : Prop :=
  u = 0 ∨ Real.log u < a.re ∨ (Real.log u = a.re ∧ 0 < a.im)

/-- mcmc.py:277-279 `_tune_delta(i)`. -/
noncomputable def tuneDelta {n : ℕ} (M : Sampler n) (delta : ℝ) (acc : List ℕ) (i : ℕ) : Py ℝ := do
  let a ← pyGet acc i
  let d := delta * (1 + ((a : ℝ) - 1 / 2) / ((i : ℝ) + 1) ^ (3 / 4 : ℝ))
  .ok (min (max d (M.par.lmda * 1e-8)) (M.par.lmda / 2))

/-- mcmc.py:231-234, 242: the proposal with its cached quantities. -/
noncomputable def malaPropose {n : ℕ} (M : Sampler n) (R : Rng) (delta : ℝ) (r : R.σ) (c : Cache) :
    Py (Cache × R.σ) := do
  let xr ← chainStep M R delta r c.X c.proxf c.gradg
  let preds ← M.F.forward xr.1
  let gradg ← M.F.calcGradg preds
  let proxf ← M.P.proxf xr.1
  let l ← logpi M.F M.P M.par.mu xr.1 preds
  .ok (⟨xr.1, preds, gradg, proxf, l.1, l.2.1, l.2.2⟩, xr.2)

/-- mcmc.py:236-241, 244: the log acceptance ratio. -/
noncomputable def malaLogAlpha {n : ℕ} (M : Sampler n) (delta : ℝ) (c p : Cache) : Py ℂ := do
  let cp ← calcLogtransition M delta c.X p.X c.proxf c.gradg
  let pc ← calcLogtransition M delta p.X c.X p.proxf p.gradg
  .ok (pc + p.logpi - cp - c.logpi)

/-- mcmc.py:258-260: tuning. -/
noncomputable def malaTune {n : ℕ} (M : Sampler n) (tune : Bool) {R : Rng} (st : MalaSt R) : Py (MalaSt R) :=
  if tune then do
    let d ← tuneDelta M st.delta st.acc st.i
    .ok { st with delta := d, deltas := st.deltas ++ [d] }
  else .ok st

/-- mcmc.py:262-265: saving. -/
noncomputable def malaSave {n : ℕ} (M : Sampler n) (A0 : Arrays) {R : Rng} (accept : Prop) [Decidable accept]
    (st : MalaSt R) : Py (MalaSt R) :=
  if (st.i : ℤ) ≥ M.par.nburn then
    (if thinned M.par st.i ∧ accept then do
      let evs ← tracking M (A0.applyAll st.ev) st.j st.cur.X st.cur.preds st.cur.logpi st.cur.L2 st.cur.prior
      .ok { st with ev := st.ev ++ evs, j := st.j + 1 }
    else .ok st)
  else .ok st

/-- `np.mean(self.acceptance_trace)`. -/
noncomputable def accRate (acc : List ℕ) : ℝ := (acc.sum : ℝ) / acc.length

/-- mcmc.py:266-274: printing and the end of the iteration. -/
noncomputable def malaFinish {n : ℕ} (M : Sampler n) {R : Rng} (st : MalaSt R) : MalaSt R :=
  let evs := if verbose M.par st.i then
      [Event.progress ((st.j : ℤ) - 1 + 1) M.par.nsamples st.cur.logpi st.cur.L2 st.cur.prior (some (accRate st.acc))]
    else []
  { st with ev := st.ev ++ evs, i := st.i + 1 }

open Classical in
/-- mcmc.py:231-274: the loop body of `PxMALA.run`. -/
noncomputable def malaBody {n : ℕ} (M : Sampler n) (R : Rng) (tune : Bool) (A0 : Arrays) (st : MalaSt R) :
    Py (MalaSt R) := do
  let pr ← malaPropose M R st.delta st.rng st.cur
  let a ← malaLogAlpha M st.delta st.cur pr.1
  let ur := R.rand pr.2
  let accept := acceptTest ur.1 a
  let st1 : MalaSt R := { st with
    rng := ur.2
    cur := if accept then pr.1 else st.cur
    acc := st.acc ++ [if accept then 1 else 0] }
  let st2 ← malaTune M tune st1
  let st3 ← malaSave M A0 accept st2
  .ok (malaFinish M st3)

/-- mcmc.py:222-229: the state before the loop. -/
noncomputable def malaInit {n : ℕ} (M : Sampler n) (R : Rng) (delta : ℝ) (r : R.σ) (sp : StartPoint) :
    Py (MalaSt R) := do
  let x ← initialSample M R r sp
  let gradg ← M.F.calcGradg x.2.1
  let proxf ← M.P.proxf x.1
  let l ← logpi M.F M.P M.par.mu x.1 x.2.1
  .ok ⟨0, 0, ⟨x.1, x.2.1, gradg, proxf, l.1, l.2.1, l.2.2⟩, x.2.2, delta, [], [delta], []⟩

/-- The loop condition of `PxMALA.run`. -/
def malaCond {n : ℕ} (M : Sampler n) {R : Rng} (st : MalaSt R) : Bool := st.j < M.par.nsamples

/-- mcmc.py:218-275 `PxMALA.run` on a sampler whose step-size attribute is `delta` and whose arrays are `A0`. -/
noncomputable def malaRun {n : ℕ} (M : Sampler n) (R : Rng) (tune : Bool) (delta : ℝ) (A0 : Arrays) (r : R.σ)
    (sp : StartPoint) (fuel : ℕ) : Py (Option (MalaSt R)) := do
  let s0 ← malaInit M R delta r sp
  let res ← whileFuel (malaCond M) (malaBody M R tune A0) fuel s0
  .ok (res.map fun st => { st with ev := st.ev ++ [Event.done] })

end Pxmcmc
