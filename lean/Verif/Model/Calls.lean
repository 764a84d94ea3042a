import Verif.Model.Sampler

/-!
# The runs of `pxmcmc/mcmc.py` with a log of the calls of user-supplied code

The forward operator and the prior are objects supplied by the user (docs/examplesrst/customops.rst), and their methods dominate the cost of
a run.  The definitions here repeat those of `Model/Sampler.lean` statement by statement and note every call of `forward.forward`,
`forward.calc_gradg`, `prior.proxf` and `prior.prior` in the order in which they return.  Everything else is as in `Model/Sampler.lean`, whose
simplifications apply.
-/

namespace Pxmcmc

/-- A call of a method of the user's objects. -/
inductive Call where
  | forward
  | gradg
  | proxf
  | prior
  deriving DecidableEq

/-- Code that may raise and that notes calls. -/
abbrev Logged (α : Type) := StateT (List Call) (Except PyErr) α

/-- A call of user code. -/
def logged {α : Type} (c : Call) (x : Py α) : Logged α := fun l =>
  match x with
  | .ok a => .ok (a, l ++ [c])
  | .error e => .error e

/-- Code that calls no user code. -/
def quiet {α : Type} (x : Py α) : Logged α := fun l =>
  match x with
  | .ok a => .ok (a, l)
  | .error e => .error e

/-- `while` loops (as `whileFuel`). -/
def whileLogged {σ : Type} (cond : σ → Bool) (body : σ → Logged σ) : ℕ → σ → Logged (Option σ)
  | 0, s => if cond s then pure none else pure (some s)
  | fuel + 1, s => if cond s then do
      let s' ← body s
      whileLogged cond body fuel s'
    else pure (some s)

/-- mcmc.py:71-82 `logpi`. -/
noncomputable def logpiL {n : ℕ} (F : ForwardOp n) (P : PriorObj) (mu : ℝ) (X preds : List ℂ) : Logged (ℂ × ℂ × ℝ) := do
  let diff ← quiet (npSub (List.ofFn F.data.vals) preds)
  let wd ← quiet (matDot F.invcov diff)
  let L2 ← quiet (npVdot diff wd)
  let prior ← logged .prior (P.prior X)
  pure (((-mu * prior : ℝ) : ℂ) - L2, L2, prior)

/-- mcmc.py:84-89 `_gradlogpi(X)`. -/
noncomputable def gradlogpiL {n : ℕ} (F : ForwardOp n) (P : PriorObj) (lmda : ℝ) (X : List ℂ) : Logged (List ℂ) := do
  let p ← logged .proxf (P.proxf X)
  let d ← quiet (npSub X p)
  let preds ← logged .forward (F.forward X)
  let gg ← logged .gradg (F.calcGradg preds)
  quiet (npSub ((d.map fun z => z / (lmda : ℂ)).map fun z => -z) gg)

/-- mcmc.py:97-111 `_initial_sample`. -/
noncomputable def initialSampleL {n : ℕ} (M : Sampler n) (R : Rng) (r : R.σ) (sp : StartPoint) : Logged (List ℂ × List ℂ × R.σ) := do
  let xr ← quiet (startVector M R r sp)
  let preds ← logged .forward (M.F.forward xr.1)
  pure (xr.1, preds, xr.2)

/-- mcmc.py:168-170, 324-326. -/
noncomputable def recordRowL {n : ℕ} (M : Sampler n) {R : Rng} (A0 : Arrays) (st : St R) : Logged (St R) := do
  let l ← logpiL M.F M.P M.par.mu st.cur.X st.cur.preds
  let evs ← quiet (tracking M (A0.applyAll st.ev) st.j st.cur.X st.cur.preds l.1 l.2.1 l.2.2)
  pure { st with ev := st.ev ++ evs, j := st.j + 1 }

/-- mcmc.py:158-164: one MYULA transition. -/
noncomputable def myulaStepL {n : ℕ} (M : Sampler n) (R : Rng) (c : Cur R) : Logged (Cur R) := do
  let gradg ← logged .gradg (M.F.calcGradg c.preds)
  let proxf ← logged .proxf (M.P.proxf c.X)
  let xr ← quiet (chainStep M R M.par.delta c.rng c.X proxf gradg)
  let preds ← logged .forward (M.F.forward xr.1)
  pure ⟨xr.1, preds, xr.2⟩

/-- mcmc.py:166-181: the bookkeeping of a MYULA iteration. -/
noncomputable def myulaBookL {n : ℕ} (M : Sampler n) {R : Rng} (A0 : Arrays) (st : St R) : Logged (St R) :=
  if (st.i : ℤ) ≥ M.par.nburn then do
    let st ← (if thinned M.par st.i then recordRowL M A0 st else pure st : Logged (St R))
    let evs ← quiet (if verbose M.par st.i then progressArrays M A0 st else .ok [] : Py (List Event))
    pure { st with ev := st.ev ++ evs, i := st.i + 1 }
  else
    let evs := if verbose M.par st.i then [Event.burning] else []
    pure { st with ev := st.ev ++ evs, i := st.i + 1 }

/-- mcmc.py:158-181: the loop body of `MYULA.run`. -/
noncomputable def myulaBodyL {n : ℕ} (M : Sampler n) (R : Rng) (A0 : Arrays) (st : St R) : Logged (St R) := do
  let c ← myulaStepL M R st.cur
  myulaBookL M A0 { st with cur := c }

/-- mcmc.py:150-183 `MYULA.run`. -/
noncomputable def myulaRunL {n : ℕ} (M : Sampler n) (R : Rng) (A0 : Arrays) (r : R.σ) (sp : StartPoint) (fuel : ℕ) :
    Logged (Option (St R)) := do
  let x ← initialSampleL M R r sp
  let res ← whileLogged (loopCond M) (myulaBodyL M R A0) fuel ⟨0, 0, ⟨x.1, x.2.1, x.2.2⟩, []⟩
  pure (res.map fun st => { st with ev := st.ev ++ [Event.done] })

/-- mcmc.py:231-234, 242: the proposal of PxMALA with its cached quantities. -/
noncomputable def malaProposeL {n : ℕ} (M : Sampler n) (R : Rng) (delta : ℝ) (r : R.σ) (c : Cache) : Logged (Cache × R.σ) := do
  let xr ← quiet (chainStep M R delta r c.X c.proxf c.gradg)
  let preds ← logged .forward (M.F.forward xr.1)
  let gradg ← logged .gradg (M.F.calcGradg preds)
  let proxf ← logged .proxf (M.P.proxf xr.1)
  let l ← logpiL M.F M.P M.par.mu xr.1 preds
  pure (⟨xr.1, preds, gradg, proxf, l.1, l.2.1, l.2.2⟩, xr.2)

open Classical in
/-- mcmc.py:231-274: the loop body of `PxMALA.run`; whether the proposal is accepted, tuning, saving and printing call no user code. -/
noncomputable def malaBodyL {n : ℕ} (M : Sampler n) (R : Rng) (tune : Bool) (A0 : Arrays) (st : MalaSt R) : Logged (MalaSt R) := do
  let pr ← malaProposeL M R st.delta st.rng st.cur
  let a ← quiet (malaLogAlpha M st.delta st.cur pr.1)
  let ur := R.rand pr.2
  let accept := acceptTest ur.1 a
  let st1 : MalaSt R := { st with
    rng := ur.2
    cur := if accept then pr.1 else st.cur
    acc := st.acc ++ [if accept then 1 else 0] }
  let st2 ← quiet (malaTune M tune st1)
  let st3 ← quiet (malaSave M A0 accept st2)
  pure (malaFinish M st3)

/-- mcmc.py:222-229: the state before the loop. -/
noncomputable def malaInitL {n : ℕ} (M : Sampler n) (R : Rng) (delta : ℝ) (r : R.σ) (sp : StartPoint) : Logged (MalaSt R) := do
  let x ← initialSampleL M R r sp
  let gradg ← logged .gradg (M.F.calcGradg x.2.1)
  let proxf ← logged .proxf (M.P.proxf x.1)
  let l ← logpiL M.F M.P M.par.mu x.1 x.2.1
  pure ⟨0, 0, ⟨x.1, x.2.1, gradg, proxf, l.1, l.2.1, l.2.2⟩, x.2.2, delta, [], [delta], []⟩

/-- mcmc.py:218-275 `PxMALA.run`. -/
noncomputable def malaRunL {n : ℕ} (M : Sampler n) (R : Rng) (tune : Bool) (delta : ℝ) (A0 : Arrays) (r : R.σ) (sp : StartPoint) (fuel : ℕ) :
    Logged (Option (MalaSt R)) := do
  let s0 ← malaInitL M R delta r sp
  let res ← whileLogged (malaCond M) (malaBodyL M R tune A0) fuel s0
  pure (res.map fun st => { st with ev := st.ev ++ [Event.done] })

/-- mcmc.py:349-368 `_K_recursion(X, s, Z)`. -/
noncomputable def kRecL {k : ℕ} (c : SkrockCoefs) (delta : ℝ) (grad : (Fin k → ℂ) → Logged (Fin k → ℂ)) (X Z : Fin k → ℂ) :
    ℕ → Logged (Fin k → ℂ)
  | 0 => pure X
  | 1 => do
    let g ← grad fun i => X i + ((c.nus.getD 1 0 * √(2 * delta) : ℝ) : ℂ) * Z i
    pure fun i => X i + ((c.mus.getD 1 0 * delta : ℝ) : ℂ) * g i + ((c.ks.getD 1 0 * √(2 * delta) : ℝ) : ℂ) * Z i
  | s + 2 => do
    let a ← kRecL c delta grad X Z (s + 1)
    let g ← grad a
    let b ← kRecL c delta grad X Z (s + 1)
    let d ← kRecL c delta grad X Z s
    pure fun i => ((c.mus.getD (s + 2) 0 * delta : ℝ) : ℂ) * g i + ((c.nus.getD (s + 2) 0 : ℝ) : ℂ) * b i
      + ((c.ks.getD (s + 2) 0 : ℝ) : ℂ) - d i

/-- mcmc.py:316-320, 338-347: one SKROCK transition. -/
noncomputable def skrockTransitionL {n : ℕ} (M : Sampler n) (R : Rng) (co : SkrockCoefs) (c : Cur R) : Logged (Cur R) := do
  let k := c.X.length
  let x ← quiet (asVec k c.X)
  let zr := noise R R.randn M.par.complex c.rng k
  let z ← quiet (asVec k zr.1)
  let y ← kRecL co M.par.delta
    (fun v => do
      let g ← gradlogpiL M.F M.P M.par.lmda (List.ofFn v)
      quiet (asVec k g)) x z M.par.s
  let preds ← logged .forward (M.F.forward (List.ofFn y))
  pure ⟨List.ofFn y, preds, zr.2⟩

/-- mcmc.py:322-334: the bookkeeping of a SKROCK iteration. -/
noncomputable def skrockBookL {n : ℕ} (M : Sampler n) {R : Rng} (A0 : Arrays) (st : St R) : Logged (St R) := do
  let st ← (if (st.i : ℤ) ≥ M.par.nburn then
      (if thinned M.par st.i then recordRowL M A0 st else pure st)
    else pure st : Logged (St R))
  let evs ← quiet (if verbose M.par st.i then progressArrays M A0 st else .ok [] : Py (List Event))
  pure { st with ev := st.ev ++ evs, i := st.i + 1 }

/-- mcmc.py:316-334: the loop body of `SKROCK.run`. -/
noncomputable def skrockBodyL {n : ℕ} (M : Sampler n) (R : Rng) (co : SkrockCoefs) (A0 : Arrays) (st : St R) : Logged (St R) := do
  let c ← skrockTransitionL M R co st.cur
  skrockBookL M A0 { st with cur := c }

/-- mcmc.py:300-336: construct the SKROCK coefficients and run. -/
noncomputable def skrockRunL {n : ℕ} (M : Sampler n) (R : Rng) (A0 : Arrays) (r : R.σ) (sp : StartPoint) (fuel : ℕ) :
    Logged (Option (St R)) := do
  let co ← quiet (skrockInit M.par.s)
  let x ← initialSampleL M R r sp
  let res ← whileLogged (loopCond M) (skrockBodyL M R co A0) fuel ⟨0, 0, ⟨x.1, x.2.1, x.2.2⟩, []⟩
  pure (res.map fun st => { st with ev := st.ev ++ [Event.done] })

end Pxmcmc
