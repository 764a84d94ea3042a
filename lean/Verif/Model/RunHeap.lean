import Verif.Model.Sampler

/-!
# The runs of `pxmcmc/mcmc.py` with variables that refer to arrays

In `Model/Sampler.lean` a variable holds the values of an array.  In Python it refers to an array, several variables can refer to the same one
(`X_curr = initial_sample` at mcmc.py:107, `X_curr = X_prop` at mcmc.py:163, `return X` in `IdentityTransform`), and code that writes into an array is seen
through all of them.  The definitions here repeat the runs with references.  The temporaries of a numpy expression are not represented: nothing else
refers to them.  `self.chain[j] = X_curr` and the like copy values (mcmc.py:130-140), so the tracking arrays are as in `Model/Sampler.lean`.
-/

namespace Pxmcmc

/-- The arrays that exist; a reference is an index. -/
abbrev Store := List (List ℂ)

/-- Code that may raise, create arrays and write into arrays. -/
abbrev Mem (α : Type) := StateT Store (Except PyErr) α

/-- The values of the array that `a` refers to. -/
def rd (a : ℕ) : Mem (List ℂ) := fun H =>
  match H[a]? with
  | some l => .ok (l, H)
  | none => .error (.Other "dangling reference")

/-- A new array. -/
def new (l : List ℂ) : Mem ℕ := fun H => .ok (H.length, H ++ [l])

/-- `x[:] = l`. -/
def wr (a : ℕ) (l : List ℂ) : Mem Unit := fun H => .ok ((), H.set a l)

/-- Code that does not refer to arrays. -/
def val {α : Type} (x : Py α) : Mem α := fun H =>
  match x with
  | .ok a => .ok (a, H)
  | .error e => .error e

/-- The methods of the forward operator and of the prior as they treat references. -/
structure MemOps where
  forward : ℕ → Mem ℕ
  gradg : ℕ → Mem ℕ
  proxf : ℕ → Mem ℕ
  prior : ℕ → Mem ℝ

/-- `while` loops (as `whileFuel`). -/
def whileMem {σ : Type} (cond : σ → Bool) (body : σ → Mem σ) : ℕ → σ → Mem (Option σ)
  | 0, s => if cond s then pure none else pure (some s)
  | fuel + 1, s => if cond s then do
      let s' ← body s
      whileMem cond body fuel s'
    else pure (some s)

/-- The argument of `run`: `array1` refers to a 1-D array. -/
inductive StartRef where
  | none
  | array1 (a : ℕ)
  | arrayNd (ndim : ℕ) (h : ndim ≠ 1)
  | other

/-- mcmc.py:71-82 `logpi`; `data` is the array `forward.data`. -/
noncomputable def logpiM {n : ℕ} (M : Sampler n) (O : MemOps) (data X preds : ℕ) : Mem (ℂ × ℂ × ℝ) := do
  let d ← rd data
  let p ← rd preds
  let diff ← val (npSub d p)
  let wd ← val (matDot M.F.invcov diff)
  let L2 ← val (npVdot diff wd)
  let prior ← O.prior X
  pure (((-M.par.mu * prior : ℝ) : ℂ) - L2, L2, prior)

/-- mcmc.py:84-89 `_gradlogpi(X)`. -/
noncomputable def gradlogpiM {n : ℕ} (M : Sampler n) (O : MemOps) (X : ℕ) : Mem ℕ := do
  let p ← O.proxf X
  let x ← rd X
  let pv ← rd p
  let d ← val (npSub x pv)
  let preds ← O.forward X
  let gg ← O.gradg preds
  let g ← rd gg
  let r ← val (npSub ((d.map fun z => z / (M.par.lmda : ℂ)).map fun z => -z) g)
  new r

/-- mcmc.py:97-111 `_initial_sample`: the chain starts with the caller's array itself. -/
noncomputable def initialSampleM {n : ℕ} (M : Sampler n) (O : MemOps) (R : Rng) (r : R.σ) (sp : StartRef) : Mem (ℕ × ℕ × R.σ) := do
  let xr ← (match sp with
    | .none => do
      let a ← new (noise R R.laplace M.par.complex r M.nparams).1
      pure (a, (noise R R.laplace M.par.complex r M.nparams).2)
    | .arrayNd _ _ => val (.error .TypeError)
    | .other => val (.error .TypeError)
    | .array1 a => do
      let v ← rd a
      if v.length = M.nparams then pure (a, r) else val (.error .ValueError) : Mem (ℕ × R.σ))
  let preds ← O.forward xr.1
  pure (xr.1, preds, xr.2)

/-- mcmc.py:185-201 `MYULA.chain_step`: the sum of its last line is a new array. -/
noncomputable def chainStepM {n : ℕ} (M : Sampler n) (R : Rng) (delta : ℝ) (r : R.σ) (X proxf gradg : ℕ) : Mem (ℕ × R.σ) := do
  let x ← rd X
  let p ← rd proxf
  let g ← rd gradg
  let c ← val (chainStep M R delta r x p g)
  let a ← new c.1
  pure (a, c.2)

/-- The current sample, its predictions (references) and the generator. -/
structure CurRef (R : Rng) where
  X : ℕ
  preds : ℕ
  rng : R.σ

/-- The loop variables of `MYULA.run`/`SKROCK.run` with the events so far. -/
structure StRef (R : Rng) where
  i : ℕ
  j : ℕ
  cur : CurRef R
  ev : List Event

/-- mcmc.py:158-164: one MYULA transition. -/
noncomputable def myulaStepM {n : ℕ} (M : Sampler n) (O : MemOps) (R : Rng) (c : CurRef R) : Mem (CurRef R) := do
  let gradg ← O.gradg c.preds
  let proxf ← O.proxf c.X
  let xr ← chainStepM M R M.par.delta c.rng c.X proxf gradg
  let preds ← O.forward xr.1
  pure ⟨xr.1, preds, xr.2⟩

/-- mcmc.py:168-170, 324-326: compute `logpi`, write row `j`, increment `j`. -/
noncomputable def recordRowM {n : ℕ} (M : Sampler n) (O : MemOps) (data : ℕ) {R : Rng} (A0 : Arrays) (st : StRef R) : Mem (StRef R) := do
  let l ← logpiM M O data st.cur.X st.cur.preds
  let x ← rd st.cur.X
  let p ← rd st.cur.preds
  let evs ← val (tracking M (A0.applyAll st.ev) st.j x p l.1 l.2.1 l.2.2)
  pure { st with ev := st.ev ++ evs, j := st.j + 1 }

/-- mcmc.py:172-177, 328-333: the progress line from the arrays. -/
noncomputable def progressM {n : ℕ} (M : Sampler n) {R : Rng} (A0 : Arrays) (st : StRef R) : Mem (List Event) :=
  val (if verbose M.par st.i then do
      let lp ← attrArr (A0.applyAll st.ev).logPi
      let a ← pyGet lp ((st.j : ℤ) - 1)
      let l2 ← attrArr (A0.applyAll st.ev).L2s
      let b ← pyGet l2 ((st.j : ℤ) - 1)
      let ps ← attrArr (A0.applyAll st.ev).priors
      let c ← pyGet ps ((st.j : ℤ) - 1)
      .ok [.progress ((st.j : ℤ) - 1 + 1) M.par.nsamples a b c none]
    else .ok [])

/-- mcmc.py:158-181: the loop body of `MYULA.run`. -/
noncomputable def myulaBodyM {n : ℕ} (M : Sampler n) (O : MemOps) (data : ℕ) (R : Rng) (A0 : Arrays) (st : StRef R) : Mem (StRef R) := do
  let c ← myulaStepM M O R st.cur
  let st : StRef R := { st with cur := c }
  if (st.i : ℤ) ≥ M.par.nburn then do
    let st ← (if thinned M.par st.i then recordRowM M O data A0 st else pure st : Mem (StRef R))
    let evs ← progressM M A0 st
    pure { st with ev := st.ev ++ evs, i := st.i + 1 }
  else
    let evs := if verbose M.par st.i then [Event.burning] else []
    pure { st with ev := st.ev ++ evs, i := st.i + 1 }

/-- mcmc.py:150-183 `MYULA.run`. -/
noncomputable def myulaRunM {n : ℕ} (M : Sampler n) (O : MemOps) (data : ℕ) (R : Rng) (A0 : Arrays) (r : R.σ) (sp : StartRef) (fuel : ℕ) :
    Mem (Option (StRef R)) := do
  let x ← initialSampleM M O R r sp
  let res ← whileMem (fun st : StRef R => decide (st.j < M.par.nsamples)) (myulaBodyM M O data R A0) fuel ⟨0, 0, ⟨x.1, x.2.1, x.2.2⟩, []⟩
  pure (res.map fun st => { st with ev := st.ev ++ [Event.done] })

/-! ## SKROCK -/

/-- The values of an array of length `k`. -/
def rdVec (k a : ℕ) : Mem (Fin k → ℂ) := do
  let l ← rd a
  val (asVec k l)

/-- mcmc.py:349-368 `_K_recursion(X, s, Z)`: with `s == 0` it returns `X` itself, otherwise the sum is a new array. -/
noncomputable def kRecM (c : SkrockCoefs) (delta : ℝ) (k : ℕ) (grad : ℕ → Mem ℕ) (X Z : ℕ) : ℕ → Mem ℕ
  | 0 => pure X
  | 1 => do
    let x ← rdVec k X
    let z ← rdVec k Z
    let v ← new (List.ofFn fun i => x i + ((c.nus.getD 1 0 * √(2 * delta) : ℝ) : ℂ) * z i)
    let ga ← grad v
    let g ← rdVec k ga
    let x ← rdVec k X
    let z ← rdVec k Z
    new (List.ofFn fun i => x i + ((c.mus.getD 1 0 * delta : ℝ) : ℂ) * g i + ((c.ks.getD 1 0 * √(2 * delta) : ℝ) : ℂ) * z i)
  | s + 2 => do
    let a ← kRecM c delta k grad X Z (s + 1)
    let ga ← grad a
    let g ← rdVec k ga
    let ba ← kRecM c delta k grad X Z (s + 1)
    let b ← rdVec k ba
    let da ← kRecM c delta k grad X Z s
    let d ← rdVec k da
    new (List.ofFn fun i => ((c.mus.getD (s + 2) 0 * delta : ℝ) : ℂ) * g i + ((c.nus.getD (s + 2) 0 : ℝ) : ℂ) * b i
      + ((c.ks.getD (s + 2) 0 : ℝ) : ℂ) - d i)

/-- mcmc.py:316-320, 338-347: one SKROCK transition. -/
noncomputable def skrockTransitionM {n : ℕ} (M : Sampler n) (O : MemOps) (R : Rng) (co : SkrockCoefs) (c : CurRef R) : Mem (CurRef R) := do
  let xv ← rd c.X
  let za ← new (noise R R.randn M.par.complex c.rng xv.length).1
  let y ← kRecM co M.par.delta xv.length (gradlogpiM M O) c.X za M.par.s
  let preds ← O.forward y
  pure ⟨y, preds, (noise R R.randn M.par.complex c.rng xv.length).2⟩

/-- mcmc.py:316-334: the loop body of `SKROCK.run`. -/
noncomputable def skrockBodyM {n : ℕ} (M : Sampler n) (O : MemOps) (data : ℕ) (R : Rng) (co : SkrockCoefs) (A0 : Arrays) (st : StRef R) :
    Mem (StRef R) := do
  let c ← skrockTransitionM M O R co st.cur
  let st : StRef R := { st with cur := c }
  let st ← (if (st.i : ℤ) ≥ M.par.nburn then
      (if thinned M.par st.i then recordRowM M O data A0 st else pure st)
    else pure st : Mem (StRef R))
  let evs ← progressM M A0 st
  pure { st with ev := st.ev ++ evs, i := st.i + 1 }

/-- mcmc.py:300-336: construct the SKROCK coefficients and run. -/
noncomputable def skrockRunM {n : ℕ} (M : Sampler n) (O : MemOps) (data : ℕ) (R : Rng) (A0 : Arrays) (r : R.σ) (sp : StartRef) (fuel : ℕ) :
    Mem (Option (StRef R)) := do
  let co ← val (skrockInit M.par.s)
  let x ← initialSampleM M O R r sp
  let res ← whileMem (fun st : StRef R => decide (st.j < M.par.nsamples)) (skrockBodyM M O data R co A0) fuel ⟨0, 0, ⟨x.1, x.2.1, x.2.2⟩, []⟩
  pure (res.map fun st => { st with ev := st.ev ++ [Event.done] })

/-! ## PxMALA -/

/-- The cached quantities of a sample (references to arrays, values of numbers). -/
structure CacheRef where
  X : ℕ
  preds : ℕ
  gradg : ℕ
  proxf : ℕ
  logpi : ℂ
  L2 : ℂ
  prior : ℝ

/-- The loop variables and attributes of `PxMALA.run`. -/
structure MalaRef (R : Rng) where
  i : ℕ
  j : ℕ
  cur : CacheRef
  rng : R.σ
  delta : ℝ
  acc : List ℕ
  deltas : List ℝ
  ev : List Event

/-- The sample with the values its references have now. -/
def CacheRef.read (c : CacheRef) : Mem Cache := do
  let x ← rd c.X
  let p ← rd c.preds
  let g ← rd c.gradg
  let f ← rd c.proxf
  pure ⟨x, p, g, f, c.logpi, c.L2, c.prior⟩

/-- mcmc.py:231-234, 242: the proposal with its cached quantities. -/
noncomputable def malaProposeM {n : ℕ} (M : Sampler n) (O : MemOps) (data : ℕ) (R : Rng) (delta : ℝ) (r : R.σ) (c : CacheRef) :
    Mem (CacheRef × R.σ) := do
  let xr ← chainStepM M R delta r c.X c.proxf c.gradg
  let preds ← O.forward xr.1
  let gradg ← O.gradg preds
  let proxf ← O.proxf xr.1
  let l ← logpiM M O data xr.1 preds
  pure (⟨xr.1, preds, gradg, proxf, l.1, l.2.1, l.2.2⟩, xr.2)

open Classical in
/-- mcmc.py:231-274: the loop body of `PxMALA.run`; accepting assigns references (mcmc.py:247-250). -/
noncomputable def malaBodyM {n : ℕ} (M : Sampler n) (O : MemOps) (data : ℕ) (R : Rng) (tune : Bool) (A0 : Arrays) (st : MalaRef R) :
    Mem (MalaRef R) := do
  let pr ← malaProposeM M O data R st.delta st.rng st.cur
  let cv ← st.cur.read
  let pv ← pr.1.read
  let a ← val (malaLogAlpha M st.delta cv pv)
  let ur := R.rand pr.2
  let accept := acceptTest ur.1 a
  let st : MalaRef R := { st with
    rng := ur.2
    cur := if accept then pr.1 else st.cur
    acc := st.acc ++ [if accept then 1 else 0] }
  let st ← (if tune then do
      let d ← val (tuneDelta M st.delta st.acc st.i)
      pure { st with delta := d, deltas := st.deltas ++ [d] }
    else pure st : Mem (MalaRef R))
  let st ← (if (st.i : ℤ) ≥ M.par.nburn then
      (if thinned M.par st.i ∧ accept then do
        let x ← rd st.cur.X
        let p ← rd st.cur.preds
        let evs ← val (tracking M (A0.applyAll st.ev) st.j x p st.cur.logpi st.cur.L2 st.cur.prior)
        pure { st with ev := st.ev ++ evs, j := st.j + 1 }
      else pure st)
    else pure st : Mem (MalaRef R))
  let evs := if verbose M.par st.i then
      [Event.progress ((st.j : ℤ) - 1 + 1) M.par.nsamples st.cur.logpi st.cur.L2 st.cur.prior (some (accRate st.acc))]
    else []
  pure { st with ev := st.ev ++ evs, i := st.i + 1 }

/-- mcmc.py:222-229: the state before the loop. -/
noncomputable def malaInitM {n : ℕ} (M : Sampler n) (O : MemOps) (data : ℕ) (R : Rng) (delta : ℝ) (r : R.σ) (sp : StartRef) : Mem (MalaRef R) := do
  let x ← initialSampleM M O R r sp
  let gradg ← O.gradg x.2.1
  let proxf ← O.proxf x.1
  let l ← logpiM M O data x.1 x.2.1
  pure ⟨0, 0, ⟨x.1, x.2.1, gradg, proxf, l.1, l.2.1, l.2.2⟩, x.2.2, delta, [], [delta], []⟩

/-- mcmc.py:218-275 `PxMALA.run`. -/
noncomputable def malaRunM {n : ℕ} (M : Sampler n) (O : MemOps) (data : ℕ) (R : Rng) (tune : Bool) (delta : ℝ) (A0 : Arrays) (r : R.σ)
    (sp : StartRef) (fuel : ℕ) : Mem (Option (MalaRef R)) := do
  let s0 ← malaInitM M O data R delta r sp
  let res ← whileMem (fun st : MalaRef R => decide (st.j < M.par.nsamples)) (malaBodyM M O data R tune A0) fuel s0
  pure (res.map fun st => { st with ev := st.ev ++ [Event.done] })

end Pxmcmc
