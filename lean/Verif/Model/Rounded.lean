import Verif.Model.Sampler

/-! # MYULA in floating-point arithmetic

The other files compute with exact numbers.  Here each arithmetic operation of `MYULA.chain_step` is followed by a rounding.  The operators of
the sampler may be any functions, in particular those that a computer evaluates in place of linear maps and proximal maps.  Not modelled:
overflow and underflow, and rounding of the tracked log-posterior, misfit and prior (they do not influence the chain). -/

namespace Pxmcmc

/-- What the processor returns in place of the exact result: `re` for Python floats, `cx` for each entry of an array. -/
structure Rounding where
  re : ℝ → ℝ
  cx : ℂ → ℂ

/-- mcmc.py:185-201 `MYULA.chain_step`, the operations in the order in which numpy carries them out.  The random numbers are doubles. -/
noncomputable def chainStepFl {n : ℕ} (fl : Rounding) (M : Sampler n) (R : Rng) (r : R.σ) (X proxf gradg : List ℂ) : Py (List ℂ × R.σ) := do
  let (w, r) := noise R R.randn M.par.complex r M.nparams
  let q ← pyDiv M.par.delta M.par.lmda
  let q := fl.re q
  let s := fl.re (1 - q)
  let a ← npAdd (X.map fun z => fl.cx ((s : ℂ) * z)) (proxf.map fun z => fl.cx ((q : ℂ) * z))
  let b ← npSub (a.map fl.cx) (gradg.map fun z => fl.cx ((M.par.delta : ℂ) * z))
  let t := fl.re (√(fl.re (2 * M.par.delta)))
  let c ← npAdd (b.map fl.cx) (w.map fun z => fl.cx ((t : ℂ) * z))
  .ok (c.map fl.cx, r)

/-- mcmc.py:158-164: one MYULA transition. -/
noncomputable def myulaStepFl {n : ℕ} (fl : Rounding) (M : Sampler n) (R : Rng) (c : Cur R) : Py (Cur R) := do
  let gradg ← M.F.calcGradg c.preds
  let proxf ← M.P.proxf c.X
  let xr ← chainStepFl fl M R c.rng c.X proxf gradg
  let preds ← M.F.forward xr.1
  .ok ⟨xr.1, preds, xr.2⟩

/-- mcmc.py:158-181: the loop body of `MYULA.run`. -/
noncomputable def myulaBodyFl {n : ℕ} (fl : Rounding) (M : Sampler n) (R : Rng) (A0 : Arrays) (st : St R) : Py (St R) := do
  let c ← myulaStepFl fl M R st.cur
  myulaBook M A0 { st with cur := c }

/-- mcmc.py:150-183 `MYULA.run`. -/
noncomputable def myulaRunFl {n : ℕ} (fl : Rounding) (M : Sampler n) (R : Rng) (A0 : Arrays) (r : R.σ) (sp : StartPoint) (fuel : ℕ) :
    Py (Option (St R)) := do
  let x ← initialSample M R r sp
  let res ← whileFuel (loopCond M) (myulaBodyFl fl M R A0) fuel ⟨0, 0, ⟨x.1, x.2.1, x.2.2⟩, []⟩
  .ok (res.map fun st => { st with ev := st.ev ++ [Event.done] })

end Pxmcmc
