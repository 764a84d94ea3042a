import Verif.Model.Rounded

/-! # Thresholding, the data gradient and MYULA runs with all operations rounded

`np.sign`-like division, moduli, differences and products as in `pxmcmc/utils.py`, `prior.py` and `forward.py`, each followed by a rounding.
The operators (`transform`, `measurement`) are as given.  The inverse covariance matrix is the one stored in the object and is taken to be
diagonal, as `_build_inverse_covariance_matrix` makes it; the rounding in building it is not modelled. -/

namespace Pxmcmc

/-- utils.py:84-88 `_sign`, per entry, given the computed modulus `a`.  Where that is 0 the code divides 0 by 1, which is exact. -/
noncomputable def signEntryFl (fl : Rounding) (z : ℂ) (a : ℝ) : ℂ :=
  if a = 0 then 0 else fl.cx (z / (a : ℂ))

/-- utils.py:65-66, per entry: `t = _sign(X) * (np.abs(X) - T)`, then `t[np.abs(X) <= T] = 0`. -/
noncomputable def softEntryFl (fl : Rounding) (x : ℂ) (t : ℝ) : ℂ :=
  let a := fl.re ‖x‖
  let v := fl.cx (signEntryFl fl x a * ((fl.re (a - t) : ℝ) : ℂ))
  if a ≤ t then 0 else v

/-- utils.py:55-67 `soft`. -/
noncomputable def softFl (fl : Rounding) (X : List ℂ) (T : Thresh) : Py (List ℂ) := do
  let ps ← bcast X T.arr
  .ok (ps.map fun p => softEntryFl fl p.1 p.2)

/-- prior.py:37-53 `L1.proxf` in either setting. -/
noncomputable def L1.proxfFl (fl : Rounding) (P : L1 ℂ) (X : List ℂ) : Py (List ℂ) :=
  match P.setting with
  | .synthesis => softFl fl X P.T
  | .analysis => do
    let a ← P.adj X
    let s ← softFl fl a P.T
    let a' ← P.adj X
    let d ← npSub s a'
    let f ← P.fwd (d.map fl.cx)
    let y ← npAdd X f
    .ok (y.map fl.cx)

/-- forward.py:66-69 `_gradg_analysis`: `adjoint(invcov @ (preds - data))` for a diagonal `invcov`. -/
noncomputable def ForwardOp.gradgAnalysisFl {n : ℕ} (fl : Rounding) (F : ForwardOp n) (preds : List ℂ) : Py (List ℂ) := do
  let m ← attr F.measurement
  let diff ← npSub preds (List.ofFn F.data.vals)
  let wd ← matDot F.invcov (diff.map fl.cx)
  m.adj (wd.map fl.cx)

/-- forward.py:48-58 `calc_gradg`. -/
noncomputable def ForwardOp.calcGradgFl {n : ℕ} (fl : Rounding) (F : ForwardOp n) (preds : List ℂ) : Py (List ℂ) :=
  match F.setting with
  | .analysis => F.gradgAnalysisFl fl preds
  | .synthesis => do
    let t ← attr F.transform
    let g ← F.gradgAnalysisFl fl preds
    t.adj g

/-- mcmc.py:158-164: one MYULA transition, with the data gradient and the proximal map as the computer evaluates them. -/
noncomputable def myulaStepOps {n : ℕ} (fl : Rounding) (M : Sampler n) (R : Rng) (gradg proxf : List ℂ → Py (List ℂ)) (c : Cur R) :
    Py (Cur R) := do
  let gradg ← gradg c.preds
  let proxf ← proxf c.X
  let xr ← chainStepFl fl M R c.rng c.X proxf gradg
  let preds ← M.F.forward xr.1
  .ok ⟨xr.1, preds, xr.2⟩

/-- mcmc.py:158-181: the loop body of `MYULA.run`. -/
noncomputable def myulaBodyOps {n : ℕ} (fl : Rounding) (M : Sampler n) (R : Rng) (gradg proxf : List ℂ → Py (List ℂ)) (A0 : Arrays) (st : St R) :
    Py (St R) := do
  let c ← myulaStepOps fl M R gradg proxf st.cur
  myulaBook M A0 { st with cur := c }

/-- mcmc.py:150-183 `MYULA.run`. -/
noncomputable def myulaRunOps {n : ℕ} (fl : Rounding) (M : Sampler n) (R : Rng) (gradg proxf : List ℂ → Py (List ℂ)) (A0 : Arrays) (r : R.σ)
    (sp : StartPoint) (fuel : ℕ) : Py (Option (St R)) := do
  let x ← initialSample M R r sp
  let res ← whileFuel (loopCond M) (myulaBodyOps fl M R gradg proxf A0) fuel ⟨0, 0, ⟨x.1, x.2.1, x.2.2⟩, []⟩
  .ok (res.map fun st => { st with ev := st.ev ++ [Event.done] })

end Pxmcmc
