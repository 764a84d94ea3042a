import Verif.Model.UtilsArrays
import Verif.Model.UtilsSphere
import Mathlib.Analysis.SpecialFunctions.Pow.Real

/-!
# Model of `pxmcmc/prior.py`

Transform handles are functions on arrays that may raise.  The tiling functions returned by pys2let are
parameters.
-/

namespace Pxmcmc

/-- The two settings. -/
inductive Setting where
  | analysis | synthesis
  deriving DecidableEq, Repr

/-- `setting in ["analysis", "synthesis"]`. -/
def Setting.parse (s : String) : Option Setting :=
  if s = "analysis" then some .analysis else if s = "synthesis" then some .synthesis else none

section
variable {𝕜 : Type} [RCLike 𝕜]

/-- numpy `x + y` on 1-D arrays. -/
def npAdd (x y : List 𝕜) : Py (List 𝕜) := do
  let ps ← bcast x y
  .ok (ps.map fun p => p.1 + p.2)

/-- numpy `x - y` on 1-D arrays. -/
def npSub (x y : List 𝕜) : Py (List 𝕜) := do
  let ps ← bcast x y
  .ok (ps.map fun p => p.1 - p.2)

/-- prior.py:8-26, the object state of `L1` (and, with weights, of its subclasses). -/
structure L1 (𝕜 : Type) where
  setting : Setting
  fwd : List 𝕜 → Py (List 𝕜)
  adj : List 𝕜 → Py (List 𝕜)
  T : Thresh

/-- prior.py:21-26 `L1.__init__`: an unknown setting fails the assertion. -/
def L1.init (setting : String) (fwd adj : List 𝕜 → Py (List 𝕜)) (T : Thresh) : Py (L1 𝕜) :=
  match Setting.parse setting with
  | none => .error .AssertionError
  | some s => .ok ⟨s, fwd, adj, T⟩

/-- prior.py:28-35 `L1.prior`: `sum(abs(X))`. -/
noncomputable def L1.prior (_P : L1 𝕜) (X : List 𝕜) : ℝ := (X.map fun x => ‖x‖).sum

/-- prior.py:49-50 `L1._proxf_synthesis`. -/
noncomputable def L1.proxfSynthesis (P : L1 𝕜) (X : List 𝕜) : Py (List 𝕜) := soft X P.T

/-- prior.py:52-53 `L1._proxf_analysis`: `X + fwd(soft(adj(X), T) - adj(X))`. -/
noncomputable def L1.proxfAnalysis (P : L1 𝕜) (X : List 𝕜) : Py (List 𝕜) := do
  let a ← P.adj X
  let s ← soft a P.T
  let a' ← P.adj X
  let d ← npSub s a'
  let f ← P.fwd d
  npAdd X f

/-- prior.py:37-47 `L1.proxf`. -/
noncomputable def L1.proxf (P : L1 𝕜) (X : List 𝕜) : Py (List 𝕜) :=
  match P.setting with
  | .synthesis => P.proxfSynthesis X
  | .analysis => P.proxfAnalysis X

end

/-! ## Thresholds as Python objects -/

/-- A threshold argument as the caller holds it: a float (immutable) or a reference to a float array. -/
inductive TObj where
  | float (t : ℝ)
  | arr (addr : ℕ)

/-- The numerical value of a threshold object. -/
def TObj.value (h : Heap ℝ) : TObj → Option Thresh
  | .float t => some (.scalar t)
  | .arr a => (h a).map .vector

/-- `self.T *= w` (prior.py:81 and 108) for a float array `w`.
A float is rebound to a new array (allocated at the unused address `fresh`); an array is updated *in place*,
which requires `w` to broadcast to its shape. -/
noncomputable def imul (h : Heap ℝ) (T : TObj) (w : List ℝ) (fresh : ℕ) : Py (Heap ℝ × TObj) :=
  match T with
  | .float t => .ok (h.write fresh (w.map fun x => t * x), .arr fresh)
  | .arr a =>
    match h a with
    | none => .error .TypeError
    | some ts =>
      if ts.length = w.length then .ok (h.write a ((ts.zip w).map fun p => p.1 * p.2), .arr a)
      else match w with
        | [x] => .ok (h.write a (ts.map fun t => t * x), .arr a)
        | _ => .error .ValueError

/-- The state of a wavelet prior: threshold object and weights (`fwd`, `adj` are not used in the only
supported setting). -/
structure S2L1 where
  T : TObj
  mapWeights : List ℝ

/-- prior.py:67-81 `S2_Wavelets_L1.__init__`; `bls` is the result of `_multires_bandlimits` (line 77).
`L1.__init__`'s assertion comes first, then the analysis setting raises `NotImplementedError`. -/
noncomputable def S2L1.init (h : Heap ℝ) (setting : String) (T : TObj) (bls : List ℕ) (fresh : ℕ) :
    Py (Heap ℝ × S2L1) :=
  match Setting.parse setting with
  | none => .error .AssertionError
  | some .analysis => .error .NotImplementedError
  | some .synthesis => do
    let w := bls.flatMap mwMapWeights
    let (h', T') ← imul h T w fresh
    .ok (h', ⟨T', w⟩)

section
variable {𝕜 : Type} [RCLike 𝕜]

/-- `w * X` for a float array `w`. -/
noncomputable def wmul (w : List ℝ) (X : List 𝕜) : Py (List 𝕜) := do
  let ps ← bcast w X
  .ok (ps.map fun p => (p.1 : 𝕜) * p.2)

/-- prior.py:83-84 `S2_Wavelets_L1.prior`: `L1.prior(map_weights * X)`. -/
noncomputable def S2L1.prior (P : S2L1) (X : List 𝕜) : Py ℝ := do
  let y ← wmul P.mapWeights X
  .ok (y.map fun x => ‖x‖).sum

/-- `proxf` inherited from `L1` (synthesis): `soft(X, self.T)` with the current contents of `T`. -/
noncomputable def S2L1.proxf (P : S2L1) (h : Heap ℝ) (X : List 𝕜) : Py (List 𝕜) :=
  match P.T.value h with
  | none => .error .TypeError
  | some T => soft X T

end

/-! ## Power weights -/

/-- `(np.full((b, 2b-1), c).T * np.sin(thetas)).T.flatten()` (prior.py:125-127, 145-147). -/
noncomputable def sinWeights (b : ℕ) (c : ℝ) : List ℝ :=
  (mwThetas b).flatMap fun t => List.replicate (2 * b - 1) (c * Real.sin t)

/-- `np.vdot(x, x).real`. -/
noncomputable def power (x : List ℂ) : ℝ := (x.map fun z => ‖z‖ ^ 2).sum

/-- prior.py:120-128 `_calculate_scaling_weights` (flattened). -/
noncomputable def scalingWeights (phi : List ℂ) : Py (List ℝ) := do
  let b ← bandlimitOf phi
  .ok (sinWeights b (2 * Real.pi ^ 2 / (power phi * mwLength b)))

/-- The triples `(effective_L, power, peak_l)` that the loop of prior.py:143 runs over.  `bls1` is the result of
`_multires_bandlimits` with default `dirs`, `spin` (line 131), `peaks` the `peak_ls` of line 139 (any list here). -/
noncomputable def waveletScales (bls1 : List ℕ) (psis : List (List ℂ)) (peaks : List ℕ) : List ((ℕ × ℝ) × ℕ) :=
  (bls1.tail.zip (psis.map power)).zip peaks

/-- prior.py:142-149 `_calculate_wavelet_weights`, flattened and concatenated (lines 116-117).
* no wavelet scale: `np.concatenate([])` raises `ValueError`;
* all scales have the same bandlimit: `np.array(all_weights, dtype=list)` is a 3-D *object* array, `map_weights` gets
  dtype object and the in-place product of line 108 on the float array `self.T` raises numpy's `UFuncTypeError`
  (a `TypeError`; reported here already);
* `eta` is a float (numpy refuses a negative *integer* exponent of an integer). -/
noncomputable def waveletWeights (bls1 : List ℕ) (psis : List (List ℂ)) (peaks : List ℕ) (eta : ℝ) :
    Py (List ℝ) :=
  match waveletScales bls1 psis peaks with
  | [] => .error .ValueError
  | x :: xs =>
    if ∀ y ∈ xs, y.1.1 = x.1.1 then .error .TypeError
    else .ok ((x :: xs).flatMap fun x =>
      sinWeights x.1.1 (2 * Real.pi ^ 2 * (x.2 : ℝ) ^ eta / (x.1.2 * mwLength x.1.1)))

/-- prior.py:101-118 `S2_Wavelets_L1_Power_Weights.__init__`: base constructor with bandlimits `bls`, then the
weights are replaced, then `T` is multiplied *again*.  `phi`, `psis` are the tiling functions for
`self.dirs, self.spin`, `bls1` the bandlimits for the default `dirs`, `spin` (line 131). -/
noncomputable def S2L1.initPower (h : Heap ℝ) (setting : String) (T : TObj) (phi : List ℂ)
    (psis : List (List ℂ)) (bls bls1 : List ℕ) (peaks : List ℕ) (eta : ℝ) (fresh : ℕ) :
    Py (Heap ℝ × S2L1) := do
  let (h1, P1) ← S2L1.init h setting T bls fresh
  let s ← scalingWeights phi
  let ww ← waveletWeights bls1 psis peaks eta
  let w := s ++ ww
  let (h2, T2) ← imul h1 P1.T w (fresh + 1)
  .ok (h2, ⟨T2, w⟩)

section
variable {𝕜 : Type} [RCLike 𝕜]

/-- prior.py:110-111 `S2_Wavelets_L1_Power_Weights.prior`: `super().prior(self.map_weights * X)`; the parent's
`prior` multiplies by `self.map_weights` once more. -/
noncomputable def S2L1.priorPower (P : S2L1) (X : List 𝕜) : Py ℝ := do
  let y ← wmul P.mapWeights X
  P.prior y

end

end Pxmcmc
