import Verif.Model.Prior
import Verif.Model.McmcBase
import Verif.Model.Uncertainty

/-!
# Model of `S2_Wavelets_L1_Power_Weights` with its peaks and bandlimits computed from the tiling

`Verif/Model/Prior.lean` takes the bandlimits and the peak degrees of the wavelets as arguments.  Here they are computed from what
`pys2let.wavelet_tiling` returns, as the code does.
-/

namespace Pxmcmc

/-- What `pys2let.wavelet_tiling(B, L, dirs, J_min, spin)` returns: `phi_l`, and the columns of `psi_lm`. -/
structure Tiling where
  phi : List ℂ
  psis : List (List ℂ)

/-- The loop of `np.argmax` on a complex array: `i` is the index of the next entry, `best` the index and `v` the value of the first
largest entry so far (numpy's order on complex numbers: real part first, then imaginary part). -/
noncomputable def argmaxLoop : List ℂ → ℕ → ℕ → ℂ → ℕ
  | [], _, best, _ => best
  | y :: ys, i, best, v => if lexLe y v then argmaxLoop ys (i + 1) best v else argmaxLoop ys (i + 1) i y

/-- `np.argmax` of a complex array; an empty array raises `ValueError`. -/
noncomputable def npArgmaxC : List ℂ → Py ℕ
  | [] => .error .ValueError
  | x :: xs => .ok (argmaxLoop xs 1 0 x)

/-- prior.py:136-141 `peak_ls`: for every wavelet the degree at which its `m = 0` coefficient is largest. -/
noncomputable def peakLs (L : ℕ) (psis : List (List ℂ)) : Py (List ℕ) := do
  let psil ← psis.mapM (degreeZeroPart L)
  psil.mapM npArgmaxC

/-- prior.py:130-149 `_calculate_wavelet_weights`, flattened and concatenated.  `til1` is the tiling for the default `dirs`, `spin`
(line 131 does not pass them), `til` the one for `self.dirs`, `self.spin`. -/
noncomputable def waveletWeightsTiling (L : ℕ) (til til1 : Tiling) (eta : ℝ) : Py (List ℝ) := do
  let bls1 ← multiresBandlimits L til1.phi til1.psis
  let peaks ← peakLs L til.psis
  waveletWeights bls1 til.psis peaks eta

/-- prior.py:101-118 `S2_Wavelets_L1_Power_Weights.__init__` (`super().__init__` is prior.py:67-81). -/
noncomputable def S2L1.initTiling (h : Heap ℝ) (setting : String) (T : TObj) (L : ℕ) (til til1 : Tiling) (eta : ℝ) (fresh : ℕ) :
    Py (Heap ℝ × S2L1) :=
  match Setting.parse setting with
  | none => .error .AssertionError
  | some .analysis => .error .NotImplementedError
  | some .synthesis => do
    let bls ← multiresBandlimits L til.phi til.psis
    let (h1, P1) ← S2L1.init h setting T bls fresh
    let s ← scalingWeights til.phi
    let ww ← waveletWeightsTiling L til til1 eta
    let w := s ++ ww
    let (h2, T2) ← imul h1 P1.T w (fresh + 1)
    .ok (h2, ⟨T2, w⟩)

/-- `S2_Wavelets_L1` objects (prior.py:56-86) as the samplers use them; `h` holds the threshold array.  The samplers never write to it. -/
noncomputable def S2L1.toPrior (P : S2L1) (h : Heap ℝ) : PriorObj := ⟨P.prior, P.proxf h⟩

/-- `S2_Wavelets_L1_Power_Weights` objects (prior.py:89-149) as the samplers use them. -/
noncomputable def S2L1.toPriorPower (P : S2L1) (h : Heap ℝ) : PriorObj := ⟨P.priorPower, P.proxf h⟩

end Pxmcmc
