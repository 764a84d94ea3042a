import Verif.Model.UtilsCheb
import Mathlib.Analysis.RCLike.Basic
import Mathlib.Analysis.SpecialFunctions.Sqrt

/-!
# Model of the SKROCK step (`pxmcmc/mcmc.py:292-383`)

The gradient `_gradlogpi` is a parameter here (modelled in `Model/Sampler.lean`).
-/

namespace Pxmcmc

/-- Python float division. -/
noncomputable def pyDiv (a b : ℝ) : Py ℝ := if b = 0 then .error .ZeroDivisionError else .ok (a / b)

/-- The attributes set by `SKROCK.__init__`; the arrays have length `s + 1`. -/
structure SkrockCoefs where
  omega0 : ℝ
  omega1 : ℝ
  mus : List ℝ
  nus : List ℝ
  ks : List ℝ

/-- mcmc.py:380 `cheb_ratio`. -/
noncomputable def chebRatio (omega0 omega1 : ℝ) (j : ℕ) : Py ℝ := do
  let a ← chebyshev1 omega0 ((j : ℤ) - 1)
  let b ← chebyshev1 omega1 j
  pyDiv a b

/-- mcmc.py:370-383 `_recursion_coefs`, for `s ≥ 1`.  The zero-initialised arrays are filled in order of increasing
index; `ks[j] = 1 - nus[0]` and `nus[0] = 0`. -/
noncomputable def recursionCoefs (s : ℕ) (omega0 omega1 : ℝ) : Py SkrockCoefs := do
  let mu1 ← pyDiv omega1 omega0
  let nu1 := s * omega1 / 2
  let k1 ← pyDiv (s * omega1) omega0
  let ratios ← (List.range (s - 1)).mapM fun (k : ℕ) => chebRatio omega0 omega1 (k + 2)
  let nu0 : ℝ := 0
  .ok ⟨omega0, omega1, 0 :: mu1 :: ratios.map fun r => 2 * omega1 * r,
    nu0 :: nu1 :: ratios.map fun r => 2 * omega0 * r, 0 :: k1 :: ratios.map fun _ => 1 - nu0⟩

/-- mcmc.py:300-306 `SKROCK.__init__` (the coefficient part), `self.eta = 0.05`. -/
noncomputable def skrockInit (s : ℤ) : Py SkrockCoefs := do
  let q ← pyDiv (1 / 20) (s * s)
  let omega0 := 1 + q
  let a ← chebyshev1 omega0 s
  let b ← cheb1der omega0 s
  let omega1 ← pyDiv a b
  recursionCoefs s.toNat omega0 omega1

section
variable {𝕜 : Type} [RCLike 𝕜] {n : ℕ}

/-- mcmc.py:349-368 `_K_recursion(X, s, Z)`, returning also the number of gradient evaluations it performs.
The array accesses `mus[s]`, … are in range because the recursion is started at `self.s`. -/
noncomputable def kRec (c : SkrockCoefs) (delta : ℝ) (grad : (Fin n → 𝕜) → Py (Fin n → 𝕜)) (X Z : Fin n → 𝕜) :
    ℕ → Py ((Fin n → 𝕜) × ℕ)
  | 0 => .ok (X, 0)
  | 1 => do
    let g ← grad fun i => X i + ((c.nus.getD 1 0 * √(2 * delta) : ℝ) : 𝕜) * Z i
    .ok (fun i => X i + ((c.mus.getD 1 0 * delta : ℝ) : 𝕜) * g i
      + ((c.ks.getD 1 0 * √(2 * delta) : ℝ) : 𝕜) * Z i, 1)
  | s + 2 => do
    let (a, na) ← kRec c delta grad X Z (s + 1)
    let g ← grad a
    let (b, nb) ← kRec c delta grad X Z (s + 1)
    let (d, nd) ← kRec c delta grad X Z s
    .ok (fun i => ((c.mus.getD (s + 2) 0 * delta : ℝ) : 𝕜) * g i + ((c.nus.getD (s + 2) 0 : ℝ) : 𝕜) * b i
      + ((c.ks.getD (s + 2) 0 : ℝ) : 𝕜) - d i, na + 1 + nb + nd)

/-- mcmc.py:338-347 `SKROCK.chain_step` for the noise vector `Z` it draws. -/
noncomputable def skrockStep (c : SkrockCoefs) (s : ℕ) (delta : ℝ) (grad : (Fin n → 𝕜) → Py (Fin n → 𝕜))
    (X Z : Fin n → 𝕜) : Py (Fin n → 𝕜) := do
  let r ← kRec c delta grad X Z s
  .ok r.1

end

end Pxmcmc
