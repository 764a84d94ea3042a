import Mathlib.Analysis.RCLike.Basic
import Mathlib.Analysis.InnerProductSpace.Basic
import Mathlib.Algebra.BigOperators.Fin
import Mathlib.Algebra.Polynomial.Derivative
import Mathlib.Analysis.Complex.Trigonometric
import Mathlib.MeasureTheory.Integral.IntervalIntegral.Basic
import Mathlib.Order.Interval.Finset.Basic
import Mathlib.Data.Int.Interval
import Mathlib.RingTheory.Polynomial.Chebyshev
import Mathlib.Analysis.SpecialFunctions.Sqrt

/-!
# Specification vocabulary

Small, model-independent definitions used to state the properties.
Nothing here refers to the model of the Python code.
-/

namespace Pxmcmc.Spec

open scoped BigOperators ComplexConjugate

variable {𝕜 : Type} [RCLike 𝕜] {n m : ℕ}

/-- Squared Euclidean distance of two vectors. -/
noncomputable def distSq (u x : Fin n → 𝕜) : ℝ := ∑ i, ‖u i - x i‖ ^ 2

/-- `p` is the proximal point of `g` at `x`: the unique minimiser of `½‖u - x‖² + g u`. -/
def IsProx (g : (Fin n → 𝕜) → ℝ) (x p : Fin n → 𝕜) : Prop :=
  ∀ u, u ≠ p → distSq p x / 2 + g p < distSq u x / 2 + g u

/-- The Moreau envelope of `g` with parameter `lmda` at `x`: the infimum of `g u + ‖u - x‖²/(2 lmda)`. -/
noncomputable def moreau (g : (Fin n → 𝕜) → ℝ) (lmda : ℝ) (x : Fin n → 𝕜) : ℝ :=
  ⨅ u, (g u + distSq u x / (2 * lmda))

/-- Weighted l1 norm. -/
noncomputable def wl1 (w : Fin n → ℝ) (u : Fin n → 𝕜) : ℝ := ∑ i, w i * ‖u i‖

/-- Inner product, conjugate-linear in the first argument (`np.vdot`). -/
noncomputable def inner (x y : Fin n → 𝕜) : 𝕜 := ∑ i, conj (x i) * y i

/-- The same inner product for vectors given as lists. -/
noncomputable def listInner (x y : List 𝕜) : 𝕜 := ((x.zip y).map fun p => conj p.1 * p.2).sum

/-- Euclidean norm squared of a list. -/
noncomputable def listNormSq (x : List 𝕜) : ℝ := (x.map fun a => ‖a‖ ^ 2).sum

/-- `A` and `B` form an adjoint pair. -/
def IsAdjointPair (A : (Fin n → 𝕜) → (Fin m → 𝕜)) (B : (Fin m → 𝕜) → (Fin n → 𝕜)) : Prop :=
  ∀ x y, inner y (A x) = inner (B y) x

/-! ## Functions on the sphere -/

/-- Surface integral over the unit sphere in colatitude/longitude. -/
noncomputable def sphereIntegral (f : ℝ → ℝ → ℂ) : ℂ :=
  ∫ θ in (0 : ℝ)..Real.pi, (∫ φ in (0 : ℝ)..(2 * Real.pi), f θ φ) * (Real.sin θ : ℂ)

/-- `f` is a Fourier sum in longitude with `|m| < L` whose zonal (`m = 0`) part is a polynomial of degree
`< L` in `cos θ`; spherical-harmonic sums of degree `< L` are of this kind. -/
def BandLimited (L : ℕ) (f : ℝ → ℝ → ℂ) : Prop :=
  ∃ (g : ℤ → ℝ → ℂ) (p : Polynomial ℂ), p.natDegree < L ∧
    (∀ θ, g 0 θ = p.eval (Real.cos θ : ℂ)) ∧
    ∀ θ φ : ℝ, f θ φ = ∑ m ∈ Finset.Ioo (-(L : ℤ)) L, g m θ * Complex.exp (Complex.I * m * φ)

/-- The Legendre polynomial by Rodrigues' formula. -/
noncomputable def legendre (l : ℕ) : Polynomial ℂ :=
  Polynomial.C (1 / (2 ^ l * (l.factorial : ℂ))) *
    Polynomial.derivative^[l] ((Polynomial.X ^ 2 - 1) ^ l)

/-- The (unnormalised) spherical harmonic `sin^|m| θ · P_l^{(|m|)}(cos θ) · e^{imφ}`. -/
noncomputable def sphHarm (l : ℕ) (m : ℤ) (θ φ : ℝ) : ℂ :=
  (Real.sin θ : ℂ) ^ m.natAbs * (Polynomial.derivative^[m.natAbs] (legendre l)).eval (Real.cos θ : ℂ) *
    Complex.exp (Complex.I * m * φ)

/-- MW samples of a function, ring by ring. -/
noncomputable def mwSamples (L : ℕ) (f : ℝ → ℝ → ℂ) : List ℂ :=
  (List.range L).flatMap fun (t : ℕ) => (List.range (2 * L - 1)).map fun (p : ℕ) =>
    f ((2 * (t : ℝ) + 1) * Real.pi / (2 * L - 1)) (2 * Real.pi * (p : ℝ) / (2 * L - 1))

/-! ## The published SK-ROCK step (Pereyra, Vargas Mieles, Zygalakis 2020) -/

/-- `ω₀ = 1 + η/s²`. -/
noncomputable def skOmega0 (eta : ℝ) (s : ℕ) : ℝ := 1 + eta / (s : ℝ) ^ 2

/-- `ω₁ = T_s(ω₀)/T_s'(ω₀)`. -/
noncomputable def skOmega1 (eta : ℝ) (s : ℕ) : ℝ :=
  (Polynomial.Chebyshev.T ℝ s).eval (skOmega0 eta s) /
    (Polynomial.derivative (Polynomial.Chebyshev.T ℝ s)).eval (skOmega0 eta s)

/-- The stages `K_j` of one published SK-ROCK step with `s` stages, step size `δ`, noise `Z`. -/
noncomputable def skStage (eta : ℝ) (s : ℕ) (delta : ℝ) (grad : (Fin n → 𝕜) → (Fin n → 𝕜)) (X Z : Fin n → 𝕜) :
    ℕ → (Fin n → 𝕜)
  | 0 => X
  | 1 =>
    let w0 := skOmega0 eta s
    let w1 := skOmega1 eta s
    let Q : Fin n → 𝕜 := fun i => ((√(2 * delta) : ℝ) : 𝕜) * Z i
    fun i => X i + ((w1 / w0 * delta : ℝ) : 𝕜) * grad (fun i => X i + ((s * w1 / 2 : ℝ) : 𝕜) * Q i) i
      + ((s * w1 / w0 : ℝ) : 𝕜) * Q i
  | j + 2 =>
    let w0 := skOmega0 eta s
    let w1 := skOmega1 eta s
    let T : ℕ → ℝ := fun k => (Polynomial.Chebyshev.T ℝ k).eval w0
    let K1 := skStage eta s delta grad X Z (j + 1)
    fun i => ((2 * w1 * T (j + 1) / T (j + 2) * delta : ℝ) : 𝕜) * grad K1 i
      + ((2 * w0 * T (j + 1) / T (j + 2) : ℝ) : 𝕜) * K1 i
      + ((-(T j / T (j + 2)) : ℝ) : 𝕜) * skStage eta s delta grad X Z j i

end Pxmcmc.Spec
