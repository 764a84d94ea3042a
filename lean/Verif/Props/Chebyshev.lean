import Verif.Model.UtilsCheb
import Mathlib.RingTheory.Polynomial.Chebyshev
import Mathlib.Analysis.SpecialFunctions.Trigonometric.Chebyshev.Basic
import Mathlib.Analysis.Calculus.Deriv.Polynomial

/-! # Properties C16, C17: Chebyshev polynomials (`pxmcmc/utils.py`) -/

namespace Pxmcmc
open Polynomial

variable {R : Type} [CommRing R]

/-! ## C16 -/

/-- C16: for `n ≥ 0` the value of the Chebyshev polynomial of the first kind. -/
theorem C16_chebyshev1_eval (X : R) (n : ℕ) : chebyshev1 X n = .ok ((Chebyshev.T R n).eval X) := by
  induction n using Nat.strong_induction_on with
  | _ n ih =>
    match n, ih with
    | 0, _ => rw [chebyshev1]; simp
    | 1, _ => rw [chebyshev1]; simp
    | n + 2, ih =>
      rw [chebyshev1]
      have h1 : ¬ (((n + 2 : ℕ) : ℤ) < 0) := by omega
      have h2 : ¬ (((n + 2 : ℕ) : ℤ) = 0) := by omega
      have h3 : ¬ (((n + 2 : ℕ) : ℤ) = 1) := by omega
      have e1 : ((n + 2 : ℕ) : ℤ) - 1 = ((n + 1 : ℕ) : ℤ) := by omega
      have e2 : ((n + 2 : ℕ) : ℤ) - 2 = (n : ℤ) := by omega
      rw [if_neg h1, if_neg h2, if_neg h3, e1, e2, ih (n + 1) (by omega), ih n (by omega)]
      simp only [bind, Except.bind]
      congr 1
      have := Chebyshev.T_add_two R (n : ℤ)
      push_cast
      rw [this]
      simp

/-- C16: negative orders raise `ValueError`. -/
theorem C16_chebyshev1_neg (X : R) (n : ℤ) (h : n < 0) : chebyshev1 X n = .error .ValueError := by
  rw [chebyshev1, if_pos h]

/-- C16: `chebyshev1(cos t, n) = cos(n t)`. -/
theorem C16_chebyshev1_cos (t : ℝ) (n : ℕ) : chebyshev1 (Real.cos t) n = .ok (Real.cos (n * t)) := by
  rw [C16_chebyshev1_eval, Chebyshev.T_real_cos]; norm_cast

/-- `T_3(2) = 26`. -/
example : chebyshev1 (2 : ℤ) 3 = .ok 26 := by
  have := C16_chebyshev1_eval (2 : ℤ) 3
  rw [show ((3 : ℕ) : ℤ) = 3 by rfl] at this
  rw [this]
  have : (3 : ℤ) = 1 + 2 := rfl
  rw [this, Chebyshev.T_add_two]
  have : (1 + 1 : ℤ) = 0 + 2 := rfl
  rw [this, Chebyshev.T_add_two]
  simp

/-! ## C17 -/

/-- C17: `chebyshev2(X, n)` is the Chebyshev polynomial of the second kind. -/
theorem C17_chebyshev2_eval (X : R) (n : ℕ) : chebyshev2 X n = .ok ((Chebyshev.U R n).eval X) := by
  induction n using Nat.strong_induction_on with
  | _ n ih =>
    match n, ih with
    | 0, _ => rw [chebyshev2]; simp
    | 1, _ => rw [chebyshev2]; simp
    | n + 2, ih =>
      rw [chebyshev2]
      have h1 : ¬ (((n + 2 : ℕ) : ℤ) < 0) := by omega
      have h2 : ¬ (((n + 2 : ℕ) : ℤ) = 0) := by omega
      have h3 : ¬ (((n + 2 : ℕ) : ℤ) = 1) := by omega
      have e1 : ((n + 2 : ℕ) : ℤ) - 1 = ((n + 1 : ℕ) : ℤ) := by omega
      have e2 : ((n + 2 : ℕ) : ℤ) - 2 = (n : ℤ) := by omega
      rw [if_neg h1, if_neg h2, if_neg h3, e1, e2, ih (n + 1) (by omega), ih n (by omega)]
      simp only [bind, Except.bind]
      congr 1
      have := Chebyshev.U_add_two R (n : ℤ)
      push_cast
      rw [this]
      simp

theorem cheb1der_eval (X : R) (n : ℕ) :
    cheb1der X n = .ok ((derivative (Chebyshev.T R n)).eval X) := by
  unfold cheb1der
  match n with
  | 0 => simp
  | n + 1 =>
    have h1 : ¬ (((n + 1 : ℕ) : ℤ) < 0) := by omega
    have h2 : ¬ (((n + 1 : ℕ) : ℤ) = 0) := by omega
    have e1 : ((n + 1 : ℕ) : ℤ) - 1 = (n : ℤ) := by omega
    rw [if_neg h1, if_neg h2, e1, C17_chebyshev2_eval]
    simp only [bind, Except.bind]
    congr 1
    rw [Chebyshev.T_derivative_eq_U]
    simp

/-- C17: `cheb1der(·, n)` is the derivative of `chebyshev1(·, n)`: if `f` is the function that `chebyshev1`
computes, then `cheb1der` computes `f'`. -/
theorem C17_cheb1der_is_derivative (n : ℕ) (f : ℝ → ℝ) (hf : ∀ x, chebyshev1 x n = .ok (f x)) (X : ℝ) :
    ∃ d, cheb1der X n = .ok d ∧ HasDerivAt f d X := by
  refine ⟨_, cheb1der_eval X n, ?_⟩
  have : f = fun x => (Chebyshev.T ℝ n).eval x := by
    funext x
    have := hf x
    rw [C16_chebyshev1_eval] at this
    injection this with h
    exact h.symm
  rw [this]
  exact (Chebyshev.T ℝ n).hasDerivAt X

/-- The hypothesis of the previous theorem is met for every order. -/
example (n : ℕ) : ∃ f : ℝ → ℝ, ∀ x, chebyshev1 x n = .ok (f x) := ⟨_, fun x => C16_chebyshev1_eval x n⟩

/-- C17: negative orders raise `ValueError` in both functions. -/
theorem C17_negative_orders (X : R) (n : ℤ) (h : n < 0) :
    chebyshev2 X n = .error .ValueError ∧ cheb1der X n = .error .ValueError := by
  constructor
  · rw [chebyshev2, if_pos h]
  · rw [cheb1der, if_pos h]

/-- C17: `chebyshev2(cos t, n)·sin t = sin((n+1) t)`. -/
theorem C17_chebyshev2_sin (t : ℝ) (n : ℕ) :
    ∃ u, chebyshev2 (Real.cos t) n = .ok u ∧ u * Real.sin t = Real.sin ((n + 1) * t) := by
  refine ⟨_, C17_chebyshev2_eval _ n, ?_⟩
  have := Chebyshev.U_real_cos t n
  push_cast at this ⊢
  exact this

example : cheb1der (3 : ℤ) 2 = .ok 12 := by
  simp [cheb1der, chebyshev2, bind, Except.bind]

end Pxmcmc
