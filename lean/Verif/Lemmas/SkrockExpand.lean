import Verif.Props.SkrockStable

/-! # One step of SKROCK with two or more stages is expanding -/

namespace Pxmcmc
open Polynomial
variable {p : ℕ}

/-! ## The coefficients -/

/-- `U_n(x) ≥ n + 1` for `x ≥ 1`. -/
theorem eval_U_ge {x : ℝ} (hx : 1 ≤ x) (n : ℕ) : (n + 1 : ℝ) ≤ (Chebyshev.U ℝ (n : ℤ)).eval x ∧
    (Chebyshev.U ℝ (n : ℤ)).eval x + 1 ≤ (Chebyshev.U ℝ ((n + 1 : ℕ) : ℤ)).eval x := by
  induction n with
  | zero => simp [Chebyshev.U_zero, Chebyshev.U_one]; linarith
  | succ n ih =>
    obtain ⟨h1, h2⟩ := ih
    have h3 := one_le_eval_U hx (n + 1)
    refine ⟨by push_cast at *; linarith, ?_⟩
    rw [eval_U_succ_succ]
    nlinarith

/-- `T_s(x) - 1 ≤ 2 s (x - 1) U_{s-1}(x)` for `x ≥ 1`. -/
theorem eval_T_sub_one_le {x : ℝ} (hx : 1 ≤ x) (k : ℕ) : (Chebyshev.T ℝ ((k + 1 : ℕ) : ℤ)).eval x - 1 ≤
    2 * (k + 1) * (x - 1) * (Chebyshev.U ℝ (k : ℤ)).eval x := by
  have h : ∀ k : ℕ, (Chebyshev.T ℝ ((k + 1 : ℕ) : ℤ)).eval x =
      (Chebyshev.U ℝ ((k + 1 : ℕ) : ℤ)).eval x - x * (Chebyshev.U ℝ (k : ℤ)).eval x := by
    intro k
    have : (Chebyshev.T ℝ ((k + 1 : ℕ) : ℤ)) = Chebyshev.U ℝ ((k + 1 : ℕ) : ℤ) - X * Chebyshev.U ℝ (k : ℤ) := by
      rw [Chebyshev.T_eq_U_sub_X_mul_U]
      congr 3
      push_cast; ring
    rw [this]
    simp
  induction k with
  | zero => simp [Chebyshev.T_one, Chebyshev.U_zero]; linarith
  | succ k ih =>
    have h1 := h (k + 1)
    have h2 := h k
    rw [eval_U_succ_succ] at h1
    obtain ⟨h3, h4⟩ := one_le_eval_U hx k
    have e : (Chebyshev.T ℝ ((k + 1 + 1 : ℕ) : ℤ)).eval x = (Chebyshev.T ℝ ((k + 1 : ℕ) : ℤ)).eval x +
        (x - 1) * ((Chebyshev.U ℝ ((k + 1 : ℕ) : ℤ)).eval x + (Chebyshev.U ℝ (k : ℤ)).eval x) := by
      rw [h1, h2]; ring
    have h5 : (x - 1) * (Chebyshev.U ℝ (k : ℤ)).eval x ≤ (x - 1) * (Chebyshev.U ℝ ((k + 1 : ℕ) : ℤ)).eval x :=
      mul_le_mul_of_nonneg_left h4 (by linarith)
    have h6 : 2 * (k + 1 : ℝ) * ((x - 1) * (Chebyshev.U ℝ (k : ℤ)).eval x) ≤
        2 * (k + 1 : ℝ) * ((x - 1) * (Chebyshev.U ℝ ((k + 1 : ℕ) : ℤ)).eval x) :=
      mul_le_mul_of_nonneg_left h5 (by positivity)
    rw [e]
    push_cast at *
    nlinarith

/-- `ω₁ ≤ 1.1/s²`. -/
theorem codeOmega1_le (k : ℕ) : codeOmega1 k * (k + 1 : ℝ) ^ 2 ≤ 11 / 10 := by
  have h0 := (codeOmega0_gt k).le
  have h1 := eval_T_sub_one_le h0 k
  have h2 := (eval_U_ge h0 k).1
  have hk : (0 : ℝ) < k + 1 := by positivity
  have hU : 0 < (Chebyshev.U ℝ (k : ℤ)).eval (codeOmega0 k) := by linarith
  have e : codeOmega0 k - 1 = 1 / 20 / (k + 1 : ℝ) ^ 2 := by
    unfold codeOmega0
    push_cast
    rw [sq]
    ring
  have e' : (codeOmega0 k - 1) * (k + 1 : ℝ) ^ 2 = 1 / 20 := by
    rw [e]
    field_simp
  unfold codeOmega1
  rw [div_mul_eq_mul_div, div_le_iff₀ (by positivity)]
  set T := (Chebyshev.T ℝ ((k + 1 : ℕ) : ℤ)).eval (codeOmega0 k)
  set U := (Chebyshev.U ℝ (k : ℤ)).eval (codeOmega0 k)
  have h3 : T * (k + 1 : ℝ) ^ 2 ≤ (1 + 2 * (k + 1) * (codeOmega0 k - 1) * U) * (k + 1 : ℝ) ^ 2 :=
    mul_le_mul_of_nonneg_right (by linarith) (by positivity)
  have h4 : (1 + 2 * (k + 1) * (codeOmega0 k - 1) * U) * (k + 1 : ℝ) ^ 2 = (k + 1 : ℝ) ^ 2 + (k + 1) * U / 10 := by
    linear_combination (2 * (k + 1) * U) * e'
  have h5 : (k + 1 : ℝ) * (k + 1) ≤ (k + 1) * U := mul_le_mul_of_nonneg_left h2 hk.le
  nlinarith

/-- `|T_j(x)| ≤ j |x|` for odd `j` and `|x| ≤ 1`. -/
theorem abs_eval_T_odd {x : ℝ} (hx : |x| ≤ 1) (i : ℕ) :
    |(Chebyshev.T ℝ ((2 * i + 1 : ℕ) : ℤ)).eval x| ≤ (2 * i + 1) * |x| := by
  induction i with
  | zero => simp [Chebyshev.T_one]
  | succ i ih =>
    have h1 : (Chebyshev.T ℝ ((2 * (i + 1) + 1 : ℕ) : ℤ)).eval x =
        2 * x * (Chebyshev.T ℝ ((2 * i + 1 + 1 : ℕ) : ℤ)).eval x - (Chebyshev.T ℝ ((2 * i + 1 : ℕ) : ℤ)).eval x :=
      eval_T_succ_succ x (2 * i + 1)
    have h2 := Chebyshev.abs_eval_T_real_le_one ((2 * i + 1 + 1 : ℕ) : ℤ) hx
    rw [h1]
    refine (abs_sub _ _).trans ?_
    rw [abs_mul, abs_mul, abs_two]
    have := abs_nonneg x
    push_cast at *
    nlinarith

/-- The ratios are at least 1 in absolute value. -/
theorem one_le_codeRatio (k j : ℕ) (hk : 1 ≤ k) : 1 ≤ |codeRatio k j| := by
  have h1 := Chebyshev.one_le_eval_T_real ((j + 1 : ℕ) : ℤ) (codeOmega0_gt k).le
  have hp := codeOmega1_pos k
  have hl := codeOmega1_lt k hk
  have h2 := Chebyshev.abs_eval_T_real_le_one ((j + 2 : ℕ) : ℤ) (x := codeOmega1 k) (by rw [abs_of_pos hp]; linarith)
  have h3 := abs_pos.mpr (eval_T_ne_zero_of_rat (codeOmega1_rat k) hp hl (j + 2))
  unfold codeRatio
  rw [abs_div, le_div_iff₀ h3, one_mul]
  exact h2.trans (h1.trans (le_abs_self _))

/-- Those of odd stages are at least `30/11`. -/
theorem codeRatio_odd (k i : ℕ) (hk : 2 ≤ k) (hi : 2 * i + 3 ≤ k + 1) : 30 / 11 ≤ |codeRatio k (2 * i + 1)| := by
  have h1 := Chebyshev.one_le_eval_T_real ((2 * i + 1 + 1 : ℕ) : ℤ) (codeOmega0_gt k).le
  have hp := codeOmega1_pos k
  have hl := codeOmega1_lt k (by omega)
  have h2 := abs_eval_T_odd (x := codeOmega1 k) (by rw [abs_of_pos hp]; linarith) (i + 1)
  have h3 := abs_pos.mpr (eval_T_ne_zero_of_rat (codeOmega1_rat k) hp hl (2 * i + 1 + 2))
  have h4 := codeOmega1_le k
  have hk' : (2 : ℝ) ≤ k := by exact_mod_cast hk
  have hi' : (2 * i + 3 : ℝ) ≤ k + 1 := by exact_mod_cast hi
  unfold codeRatio
  rw [abs_div, le_div_iff₀ h3]
  rw [show 2 * (i + 1) + 1 = 2 * i + 1 + 2 by ring, abs_of_pos hp] at h2
  push_cast at h2 h3 ⊢
  have h5 : (2 * (i + 1) + 1) * codeOmega1 k ≤ (k + 1) * codeOmega1 k := mul_le_mul_of_nonneg_right (by linarith) hp.le
  have h6 : 3 * ((k + 1) * codeOmega1 k) ≤ codeOmega1 k * (k + 1 : ℝ) ^ 2 := by
    have : 0 ≤ codeOmega1 k * (k + 1) := by positivity
    nlinarith
  have h7 := le_abs_self ((Chebyshev.T ℝ ((2 * i + 1 + 1 : ℕ) : ℤ)).eval (codeOmega0 k))
  push_cast at h1 h7
  linarith

/-! ## The stages -/

/-- The stages of the recursion for a gradient that raises nothing. -/
noncomputable def kVec (c : SkrockCoefs) (delta : ℝ) (G : (Fin p → ℂ) → (Fin p → ℂ)) (X Z : Fin p → ℂ) : ℕ → Fin p → ℂ
  | 0 => X
  | 1 => fun i => X i + ((c.mus.getD 1 0 * delta : ℝ) : ℂ) * G (fun i => X i + ((c.nus.getD 1 0 * √(2 * delta) : ℝ) : ℂ) * Z i) i
      + ((c.ks.getD 1 0 * √(2 * delta) : ℝ) : ℂ) * Z i
  | s + 2 => fun i => ((c.mus.getD (s + 2) 0 * delta : ℝ) : ℂ) * G (kVec c delta G X Z (s + 1)) i
      + ((c.nus.getD (s + 2) 0 : ℝ) : ℂ) * kVec c delta G X Z (s + 1) i + ((c.ks.getD (s + 2) 0 : ℝ) : ℂ)
      - kVec c delta G X Z s i

theorem kRec_eq_kVec (c : SkrockCoefs) (delta : ℝ) (G : (Fin p → ℂ) → (Fin p → ℂ)) (X Z : Fin p → ℂ) (s : ℕ) :
    kRec c delta (fun v => .ok (G v)) X Z s = .ok (kVec c delta G X Z s, gradCount s) := by
  induction s using Nat.strong_induction_on with
  | _ s ih =>
    match s with
    | 0 => rfl
    | 1 => rfl
    | s + 2 => simp only [kRec, ih (s + 1) (by omega), ih s (by omega), bind, Except.bind, gradCount, kVec]; rfl

theorem skrockStep_eq_kVec (c : SkrockCoefs) (delta : ℝ) (G : (Fin p → ℂ) → (Fin p → ℂ)) (X Z : Fin p → ℂ) (s : ℕ) :
    skrockStep c s delta (fun v => .ok (G v)) X Z = .ok (kVec c delta G X Z s) := by
  unfold skrockStep
  rw [kRec_eq_kVec]
  rfl

theorem coef_mus (k j : ℕ) (hj : j < k) (co : SkrockCoefs) (hco : skrockInit ((k + 1 : ℕ) : ℤ) = .ok co) :
    co.mus.getD (j + 2) 0 = 2 * codeOmega1 k * codeRatio k j ∧ co.nus.getD (j + 2) 0 = 2 * codeOmega0 k * codeRatio k j ∧
    co.mus.getD 1 0 = codeOmega1 k / codeOmega0 k ∧ co.nus.getD 1 0 = (k + 1) * codeOmega1 k / 2 ∧
    co.ks.getD 1 0 = (k + 1) * codeOmega1 k / codeOmega0 k := by
  obtain rfl := Except.ok.inj ((skrockInit_eq k).symm.trans hco)
  simp [hj]

section
variable (k : ℕ) (hk : 1 ≤ k) (co : SkrockCoefs) (hco : skrockInit ((k + 1 : ℕ) : ℤ) = .ok co) (delta : ℝ) (hd : 0 ≤ delta)
  (G : (Fin p → ℂ) → (Fin p → ℂ)) (Lg : ℝ) (hL : ∀ x y, enorm2 (G x - G y) ≤ Lg * enorm2 (x - y))
include hk hco hd hL

omit hk in
/-- The later stages. -/
theorem stage_lower (X X' Z Z' : Fin p → ℂ) (j : ℕ) (hj : j < k) :
    2 * |codeRatio k j| * (codeOmega0 k - codeOmega1 k * (delta * Lg)) *
        enorm2 (kVec co delta G X Z (j + 1) - kVec co delta G X' Z' (j + 1))
      - enorm2 (kVec co delta G X Z j - kVec co delta G X' Z' j) ≤
      enorm2 (kVec co delta G X Z (j + 2) - kVec co delta G X' Z' (j + 2)) := by
  obtain ⟨h1, h2, -⟩ := coef_mus k j hj co hco
  have w0 := codeOmega0_gt k
  have w1 := codeOmega1_pos k
  set a := kVec co delta G X Z (j + 1)
  set a' := kVec co delta G X' Z' (j + 1)
  set b := kVec co delta G X Z j
  set b' := kVec co delta G X' Z' j
  have e : kVec co delta G X Z (j + 2) - kVec co delta G X' Z' (j + 2) = fun i =>
      ((2 * codeOmega0 k * codeRatio k j : ℝ) : ℂ) * (a - a') i +
      (fun i => ((2 * codeOmega1 k * codeRatio k j * delta : ℝ) : ℂ) * (G a - G a') i) i +
      (fun i => ((-1 : ℝ) : ℂ) * (b - b') i) i := by
    funext i
    change (((co.mus.getD (j + 2) 0 * delta : ℝ) : ℂ) * G a i + ((co.nus.getD (j + 2) 0 : ℝ) : ℂ) * a i
      + ((co.ks.getD (j + 2) 0 : ℝ) : ℂ) - b i) - (((co.mus.getD (j + 2) 0 * delta : ℝ) : ℂ) * G a' i +
      ((co.nus.getD (j + 2) 0 : ℝ) : ℂ) * a' i + ((co.ks.getD (j + 2) 0 : ℝ) : ℂ) - b' i) = _
    rw [h1, h2]
    simp only [Pi.sub_apply]
    push_cast
    ring
  rw [e]
  have h3 := enorm2_lower (2 * codeOmega0 k * codeRatio k j) (a - a')
    (fun i => ((2 * codeOmega1 k * codeRatio k j * delta : ℝ) : ℂ) * (G a - G a') i) (fun i => ((-1 : ℝ) : ℂ) * (b - b') i)
  refine le_trans ?_ h3
  rw [enorm2_smul, enorm2_smul, abs_mul, abs_mul, abs_mul, abs_mul, abs_mul, abs_of_pos w1, abs_of_nonneg hd, abs_two, abs_neg, abs_one,
    one_mul, abs_of_pos (by linarith : 0 < codeOmega0 k)]
  have h4 : 2 * codeOmega1 k * |codeRatio k j| * delta * enorm2 (G a - G a') ≤
      2 * codeOmega1 k * |codeRatio k j| * delta * (Lg * enorm2 (a - a')) :=
    mul_le_mul_of_nonneg_left (hL a a') (by positivity)
  nlinarith

/-- The first stage, as a function of the state. -/
theorem first_stage_state (X X' Z : Fin p → ℂ) : (1 - codeOmega1 k * (delta * Lg)) * enorm2 (X - X') ≤
    enorm2 (kVec co delta G X Z 1 - kVec co delta G X' Z 1) := by
  obtain ⟨-, -, h1, -⟩ := coef_mus k 0 (by omega) co hco
  have w0 := codeOmega0_gt k
  have w1 := codeOmega1_pos k
  set b : Fin p → ℂ := fun i => X i + ((co.nus.getD 1 0 * √(2 * delta) : ℝ) : ℂ) * Z i with hb
  set b' : Fin p → ℂ := fun i => X' i + ((co.nus.getD 1 0 * √(2 * delta) : ℝ) : ℂ) * Z i with hb'
  have hbb : b - b' = X - X' := by funext i; simp [hb, hb']
  have e : kVec co delta G X Z 1 - kVec co delta G X' Z 1 = fun i => ((1 : ℝ) : ℂ) * (X - X') i +
      (fun i => ((codeOmega1 k / codeOmega0 k * delta : ℝ) : ℂ) * (G b - G b') i) i + (0 : Fin p → ℂ) i := by
    funext i
    change (X i + ((co.mus.getD 1 0 * delta : ℝ) : ℂ) * G b i + ((co.ks.getD 1 0 * √(2 * delta) : ℝ) : ℂ) * Z i) -
      (X' i + ((co.mus.getD 1 0 * delta : ℝ) : ℂ) * G b' i + ((co.ks.getD 1 0 * √(2 * delta) : ℝ) : ℂ) * Z i) = _
    rw [h1]
    simp only [Pi.sub_apply, Pi.zero_apply]
    push_cast
    ring
  have h3 := enorm2_lower 1 (X - X') (fun i => ((codeOmega1 k / codeOmega0 k * delta : ℝ) : ℂ) * (G b - G b') i) 0
  rw [← e] at h3
  have z0 : enorm2 (0 : Fin p → ℂ) = 0 := by simp [enorm2]
  rw [enorm2_smul, abs_one, one_mul, z0, abs_of_nonneg (by positivity)] at h3
  have h4 := hL b b'
  rw [hbb] at h4
  have hN := enorm2_nonneg (X - X')
  have h0 : 0 ≤ Lg * enorm2 (X - X') := (enorm2_nonneg _).trans h4
  have h5 : codeOmega1 k / codeOmega0 k * delta * enorm2 (G b - G b') ≤ codeOmega1 k * delta * (Lg * enorm2 (X - X')) := by
    refine mul_le_mul ?_ h4 (enorm2_nonneg _) (by positivity)
    refine mul_le_mul_of_nonneg_right ?_ hd
    exact div_le_self w1.le w0.le
  nlinarith

/-- The first stage, as a function of the noise. -/
theorem first_stage_noise (X Z Z' : Fin p → ℂ) (hs : codeOmega1 k * (delta * Lg) ≤ 1) :
    (k + 1) * codeOmega1 k / codeOmega0 k * √(2 * delta) / 2 * enorm2 (Z - Z') ≤
    enorm2 (kVec co delta G X Z 1 - kVec co delta G X Z' 1) := by
  obtain ⟨-, -, h1, h2, h3⟩ := coef_mus k 0 (by omega) co hco
  have w0 := codeOmega0_gt k
  have w1 := codeOmega1_pos k
  have hq := Real.sqrt_nonneg (2 * delta)
  set b : Fin p → ℂ := fun i => X i + ((co.nus.getD 1 0 * √(2 * delta) : ℝ) : ℂ) * Z i with hb
  set b' : Fin p → ℂ := fun i => X i + ((co.nus.getD 1 0 * √(2 * delta) : ℝ) : ℂ) * Z' i with hb'
  have hbb : b - b' = fun i => (((k + 1) * codeOmega1 k / 2 * √(2 * delta) : ℝ) : ℂ) * (Z - Z') i := by
    funext i
    simp only [hb, hb', h2, Pi.sub_apply]
    push_cast
    ring
  have e : kVec co delta G X Z 1 - kVec co delta G X Z' 1 = fun i =>
      (((k + 1) * codeOmega1 k / codeOmega0 k * √(2 * delta) : ℝ) : ℂ) * (Z - Z') i +
      (fun i => ((codeOmega1 k / codeOmega0 k * delta : ℝ) : ℂ) * (G b - G b') i) i + (0 : Fin p → ℂ) i := by
    funext i
    change (X i + ((co.mus.getD 1 0 * delta : ℝ) : ℂ) * G b i + ((co.ks.getD 1 0 * √(2 * delta) : ℝ) : ℂ) * Z i) -
      (X i + ((co.mus.getD 1 0 * delta : ℝ) : ℂ) * G b' i + ((co.ks.getD 1 0 * √(2 * delta) : ℝ) : ℂ) * Z' i) = _
    rw [h1, h3]
    simp only [Pi.sub_apply, Pi.zero_apply]
    push_cast
    ring
  have h4 := enorm2_lower ((k + 1) * codeOmega1 k / codeOmega0 k * √(2 * delta)) (Z - Z')
    (fun i => ((codeOmega1 k / codeOmega0 k * delta : ℝ) : ℂ) * (G b - G b') i) 0
  rw [← e] at h4
  have z0 : enorm2 (0 : Fin p → ℂ) = 0 := by simp [enorm2]
  have w0' : 0 < codeOmega0 k := by linarith
  have hc : 0 ≤ (k + 1) * codeOmega1 k / codeOmega0 k * √(2 * delta) := by positivity
  rw [enorm2_smul, z0, abs_of_nonneg hc, abs_of_nonneg (by positivity)] at h4
  have h5 := hL b b'
  rw [hbb, enorm2_smul, abs_of_nonneg (by positivity)] at h5
  have hN := enorm2_nonneg (Z - Z')
  have h6 : codeOmega1 k / codeOmega0 k * delta * enorm2 (G b - G b') ≤ codeOmega1 k / codeOmega0 k * delta *
      (Lg * ((k + 1) * codeOmega1 k / 2 * √(2 * delta) * enorm2 (Z - Z'))) :=
    mul_le_mul_of_nonneg_left h5 (by positivity)
  have h7 : codeOmega1 k / codeOmega0 k * delta * (Lg * ((k + 1) * codeOmega1 k / 2 * √(2 * delta) * enorm2 (Z - Z'))) =
      codeOmega1 k * (delta * Lg) * ((k + 1) * codeOmega1 k / codeOmega0 k * √(2 * delta) / 2 * enorm2 (Z - Z')) := by
    field_simp
  have h8 : codeOmega1 k * (delta * Lg) * ((k + 1) * codeOmega1 k / codeOmega0 k * √(2 * delta) / 2 * enorm2 (Z - Z')) ≤
      1 * ((k + 1) * codeOmega1 k / codeOmega0 k * √(2 * delta) / 2 * enorm2 (Z - Z')) :=
    mul_le_mul_of_nonneg_right hs (by positivity)
  linarith

end

/-! ## The whole step -/

/-- The norms of the differences of the stages grow. -/
theorem stage_growth (N : ℕ → ℝ) (h0 : ∀ j, 0 ≤ N j) (s : ℕ) (h1 : 79 / 90 * N 0 ≤ N 1)
    (he : ∀ j, j + 2 ≤ s → 79 / 45 * N (j + 1) - N j ≤ N (j + 2))
    (ho : ∀ i, 2 * i + 3 ≤ s → 158 / 33 * N (2 * i + 2) - N (2 * i + 1) ≤ N (2 * i + 3)) (hs : 3 ≤ s) : 9 / 5 * N 1 ≤ N s := by
  have key : ∀ i, 2 * i + 3 ≤ s → 3 / 5 * N (2 * i + 1) ≤ N (2 * i + 2) ∧ 3 * N (2 * i + 2) ≤ N (2 * i + 3) ∧
      9 / 5 * N 1 ≤ N (2 * i + 3) := by
    intro i
    induction i with
    | zero =>
      intro hi
      have a := he 0 (by omega)
      have b := ho 0 (by omega)
      simp only [mul_zero, zero_add] at *
      have := h0 0
      have := h0 1
      refine ⟨?_, ?_, ?_⟩ <;> linarith
    | succ i ih =>
      intro hi
      obtain ⟨c1, c2, c3⟩ := ih (by omega)
      have a := he (2 * i + 2) (by omega)
      have b := ho (i + 1) hi
      rw [show 2 * (i + 1) + 1 = 2 * i + 3 by ring, show 2 * (i + 1) + 2 = 2 * i + 4 by ring, show 2 * (i + 1) + 3 = 2 * i + 5 by ring] at *
      rw [show 2 * i + 2 + 1 = 2 * i + 3 by ring, show 2 * i + 2 + 2 = 2 * i + 4 by ring] at a
      have := h0 (2 * i + 3)
      refine ⟨?_, ?_, ?_⟩ <;> linarith
  rcases Nat.even_or_odd s with h | h
  · obtain ⟨m, hm⟩ := h
    obtain ⟨i, rfl⟩ : ∃ i, s = 2 * i + 4 := ⟨m - 2, by omega⟩
    obtain ⟨c1, c2, c3⟩ := key i (by omega)
    have a := he (2 * i + 2) (by omega)
    rw [show 2 * i + 2 + 1 = 2 * i + 3 by ring, show 2 * i + 2 + 2 = 2 * i + 4 by ring] at a
    have := h0 (2 * i + 3)
    linarith
  · obtain ⟨m, hm⟩ := h
    obtain ⟨i, rfl⟩ : ∃ i, s = 2 * i + 3 := ⟨m - 1, by omega⟩
    exact (key i le_rfl).2.2

theorem omega_step (s : ℕ) (delta Lg : ℝ) (hs : 2 ≤ s) (hstep : delta * Lg ≤ max 1 ((s : ℝ) ^ 2 / 9)) (k : ℕ) (hk : s = k + 1) :
    codeOmega1 k * (delta * Lg) ≤ 1 ∧ (s = 2 ∧ delta * Lg ≤ 1 ∨ 3 ≤ s ∧ delta * Lg ≤ (s : ℝ) ^ 2 / 9 ∧
      codeOmega1 k * (delta * Lg) ≤ 11 / 90) := by
  have w1 := codeOmega1_pos k
  have h2 := codeOmega1_le k
  have hk1 : (1 : ℝ) ≤ k := by exact_mod_cast (by omega : 1 ≤ k)
  rcases Nat.lt_or_ge s 3 with h | h
  · obtain rfl : s = 2 := by omega
    have h1 : delta * Lg ≤ 1 := by rw [max_eq_left (by norm_num)] at hstep; exact hstep
    have := codeOmega1_lt k (by omega)
    exact ⟨by nlinarith, .inl ⟨rfl, h1⟩⟩
  · have h3 : (3 : ℝ) ≤ s := by exact_mod_cast h
    have h1 : delta * Lg ≤ (s : ℝ) ^ 2 / 9 := by rw [max_eq_right (by nlinarith)] at hstep; exact hstep
    have h4 : codeOmega1 k * (delta * Lg) ≤ 11 / 90 := by
      have := mul_le_mul_of_nonneg_left h1 w1.le
      subst hk
      push_cast at *
      nlinarith
    exact ⟨by linarith, .inr ⟨h, h1, h4⟩⟩

section
variable (s : ℕ) (co : SkrockCoefs) (hco : skrockInit s = .ok co) (delta : ℝ) (hd : 0 ≤ delta)
  (G : (Fin p → ℂ) → (Fin p → ℂ)) (Lg : ℝ) (hL : ∀ x y, enorm2 (G x - G y) ≤ Lg * enorm2 (x - y))
include hco hd hL

/-- Three or more stages: the difference of the result against the difference of the first stage. -/
theorem stages_lower (hs : 3 ≤ s) (hstep : delta * Lg ≤ (s : ℝ) ^ 2 / 9) (X X' Z Z' : Fin p → ℂ)
    (h1 : 79 / 90 * enorm2 (X - X') ≤ enorm2 (kVec co delta G X Z 1 - kVec co delta G X' Z' 1)) :
    9 / 5 * enorm2 (kVec co delta G X Z 1 - kVec co delta G X' Z' 1) ≤
      enorm2 (kVec co delta G X Z s - kVec co delta G X' Z' s) := by
  obtain ⟨k, rfl⟩ : ∃ k, s = k + 1 := ⟨s - 1, by omega⟩
  have w0 := codeOmega0_gt k
  have w1 := codeOmega1_pos k
  have hle : codeOmega1 k * (delta * Lg) ≤ 11 / 90 := by
    have := mul_le_mul_of_nonneg_left hstep w1.le
    have := codeOmega1_le k
    push_cast at *
    nlinarith
  have hst := stage_lower k co hco delta hd G Lg hL X X' Z Z'
  have hN : ∀ j, 0 ≤ enorm2 (kVec co delta G X Z j - kVec co delta G X' Z' j) := fun _ => enorm2_nonneg _
  refine stage_growth (fun j => enorm2 (kVec co delta G X Z j - kVec co delta G X' Z' j)) hN (k + 1) h1 ?_ ?_ hs
  · intro j hj
    have a := hst j (by omega)
    have r := one_le_codeRatio k j (by omega)
    have : 79 / 45 ≤ 2 * |codeRatio k j| * (codeOmega0 k - codeOmega1 k * (delta * Lg)) := by nlinarith
    have := mul_le_mul_of_nonneg_right this (hN (j + 1))
    linarith
  · intro i hi
    have a := hst (2 * i + 1) (by omega)
    have r := codeRatio_odd k i (by omega) hi
    have : 158 / 33 ≤ 2 * |codeRatio k (2 * i + 1)| * (codeOmega0 k - codeOmega1 k * (delta * Lg)) := by nlinarith
    have := mul_le_mul_of_nonneg_right this (hN (2 * i + 2))
    simp only [show 2 * i + 1 + 1 = 2 * i + 2 by ring, show 2 * i + 1 + 2 = 2 * i + 3 by ring] at a
    linarith

/-- Two or more stages: two states with the same noise separate by at least the factor `3/2`. -/
theorem skrock_expands (hs : 2 ≤ s) (hstep : delta * Lg ≤ max 1 ((s : ℝ) ^ 2 / 9)) (X X' Z : Fin p → ℂ) :
    3 / 2 * enorm2 (X - X') ≤ enorm2 (kVec co delta G X Z s - kVec co delta G X' Z s) := by
  obtain ⟨k, rfl⟩ : ∃ k, s = k + 1 := ⟨s - 1, by omega⟩
  have h0 := enorm2_nonneg (X - X')
  obtain ⟨-, ⟨h2, h⟩ | ⟨h3, h, h4⟩⟩ := omega_step _ delta Lg hs hstep k rfl
  · obtain rfl : k = 1 := by omega
    have := skrock_two_stage co hco delta hd G Lg hL h X X' Z _ _ (skrockStep_eq_kVec ..) (skrockStep_eq_kVec ..)
    linarith
  · have a := first_stage_state k (by omega) co hco delta hd G Lg hL X X' Z
    have b : 79 / 90 * enorm2 (X - X') ≤ enorm2 (kVec co delta G X Z 1 - kVec co delta G X' Z 1) := by nlinarith
    have := stages_lower _ co hco delta hd G Lg hL h3 h X X' Z Z b
    linarith

/-- Two or more stages: different noise vectors lead to different states. -/
theorem skrock_noise_expands (hs : 2 ≤ s) (hstep : delta * Lg ≤ max 1 ((s : ℝ) ^ 2 / 9)) (hd0 : 0 < delta) :
    ∃ c > 0, ∀ X Z Z' : Fin p → ℂ, c * enorm2 (Z - Z') ≤ enorm2 (kVec co delta G X Z s - kVec co delta G X Z' s) := by
  obtain ⟨k, rfl⟩ : ∃ k, s = k + 1 := ⟨s - 1, by omega⟩
  have w0 := codeOmega0_gt k
  have w1 := codeOmega1_pos k
  have w0' : 0 < codeOmega0 k := by linarith
  obtain ⟨hle, hcase⟩ := omega_step _ delta Lg hs hstep k rfl
  have z0 : enorm2 (0 : Fin p → ℂ) = 0 := by simp [enorm2]
  refine ⟨(k + 1) * codeOmega1 k / codeOmega0 k * √(2 * delta) / 2, by positivity, fun X Z Z' => ?_⟩
  have a := first_stage_noise k (by omega) co hco delta hd G Lg hL X Z Z' hle
  have hN := enorm2_nonneg (kVec co delta G X Z 1 - kVec co delta G X Z' 1)
  refine a.trans ?_
  rcases hcase with ⟨h2, h⟩ | ⟨h3, h, -⟩
  · obtain rfl : k = 1 := by omega
    have b := stage_lower 1 co hco delta hd G Lg hL X X Z Z' 0 (by omega)
    have r := one_le_codeRatio 1 0 le_rfl
    have l := codeOmega1_lt 1 le_rfl
    have h5 : codeOmega1 1 * (delta * Lg) ≤ 1 / 2 := by nlinarith
    have h6 : 1 ≤ 2 * |codeRatio 1 0| * (codeOmega0 1 - codeOmega1 1 * (delta * Lg)) := by nlinarith
    have h7 := mul_le_mul_of_nonneg_right h6 hN
    have e0 : kVec co delta G X Z 0 - kVec co delta G X Z' 0 = 0 := by simp [kVec]
    rw [e0, z0] at b
    simp only [zero_add] at b
    linarith
  · have := stages_lower _ co hco delta hd G Lg hL h3 h X X Z Z' (by rw [sub_self, z0]; linarith)
    linarith

end

end Pxmcmc
