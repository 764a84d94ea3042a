import Verif.Model.Skrock
import Verif.Spec
import Verif.Props.Chebyshev
import Verif.Lemmas.PyLemmas
import Mathlib.NumberTheory.Niven
import Mathlib.Analysis.SpecialFunctions.Trigonometric.Chebyshev.RootsExtrema

/-! # Properties C18–C21: SKROCK coefficients and step (`pxmcmc/mcmc.py:292-383`) -/

namespace Pxmcmc
open Polynomial

/-! ## Helper lemmas on Chebyshev polynomials -/

theorem eval_U_succ_succ (x : ℝ) (n : ℕ) : (Chebyshev.U ℝ ((n + 2 : ℕ) : ℤ)).eval x =
    2 * x * (Chebyshev.U ℝ ((n + 1 : ℕ) : ℤ)).eval x - (Chebyshev.U ℝ (n : ℤ)).eval x := by
  push_cast
  rw [Chebyshev.U_add_two]; simp

theorem eval_T_succ_succ (x : ℝ) (n : ℕ) : (Chebyshev.T ℝ ((n + 2 : ℕ) : ℤ)).eval x =
    2 * x * (Chebyshev.T ℝ ((n + 1 : ℕ) : ℤ)).eval x - (Chebyshev.T ℝ (n : ℤ)).eval x := by
  push_cast
  rw [Chebyshev.T_add_two]; simp

/-- `U_n(x) ≥ 1` and increasing in `n` for `x ≥ 1`. -/
theorem one_le_eval_U {x : ℝ} (hx : 1 ≤ x) (n : ℕ) : 1 ≤ (Chebyshev.U ℝ (n : ℤ)).eval x ∧
    (Chebyshev.U ℝ (n : ℤ)).eval x ≤ (Chebyshev.U ℝ ((n + 1 : ℕ) : ℤ)).eval x := by
  induction n with
  | zero => simp [Chebyshev.U_zero, Chebyshev.U_one]; linarith
  | succ n ih =>
    obtain ⟨h1, h2⟩ := ih
    refine ⟨h1.trans h2, ?_⟩
    rw [eval_U_succ_succ]
    nlinarith

/-- `T_s(x) ≤ x U_{s-1}(x)` for `x ≥ 1`, `s ≥ 1`. -/
theorem eval_T_le {x : ℝ} (hx : 1 ≤ x) (k : ℕ) : (Chebyshev.T ℝ ((k + 1 : ℕ) : ℤ)).eval x ≤
    x * (Chebyshev.U ℝ (k : ℤ)).eval x := by
  have h : (Chebyshev.T ℝ ((k + 1 : ℕ) : ℤ)) = Chebyshev.U ℝ ((k + 1 : ℕ) : ℤ) - X * Chebyshev.U ℝ (k : ℤ) := by
    rw [Chebyshev.T_eq_U_sub_X_mul_U]
    congr 3
    push_cast; ring
  rw [h]
  simp only [eval_sub, eval_mul, eval_X]
  cases k with
  | zero => simp [Chebyshev.U_zero, Chebyshev.U_one]; linarith
  | succ k =>
    rw [eval_U_succ_succ]
    have := (one_le_eval_U hx k).1
    linarith

/-- Evaluating `T_n`, `U_n` at a rational gives a rational. -/
theorem eval_T_rat (q : ℚ) (n : ℤ) : (Chebyshev.T ℝ n).eval (q : ℝ) = (((Chebyshev.T ℚ n).eval q : ℚ) : ℝ) := by
  have h := Chebyshev.map_T (algebraMap ℚ ℝ) n
  rw [← h, eval_map]
  exact eval₂_at_apply (algebraMap ℚ ℝ) q

theorem eval_U_rat (q : ℚ) (n : ℤ) : (Chebyshev.U ℝ n).eval (q : ℝ) = (((Chebyshev.U ℚ n).eval q : ℚ) : ℝ) := by
  have h := Chebyshev.map_U (algebraMap ℚ ℝ) n
  rw [← h, eval_map]
  exact eval₂_at_apply (algebraMap ℚ ℝ) q

/-- A rational number in `(0, 1/2)` is no root of any Chebyshev polynomial (Niven). -/
theorem eval_T_ne_zero_of_rat {x : ℝ} (hq : ∃ q : ℚ, x = q) (h0 : 0 < x) (h1 : x < 1 / 2) (j : ℕ) :
    (Chebyshev.T ℝ (j : ℤ)).eval x ≠ 0 := by
  intro hz
  have hcos : Real.cos (Real.arccos x) = x := Real.cos_arccos (by linarith) (by linarith)
  rw [← hcos, Chebyshev.T_real_cos, Real.cos_eq_zero_iff] at hz
  obtain ⟨k, hk⟩ := hz
  have hj : (j : ℝ) ≠ 0 := by
    rintro h
    simp only [Int.cast_natCast, h, zero_mul] at hk
    have hpi := Real.pi_pos
    have : (2 * k + 1 : ℝ) = 0 := by
      have h3 : (2 * (k : ℝ) + 1) * Real.pi = 0 := by linarith
      exact (mul_eq_zero.mp h3).resolve_right hpi.ne'
    have h2 : (2 * k + 1 : ℤ) = 0 := by exact_mod_cast this
    omega
  have := niven (θ := Real.arccos x) ⟨(2 * k + 1) / (2 * j), by
      push_cast
      simp only [Int.cast_natCast] at hk
      field_simp
      linarith⟩ (by rw [hcos]; exact hq)
  rw [hcos] at this
  simp only [Set.mem_insert_iff, Set.mem_singleton_iff] at this
  rcases this with h | h | h | h | h <;> linarith

/-! ## C18 -/

theorem pyDiv_ok {a b : ℝ} (hb : b ≠ 0) : pyDiv a b = .ok (a / b) := by simp [pyDiv, hb]

theorem cheb1der_eval_nat (x : ℝ) (k : ℕ) :
    cheb1der x ((k + 1 : ℕ) : ℤ) = .ok ((k + 1 : ℝ) * (Chebyshev.U ℝ (k : ℤ)).eval x) := by
  unfold cheb1der
  rw [if_neg (by omega), if_neg (by omega)]
  rw [show (((k + 1 : ℕ) : ℤ) - 1) = (k : ℤ) by push_cast; ring, C17_chebyshev2_eval]
  show Except.ok _ = _
  push_cast
  rfl

/-- `ω₀`, `ω₁` as computed by the constructor, `s = k + 1`. -/
noncomputable def codeOmega0 (k : ℕ) : ℝ := 1 + 1 / 20 / (((k + 1 : ℕ) : ℝ) * ((k + 1 : ℕ) : ℝ))
noncomputable def codeOmega1 (k : ℕ) : ℝ :=
  (Chebyshev.T ℝ ((k + 1 : ℕ) : ℤ)).eval (codeOmega0 k) /
    ((k + 1 : ℝ) * (Chebyshev.U ℝ (k : ℤ)).eval (codeOmega0 k))

theorem codeOmega0_gt (k : ℕ) : 1 < codeOmega0 k := by
  unfold codeOmega0
  have : (0 : ℝ) < 1 / 20 / (((k + 1 : ℕ) : ℝ) * ((k + 1 : ℕ) : ℝ)) := by positivity
  linarith

theorem codeOmega1_pos (k : ℕ) : 0 < codeOmega1 k := by
  have h := (codeOmega0_gt k).le
  have h1 := Chebyshev.one_le_eval_T_real ((k + 1 : ℕ) : ℤ) h
  have h2 := (one_le_eval_U h k).1
  unfold codeOmega1
  exact div_pos (by linarith) (by positivity)

theorem codeOmega1_lt (k : ℕ) (hk : 1 ≤ k) : codeOmega1 k < 1 / 2 := by
  have h := codeOmega0_gt k
  have h2 := (one_le_eval_U h.le k).1
  have hle := eval_T_le h.le k
  rcases Nat.lt_or_ge k 2 with hk2 | hk2
  · obtain rfl : k = 1 := by omega
    unfold codeOmega1 codeOmega0
    norm_num [Chebyshev.T_two, Chebyshev.U_one]
  · have hub : codeOmega1 k ≤ codeOmega0 k / (k + 1) := by
      unfold codeOmega1
      rw [div_le_div_iff₀ (by positivity) (by positivity)]
      nlinarith [(by positivity : (0 : ℝ) < k + 1)]
    refine lt_of_le_of_lt hub ?_
    have hk' : (2 : ℝ) ≤ k := by exact_mod_cast hk2
    have : codeOmega0 k < 3 / 2 := by
      unfold codeOmega0
      have : (1 : ℝ) / 20 / (((k + 1 : ℕ) : ℝ) * ((k + 1 : ℕ) : ℝ)) < 1 / 2 := by
        push_cast
        rw [div_lt_iff₀ (by positivity)]
        nlinarith
      linarith
    rw [div_lt_iff₀ (by positivity)]
    nlinarith

theorem codeOmega1_rat (k : ℕ) : ∃ q : ℚ, codeOmega1 k = q := by
  have h0 : codeOmega0 k = ((1 + 1 / 20 / (((k + 1 : ℕ) : ℚ) * ((k + 1 : ℕ) : ℚ)) : ℚ) : ℝ) := by
    unfold codeOmega0; push_cast; rfl
  refine ⟨(Chebyshev.T ℚ ((k + 1 : ℕ) : ℤ)).eval (1 + 1 / 20 / (((k + 1 : ℕ) : ℚ) * ((k + 1 : ℕ) : ℚ))) /
    ((k + 1 : ℚ) * (Chebyshev.U ℚ (k : ℤ)).eval (1 + 1 / 20 / (((k + 1 : ℕ) : ℚ) * ((k + 1 : ℕ) : ℚ)))), ?_⟩
  unfold codeOmega1
  rw [h0, eval_T_rat, eval_U_rat]
  push_cast
  rfl

theorem chebRatio_ok (k j : ℕ) (hk : 1 ≤ k) : chebRatio (codeOmega0 k) (codeOmega1 k) (j + 2) =
    .ok ((Chebyshev.T ℝ ((j + 1 : ℕ) : ℤ)).eval (codeOmega0 k) /
      (Chebyshev.T ℝ ((j + 2 : ℕ) : ℤ)).eval (codeOmega1 k)) := by
  unfold chebRatio
  rw [show (((j + 2 : ℕ) : ℤ) - 1) = ((j + 1 : ℕ) : ℤ) by push_cast; ring, C16_chebyshev1_eval,
    C16_chebyshev1_eval]
  simp only [bind, Except.bind]
  exact pyDiv_ok (eval_T_ne_zero_of_rat (codeOmega1_rat k) (codeOmega1_pos k) (codeOmega1_lt k hk) _)

/-- The ratios of the loop. -/
noncomputable def codeRatio (k j : ℕ) : ℝ :=
  (Chebyshev.T ℝ ((j + 1 : ℕ) : ℤ)).eval (codeOmega0 k) / (Chebyshev.T ℝ ((j + 2 : ℕ) : ℤ)).eval (codeOmega1 k)

theorem skrockInit_eq (k : ℕ) : skrockInit ((k + 1 : ℕ) : ℤ) = .ok
    ⟨codeOmega0 k, codeOmega1 k,
      0 :: codeOmega1 k / codeOmega0 k :: (List.range k).map fun (j : ℕ) => 2 * codeOmega1 k * codeRatio k j,
      0 :: ((k + 1 : ℕ) : ℝ) * codeOmega1 k / 2 :: (List.range k).map fun (j : ℕ) => 2 * codeOmega0 k * codeRatio k j,
      0 :: ((k + 1 : ℕ) : ℝ) * codeOmega1 k / codeOmega0 k :: (List.range k).map fun (_ : ℕ) => 1 - 0⟩ := by
  have h0 := codeOmega0_gt k
  unfold skrockInit
  have e0 : pyDiv (1 / 20) ((((k + 1 : ℕ) : ℤ) : ℝ) * (((k + 1 : ℕ) : ℤ) : ℝ)) =
      .ok (1 / 20 / (((k + 1 : ℕ) : ℝ) * ((k + 1 : ℕ) : ℝ))) := by
    rw [Int.cast_natCast]
    exact pyDiv_ok (by positivity)
  rw [e0]
  simp only [bind, Except.bind]
  have e1 : (1 : ℝ) + 1 / 20 / (((k + 1 : ℕ) : ℝ) * ((k + 1 : ℕ) : ℝ)) = codeOmega0 k := rfl
  rw [e1, C16_chebyshev1_eval, cheb1der_eval_nat]
  simp only
  have h2 := (one_le_eval_U h0.le k).1
  rw [pyDiv_ok (by positivity)]
  simp only
  have e2 : (Chebyshev.T ℝ ((k + 1 : ℕ) : ℤ)).eval (codeOmega0 k) /
    ((k + 1 : ℝ) * (Chebyshev.U ℝ (k : ℤ)).eval (codeOmega0 k)) = codeOmega1 k := rfl
  rw [e2, Int.toNat_natCast]
  unfold recursionCoefs
  rw [pyDiv_ok (by linarith), pyDiv_ok (by linarith)]
  simp only [bind, Except.bind, Nat.add_sub_cancel]
  have e3 : (List.range k).mapM (fun (j : ℕ) => chebRatio (codeOmega0 k) (codeOmega1 k) (j + 2)) =
      .ok ((List.range k).map fun (j : ℕ) => codeRatio k j) := by
    rw [mapM_ok_iff]
    rw [List.forall₂_map_right_iff, List.forall₂_same]
    intro j hj
    have hk : 1 ≤ k := by have := List.mem_range.mp hj; omega
    exact chebRatio_ok k j hk
  rw [e3]
  simp only [List.map_map, Function.comp_def]

/-- C18: for every `s ≥ 1` the constructor succeeds, `ω₀ > 1`, `ω₁ > 0`, and all arrays have length `s + 1`. -/
theorem C18_total (s : ℕ) (hs : 1 ≤ s) : ∃ c, skrockInit s = .ok c ∧ 1 < c.omega0 ∧ 0 < c.omega1 ∧
    c.mus.length = s + 1 ∧ c.nus.length = s + 1 ∧ c.ks.length = s + 1 := by
  obtain ⟨k, rfl⟩ : ∃ k, s = k + 1 := ⟨s - 1, by omega⟩
  exact ⟨_, skrockInit_eq k, codeOmega0_gt k, codeOmega1_pos k, by simp, by simp, by simp⟩

/-- C18: `s = 0` divides by zero. -/
theorem C18_zero : skrockInit 0 = .error .ZeroDivisionError := by
  simp [skrockInit, pyDiv, bind, Except.bind]

/-- C18: negative `s` raises `ValueError` (from `chebyshev1`). -/
theorem C18_negative (s : ℤ) (hs : s < 0) : skrockInit s = .error .ValueError := by
  have hne : ((s : ℝ) * s) ≠ 0 := mul_ne_zero (by exact_mod_cast hs.ne) (by exact_mod_cast hs.ne)
  unfold skrockInit
  rw [pyDiv_ok hne]
  simp only [bind, Except.bind]
  rw [C16_chebyshev1_neg _ _ hs]

example : (1 : ℕ) ≤ 7 ∧ (-3 : ℤ) < 0 := by decide

/-! ## C19 -/

section
variable {𝕜 : Type} [RCLike 𝕜] {n : ℕ}

/-- C19: one step with `s = 1`. -/
theorem C19_one_stage (grad : (Fin n → 𝕜) → (Fin n → 𝕜)) (delta : ℝ) (X Z : Fin n → 𝕜) :
    ∃ c, skrockInit 1 = .ok c ∧ c.omega0 = 21 / 20 ∧
      skrockStep c 1 delta (fun x => .ok (grad x)) X Z = .ok fun i =>
        X i + (delta : 𝕜) * grad (fun i => X i + ((c.omega0 / 2 * √(2 * delta) : ℝ) : 𝕜) * Z i) i
          + ((√(2 * delta) : ℝ) : 𝕜) * Z i := by
  have h := skrockInit_eq 0
  have e0 : codeOmega0 0 = 21 / 20 := by unfold codeOmega0; norm_num
  have e1 : codeOmega1 0 = 21 / 20 := by
    unfold codeOmega1; rw [e0]; norm_num [Chebyshev.T_one, Chebyshev.U_zero]
  refine ⟨_, h, e0, ?_⟩
  unfold skrockStep
  simp only [kRec, bind, Except.bind, e0, e1, List.getD_cons_succ, List.getD_cons_zero]
  norm_num

/-- The step is not trivial: the drift is evaluated at a point displaced by the noise. -/
example : (21 / 20 / 2 : ℝ) * √(2 * 2) = 21 / 20 := by
  rw [show (2 * 2 : ℝ) = 2 ^ 2 by norm_num, Real.sqrt_sq (by norm_num)]; norm_num

/-! ## C20 -/

/-- Sanity of the specification: the published scheme leaves the sample where it is when gradient and noise vanish. -/
theorem skStage_fixed (eta : ℝ) (heta : 0 ≤ eta) (s : ℕ) (delta : ℝ) (X : Fin n → 𝕜) (j : ℕ) :
    Spec.skStage eta s delta (fun _ _ => 0) X (fun _ => 0) j = X := by
  have hw : 1 ≤ Spec.skOmega0 eta s := by
    unfold Spec.skOmega0
    have : 0 ≤ eta / (s : ℝ) ^ 2 := by positivity
    linarith
  induction j using Nat.strong_induction_on with
  | _ j ih =>
    match j with
    | 0 => rfl
    | 1 => funext i; simp [Spec.skStage]
    | j + 2 =>
      funext i
      simp only [Spec.skStage, ih (j + 1) (by omega), ih j (by omega)]
      have ht := Chebyshev.one_le_eval_T_real ((j + 2 : ℕ) : ℤ) hw
      have key : (2 * Spec.skOmega0 eta s * (Chebyshev.T ℝ ((j + 1 : ℕ) : ℤ)).eval (Spec.skOmega0 eta s) /
          (Chebyshev.T ℝ ((j + 2 : ℕ) : ℤ)).eval (Spec.skOmega0 eta s) : ℝ) +
          (-((Chebyshev.T ℝ (j : ℤ)).eval (Spec.skOmega0 eta s) /
          (Chebyshev.T ℝ ((j + 2 : ℕ) : ℤ)).eval (Spec.skOmega0 eta s))) = 1 := by
        rw [← sub_eq_add_neg, ← sub_div, ← eval_T_succ_succ]
        exact div_self (by linarith)
      rw [mul_zero, zero_add, ← add_mul, ← RCLike.ofReal_add, key]
      simp

/-- C20 is violated: already for `s = 2`, with zero gradient and zero noise, a step moves the origin to 1, while the
published recursion leaves it in place. -/
theorem C20_recursion_refuted : ¬ ∀ (s : ℕ) (c : SkrockCoefs) (delta : ℝ)
    (grad : (Fin 1 → ℝ) → (Fin 1 → ℝ)) (X Z : Fin 1 → ℝ), 2 ≤ s → skrockInit s = .ok c →
    skrockStep c s delta (fun x => .ok (grad x)) X Z = .ok (Spec.skStage (1 / 20) s delta grad X Z s) := by
  intro H
  have h := H 2 _ 1 (fun _ _ => 0) (fun _ => 0) (fun _ => 0) le_rfl (skrockInit_eq 1)
  rw [skStage_fixed _ (by norm_num)] at h
  simp only [skrockStep, kRec, bind, Except.bind] at h
  have h2 := congrFun (Except.ok.inj h) 0
  simp [List.range_succ] at h2

/-- What a zero-gradient, zero-noise step does for `s = 2`: `X ↦ (ν₂ - 1) X + 1` with `ν₂ = 2ω₀²/T₂(ω₁) < -2`. -/
theorem C20_two_stage_drift (delta : ℝ) (X : Fin n → 𝕜) : ∃ c nu, skrockInit 2 = .ok c ∧ nu < (-2 : ℝ) ∧
    skrockStep c 2 delta (fun _ => .ok fun _ => 0) X (fun _ => 0) =
      .ok fun i => ((nu - 1 : ℝ) : 𝕜) * X i + 1 := by
  refine ⟨_, 2 * codeOmega0 1 * codeRatio 1 0, skrockInit_eq 1, ?_, ?_⟩
  · have h0 : codeOmega0 1 = 81 / 80 := by unfold codeOmega0; norm_num
    have h1 : codeOmega1 1 = 3361 / 12960 := by
      unfold codeOmega1
      rw [h0]
      norm_num [Chebyshev.T_two, Chebyshev.U_one]
    unfold codeRatio
    rw [h0, h1]
    norm_num [Chebyshev.T_two, Chebyshev.T_one]
  · unfold skrockStep
    simp only [kRec, bind, Except.bind]
    congr 1
    funext i
    simp [List.range_succ]
    ring

theorem codeOmega0_spec (k : ℕ) : codeOmega0 k = Spec.skOmega0 (1 / 20) (k + 1) := by
  unfold codeOmega0 Spec.skOmega0
  rw [sq]

theorem codeOmega1_spec (k : ℕ) : codeOmega1 k = Spec.skOmega1 (1 / 20) (k + 1) := by
  unfold codeOmega1 Spec.skOmega1
  rw [← codeOmega0_spec, Chebyshev.T_derivative_eq_U, show (((k + 1 : ℕ) : ℤ) - 1) = (k : ℤ) by push_cast; ring]
  simp only [eval_mul, eval_intCast]
  push_cast
  rfl

/-- C20 (partial): for every number of stages the damping parameters `ω₀`, `ω₁` and the first stage `K₁` are the
published ones (so the whole step is, when `s = 1`).  Missing: the stages `K_j`, `j ≥ 2`, where the claim is false. -/
theorem C20_recursion_partial (s : ℕ) (hs : 1 ≤ s) (c : SkrockCoefs) (delta : ℝ)
    (grad : (Fin n → 𝕜) → (Fin n → 𝕜)) (X Z : Fin n → 𝕜) (hc : skrockInit s = .ok c) :
    c.omega0 = Spec.skOmega0 (1 / 20) s ∧ c.omega1 = Spec.skOmega1 (1 / 20) s ∧
    kRec c delta (fun x => .ok (grad x)) X Z 1 = .ok (Spec.skStage (1 / 20) s delta grad X Z 1, 1) := by
  obtain ⟨k, rfl⟩ : ∃ k, s = k + 1 := ⟨s - 1, by omega⟩
  obtain rfl := Except.ok.inj ((skrockInit_eq k).symm.trans hc)
  refine ⟨codeOmega0_spec k, codeOmega1_spec k, ?_⟩
  simp only [kRec, Spec.skStage, bind, Except.bind, List.getD_cons_succ, List.getD_cons_zero, codeOmega0_spec,
    codeOmega1_spec]
  congr 2
  funext i
  push_cast
  simp only [mul_assoc]

example : (1 : ℕ) ≤ 5 ∧ ∃ c, skrockInit ((5 : ℕ) : ℤ) = .ok c := ⟨by norm_num, _, skrockInit_eq 4⟩

/-! ## C21 -/

/-- Number of gradient evaluations of a step with `s` stages. -/
def gradCount : ℕ → ℕ
  | 0 => 0
  | 1 => 1
  | s + 2 => gradCount (s + 1) + 1 + gradCount (s + 1) + gradCount s

theorem kRec_count (c : SkrockCoefs) (delta : ℝ) (grad : (Fin n → 𝕜) → (Fin n → 𝕜)) (X Z : Fin n → 𝕜) (s : ℕ) :
    ∃ K, kRec c delta (fun x => .ok (grad x)) X Z s = .ok (K, gradCount s) := by
  induction s using Nat.strong_induction_on with
  | _ s ih =>
    match s with
    | 0 => exact ⟨X, rfl⟩
    | 1 => exact ⟨_, rfl⟩
    | s + 2 =>
      obtain ⟨K1, h1⟩ := ih (s + 1) (by omega)
      obtain ⟨K0, h0⟩ := ih s (by omega)
      have : kRec c delta (fun x => .ok (grad x)) X Z (s + 2) = .ok
          (fun i => ((c.mus.getD (s + 2) 0 * delta : ℝ) : 𝕜) * grad K1 i + ((c.nus.getD (s + 2) 0 : ℝ) : 𝕜) * K1 i
            + ((c.ks.getD (s + 2) 0 : ℝ) : 𝕜) - K0 i, gradCount (s + 2)) := by
        simp only [kRec, h1, h0, bind, Except.bind, gradCount]
      exact ⟨_, this⟩

/-- C21, exact cost: the number of gradient evaluations of one step is the same for every gradient and state, equals
`s` exactly when `s ≤ 1`, and is at least `2^s - 1`. -/
theorem C21_cost_partial (c : SkrockCoefs) (delta : ℝ) (grad : (Fin n → 𝕜) → (Fin n → 𝕜)) (X Z : Fin n → 𝕜)
    (s : ℕ) : ∃ K count, kRec c delta (fun x => .ok (grad x)) X Z s = .ok (K, count) ∧
      (count = s ↔ s ≤ 1) ∧ 2 ^ s ≤ count + 1 := by
  obtain ⟨K, hK⟩ := kRec_count c delta grad X Z s
  refine ⟨K, _, hK, ?_⟩
  have hpow : ∀ t, 2 ^ t ≤ gradCount t + 1 := by
    intro t
    induction t using Nat.strong_induction_on with
    | _ t ih =>
      match t with
      | 0 => simp [gradCount]
      | 1 => simp [gradCount]
      | t + 2 =>
        have := ih (t + 1) (by omega)
        simp only [gradCount, pow_succ] at this ⊢
        omega
  refine ⟨⟨?_, ?_⟩, hpow s⟩
  · intro h
    by_contra hs
    have h1 := hpow s
    rw [h] at h1
    have : s + 1 < 2 ^ s := by
      clear h h1 hK
      induction s with
      | zero => omega
      | succ s ih =>
        rcases Nat.lt_or_ge 1 s with h | h
        · have := ih (by omega)
          rw [pow_succ]; omega
        · obtain rfl : s = 1 := by omega
          norm_num
    omega
  · intro h
    match s, h with
    | 0, _ => rfl
    | 1, _ => rfl

/-- C21 is violated: two stages already cost three gradient evaluations. -/
theorem C21_cost_refuted : ¬ ∀ (s : ℕ) (c : SkrockCoefs) (grad : (Fin 1 → ℝ) → (Fin 1 → ℝ)) (X Z K : Fin 1 → ℝ)
    (count : ℕ), skrockInit s = .ok c → kRec c 1 (fun x => .ok (grad x)) X Z s = .ok (K, count) → count = s := by
  intro H
  obtain ⟨c, hc, -⟩ := C18_total 2 (by norm_num)
  obtain ⟨K, hK⟩ := kRec_count c 1 (fun x : Fin 1 → ℝ => x) (fun _ => 0) (fun _ => 0) 2
  have := H 2 c _ _ _ K _ hc hK
  simp [gradCount] at this

end

end Pxmcmc
