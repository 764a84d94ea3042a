import Verif.Model.McmcBase
import Verif.Spec
import Verif.Props.Prior
import Verif.Props.Measurements
import Mathlib.Analysis.Calculus.Deriv.Pow
import Mathlib.Analysis.Calculus.Deriv.Add
import Mathlib.Analysis.Calculus.Deriv.Mul

/-! # Properties C35–C40: forward operator, covariance, log-posterior and its gradient -/

namespace Pxmcmc
open ComplexConjugate

variable {n p k : ℕ}

/-! ## C35 -/

/-- `sig_d` is a positive real standard deviation `σ i` for each datum: one number for all or a vector. -/
inductive IsSigma (n : ℕ) : SigD → (Fin n → ℝ) → Prop where
  | scalar (s : ℝ) (hs : 0 < s) : IsSigma n (.num (s : ℂ) false) fun _ => s
  | vector (s : Fin n → ℝ) (hs : ∀ i, 0 < s i) : IsSigma n (.vec (List.ofFn fun i => (s i : ℂ)) false) s

/-- C35: for real data a float or a vector gives the inverse of the diagonal covariance `diag(σ²)`. -/
theorem C35_diagonal (data : DataVec n) (hd : data.cplx = false) (sig : SigD) (σ : Fin n → ℝ)
    (h : IsSigma n sig σ) : ∃ W, buildInvCov data sig = .ok W ∧
      W * Matrix.diagonal (fun i => ((σ i ^ 2 : ℝ) : ℂ)) = 1 ∧ W = Matrix.diagonal fun i => ((1 / σ i ^ 2 : ℝ) : ℂ) := by
  have hpos : ∀ i, σ i ≠ 0 := by
    cases h with
    | scalar s hs => intro _; exact hs.ne'
    | vector s hs => intro i; exact (hs i).ne'
  have hW : buildInvCov data sig = .ok (Matrix.diagonal fun i => ((1 / σ i ^ 2 : ℝ) : ℂ)) := by
    cases h with
    | scalar s hs =>
      have : ((s : ℂ)) ≠ 0 := by exact_mod_cast hs.ne'
      simp [buildInvCov, complexVar, hd, this]
    | vector s hs =>
      simp only [buildInvCov]
      rw [dif_pos (List.length_ofFn), if_neg]
      · simp [complexVar, hd]
      · rintro ⟨i, hi⟩
        simp only [complexVar, hd, Bool.false_and, Bool.false_eq_true, if_false, Fin.getElem_fin,
          List.getElem_ofFn] at hi
        have : ((σ i : ℂ)) ≠ 0 := by exact_mod_cast (hs i).ne'
        exact this (pow_eq_zero_iff two_ne_zero |>.mp hi)
  refine ⟨_, hW, ?_, rfl⟩
  rw [Matrix.diagonal_mul_diagonal, ← Matrix.diagonal_one]
  congr 1
  funext i
  have := hpos i
  rw [← Complex.ofReal_mul, one_div, inv_mul_cancel₀ (pow_ne_zero 2 this), Complex.ofReal_one]

/-- C35: wrong lengths, non-square matrices, higher-dimensional arrays and (for real data) numpy scalars that are not
doubles are rejected. -/
theorem C35_rejects (data : DataVec n) (setting : String) (t m : Option OpPair) (np : Option ℕ) :
    (∀ xs c, xs.length ≠ n → ForwardOp.init data (.vec xs c) setting t m np = .error .TypeError) ∧
    (∀ r c M, r ≠ c → ForwardOp.init data (.mat r c M) setting t m np = .error .ValueError) ∧
    (∀ s, ForwardOp.init data (.nd s) setting t m np = .error .TypeError) ∧
    (∀ x, data.cplx = false → ForwardOp.init data (.npScalar x) setting t m np = .error .TypeError) := by
  refine ⟨fun xs c h => ?_, fun r c M h => ?_, fun s => ?_, fun x h => ?_⟩
  · simp [ForwardOp.init, buildInvCov, h, bind, Except.bind]
  · simp [ForwardOp.init, buildInvCov, h, bind, Except.bind]
  · simp [ForwardOp.init, buildInvCov, bind, Except.bind]
  · simp [ForwardOp.init, buildInvCov, h, bind, Except.bind]

/-- C35 is violated: no covariance matrix is ever accepted, although it is documented. -/
theorem C35_matrix_refuted (data : DataVec n) (setting : String) (t m : Option OpPair) (np : Option ℕ)
    (C : Matrix (Fin n) (Fin n) ℂ) : ForwardOp.init data (.mat n n C) setting t m np = .error .TypeError := by
  simp [ForwardOp.init, buildInvCov, bind, Except.bind]

/-- C35 is violated for complex data too: a real standard deviation does not give `1/σ²`. -/
theorem C35_complex_data_refuted : ¬ ∀ (data : DataVec 1) (sig : SigD) (σ : Fin 1 → ℝ), IsSigma 1 sig σ →
    buildInvCov data sig = .ok (Matrix.diagonal fun i => ((1 / σ i ^ 2 : ℝ) : ℂ)) := by
  intro H
  have h := H ⟨true, fun _ => 0⟩ _ _ (IsSigma.scalar 1 one_pos)
  have hne : complexVar true false (((1 : ℝ) : ℂ) ^ 2) ≠ 0 := by
    have h1 : ((√2 : ℝ) : ℂ) ≠ 0 := by exact_mod_cast (Real.sqrt_pos.mpr two_pos).ne'
    have h2 : (1 + Complex.I) ≠ 0 := by
      intro e
      have := congrArg Complex.im e
      simp at this
    simp [complexVar, h2]
  simp only [buildInvCov, if_neg hne] at h
  have h := congrFun (congrFun (Except.ok.inj h) 0) 0
  simp only [Matrix.diagonal_apply_eq] at h
  rw [div_eq_iff hne] at h
  have h2 := congrArg Complex.im h
  have hs2 : (0 : ℝ) < √2 := Real.sqrt_pos.mpr two_pos
  simp [complexVar] at h2
  linarith

/-- A numpy scalar of another type is rejected for real data but accepted for complex data. -/
theorem C35_npscalar_complex (data : DataVec n) (hd : data.cplx = true) (x : ℝ) (hx : x ≠ 0) :
    ∃ W, buildInvCov data (.npScalar x) = .ok W := by
  have h2 : (1 + Complex.I) ≠ 0 := by
    intro e
    have := congrArg Complex.im e
    simp at this
  refine ⟨Matrix.diagonal fun _ => 1 / complexVar true false ((x : ℂ) ^ 2), ?_⟩
  have : complexVar true false ((x : ℂ) ^ 2) ≠ 0 := by simp [complexVar, h2, hx]
  simp [buildInvCov, hd, this]

/-- Three data with three different standard deviations. -/
example : IsSigma 3 (.vec (List.ofFn fun i => ((![1, 2, 3] i : ℝ) : ℂ)) false) ![1, 2, 3] :=
  .vector _ (by intro i; fin_cases i <;> simp)

/-! ## C36, C37 -/

/-- Weighted squared residual `Σ |dᵢ - pᵢ|²/σᵢ²`. -/
noncomputable def misfit (σ : Fin n → ℝ) (d p : Fin n → ℂ) : ℝ := ∑ i, ‖d i - p i‖ ^ 2 / σ i ^ 2

theorem misfit_nonneg (σ : Fin n → ℝ) (d p : Fin n → ℂ) : 0 ≤ misfit σ d p :=
  Finset.sum_nonneg fun i _ => by positivity

theorem misfit_eq_zero (σ : Fin n → ℝ) (hσ : ∀ i, 0 < σ i) (d p : Fin n → ℂ) : misfit σ d p = 0 ↔ p = d := by
  unfold misfit
  rw [Finset.sum_eq_zero_iff_of_nonneg (fun i _ => by positivity)]
  constructor
  · intro h
    funext i
    have := h i (Finset.mem_univ i)
    rw [div_eq_zero_iff] at this
    rcases this with h1 | h1
    · rw [sq_eq_zero_iff, norm_eq_zero, sub_eq_zero] at h1
      exact h1.symm
    · exact absurd h1 (pow_ne_zero 2 (hσ i).ne')
  · rintro rfl i _
    simp

theorem npVdot_ofFn (x y : Fin n → ℂ) : npVdot (List.ofFn x) (List.ofFn y) = .ok (Spec.inner x y) := by
  unfold npVdot
  rw [if_pos (by simp), zip_ofFn, map_ofFn', List.sum_ofFn]
  rfl

/-- `logpi` on vectors. -/
theorem logpi_ofFn (F : ForwardOp n) (P : PriorObj) (mu : ℝ) (X : List ℂ) (preds : Fin n → ℂ) (pr : ℝ)
    (hp : P.prior X = .ok pr) : logpi F P mu X (List.ofFn preds) = .ok
      (((-mu * pr : ℝ) : ℂ) - Spec.inner (F.data.vals - preds) (F.invcov.mulVec (F.data.vals - preds)),
        Spec.inner (F.data.vals - preds) (F.invcov.mulVec (F.data.vals - preds)), pr) := by
  unfold logpi
  rw [npSub_ofFn]
  simp only [bind, Except.bind]
  rw [show (fun i => F.data.vals i - preds i) = F.data.vals - preds from rfl, matDot_ofFn]
  simp only
  rw [npVdot_ofFn]
  simp only [hp]

theorem inner_diagonal (w : Fin n → ℂ) (x : Fin n → ℂ) :
    Spec.inner x ((Matrix.diagonal w).mulVec x) = ∑ i, w i * ((‖x i‖ ^ 2 : ℝ) : ℂ) := by
  unfold Spec.inner
  apply Finset.sum_congr rfl
  intro i _
  rw [Matrix.mulVec_diagonal, Complex.ofReal_pow, ← Complex.conj_mul']
  ring

/-- C36: with real data and standard deviations `σ`, `logpi` returns real numbers, `L2` is the weighted squared
residual, `logPi = -mu*prior - L2 ≤ 0`, and `L2 = 0` exactly for perfect predictions. -/
theorem C36_logpi_real (data : DataVec n) (hd : data.cplx = false) (sig : SigD) (σ : Fin n → ℝ)
    (hσ : IsSigma n sig σ) (setting : String) (t m : Option OpPair) (np : Option ℕ) (F : ForwardOp n)
    (hF : ForwardOp.init data sig setting t m np = .ok F) (P : PriorObj) (mu : ℝ) (hmu : 0 ≤ mu) (X : List ℂ)
    (pr : ℝ) (hpr : P.prior X = .ok pr) (hpr0 : 0 ≤ pr) (preds : Fin n → ℂ) :
    ∃ logPi L2 : ℝ, logpi F P mu X (List.ofFn preds) = .ok ((logPi : ℂ), (L2 : ℂ), pr) ∧
      logPi = -mu * pr - L2 ∧ L2 = misfit σ data.vals preds ∧ 0 ≤ L2 ∧ (L2 = 0 ↔ preds = data.vals) ∧
      logPi ≤ 0 := by
  obtain ⟨W, hW, -, rfl⟩ := C35_diagonal data hd sig σ hσ
  obtain ⟨F0, hF0⟩ : ∃ s : Setting, F = ⟨data, Matrix.diagonal fun i => ((1 / σ i ^ 2 : ℝ) : ℂ), s, t, m, np⟩ := by
    unfold ForwardOp.init at hF
    rw [hW] at hF
    simp only [bind, Except.bind] at hF
    split at hF
    · cases hF
    · exact ⟨_, (Except.ok.inj hF).symm⟩
  subst hF0
  have hpos : ∀ i, 0 < σ i := by
    cases hσ with
    | scalar s hs => intro _; exact hs
    | vector s hs => exact hs
  have hL : Spec.inner (data.vals - preds) ((Matrix.diagonal fun i => ((1 / σ i ^ 2 : ℝ) : ℂ)).mulVec
      (data.vals - preds)) = ((misfit σ data.vals preds : ℝ) : ℂ) := by
    rw [inner_diagonal]
    unfold misfit
    push_cast
    apply Finset.sum_congr rfl
    intro i _
    simp only [Pi.sub_apply]
    ring
  have h0 := misfit_nonneg σ data.vals preds
  refine ⟨-mu * pr - misfit σ data.vals preds, misfit σ data.vals preds, ?_, rfl, rfl, h0,
    misfit_eq_zero σ hpos _ _, ?_⟩
  · rw [logpi_ofFn _ _ _ _ _ _ hpr]
    simp only [hL]
    push_cast
    rfl
  · nlinarith [mul_nonneg hmu hpr0]

/-- The `l1` prior has the required non-negative value. -/
example (P : L1 ℂ) (X : List ℂ) : ∃ pr, P.toPrior.prior X = .ok pr ∧ 0 ≤ pr :=
  ⟨_, rfl, List.sum_nonneg (by simp)⟩

theorem one_div_complexVar (s : ℝ) : 1 / complexVar true false ((s : ℂ) ^ 2) =
    ((1 / s ^ 2 / √2 : ℝ) : ℂ) * (1 - Complex.I) := by
  by_cases hs : s = 0
  · subst hs; simp [complexVar]
  have h1 : ((√2 : ℝ) : ℂ) ≠ 0 := by exact_mod_cast (Real.sqrt_pos.mpr two_pos).ne'
  have h2 : (1 + Complex.I) ≠ 0 := by
    intro e
    have := congrArg Complex.im e
    simp at this
  have hs' : (s : ℂ) ≠ 0 := by exact_mod_cast hs
  have h3 : ((√2 : ℝ) : ℂ) * ((√2 : ℝ) : ℂ) = 2 := by
    rw [← Complex.ofReal_mul, Real.mul_self_sqrt (by norm_num)]; norm_num
  have h4 : (1 - Complex.I) * (1 + Complex.I) = 2 := by
    ring_nf; rw [Complex.I_sq]; norm_num
  simp only [complexVar, Bool.not_false, Bool.and_true, if_true]
  push_cast
  rw [div_eq_iff (mul_ne_zero (div_ne_zero (pow_ne_zero 2 hs') h1) h2)]
  field_simp
  rw [sq, h3, h4]

theorem buildInvCov_complex (data : DataVec n) (hd : data.cplx = true) (sig : SigD) (σ : Fin n → ℝ)
    (h : IsSigma n sig σ) : buildInvCov data sig =
      .ok (Matrix.diagonal fun i => ((1 / σ i ^ 2 / √2 : ℝ) : ℂ) * (1 - Complex.I)) := by
  have hne : ∀ s : ℝ, s ≠ 0 → complexVar true false ((s : ℂ) ^ 2) ≠ 0 := by
    intro s hs
    have h2 : (1 + Complex.I) ≠ 0 := by
      intro e
      have := congrArg Complex.im e
      simp at this
    simp [complexVar, h2, hs]
  cases h with
  | scalar s hs =>
    simp only [buildInvCov, hd, if_neg (hne s hs.ne')]
    congr 2
    funext i
    exact one_div_complexVar s
  | vector s hs =>
    simp only [buildInvCov]
    rw [dif_pos (List.length_ofFn), if_neg]
    · congr 2
      funext i
      rw [hd, Fin.getElem_fin, List.getElem_ofFn]
      exact one_div_complexVar (σ i)
    · rintro ⟨i, hi⟩
      rw [hd, Fin.getElem_fin, List.getElem_ofFn] at hi
      exact hne _ (hs i).ne' hi

/-- C37 (partial), exact value: for complex data and real standard deviations the misfit is the weighted squared residual
times `(1-i)/√2`.  Hence its modulus is right, its real part (which is what the float arrays store) is too small by
`√2`, and it is real only for perfect predictions.  Missing: being a non-negative real, which is false. -/
theorem C37_complex_misfit_partial (data : DataVec n) (hd : data.cplx = true) (sig : SigD) (σ : Fin n → ℝ)
    (hσ : IsSigma n sig σ) (setting : String) (t m : Option OpPair) (np : Option ℕ) (F : ForwardOp n)
    (hF : ForwardOp.init data sig setting t m np = .ok F) (P : PriorObj) (mu : ℝ) (X : List ℂ)
    (pr : ℝ) (hpr : P.prior X = .ok pr) (preds : Fin n → ℂ) :
    ∃ logPi L2 : ℂ, logpi F P mu X (List.ofFn preds) = .ok (logPi, L2, pr) ∧
      L2.re = misfit σ data.vals preds / √2 ∧ L2.im = -(misfit σ data.vals preds / √2) ∧
      ‖L2‖ = misfit σ data.vals preds ∧ (L2.im = 0 ↔ preds = data.vals) := by
  have hW := buildInvCov_complex data hd sig σ hσ
  obtain ⟨F0, hF0⟩ : ∃ s : Setting, F = ⟨data, Matrix.diagonal fun i => ((1 / σ i ^ 2 / √2 : ℝ) : ℂ) *
      (1 - Complex.I), s, t, m, np⟩ := by
    unfold ForwardOp.init at hF
    rw [hW] at hF
    simp only [bind, Except.bind] at hF
    split at hF
    · cases hF
    · exact ⟨_, (Except.ok.inj hF).symm⟩
  subst hF0
  have hpos : ∀ i, 0 < σ i := by
    cases hσ with
    | scalar s hs => intro _; exact hs
    | vector s hs => exact hs
  have hL : Spec.inner (data.vals - preds) ((Matrix.diagonal fun i => ((1 / σ i ^ 2 / √2 : ℝ) : ℂ) *
      (1 - Complex.I)).mulVec (data.vals - preds)) =
      ((misfit σ data.vals preds / √2 : ℝ) : ℂ) * (1 - Complex.I) := by
    rw [inner_diagonal]
    unfold misfit
    rw [Finset.sum_div]
    push_cast
    rw [Finset.sum_mul]
    apply Finset.sum_congr rfl
    intro i _
    simp only [Pi.sub_apply]
    ring
  have h0 := misfit_nonneg σ data.vals preds
  have hre : (((misfit σ data.vals preds / √2 : ℝ) : ℂ) * (1 - Complex.I)).re = misfit σ data.vals preds / √2 := by
    rw [Complex.re_ofReal_mul]; simp
  have him : (((misfit σ data.vals preds / √2 : ℝ) : ℂ) * (1 - Complex.I)).im =
      -(misfit σ data.vals preds / √2) := by
    rw [Complex.im_ofReal_mul]; simp
  refine ⟨_, _, logpi_ofFn _ _ _ _ _ _ hpr, ?_, ?_, ?_, ?_⟩
  · simp only [hL]; exact hre
  · simp only [hL]; exact him
  · simp only [hL]
    have hs : (0 : ℝ) < √2 := Real.sqrt_pos.mpr two_pos
    rw [← Real.sqrt_sq (norm_nonneg _), ← Complex.normSq_eq_norm_sq, Complex.normSq_apply, hre, him,
      show misfit σ data.vals preds / √2 * (misfit σ data.vals preds / √2) +
        -(misfit σ data.vals preds / √2) * -(misfit σ data.vals preds / √2) = misfit σ data.vals preds ^ 2 by
          have h2 : √2 * √2 = 2 := Real.mul_self_sqrt (by norm_num)
          field_simp
          rw [sq √2, h2]
          ring, Real.sqrt_sq h0]
  · simp only [hL]
    rw [him, neg_eq_zero, div_eq_zero_iff, misfit_eq_zero σ hpos]
    have hs : √2 ≠ 0 := (Real.sqrt_pos.mpr two_pos).ne'
    simp [hs]

/-- C37 is violated: one complex datum `1`, prediction `0`, unit standard deviation. -/
theorem C37_complex_misfit_refuted : ¬ ∀ (data : DataVec 1) (F : ForwardOp 1) (P : PriorObj) (preds : Fin 1 → ℂ)
    (logPi L2 : ℂ) (pr : ℝ), data.cplx = true →
    ForwardOp.init data (.num ((1 : ℝ) : ℂ) false) "analysis" none none none = .ok F →
    logpi F P 1 [] (List.ofFn preds) = .ok (logPi, L2, pr) → ∃ r : ℝ, 0 ≤ r ∧ L2 = r := by
  intro H
  have hi : ∃ F, ForwardOp.init (⟨true, fun _ => 1⟩ : DataVec 1) (.num ((1 : ℝ) : ℂ) false) "analysis" none none none
      = .ok F := by
    have := buildInvCov_complex (⟨true, fun _ => 1⟩ : DataVec 1) rfl _ _ (IsSigma.scalar 1 one_pos)
    unfold ForwardOp.init; rw [this]
    simp only [bind, Except.bind, Setting.parse, if_true]
    exact ⟨_, rfl⟩
  obtain ⟨F, hF⟩ := hi
  obtain ⟨lp, L2, h, -, -, -, him⟩ := C37_complex_misfit_partial ⟨true, fun _ => 1⟩ rfl _ _
    (IsSigma.scalar 1 one_pos) "analysis" none none none F hF ⟨fun _ => .ok 0, fun x => .ok x⟩ 1 [] 0 rfl
    (fun _ => 0)
  obtain ⟨r, -, hr⟩ := H _ F _ _ _ _ _ rfl hF h
  have : L2.im = 0 := by rw [hr]; simp
  have := congrFun (him.mp this) 0
  simp at this

/-! ## C38–C40 -/

/-- An array handle acts as the function `f` on arrays of length `a`. -/
def ActsAs {a b : ℕ} (h : List ℂ → Py (List ℂ)) (f : (Fin a → ℂ) → (Fin b → ℂ)) : Prop :=
  ∀ x, h (List.ofFn x) = .ok (List.ofFn (f x))

/-- The operators are linear with correct adjoints: `M`/`Mt` for the measurement (images of length `k` to data),
`B`/`Bt` for the transform's inverse (parameters of length `p` to images; only needed in the synthesis setting). -/
structure LinearOps (F : ForwardOp n) (k : ℕ) (M : (Fin k → ℂ) →ₗ[ℂ] (Fin n → ℂ)) (Mt : (Fin n → ℂ) → (Fin k → ℂ)) :
    Prop where
  meas : ∃ m, F.measurement = some m ∧ ActsAs m.op M ∧ ActsAs m.adj Mt
  adj : Spec.IsAdjointPair M Mt

/-- The same for the transform. -/
structure LinearTransform (F : ForwardOp n) (p k : ℕ) (B : (Fin p → ℂ) →ₗ[ℂ] (Fin k → ℂ))
    (Bt : (Fin k → ℂ) → (Fin p → ℂ)) : Prop where
  tr : ∃ t, F.transform = some t ∧ ActsAs t.op B ∧ ActsAs t.adj Bt
  adj : Spec.IsAdjointPair B Bt

/-- What both settings come down to: a linear map `A` with adjoint `At`. -/
structure LinModel (F : ForwardOp n) (A : (Fin p → ℂ) →ₗ[ℂ] (Fin n → ℂ)) (At : (Fin n → ℂ) → (Fin p → ℂ)) :
    Prop where
  fwd : ∀ x, F.forward (List.ofFn x) = .ok (List.ofFn (A x))
  grad : ∀ y, F.calcGradg (List.ofFn y) = .ok (List.ofFn (At (F.invcov.mulVec (y - F.data.vals))))
  adj : Spec.IsAdjointPair A At

theorem gradgAnalysis_eq (F : ForwardOp n) (M : (Fin k → ℂ) →ₗ[ℂ] (Fin n → ℂ)) (Mt : (Fin n → ℂ) → (Fin k → ℂ))
    (h : LinearOps F k M Mt) (y : Fin n → ℂ) :
    F.gradgAnalysis (List.ofFn y) = .ok (List.ofFn (Mt (F.invcov.mulVec (y - F.data.vals)))) := by
  obtain ⟨m, hm, -, h2⟩ := h.meas
  unfold ForwardOp.gradgAnalysis
  rw [hm]
  simp only [attr, bind, Except.bind]
  rw [npSub_ofFn]
  simp only
  rw [show (fun i => y i - F.data.vals i) = y - F.data.vals from rfl, matDot_ofFn]
  exact h2 _

theorem linModel_analysis (F : ForwardOp n) (hs : F.setting = .analysis) (M : (Fin p → ℂ) →ₗ[ℂ] (Fin n → ℂ))
    (Mt : (Fin n → ℂ) → (Fin p → ℂ)) (h : LinearOps F p M Mt) : LinModel F M Mt where
  fwd := by
    intro x
    obtain ⟨m, hm, h1, -⟩ := h.meas
    simp only [ForwardOp.forward, hs, ForwardOp.forwardAnalysis, hm, attr, bind, Except.bind]
    exact h1 x
  grad := by
    intro y
    simp only [ForwardOp.calcGradg, hs]
    exact gradgAnalysis_eq F M Mt h y
  adj := h.adj

theorem linModel_synthesis (F : ForwardOp n) (hs : F.setting = .synthesis) (M : (Fin k → ℂ) →ₗ[ℂ] (Fin n → ℂ))
    (Mt : (Fin n → ℂ) → (Fin k → ℂ)) (h : LinearOps F k M Mt) (B : (Fin p → ℂ) →ₗ[ℂ] (Fin k → ℂ))
    (Bt : (Fin k → ℂ) → (Fin p → ℂ)) (ht : LinearTransform F p k B Bt) :
    LinModel F (M.comp B) (fun y => Bt (Mt y)) where
  fwd := by
    intro x
    obtain ⟨m, hm, h1, -⟩ := h.meas
    obtain ⟨t, htt, h2, -⟩ := ht.tr
    simp only [ForwardOp.forward, hs, ForwardOp.forwardSynthesis, hm, htt, attr, bind, Except.bind]
    rw [h2 x]
    exact h1 _
  grad := by
    intro y
    obtain ⟨t, htt, -, h3⟩ := ht.tr
    simp only [ForwardOp.calcGradg, hs, htt, attr, bind, Except.bind]
    rw [gradgAnalysis_eq F M Mt h y]
    exact h3 _
  adj := by
    intro x y
    rw [LinearMap.comp_apply, h.adj, ht.adj]

/-- C40: a setting other than the two is never accepted: the constructor raises `ValueError` (unless building the
covariance already raised). -/
theorem C40_setting_checked (data : DataVec n) (sig : SigD) (s : String) (t m : Option OpPair) (np : Option ℕ)
    (h1 : s ≠ "analysis") (h2 : s ≠ "synthesis") :
    (∀ F, ForwardOp.init data sig s t m np ≠ .ok F) ∧
    (∀ W, buildInvCov data sig = .ok W → ForwardOp.init data sig s t m np = .error .ValueError) := by
  have hp : Setting.parse s = none := by simp [Setting.parse, h1, h2]
  constructor
  · intro F hF
    unfold ForwardOp.init at hF
    obtain ⟨W, -, hF⟩ := bind_ok hF
    rw [hp] at hF
    cases hF
  · intro W hW
    unfold ForwardOp.init
    rw [hW, hp]
    rfl

/-- C40: the two settings are accepted and select the stated compositions; the gradient applies the adjoint of the whole
forward map to the weighted residual. -/
theorem C40_settings (data : DataVec n) (sig : SigD) (W : Matrix (Fin n) (Fin n) ℂ) (hW : buildInvCov data sig = .ok W)
    (t m : OpPair) (np : Option ℕ) :
    ∃ Fa Fs : ForwardOp n, ForwardOp.init data sig "analysis" (some t) (some m) np = .ok Fa ∧
      ForwardOp.init data sig "synthesis" (some t) (some m) np = .ok Fs ∧
      (∀ X, Fa.forward X = m.op X) ∧ (∀ X Y, t.op X = .ok Y → Fs.forward X = m.op Y) ∧
      (∀ y : Fin n → ℂ, Fa.calcGradg (List.ofFn y) = m.adj (List.ofFn (W.mulVec (y - data.vals)))) ∧
      (∀ (y : Fin n → ℂ) (g : List ℂ), m.adj (List.ofFn (W.mulVec (y - data.vals))) = .ok g →
        Fs.calcGradg (List.ofFn y) = t.adj g) := by
  have hg : ∀ s, ∀ y : Fin n → ℂ, (⟨data, W, s, some t, some m, np⟩ : ForwardOp n).gradgAnalysis (List.ofFn y) =
      m.adj (List.ofFn (W.mulVec (y - data.vals))) := by
    intro s y
    unfold ForwardOp.gradgAnalysis
    simp only [attr, bind, Except.bind]
    rw [npSub_ofFn]
    simp only
    rw [show (fun i => y i - data.vals i) = y - data.vals from rfl, matDot_ofFn]
  refine ⟨⟨data, W, .analysis, some t, some m, np⟩, ⟨data, W, .synthesis, some t, some m, np⟩, ?_, ?_, ?_, ?_, ?_, ?_⟩
  · simp [ForwardOp.init, hW, bind, Except.bind, Setting.parse]
  · simp [ForwardOp.init, hW, bind, Except.bind, Setting.parse]
  · intro X; rfl
  · intro X Y h
    simp only [ForwardOp.forward, ForwardOp.forwardSynthesis, attr, bind, Except.bind, h]
  · intro y
    exact hg _ y
  · intro y g h
    simp only [ForwardOp.calcGradg, attr, bind, Except.bind]
    rw [hg _ y, h]

/-- C40: hence in both settings `⟨calc_gradg(y), V⟩ = ⟨invcov (y - data), forward(V)⟩`, for linear operators. -/
theorem C40_gradient_is_adjoint (F : ForwardOp n) (A : (Fin p → ℂ) →ₗ[ℂ] (Fin n → ℂ)) (At : (Fin n → ℂ) → (Fin p → ℂ))
    (M : (Fin k → ℂ) →ₗ[ℂ] (Fin n → ℂ)) (Mt : (Fin n → ℂ) → (Fin k → ℂ)) (B : (Fin p → ℂ) →ₗ[ℂ] (Fin k → ℂ))
    (Bt : (Fin k → ℂ) → (Fin p → ℂ))
    (h : (F.setting = .analysis ∧ LinearOps F p A At) ∨
      (F.setting = .synthesis ∧ LinearOps F k M Mt ∧ LinearTransform F p k B Bt ∧ A = M.comp B))
    (y : Fin n → ℂ) (V : Fin p → ℂ) : ∃ (g : Fin p → ℂ) (AV : Fin n → ℂ), F.calcGradg (List.ofFn y) = .ok (List.ofFn g) ∧
      F.forward (List.ofFn V) = .ok (List.ofFn AV) ∧ AV = A V ∧
      Spec.inner g V = Spec.inner (F.invcov.mulVec (y - F.data.vals)) AV := by
  rcases h with ⟨hs, h⟩ | ⟨hs, h, ht, rfl⟩
  · have L := linModel_analysis F hs A At h
    exact ⟨_, _, L.grad y, L.fwd V, rfl, (L.adj _ _).symm⟩
  · have L := linModel_synthesis F hs M Mt h B Bt ht
    exact ⟨_, _, L.grad y, L.fwd V, rfl, (L.adj _ _).symm⟩

/-- `PathIntegral` measurements with the identity transform meet the hypotheses. -/
theorem pathIntegral_linearOps (F : ForwardOp n) (A : Matrix (Fin n) (Fin k) ℂ)
    (hm : F.measurement = some ⟨pathForward A, pathAdjoint A⟩) :
    LinearOps F k (Matrix.mulVecLin A) (Matrix.mulVec A.conjTranspose) where
  meas := ⟨_, hm, fun x => by simp only [pathForward]; rw [if_pos (by simp), matDot_ofFn]; rfl,
    fun x => by simp only [pathAdjoint]; rw [if_pos (by simp), matDot_ofFn]⟩
  adj := fun x y => inner_mulVec A x y

example : ∃ F : ForwardOp 2, F.setting = .analysis ∧
    LinearOps F 3 (Matrix.mulVecLin (!![1, Complex.I, 0; 0, 2, 5])) (Matrix.mulVec (!![1, Complex.I, 0; 0, 2, 5]).conjTranspose) :=
  ⟨⟨⟨false, ![1, 2]⟩, 1, .analysis, none, some ⟨pathForward !![1, Complex.I, 0; 0, 2, 5],
    pathAdjoint !![1, Complex.I, 0; 0, 2, 5]⟩, none⟩, rfl, pathIntegral_linearOps _ _ rfl⟩

/-! ### Derivatives -/

theorem inner_add_left'' (x y z : Fin n → ℂ) : Spec.inner (x + y) z = Spec.inner x z + Spec.inner y z :=
  inner_add_left' x y z

theorem inner_add_right' (x y z : Fin n → ℂ) : Spec.inner x (y + z) = Spec.inner x y + Spec.inner x z := by
  unfold Spec.inner
  rw [← Finset.sum_add_distrib]
  exact Finset.sum_congr rfl fun i _ => by simp [mul_add]

theorem inner_smul_right' (x y : Fin n → ℂ) (t : ℝ) : Spec.inner x ((t : ℂ) • y) = (t : ℂ) * Spec.inner x y := by
  unfold Spec.inner
  rw [Finset.mul_sum]
  exact Finset.sum_congr rfl fun i _ => by simp; ring

theorem inner_smul_left' (x y : Fin n → ℂ) (t : ℝ) : Spec.inner ((t : ℂ) • x) y = (t : ℂ) * Spec.inner x y := by
  unfold Spec.inner
  rw [Finset.mul_sum]
  exact Finset.sum_congr rfl fun i _ => by simp; ring

theorem inner_conj_symm' (x y : Fin n → ℂ) : conj (Spec.inner x y) = Spec.inner y x := by
  unfold Spec.inner
  rw [map_sum]
  exact Finset.sum_congr rfl fun i _ => by simp; ring

theorem inner_herm (W : Matrix (Fin n) (Fin n) ℂ) (hW : W.conjTranspose = W) (x y : Fin n → ℂ) :
    Spec.inner y (W.mulVec x) = Spec.inner (W.mulVec y) x := by
  rw [inner_mulVec, hW]

/-- The misfit along a line is a quadratic polynomial. -/
theorem quadratic_line (W : Matrix (Fin n) (Fin n) ℂ) (D U : Fin n → ℂ) (t : ℝ) :
    Spec.inner (D + (t : ℂ) • U) (W.mulVec (D + (t : ℂ) • U)) = Spec.inner D (W.mulVec D) +
      t * (Spec.inner D (W.mulVec U) + Spec.inner U (W.mulVec D)) + t ^ 2 * Spec.inner U (W.mulVec U) := by
  rw [Matrix.mulVec_add, Matrix.mulVec_smul, inner_add_left'', inner_add_right', inner_add_right', inner_smul_left',
    inner_smul_left', inner_smul_right', inner_smul_right']
  ring

theorem hasDerivAt_quadratic (a b c : ℝ) : HasDerivAt (fun t : ℝ => a + t * b + t ^ 2 * c) b 0 := by
  have h := (((hasDerivAt_id (0 : ℝ)).mul_const b).const_add a).add (((hasDerivAt_id (0 : ℝ)).pow 2).mul_const c)
  refine (h.congr_deriv (by simp)).congr_of_eventuallyEq (Filter.Eventually.of_forall fun t => ?_)
  simp

/-- The value `L2` that `logpi` reports at the model `x`. -/
def ReportsL2 (F : ForwardOp n) (P : PriorObj) (mu : ℝ) (x : Fin p → ℂ) (L2 : ℂ) : Prop :=
  ∃ preds logPi pr, F.forward (List.ofFn x) = .ok preds ∧ logpi F P mu (List.ofFn x) preds = .ok (logPi, L2, pr)

theorem reportsL2_iff (F : ForwardOp n) (P : PriorObj) (mu : ℝ) (A : (Fin p → ℂ) →ₗ[ℂ] (Fin n → ℂ))
    (At : (Fin n → ℂ) → (Fin p → ℂ)) (h : LinModel F A At) (hP : ∀ x, ∃ pr, P.prior x = .ok pr) (x : Fin p → ℂ)
    (L2 : ℂ) : ReportsL2 F P mu x L2 ↔
      L2 = Spec.inner (F.data.vals - A x) (F.invcov.mulVec (F.data.vals - A x)) := by
  obtain ⟨pr, hpr⟩ := hP (List.ofFn x)
  have e := logpi_ofFn F P mu (List.ofFn x) (A x) pr hpr
  constructor
  · rintro ⟨preds, lp, pr', h1, h2⟩
    rw [h.fwd] at h1
    obtain rfl := Except.ok.inj h1
    rw [e] at h2
    have := Except.ok.inj h2
    simp only [Prod.mk.injEq] at this
    exact this.2.1.symm
  · rintro rfl
    exact ⟨_, _, _, h.fwd x, e⟩

theorem gradg_derivative (F : ForwardOp n) (hW : F.invcov.conjTranspose = F.invcov) (P : PriorObj) (mu : ℝ)
    (A : (Fin p → ℂ) →ₗ[ℂ] (Fin n → ℂ)) (At : (Fin n → ℂ) → (Fin p → ℂ)) (h : LinModel F A At)
    (hP : ∀ x, ∃ pr, P.prior x = .ok pr) (X V : Fin p → ℂ) :
    ∃ (L2 : ℝ → ℂ) (preds : List ℂ) (g : Fin p → ℂ), (∀ t : ℝ, ReportsL2 F P mu (X + (t : ℂ) • V) (L2 t)) ∧
      F.forward (List.ofFn X) = .ok preds ∧ F.calcGradg preds = .ok (List.ofFn g) ∧
      HasDerivAt (fun t => (L2 t).re) (2 * (Spec.inner g V).re) 0 := by
  set D := F.data.vals - A X with hD
  set U := -(A V) with hU
  have hline : ∀ t : ℝ, F.data.vals - A (X + (t : ℂ) • V) = D + (t : ℂ) • U := by
    intro t
    rw [map_add, map_smul, hD, hU, smul_neg]
    abel
  refine ⟨fun t => Spec.inner (D + (t : ℂ) • U) (F.invcov.mulVec (D + (t : ℂ) • U)), _, _, ?_, h.fwd X, h.grad _, ?_⟩
  · intro t
    rw [reportsL2_iff F P mu A At h hP, hline]
  · have e : (fun t : ℝ => (Spec.inner (D + (t : ℂ) • U) (F.invcov.mulVec (D + (t : ℂ) • U))).re) =
        fun t : ℝ => (Spec.inner D (F.invcov.mulVec D)).re + t * ((Spec.inner D (F.invcov.mulVec U)).re +
          (Spec.inner U (F.invcov.mulVec D)).re) + t ^ 2 * (Spec.inner U (F.invcov.mulVec U)).re := by
      funext t
      rw [quadratic_line, Complex.add_re, Complex.add_re, Complex.re_ofReal_mul, Complex.add_re, ← Complex.ofReal_pow,
        Complex.re_ofReal_mul]
    rw [e]
    have hd := hasDerivAt_quadratic (Spec.inner D (F.invcov.mulVec D)).re
      ((Spec.inner D (F.invcov.mulVec U)).re + (Spec.inner U (F.invcov.mulVec D)).re)
      (Spec.inner U (F.invcov.mulVec U)).re
    convert hd using 1
    have h1 : A X - F.data.vals = -D := by rw [hD]; abel
    rw [← h.adj V, h1]
    have h2 : Spec.inner (F.invcov.mulVec (-D)) (A V) = Spec.inner (F.invcov.mulVec D) U := by
      rw [hU, Matrix.mulVec_neg]
      unfold Spec.inner
      exact Finset.sum_congr rfl fun i _ => by simp
    have h3 : (Spec.inner U (F.invcov.mulVec D)).re = (Spec.inner (F.invcov.mulVec D) U).re := by
      rw [← inner_conj_symm', Complex.conj_re]
    rw [h2, h3, inner_herm _ hW U D]
    ring

/-- The covariances of real data are Hermitian. -/
theorem invcov_hermitian (data : DataVec n) (hd : data.cplx = false) (sig : SigD) (σ : Fin n → ℝ)
    (hσ : IsSigma n sig σ) (s : String) (t m : Option OpPair) (np : Option ℕ) (F : ForwardOp n)
    (hF : ForwardOp.init data sig s t m np = .ok F) : F.invcov.conjTranspose = F.invcov := by
  obtain ⟨W, hW, -, rfl⟩ := C35_diagonal data hd sig σ hσ
  unfold ForwardOp.init at hF
  rw [hW] at hF
  simp only [bind, Except.bind] at hF
  split at hF
  · cases hF
  · rw [← Except.ok.inj hF]
    simp only [Matrix.diagonal_conjTranspose]
    congr 1
    funext i
    simp

/-- C38 (partial): for real data (complex or real parameters and predictions), linear measurement and transform with
correct adjoints and in both settings, the derivative of half the reported misfit in any direction `V` is
`Re⟨calc_gradg(forward(X)), V⟩`.  Missing: complex data, for which the claim is false. -/
theorem C38_gradient_partial (data : DataVec n) (hd : data.cplx = false) (sig : SigD) (σ : Fin n → ℝ)
    (hσ : IsSigma n sig σ) (s : String) (t m : Option OpPair) (np : Option ℕ) (F : ForwardOp n)
    (hF : ForwardOp.init data sig s t m np = .ok F) (P : PriorObj) (hP : ∀ x, ∃ pr, P.prior x = .ok pr) (mu : ℝ)
    (A : (Fin p → ℂ) →ₗ[ℂ] (Fin n → ℂ)) (At : (Fin n → ℂ) → (Fin p → ℂ))
    (M : (Fin k → ℂ) →ₗ[ℂ] (Fin n → ℂ)) (Mt : (Fin n → ℂ) → (Fin k → ℂ)) (B : (Fin p → ℂ) →ₗ[ℂ] (Fin k → ℂ))
    (Bt : (Fin k → ℂ) → (Fin p → ℂ))
    (h : (F.setting = .analysis ∧ LinearOps F p A At) ∨
      (F.setting = .synthesis ∧ LinearOps F k M Mt ∧ LinearTransform F p k B Bt))
    (X V : Fin p → ℂ) :
    ∃ (L2 : ℝ → ℂ) (preds : List ℂ) (g : Fin p → ℂ), (∀ t : ℝ, ReportsL2 F P mu (X + (t : ℂ) • V) (L2 t)) ∧
      F.forward (List.ofFn X) = .ok preds ∧ F.calcGradg preds = .ok (List.ofFn g) ∧
      HasDerivAt (fun t => 1 / 2 * (L2 t).re) (Spec.inner g V).re 0 := by
  have hW := invcov_hermitian data hd sig σ hσ s t m np F hF
  have key : ∃ (L2 : ℝ → ℂ) (preds : List ℂ) (g : Fin p → ℂ),
      (∀ t : ℝ, ReportsL2 F P mu (X + (t : ℂ) • V) (L2 t)) ∧
      F.forward (List.ofFn X) = .ok preds ∧ F.calcGradg preds = .ok (List.ofFn g) ∧
      HasDerivAt (fun t => (L2 t).re) (2 * (Spec.inner g V).re) 0 := by
    rcases h with ⟨hs, h⟩ | ⟨hs, h, ht⟩
    · exact gradg_derivative F hW P mu A At (linModel_analysis F hs A At h) hP X V
    · exact gradg_derivative F hW P mu _ _ (linModel_synthesis F hs M Mt h B Bt ht) hP X V
  obtain ⟨L2, preds, g, h1, h2, h3, h4⟩ := key
  refine ⟨L2, preds, g, h1, h2, h3, ?_⟩
  exact (h4.const_mul (1 / 2 : ℝ)).congr_deriv (by ring)

/-- The one-pixel identity operator used as a witness below. -/
noncomputable def idOp (cplx : Bool) (d : ℂ) (W : Matrix (Fin 1) (Fin 1) ℂ) : ForwardOp 1 :=
  ⟨⟨cplx, fun _ => d⟩, W, .analysis, none, some ⟨identityForward 1 1, identityAdjoint 1 1⟩, some 1⟩

theorem idOp_linear (cplx : Bool) (d : ℂ) (W : Matrix (Fin 1) (Fin 1) ℂ) :
    LinearOps (idOp cplx d W) 1 (LinearMap.id : (Fin 1 → ℂ) →ₗ[ℂ] (Fin 1 → ℂ)) (fun y => y) where
  meas := ⟨_, rfl, fun _ => (C27_square 1 _ List.length_ofFn).1, fun _ => (C27_square 1 _ List.length_ofFn).2⟩
  adj := fun _ _ => rfl

/-- C38 is violated for complex data: one pixel, datum 0, identity measurement, unit standard deviation, at `X = 1` in
direction `V = i` the misfit does not change but the gradient is not orthogonal to `V`. -/
theorem C38_complex_data_refuted : ¬ ∀ (data : DataVec 1) (F : ForwardOp 1) (P : PriorObj) (m : OpPair)
    (A : (Fin 1 → ℂ) →ₗ[ℂ] (Fin 1 → ℂ)) (At : (Fin 1 → ℂ) → (Fin 1 → ℂ)) (X V : Fin 1 → ℂ) (L2 : ℝ → ℂ)
    (preds : List ℂ) (g : Fin 1 → ℂ), data.cplx = true →
    ForwardOp.init data (.num ((1 : ℝ) : ℂ) false) "analysis" none (some m) (some 1) = .ok F →
    LinearOps F 1 A At → (∀ t : ℝ, ReportsL2 F P 1 (X + (t : ℂ) • V) (L2 t)) →
    F.forward (List.ofFn X) = .ok preds → F.calcGradg preds = .ok (List.ofFn g) →
    HasDerivAt (fun t => 1 / 2 * (L2 t).re) (Spec.inner g V).re 0 := by
  intro H
  have hB := buildInvCov_complex (⟨true, fun _ => 0⟩ : DataVec 1) rfl _ _ (IsSigma.scalar 1 one_pos)
  generalize hw : ((1 / (1 : ℝ) ^ 2 / √2 : ℝ) : ℂ) * (1 - Complex.I) = w at hB
  have hwim : w.im ≠ 0 := by
    rw [← hw, Complex.im_ofReal_mul]
    simp
  have hF : ForwardOp.init (⟨true, fun _ => 0⟩ : DataVec 1) (.num ((1 : ℝ) : ℂ) false) "analysis" none
      (some ⟨identityForward 1 1, identityAdjoint 1 1⟩) (some 1) = .ok (idOp true 0 (Matrix.diagonal fun _ => w)) := by
    unfold ForwardOp.init; rw [hB]
    simp only [bind, Except.bind, Setting.parse, if_true]
    rfl
  have hlin := idOp_linear true 0 (Matrix.diagonal fun _ => w)
  have hm := linModel_analysis _ rfl _ _ hlin
  have hP : ∀ x, ∃ pr, (⟨fun _ => .ok 0, fun x => .ok x⟩ : PriorObj).prior x = .ok pr := fun x => ⟨0, rfl⟩
  have hL : ∀ t : ℝ, ReportsL2 (idOp true 0 (Matrix.diagonal fun _ => w)) ⟨fun _ => .ok 0, fun x => .ok x⟩ 1
      ((fun _ : Fin 1 => (1 : ℂ)) + (t : ℂ) • fun _ : Fin 1 => Complex.I) (w * ((1 + t ^ 2 : ℝ) : ℂ)) := by
    intro t
    rw [reportsL2_iff _ _ 1 _ _ hm hP]
    show _ = Spec.inner _ ((Matrix.diagonal fun _ => w).mulVec _)
    rw [inner_diagonal, Fin.sum_univ_one]
    congr 2
    show _ = ‖(0 : ℂ) - (1 + (t : ℂ) * Complex.I)‖ ^ 2
    rw [zero_sub, norm_neg, ← Complex.normSq_eq_norm_sq, Complex.normSq_apply]
    simp
    ring
  have hg : (idOp true 0 (Matrix.diagonal fun _ => w)).calcGradg (List.ofFn fun _ : Fin 1 => (1 : ℂ)) =
      .ok (List.ofFn fun _ : Fin 1 => w) := by
    rw [hm.grad]
    congr 2
    funext i
    show ((Matrix.diagonal fun _ => w).mulVec _) i = w
    rw [Matrix.mulVec_diagonal]
    show w * (1 - 0) = w
    ring
  have h := H ⟨true, fun _ => 0⟩ _ _ _ _ _ (fun _ => 1) (fun _ => Complex.I) _ _ _ rfl hF hlin hL
    (hm.fwd _) hg
  have e : (fun t : ℝ => 1 / 2 * (w * ((1 + t ^ 2 : ℝ) : ℂ)).re) =
      fun t : ℝ => 1 / 2 * w.re + t * 0 + t ^ 2 * (1 / 2 * w.re) := by
    funext t
    rw [mul_comm w, Complex.re_ofReal_mul]
    ring
  rw [e] at h
  have hu := h.unique (hasDerivAt_quadratic (1 / 2 * w.re) 0 (1 / 2 * w.re))
  simp [Spec.inner] at hu
  exact hwim hu

theorem gradf_ofFn (P : PriorObj) (lmda : ℝ) (X a : Fin p → ℂ) (h : P.proxf (List.ofFn X) = .ok (List.ofFn a)) :
    gradf P lmda (List.ofFn X) = .ok (List.ofFn fun i => (X i - a i) / (lmda : ℂ)) := by
  unfold gradf
  rw [h]
  simp only [bind, Except.bind, npSub_ofFn, map_ofFn']

theorem gradlogpi_ofFn (F : ForwardOp n) (P : PriorObj) (lmda : ℝ) (X gf : Fin p → ℂ) (preds : List ℂ) (g : Fin p → ℂ)
    (hf : gradf P lmda (List.ofFn X) = .ok (List.ofFn gf)) (h2 : F.forward (List.ofFn X) = .ok preds)
    (h3 : F.calcGradg preds = .ok (List.ofFn g)) :
    gradlogpi F P lmda (List.ofFn X) none = .ok (List.ofFn (-gf - g)) := by
  unfold gradlogpi
  rw [hf]
  simp only [bind, Except.bind, h2, h3, map_ofFn', npSub_ofFn]
  rfl

theorem neg_sub_add_self (gf g : Fin p → ℂ) : -gf - g + gf = -g := by ring

/-- C39 is violated: `logpi` has no factor 1/2, so at `X = 1` (one pixel, real datum 0, unit standard deviation) the data
term of `logpi` falls at rate 2 while the sampler's gradient says 1. -/
theorem C39_sampler_gradient_refuted : ¬ ∀ (F : ForwardOp 1) (P : PriorObj) (m : OpPair)
    (A : (Fin 1 → ℂ) →ₗ[ℂ] (Fin 1 → ℂ)) (At : (Fin 1 → ℂ) → (Fin 1 → ℂ)) (X V : Fin 1 → ℂ) (L2 : ℝ → ℂ)
    (gf gl : Fin 1 → ℂ),
    ForwardOp.init (⟨false, fun _ => 0⟩ : DataVec 1) (.num ((1 : ℝ) : ℂ) false) "analysis" none (some m) (some 1) = .ok F →
    LinearOps F 1 A At → (∀ t : ℝ, ReportsL2 F P 1 (X + (t : ℂ) • V) (L2 t)) →
    gradf P 1 (List.ofFn X) = .ok (List.ofFn gf) → gradlogpi F P 1 (List.ofFn X) none = .ok (List.ofFn gl) →
    HasDerivAt (fun t => -(L2 t).re) (Spec.inner (gl + gf) V).re 0 := by
  intro H
  obtain ⟨W, hW, -, rfl⟩ := C35_diagonal (⟨false, fun _ => 0⟩ : DataVec 1) rfl _ _ (IsSigma.scalar 1 one_pos)
  set W : Matrix (Fin 1) (Fin 1) ℂ := Matrix.diagonal fun _ => ((1 / (1 : ℝ) ^ 2 : ℝ) : ℂ) with hWdef
  have hF : ForwardOp.init (⟨false, fun _ => 0⟩ : DataVec 1) (.num ((1 : ℝ) : ℂ) false) "analysis" none
      (some ⟨identityForward 1 1, identityAdjoint 1 1⟩) (some 1) = .ok (idOp false 0 W) := by
    unfold ForwardOp.init; rw [hW]; simp [bind, Except.bind, Setting.parse]; rfl
  have hlin := idOp_linear false 0 W
  have hherm := invcov_hermitian _ rfl _ _ (IsSigma.scalar 1 one_pos) _ _ _ _ _ hF
  have hm := linModel_analysis (idOp false 0 W) rfl _ _ hlin
  obtain ⟨L2, preds, g, h1, h2, h3, h4⟩ := gradg_derivative (idOp false 0 W) hherm ⟨fun _ => .ok 0, fun x => .ok x⟩ 1
    _ _ hm (fun x => ⟨0, rfl⟩) (fun _ => 1) (fun _ => 1)
  have hgf : gradf ⟨fun _ => .ok 0, fun x => .ok x⟩ 1 (List.ofFn fun _ : Fin 1 => (1 : ℂ)) =
      .ok (List.ofFn fun _ : Fin 1 => (0 : ℂ)) := by
    rw [gradf_ofFn _ 1 _ (fun _ => 1) rfl]
    simp
  have hgl := gradlogpi_ofFn (idOp false 0 W) ⟨fun _ => .ok 0, fun x => .ok x⟩ 1 _ _ preds g hgf h2 h3
  have h := H _ _ _ _ _ _ _ L2 _ _ hF hlin h1 hgf hgl
  rw [neg_sub_add_self] at h
  have hu := h.unique h4.neg
  have hg : g = fun _ => 1 := by
    rw [hm.fwd] at h2
    obtain rfl := Except.ok.inj h2
    rw [hm.grad] at h3
    have := List.ofFn_injective (Except.ok.inj h3)
    rw [← this]
    funext i
    have e1 : (idOp false 0 W).invcov = W := rfl
    have e2 : (idOp false 0 W).data.vals = fun _ => 0 := rfl
    rw [e1, e2, hWdef, Matrix.mulVec_diagonal]
    simp
  rw [hg] at hu
  norm_num [Spec.inner] at hu

/-- C39 (partial): for real data the data term of the sampler's gradient (what `_gradlogpi` returns once its prior term
`-(X - proxf(X))/lmda` is taken off) is exactly *half* the gradient of the data term of `logpi`.  Missing: equality, which
is false whenever the gradient does not vanish. -/
theorem C39_sampler_gradient_partial (data : DataVec n) (hd : data.cplx = false) (sig : SigD) (σ : Fin n → ℝ)
    (hσ : IsSigma n sig σ) (s : String) (t m : Option OpPair) (np : Option ℕ) (F : ForwardOp n)
    (hF : ForwardOp.init data sig s t m np = .ok F) (P : PriorObj) (hP : ∀ x, ∃ pr, P.prior x = .ok pr) (mu lmda : ℝ)
    (A : (Fin p → ℂ) →ₗ[ℂ] (Fin n → ℂ)) (At : (Fin n → ℂ) → (Fin p → ℂ)) (h : LinModel F A At) (X V a : Fin p → ℂ)
    (ha : P.proxf (List.ofFn X) = .ok (List.ofFn a)) :
    ∃ (L2 : ℝ → ℂ) (gl : Fin p → ℂ), (∀ t : ℝ, ReportsL2 F P mu (X + (t : ℂ) • V) (L2 t)) ∧
      gradlogpi F P lmda (List.ofFn X) none = .ok (List.ofFn gl) ∧
      HasDerivAt (fun t => -(L2 t).re) (2 * (Spec.inner (gl + fun i => (X i - a i) / (lmda : ℂ)) V).re) 0 := by
  obtain ⟨L2, preds, g, h1, h2, h3, h4⟩ := gradg_derivative F (invcov_hermitian data hd sig σ hσ s t m np F hF) P mu A At
    h hP X V
  refine ⟨L2, _, h1, gradlogpi_ofFn F P lmda X _ preds g (gradf_ofFn P lmda X a ha) h2 h3, ?_⟩
  have e : (Spec.inner (-g) V).re = -(Spec.inner g V).re := by
    unfold Spec.inner
    simp
  rw [neg_sub_add_self, e]
  exact h4.neg.congr_deriv (by ring)

/-- The hypotheses of C38/C39 are met by a two-datum path-integral operator. -/
example : ∃ F : ForwardOp 2, ForwardOp.init ⟨false, ![1, 2]⟩ (.num ((3 : ℝ) : ℂ) false) "analysis" none
    (some ⟨pathForward !![1, Complex.I, 0; 0, 2, 5], pathAdjoint !![1, Complex.I, 0; 0, 2, 5]⟩) (some 3) = .ok F ∧
    LinModel F (Matrix.mulVecLin !![1, Complex.I, 0; 0, 2, 5]) (Matrix.mulVec (!![1, Complex.I, 0; 0, 2, 5]).conjTranspose) := by
  obtain ⟨W, hW, -⟩ := C35_diagonal (⟨false, ![1, 2]⟩ : DataVec 2) rfl _ _ (IsSigma.scalar 3 (by norm_num))
  refine ⟨⟨⟨false, ![1, 2]⟩, W, .analysis, none, some ⟨pathForward !![1, Complex.I, 0; 0, 2, 5],
    pathAdjoint !![1, Complex.I, 0; 0, 2, 5]⟩, some 3⟩, ?_, linModel_analysis _ rfl _ _ (pathIntegral_linearOps _ _ rfl)⟩
  unfold ForwardOp.init; rw [hW]; simp [bind, Except.bind, Setting.parse]

end Pxmcmc
