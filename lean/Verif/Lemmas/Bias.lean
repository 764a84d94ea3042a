import Verif.Lemmas.GaussDensity
import Verif.Lemmas.Ergodic

/-! # How far the stationary law of a discretised Langevin chain is from its target

`x ↦ x - δ G x + √(2δ) w` with a standard Gaussian `w`, where `G` is the gradient of a strongly convex and smooth `U`.  The target is
the law with density proportional to `exp (-U)`. -/

namespace Pxmcmc
open MeasureTheory ProbabilityTheory Filter
open scoped ENNReal RealInnerProductSpace Topology

/-! ## A flux argument -/

section Flux
variable {X : Type*} [MeasurableSpace X] {m : Measure X} [SFinite m]

/-- Of a flux `H` that is antisymmetric only the unbalanced part of the density counts. -/
theorem antisymm_bound (ρ H A : X × X → ℝ) (hρ : ∀ q, 0 < ρ q) (hρm : Measurable ρ) (hHm : Measurable H)
    (hH : ∀ q, H q.swap = -H q) (iH : Integrable (fun q => H q * ρ q) (m.prod m))
    (hA : ∀ q, Real.log (ρ q) - Real.log (ρ q.swap) ≤ A q) (hA0 : ∀ q, 0 ≤ A q)
    (iA : Integrable (fun q => |H q| * A q * ρ q) (m.prod m)) :
    |∫ q, H q * ρ q ∂(m.prod m)| ≤ ∫ q, |H q| * A q * ρ q ∂(m.prod m) := by
  set s : X × X → ℝ := fun q => min (ρ q) (ρ q.swap) with hs
  have hsm : Measurable s := hρm.min (hρm.comp measurable_swap)
  have hs0 : ∀ q, 0 ≤ s q := fun q => le_min (hρ q).le (hρ _).le
  have hsle : ∀ q, s q ≤ ρ q := fun q => min_le_left _ _
  have is : Integrable (fun q => H q * s q) (m.prod m) := by
    refine iH.mono (hHm.mul hsm).aestronglyMeasurable (Eventually.of_forall fun q => ?_)
    rw [norm_mul, norm_mul]
    refine mul_le_mul_of_nonneg_left ?_ (norm_nonneg _)
    rw [Real.norm_eq_abs, Real.norm_eq_abs, abs_of_nonneg (hs0 q), abs_of_pos (hρ q)]
    exact hsle q
  have hzero : ∫ q, H q * s q ∂(m.prod m) = 0 := by
    have h1 := integral_prod_swap (μ := m) (ν := m) fun q : X × X => H q * s q
    have h2 : ∀ q : X × X, H q.swap * s q.swap = -(H q * s q) := by
      intro q
      have : s q.swap = s q := by simp only [hs, Prod.swap_swap, min_comm]
      rw [hH, this]
      ring
    simp only [h2] at h1
    rw [integral_neg] at h1
    linarith
  have hd : ∀ q, ρ q - s q ≤ A q * ρ q := by
    intro q
    rcases le_total (ρ q) (ρ q.swap) with hle | hle
    · simp only [hs, min_eq_left hle, sub_self]
      exact mul_nonneg (hA0 q) (hρ q).le
    · simp only [hs, min_eq_right hle]
      have h1 := Real.one_sub_inv_le_log_of_pos (div_pos (hρ q) (hρ q.swap))
      rw [Real.log_div (hρ q).ne' (hρ q.swap).ne', inv_div] at h1
      have h2 := h1.trans (hA q)
      have h3 := mul_le_mul_of_nonneg_right h2 (hρ q).le
      rwa [sub_mul, one_mul, div_mul_cancel₀ _ (hρ q).ne'] at h3
  calc |∫ q, H q * ρ q ∂(m.prod m)| = |∫ q, H q * ρ q - H q * s q ∂(m.prod m)| := by rw [integral_sub iH is, hzero, sub_zero]
    _ ≤ ∫ q, |H q * ρ q - H q * s q| ∂(m.prod m) := abs_integral_le_integral_abs
    _ ≤ _ := by
      refine integral_mono (iH.sub is).abs iA fun q => ?_
      show |H q * ρ q - H q * s q| ≤ |H q| * A q * ρ q
      rw [← mul_sub, abs_mul, abs_of_nonneg (sub_nonneg.mpr (hsle q)), mul_assoc]
      exact mul_le_mul_of_nonneg_left (hd q) (abs_nonneg _)

end Flux

/-! ## Strongly convex and smooth potentials -/

variable {V : Type*} [NormedAddCommGroup V] [InnerProductSpace ℝ V]

/-- `U` lies above its tangent parabola with curvature `c` and below the one with curvature `L`; `G` is its gradient. -/
structure Potential (U : V → ℝ) (G : V → V) (c L : ℝ) : Prop where
  pos : 0 < c
  le : c ≤ L
  lower : ∀ x y, U x + ⟪G x, y - x⟫ + c / 2 * ‖y - x‖ ^ 2 ≤ U y
  upper : ∀ x y, U y ≤ U x + ⟪G x, y - x⟫ + L / 2 * ‖y - x‖ ^ 2

namespace Potential
variable {U : V → ℝ} {G : V → V} {c L : ℝ}

theorem convex (h : Potential U G c L) (x y : V) : U x + ⟪G x, y - x⟫ ≤ U y := by
  have := h.lower x y
  have h0 : 0 ≤ c / 2 * ‖y - x‖ ^ 2 := mul_nonneg (half_pos h.pos).le (sq_nonneg _)
  linarith

theorem gap (h : Potential U G c L) (x y : V) : U x + ⟪G x, y - x⟫ + ‖G y - G x‖ ^ 2 / (2 * L) ≤ U y := by
  have hL : 0 < L := h.pos.trans_le h.le
  set D := G y - G x with hD
  have h1 := h.convex x (y - (1 / L) • D)
  have h2 := h.upper y (y - (1 / L) • D)
  have e1 : y - (1 / L) • D - x = (y - x) - (1 / L) • D := by abel
  have e2 : y - (1 / L) • D - y = -((1 / L) • D) := by abel
  rw [e1, inner_sub_right, real_inner_smul_right] at h1
  rw [e2, inner_neg_right, real_inner_smul_right, norm_neg, norm_smul, Real.norm_eq_abs, abs_of_pos (one_div_pos.mpr hL), mul_pow] at h2
  have e3 : ⟪G y, D⟫ - ⟪G x, D⟫ = ‖D‖ ^ 2 := by rw [← inner_sub_left, ← hD, real_inner_self_eq_norm_sq]
  have e4 : 1 / L * ⟪G y, D⟫ - 1 / L * ⟪G x, D⟫ = ‖D‖ ^ 2 / L := by rw [← mul_sub, e3]; ring
  have e5 : L / 2 * ((1 / L) ^ 2 * ‖D‖ ^ 2) = ‖D‖ ^ 2 / (2 * L) := by field_simp
  have e6 : ‖D‖ ^ 2 / L - ‖D‖ ^ 2 / (2 * L) = ‖D‖ ^ 2 / (2 * L) := by field_simp; ring
  rw [e5] at h2
  linarith

theorem lip (h : Potential U G c L) (x y : V) : ‖G x - G y‖ ≤ L * ‖x - y‖ := by
  have hL : 0 < L := h.pos.trans_le h.le
  have h1 := h.gap x y
  have h2 := h.gap y x
  rw [norm_sub_rev] at h1
  have e1 : ⟪G x, y - x⟫ + ⟪G y, x - y⟫ = -⟪G x - G y, x - y⟫ := by
    rw [inner_sub_left, ← neg_sub x y, inner_neg_right]
    ring
  have h3 : ‖G x - G y‖ ^ 2 / L ≤ ⟪G x - G y, x - y⟫ := by
    have : ‖G x - G y‖ ^ 2 / (2 * L) + ‖G x - G y‖ ^ 2 / (2 * L) = ‖G x - G y‖ ^ 2 / L := by field_simp; ring
    linarith
  have h4 := h3.trans (real_inner_le_norm _ _)
  rw [div_le_iff₀ hL] at h4
  rcases (norm_nonneg (G x - G y)).eq_or_lt with h0 | h0
  · rw [← h0]
    positivity
  · refine le_of_mul_le_mul_left ?_ h0
    nlinarith

theorem contG (h : Potential U G c L) : Continuous G := by
  have hL : 0 ≤ L := (h.pos.trans_le h.le).le
  refine (LipschitzWith.of_dist_le_mul (K := ⟨L, hL⟩) fun x y => ?_).continuous
  rw [dist_eq_norm, dist_eq_norm]
  exact h.lip x y

theorem contU (h : Potential U G c L) : Continuous U := by
  refine continuous_iff_continuousAt.mpr fun x => ?_
  have h1 : Tendsto (fun y => U x + ⟪G x, y - x⟫) (𝓝 x) (𝓝 (U x)) := by
    have : Continuous fun y => U x + ⟪G x, y - x⟫ := by fun_prop
    simpa using this.tendsto x
  have h2 : Tendsto (fun y => U x + ⟪G x, y - x⟫ + L / 2 * ‖y - x‖ ^ 2) (𝓝 x) (𝓝 (U x)) := by
    have : Continuous fun y => U x + ⟪G x, y - x⟫ + L / 2 * ‖y - x‖ ^ 2 := by fun_prop
    simpa using this.tendsto x
  exact tendsto_of_tendsto_of_tendsto_of_le_of_le h1 h2 (fun y => h.convex x y) fun y => h.upper x y

/-- The drift step is a contraction. -/
theorem contract (h : Potential U G c L) (δ : ℝ) (hδ : 0 < δ) (hs : δ * (L + c) ≤ 2) (x y : V) :
    ‖(x - δ • G x) - (y - δ • G y)‖ ≤ (1 - δ * c) * ‖x - y‖ := by
  have hr : 0 ≤ 1 - δ * c := by nlinarith [h.le, h.pos]
  -- the potential with the parabola of curvature `c` removed
  have hco : ∀ ε > 0, ‖(G x - G y) - c • (x - y)‖ ^ 2 ≤ (L + ε - c) * ⟪(G x - G y) - c • (x - y), x - y⟫ := by
    intro ε hε
    have hp : 0 < L + ε - c := by linarith [h.le]
    have hpn : L + ε - c ≠ 0 := hp.ne'
    have key : ∀ x y : V, (U x - c / 2 * ‖x‖ ^ 2) + ⟪G x - c • x, y - x⟫ + ‖(G y - c • y) - (G x - c • x)‖ ^ 2 / (2 * (L + ε - c)) ≤
        U y - c / 2 * ‖y‖ ^ 2 := by
      intro x y
      set D := (G y - c • y) - (G x - c • x) with hD
      have h1 := h.lower x (y - (1 / (L + ε - c)) • D)
      have h2 := h.upper y (y - (1 / (L + ε - c)) • D)
      set z := y - (1 / (L + ε - c)) • D with hz
      have q1 : ∀ a b : V, c / 2 * ‖b - a‖ ^ 2 = c / 2 * ‖b‖ ^ 2 - c / 2 * ‖a‖ ^ 2 - ⟪c • a, b - a⟫ := by
        intro a b
        rw [norm_sub_sq_real, real_inner_smul_left, inner_sub_right, real_inner_self_eq_norm_sq, real_inner_comm]
        ring
      have h1' : U x - c / 2 * ‖x‖ ^ 2 + ⟪G x - c • x, z - x⟫ ≤ U z - c / 2 * ‖z‖ ^ 2 := by
        rw [inner_sub_left]
        linarith [q1 x z]
      have h2' : U z - c / 2 * ‖z‖ ^ 2 ≤ U y - c / 2 * ‖y‖ ^ 2 + ⟪G y - c • y, z - y⟫ + (L + ε - c) / 2 * ‖z - y‖ ^ 2 := by
        rw [inner_sub_left]
        nlinarith [q1 y z, sq_nonneg ‖z - y‖]
      have e1 : z - x = (y - x) - (1 / (L + ε - c)) • D := by rw [hz]; abel
      have e2 : z - y = -((1 / (L + ε - c)) • D) := by rw [hz]; abel
      rw [e1, inner_sub_right, real_inner_smul_right] at h1'
      rw [e2, inner_neg_right, real_inner_smul_right, norm_neg, norm_smul, Real.norm_eq_abs, abs_of_pos (one_div_pos.mpr hp), mul_pow]
        at h2'
      have e3 : ⟪G y - c • y, D⟫ - ⟪G x - c • x, D⟫ = ‖D‖ ^ 2 := by rw [← inner_sub_left, ← hD, real_inner_self_eq_norm_sq]
      have e4 : 1 / (L + ε - c) * ⟪G y - c • y, D⟫ - 1 / (L + ε - c) * ⟪G x - c • x, D⟫ = ‖D‖ ^ 2 / (L + ε - c) := by
        rw [← mul_sub, e3]; ring
      have e5 : (L + ε - c) / 2 * ((1 / (L + ε - c)) ^ 2 * ‖D‖ ^ 2) = ‖D‖ ^ 2 / (2 * (L + ε - c)) := by field_simp
      have e6 : ‖D‖ ^ 2 / (L + ε - c) - ‖D‖ ^ 2 / (2 * (L + ε - c)) = ‖D‖ ^ 2 / (2 * (L + ε - c)) := by field_simp; ring
      rw [e5] at h2'
      linarith
    have h1 := key x y
    have h2 := key y x
    have eD : (G x - G y) - c • (x - y) = (G x - c • x) - (G y - c • y) := by rw [smul_sub]; abel
    rw [eD]
    rw [norm_sub_rev] at h1
    have e1 : ⟪G x - c • x, y - x⟫ + ⟪G y - c • y, x - y⟫ = -⟪(G x - c • x) - (G y - c • y), x - y⟫ := by
      rw [← neg_sub x y, inner_neg_right, inner_sub_left (G x - c • x)]
      ring
    have e2 : ‖(G x - c • x) - (G y - c • y)‖ ^ 2 / (2 * (L + ε - c)) + ‖(G x - c • x) - (G y - c • y)‖ ^ 2 / (2 * (L + ε - c)) =
        ‖(G x - c • x) - (G y - c • y)‖ ^ 2 / (L + ε - c) := by field_simp; ring
    have h3 : ‖(G x - c • x) - (G y - c • y)‖ ^ 2 / (L + ε - c) ≤ ⟪(G x - c • x) - (G y - c • y), x - y⟫ := by linarith
    rw [div_le_iff₀ hp] at h3
    linarith
  set D := (G x - G y) - c • (x - y) with hD
  have hin : 0 ≤ ⟪D, x - y⟫ := by
    have h1 := hco 1 one_pos
    have h2 : 0 < L + 1 - c := by linarith [h.le]
    by_contra hn
    push Not at hn
    nlinarith [sq_nonneg ‖D‖]
  have hlim : ‖D‖ ^ 2 ≤ (L - c) * ⟪D, x - y⟫ := by
    refine le_of_forall_pos_le_add fun ε hε => ?_
    have h1 := hco (ε / (⟪D, x - y⟫ + 1)) (by positivity)
    have h2 : ε / (⟪D, x - y⟫ + 1) * ⟪D, x - y⟫ ≤ ε := by
      rw [div_mul_eq_mul_div, div_le_iff₀ (by linarith)]
      nlinarith
    nlinarith
  have e : (x - δ • G x) - (y - δ • G y) = (1 - δ * c) • (x - y) - δ • D := by
    rw [hD, smul_sub δ (G x - G y), smul_smul, sub_smul, one_smul, smul_sub δ (G x)]
    abel
  refine le_of_sq_le_sq ?_ (mul_nonneg hr (norm_nonneg _))
  rw [e, norm_sub_sq_real, norm_smul, norm_smul, real_inner_smul_left, real_inner_smul_right, Real.norm_eq_abs, Real.norm_eq_abs,
    abs_of_nonneg hr, abs_of_pos hδ, mul_pow δ, real_inner_comm D]
  have h5 : δ ^ 2 * ‖D‖ ^ 2 ≤ δ ^ 2 * ((L - c) * ⟪D, x - y⟫) := mul_le_mul_of_nonneg_left hlim (sq_nonneg δ)
  have h6 : δ * (L - c) ≤ 2 * (1 - δ * c) := by linarith
  have h7 : δ * (δ * (L - c)) * ⟪D, x - y⟫ ≤ δ * (2 * (1 - δ * c)) * ⟪D, x - y⟫ :=
    mul_le_mul_of_nonneg_right (mul_le_mul_of_nonneg_left h6 hδ.le) hin
  nlinarith

end Potential

end Pxmcmc
