import Verif.Lemmas.ThresholdChain
import Verif.Lemmas.RealForm
import Verif.Lemmas.Target
import Verif.Lemmas.Arrays

/-! # The drift of MYULA with an l1 prior is a clipped position plus the gradient of a quadratic -/

namespace Pxmcmc
open MeasureTheory ProbabilityTheory Filter
open scoped ENNReal NNReal RealInnerProductSpace Topology
variable {n m p : ℕ}

/-- What soft thresholding removes. -/
noncomputable def clip (T : Fin m → ℝ) (y : Fin m → ℂ) : Fin m → ℂ := fun j => y j - softEntry (y j) (T j)

theorem rip_entries (u v : Fin m → ℂ) : rip u v = ∑ j, (inner ℂ (u j) (v j)).re := by
  unfold rip
  refine Finset.sum_congr rfl fun j _ => ?_
  rw [RCLike.inner_apply]
  simp
  ring

theorem clip_firm_entry (z w : ℂ) {t : ℝ} (ht : 0 ≤ t) :
    ‖(z - softEntry z t) - (w - softEntry w t)‖ ^ 2 ≤ (inner ℂ ((z - softEntry z t) - (w - softEntry w t)) (z - w)).re := by
  have h := softEntry_firm z w ht
  set P := softEntry z t
  set Q := softEntry w t
  have e1 : (z - P) - (w - Q) = (z - w) - (P - Q) := by ring
  have h1 := norm_sub_sq (𝕜 := ℂ) (z - w) (P - Q)
  have h2 : (inner ℂ ((z - w) - (P - Q)) (z - w)).re = ‖z - w‖ ^ 2 - (inner ℂ (P - Q) (z - w)).re := by
    rw [inner_sub_left, Complex.sub_re]
    congr 1
    exact inner_self_eq_norm_sq (𝕜 := ℂ) (z - w)
  have h3 := inner_re_symm (𝕜 := ℂ) (z - w) (P - Q)
  rw [e1, h2, h1]
  have h4 : RCLike.re (inner ℂ (z - w) (P - Q)) = (inner ℂ (P - Q) (z - w)).re := h3
  have h5 : ‖P - Q‖ ^ 2 ≤ (inner ℂ (P - Q) (z - w)).re := h
  rw [h4]
  linarith

theorem clip_of_lt {z : ℂ} {t : ℝ} (h : t < ‖z‖) (h0 : z ≠ 0) : z - softEntry z t = ((t / ‖z‖ : ℝ) : ℂ) * z := by
  have hp : 0 < ‖z‖ := norm_pos_iff.mpr h0
  have hpk : ((‖z‖ : ℝ) : ℂ) ≠ 0 := by exact_mod_cast hp.ne'
  rw [softEntry_of_lt h h0]
  push_cast
  have : (↑‖z‖ : ℂ) * (↑‖z‖)⁻¹ = 1 := mul_inv_cancel₀ hpk
  simp only [RCLike.ofReal_alg, Complex.real_smul, div_eq_mul_inv] at *
  linear_combination (-z) * this

theorem clip_push_entry (z : ℂ) {t : ℝ} (ht : 0 < t) : t * ‖z‖ - t ^ 2 ≤ (inner ℂ (z - softEntry z t) z).re := by
  have hz : (inner ℂ z z).re = ‖z‖ ^ 2 := inner_self_eq_norm_sq (𝕜 := ℂ) z
  rcases le_or_gt ‖z‖ t with h | h
  · rw [softEntry_of_le h, sub_zero, hz]
    nlinarith [norm_nonneg z, sq_nonneg (‖z‖ - t)]
  · have h0 : z ≠ 0 := by rintro rfl; simp at h; linarith
    have hp : 0 < ‖z‖ := norm_pos_iff.mpr h0
    have hpk : ((‖z‖ : ℝ) : ℂ) ≠ 0 := by exact_mod_cast hp.ne'
    have hg := clip_of_lt h h0
    rw [hg]
    have : (inner ℂ (((t / ‖z‖ : ℝ) : ℂ) * z) z).re = t / ‖z‖ * ‖z‖ ^ 2 := by
      have e1 : ((t / ‖z‖ : ℝ) : ℂ) * z = ((t / ‖z‖ : ℝ) : ℂ) • z := rfl
      rw [e1, inner_smul_left, Complex.conj_ofReal, Complex.re_ofReal_mul, hz]
    rw [this]
    have e : t / ‖z‖ * ‖z‖ ^ 2 = t * ‖z‖ := by field_simp
    rw [e]
    nlinarith

theorem clip_strict_entry (z w : ℂ) {t t0 D : ℝ} (h0 : 0 < t0) (ht : t0 ≤ t) (hD : 0 < D) (hz : ‖z‖ ≤ t0 / 2) (hd : ‖z - w‖ ≤ D) :
    min 1 (t0 / (2 * D)) * ‖z - w‖ ≤ ‖(z - softEntry z t) - (w - softEntry w t)‖ := by
  have hzt : ‖z‖ ≤ t := by linarith
  rw [softEntry_of_le hzt, sub_zero]
  rcases le_or_gt ‖w‖ t with h | h
  · rw [softEntry_of_le h, sub_zero]
    have := mul_le_mul_of_nonneg_right (min_le_left 1 (t0 / (2 * D))) (norm_nonneg (z - w))
    linarith
  · have hw : ‖w - softEntry w t‖ = t := by
      have hw0 : w ≠ 0 := by rintro rfl; simp at h; linarith
      have hp : 0 < ‖w‖ := norm_pos_iff.mpr hw0
      have hpk : ((‖w‖ : ℝ) : ℂ) ≠ 0 := by exact_mod_cast hp.ne'
      have hg := clip_of_lt h hw0
      rw [hg, norm_mul, Complex.norm_real, Real.norm_of_nonneg (div_nonneg (by linarith) hp.le)]
      field_simp
    have h1 := norm_sub_norm_le (w - softEntry w t) z
    rw [hw, norm_sub_rev (w - softEntry w t) z] at h1
    have h2 : min 1 (t0 / (2 * D)) * ‖z - w‖ ≤ t0 / (2 * D) * D :=
      mul_le_mul (min_le_right _ _) hd (norm_nonneg _) (by positivity)
    have h3 : t0 / (2 * D) * D = t0 / 2 := by field_simp
    linarith

theorem rip_self_sum (u : Fin m → ℂ) : rip u u = ∑ j, ‖u j‖ ^ 2 := by
  rw [rip_self]
  simp [Spec.distSq]

variable {T : Fin m → ℝ}

theorem clip_firm (hT : ∀ j, 0 < T j) (u v : Fin m → ℂ) :
    rip (clip T u - clip T v) (clip T u - clip T v) ≤ rip (clip T u - clip T v) (u - v) := by
  rw [rip_self_sum, rip_entries]
  exact Finset.sum_le_sum fun j _ => clip_firm_entry (u j) (v j) (hT j).le

theorem clip_bound (hT : ∀ j, 0 < T j) (u : Fin m → ℂ) : rip (clip T u) (clip T u) ≤ ∑ j, T j ^ 2 := by
  rw [rip_self_sum]
  refine Finset.sum_le_sum fun j _ => pow_le_pow_left₀ (norm_nonneg _) ?_ 2
  exact (softEntry_residual (x := u j) (hT j).le).1

theorem clip_push (t0 : ℝ) (h0 : 0 < t0) (hT : ∀ j, t0 ≤ T j) (u : Fin m → ℂ) :
    t0 * √(rip u u) - ∑ j, T j ^ 2 ≤ rip (clip T u) u := by
  have h1 : ∀ j, T j * ‖u j‖ - T j ^ 2 ≤ (inner ℂ (clip T u j) (u j)).re := fun j => clip_push_entry (u j) (h0.trans_le (hT j))
  have h2 : √(rip u u) ≤ ∑ j, ‖u j‖ := by
    rw [rip_self_sum, Real.sqrt_le_left (Finset.sum_nonneg fun j _ => norm_nonneg _)]
    exact Finset.sum_sq_le_sq_sum_of_nonneg fun j _ => norm_nonneg _
  rw [rip_entries (clip T u)]
  calc t0 * √(rip u u) - ∑ j, T j ^ 2 ≤ t0 * ∑ j, ‖u j‖ - ∑ j, T j ^ 2 := by
        linarith [mul_le_mul_of_nonneg_left h2 h0.le]
    _ ≤ ∑ j, (T j * ‖u j‖ - T j ^ 2) := by
        rw [Finset.sum_sub_distrib, Finset.mul_sum]
        refine sub_le_sub_right (Finset.sum_le_sum fun j _ => mul_le_mul_of_nonneg_right (hT j) (norm_nonneg _)) _
    _ ≤ _ := Finset.sum_le_sum fun j _ => h1 j

theorem clip_strict (t0 : ℝ) (h0 : 0 < t0) (hT : ∀ j, t0 ≤ T j) (D : ℝ) (hD : 0 < D) (u v : Fin m → ℂ)
    (hu : rip u u ≤ (t0 / 2) ^ 2) (hd : rip (u - v) (u - v) ≤ D ^ 2) :
    (min 1 (t0 / (2 * D))) ^ 2 * rip (u - v) (u - v) ≤ rip (clip T u - clip T v) (clip T u - clip T v) := by
  have hentry : ∀ (w : Fin m → ℂ) (j : Fin m), ‖w j‖ ^ 2 ≤ rip w w := fun w j => by
    rw [rip_self_sum]
    exact Finset.single_le_sum (f := fun j => ‖w j‖ ^ 2) (fun j _ => sq_nonneg _) (Finset.mem_univ j)
  rw [rip_self_sum, rip_self_sum, Finset.mul_sum]
  refine Finset.sum_le_sum fun j _ => ?_
  rw [← mul_pow]
  refine pow_le_pow_left₀ (by positivity) ?_ 2
  refine clip_strict_entry (u j) (v j) h0 (hT j) hD ?_ ?_
  · exact le_of_sq_le_sq ((hentry u j).trans hu) (by positivity)
  · exact le_of_sq_le_sq ((hentry (u - v) j).trans hd) hD.le

section
variable {B : (Fin p → ℂ) →ₗ[ℂ] (Fin m → ℂ)} {Bt : (Fin m → ℂ) → (Fin p → ℂ)}

theorem rip_adjoint {A : (Fin p → ℂ) → (Fin m → ℂ)} {At : (Fin m → ℂ) → (Fin p → ℂ)} (h : Spec.IsAdjointPair A At) (y : Fin m → ℂ)
    (x : Fin p → ℂ) : rip (At y) x = rip y (A x) := by
  rw [rip_eq_inner, rip_eq_inner, h]

theorem adjoint_sub' (h : Spec.IsAdjointPair B Bt) (y z : Fin m → ℂ) : Bt y - Bt z = Bt (y - z) := by
  have key : ∀ x, rip (Bt y - Bt z - Bt (y - z)) x = 0 := by
    intro x
    have e : rip (Bt y - Bt z - Bt (y - z)) x = rip (Bt y) x - rip (Bt z) x - rip (Bt (y - z)) x := by
      unfold rip
      rw [← Finset.sum_sub_distrib, ← Finset.sum_sub_distrib]
      exact Finset.sum_congr rfl fun i _ => by simp; ring
    have e2 : rip (y - z) (B x) = rip y (B x) - rip z (B x) := by
      unfold rip
      rw [← Finset.sum_sub_distrib]
      exact Finset.sum_congr rfl fun i _ => by simp; ring
    rw [e, rip_adjoint h, rip_adjoint h, rip_adjoint h, e2]
    ring
  have h1 := key (Bt y - Bt z - Bt (y - z))
  rw [rip_self_sum, Finset.sum_eq_zero_iff_of_nonneg fun j _ => sq_nonneg _] at h1
  refine sub_eq_zero.mp (funext fun i => ?_)
  simpa using h1 i (Finset.mem_univ i)

/-- The adjoint of a map that never increases the norm never increases it, too. -/
theorem adjoint_short (h : Spec.IsAdjointPair B Bt) (hB : ∀ x, rip (B x) (B x) ≤ rip x x) (y : Fin m → ℂ) :
    rip (Bt y) (Bt y) ≤ rip y y := by
  have h1 := rip_self_nonneg (y - B (Bt y))
  have e : rip (y - B (Bt y)) (y - B (Bt y)) = rip y y - 2 * rip y (B (Bt y)) + rip (B (Bt y)) (B (Bt y)) := by
    unfold rip
    rw [Finset.mul_sum, ← Finset.sum_sub_distrib, ← Finset.sum_add_distrib]
    exact Finset.sum_congr rfl fun i _ => by simp; ring
  rw [e, ← rip_adjoint h] at h1
  linarith [hB (Bt y)]

variable {V : Type} [NormedAddCommGroup V] [InnerProductSpace ℝ V] {e : V → Fin p → ℂ}

theorem RealForm.norm_rip (he : RealForm e) (x : V) : ‖x‖ ^ 2 = rip (e x) (e x) := by
  rw [← real_inner_self_eq_norm_sq, he.inner]

theorem RealForm.zero (he : RealForm e) : e 0 = 0 := by
  have := he.sub 0 0
  rwa [sub_self, sub_self] at this

theorem RealForm.inj (he : RealForm e) {x y : V} (h : e x = e y) : x = y := by
  have h1 := he.norm_sq x y
  rw [h] at h1
  simp [Spec.distSq] at h1
  exact sub_eq_zero.mp h1

/-- A least-squares solution in the real form. -/
theorem RealForm.solution (he : RealForm e) [FiniteDimensional ℝ V] (σ : Fin n → ℝ) (d : Fin n → ℂ) (A : (Fin p → ℂ) →ₗ[ℂ] (Fin n → ℂ))
    (At : (Fin n → ℂ) → (Fin p → ℂ)) (hadj : Spec.IsAdjointPair A At) (S : V → V)
    (hS : ∀ x, e (S x) = At ((Matrix.diagonal fun i => ((1 / σ i ^ 2 : ℝ) : ℂ)).mulVec (A (e x) - d))) : ∃ x₀, S x₀ = 0 := by
  set W : Matrix (Fin n) (Fin n) ℂ := Matrix.diagonal fun i => ((1 / σ i ^ 2 : ℝ) : ℂ) with hW
  have hWr : ∀ u v : Fin n → ℂ, rip (W.mulVec u) v = ∑ i, 1 / σ i ^ 2 * ((u i).re * (v i).re + (u i).im * (v i).im) := by
    intro u v
    unfold rip
    refine Finset.sum_congr rfl fun i _ => ?_
    rw [hW, Matrix.mulVec_diagonal, Complex.re_ofReal_mul, Complex.im_ofReal_mul]
    ring
  have hAe : ∀ x y : V, A (e (x - y)) = A (e x) - A (e y) := fun x y => by rw [he.sub, map_sub]
  have hSd : ∀ x y : V, e (S x - S y) = At (W.mulVec (A (e (x - y)))) := by
    intro x y
    rw [he.sub, hS, hS, adjoint_sub' hadj, ← Matrix.mulVec_sub, hAe]
    congr 2
    abel
  -- the linear part
  have hlin : ∀ x y : V, ⟪S x - S 0, y⟫ = ∑ i, 1 / σ i ^ 2 * ((A (e x) i).re * (A (e y) i).re + (A (e x) i).im * (A (e y) i).im) := by
    intro x y
    rw [he.inner, hSd, rip_adjoint hadj, hWr, sub_zero]
  let Q : V →ₗ[ℝ] V :=
    { toFun := fun x => S x - S 0
      map_add' := fun x y => by
        refine ext_inner_right ℝ fun z => ?_
        rw [inner_add_left, hlin, hlin, hlin, ← Finset.sum_add_distrib]
        refine Finset.sum_congr rfl fun i _ => ?_
        rw [he.add, map_add]
        simp
        ring
      map_smul' := fun a x => by
        refine ext_inner_right ℝ fun z => ?_
        rw [RingHom.id_apply, real_inner_smul_left, hlin, hlin, Finset.mul_sum]
        refine Finset.sum_congr rfl fun i _ => ?_
        have e1 : e (a • x) = (a : ℂ) • e x := by rw [he.smul]; rfl
        rw [e1, map_smul]
        simp
        ring }
  have hQ : ∀ x, Q x = S x - S 0 := fun x => rfl
  have hsym : Q.IsSymmetric := by
    intro x y
    rw [real_inner_comm (Q y) x, hQ, hQ, hlin, hlin]
    exact Finset.sum_congr rfl fun i _ => by ring
  have hrange : S 0 ∈ LinearMap.range Q := by
    rw [← Submodule.orthogonal_orthogonal (LinearMap.range Q), hsym.orthogonal_range, Submodule.mem_orthogonal]
    intro v hv
    rw [LinearMap.mem_ker, hQ] at hv
    have h0 := hlin v v
    rw [hv, inner_zero_left] at h0
    have hterm : ∀ i, 0 ≤ 1 / σ i ^ 2 * ((A (e v) i).re * (A (e v) i).re + (A (e v) i).im * (A (e v) i).im) := fun i => by
      have := mul_self_nonneg (A (e v) i).re
      have := mul_self_nonneg (A (e v) i).im
      positivity
    have hz := (Finset.sum_eq_zero_iff_of_nonneg fun i _ => hterm i).mp h0.symm
    rw [real_inner_comm, he.inner, hS, rip_adjoint hadj, hWr]
    refine Finset.sum_eq_zero fun i _ => ?_
    rcases mul_eq_zero.mp (hz i (Finset.mem_univ i)) with h | h
    · rw [h, zero_mul]
    · have h1 : (A (e v) i).re = 0 := by nlinarith [mul_self_nonneg (A (e v) i).re, mul_self_nonneg (A (e v) i).im]
      have h2 : (A (e v) i).im = 0 := by nlinarith [mul_self_nonneg (A (e v) i).re, mul_self_nonneg (A (e v) i).im]
      rw [h1, h2]
      ring
  obtain ⟨x, hx⟩ := hrange
  refine ⟨-x, ?_⟩
  have h1 : Q (-x) = - S 0 := by rw [map_neg, hx]
  rw [hQ] at h1
  have h2 := congrArg (· + S 0) h1
  simpa using h2

/-- The drift of MYULA in the real form. -/
theorem RealForm.clipped (he : RealForm e) [FiniteDimensional ℝ V] (hBt : Spec.IsAdjointPair B Bt) (b : ℝ) (hb : 0 < b)
    (hB0 : ∀ x, b * rip x x ≤ rip (B x) (B x)) (hB1 : ∀ x, rip (B x) (B x) ≤ rip x x) (hT : ∀ j, 0 < T j) (σ : Fin n → ℝ) (d : Fin n → ℂ)
    (A : (Fin p → ℂ) →ₗ[ℂ] (Fin n → ℂ)) (At : (Fin n → ℂ) → (Fin p → ℂ)) (hadj : Spec.IsAdjointPair A At) (Lf : ℝ) (hL : 0 < Lf)
    (hup : ∀ v, misfit σ 0 (A v) ≤ Lf * Spec.distSq v 0) (R S : V → V) (hR : ∀ x, e (R x) = Bt (clip T (B (e x))))
    (hS : ∀ x, e (S x) = At ((Matrix.diagonal fun i => ((1 / σ i ^ 2 : ℝ) : ℂ)).mulVec (A (e x) - d))) :
    ∃ x₀ τ η K ρ, Clipped R S x₀ Lf τ η K ρ := by
  obtain ⟨x₀, hx₀⟩ := he.solution σ d A At hadj S hS
  obtain ⟨t0, ht0, hTt⟩ : ∃ t0 > 0, ∀ j, t0 ≤ T j := by
    rcases isEmpty_or_nonempty (Fin m) with h | h
    · exact ⟨1, one_pos, fun j => h.elim j⟩
    · obtain ⟨j, hj⟩ := Finite.exists_min T
      exact ⟨T j, hT j, hj⟩
  -- the clipping part
  have hRd : ∀ x y : V, e (R x - R y) = Bt (clip T (B (e x)) - clip T (B (e y))) := fun x y => by
    rw [he.sub, hR, hR, adjoint_sub' hBt]
  have hBd : ∀ x y : V, B (e (x - y)) = B (e x) - B (e y) := fun x y => by rw [he.sub, map_sub]
  have hpair : ∀ x y : V, ⟪R x - R y, x - y⟫ = rip (clip T (B (e x)) - clip T (B (e y))) (B (e x) - B (e y)) := fun x y => by
    rw [he.inner, hRd, rip_adjoint hBt, hBd]
  -- the data part
  have hWr : ∀ u v : Fin n → ℂ, rip ((Matrix.diagonal fun i => ((1 / σ i ^ 2 : ℝ) : ℂ)).mulVec u) v =
      ∑ i, 1 / σ i ^ 2 * ((u i).re * (v i).re + (u i).im * (v i).im) := by
    intro u v
    unfold rip
    refine Finset.sum_congr rfl fun i _ => ?_
    rw [Matrix.mulVec_diagonal, Complex.re_ofReal_mul, Complex.im_ofReal_mul]
    ring
  have hSd : ∀ x y : V, e (S x - S y) = At ((Matrix.diagonal fun i => ((1 / σ i ^ 2 : ℝ) : ℂ)).mulVec (A (e (x - y)))) := by
    intro x y
    rw [he.sub, hS, hS, adjoint_sub' hadj, ← Matrix.mulVec_sub, he.sub, map_sub]
    congr 2
    abel
  have hlin : ∀ x y z : V, ⟪S x - S y, z⟫ =
      ∑ i, 1 / σ i ^ 2 * ((A (e (x - y)) i).re * (A (e z) i).re + (A (e (x - y)) i).im * (A (e z) i).im) := by
    intro x y z
    rw [he.inner, hSd, rip_adjoint hadj, hWr]
  have hmis : ∀ z : V, ∑ i, 1 / σ i ^ 2 * ((A (e z) i).re * (A (e z) i).re + (A (e z) i).im * (A (e z) i).im) ≤ Lf * ‖z‖ ^ 2 := by
    intro z
    have h1 := hup (e z)
    rw [he.norm_rip, rip_self]
    refine le_trans (le_of_eq ?_) h1
    unfold misfit
    refine Finset.sum_congr rfl fun i _ => ?_
    rw [Pi.zero_apply, zero_sub, norm_neg, Complex.sq_norm, Complex.normSq_apply]
    ring
  refine ⟨x₀, √(∑ j, T j ^ 2), t0 * √b, ∑ j, T j ^ 2, t0 / 2, ⟨fun x y => ?_, fun x => ?_, fun x => ?_, fun D => ?_, fun x y => ?_,
    hx₀, hL, mul_pos ht0 (Real.sqrt_pos.mpr hb), by positivity⟩⟩
  · rw [hpair, he.norm_rip, hRd]
    exact (adjoint_short hBt hB1 _).trans (clip_firm hT _ _)
  · refine Real.le_sqrt_of_sq_le ?_
    rw [he.norm_rip, hR]
    exact (adjoint_short hBt hB1 _).trans (clip_bound hT _)
  · rw [he.inner, hR, rip_adjoint hBt]
    refine le_trans ?_ (clip_push t0 ht0 hTt _)
    refine sub_le_sub_right ?_ _
    rw [mul_assoc]
    refine mul_le_mul_of_nonneg_left ?_ ht0.le
    refine Real.le_sqrt_of_sq_le ?_
    rw [mul_pow, Real.sq_sqrt hb.le, he.norm_rip]
    exact hB0 _
  · set D1 := max D 1 with hD1
    have hD0 : 0 < D1 := lt_max_of_lt_right one_pos
    set κ := min 1 (t0 / (2 * D1)) with hκ
    have hκ0 : 0 < κ := lt_min one_pos (by positivity)
    refine ⟨κ ^ 2 * b, by positivity, fun x y hx hd => ?_⟩
    have h1 : rip (B (e x)) (B (e x)) ≤ (t0 / 2) ^ 2 := by
      refine (hB1 _).trans ?_
      rw [← he.norm_rip]
      exact pow_le_pow_left₀ (norm_nonneg _) hx 2
    have h2 : rip (B (e x) - B (e y)) (B (e x) - B (e y)) ≤ D1 ^ 2 := by
      rw [← hBd]
      refine (hB1 _).trans ?_
      rw [← he.norm_rip]
      exact pow_le_pow_left₀ (norm_nonneg _) (hd.trans (le_max_left _ _)) 2
    have h3 := (clip_strict t0 ht0 hTt D1 hD0 _ _ h1 h2).trans (clip_firm hT _ _)
    rw [← hpair, ← hBd] at h3
    have h4 := hB0 (e (x - y))
    rw [← he.norm_rip] at h4
    have h5 := real_inner_le_norm (R x - R y) (x - y)
    rcases (norm_nonneg (x - y)).eq_or_lt with h6 | h6
    · rw [← h6, mul_zero]
      exact norm_nonneg _
    · have h7 : κ ^ 2 * (b * ‖x - y‖ ^ 2) ≤ ‖R x - R y‖ * ‖x - y‖ :=
        (mul_le_mul_of_nonneg_left h4 (sq_nonneg κ)).trans (h3.trans h5)
      refine le_of_mul_le_mul_right ?_ h6
      refine le_trans (le_of_eq ?_) h7
      ring
  · have h1 := hlin x y (S x - S y)
    rw [real_inner_self_eq_norm_sq] at h1
    have h2 := hmis (S x - S y)
    rw [hlin x y (x - y), h1]
    rw [h1] at h2
    set u := A (e (x - y)) with hu
    set w := A (e (S x - S y)) with hw
    have h3 : 0 ≤ ∑ i, 1 / σ i ^ 2 * (((w i).re - Lf * (u i).re) ^ 2 + ((w i).im - Lf * (u i).im) ^ 2) :=
      Finset.sum_nonneg fun i _ => by positivity
    have h4 : ∑ i, 1 / σ i ^ 2 * (((w i).re - Lf * (u i).re) ^ 2 + ((w i).im - Lf * (u i).im) ^ 2) =
        (∑ i, 1 / σ i ^ 2 * ((w i).re * (w i).re + (w i).im * (w i).im)) -
        2 * Lf * (∑ i, 1 / σ i ^ 2 * ((u i).re * (w i).re + (u i).im * (w i).im)) +
        Lf ^ 2 * ∑ i, 1 / σ i ^ 2 * ((u i).re * (u i).re + (u i).im * (u i).im) := by
      rw [Finset.mul_sum, Finset.mul_sum, ← Finset.sum_sub_distrib, ← Finset.sum_add_distrib]
      exact Finset.sum_congr rfl fun i _ => by ring
    rw [h4] at h3
    nlinarith

end
end Pxmcmc
