import Verif.Model.UtilsArrays
import Verif.Spec
import Mathlib.Tactic.Linarith
import Mathlib.Tactic.FieldSimp
import Mathlib.Tactic.Ring

/-! # Lemmas on the scalar soft threshold -/

namespace Pxmcmc

open RCLike
variable {𝕜 : Type} [RCLike 𝕜]

theorem softEntry_of_le {x : 𝕜} {t : ℝ} (h : ‖x‖ ≤ t) : softEntry x t = 0 := by
  simp [softEntry, h]

theorem softEntry_of_lt {x : 𝕜} {t : ℝ} (h : t < ‖x‖) (hx : x ≠ 0) :
    softEntry x t = (((‖x‖ - t) / ‖x‖ : ℝ) : 𝕜) * x := by
  have h0 : ‖x‖ ≠ 0 := norm_ne_zero_iff.mpr hx
  have h0' : ((‖x‖ : ℝ) : 𝕜) ≠ 0 := by exact_mod_cast h0
  simp only [softEntry, signEntry, not_le.mpr h, if_false, h0]
  push_cast
  field_simp

theorem softEntry_zero_left (t : ℝ) : softEntry (0 : 𝕜) t = 0 := by
  simp [softEntry, signEntry]

theorem norm_softEntry {x : 𝕜} {t : ℝ} (ht : 0 ≤ t) : ‖softEntry x t‖ = max (‖x‖ - t) 0 := by
  rcases le_or_gt ‖x‖ t with h | h
  · rw [softEntry_of_le h]; simp [h]
  · have hx : x ≠ 0 := by rintro rfl; simp at h; linarith
    have hp : 0 < ‖x‖ := norm_pos_iff.mpr hx
    rw [softEntry_of_lt h hx, norm_mul, RCLike.norm_ofReal, abs_of_nonneg
      (div_nonneg (by linarith) hp.le), max_eq_left (by linarith)]
    field_simp

/-- The residual `x - soft x` is a subgradient of `t‖·‖` at `soft x`. -/
theorem softEntry_residual {x : 𝕜} {t : ℝ} (ht : 0 ≤ t) :
    ‖x - softEntry x t‖ ≤ t ∧
      re (inner 𝕜 (x - softEntry x t) (softEntry x t)) = t * ‖softEntry x t‖ := by
  rcases le_or_gt ‖x‖ t with h | h
  · rw [softEntry_of_le h]; simp [h]
  · have hx : x ≠ 0 := by rintro rfl; simp at h; linarith
    have hp : 0 < ‖x‖ := norm_pos_iff.mpr hx
    have hpk : ((‖x‖ : ℝ) : 𝕜) ≠ 0 := by exact_mod_cast hp.ne'
    have hg : x - softEntry x t = ((t / ‖x‖ : ℝ) : 𝕜) * x := by
      rw [softEntry_of_lt h hx]; push_cast; field_simp; ring
    refine ⟨?_, ?_⟩
    · rw [hg, norm_mul, RCLike.norm_ofReal, abs_of_nonneg (div_nonneg ht hp.le)]
      field_simp; exact le_rfl
    · rw [hg, norm_softEntry ht, max_eq_left (by linarith), softEntry_of_lt h hx]
      have : re (inner 𝕜 (((t / ‖x‖ : ℝ) : 𝕜) * x) ((((‖x‖ - t) / ‖x‖ : ℝ) : 𝕜) * x))
          = (t / ‖x‖) * ((‖x‖ - t) / ‖x‖) * ‖x‖ ^ 2 := by
        have e1 : ((t / ‖x‖ : ℝ) : 𝕜) * x = ((t / ‖x‖ : ℝ) : 𝕜) • x := rfl
        have e2 : (((‖x‖ - t) / ‖x‖ : ℝ) : 𝕜) * x = (((‖x‖ - t) / ‖x‖ : ℝ) : 𝕜) • x := rfl
        rw [e1, e2, inner_smul_left, inner_smul_right, RCLike.conj_ofReal, ← mul_assoc,
          ← RCLike.ofReal_mul, RCLike.re_ofReal_mul, inner_self_eq_norm_sq]
      rw [this]; field_simp

/-- Strong-convexity form of the proximal inequality for one entry. -/
theorem softEntry_prox (x u : 𝕜) {t : ℝ} (ht : 0 ≤ t) :
    ‖softEntry x t - x‖ ^ 2 / 2 + t * ‖softEntry x t‖ + ‖u - softEntry x t‖ ^ 2 / 2
      ≤ ‖u - x‖ ^ 2 / 2 + t * ‖u‖ := by
  obtain ⟨h1, h2⟩ := softEntry_residual (x := x) ht
  set p := softEntry x t
  have hu : re (inner 𝕜 (x - p) u) ≤ t * ‖u‖ :=
    (re_inner_le_norm _ _).trans (mul_le_mul_of_nonneg_right h1 (norm_nonneg _))
  have e : ‖u - x‖ ^ 2 = ‖u - p‖ ^ 2 - 2 * re (inner 𝕜 (x - p) (u - p)) + ‖p - x‖ ^ 2 := by
    have := norm_sub_sq (𝕜 := 𝕜) (x - p) (u - p)
    rw [show x - p - (u - p) = x - u by ring] at this
    rw [norm_sub_rev u x, this, norm_sub_rev p x]; ring
  rw [inner_sub_right, map_sub] at e
  rw [e]; linarith

/-- Firm non-expansiveness for one entry. -/
theorem softEntry_firm (x y : 𝕜) {t : ℝ} (ht : 0 ≤ t) :
    ‖softEntry x t - softEntry y t‖ ^ 2 ≤
      re (inner 𝕜 (softEntry x t - softEntry y t) (x - y)) := by
  obtain ⟨hx1, hx2⟩ := softEntry_residual (x := x) ht
  obtain ⟨hy1, hy2⟩ := softEntry_residual (x := y) ht
  set p := softEntry x t
  set q := softEntry y t
  have a1 : re (inner 𝕜 (x - p) q) ≤ t * ‖q‖ :=
    (re_inner_le_norm _ _).trans (mul_le_mul_of_nonneg_right hx1 (norm_nonneg _))
  have a2 : re (inner 𝕜 (y - q) p) ≤ t * ‖p‖ :=
    (re_inner_le_norm _ _).trans (mul_le_mul_of_nonneg_right hy1 (norm_nonneg _))
  -- 0 ≤ re ⟪(x-p)-(y-q), p-q⟫
  have key : 0 ≤ re (inner 𝕜 ((x - p) - (y - q)) (p - q)) := by
    rw [inner_sub_left, inner_sub_right, inner_sub_right]
    simp only [map_sub]
    linarith
  have e : (x - p) - (y - q) = (x - y) - (p - q) := by ring
  rw [e, inner_sub_left, map_sub, inner_self_eq_norm_sq] at key
  have := inner_re_symm (𝕜 := 𝕜) (p - q) (x - y)
  linarith

end Pxmcmc
