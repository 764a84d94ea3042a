import Verif.Props.Plotting
import Verif.Props.Reader
import Mathlib.Analysis.Complex.Cardinality

/-!
# Concrete cases for C75–C78
-/

namespace Pxmcmc

theorem exists_code : ∃ e : List ℂ → ℝ, Function.Injective e := by
  have h : Cardinal.mk (List ℂ) ≤ Cardinal.mk ℝ := by
    rw [Cardinal.mk_list_eq_mk, Cardinal.mk_complex, Cardinal.mk_real]
  obtain ⟨f⟩ := h
  exact ⟨f, f.injective⟩

theorem realCoefs_zero (k : ℕ) : RealCoefs (List.replicate k 0) := by
  have h0 : RealCoefs [] := by
    intro l m hm h
    simp at h
  have := h0.pad 0 k rfl
  simpa using this

/-- A map of bandlimit `L` that stores a list of coefficients. -/
noncomputable def codeMap (e : List ℂ → ℝ) (c : List ℂ) (L : ℕ) : NdArr Pixel :=
  ⟨[L, 2 * L - 1], List.replicate (L * (2 * L - 1)) (some (e c))⟩

open Classical in
/-- The hypothesis of C75 can be met: a transform pair that is exact on the coefficients of real signals. -/
noncomputable def codeSsht (e : List ℂ → ℝ) : PlotSsht where
  forward f L := if h : ∃ c, c.length = L ^ 2 ∧ RealCoefs c ∧ f = codeMap e c L then .ok h.choose
    else .ok (List.replicate (L ^ 2) 0)
  inverse c L := .ok (codeMap e c L)

theorem codeSsht_exact (e : List ℂ → ℝ) (he : Function.Injective e) : (codeSsht e).Exact := by
  constructor
  · intro f L _ _ _
    by_cases h : ∃ c, c.length = L ^ 2 ∧ RealCoefs c ∧ f = codeMap e c L
    · exact ⟨h.choose, by simp only [codeSsht, dif_pos h], h.choose_spec.1, h.choose_spec.2.1⟩
    · exact ⟨List.replicate (L ^ 2) 0, by simp only [codeSsht, dif_neg h], by simp, realCoefs_zero _⟩
  · intro c L hc hr
    refine ⟨codeMap e c L, rfl, rfl, by simp [NdArr.WF, codeMap], by simp [codeMap, List.mem_replicate], ?_⟩
    have h : ∃ c', c'.length = L ^ 2 ∧ RealCoefs c' ∧ codeMap e c L = codeMap e c' L := ⟨c, hc, hr, rfl⟩
    have h1 : h.choose = c := by
      obtain ⟨s1, -, s3⟩ := h.choose_spec
      rcases Nat.eq_zero_or_pos L with rfl | hL
      · have t1 : h.choose = [] := List.length_eq_zero_iff.mp (by simpa using s1)
        have t2 : c = [] := List.length_eq_zero_iff.mp (by simpa using hc)
        exact t1.trans t2.symm
      · have h2 := congrArg NdArr.data s3
        simp only [codeMap] at h2
        have hp : 0 < L * (2 * L - 1) := Nat.mul_pos hL (by omega)
        rw [List.replicate_inj] at h2
        rcases h2.2 with h0 | h0
        · omega
        · exact (he (Option.some.inj h0)).symm
    simp only [codeSsht, dif_pos h]
    rw [h1]

/-- C75 applied to a map with bandlimit 2. -/
example : ∃ S : PlotSsht, S.Exact ∧ ∃ fig, (plotMap S (fun _ => some ⟨[2, 3], List.replicate 6 (some 1)⟩) 0 1
    ⟨none, none, none, true, false, none⟩).2 = .ok fig ∧ fig.data.shape = [256, 511] := by
  obtain ⟨e, he⟩ := exists_code
  obtain ⟨fig, c, h1, -, -, h2, -⟩ := C75_oversample_partial (codeSsht e) (codeSsht_exact e he)
    (fun _ => some ⟨[2, 3], List.replicate 6 (some 1)⟩) 0 1 ⟨none, none, none, true, false, none⟩ rfl rfl rfl _ rfl 2 (by omega) rfl
    (by simp) rfl
  exact ⟨_, codeSsht_exact e he, fig, h1, h2⟩

/-- C77: two equal maxima. -/
example : ∃ idx, mapIndices [-3, -1, -2, -1] = .ok idx ∧ 1 ∈ idx ∧ 3 ∈ idx := by
  obtain ⟨idx, h1, -, -, h2⟩ := C77_map_indices [-3, -1, -2, -1] (by simp)
  refine ⟨idx, h1, (h2 1).mpr ⟨by simp, ?_⟩, (h2 3).mpr ⟨by simp, ?_⟩⟩ <;>
    (intro y hy; simp at hy; rcases hy with rfl | rfl | rfl | rfl <;> norm_num)

/-- C78: the last realisation and redshift. -/
example : scriptChecks 13 107 66 = .ok () := (C78_checks_partial 13 107 66 (.inr rfl)).mpr (by norm_num)

end Pxmcmc
