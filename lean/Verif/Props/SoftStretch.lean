import Verif.Props.Threshold

/-! # Property C02, arrays of length one: `soft` follows the broadcasting of NumPy -/

namespace Pxmcmc

variable {𝕜 : Type} [RCLike 𝕜] {n : ℕ}

/-- C02: an array of one threshold is used for every entry. -/
theorem C02_soft_one_threshold (X : Fin n → 𝕜) (t : ℝ) (ht : 0 ≤ t) :
    ∃ p : Fin n → 𝕜, soft (List.ofFn X) (.vector [t]) = .ok (List.ofFn p) ∧
      ∀ i, (‖X i‖ ≤ t → p i = 0) ∧ (t < ‖X i‖ → ‖p i‖ = ‖X i‖ - t ∧ ∃ c : ℝ, 0 < c ∧ p i = (c : 𝕜) * X i) := by
  obtain ⟨p, h1, h2⟩ := C02_soft_pointwise X (fun _ => t) fun _ => ht
  rw [← C02_soft_scalar_eq_vector] at h1
  exact ⟨p, h1, h2⟩

/-- C02: a single entry with an array of thresholds is compared with each of them, so the result is as long as the array of thresholds. -/
theorem C02_soft_one_entry (x : 𝕜) (T : Fin n → ℝ) (hT : ∀ i, 0 ≤ T i) :
    ∃ p : Fin n → 𝕜, soft [x] (.vector (List.ofFn T)) = .ok (List.ofFn p) ∧
      ∀ i, (‖x‖ ≤ T i → p i = 0) ∧ (T i < ‖x‖ → ‖p i‖ = ‖x‖ - T i ∧ ∃ c : ℝ, 0 < c ∧ p i = (c : 𝕜) * x) := by
  obtain ⟨p, h1, h2⟩ := C02_soft_pointwise (fun _ : Fin n => x) T hT
  refine ⟨p, ?_, h2⟩
  rw [← h1]
  by_cases hn : n = 1
  · subst hn
    simp
  · have e : bcast [x] (List.ofFn T) = bcast (List.ofFn fun _ : Fin n => x) (List.ofFn T) := by
      have e1 : bcast [x] (List.ofFn T) = .ok ((List.ofFn T).map fun b => (x, b)) := by
        unfold bcast
        rw [if_neg (by simpa using Ne.symm hn)]
        have hl : (List.ofFn T).length ≠ 1 := by simpa using hn
        generalize List.ofFn T = ts at *
        match ts, hl with
        | [], _ => rfl
        | [_], h => exact absurd rfl h
        | _ :: _ :: _, _ => rfl
      rw [e1]
      unfold bcast
      rw [if_pos (by simp)]
      congr 1
      apply List.ext_getElem <;> simp
    show (bcast [x] (List.ofFn T) >>= _) = (bcast (List.ofFn fun _ : Fin n => x) (List.ofFn T) >>= _)
    rw [e]

/-- One entry and three thresholds. -/
example : ∃ p : Fin 3 → ℝ, soft [(5 : ℝ)] (.vector (List.ofFn ![1, 5, 7])) = .ok (List.ofFn p) ∧ ‖p 0‖ = 4 ∧ p 1 = 0 ∧ p 2 = 0 := by
  obtain ⟨p, h, hp⟩ := C02_soft_one_entry (5 : ℝ) ![1, 5, 7] (fun i => by fin_cases i <;> norm_num)
  refine ⟨p, h, ?_, (hp 1).1 (by norm_num), (hp 2).1 (by show ‖(5 : ℝ)‖ ≤ (7 : ℝ); norm_num)⟩
  rw [((hp 0).2 (by norm_num)).1]
  norm_num

/-- Two entries and an array of one threshold. -/
example : ∃ p : Fin 2 → ℝ, soft (List.ofFn ![3, -1]) (.vector [2]) = .ok (List.ofFn p) ∧ ‖p 0‖ = 1 ∧ p 1 = 0 := by
  obtain ⟨p, h, hp⟩ := C02_soft_one_threshold (![3, -1] : Fin 2 → ℝ) 2 (by norm_num)
  refine ⟨p, h, ?_, (hp 1).1 (by norm_num)⟩
  rw [((hp 0).2 (by norm_num)).1]
  norm_num

end Pxmcmc
