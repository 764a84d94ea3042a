import Verif.Py
import Mathlib.Data.List.Forall2

/-! # Lemmas about the Python fragments -/

namespace Pxmcmc

theorem mapM_ok_iff {β γ : Type} (f : β → Py γ) : ∀ (l : List β) (r : List γ),
    l.mapM f = .ok r ↔ List.Forall₂ (fun a b => f a = .ok b) l r
  | [], r => by
    simp only [List.mapM_nil, pure, Except.pure, Except.ok.injEq]
    constructor
    · rintro rfl; exact .nil
    · intro h; cases h; rfl
  | a :: l, r => by
    rw [List.mapM_cons]
    cases ha : f a with
    | error e =>
      simp only [bind, Except.bind, reduceCtorEq, false_iff]
      intro h; cases h with
      | cons h1 _ => rw [ha] at h1; cases h1
    | ok b =>
      cases hl : l.mapM f with
      | error e =>
        simp only [bind, Except.bind, reduceCtorEq, false_iff]
        intro h; cases h with
        | cons h1 h2 =>
          have := (mapM_ok_iff f l _).mpr h2
          rw [hl] at this; cases this
      | ok bs =>
        simp only [bind, Except.bind, pure, Except.pure, Except.ok.injEq]
        constructor
        · rintro rfl; exact .cons ha ((mapM_ok_iff f l _).mp hl)
        · intro h; cases h with
          | cons h1 h2 =>
            rw [ha] at h1; injection h1 with h1
            have := (mapM_ok_iff f l _).mpr h2
            rw [hl] at this; injection this with h3
            rw [h1, h3]

theorem mapM_error_of_mem {β γ : Type} (f : β → Py γ) (l : List β) (a : β) (ha : a ∈ l) (e : PyErr)
    (he : f a = .error e) : ∃ e', l.mapM f = .error e' := by
  cases h : l.mapM f with
  | error e' => exact ⟨e', rfl⟩
  | ok r =>
    have := (mapM_ok_iff f l r).mp h
    exfalso
    clear h
    induction this with
    | nil => simp at ha
    | cons h1 h2 ih =>
      rcases List.mem_cons.mp ha with rfl | h3
      · rw [he] at h1; cases h1
      · exact ih h3

end Pxmcmc
