import Verif.Model.UtilsArrays

/-! # Lemmas about fixed-length blocks of lists -/

namespace Pxmcmc

variable {α : Type _}

theorem slice_block (l : List α) (v i : ℕ) : slice l (i * v) ((i + 1) * v) = (l.drop (i * v)).take v := by
  unfold slice
  rw [List.drop_take]
  congr 1
  rw [Nat.add_mul]; omega

theorem block_flatten (v : ℕ) : ∀ (Ls : List (List α)) (_ : ∀ l ∈ Ls, l.length = v) (i : ℕ)
    (hi : i < Ls.length), ((Ls.flatten).drop (i * v)).take v = Ls[i]
  | [], _, i, hi => by simp at hi
  | l :: Ls, h, 0, _ => by
    have hl : l.length = v := h l (by simp)
    simp [← hl]
  | l :: Ls, h, i + 1, hi => by
    have hl : l.length = v := h l (by simp)
    have ih := block_flatten v Ls (fun x hx => h x (by simp [hx])) i (by simpa using hi)
    have e : (i + 1) * v = l.length + i * v := by rw [hl]; ring
    rw [List.flatten_cons, e, ← List.drop_drop, List.drop_left]
    simpa using ih

theorem flatMap_blocks (v : ℕ) (l : List α) (S : ℕ) :
    ((List.range S).flatMap fun i => (l.drop (i * v)).take v) = l.take (S * v) := by
  induction S with
  | zero => simp
  | succ S ih =>
    rw [List.range_succ, List.flatMap_append, ih, Nat.add_mul, one_mul, List.take_add]
    simp

theorem ravelF_eq_flatten (a : Arr2 α) :
    a.ravelF = ((List.finRange a.cols).map fun j => (List.finRange a.rows).map fun i => a.get i j).flatten := by
  unfold Arr2.ravelF
  rw [List.flatMap_def]

theorem length_flatten_const (v : ℕ) (Ls : List (List α)) (h : ∀ l ∈ Ls, l.length = v) :
    Ls.flatten.length = Ls.length * v := by
  induction Ls with
  | nil => simp
  | cons l Ls ih =>
    rw [List.flatten_cons, List.length_append, ih (fun x hx => h x (by simp [hx])), h l (by simp)]
    simp; ring

theorem map_getD_finRange [Zero α] (v : ℕ) (l : List α) (h : l.length = v) :
    ((List.finRange v).map fun r : Fin v => l.getD r.val 0) = l := by
  subst h
  apply List.ext_getElem
  · simp
  · intro i h1 h2
    simp [List.getD]

theorem map_finRange_eq_range {β : Type _} (S : ℕ) (f : ℕ → β) :
    (List.finRange S).map (fun i => f i.val) = (List.range S).map f := by
  apply List.ext_getElem <;> simp

/-- The columns of an array, preceded by the scaling coefficients, as blocks of `flattenMlm`. -/
theorem flatten_eq (a : Arr2 α) (scal : List α) : flattenMlm (.d2 a) scal =
    (scal :: (List.finRange a.cols).map fun j => (List.finRange a.rows).map fun i => a.get i j).flatten := by
  simp [flattenMlm, WavArr.ravelF, ravelF_eq_flatten]

theorem mlmColumn_flatten (v S : ℕ) (f : Fin v → Fin S → α) (scal : List α) (h : scal.length = v)
    (c : Fin S) : mlmColumn (flattenMlm (.d2 ⟨v, S, f⟩) scal) v c = (List.finRange v).map fun r => f r c := by
  unfold mlmColumn
  rw [slice_block, flatten_eq, block_flatten]
  · simp
  · intro l hl
    simp at hl
    rcases hl with rfl | ⟨j, rfl⟩
    · exact h
    · simp
  · simp

theorem flattenMlm_length (v S : ℕ) (f : Fin v → Fin S → α) (scal : List α) (h : scal.length = v) :
    (flattenMlm (.d2 ⟨v, S, f⟩) scal).length = (S + 1) * v := by
  rw [flatten_eq, length_flatten_const v]
  · simp
  · intro l hl
    simp at hl
    rcases hl with rfl | ⟨j, rfl⟩
    · exact h
    · simp

theorem mlmColumn_length (mlm : List α) (v S i : ℕ) (h : (S + 1) * v ≤ mlm.length) (hi : i < S) :
    (mlmColumn mlm v i).length = v := by
  unfold mlmColumn
  rw [slice_block]
  simp
  have : (i + 1) * v + v ≤ (S + 1) * v := by
    rw [← Nat.succ_mul]; exact Nat.mul_le_mul_right v (by omega)
  omega

theorem ravelF_expand [Zero α] (mlm : List α) (v S : ℕ) (h : (S + 1) * v ≤ mlm.length) :
    slice mlm 0 v ++ (Arr2.ravelF ⟨v, S, fun r c => (mlmColumn mlm v c).getD r 0⟩) =
      mlm.take ((S + 1) * v) := by
  have e : (Arr2.ravelF ⟨v, S, fun r c => (mlmColumn mlm v c).getD r 0⟩ : List α) =
      (List.range S).flatMap fun i => ((mlm.drop v).drop (i * v)).take v := by
    unfold Arr2.ravelF
    rw [List.flatMap_def, List.flatMap_def, ← map_finRange_eq_range]
    congr 1
    apply List.map_congr_left
    intro c _
    show ((List.finRange v).map fun r : Fin v => (mlmColumn mlm v c).getD r.val 0) = _
    rw [map_getD_finRange v _ (mlmColumn_length mlm v S c h c.2)]
    unfold mlmColumn
    rw [slice_block, List.drop_drop]
    congr 2
    ring
  rw [e, flatMap_blocks]
  have : slice mlm 0 v = mlm.take v := by simp [slice]
  rw [this, Nat.add_mul, one_mul, Nat.add_comm, List.take_add]

end Pxmcmc
