import Verif.Lemmas.Soft
import Mathlib.Data.List.OfFn
import Mathlib.Data.Fintype.Fin
import Mathlib.Algebra.BigOperators.Fin

/-! # Lemmas on list arrays -/

namespace Pxmcmc

theorem bcast_singleton {α β : Type _} (x : List α) (b : β) :
    bcast x [b] = .ok (x.map fun a => (a, b)) := by
  unfold bcast
  split
  · rename_i h
    match x, h with
    | [a], _ => rfl
  · rfl

theorem bcast_eq {α β : Type _} (x : List α) (y : List β) (h : x.length = y.length) :
    bcast x y = .ok (x.zip y) := by
  unfold bcast; rw [if_pos h]

theorem zip_ofFn {α β : Type _} {n : ℕ} (f : Fin n → α) (g : Fin n → β) :
    (List.ofFn f).zip (List.ofFn g) = List.ofFn fun i => (f i, g i) := by
  apply List.ext_getElem <;> simp

theorem map_ofFn' {α β : Type _} {n : ℕ} (f : Fin n → α) (g : α → β) :
    (List.ofFn f).map g = List.ofFn fun i => g (f i) := by
  simp [List.map_ofFn, Function.comp_def]

variable {𝕜 : Type} [RCLike 𝕜]

theorem soft_vector {n : ℕ} (X : Fin n → 𝕜) (T : Fin n → ℝ) :
    soft (List.ofFn X) (.vector (List.ofFn T)) = .ok (List.ofFn fun i => softEntry (X i) (T i)) := by
  unfold soft Thresh.arr
  rw [bcast_eq _ _ (by simp), zip_ofFn]
  show Except.ok _ = _
  rw [map_ofFn']

theorem soft_scalar_list (X : List 𝕜) (t : ℝ) :
    soft X (.scalar t) = .ok (X.map fun x => softEntry x t) := by
  unfold soft Thresh.arr
  rw [bcast_singleton]
  show Except.ok _ = _
  simp [Function.comp_def]

theorem soft_scalar {n : ℕ} (X : Fin n → 𝕜) (t : ℝ) :
    soft (List.ofFn X) (.scalar t) = .ok (List.ofFn fun i => softEntry (X i) t) := by
  rw [soft_scalar_list, map_ofFn']

/-- The vector of entrywise thresholds is the proximal point of the weighted l1 norm. -/
theorem softEntry_isProx {n : ℕ} (X : Fin n → 𝕜) (T : Fin n → ℝ) (hT : ∀ i, 0 ≤ T i) :
    Spec.IsProx (Spec.wl1 T) X (fun i => softEntry (X i) (T i)) := by
  intro u hu
  unfold Spec.distSq Spec.wl1
  have hall := fun i => softEntry_prox (X i) (u i) (hT i)
  obtain ⟨j, hj⟩ := Function.ne_iff.mp hu
  have hpos : 0 < ‖u j - softEntry (X j) (T j)‖ ^ 2 / 2 := by
    have : 0 < ‖u j - softEntry (X j) (T j)‖ := norm_pos_iff.mpr (sub_ne_zero.mpr hj)
    positivity
  have hlt : ∑ i, (‖softEntry (X i) (T i) - X i‖ ^ 2 / 2 + T i * ‖softEntry (X i) (T i)‖)
      < ∑ i, (‖u i - X i‖ ^ 2 / 2 + T i * ‖u i‖) := by
    apply Finset.sum_lt_sum
    · intro i _
      have := hall i
      have h2 : 0 ≤ ‖u i - softEntry (X i) (T i)‖ ^ 2 / 2 := by positivity
      linarith
    · exact ⟨j, Finset.mem_univ j, by have := hall j; linarith⟩
  rw [Finset.sum_add_distrib, Finset.sum_add_distrib] at hlt
  rw [Finset.sum_div, Finset.sum_div]
  exact hlt

/-! ### Counting above an order statistic -/

theorem length_sub_le_countP_of_sorted {s : List ℝ} (hs : s.Pairwise (· ≤ ·)) {i : ℕ}
    (hi : i < s.length) : s.length - i ≤ s.countP (fun a => decide (s[i] ≤ a)) := by
  have h1 : (s.drop i).countP (fun a => decide (s[i] ≤ a)) = (s.drop i).length := by
    rw [List.countP_eq_length]
    intro a ha
    obtain ⟨j, hj, rfl⟩ := List.getElem_of_mem ha
    simp only [List.getElem_drop, decide_eq_true_eq]
    rcases Nat.eq_zero_or_pos j with rfl | hj0
    · simp
    · exact List.pairwise_iff_getElem.mp hs i (i + j) hi (by simp at hj; omega) (by omega)
  calc s.length - i = (s.drop i).countP (fun a => decide (s[i] ≤ a)) := by simp [h1]
    _ ≤ s.countP (fun a => decide (s[i] ≤ a)) := (List.drop_sublist i s).countP_le

theorem countP_of_strictSorted {s : List ℝ} (hs : s.Pairwise (· < ·)) {i : ℕ}
    (hi : i < s.length) : s.countP (fun a => decide (s[i] ≤ a)) = s.length - i := by
  apply le_antisymm _ (length_sub_le_countP_of_sorted (hs.imp le_of_lt) hi)
  have h0 : (s.take i).countP (fun a => decide (s[i] ≤ a)) = 0 := by
    rw [List.countP_eq_zero]
    intro a ha
    obtain ⟨j, hj, rfl⟩ := List.getElem_of_mem ha
    simp only [List.getElem_take, decide_eq_true_eq, not_le]
    exact List.pairwise_iff_getElem.mp hs j i (by simp at hj; omega) hi (by simp at hj; omega)
  have := List.countP_append (p := fun a => decide (s[i] ≤ a)) (l₁ := s.take i) (l₂ := s.drop i)
  rw [List.take_append_drop] at this
  rw [this, h0, zero_add]
  calc _ ≤ (s.drop i).length := List.countP_le_length
    _ = _ := by simp

theorem npSort_perm (l : List ℝ) : (npSort l).Perm l := List.perm_insertionSort _ _

theorem npSort_sorted (l : List ℝ) : (npSort l).Pairwise (· ≤ ·) :=
  List.pairwise_insertionSort _ _

theorem npSort_length (l : List ℝ) : (npSort l).length = l.length := (npSort_perm l).length_eq

theorem pyGet_neg {α : Type _} (l : List α) (k : ℕ) (hk : 1 ≤ k) (hk' : k ≤ l.length) :
    pyGet l (-(k : ℤ)) = .ok (l[l.length - k]'(by omega)) := by
  unfold pyGet
  have h1 : (-(k : ℤ)) < 0 := by omega
  simp only [h1, if_true]
  rw [if_pos (by omega)]
  have : ((l.length : ℤ) + -(k : ℤ)).toNat = l.length - k := by omega
  rw [this, List.getElem?_eq_getElem (by omega)]

theorem countP_ofFn {α : Type _} {n : ℕ} (f : Fin n → α) (p : α → Prop) [DecidablePred p] :
    (List.ofFn f).countP (fun a => decide (p a)) = (Finset.univ.filter fun i => p (f i)).card := by
  rw [List.ofFn_eq_map, List.countP_map, Finset.card_def]
  simp only [Finset.filter_val, Finset.univ, Fintype.elems, ← Multiset.countP_eq_card_filter]
  simp [Function.comp_def, Multiset.coe_countP]

end Pxmcmc
