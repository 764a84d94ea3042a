import Verif.Model.Uncertainty
import Verif.Lemmas.PyLemmas
import Mathlib.Tactic.Linarith
import Mathlib.Tactic.Ring
import Mathlib.Tactic.FieldSimp
import Mathlib.Data.List.Sort

/-! # Lemmas on `np.quantile` -/

namespace Pxmcmc

/-- `clamp x = min 1 (max 0 x)`. -/
noncomputable def clamp01 (x : ℝ) : ℝ := min 1 (max 0 x)

theorem clamp01_mono {x y : ℝ} (h : x ≤ y) : clamp01 x ≤ clamp01 y := min_le_min le_rfl (max_le_max le_rfl h)
theorem clamp01_nonneg (x : ℝ) : 0 ≤ clamp01 x := le_min zero_le_one (le_max_left _ _)
theorem clamp01_le_one (x : ℝ) : clamp01 x ≤ 1 := min_le_left _ _
theorem clamp01_of_one_le {x : ℝ} (h : 1 ≤ x) : clamp01 x = 1 := min_eq_left (h.trans (le_max_right _ _))
theorem clamp01_of_nonpos {x : ℝ} (h : x ≤ 0) : clamp01 x = 0 := by
  rw [clamp01, max_eq_left h]; exact min_eq_right zero_le_one
theorem clamp01_of_mem {x : ℝ} (h0 : 0 ≤ x) (h1 : x ≤ 1) : clamp01 x = x := by
  rw [clamp01, max_eq_right h0, min_eq_right h1]
theorem clamp01_one_sub (x : ℝ) : clamp01 (1 - x) = 1 - clamp01 x := by
  rcases le_total x 0 with h | h
  · rw [clamp01_of_nonpos h, clamp01_of_one_le (by linarith)]; ring
  · rcases le_total x 1 with h1 | h1
    · rw [clamp01_of_mem h h1, clamp01_of_mem (by linarith) (by linarith)]
    · rw [clamp01_of_one_le h1, clamp01_of_nonpos (by linarith)]; ring

/-- Piecewise linear interpolation of `f 0, …, f N` at position `h`. -/
noncomputable def tele (f : ℕ → ℝ) (N : ℕ) (h : ℝ) : ℝ :=
  f 0 + ∑ i ∈ Finset.range N, (f (i + 1) - f i) * clamp01 (h - i)

theorem tele_last (f : ℕ → ℝ) (N : ℕ) (h : ℝ) (hh : (N : ℝ) ≤ h) : tele f N h = f N := by
  unfold tele
  have : ∀ i ∈ Finset.range N, (f (i + 1) - f i) * clamp01 (h - i) = f (i + 1) - f i := by
    intro i hi
    have : (i : ℝ) + 1 ≤ N := by exact_mod_cast Finset.mem_range.mp hi
    rw [clamp01_of_one_le (by linarith), mul_one]
  rw [Finset.sum_congr rfl this, Finset.sum_range_sub]
  ring

theorem tele_mid (f : ℕ → ℝ) (N j : ℕ) (h : ℝ) (hj : j < N) (h0 : (j : ℝ) ≤ h) (h1 : h ≤ j + 1) :
    tele f N h = f j + (f (j + 1) - f j) * (h - j) := by
  have e1 : tele f (j + 1) h = f j + (f (j + 1) - f j) * (h - j) := by
    have := tele_last f j h h0
    unfold tele at this ⊢
    rw [Finset.sum_range_succ, ← add_assoc, this, clamp01_of_mem (by linarith) (by linarith)]
  rw [← e1]
  obtain ⟨k, rfl⟩ : ∃ k, N = j + 1 + k := ⟨N - (j + 1), by omega⟩
  unfold tele
  rw [Finset.sum_range_add]
  have : ∀ i ∈ Finset.range k, (f (j + 1 + i + 1) - f (j + 1 + i)) * clamp01 (h - ((j + 1 + i : ℕ) : ℝ)) = 0 := by
    intro i _
    push_cast
    rw [clamp01_of_nonpos (by have : (0 : ℝ) ≤ i := Nat.cast_nonneg i; linarith), mul_zero]
  rw [Finset.sum_congr rfl this, Finset.sum_const_zero, add_zero]

theorem tele_mono (f : ℕ → ℝ) (N : ℕ) (hf : ∀ i < N, f i ≤ f (i + 1)) {h h' : ℝ} (hh : h ≤ h') :
    tele f N h ≤ tele f N h' := by
  unfold tele
  refine add_le_add le_rfl (Finset.sum_le_sum fun i hi => ?_)
  exact mul_le_mul_of_nonneg_left (clamp01_mono (by linarith))
    (sub_nonneg.mpr (hf i (Finset.mem_range.mp hi)))

theorem tele_zero (f : ℕ → ℝ) (N : ℕ) : tele f N 0 = f 0 := by
  unfold tele
  have : ∀ i ∈ Finset.range N, (f (i + 1) - f i) * clamp01 (0 - (i : ℝ)) = 0 := by
    intro i _
    rw [clamp01_of_nonpos (by have : (0 : ℝ) ≤ i := Nat.cast_nonneg i; linarith), mul_zero]
  rw [Finset.sum_congr rfl this, Finset.sum_const_zero, add_zero]

/-- Reading the sample backwards with changed sign. -/
theorem tele_neg (f : ℕ → ℝ) (N : ℕ) (h : ℝ) : tele (fun i => -f (N - i)) N (N - h) = -tele f N h := by
  unfold tele
  beta_reduce
  rw [Nat.sub_zero, ← Finset.sum_range_reflect]
  have : ∀ i ∈ Finset.range N, (-f (N - (N - 1 - i + 1)) - -f (N - (N - 1 - i))) * clamp01 (N - h - ((N - 1 - i : ℕ) : ℝ)) =
      (f (i + 1) - f i) - (f (i + 1) - f i) * clamp01 (h - i) := by
    intro i hi
    have hi := Finset.mem_range.mp hi
    have a1 : N - (N - 1 - i + 1) = i := by omega
    have a2 : N - (N - 1 - i) = i + 1 := by omega
    have a3 : (N : ℝ) - h - ((N - 1 - i : ℕ) : ℝ) = 1 - (h - i) := by
      rw [Nat.cast_sub (by omega), Nat.cast_sub (by omega)]
      push_cast
      ring
    rw [a1, a2, a3, clamp01_one_sub]
    ring
  rw [Finset.sum_congr rfl this, Finset.sum_sub_distrib, Finset.sum_range_sub]
  ring

section
variable {K K' : Type} [AddCommGroup K] [Module ℝ K] [AddCommGroup K'] [Module ℝ K']

theorem npLerp_eq (a b : K) (t : ℝ) : npLerp a b t = a + t • (b - a) := by
  unfold npLerp
  split
  · rw [sub_smul, one_smul]; abel
  · rfl

/-- What `npQuantile` does with the sorted sample. -/
noncomputable def sortedQuantile (s : List K) (q : ℝ) : Py K := do
  let n : ℝ := (s.length : ℝ) - 1
  let v := n * q
  let i : ℤ := if n ≤ v then -1 else ⌊v⌋
  let j : ℤ := if n ≤ v then -1 else ⌊v⌋ + 1
  let a ← pyGet s i
  let b ← pyGet s j
  return npLerp a b (v - i)

theorem npQuantile_eq (le : K → K → Prop) [DecidableRel le] (xs : List K) (q : ℝ) (h0 : 0 ≤ q) (h1 : q ≤ 1) :
    npQuantile le xs q = sortedQuantile (xs.insertionSort le) q := by
  unfold npQuantile sortedQuantile
  rw [if_neg (by push Not; exact ⟨h0, h1⟩)]

theorem npQuantile_bad (le : K → K → Prop) [DecidableRel le] (xs : List K) (q : ℝ) (h : ¬ (0 ≤ q ∧ q ≤ 1)) :
    npQuantile le xs q = .error .ValueError := by
  unfold npQuantile
  rw [if_pos h]
  rfl

theorem pyGet_map {α β : Type} (f : α → β) (l : List α) (k : ℤ) : pyGet (l.map f) k = (pyGet l k).map f := by
  unfold pyGet
  simp only [List.length_map, List.getElem?_map]
  generalize (if k < 0 then (l.length : ℤ) + k else k) = i
  by_cases h : 0 ≤ i
  · rw [if_pos h, if_pos h]
    cases l[i.toNat]? <;> rfl
  · rw [if_neg h, if_neg h]
    rfl

/-- Quantiles commute with affine maps of the sorted sample. -/
theorem sortedQuantile_map (f : K → K') (hf : ∀ (a b : K) (t : ℝ), f (a + t • (b - a)) = f a + t • (f b - f a)) (s : List K) (q : ℝ) :
    sortedQuantile (s.map f) q = (sortedQuantile s q).map f := by
  unfold sortedQuantile
  simp only [List.length_map, pyGet_map]
  generalize pyGet s _ = a
  cases a with
  | error e => rfl
  | ok a =>
    simp only [Except.map, bind, Except.bind]
    generalize pyGet s _ = b
    cases b with
    | error e => rfl
    | ok b =>
      simp only [npLerp_eq]
      show Except.ok _ = Except.ok _
      rw [hf]

end

theorem getD_lt {α : Type} {l : List α} {i : ℕ} {d : α} (h : i < l.length) : l.getD i d = l[i] := by
  simp [h]

theorem pyGet_last {α : Type} (s : List α) (h : s ≠ []) : pyGet s (-1) = .ok (s.getLast h) := by
  have hl := List.length_pos_iff.mpr h
  unfold pyGet
  have e : ((s.length : ℤ) + -1).toNat = s.length - 1 := by omega
  simp only [show (-1 : ℤ) < 0 by decide, if_true, e]
  rw [if_pos (by omega), List.getElem?_eq_getElem (by omega)]
  simp [List.getLast_eq_getElem]

theorem pyGet_nat_lt {α : Type} (s : List α) (i : ℕ) (h : i < s.length) : pyGet s i = .ok s[i] := by
  unfold pyGet
  have h1 : ¬ ((i : ℤ) < 0) := by omega
  simp only [h1, if_false, Int.toNat_natCast, List.getElem?_eq_getElem h]
  rw [if_pos (by omega)]

/-- The quantile of a non-empty real sample is the interpolation of its order statistics. -/
theorem sortedQuantile_real (s : List ℝ) (N : ℕ) (hN : s.length = N + 1) (q : ℝ) (h0 : 0 ≤ q) :
    sortedQuantile s q = .ok (tele (fun i => s.getD i 0) N (N * q)) := by
  have hne : s ≠ [] := by intro h; rw [h] at hN; simp at hN
  unfold sortedQuantile
  have hn : ((s.length : ℝ) - 1) = N := by rw [hN]; push_cast; ring
  simp only [hn]
  by_cases hv : (N : ℝ) ≤ N * q
  · simp only [if_pos hv, pyGet_last s hne, bind, Except.bind, npLerp_eq, sub_self, smul_zero, add_zero]
    show Except.ok _ = _
    rw [tele_last _ _ _ hv, List.getLast_eq_getElem, getD_lt (by omega)]
    simp [hN]
  · simp only [if_neg hv]
    push Not at hv
    have hv0 : 0 ≤ (N : ℝ) * q := by positivity
    obtain ⟨j, hj⟩ := Int.eq_ofNat_of_zero_le (Int.floor_nonneg.mpr hv0)
    have hle : (j : ℝ) ≤ N * q := by
      have := Int.floor_le ((N : ℝ) * q)
      rw [hj] at this
      exact_mod_cast this
    have hlt : (N : ℝ) * q < j + 1 := by
      have := Int.lt_floor_add_one ((N : ℝ) * q)
      rw [hj] at this
      exact_mod_cast this
    have hjN : j < N := by
      have : (j : ℝ) < N := lt_of_le_of_lt hle hv
      exact_mod_cast this
    rw [hj]
    have hg1 := pyGet_nat_lt s j (by omega)
    have hg2 := pyGet_nat_lt s (j + 1) (by omega)
    have e : ((j : ℤ) + 1 : ℤ) = ((j + 1 : ℕ) : ℤ) := by push_cast; rfl
    rw [e, hg2, hg1]
    simp only [bind, Except.bind, npLerp_eq]
    show Except.ok _ = _
    rw [tele_mid _ N j _ hjN hle hlt.le, getD_lt (by omega), getD_lt (by omega)]
    simp only [smul_eq_mul, Int.cast_natCast]
    rw [mul_comm]

/-- The sorted sample as a function of the index. -/
noncomputable def ostat (xs : List ℝ) (i : ℕ) : ℝ := (xs.insertionSort (· ≤ ·)).getD i 0

theorem npQuantile_real (xs : List ℝ) (N : ℕ) (hN : xs.length = N + 1) (q : ℝ) (h0 : 0 ≤ q) (h1 : q ≤ 1) :
    npQuantile (· ≤ ·) xs q = .ok (tele (ostat xs) N (N * q)) := by
  rw [npQuantile_eq _ _ _ h0 h1, sortedQuantile_real _ N (by rw [List.length_insertionSort, hN]) q h0]
  rfl

theorem ostat_mono (xs : List ℝ) {i j : ℕ} (hij : i ≤ j) (hj : j < xs.length) : ostat xs i ≤ ostat xs j := by
  unfold ostat
  have hl : (xs.insertionSort (· ≤ ·)).length = xs.length := List.length_insertionSort _ _
  rw [getD_lt (by omega), getD_lt (by omega)]
  rcases hij.eq_or_lt with rfl | h
  · exact le_rfl
  · exact List.pairwise_iff_getElem.mp (List.pairwise_insertionSort (· ≤ ·) xs) i j (by omega) (by omega) h

theorem ostat_mem (xs : List ℝ) {i : ℕ} (hi : i < xs.length) : ostat xs i ∈ xs := by
  unfold ostat
  have hl : (xs.insertionSort (· ≤ ·)).length = xs.length := List.length_insertionSort _ _
  rw [getD_lt (by omega), ← List.mem_insertionSort (r := (· ≤ ·))]
  exact List.getElem_mem _

theorem mem_ostat (xs : List ℝ) {x : ℝ} (hx : x ∈ xs) : ∃ i < xs.length, ostat xs i = x := by
  rw [← List.mem_insertionSort (r := (· ≤ ·))] at hx
  obtain ⟨i, hi, rfl⟩ := List.mem_iff_getElem.mp hx
  rw [List.length_insertionSort] at hi
  exact ⟨i, hi, by unfold ostat; rw [getD_lt (by rw [List.length_insertionSort]; exact hi)]⟩

theorem countP_ostat (xs : List ℝ) (P : ℝ → Bool) :
    xs.countP P = ((List.range xs.length).countP fun (i : ℕ) => P (ostat xs i)) := by
  have hp := (List.perm_insertionSort (· ≤ ·) xs).countP_eq P
  rw [← hp]
  have : xs.insertionSort (· ≤ ·) = (List.range xs.length).map (ostat xs) := by
    apply List.ext_getElem
    · simp
    · intro i h1 h2
      rw [List.getElem_map, List.getElem_range]
      unfold ostat
      rw [getD_lt h1]
  conv_lhs => rw [this]
  rw [List.countP_map]
  rfl

theorem countP_range_lt (m k : ℕ) (P : ℕ → Bool) (hk : k ≤ m) (h : ∀ i < k, P i = true) :
    k ≤ (List.range m).countP P := by
  obtain ⟨d, rfl⟩ : ∃ d, m = k + d := ⟨m - k, by omega⟩
  rw [List.range_add, List.countP_append]
  have : (List.range k).countP P = k := by
    rw [List.countP_eq_length.mpr (fun a ha => h a (List.mem_range.mp ha)), List.length_range]
  omega

theorem countP_range_le (m k : ℕ) (P : ℕ → Bool) (h : ∀ i, i < m → k ≤ i → P i = false) :
    (List.range m).countP P ≤ k := by
  rcases Nat.lt_or_ge m k with hk | hk
  · exact (List.countP_le_length).trans (by rw [List.length_range]; omega)
  · obtain ⟨d, rfl⟩ : ∃ d, m = k + d := ⟨m - k, by omega⟩
    rw [List.range_add, List.countP_append]
    have h0 : ((List.range d).map (k + ·)).countP P = 0 := by
      rw [List.countP_eq_zero]
      intro a ha
      obtain ⟨b, hb, rfl⟩ := List.mem_map.mp ha
      rw [h _ (by have := List.mem_range.mp hb; omega) (by omega)]
      simp
    rw [h0]
    exact (List.countP_le_length).trans (by rw [List.length_range])

end Pxmcmc
