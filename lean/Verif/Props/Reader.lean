import Verif.Model.Reader
import Mathlib.Data.List.Basic
import Mathlib.Tactic.Linarith
import Mathlib.Tactic.NormNum

/-!
# C73, C78: the simulation reader
-/

namespace Pxmcmc

/-- How many block ends (cumulative sums of the block sizes) are at most `j`. -/
def endsBefore : List ℕ → ℕ → ℕ
  | [], _ => 0
  | l :: ls, j => if j < l then 0 else 1 + endsBefore ls (j - l)

/-- How many block ends are strictly below `n`. -/
def endsBelow : List ℕ → ℕ → ℕ
  | [], _ => 0
  | l :: ls, n => if n ≤ l then 0 else 1 + endsBelow ls (n - l)

theorem fromFile_nat {W : Type} (s : List W) (k : ℕ) : fromFile s (k : ℤ) = (s.take k, s.drop k) := by
  simp [fromFile]

theorem fromFile_two {W : Type} (s : List W) : fromFile s 2 = (s.take 2, s.drop 2) := fromFile_nat s 2

theorem take_eq_map {W : Type} (d : W) (s : List W) (n : ℕ) (h : n ≤ s.length) :
    s.take n = (List.range n).map fun j => s.getD j d := by
  apply List.ext_getElem
  · simp [h]
  · intro i h1 h2
    simp only [List.length_take] at h1
    have : i < s.length := by omega
    simp [this]

theorem readField_spec {W : Type} (d : W) (B : List ℕ) : B ≠ [] → ∀ (n : ℕ) (s : List W),
    n + 2 * endsBelow B n ≤ s.length →
    readField (B.map Int.ofNat) (n : ℤ) s =
      ((List.range n).map (fun j => s.getD (j + 2 * endsBefore B j) d), s.drop (n + 2 * (endsBelow B n + 1))) := by
  induction B with
  | nil => intro h; exact absurd rfl h
  | cons l ls ih =>
    intro _ n s hlen
    rw [List.map_cons]
    simp only [readField, Int.ofNat_eq_natCast]
    rcases le_or_gt n l with hn | hn
    · have hmin : min (l : ℤ) (n : ℤ) = (n : ℤ) := min_eq_right (by exact_mod_cast hn)
      have hb : endsBelow (l :: ls) n = 0 := by simp [endsBelow, hn]
      rw [hb] at hlen ⊢
      rw [hmin, sub_self, if_pos rfl, fromFile_nat, fromFile_two]
      simp only [List.drop_drop]
      congr 1
      rw [take_eq_map d s n (by omega)]
      apply List.map_congr_left
      intro j hj
      rw [List.mem_range] at hj
      have : endsBefore (l :: ls) j = 0 := by simp [endsBefore, show j < l by omega]
      rw [this, mul_zero, add_zero]
    · have hmin : min (l : ℤ) (n : ℤ) = (l : ℤ) := min_eq_left (by exact_mod_cast hn.le)
      have hb : endsBelow (l :: ls) n = 1 + endsBelow ls (n - l) := by simp [endsBelow, not_le.mpr hn]
      rw [hb] at hlen ⊢
      have hr : (n : ℤ) - (l : ℤ) = ((n - l : ℕ) : ℤ) := by omega
      rw [hmin, hr, if_neg (by omega), fromFile_nat, fromFile_two]
      simp only [List.drop_drop]
      have hsplit : (List.range n).map (fun j => s.getD (j + 2 * endsBefore (l :: ls) j) d) =
          s.take l ++ (List.range (n - l)).map (fun j => (s.drop (l + 2)).getD (j + 2 * endsBefore ls j) d) := by
        rw [show n = l + (n - l) by omega, List.range_add, List.map_append, List.map_map]
        congr 1
        · rw [take_eq_map d s l (by omega)]
          apply List.map_congr_left
          intro j hj
          rw [List.mem_range] at hj
          simp [endsBefore, hj]
        · rw [show l + (n - l) - l = n - l by omega]
          apply List.map_congr_left
          intro j _
          have : endsBefore (l :: ls) (l + j) = 1 + endsBefore ls j := by simp [endsBefore]
          simp only [Function.comp, this, List.getD_eq_getElem?_getD, List.getElem?_drop]
          congr 2
          omega
      cases ls with
      | nil =>
        rw [if_pos ⟨by omega, rfl⟩, fromFile_nat, fromFile_two]
        simp only [List.drop_drop]
        rw [hsplit]
        congr 1
        · congr 1
          rw [take_eq_map d _ _ (by rw [List.length_drop]; simp [endsBelow] at hlen; omega)]
          simp [endsBefore]
        · congr 1
          simp [endsBelow]; omega
      | cons l' ls' =>
        rw [if_neg (by simp)]
        have hl2 : (n - l) + 2 * endsBelow (l' :: ls') (n - l) ≤ (s.drop (l + 2)).length := by
          rw [List.length_drop]; omega
        have := ih (by simp) (n - l) (s.drop (l + 2)) hl2
        rw [this, hsplit]
        simp only [List.drop_drop]
        congr 2
        omega

/-- The block sizes as natural numbers. -/
def blockSizes : List ℕ := [536870908, 536870910, 536870910, 536870910, 536870909, 536870910]

theorem loadBlocks_eq : loadBlocks = blockSizes.map Int.ofNat := by
  simp [loadBlocks, skipList, blockSizes, List.range_succ]

/-- The ends of blocks that begin at `a`. -/
def blockEnds : ℕ → List ℕ → List ℕ
  | _, [] => []
  | a, l :: ls => (a + l) :: blockEnds (a + l) ls

theorem blockEnds_ge (B : List ℕ) : ∀ a, ∀ e ∈ blockEnds a B, a ≤ e := by
  induction B with
  | nil => intro a e he; simp [blockEnds] at he
  | cons l ls ih =>
    intro a e he
    rw [blockEnds, List.mem_cons] at he
    rcases he with rfl | he
    · omega
    · have := ih _ _ he; omega

theorem endsBefore_count (B : List ℕ) : ∀ a j, a ≤ j →
    endsBefore B (j - a) = ((blockEnds a B).filter fun e => decide (e ≤ j)).length := by
  induction B with
  | nil => intro a j _; rfl
  | cons l ls ih =>
    intro a j h
    simp only [endsBefore, blockEnds, List.filter_cons, decide_eq_true_eq]
    by_cases hl : j - a < l
    · rw [if_pos hl, if_neg (by omega)]
      symm
      rw [List.length_eq_zero_iff, List.filter_eq_nil_iff]
      intro e he
      have := blockEnds_ge ls _ _ he
      simp; omega
    · rw [if_neg hl, if_pos (by omega), List.length_cons, ← ih (a + l) j (by omega), Nat.sub_sub]
      omega

theorem endsBelow_count (B : List ℕ) : ∀ a n, a ≤ n →
    endsBelow B (n - a) = ((blockEnds a B).filter fun e => decide (e < n)).length := by
  induction B with
  | nil => intro a n _; rfl
  | cons l ls ih =>
    intro a n h
    simp only [endsBelow, blockEnds, List.filter_cons, decide_eq_true_eq]
    by_cases hl : n - a ≤ l
    · rw [if_pos hl, if_neg (by omega)]
      symm
      rw [List.length_eq_zero_iff, List.filter_eq_nil_iff]
      intro e he
      have := blockEnds_ge ls _ _ he
      simp; omega
    · rw [if_neg hl, if_pos (by omega), List.length_cons, ← ih (a + l) n (by omega), Nat.sub_sub]
      omega

theorem skip_ends : skipList.tail = (blockEnds 0 blockSizes).map Int.ofNat := by
  simp [skipList, blockEnds, blockSizes]

/-- The positions in `skip` (without the leading 0) at most `j`. -/
theorem endsBefore_skip (j : ℕ) : endsBefore blockSizes j = (skipList.tail.filter fun b => decide (b ≤ (j : ℤ))).length := by
  have := endsBefore_count blockSizes 0 j (Nat.zero_le j)
  rw [Nat.sub_zero] at this
  rw [this, skip_ends, List.filter_map, List.length_map]
  congr 2
  funext e
  simp

theorem endsBelow_skip (n : ℕ) : endsBelow blockSizes n = (skipList.tail.filter fun b => decide (b < (n : ℤ))).length := by
  have := endsBelow_count blockSizes 0 n (Nat.zero_le n)
  rw [Nat.sub_zero] at this
  rw [this, skip_ends, List.filter_map, List.length_map]
  congr 2
  funext e
  simp

/-- Where the file has the `j`-th value of a field, counted from the beginning of the field: two marker words follow every
block, and the blocks end at the positions of `skip`. -/
def valuePos (j : ℕ) : ℕ := j + 2 * (skipList.tail.filter fun b => decide (b ≤ (j : ℤ))).length

/-- Words taken by a field of `n` values with its markers. -/
def fieldWords (n : ℕ) : ℕ := n + 2 * ((skipList.tail.filter fun b => decide (b < (n : ℤ))).length + 1)

/-- C73: for every `npix`, if the file is complete, each of the four fields has exactly `npix` values, and the `j`-th value of
field `k` is the word at the position of that value: marker words are skipped and nothing is read twice or left out. -/
theorem C73_fields {W : Type} (d : W) (int64 : W → W → ℤ) (w0 w1 lo hi w4 w5 : W) (body : List W) (n : ℕ)
    (hn : int64 lo hi = n) (hlen : 4 * fieldWords n ≤ body.length) :
    ∃ kappa gamma1 gamma2 omega, binaryToFits int64 (w0 :: w1 :: lo :: hi :: w4 :: w5 :: body) =
        .ok (kappa, gamma1, gamma2, omega) ∧
      kappa = (List.range n).map (fun j => body.getD (valuePos j) d) ∧
      gamma1 = (List.range n).map (fun j => body.getD (fieldWords n + valuePos j) d) ∧
      gamma2 = (List.range n).map (fun j => body.getD (2 * fieldWords n + valuePos j) d) ∧
      omega = (List.range n).map (fun j => body.getD (3 * fieldWords n + valuePos j) d) ∧
      kappa.length = n ∧ gamma1.length = n ∧ gamma2.length = n ∧ omega.length = n := by
  have hfw : ∀ n, fieldWords n = n + 2 * (endsBelow blockSizes n + 1) := by intro n; rw [fieldWords, endsBelow_skip]
  have hvp : ∀ j, valuePos j = j + 2 * endsBefore blockSizes j := by intro j; rw [valuePos, endsBefore_skip]
  have hspec : ∀ s : List W, fieldWords n ≤ s.length → readField loadBlocks (n : ℤ) s =
      ((List.range n).map (fun j => s.getD (valuePos j) d), s.drop (fieldWords n)) := by
    intro s hs
    rw [loadBlocks_eq, readField_spec d blockSizes (by simp [blockSizes]) n s (by rw [hfw] at hs; omega)]
    simp only [hfw, hvp]
  have hdrop : ∀ (k : ℕ), (List.range n).map (fun j => (body.drop k).getD (valuePos j) d) =
      (List.range n).map (fun j => body.getD (k + valuePos j) d) := by
    intro k
    apply List.map_congr_left
    intro j _
    simp only [List.getD_eq_getElem?_getD, List.getElem?_drop]
  refine ⟨_, _, _, _, ?_, rfl, rfl, rfl, rfl, by simp, by simp, by simp, by simp⟩
  simp only [binaryToFits, hn]
  rw [hspec body (by omega)]
  simp only
  rw [hspec (body.drop (fieldWords n)) (by rw [List.length_drop]; omega)]
  simp only [List.drop_drop]
  rw [hspec (body.drop (fieldWords n + fieldWords n)) (by rw [List.length_drop]; omega)]
  simp only [List.drop_drop]
  rw [hspec (body.drop _) (by rw [List.length_drop]; omega)]
  simp only [hdrop]
  rw [show fieldWords n + fieldWords n + fieldWords n = 3 * fieldWords n by omega,
    show fieldWords n + fieldWords n = 2 * fieldWords n by omega]

/-- C73: a truncated file never gives more than `npix` values per field (it may silently give fewer). -/
theorem readField_le {W : Type} (B : List ℤ) : ∀ (n : ℤ) (s : List W), 0 ≤ n → (∀ b ∈ B, 0 ≤ b) →
    ((readField B n s).1.length : ℤ) ≤ n := by
  induction B with
  | nil => intro n s hn _; simpa [readField] using hn
  | cons l ls ih =>
    intro n s hn hB
    have hl : 0 ≤ l := hB l (by simp)
    have hm : 0 ≤ min l n := le_min hl hn
    have hm' : min l n ≤ n := min_le_right _ _
    have hload : ((fromFile s (min l n)).1.length : ℤ) ≤ min l n := by
      simp only [fromFile, if_neg (not_lt.mpr hm), List.length_take]
      omega
    simp only [readField]
    split_ifs with h0 h1
    · exact hload.trans hm'
    · have : ((fromFile (fromFile (fromFile s (min l n)).2 2).2 (n - min l n)).1.length : ℤ) ≤ n - min l n := by
        simp only [fromFile, if_neg (show ¬ n - min l n < 0 by omega), List.length_take]
        omega
      simp only [List.length_append]
      push_cast
      omega
    · have := ih (n - min l n) (fromFile (fromFile s (min l n)).2 2).2 (by omega) (fun b hb => hB b (by simp [hb]))
      simp only [List.length_append]
      push_cast
      omega

/-- C73: a file cut short never gives more than `npix` values per field, and without a complete header the call raises
`IndexError`. -/
theorem C73_short {W : Type} (int64 : W → W → ℤ) (file : List W) :
    (file.length < 6 → binaryToFits int64 file = .error .IndexError) ∧
    ∀ w0 w1 lo hi w4 w5 body k g1 g2 o, file = w0 :: w1 :: lo :: hi :: w4 :: w5 :: body → 0 ≤ int64 lo hi →
      binaryToFits int64 file = .ok (k, g1, g2, o) →
      (k.length : ℤ) ≤ int64 lo hi ∧ (g1.length : ℤ) ≤ int64 lo hi ∧ (g2.length : ℤ) ≤ int64 lo hi ∧
        (o.length : ℤ) ≤ int64 lo hi := by
  have hpos : ∀ b ∈ loadBlocks, 0 ≤ b := by
    rw [loadBlocks_eq]; intro b hb
    obtain ⟨c, -, rfl⟩ := List.mem_map.mp hb
    simp
  constructor
  · intro h
    match file, h with
    | [], _ => rfl
    | [_], _ => rfl
    | [_, _], _ => rfl
    | [_, _, _], _ => rfl
    | [_, _, _, _], _ => rfl
    | [_, _, _, _, _], _ => rfl
    | _ :: _ :: _ :: _ :: _ :: _ :: _, h => simp at h; omega
  · rintro w0 w1 lo hi w4 w5 body k g1 g2 o rfl hn h
    simp only [binaryToFits, Except.ok.injEq, Prod.mk.injEq] at h
    obtain ⟨rfl, rfl, rfl, rfl⟩ := h
    exact ⟨readField_le _ _ _ hn hpos, readField_le _ _ _ hn hpos, readField_le _ _ _ hn hpos, readField_le _ _ _ hn hpos⟩

/-- C73: a negative `npix` is not noticed: the first field takes the whole rest of the file, markers included, and the others are
empty. -/
theorem C73_negative {W : Type} (int64 : W → W → ℤ) (w0 w1 lo hi w4 w5 : W) (body : List W) (hn : int64 lo hi < 0) :
    binaryToFits int64 (w0 :: w1 :: lo :: hi :: w4 :: w5 :: body) = .ok (body, [], [], []) := by
  have h : ∀ s : List W, readField loadBlocks (int64 lo hi) s = (s, []) := by
    intro s
    have h1 : ∃ b ls, loadBlocks = b :: ls ∧ 0 ≤ b := ⟨_, _, rfl, by decide⟩
    obtain ⟨b, ls, h1, h2⟩ := h1
    rw [h1]
    simp [readField, min_eq_right (show int64 lo hi ≤ b by omega), fromFile, hn]
  simp only [binaryToFits, h]

example : (fun lo _ : ℤ => lo) (-1) 0 < 0 := by norm_num

/-- C73 is not vacuous: a file with three values per field. -/
example : (fun lo hi : ℤ => lo + 2 ^ 32 * hi) 3 0 = ((3 : ℕ) : ℤ) ∧
    4 * fieldWords 3 ≤ (List.replicate 20 (7 : ℤ)).length := by
  constructor
  · norm_num
  · rw [List.length_replicate]
    have : fieldWords 3 = 5 := by simp [fieldWords, skipList]
    omega

/-- C78, the part that holds: with `nres` 12 or 13 exactly the documented settings pass the checks. -/
theorem C78_checks_partial (nres realisation z : ℤ) (h : nres = 12 ∨ nres = 13) :
    scriptChecks nres realisation z = .ok () ↔ 0 ≤ realisation ∧ realisation ≤ 107 ∧ 1 ≤ z ∧ z ≤ 66 := by
  unfold scriptChecks
  split_ifs <;> simp <;> omega

/-- C78 refuted: the documented option `nres = 14` is never accepted. -/
theorem C78_nres14_refuted (realisation z : ℤ) : scriptChecks 14 realisation z = .error .AssertionError := by
  simp [scriptChecks]

end Pxmcmc
