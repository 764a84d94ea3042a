import Verif.Lemmas.Arrays
import Mathlib.Tactic.NormNum

/-! # Properties C01–C06: thresholding (`pxmcmc/utils.py`) -/

namespace Pxmcmc
open RCLike

variable {𝕜 : Type} [RCLike 𝕜] {n : ℕ}

/-! ## C01 -/

/-- C01 (vector threshold): `soft(X, T)` succeeds and returns the unique minimiser of
`½‖u-X‖² + Σ Tᵢ‖uᵢ‖`. -/
theorem C01_soft_is_prox_vector (X : Fin n → 𝕜) (T : Fin n → ℝ) (hT : ∀ i, 0 ≤ T i) :
    ∃ p : Fin n → 𝕜, soft (List.ofFn X) (.vector (List.ofFn T)) = .ok (List.ofFn p) ∧
      Spec.IsProx (fun u => ∑ i, T i * ‖u i‖) X p :=
  ⟨_, soft_vector X T, softEntry_isProx X T hT⟩

/-- C01 (scalar threshold). -/
theorem C01_soft_is_prox_scalar (X : Fin n → 𝕜) (t : ℝ) (ht : 0 ≤ t) :
    ∃ p : Fin n → 𝕜, soft (List.ofFn X) (.scalar t) = .ok (List.ofFn p) ∧
      Spec.IsProx (fun u => ∑ i, t * ‖u i‖) X p :=
  ⟨_, soft_scalar X t, softEntry_isProx X (fun _ => t) (fun _ => ht)⟩

/-- Hypotheses of C01 are met by a vector with entries below, at and above the threshold. -/
example : ∃ (X : Fin 3 → ℝ) (T : Fin 3 → ℝ), (∀ i, 0 ≤ T i) ∧ ‖X 0‖ < T 0 ∧ ‖X 1‖ = T 1 ∧ T 2 < ‖X 2‖ :=
  ⟨![1, -2, 3], ![2, 2, 2], by intro i; fin_cases i <;> norm_num, by simp, by simp, by simp; norm_num⟩

/-! ## C02 -/

/-- C02: length is preserved; entries of modulus `≤ T` become 0, the others keep their phase and have
their modulus reduced by `T`. -/
theorem C02_soft_pointwise (X : Fin n → 𝕜) (T : Fin n → ℝ) (hT : ∀ i, 0 ≤ T i) :
    ∃ p : Fin n → 𝕜, soft (List.ofFn X) (.vector (List.ofFn T)) = .ok (List.ofFn p) ∧
      ∀ i, (‖X i‖ ≤ T i → p i = 0) ∧
        (T i < ‖X i‖ → ‖p i‖ = ‖X i‖ - T i ∧ ∃ c : ℝ, 0 < c ∧ p i = (c : 𝕜) * X i) := by
  refine ⟨_, soft_vector X T, fun i => ⟨softEntry_of_le, fun h => ?_⟩⟩
  have hx : X i ≠ 0 := by
    intro h0; rw [h0, norm_zero] at h; exact absurd h (not_lt.mpr (hT i))
  have hp : 0 < ‖X i‖ := norm_pos_iff.mpr hx
  refine ⟨?_, (‖X i‖ - T i) / ‖X i‖, div_pos (by linarith) hp, softEntry_of_lt h hx⟩
  show ‖softEntry (X i) (T i)‖ = _
  rw [norm_softEntry (hT i), max_eq_left (by linarith)]

/-- C02: a scalar threshold acts like the constant vector. -/
theorem C02_soft_scalar_eq_vector (X : Fin n → 𝕜) (t : ℝ) :
    soft (List.ofFn X) (.scalar t) = soft (List.ofFn X) (.vector (List.ofFn fun _ : Fin n => t)) := by
  rw [soft_scalar, soft_vector]

/-- C02: threshold 0 returns the input. -/
theorem C02_soft_zero (X : List 𝕜) : soft X (.scalar 0) = .ok X := by
  rw [soft_scalar_list]
  congr 1
  have : ∀ x : 𝕜, softEntry x 0 = x := by
    intro x
    by_cases hx : x = 0
    · subst hx; exact softEntry_zero_left 0
    · have hp : 0 < ‖x‖ := norm_pos_iff.mpr hx
      rw [softEntry_of_lt hp hx]
      simp [div_self hp.ne']
  simp [this]

/-- C02: a threshold vector of another length (neither array being of length one) is rejected. -/
theorem C02_soft_length_mismatch (X : List 𝕜) (ts : List ℝ) (h : X.length ≠ ts.length)
    (h1 : X.length ≠ 1) (h2 : ts.length ≠ 1) : soft X (.vector ts) = .error .ValueError := by
  have : bcast X ts = .error .ValueError := by
    unfold bcast
    rw [if_neg h]
    match X, ts, h1, h2 with
    | [], [], _, _ => simp at h
    | [], b :: b' :: l, _, _ => rfl
    | a :: a' :: l, [], _, _ => rfl
    | a :: a' :: l, b :: b' :: l', _, _ => rfl
  unfold soft Thresh.arr
  rw [this]; rfl

/-- A length mismatch that numpy cannot broadcast. -/
example : ([1, 2, 3] : List ℝ).length ≠ ([1, 2] : List ℝ).length ∧
    ([1, 2, 3] : List ℝ).length ≠ 1 ∧ ([1, 2] : List ℝ).length ≠ 1 := by simp

/-- A concrete value of `soft`. -/
example : soft ([3, -1] : List ℝ) (.scalar 2) = .ok [1, 0] := by
  rw [soft_scalar_list]
  have h3 : softEntry (3 : ℝ) 2 = 1 := by
    rw [softEntry_of_lt (by norm_num) (by norm_num)]; norm_num
  have h1 : softEntry (-1 : ℝ) 2 = 0 := softEntry_of_le (by norm_num)
  simp [h3, h1]

/-! ## C03 -/

/-- C03: firm non-expansiveness, `‖soft X - soft Y‖² ≤ Re⟨soft X - soft Y, X - Y⟩`, and hence
non-expansiveness. -/
theorem C03_soft_firmly_nonexpansive (X Y : Fin n → 𝕜) (T : Fin n → ℝ) (hT : ∀ i, 0 ≤ T i) :
    ∃ p q : Fin n → 𝕜, soft (List.ofFn X) (.vector (List.ofFn T)) = .ok (List.ofFn p) ∧
      soft (List.ofFn Y) (.vector (List.ofFn T)) = .ok (List.ofFn q) ∧
      Spec.distSq p q ≤ re (Spec.inner (fun i => p i - q i) (fun i => X i - Y i)) ∧
      Spec.distSq p q ≤ Spec.distSq X Y := by
  refine ⟨_, _, soft_vector X T, soft_vector Y T, ?_, ?_⟩
  · unfold Spec.distSq Spec.inner
    rw [map_sum]
    refine Finset.sum_le_sum fun i _ => ?_
    have := softEntry_firm (X i) (Y i) (hT i)
    rwa [RCLike.inner_apply, mul_comm] at this
  · unfold Spec.distSq
    refine Finset.sum_le_sum fun i _ => ?_
    have h := softEntry_firm (X i) (Y i) (hT i)
    have h2 := re_inner_le_norm (𝕜 := 𝕜) (softEntry (X i) (T i) - softEntry (Y i) (T i)) (X i - Y i)
    have h3 : ‖softEntry (X i) (T i) - softEntry (Y i) (T i)‖ ≤ ‖X i - Y i‖ := by
      by_contra hc
      push Not at hc
      nlinarith [norm_nonneg (X i - Y i),
        norm_nonneg (softEntry (X i) (T i) - softEntry (Y i) (T i))]
    exact pow_le_pow_left₀ (norm_nonneg _) h3 2

/-- C03 is not vacuous: for `X = (3)`, `Y = (1)`, `T = (2)` both results differ. -/
example : softEntry (3 : ℝ) 2 ≠ softEntry (1 : ℝ) 2 := by
  rw [softEntry_of_lt (by norm_num) (by norm_num), softEntry_of_le (by norm_num)]; norm_num

/-! ## C04 -/

/-- `int(x)` is `k` for `k ≤ x < k + 1`. -/
theorem pyInt_of_between {x : ℝ} {k : ℕ} (h : (k : ℝ) ≤ x) (h' : x < k + 1) : pyInt x = k := by
  unfold pyInt
  rw [if_pos ((Nat.cast_nonneg k).trans h), Int.floor_eq_iff]
  exact ⟨by exact_mod_cast h, by exact_mod_cast h'⟩

/-- `int(x)` is 0 for `-1 < x < 1`. -/
theorem pyInt_of_small {x : ℝ} (h : -1 < x) (h' : x < 1) : pyInt x = 0 := by
  unfold pyInt
  split
  · rename_i h0
    rw [Int.floor_eq_iff]; constructor <;> simp [h0, h']
  · rename_i h0
    rw [Int.ceil_eq_iff]; constructor
    · simpa using h
    · simpa using (not_le.mp h0).le

theorem hard_of_get {X : List 𝕜} {T τ : ℝ}
    (h : pyGet (npSort (X.map fun x => ‖x‖)) (-pyInt (T * X.length)) = .ok τ) :
    hard X T = .ok (X.map fun x => if ‖x‖ < τ then 0 else x) := by
  unfold hard
  simp only [h]
  rfl

/-- C04: with `k = int(T·n)` (that is `k ≤ T·n < k + 1`) between 1 and `n`, `hard` keeps a set `K` of at least `k` entries unchanged and
zeroes the others; every kept modulus exceeds every dropped one; if the moduli are distinct exactly `k`
are kept. -/
theorem C04_hard_keeps_largest (X : Fin n → 𝕜) (T : ℝ) (k : ℕ) (hk : k ≤ T * n)
    (hk' : T * n < k + 1) (h1 : 1 ≤ k) (h2 : k ≤ n) :
    ∃ (r : Fin n → 𝕜) (K : Finset (Fin n)), hard (List.ofFn X) T = .ok (List.ofFn r) ∧
      (∀ i ∈ K, r i = X i) ∧ (∀ i ∉ K, r i = 0) ∧ (∀ i ∈ K, ∀ j ∉ K, ‖X j‖ < ‖X i‖) ∧
      k ≤ K.card ∧ (Function.Injective (fun i => ‖X i‖) → K.card = k) := by
  classical
  replace hk : pyInt (T * n) = k := pyInt_of_between hk hk'
  set N := (List.ofFn X).map fun x => ‖x‖ with hN
  have hlen : (npSort N).length = n := by rw [npSort_length, hN]; simp
  have hget := pyGet_neg (npSort N) k h1 (by rw [hlen]; exact h2)
  have hidx : (npSort N).length - k < (npSort N).length := by omega
  set τ := (npSort N)[(npSort N).length - k]'hidx with hτ
  have hNfn : N = List.ofFn fun i => ‖X i‖ := by rw [hN, map_ofFn']
  have hcount : (npSort N).countP (fun a => decide (τ ≤ a)) =
      (Finset.univ.filter fun i => τ ≤ ‖X i‖).card := by
    rw [(npSort_perm N).countP_eq, hNfn, countP_ofFn]
  refine ⟨fun i => if ‖X i‖ < τ then 0 else X i, Finset.univ.filter fun i => τ ≤ ‖X i‖, ?_, ?_, ?_,
    ?_, ?_, ?_⟩
  · rw [hard_of_get (τ := τ) (by rw [List.length_ofFn, hk]; exact hget), map_ofFn']
  · intro i hi
    simp at hi
    simp [not_lt.mpr hi]
  · intro i hi
    simp at hi
    simp [hi]
  · intro i hi j hj
    simp at hi hj
    exact lt_of_lt_of_le hj hi
  · rw [← hcount]
    have := length_sub_le_countP_of_sorted (npSort_sorted N) hidx
    rw [← hτ] at this
    omega
  · intro hinj
    rw [← hcount]
    have hnd : (npSort N).Nodup := by
      rw [(npSort_perm N).nodup_iff, hNfn]
      exact List.nodup_ofFn.mpr hinj
    have hstrict : (npSort N).Pairwise (· < ·) := by
      have := (npSort_sorted N).and hnd
      exact this.imp fun ⟨a, b⟩ => lt_of_le_of_ne a b
    have := countP_of_strictSorted hstrict hidx
    rw [← hτ] at this
    rw [this]; omega

/-- The test-suite case of `hard` (`T = 0.3` on 10 entries, `k = 3`) satisfies the hypotheses. -/
example : ((3 : ℕ) : ℝ) ≤ (3 / 10 : ℝ) * (10 : ℕ) ∧ (3 / 10 : ℝ) * (10 : ℕ) < (3 : ℕ) + 1 ∧ 1 ≤ 3 ∧ 3 ≤ 10 := by
  norm_num

/-- Half of three entries: `int(1.5) = 1`. -/
example : ((1 : ℕ) : ℝ) ≤ (1 / 2 : ℝ) * (3 : ℕ) ∧ (1 / 2 : ℝ) * (3 : ℕ) < (1 : ℕ) + 1 := by norm_num

/-- C04: an empty array, or a fraction with `int(T·n) > n`, raises `IndexError`. -/
theorem C04_hard_out_of_range (X : List 𝕜) (T : ℝ) (h0 : X = [] ∨ (X.length : ℝ) + 1 ≤ T * X.length) :
    hard X T = .error .IndexError := by
  rcases h0 with rfl | h0
  · have : pyInt (T * (([] : List 𝕜).length : ℝ)) = 0 := pyInt_of_small (by simp) (by simp)
    unfold hard
    simp only [this]
    rfl
  have h : (X.length : ℤ) < pyInt (T * X.length) := by
    unfold pyInt
    rw [if_pos (le_trans (by positivity) h0), Int.lt_iff_add_one_le, Int.le_floor]
    push_cast
    exact h0
  have : pyGet (npSort (X.map fun x => ‖x‖)) (-pyInt (T * X.length)) = .error .IndexError := by
    unfold pyGet
    have h1 : -pyInt (T * X.length) < 0 := by omega
    simp only [h1, if_true]
    rw [if_neg]
    rw [npSort_length]; simp; omega
  unfold hard
  simp only [this]
  rfl

/-- `T = 2` on one entry is out of range. -/
example : (([5] : List ℝ).length : ℝ) + 1 ≤ 2 * (([5] : List ℝ).length : ℝ) := by
  norm_num

/-! ## C05 -/

/-- Number of non-zero entries. -/
noncomputable def nnz (l : List 𝕜) : ℕ := open Classical in l.countP fun x => decide (x ≠ 0)

/-- C05 is violated: for a fraction `T` in `[0,1]` `hard` may keep more than `int(T·n) = ⌊T·n⌋` entries. -/
theorem C05_hard_fraction_refuted :
    ¬ ∀ (X : List ℝ) (T : ℝ) (r : List ℝ), 0 ≤ T → T ≤ 1 → hard X T = .ok r →
      (nnz r : ℤ) ≤ ⌊T * X.length⌋ := by
  intro h
  have hr : hard ([1] : List ℝ) 0 = .ok [1] := by
    have : pyInt ((0 : ℝ) * ([1] : List ℝ).length) = 0 := by simp [pyInt]
    rw [hard_of_get (τ := 1) (by rw [this]; simp [npSort, pyGet])]
    simp
  have := h [1] 0 [1] le_rfl zero_le_one hr
  simp [nnz] at this

/-- C05, the general failure: whenever `int(T·n) = 0`, i.e. `-1 < T·n < 1`, the "largest 0 entries" are *all* entries: nothing is
thresholded. -/
theorem C05_hard_zero_count_keeps_all (X : List 𝕜) (T : ℝ) (hX : X ≠ [])
    (h' : -1 < T * X.length) (h'' : T * X.length < 1) : hard X T = .ok X := by
  classical
  have h : pyInt (T * X.length) = 0 := pyInt_of_small h' h''
  set S := npSort (X.map fun x => ‖x‖) with hS
  have hlen : 0 < S.length := by
    rw [hS, npSort_length]; simpa using List.length_pos_iff.mpr hX
  have hget : pyGet S (-0) = .ok (S[0]) := by
    simp only [pyGet, neg_zero, lt_irrefl, if_false, le_refl, if_true, Int.toNat_zero]
    rw [List.getElem?_eq_getElem hlen]
  rw [hard_of_get (τ := S[0]) (by rw [h]; exact hget)]
  congr 1
  conv_rhs => rw [← List.map_id X]
  apply List.map_congr_left
  intro x hx
  have hmem : ‖x‖ ∈ S := (npSort_perm _).mem_iff.mpr (List.mem_map_of_mem hx)
  obtain ⟨j, hj, hj'⟩ := List.getElem_of_mem hmem
  have hle : S[0] ≤ ‖x‖ := by
    rw [← hj']
    rcases Nat.eq_zero_or_pos j with rfl | hj0
    · exact le_rfl
    · exact List.pairwise_iff_getElem.mp (npSort_sorted _) 0 j hlen hj hj0
  simp [not_lt.mpr hle]

/-- `T = 0.4` on two entries: `int(0.8) = 0`. -/
example : hard ([7, 1] : List ℝ) (2 / 5) = .ok [7, 1] :=
  C05_hard_zero_count_keeps_all _ _ (by simp) (by norm_num) (by norm_num)

/-- C05, second failure mode: ties.  With all moduli equal nothing is dropped whatever the fraction
(this answers the TODO in the docstring of `hard`). -/
theorem C05_hard_all_equal_keeps_all (X : Fin n → 𝕜) (c T : ℝ) (hc : ∀ i, ‖X i‖ = c) (k : ℕ)
    (hk : k ≤ T * n) (hk' : T * n < k + 1) (h1 : 1 ≤ k) (h2 : k ≤ n) :
    hard (List.ofFn X) T = .ok (List.ofFn X) := by
  obtain ⟨r, K, hr, hK, hnK, hlt, hcard, -⟩ := C04_hard_keeps_largest X T k hk hk' h1 h2
  rw [hr]
  congr 2
  funext i
  by_cases hi : i ∈ K
  · exact hK i hi
  · exfalso
    obtain ⟨j, hj⟩ : K.Nonempty := Finset.card_pos.mp (by omega)
    have := hlt j hj i hi
    rw [hc, hc] at this
    exact lt_irrefl _ this

/-- Two entries of equal modulus and different sign, half of which should be kept. -/
example : (∀ i, ‖(![1, -1] : Fin 2 → ℝ) i‖ = 1) ∧ ((1 : ℕ) : ℝ) ≤ (1 / 2 : ℝ) * (2 : ℕ) ∧
    (1 / 2 : ℝ) * (2 : ℕ) < (1 : ℕ) + 1 :=
  ⟨fun i => by fin_cases i <;> simp, by norm_num, by norm_num⟩

/-- C05 (partial): if the moduli are pairwise distinct and `int(T·n) ≥ 1`, at most `int(T·n)` entries of
the result are non-zero.  Missing from the full property: ties and `int(T·n) = 0`, where it is false. -/
theorem C05_hard_fraction_partial (X : Fin n → 𝕜) (T : ℝ) (k : ℕ) (hk : k ≤ T * n) (hk' : T * n < k + 1)
    (h1 : 1 ≤ k) (h2 : k ≤ n) (hinj : Function.Injective fun i => ‖X i‖) :
    ∃ r : List 𝕜, hard (List.ofFn X) T = .ok r ∧ nnz r ≤ k := by
  classical
  obtain ⟨r, K, hr, -, hnK, -, -, hcard⟩ := C04_hard_keeps_largest X T k hk hk' h1 h2
  refine ⟨_, hr, ?_⟩
  unfold nnz
  have := countP_ofFn r (fun x => x ≠ 0)
  rw [← hcard hinj]
  refine le_trans (le_of_eq ?_) (Finset.card_le_card (s := Finset.univ.filter fun i => r i ≠ 0) ?_)
  · rw [← this]
  · intro i hi
    simp at hi
    by_contra hni
    exact hi (hnK i hni)

/-- Distinct moduli with `k = 1`. -/
example : Function.Injective (fun i => ‖(![1, -2] : Fin 2 → ℝ) i‖) ∧
    ((1 : ℕ) : ℝ) ≤ (1 / 2 : ℝ) * (2 : ℕ) ∧ (1 / 2 : ℝ) * (2 : ℕ) < (1 : ℕ) + 1 := by
  refine ⟨?_, by norm_num, by norm_num⟩
  intro i j h
  fin_cases i <;> fin_cases j <;> simp at h ⊢

/-! ## C06 -/

/-- C06 for `soft`: every array that existed before the call is unchanged (the copy lives at a fresh
address `f`), and the result is `soft` of the values. -/
theorem C06_soft_preserves_caller (h : Heap 𝕜) (a f : ℕ) (hf : h f = none) (T : Thresh) (h' : Heap 𝕜)
    (r : List 𝕜) (hr : softHeap h a f T = .ok (h', r)) :
    (∀ b, h b ≠ none → h' b = h b) ∧ ∃ X, h a = some X ∧ soft X T = .ok r := by
  unfold softHeap at hr
  split at hr
  · simp at hr
  · rename_i X hX
    have hX' : (X.map fun z => open Classical in if ‖z‖ = 0 then 0 else z) = X := by
      conv_rhs => rw [← List.map_id X]
      refine List.map_congr_left fun z _ => ?_
      by_cases hz : ‖z‖ = 0
      · rw [if_pos hz, norm_eq_zero.mp hz]; rfl
      · rw [if_neg hz]; rfl
    simp only [hX'] at hr
    cases hs : soft X T with
    | error e => rw [hs] at hr; cases hr
    | ok t =>
      rw [hs] at hr
      simp only [bind, Except.bind, Except.ok.injEq, Prod.mk.injEq] at hr
      obtain ⟨hr1, rfl⟩ := hr
      refine ⟨fun b hb => ?_, X, hX, hs⟩
      rw [← hr1]
      have : b ≠ f := by rintro rfl; exact hb hf
      simp [Heap.write, this]

/-- A heap with one array and a free address on which `softHeap` succeeds. -/
example : ∃ (h : Heap ℝ) (h' : Heap ℝ) (r : List ℝ), h 1 = none ∧
    softHeap h 0 1 (.scalar 0) = .ok (h', r) ∧ h 0 = some [3, -1] := by
  have hs : softHeap (fun a => if a = 0 then some [3, -1] else none) 0 1 (.scalar 0) =
      .ok ((Heap.write (fun a => if a = 0 then some [3, -1] else none) 1 [3, -1]).write 1
        (([3, -1] : List ℝ).map fun z => open Classical in if ‖z‖ = 0 then 0 else z),
        (([3, -1] : List ℝ).map fun z => open Classical in if ‖z‖ = 0 then 0 else z)) := by
    simp only [softHeap, if_true, C02_soft_zero]; rfl
  exact ⟨_, _, _, by simp, hs, by simp⟩

/-- C06 for `hard` is violated: the caller's array is overwritten. -/
theorem C06_hard_preserves_caller_refuted :
    ¬ ∀ (h : Heap ℝ) (a : ℕ) (T : ℝ) (h' : Heap ℝ) (r : List ℝ), hardHeap h a T = .ok (h', r) →
      h' a = h a := by
  intro H
  have hhard : hard ([1, 2] : List ℝ) (1 / 2) = .ok [0, 2] := by
    have e : pyInt ((1 / 2 : ℝ) * ([1, 2] : List ℝ).length) = 1 := by
      have : ((1 / 2 : ℝ) * ([1, 2] : List ℝ).length) = 1 := by norm_num
      rw [this]; simp [pyInt]
    rw [hard_of_get (τ := 2) (by rw [e]; simp [npSort, pyGet])]
    simp
  have := H (fun _ => some [1, 2]) 0 (1 / 2) (Heap.write (fun _ => some [1, 2]) 0 [0, 2]) [0, 2]
    (by simp only [hardHeap, hhard]; rfl)
  simp [Heap.write] at this

/-- C06 for `hard` (partial): other arrays are untouched, and the caller's array afterwards *is* the
returned result. -/
theorem C06_hard_frame_partial (h : Heap 𝕜) (a : ℕ) (T : ℝ) (h' : Heap 𝕜) (r : List 𝕜)
    (hr : hardHeap h a T = .ok (h', r)) : (∀ b, b ≠ a → h' b = h b) ∧ h' a = some r := by
  unfold hardHeap at hr
  split at hr
  · simp at hr
  · rename_i X hX
    cases hs : hard X T with
    | error e => rw [hs] at hr; cases hr
    | ok t =>
      rw [hs] at hr
      simp only [bind, Except.bind, Except.ok.injEq, Prod.mk.injEq] at hr
      obtain ⟨hr1, rfl⟩ := hr
      rw [← hr1]
      exact ⟨fun b hb => by simp [Heap.write, hb], by simp [Heap.write]⟩

/-- `hardHeap` succeeds on a concrete heap (with `int(T·n) = 0`). -/
example : ∃ h' r, hardHeap (fun _ => some ([3, -1] : List ℝ)) 0 0 = .ok (h', r) := by
  have hs : hardHeap (fun _ => some ([3, -1] : List ℝ)) 0 0 =
      .ok (Heap.write (fun _ => some ([3, -1] : List ℝ)) 0 [3, -1], ([3, -1] : List ℝ)) := by
    simp only [hardHeap, C05_hard_zero_count_keeps_all ([3, -1] : List ℝ) 0 (by simp) (by simp) (by simp)]
    rfl
  exact ⟨_, _, hs⟩

end Pxmcmc
