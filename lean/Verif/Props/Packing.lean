import Verif.Lemmas.Packing
import Verif.Lemmas.PyLemmas
import Mathlib.Data.Fin.VecNotation
import Mathlib.Tactic.Linarith

/-! # Properties C13–C15 and C72: coefficient packing, bandlimits -/

namespace Pxmcmc

variable {α : Type _}

/-! ## C13 -/

/-- C13: packing 1-D wavelet coefficients (multiresolution) and unpacking returns both parts. -/
theorem C13_expand_flatten [Zero α] (wav scal : List α) (fl : Bool) :
    expandMlm (flattenMlm (.d1 wav) scal) none (some scal.length) fl = .ok (.d1 wav, scal) := by
  simp [expandMlm, flattenMlm, WavArr.ravelF, sliceFrom, sliceTo, sliceBound]

/-- C13: unpacking at any split point, negative or out of range included, then packing returns the
vector. -/
theorem C13_flatten_expand [Zero α] (mlm : List α) (k : ℤ) (fl : Bool) :
    ∃ w s, expandMlm mlm none (some k) fl = .ok (w, s) ∧ flattenMlm w s = mlm :=
  ⟨_, _, rfl, by simp [flattenMlm, WavArr.ravelF, sliceFrom, sliceTo, List.take_append_drop]⟩

/-- C13: with a split point inside the vector the scaling part has the requested length. -/
theorem C13_scal_length [Zero α] (mlm : List α) (k : ℕ) (hk : k ≤ mlm.length) (fl : Bool) :
    ∃ w s, expandMlm mlm none (some (k : ℤ)) fl = .ok (.d1 w, s) ∧ s.length = k ∧
      w.length = mlm.length - k := by
  have : ¬ ((k : ℤ) < 0) := by omega
  refine ⟨_, _, rfl, ?_, ?_⟩ <;> simp [sliceTo, sliceFrom, sliceBound, hk, this]

example : (2 : ℕ) ≤ ([10, 20, 30] : List ℤ).length ∧
    expandMlm ([10, 20, 30] : List ℤ) none (some 2) = .ok (.d1 [30], [10, 20]) := by
  constructor <;> simp [expandMlm, sliceFrom, sliceTo, sliceBound]

/-! ## C14 -/

theorem expandMlm_nscales [Zero α] (mlm : List α) (S : ℕ) (fl : Bool) (h : S + 1 ≤ mlm.length) :
    expandMlm mlm (some (S : ℤ)) none fl = expandFull mlm (mlm.length / (S + 1)) S fl := by
  unfold expandMlm
  have h0 : ¬ ((S : ℤ) + 1 = 0) := by omega
  have e : Int.fdiv (mlm.length : ℤ) ((S : ℤ) + 1) = ((mlm.length / (S + 1) : ℕ) : ℤ) := by
    rw [Int.fdiv_eq_ediv_of_nonneg _ (by omega)]; push_cast; rfl
  have hpos : 0 < mlm.length / (S + 1) := Nat.div_pos h (by omega)
  simp only [if_neg h0, e]
  rw [if_pos (by exact_mod_cast hpos)]
  rfl

theorem expandFull_ok [Zero α] (mlm : List α) (v S : ℕ) (h : (S + 1) * v ≤ mlm.length) :
    expandFull mlm v S false =
      .ok (.d2 ⟨v, S, fun r c => (mlmColumn mlm v c).getD r 0⟩, slice mlm 0 v) := by
  unfold expandFull
  have : (List.range S).all (fun i => (mlmColumn mlm v i).length = v) = true := by
    simp only [List.all_eq_true, List.mem_range, decide_eq_true_eq]
    intro i hi
    exact mlmColumn_length mlm v S i h hi
  simp [this]

theorem expandFull_ok_flat [Zero α] (mlm : List α) (v S : ℕ) (hS : 0 < S)
    (h : (S + 1) * v ≤ mlm.length) :
    expandFull mlm v S true =
      .ok (.d1 (Arr2.ravelF ⟨v, S, fun r c => (mlmColumn mlm v c).getD r 0⟩), slice mlm 0 v) := by
  unfold expandFull
  have : (List.range S).all (fun i => (mlmColumn mlm v i).length = v) = true := by
    simp only [List.all_eq_true, List.mem_range, decide_eq_true_eq]
    intro i hi
    exact mlmColumn_length mlm v S i h hi
  simp [this, hS.ne']

private theorem flatten_facts [Zero α] (v S : ℕ) (hv : 0 < v) (f : Fin v → Fin S → α) (scal : List α)
    (h : scal.length = v) :
    S + 1 ≤ (flattenMlm (.d2 ⟨v, S, f⟩) scal).length ∧
    (flattenMlm (.d2 ⟨v, S, f⟩) scal).length / (S + 1) = v ∧
    slice (flattenMlm (.d2 ⟨v, S, f⟩) scal) 0 v = scal ∧
    (⟨v, S, fun r c => (mlmColumn (flattenMlm (.d2 ⟨v, S, f⟩) scal) v c).getD r 0⟩ : Arr2 α) =
      ⟨v, S, f⟩ := by
  have hl := flattenMlm_length v S f scal h
  refine ⟨?_, ?_, ?_, ?_⟩
  · rw [hl]; exact Nat.le_mul_of_pos_right _ hv
  · rw [hl]; exact Nat.mul_div_cancel_left v (by omega)
  · simp [slice, flattenMlm, ← h]
  · congr 1
    funext r c
    rw [mlmColumn_flatten v S f scal h c]
    simp [List.getD]

/-- C14: packing a `(v,S)` wavelet array and unpacking with `nscales = S` and the default `flatten_wavs` returns it. -/
theorem C14_expand_flatten [Zero α] (v S : ℕ) (hv : 0 < v) (f : Fin v → Fin S → α) (scal : List α)
    (h : scal.length = v) :
    expandMlm (flattenMlm (.d2 ⟨v, S, f⟩) scal) (some (S : ℤ)) none = .ok (.d2 ⟨v, S, f⟩, scal) := by
  obtain ⟨h1, h2, h3, h4⟩ := flatten_facts v S hv f scal h
  rw [expandMlm_nscales _ S false h1, h2,
    expandFull_ok _ v S (le_of_eq (flattenMlm_length v S f scal h).symm), h3, h4]

/-- C14: with `flatten_wavs=True` (and at least one scale) the wavelet part is the column-major flattening,
i.e. entry `c·v + r` is `wav[r, c]`. -/
theorem C14_expand_flatten_flat [Zero α] (v S : ℕ) (hv : 0 < v) (hS : 0 < S) (f : Fin v → Fin S → α)
    (scal : List α) (h : scal.length = v) :
    ∃ w, expandMlm (flattenMlm (.d2 ⟨v, S, f⟩) scal) (some (S : ℤ)) none true = .ok (.d1 w, scal) ∧
      w.length = S * v ∧ ∀ (r : Fin v) (c : Fin S), w[c.val * v + r.val]? = some (f r c) := by
  obtain ⟨h1, h2, h3, h4⟩ := flatten_facts v S hv f scal h
  refine ⟨Arr2.ravelF ⟨v, S, f⟩, ?_, ?_, ?_⟩
  · rw [expandMlm_nscales _ S true h1, h2,
      expandFull_ok_flat _ v S hS (le_of_eq (flattenMlm_length v S f scal h).symm), h3, h4]
  · rw [ravelF_eq_flatten, length_flatten_const v]
    · simp
    · intro l hl; simp at hl; obtain ⟨j, rfl⟩ := hl; simp
  · intro r c
    have hb := block_flatten v ((List.finRange S).map fun j => (List.finRange v).map fun i => f i j)
      (by intro l hl; simp at hl; obtain ⟨j, rfl⟩ := hl; simp) c (by simp)
    rw [ravelF_eq_flatten]
    have := congrArg (fun l => l[r.val]?) hb
    simp only [List.getElem?_take, List.getElem?_drop, r.2, if_true] at this
    rw [this]
    simp

/-- C14: unpacking a vector whose size is a positive multiple of `S+1` and packing again returns it. -/
theorem C14_flatten_expand [Zero α] (mlm : List α) (S v : ℕ) (hv : 0 < v)
    (h : mlm.length = (S + 1) * v) :
    ∃ (f : Fin v → Fin S → α) (s : List α),
      expandMlm mlm (some (S : ℤ)) none = .ok (.d2 ⟨v, S, f⟩, s) ∧ s.length = v ∧
      flattenMlm (.d2 ⟨v, S, f⟩) s = mlm := by
  have h1 : S + 1 ≤ mlm.length := by rw [h]; exact Nat.le_mul_of_pos_right _ hv
  have h2 : mlm.length / (S + 1) = v := by rw [h]; exact Nat.mul_div_cancel_left v (by omega)
  refine ⟨fun r c => (mlmColumn mlm v c).getD r 0, slice mlm 0 v, ?_, ?_, ?_⟩
  · rw [expandMlm_nscales _ S false h1, h2, expandFull_ok _ v S (le_of_eq h.symm)]
  · have : v ≤ mlm.length := by rw [h]; exact Nat.le_mul_of_pos_left _ (by omega)
    simp [slice, this]
  · have := ravelF_expand mlm v S (le_of_eq h.symm)
    rw [← h, List.take_length] at this
    simpa [flattenMlm, WavArr.ravelF] using this

example : (0 < 2) ∧ ([1, 2] : List ℤ).length = 2 ∧
    flattenMlm (.d2 ⟨2, 2, fun r c => ![![(3 : ℤ), 5], ![4, 6]] r c⟩) [1, 2] = [1, 2, 3, 4, 5, 6] := by
  refine ⟨by norm_num, rfl, ?_⟩
  simp [flattenMlm, WavArr.ravelF, Arr2.ravelF, List.finRange]

/-! ## C15 -/

/-- C15: neither or both of `nscales`/`nscalcoefs` raise `ValueError`. -/
theorem C15_argument_check [Zero α] (mlm : List α) (fl : Bool) (a b : ℤ) :
    expandMlm mlm none none fl = .error .ValueError ∧
    expandMlm mlm (some a) (some b) fl = .error .ValueError :=
  ⟨rfl, rfl⟩

/-- C15: for every integer `nscales` a vector shorter than `nscales+1`, or `nscales < 0`, raises. -/
theorem C15_too_short [Zero α] (mlm : List α) (S : ℤ) (fl : Bool) (h : S < 0 ∨ (mlm.length : ℤ) < S + 1) :
    ∃ e, expandMlm mlm (some S) none fl = .error e ∧
      (e = if S = -1 then .ZeroDivisionError else .AssertionError) := by
  unfold expandMlm
  by_cases h0 : S + 1 = 0
  · exact ⟨_, if_pos h0, by rw [if_pos (by omega)]⟩
  · have hv : Int.fdiv (mlm.length : ℤ) (S + 1) ≤ 0 := by
      rcases lt_or_gt_of_ne h0 with hn | hp
      · exact Int.fdiv_nonpos_of_nonneg_of_nonpos (by omega) (by omega)
      · have : (mlm.length : ℤ) < S + 1 := by omega
        rw [Int.fdiv_eq_ediv_of_nonneg _ (by omega)]
        rw [Int.ediv_eq_zero_of_lt (by omega) this]
    refine ⟨.AssertionError, ?_, by rw [if_neg (by omega)]⟩
    simp only [if_neg h0]
    rw [if_neg (by omega)]

/-- C15: otherwise unpacking succeeds, and re-packing gives exactly the first `(size//(S+1))·(S+1)`
entries; nothing is lost iff `S+1` divides the size. -/
theorem C15_truncates [Zero α] (mlm : List α) (S : ℕ) (h : S + 1 ≤ mlm.length) :
    ∃ w s, expandMlm mlm (some (S : ℤ)) none false = .ok (w, s) ∧
      flattenMlm w s = mlm.take (mlm.length / (S + 1) * (S + 1)) ∧
      (flattenMlm w s = mlm ↔ (S + 1) ∣ mlm.length) := by
  set v := mlm.length / (S + 1) with hv
  have hle : (S + 1) * v ≤ mlm.length := Nat.mul_div_le _ _
  have hflat : flattenMlm (.d2 ⟨v, S, fun r c => (mlmColumn mlm v c).getD r 0⟩) (slice mlm 0 v) =
      mlm.take (v * (S + 1)) := by
    have := ravelF_expand mlm v S hle
    rw [Nat.mul_comm v]
    simpa [flattenMlm, WavArr.ravelF] using this
  refine ⟨_, _, ?_, hflat, ?_⟩
  · rw [expandMlm_nscales _ S false h, ← hv, expandFull_ok _ v S hle]
  · rw [hflat]
    constructor
    · intro he
      have := congrArg List.length he
      rw [List.length_take, min_eq_left (by rw [Nat.mul_comm]; exact hle)] at this
      exact ⟨v, by rw [Nat.mul_comm, this]⟩
    · intro hd
      rw [hv, Nat.div_mul_cancel hd, List.take_length]

/-- C15: the same truncation with `flatten_wavs=True` (at least one scale); `nscales = 0` with
`flatten_wavs=True` raises. -/
theorem C15_truncates_flat [Zero α] (mlm : List α) (S : ℕ) (h : S + 1 ≤ mlm.length) :
    (0 < S → ∃ w s, expandMlm mlm (some (S : ℤ)) none true = .ok (.d1 w, s) ∧
      s ++ w = mlm.take (mlm.length / (S + 1) * (S + 1))) ∧
    (S = 0 → expandMlm mlm (some (S : ℤ)) none true = .error .ValueError) := by
  constructor
  · intro hS
    set v := mlm.length / (S + 1) with hv
    have hle : (S + 1) * v ≤ mlm.length := Nat.mul_div_le _ _
    refine ⟨_, _, by rw [expandMlm_nscales _ S true h, ← hv, expandFull_ok_flat _ v S hS hle], ?_⟩
    rw [ravelF_expand mlm v S hle, Nat.mul_comm v]
  · rintro rfl
    rw [expandMlm_nscales _ 0 true h]
    simp [expandFull]

/-- A vector of 7 entries with `nscales = 2` loses its last entry. -/
example : 2 + 1 ≤ ([1, 2, 3, 4, 5, 6, 7] : List ℤ).length ∧
    ¬ (2 + 1) ∣ ([1, 2, 3, 4, 5, 6, 7] : List ℤ).length := by
  constructor <;> simp

example : ((([1, 2] : List ℤ).length : ℤ)) < 2 + 1 := by simp

/-! ## C72 -/

theorem bandlimitOf_spec (g : List ℂ) (b : ℕ) : bandlimitOf g = .ok b ↔
    ∃ k, b = k + 1 ∧ g.getD k 0 ≠ 0 ∧ k < g.length ∧ ∀ i, k < i → g.getD i 0 = 0 := by
  unfold bandlimitOf
  have hmem : ∀ i, i ∈ nonzeroIdx g ↔ i < g.length ∧ g.getD i 0 ≠ 0 := by
    intro i; simp [nonzeroIdx]
  cases hm : (nonzeroIdx g).max? with
  | none =>
    rw [List.max?_eq_none_iff] at hm
    simp only [reduceCtorEq, false_iff]
    rintro ⟨k, -, h1, h2, -⟩
    have := (hmem k).mpr ⟨h2, h1⟩
    rw [hm] at this; simp at this
  | some k =>
    rw [List.max?_eq_some_iff] at hm
    obtain ⟨hk, hmax⟩ := hm
    have hk' := (hmem k).mp hk
    simp only [Except.ok.injEq]
    constructor
    · rintro rfl
      refine ⟨k, rfl, hk'.2, hk'.1, fun i hi => ?_⟩
      by_contra hne
      have hlt : i < g.length := by
        by_contra hc
        exact hne (by simp [List.getD, List.getElem?_eq_none (not_lt.mp hc)])
      exact absurd (hmax i ((hmem i).mpr ⟨hlt, hne⟩)) (by omega)
    · rintro ⟨k', rfl, h1, h2, h3⟩
      have h4 := hmax k' ((hmem k').mpr ⟨h2, h1⟩)
      have : ¬ k' < k := fun h => hk'.2 (h3 k h)
      omega

theorem bandlimitOf_error (g : List ℂ) (e : PyErr) :
    bandlimitOf g = .error e ↔ e = .ValueError ∧ ∀ i, g.getD i 0 = 0 := by
  cases hb : bandlimitOf g with
  | ok b =>
    obtain ⟨k, -, h1, -, -⟩ := (bandlimitOf_spec g b).mp hb
    simp only [reduceCtorEq, false_iff, not_and]
    exact fun _ h => h1 (h k)
  | error e' =>
    have he : e' = .ValueError := by
      unfold bandlimitOf at hb
      split at hb <;> simp_all
    subst he
    have hz : ∀ i, g.getD i 0 = 0 := by
      unfold bandlimitOf at hb
      cases hm : (nonzeroIdx g).max? with
      | some k => rw [hm] at hb; simp at hb
      | none =>
        rw [List.max?_eq_none_iff] at hm
        intro i
        by_contra hne
        have hlt : i < g.length := by
          by_contra hc
          exact hne (by simp [List.getD, List.getElem?_eq_none (not_lt.mp hc)])
        have : i ∈ nonzeroIdx g := by simp [nonzeroIdx] at hne ⊢; exact ⟨hlt, hne⟩
        rw [hm] at this; simp at this
    constructor
    · intro h; injection h with h; exact ⟨h.symm, hz⟩
    · rintro ⟨rfl, -⟩; rfl

/-- The degree profile of the scaling function and of every wavelet: `phi_l` itself, and the `m = 0`
harmonic coefficients (index `l²+l`) of the wavelets, for `l < L`. -/
def profile (psi : List ℂ) (l : ℕ) : ℂ := psi.getD (l ^ 2 + l) 0

theorem degreeZeroPart_ok (L : ℕ) (psi : List ℂ) (h : L ^ 2 ≤ psi.length) :
    degreeZeroPart L psi = .ok ((List.range L).map (profile psi)) := by
  unfold degreeZeroPart
  rw [mapM_ok_iff, List.forall₂_map_right_iff, List.forall₂_same]
  intro l hl
  rw [List.mem_range] at hl
  have hlt : l ^ 2 + l < psi.length := by nlinarith
  have h0 : ¬ (((l ^ 2 + l : ℕ) : ℤ) < 0) := by omega
  unfold pyGet profile
  simp only [if_neg h0, Int.toNat_natCast, List.getElem?_eq_getElem hlt, List.getD]
  rw [if_pos (by omega)]
  rfl

/-- `b` is the bandlimit of the profile `g` (of degrees below `L`): the smallest `b` such that the function
vanishes at all degrees `≥ b`. -/
def IsBandlimit (L : ℕ) (g : ℕ → ℂ) (b : ℕ) : Prop :=
  IsLeast {b : ℕ | ∀ l, b ≤ l → l < L → g l = 0} b

theorem isBandlimit_of_spec (L : ℕ) (g : ℕ → ℂ) (b : ℕ)
    (h : bandlimitOf ((List.range L).map g) = .ok b) : IsBandlimit L g b ∧ 1 ≤ b ∧ b ≤ L := by
  obtain ⟨k, rfl, h1, h2, h3⟩ := (bandlimitOf_spec _ b).mp h
  simp only [List.length_map, List.length_range] at h2
  have hget : ∀ i, i < L → ((List.range L).map g).getD i 0 = g i := by
    intro i hi; simp [List.getD, hi]
  rw [hget k h2] at h1
  refine ⟨⟨fun l hl hL => ?_, fun b' hb' => ?_⟩, by omega, by omega⟩
  · have := h3 l (by omega)
    rwa [hget l hL] at this
  · by_contra hc
    exact h1 (hb' k (by omega) h2)

/-- C72: whenever `pys2let.wavelet_tiling` returns an `L`-vector `phi` and wavelets with `L²` coefficients and
`_multires_bandlimits` succeeds, it returns one bandlimit per function, each the smallest `b` beyond which
the function vanishes, and `1 ≤ b ≤ L`. -/
theorem C72_bandlimits (L : ℕ) (phi : List ℂ) (psis : List (List ℂ)) (hphi : phi.length = L)
    (hpsi : ∀ psi ∈ psis, L ^ 2 ≤ psi.length) (bs : List ℕ)
    (h : multiresBandlimits L phi psis = .ok bs) :
    List.Forall₂ (fun (g : ℕ → ℂ) b => IsBandlimit L g b ∧ 1 ≤ b ∧ b ≤ L)
      ((fun l => phi.getD l 0) :: psis.map profile) bs := by
  have hps : psis.mapM (degreeZeroPart L) = .ok (psis.map fun psi => (List.range L).map (profile psi)) := by
    rw [mapM_ok_iff, List.forall₂_map_right_iff, List.forall₂_same]
    exact fun psi hp => degreeZeroPart_ok L psi (hpsi psi hp)
  unfold multiresBandlimits at h
  rw [hps] at h
  simp only [bind, Except.bind, if_pos hphi] at h
  rw [mapM_ok_iff] at h
  have e : phi :: psis.map (fun psi => (List.range L).map (profile psi)) =
      ((fun l => phi.getD l 0) :: psis.map profile).map fun g => (List.range L).map g := by
    simp only [List.map_cons, List.map_map]
    congr 1
    apply List.ext_getElem
    · simp [hphi]
    · intro i h1 h2; simp [List.getD, List.getElem?_eq_getElem h1]
  rw [e, List.forall₂_map_left_iff] at h
  exact h.imp fun g b hb => isBandlimit_of_spec L g b hb

/-- C72: a function that is identically zero makes the call raise. -/
theorem C72_zero_function_raises (L : ℕ) (phi : List ℂ) (psis : List (List ℂ)) (hphi : phi.length = L)
    (hpsi : ∀ psi ∈ psis, L ^ 2 ≤ psi.length)
    (hz : (∀ l, phi.getD l 0 = 0) ∨ ∃ psi ∈ psis, ∀ l < L, profile psi l = 0) :
    ∃ e, multiresBandlimits L phi psis = .error e := by
  have hps : psis.mapM (degreeZeroPart L) = .ok (psis.map fun psi => (List.range L).map (profile psi)) := by
    rw [mapM_ok_iff, List.forall₂_map_right_iff, List.forall₂_same]
    exact fun psi hp => degreeZeroPart_ok L psi (hpsi psi hp)
  unfold multiresBandlimits
  rw [hps]
  simp only [bind, Except.bind, if_pos hphi]
  rcases hz with hz | ⟨psi, hp, hz⟩
  · exact mapM_error_of_mem _ _ phi (by simp) _ ((bandlimitOf_error phi _).mpr ⟨rfl, hz⟩)
  · refine mapM_error_of_mem _ _ ((List.range L).map (profile psi)) ?_ _
      ((bandlimitOf_error _ _).mpr ⟨rfl, ?_⟩)
    · exact List.mem_cons_of_mem _ (List.mem_map_of_mem hp)
    · intro i
      by_cases hi : i < L
      · simp [List.getD, hi]; exact hz i hi
      · simp [List.getD, hi]

/-- C72: conversely it succeeds as soon as every function is non-zero at some degree below `L`. -/
theorem C72_succeeds (L : ℕ) (phi : List ℂ) (psis : List (List ℂ)) (hphi : phi.length = L)
    (hpsi : ∀ psi ∈ psis, L ^ 2 ≤ psi.length)
    (hnz : ∃ l, phi.getD l 0 ≠ 0) (hnz' : ∀ psi ∈ psis, ∃ l < L, profile psi l ≠ 0) :
    ∃ bs, multiresBandlimits L phi psis = .ok bs ∧ bs.length = psis.length + 1 := by
  have hps : psis.mapM (degreeZeroPart L) = .ok (psis.map fun psi => (List.range L).map (profile psi)) := by
    rw [mapM_ok_iff, List.forall₂_map_right_iff, List.forall₂_same]
    exact fun psi hp => degreeZeroPart_ok L psi (hpsi psi hp)
  unfold multiresBandlimits
  rw [hps]
  simp only [bind, Except.bind, if_pos hphi]
  have hall : ∀ g ∈ phi :: psis.map (fun psi => (List.range L).map (profile psi)),
      ∃ b, bandlimitOf g = .ok b := by
    intro g hg
    cases hb : bandlimitOf g with
    | ok b => exact ⟨b, rfl⟩
    | error e =>
      exfalso
      have hz := ((bandlimitOf_error g e).mp hb).2
      rcases List.mem_cons.mp hg with rfl | hg
      · obtain ⟨l, hl⟩ := hnz; exact hl (hz l)
      · obtain ⟨psi, hp, rfl⟩ := List.mem_map.mp hg
        obtain ⟨l, hl, hne⟩ := hnz' psi hp
        apply hne
        have := hz l
        simpa [List.getD, hl] using this
  choose! b hb using hall
  refine ⟨(phi :: psis.map (fun psi => (List.range L).map (profile psi))).map b, ?_, by simp⟩
  rw [mapM_ok_iff, List.forall₂_map_right_iff, List.forall₂_same]
  exact hb

example : multiresBandlimits 2 [1, 0] [[0, 0, 5, 0]] = .ok [1, 2] := by
  rw [multiresBandlimits]
  have h1 : degreeZeroPart 2 [0, 0, 5, 0] = .ok [0, 5] := by
    rw [degreeZeroPart_ok _ _ (by simp)]; simp [List.range_succ, profile]
  have b1 : bandlimitOf [1, 0] = .ok 1 := by
    rw [bandlimitOf_spec]
    exact ⟨0, rfl, by simp, by simp, fun i hi => by match i, hi with | 1, _ => simp | n + 2, _ => simp⟩
  have b2 : bandlimitOf [0, 5] = .ok 2 := by
    rw [bandlimitOf_spec]
    exact ⟨1, rfl, by simp, by simp, fun i hi => by match i, hi with | n + 2, _ => simp⟩
  have : [[(0 : ℂ), 0, 5, 0]].mapM (degreeZeroPart 2) = .ok [[0, 5]] := by
    rw [mapM_ok_iff]; exact .cons h1 .nil
  rw [this]
  show [[1, 0], [0, 5]].mapM bandlimitOf = .ok [1, 2]
  rw [mapM_ok_iff]; exact .cons b1 (.cons b2 .nil)

end Pxmcmc
