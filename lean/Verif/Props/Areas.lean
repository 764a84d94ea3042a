import Verif.Model.UtilsSphere
import Mathlib.Tactic.Linarith
import Mathlib.Tactic.Positivity

/-! # Properties C22, C23, C26, C71: areas, masks, signal-to-noise (`pxmcmc/utils.py`) -/

namespace Pxmcmc
open Real

/-! ## C22 -/

theorem pairs_sum (f : ℝ → ℝ) : ∀ (l : List ℝ) (a : ℝ),
    ((pairs (a :: l)).map fun q => f q.2 - f q.1).sum = f ((a :: l).getLast (by simp)) - f a
  | [], a => by simp [pairs]
  | b :: l, a => by
    have ih := pairs_sum f l b
    have : pairs (a :: b :: l) = (a, b) :: pairs (b :: l) := rfl
    have e : (a :: b :: l).getLast (by simp) = (b :: l).getLast (by simp) :=
      List.getLast_cons (by simp)
    rw [this, List.map_cons, List.sum_cons, ih, e]
    ring

theorem pairs_length {α : Type} (l : List α) : (pairs l).length = l.length - 1 := by
  simp [pairs]

theorem mwThetas_length (L : ℕ) : (mwThetas L).length = L := by simp [mwThetas]
theorem mwPhis_length (L : ℕ) : (mwPhis L).length = 2 * L - 1 := by simp [mwPhis]

theorem two_L_pos {L : ℕ} (hL : 1 ≤ L) : (0 : ℝ) < 2 * L - 1 := by
  have : (1 : ℝ) ≤ L := by exact_mod_cast hL
  linarith

theorem mwThetas_cons {L : ℕ} (hL : 1 ≤ L) : ∃ l, mwThetas L = (π / (2 * L - 1)) :: l := by
  obtain ⟨k, rfl⟩ := Nat.exists_eq_add_of_le' hL
  rw [mwThetas, List.range_succ_eq_map, List.map_cons]
  exact ⟨_, by simp; rfl⟩

theorem mwThetas_last {L : ℕ} (hL : 1 ≤ L) (h : mwThetas L ≠ []) : (mwThetas L).getLast h = π := by
  rw [List.getLast_eq_getElem]
  simp only [mwThetas, List.getElem_map, List.getElem_range, List.length_map, List.length_range]
  have := two_L_pos hL
  have e : ((L - 1 : ℕ) : ℝ) = L - 1 := by push_cast [hL]; ring
  rw [e]
  field_simp
  ring

theorem mwPhis_cons {L : ℕ} (hL : 1 ≤ L) : ∃ l, mwPhis L = 0 :: l := by
  obtain ⟨k, rfl⟩ := Nat.exists_eq_add_of_le' hL
  have : 2 * (k + 1) - 1 = 2 * k + 1 := by omega
  rw [mwPhis, this, List.range_succ_eq_map, List.map_cons]
  exact ⟨_, by simp; rfl⟩

theorem pairs_mem_lt {l : List ℝ} (h : l.Pairwise (· < ·)) {q : ℝ × ℝ} (hq : q ∈ pairs l) :
    q.1 < q.2 ∧ q.1 ∈ l ∧ q.2 ∈ l := by
  obtain ⟨i, hi, rfl⟩ := List.getElem_of_mem hq
  have hl : i + 1 < l.length := by rw [pairs_length] at hi; omega
  simp only [pairs, List.getElem_zip, List.getElem_tail]
  exact ⟨List.pairwise_iff_getElem.mp h i (i + 1) (by omega) hl (by omega),
    List.getElem_mem _, List.getElem_mem _⟩

theorem mwThetas_sorted {L : ℕ} (hL : 1 ≤ L) : (mwThetas L).Pairwise (· < ·) := by
  rw [mwThetas, List.pairwise_map]
  refine (List.pairwise_lt_range (n := L)).imp fun {a b} hab => ?_
  have h := two_L_pos hL
  have : (a : ℝ) < b := by exact_mod_cast hab
  have hpi := pi_pos
  apply div_lt_div_of_pos_right _ h
  nlinarith

theorem mwThetas_range {L : ℕ} (hL : 1 ≤ L) {t : ℝ} (ht : t ∈ mwThetas L) : 0 < t ∧ t ≤ π := by
  simp only [mwThetas, List.mem_map, List.mem_range] at ht
  obtain ⟨k, hk, rfl⟩ := ht
  have h := two_L_pos hL
  have hpi := pi_pos
  have hk' : (k : ℝ) ≤ L - 1 := by
    have : (k : ℝ) + 1 ≤ L := by exact_mod_cast hk
    linarith
  constructor
  · positivity
  · rw [div_le_iff₀ h]
    nlinarith

theorem mwPhis_sorted {L : ℕ} (hL : 1 ≤ L) : (mwPhis L ++ [2 * π]).Pairwise (· < ·) := by
  have h := two_L_pos hL
  have hpi := pi_pos
  rw [List.pairwise_append]
  refine ⟨?_, List.pairwise_singleton _ _, ?_⟩
  · rw [mwPhis, List.pairwise_map]
    refine (List.pairwise_lt_range (n := 2 * L - 1)).imp fun {a b} hab => ?_
    have : (a : ℝ) < b := by exact_mod_cast hab
    apply div_lt_div_of_pos_right _ h
    nlinarith
  · intro a ha b hb
    simp only [mwPhis, List.mem_map, List.mem_range, List.mem_singleton] at ha hb
    obtain ⟨k, hk, rfl⟩ := ha
    subst hb
    have hk' : (k : ℝ) < 2 * L - 1 := by
      have : (k : ℝ) + 1 ≤ ((2 * L - 1 : ℕ) : ℝ) := by exact_mod_cast hk
      rw [Nat.cast_sub (by omega)] at this
      push_cast at this
      linarith
    rw [div_lt_iff₀ h]
    nlinarith

theorem calcPixelAreas_eq {L : ℕ} (hL : 1 ≤ L) (r : ℝ) : calcPixelAreas L r =
    .ok (List.replicate (2 * L - 1) (polarCapArea r (π / (2 * L - 1)) / ((2 * L - 1 : ℕ) : ℝ)) ::
      (pairs (mwThetas L)).map fun th => (pairs (mwPhis L ++ [2 * π])).map fun ph =>
        pixelArea r th.1 th.2 ph.1 ph.2) := by
  obtain ⟨l, hl⟩ := mwThetas_cons hL
  have h0 : pyGet (mwThetas L) 0 = .ok (π / (2 * L - 1)) := by rw [hl]; simp [pyGet]
  unfold calcPixelAreas
  simp only [h0, mwPhis_length]
  rfl

/-- C22: `calc_pixel_areas(L, r)` has `L` rows of `2L-1` positive entries that sum to `4πr²`. -/
theorem C22_pixel_areas (L : ℕ) (hL : 1 ≤ L) (r : ℝ) (hr : 0 < r) :
    ∃ A : List (List ℝ), calcPixelAreas L r = .ok A ∧ A.length = L ∧
      (∀ row ∈ A, row.length = 2 * L - 1 ∧ ∀ a ∈ row, 0 < a) ∧
      (A.map List.sum).sum = 4 * π * r ^ 2 := by
  have hN := two_L_pos hL
  have hpi := pi_pos
  have hNc : ((2 * L - 1 : ℕ) : ℝ) = 2 * L - 1 := by rw [Nat.cast_sub (by omega)]; push_cast; ring
  have hθ0 : 0 < π / (2 * L - 1) := by positivity
  have hθ0' : π / (2 * (L : ℝ) - 1) ≤ π := by
    apply div_le_self hpi.le
    have : (1 : ℝ) ≤ L := by exact_mod_cast hL
    linarith
  refine ⟨_, calcPixelAreas_eq hL r, ?_, ?_, ?_⟩
  · simp [pairs_length, mwThetas_length]; omega
  · intro row hrow
    rcases List.mem_cons.mp hrow with rfl | hrow
    · refine ⟨by simp, fun a ha => ?_⟩
      rw [List.mem_replicate] at ha
      obtain ⟨-, rfl⟩ := ha
      have hcos : cos (π / (2 * L - 1)) < 1 := by
        have := cos_lt_cos_of_nonneg_of_le_pi le_rfl hθ0' hθ0
        rwa [cos_zero] at this
      unfold polarCapArea
      rw [hNc]
      apply div_pos _ hN
      apply mul_pos (by positivity)
      linarith
    · obtain ⟨th, hth, rfl⟩ := List.mem_map.mp hrow
      obtain ⟨h1, h2, h3⟩ := pairs_mem_lt (mwThetas_sorted hL) hth
      have hc : cos th.2 < cos th.1 :=
        cos_lt_cos_of_nonneg_of_le_pi (mwThetas_range hL h2).1.le (mwThetas_range hL h3).2 h1
      refine ⟨by simp [pairs_length, mwPhis_length], fun a ha => ?_⟩
      obtain ⟨ph, hph, rfl⟩ := List.mem_map.mp ha
      obtain ⟨h4, -, -⟩ := pairs_mem_lt (mwPhis_sorted hL) hph
      unfold pixelArea
      exact mul_pos (mul_pos (by positivity) (by linarith)) (by linarith)
  · rw [List.map_cons, List.sum_cons, List.sum_replicate, List.map_map, nsmul_eq_mul]
    have hrow : ∀ th : ℝ × ℝ, (List.sum ∘ fun th : ℝ × ℝ => (pairs (mwPhis L ++ [2 * π])).map fun ph =>
        pixelArea r th.1 th.2 ph.1 ph.2) th =
        (-(r ^ 2 * (2 * π) * cos th.2)) - (-(r ^ 2 * (2 * π) * cos th.1)) := by
      intro th
      obtain ⟨l, hl⟩ := mwPhis_cons hL
      simp only [Function.comp, pixelArea]
      have := pairs_sum (fun x => r ^ 2 * (cos th.1 - cos th.2) * x) (l ++ [2 * π]) 0
      simp only [← mul_sub] at this
      rw [hl, List.cons_append, this]
      rw [List.getLast_cons (by simp), List.getLast_append_of_ne_nil _ (by simp)]
      simp
      ring
    rw [List.map_congr_left (fun th _ => hrow th)]
    obtain ⟨l, hl⟩ := mwThetas_cons hL
    have hs := pairs_sum (fun x => -(r ^ 2 * (2 * π) * cos x)) l (π / (2 * L - 1))
    have hlast : ((π / (2 * (L : ℝ) - 1)) :: l).getLast (by simp) = π := by
      have := mwThetas_last hL (by rw [hl]; simp)
      simpa only [hl] using this
    rw [hl, hs, hlast, cos_pi, hNc]
    unfold polarCapArea
    field_simp
    ring

/-- The smallest sampling with several rings, and `L = 0`, which raises. -/
example : (1 ≤ 2) ∧ (0 : ℝ) < 1 ∧ calcPixelAreas 0 1 = .error .IndexError := by
  refine ⟨by norm_num, by norm_num, ?_⟩
  simp [calcPixelAreas, mwThetas, pyGet, bind, Except.bind]

/-! ## C23 -/

/-- C23: areas are additive under splitting in latitude and longitude. -/
theorem C23_additive (r a b c d e : ℝ) :
    pixelArea r a c d e = pixelArea r a b d e + pixelArea r b c d e ∧
    pixelArea r d e a c = pixelArea r d e a b + pixelArea r d e b c := by
  unfold pixelArea; constructor <;> ring

/-- C23: non-negative for ordered angles. -/
theorem C23_nonneg (r t1 t2 p1 p2 : ℝ) (h0 : 0 ≤ t1) (h : t1 ≤ t2) (h1 : t2 ≤ π) (hp : p1 ≤ p2) :
    0 ≤ pixelArea r t1 t2 p1 p2 := by
  unfold pixelArea
  have : cos t2 ≤ cos t1 := cos_le_cos_of_nonneg_of_le_pi h0 h1 h
  exact mul_nonneg (mul_nonneg (sq_nonneg r) (by linarith)) (by linarith)

example : (0 : ℝ) ≤ 1 ∧ (1 : ℝ) ≤ 2 ∧ (2 : ℝ) ≤ π ∧ (0 : ℝ) ≤ 1 :=
  ⟨by norm_num, by norm_num, two_le_pi, by norm_num⟩

/-- C23: a full ring starting at the pole is a polar cap, a cap and its complement make up the sphere. -/
theorem C23_cap (r t p : ℝ) :
    pixelArea r 0 t p (p + 2 * π) = polarCapArea r t ∧
    polarCapArea r t + pixelArea r t π p (p + 2 * π) = 4 * π * r ^ 2 := by
  unfold pixelArea polarCapArea
  rw [cos_zero, cos_pi]
  constructor <;> ring

/-! ## C26 -/

/-- The latitude band: masked pixels are those within `size` degrees of the ecliptic or the galactic
plane (statement independent of the loops of the code). -/
def Masked (galb : ℝ → ℝ → ℝ) (size t p : ℝ) : Prop :=
  |90 - t * 180 / π| < size ∨ |galb (p * 180 / π - 180) (t * 180 / π - 90)| < size

/-- C26: shape `(L, 2L-1)`, entries 0 or 1, and an entry is 0 iff its pixel lies in one of the two bands. -/
theorem C26_mask (galb : ℝ → ℝ → ℝ) (L : ℕ) (size : ℝ) :
    (buildMask galb L size).length = L ∧
    ∀ t p : ℕ, t < L → p < 2 * L - 1 → ∃ row v, (buildMask galb L size)[t]? = some row ∧
      row.length = 2 * L - 1 ∧ row[p]? = some v ∧ (v = 0 ∨ v = 1) ∧
      (v = 0 ↔ Masked galb size ((2 * t + 1) * π / (2 * L - 1)) (2 * π * p / (2 * L - 1))) := by
  refine ⟨by simp [buildMask, mwThetas_length], fun t p ht hp => ?_⟩
  refine ⟨_, _, by simp [buildMask, mwThetas, ht]; rfl, by simp [mwPhis_length],
    by simp [mwPhis, hp]; rfl, ?_, ?_⟩
  · split_ifs <;> simp
  · unfold Masked degrees
    split_ifs with h1 h2 <;> simp [*]

/-- Larger bands contain smaller ones. -/
theorem masked_mono (galb : ℝ → ℝ → ℝ) (s s' t p : ℝ) (h : s ≤ s') (hm : Masked galb s t p) :
    Masked galb s' t p := by
  rcases hm with h1 | h1
  · exact Or.inl (lt_of_lt_of_le h1 h)
  · exact Or.inr (lt_of_lt_of_le h1 h)

/-- C26, on the returned arrays: a pixel masked with `size = s` is masked with every larger size. -/
theorem C26_mask_mono_array (galb : ℝ → ℝ → ℝ) (L : ℕ) (s s' : ℝ) (h : s ≤ s') (t p : ℕ) (ht : t < L)
    (hp : p < 2 * L - 1)
    (h0 : ∃ row, (buildMask galb L s)[t]? = some row ∧ row[p]? = some 0) :
    ∃ row, (buildMask galb L s')[t]? = some row ∧ row[p]? = some 0 := by
  obtain ⟨row, hr, hv⟩ := h0
  obtain ⟨row1, v, h1, -, h3, -, h5⟩ := (C26_mask galb L s).2 t p ht hp
  rw [hr] at h1; injection h1 with h1; subst h1
  rw [hv] at h3; injection h3 with h3
  obtain ⟨row2, v2, k1, -, k3, -, k5⟩ := (C26_mask galb L s').2 t p ht hp
  refine ⟨row2, k1, ?_⟩
  rw [k3, k5.mpr (masked_mono galb s s' _ _ h (h5.mp h3.symm))]

/-- C26: `size ≤ 0` masks nothing. -/
theorem C26_mask_none (galb : ℝ → ℝ → ℝ) (L : ℕ) (size : ℝ) (h : size ≤ 0) :
    buildMask galb L size = List.replicate L (List.replicate (2 * L - 1) 1) := by
  have h1 : ∀ x : ℝ, ¬ |x| < size := fun x hx => absurd (abs_nonneg x) (by linarith)
  unfold buildMask
  simp [h1, mwThetas_length, mwPhis_length]

/-- C26 is not vacuous: the equatorial ring is masked with `size = 20`. -/
example : Masked (fun _ _ => 90) 20 (π / 2) 0 := by
  left
  have : π / 2 * 180 / π = 90 := by field_simp; ring
  rw [this]; norm_num

/-! ## C71 -/

variable {𝕜 : Type} [RCLike 𝕜]

theorem npNorm_nonneg (x : List 𝕜) : 0 ≤ npNorm x := sqrt_nonneg _

theorem npNorm_smul (c : 𝕜) (x : List 𝕜) : npNorm (x.map fun a => c * a) = ‖c‖ * npNorm x := by
  unfold npNorm
  have e : ((x.map fun a => c * a).map fun a => ‖a‖ ^ 2).sum = ‖c‖ ^ 2 * (x.map fun a => ‖a‖ ^ 2).sum := by
    rw [List.map_map, ← List.sum_map_mul_left]
    congr 1
    apply List.map_congr_left
    intro a _
    simp [mul_pow]
  rw [e, sqrt_mul (sq_nonneg _), sqrt_sq (norm_nonneg c)]

/-- C71: scaling the signal by `c ≠ 0` adds `20 log10 |c|`. -/
theorem C71_snr_scale (c : 𝕜) (hc : c ≠ 0) (s n : List 𝕜) (hs : npNorm s ≠ 0) (hn : npNorm n ≠ 0) :
    snr (s.map fun a => c * a) n = snr s n + 20 * logb 10 ‖c‖ := by
  unfold snr
  rw [npNorm_smul, mul_div_assoc, logb_mul (norm_ne_zero_iff.mpr hc) (div_ne_zero hs hn)]
  ring

/-- C71: swapping signal and noise changes the sign. -/
theorem C71_snr_swap (s n : List 𝕜) (_hs : npNorm s ≠ 0) (_hn : npNorm n ≠ 0) : snr n s = -snr s n := by
  unfold snr
  rw [← inv_div, logb_inv]; ring

/-- C71: `snr ≥ 0` iff the signal norm is at least the noise norm. -/
theorem C71_snr_nonneg (s n : List 𝕜) (hs : npNorm s ≠ 0) (hn : npNorm n ≠ 0) :
    0 ≤ snr s n ↔ npNorm n ≤ npNorm s := by
  have hn' : 0 < npNorm n := lt_of_le_of_ne (npNorm_nonneg n) hn.symm
  have hs' : 0 < npNorm s := lt_of_le_of_ne (npNorm_nonneg s) hs.symm
  unfold snr
  rw [mul_nonneg_iff_of_pos_left (by norm_num), logb_nonneg_iff (by norm_num) (div_pos hs' hn'),
    one_le_div hn']

example : npNorm ([3, 4] : List ℝ) = 5 := by
  unfold npNorm
  have : (([3, 4] : List ℝ).map fun a => ‖a‖ ^ 2).sum = 5 ^ 2 := by norm_num
  rw [this, sqrt_sq (by norm_num)]

end Pxmcmc
