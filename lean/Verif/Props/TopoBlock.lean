import Verif.Model.TopoBlock
import Verif.Props.Experiments

/-! # Property C136: `--scaleafrica` scales the noise of the pixels in the African block -/

namespace Pxmcmc

/-! ## Spec -/

/-- Colatitude of ring `t` and longitude of column `p` of the MW sampling at band limit `L`, in radians. -/
noncomputable def ringAngle (L t : ℕ) : ℝ := (2 * t + 1) * Real.pi / (2 * L - 1)
noncomputable def columnAngle (L p : ℕ) : ℝ := 2 * p * Real.pi / (2 * L - 1)

/-- The centre of pixel `(t, p)` lies at most 30 degrees (plus `e`, `f` radians) from the equator and from the zero meridian. -/
def InAfrica (L t p : ℕ) (e f : ℝ) : Prop :=
  Real.pi / 3 - e ≤ ringAngle L t ∧ ringAngle L t ≤ 2 * Real.pi / 3 + e ∧
    (columnAngle L p ≤ Real.pi / 6 + f ∨ 2 * Real.pi - Real.pi / 6 - f ≤ columnAngle L p)

/-- Some point of the grid falls on pixel `(t, p)`. -/
def GridHits (thetaIdx phiIdx : ℝ → ℤ) (L t p : ℕ) : Prop :=
  ∃ i j : ℕ, i < 100 ∧ j < 100 ∧
    (thetaIdx ((60 + 60 * i / 99) * Real.pi / 180) = t ∨ thetaIdx ((60 + 60 * i / 99) * Real.pi / 180) = (t : ℤ) - L) ∧
    (phiIdx ((-30 + 60 * j / 99) * Real.pi / 180) = p ∨ phiIdx ((-30 + 60 * j / 99) * Real.pi / 180) = (p : ℤ) - (2 * L - 1 : ℕ))

theorem axisIndex_ok {i : ℤ} {n k : ℕ} : axisIndex i n = .ok k ↔ k < n ∧ (i = k ∨ i = (k : ℤ) - n) := by
  unfold axisIndex
  split_ifs with h1 h2
  · rw [Except.ok.injEq]; omega
  · rw [Except.ok.injEq]; omega
  · simp only [false_iff]; omega

theorem mem_africaGrid (a : ℝ × ℝ) : a ∈ africaGrid ↔
    ∃ i j : ℕ, i < 100 ∧ j < 100 ∧ a = ((60 + 60 * i / 99) * Real.pi / 180, (-30 + 60 * j / 99) * Real.pi / 180) := by
  unfold africaGrid linspace
  simp only [List.mem_flatMap, List.mem_map, List.mem_range]
  constructor
  · rintro ⟨t, ⟨i, hi, rfl⟩, p, ⟨j, hj, rfl⟩, rfl⟩
    refine ⟨i, j, hi, hj, ?_⟩
    norm_num
    constructor <;> ring
  · rintro ⟨i, j, hi, hj, rfl⟩
    refine ⟨_, ⟨i, hi, rfl⟩, _, ⟨j, hj, rfl⟩, ?_⟩
    norm_num
    constructor <;> ring

theorem block_fold (thetaIdx phiIdx : ℝ → ℤ) (L : ℕ) : ∀ (l : List (ℝ × ℝ)) (b0 b : List Bool),
    (l.foldlM (init := b0) fun (block : List Bool) tp => do
      let t ← axisIndex (thetaIdx tp.1) L
      let p ← axisIndex (phiIdx tp.2) (2 * L - 1)
      (.ok (block.set (t * (2 * L - 1) + p) true) : Py (List Bool))) = .ok b → b0.length = mwLength L →
    b.length = mwLength L ∧ ∀ t p : ℕ, t < L → p < 2 * L - 1 → (b[t * (2 * L - 1) + p]? = some true ↔
      b0[t * (2 * L - 1) + p]? = some true ∨
      ∃ tp ∈ l, axisIndex (thetaIdx tp.1) L = .ok t ∧ axisIndex (phiIdx tp.2) (2 * L - 1) = .ok p) := by
  intro l
  induction l with
  | nil =>
    intro b0 b h hl
    obtain rfl : b0 = b := Except.ok.inj h
    exact ⟨hl, fun t p _ _ => by simp⟩
  | cons a l ih =>
    intro b0 b h hl
    rw [List.foldlM_cons] at h
    cases h1 : axisIndex (thetaIdx a.1) L with
    | error e => simp only [h1, bind, Except.bind, reduceCtorEq] at h
    | ok t0 =>
      cases h2 : axisIndex (phiIdx a.2) (2 * L - 1) with
      | error e => simp only [h1, h2, bind, Except.bind, reduceCtorEq] at h
      | ok p0 =>
        simp only [h1, h2, bind, Except.bind] at h
        obtain ⟨hb, hs⟩ := ih _ b h (by rw [List.length_set, hl])
        refine ⟨hb, fun t p ht hp => ?_⟩
        rw [hs t p ht hp]
        have ht0 := (axisIndex_ok.mp h1).1
        have hp0 := (axisIndex_ok.mp h2).1
        have hlt : t * (2 * L - 1) + p < b0.length := by
          rw [hl, mwLength]
          calc t * (2 * L - 1) + p < t * (2 * L - 1) + (2 * L - 1) := by omega
            _ = (t + 1) * (2 * L - 1) := by ring
            _ ≤ L * (2 * L - 1) := Nat.mul_le_mul_right _ ht
        have hset : (b0.set (t0 * (2 * L - 1) + p0) true)[t * (2 * L - 1) + p]? = some true ↔
            b0[t * (2 * L - 1) + p]? = some true ∨ (t0 = t ∧ p0 = p) := by
          rw [List.getElem?_set]
          split_ifs with h3 h4
          · have h5 : t0 = t ∧ p0 = p := by
              have e1 : t0 = t := by
                have := congrArg (· / (2 * L - 1)) h3
                simp only [Nat.mul_add_div (show 0 < 2 * L - 1 by omega), mul_comm _ (2 * L - 1), Nat.div_eq_of_lt hp, Nat.div_eq_of_lt hp0] at this
                omega
              subst e1
              exact ⟨rfl, by omega⟩
            simp [h5]
          · exact absurd (h3 ▸ hlt) h4
          · constructor
            · exact Or.inl
            · rintro (h5 | ⟨rfl, rfl⟩)
              · exact h5
              · exact absurd rfl h3
        rw [hset]
        simp only [List.mem_cons, exists_eq_or_imp, h1, h2, Except.ok.injEq]
        tauto

/-- Which pixels are marked. -/
theorem africaBlock_hits {thetaIdx phiIdx : ℝ → ℤ} {L : ℕ} {block : List Bool} (h : africaBlock thetaIdx phiIdx L = .ok block) :
    block.length = mwLength L ∧ ∀ t p : ℕ, t < L → p < 2 * L - 1 →
      (block[t * (2 * L - 1) + p]? = some true ↔ GridHits thetaIdx phiIdx L t p) := by
  obtain ⟨h1, h2⟩ := block_fold thetaIdx phiIdx L africaGrid _ block h (by simp)
  refine ⟨h1, fun t p ht hp => ?_⟩
  rw [h2 t p ht hp]
  have h0 : ¬ (List.replicate (mwLength L) false)[t * (2 * L - 1) + p]? = some true := by
    intro hc
    have := List.eq_of_mem_replicate (List.mem_of_getElem? hc)
    cases this
  simp only [h0, false_or, axisIndex_ok, ht, hp, true_and]
  constructor
  · rintro ⟨tp, hm, h3, h4⟩
    obtain ⟨i, j, hi, hj, rfl⟩ := (mem_africaGrid tp).mp hm
    exact ⟨i, j, hi, hj, h3, h4⟩
  · rintro ⟨i, j, hi, hj, h3, h4⟩
    exact ⟨_, (mem_africaGrid _).mpr ⟨i, j, hi, hj, rfl⟩, h3, h4⟩

theorem levels_get {thetaIdx phiIdx : ℝ → ℤ} {L : ℕ} {sigma : ℝ} {scale : ℤ} {areas sig : List ℝ} (hs : scale ≠ 0)
    (hl : areas.length = mwLength L) (h : topoLevels thetaIdx phiIdx L sigma scale areas = .ok sig) :
    sig.length = mwLength L ∧ ∀ t p : ℕ, t < L → p < 2 * L - 1 → ∀ a, areas[t * (2 * L - 1) + p]? = some a →
      (GridHits thetaIdx phiIdx L t p → sig[t * (2 * L - 1) + p]? = some (√(sigma ^ 2 / a) * scale)) ∧
      (¬ GridHits thetaIdx phiIdx L t p → sig[t * (2 * L - 1) + p]? = some √(sigma ^ 2 / a)) := by
  unfold topoLevels at h
  rw [if_neg hs] at h
  cases hb : africaBlock thetaIdx phiIdx L with
  | error e => simp only [hb, bind, Except.bind, reduceCtorEq] at h
  | ok block =>
    simp only [hb, bind, Except.bind, Except.ok.injEq] at h
    obtain ⟨h1, h2⟩ := africaBlock_hits hb
    subst h
    refine ⟨by simp [topoSig, hl, h1], fun t p ht hp a ha => ?_⟩
    have hlt : t * (2 * L - 1) + p < block.length := by
      have := (List.getElem?_eq_some_iff.mp ha).1
      omega
    have hz : (areas.zip block)[t * (2 * L - 1) + p]? = some (a, block[t * (2 * L - 1) + p]) := by
      rw [List.getElem?_zip_eq_some]
      exact ⟨ha, List.getElem?_eq_getElem hlt⟩
    have h3 := h2 t p ht hp
    rw [List.getElem?_eq_getElem hlt, Option.some.injEq] at h3
    unfold topoSig
    rw [List.getElem?_map, hz, Option.map_some]
    constructor
    · intro hg
      rw [if_pos ⟨hs, h3.mpr hg⟩]
    · intro hg
      rw [if_neg fun hc => hg (h3.mp hc.2)]

/-- C136, what is scaled: exactly the pixels on which one of the 100 x 100 grid points falls, and these once, however many points fall on
them; the default factor 0 means no scaling.  Missing: that these are the pixels of the block (`C136_refuted`, `C136_block_partial`). -/
theorem C136_levels_partial (thetaIdx phiIdx : ℝ → ℤ) (L : ℕ) (sigma : ℝ) (areas : List ℝ) (hl : areas.length = mwLength L) :
    (∀ (scale : ℤ) (sig : List ℝ), scale ≠ 0 → topoLevels thetaIdx phiIdx L sigma scale areas = .ok sig →
      sig.length = mwLength L ∧ ∀ t p : ℕ, t < L → p < 2 * L - 1 → ∀ a, areas[t * (2 * L - 1) + p]? = some a →
        (GridHits thetaIdx phiIdx L t p → sig[t * (2 * L - 1) + p]? = some (√(sigma ^ 2 / a) * scale)) ∧
        (¬ GridHits thetaIdx phiIdx L t p → sig[t * (2 * L - 1) + p]? = some √(sigma ^ 2 / a))) ∧
    topoLevels thetaIdx phiIdx L sigma 0 areas = .ok (areas.map fun a => √(sigma ^ 2 / a)) := by
  refine ⟨fun scale sig hs h => levels_get hs hl h, ?_⟩
  unfold topoLevels topoSig
  rw [if_pos rfl]
  refine congrArg Except.ok (List.ext_getElem (by simp) fun i h1 h2 => ?_)
  simp

/-- `theta_to_index` and `phi_to_index` give the index of a nearest ring and of a nearest column (negative for negative longitudes). -/
structure NearestIndex (L : ℕ) (thetaIdx phiIdx : ℝ → ℤ) : Prop where
  theta : ∀ x, |(2 * (thetaIdx x : ℝ) + 1) * Real.pi / (2 * L - 1) - x| ≤ Real.pi / (2 * L - 1)
  phi : ∀ x, |2 * (phiIdx x : ℝ) * Real.pi / (2 * L - 1) - x| ≤ Real.pi / (2 * L - 1)

section Nearest
variable {L : ℕ} {thetaIdx phiIdx : ℝ → ℤ}

/-- The hypothesis without `π`: for an angle of `d` degrees. -/
theorem NearestIndex.theta_deg (h : NearestIndex L thetaIdx phiIdx) (hL : 1 ≤ L) (d : ℝ) :
    |2 * (thetaIdx (d * Real.pi / 180) : ℝ) + 1 - d / 180 * (2 * L - 1)| ≤ 1 := by
  have hn : (0 : ℝ) < 2 * L - 1 := by
    have : (1 : ℝ) ≤ L := by exact_mod_cast hL
    linarith
  have h1 := h.theta (d * Real.pi / 180)
  have e : (2 * (thetaIdx (d * Real.pi / 180) : ℝ) + 1) * Real.pi / (2 * L - 1) - d * Real.pi / 180 =
      (2 * (thetaIdx (d * Real.pi / 180) : ℝ) + 1 - d / 180 * (2 * L - 1)) * (Real.pi / (2 * L - 1)) := by
    field_simp
  rw [e, abs_mul, abs_of_pos (div_pos Real.pi_pos hn)] at h1
  exact le_of_mul_le_mul_right (by rw [one_mul]; exact h1) (div_pos Real.pi_pos hn)

theorem NearestIndex.phi_deg (h : NearestIndex L thetaIdx phiIdx) (hL : 1 ≤ L) (d : ℝ) :
    |2 * (phiIdx (d * Real.pi / 180) : ℝ) - d / 180 * (2 * L - 1)| ≤ 1 := by
  have hn : (0 : ℝ) < 2 * L - 1 := by
    have : (1 : ℝ) ≤ L := by exact_mod_cast hL
    linarith
  have h1 := h.phi (d * Real.pi / 180)
  have e : 2 * (phiIdx (d * Real.pi / 180) : ℝ) * Real.pi / (2 * L - 1) - d * Real.pi / 180 =
      (2 * (phiIdx (d * Real.pi / 180) : ℝ) - d / 180 * (2 * L - 1)) * (Real.pi / (2 * L - 1)) := by
    field_simp
  rw [e, abs_mul, abs_of_pos (div_pos Real.pi_pos hn)] at h1
  exact le_of_mul_le_mul_right (by rw [one_mul]; exact h1) (div_pos Real.pi_pos hn)

/-- The block in terms of ring and column numbers, with margins of `c` half rings and `d` half columns. -/
theorem inAfrica_iff (hL : 1 ≤ L) (t p : ℕ) (c d : ℝ) : InAfrica L t p (c * Real.pi / (2 * L - 1)) (d * Real.pi / (2 * L - 1)) ↔
    (2 * L - 1 : ℝ) / 3 - c ≤ 2 * t + 1 ∧ (2 * t + 1 : ℝ) ≤ 2 * (2 * L - 1) / 3 + c ∧
      ((2 * p : ℝ) ≤ (2 * L - 1) / 6 + d ∨ 11 * (2 * L - 1 : ℝ) / 6 - d ≤ 2 * p) := by
  have hn : (0 : ℝ) < 2 * L - 1 := by
    have : (1 : ℝ) ≤ L := by exact_mod_cast hL
    linarith
  set n : ℝ := 2 * L - 1 with hndef
  have hq : 0 < Real.pi / n := div_pos Real.pi_pos hn
  have e1 : Real.pi / 3 - c * Real.pi / n = (n / 3 - c) * (Real.pi / n) := by field_simp
  have e2 : (2 * (t : ℝ) + 1) * Real.pi / n = (2 * t + 1) * (Real.pi / n) := by field_simp
  have e3 : 2 * Real.pi / 3 + c * Real.pi / n = (2 * n / 3 + c) * (Real.pi / n) := by field_simp
  have e4 : Real.pi / 6 + d * Real.pi / n = (n / 6 + d) * (Real.pi / n) := by field_simp
  have e5 : 2 * Real.pi - Real.pi / 6 - d * Real.pi / n = (11 * n / 6 - d) * (Real.pi / n) := by field_simp; ring
  have e6 : 2 * (p : ℝ) * Real.pi / n = 2 * p * (Real.pi / n) := by field_simp
  unfold InAfrica ringAngle columnAngle
  rw [← hndef, e1, e2, e3, e4, e5, e6, mul_le_mul_iff_left₀ hq, mul_le_mul_iff_left₀ hq, mul_le_mul_iff_left₀ hq, mul_le_mul_iff_left₀ hq]

theorem near_grid {r : ℝ} (h0 : 0 ≤ r) (h1 : r ≤ 99) : ∃ i : ℕ, i < 100 ∧ |(i : ℝ) - r| ≤ 1 / 2 := by
  refine ⟨⌊r + 1 / 2⌋₊, ?_, ?_⟩
  · rw [Nat.floor_lt (by linarith)]
    norm_num
    linarith
  · have h2 := Nat.floor_le (show 0 ≤ r + 1 / 2 by linarith)
    have h3 := Nat.lt_floor_add_one (r + 1 / 2)
    rw [abs_le]
    constructor <;> linarith

theorem int_eq {a b : ℤ} (h : |(a : ℝ) - b| < 1) : a = b := by
  have : |a - b| < 1 := by exact_mod_cast h
  have := abs_lt.mp this
  omega

/-- With indices in range the levels are computed. -/
theorem levels_return (rngt : ∀ i : ℕ, i < 100 → 0 ≤ thetaIdx ((60 + 60 * i / 99) * Real.pi / 180) ∧
      thetaIdx ((60 + 60 * i / 99) * Real.pi / 180) < L)
    (rngp : ∀ j : ℕ, j < 100 → -((2 * L - 1 : ℕ) : ℤ) ≤ phiIdx ((-30 + 60 * j / 99) * Real.pi / 180) ∧
      phiIdx ((-30 + 60 * j / 99) * Real.pi / 180) < (2 * L - 1 : ℕ)) (sigma : ℝ) (scale : ℤ) (areas : List ℝ) :
    ∃ sig, topoLevels thetaIdx phiIdx L sigma scale areas = .ok sig := by
  have hfold : ∀ (l : List (ℝ × ℝ)), (∀ a ∈ l, a ∈ africaGrid) → ∀ b0 : List Bool, ∃ b,
      (l.foldlM (init := b0) fun (block : List Bool) tp => do
        let t ← axisIndex (thetaIdx tp.1) L
        let p ← axisIndex (phiIdx tp.2) (2 * L - 1)
        (.ok (block.set (t * (2 * L - 1) + p) true) : Py (List Bool))) = .ok b := by
    intro l
    induction l with
    | nil => intro _ b0; exact ⟨b0, rfl⟩
    | cons a l ih =>
      intro ha b0
      obtain ⟨i, j, hi, hj, rfl⟩ := (mem_africaGrid a).mp (ha a List.mem_cons_self)
      obtain ⟨k1, h1⟩ : ∃ k, axisIndex (thetaIdx ((60 + 60 * i / 99) * Real.pi / 180)) L = .ok k := by
        have := rngt i hi
        exact ⟨_, if_pos this⟩
      obtain ⟨k2, h2⟩ : ∃ k, axisIndex (phiIdx ((-30 + 60 * j / 99) * Real.pi / 180)) (2 * L - 1) = .ok k := by
        have := rngp j hj
        unfold axisIndex
        split_ifs with h3 h4
        · exact ⟨_, rfl⟩
        · exact ⟨_, rfl⟩
        · omega
      rw [List.foldlM_cons]
      simp only [h1, h2, bind, Except.bind]
      exact ih (fun a h => ha a (List.mem_cons_of_mem _ h)) _
  unfold topoLevels
  split_ifs
  · exact ⟨_, rfl⟩
  · obtain ⟨b, hb⟩ := hfold africaGrid (fun _ h => h) (List.replicate (mwLength L) false)
    have hb : africaBlock thetaIdx phiIdx L = .ok b := hb
    rw [hb]
    exact ⟨_, rfl⟩

/-- C136, the block: with nearest-pixel indices and `L ≤ 297` the levels are computed, all pixels with centre in the block are scaled, and all
pixels scaled have their centre within half a pixel of the block.  Missing: larger band limits (`C136_meridian_refuted`). -/
theorem C136_block_partial (h : NearestIndex L thetaIdx phiIdx) (hL : 1 ≤ L) :
    (∀ (sigma : ℝ) (scale : ℤ) (areas : List ℝ), ∃ sig, topoLevels thetaIdx phiIdx L sigma scale areas = .ok sig) ∧
    (∀ t p : ℕ, t < L → p < 2 * L - 1 → GridHits thetaIdx phiIdx L t p →
      InAfrica L t p (1 * Real.pi / (2 * L - 1)) (1 * Real.pi / (2 * L - 1))) ∧
    (L ≤ 297 → ∀ t p : ℕ, t < L → p < 2 * L - 1 → InAfrica L t p 0 0 → GridHits thetaIdx phiIdx L t p) := by
  have hn1 : (1 : ℝ) ≤ 2 * L - 1 := by
    have : (1 : ℝ) ≤ L := by exact_mod_cast hL
    linarith
  have hnc : ((2 * L - 1 : ℕ) : ℝ) = 2 * L - 1 := by
    rw [Nat.cast_sub (by omega)]
    push_cast
    ring
  have hth : ∀ i : ℕ, i < 100 → (2 * L - 1 : ℝ) / 3 - 1 ≤ 2 * (thetaIdx ((60 + 60 * i / 99) * Real.pi / 180) : ℝ) + 1 ∧
      2 * (thetaIdx ((60 + 60 * i / 99) * Real.pi / 180) : ℝ) + 1 ≤ 2 * (2 * L - 1 : ℝ) / 3 + 1 := by
    intro i hi
    have h1 := abs_le.mp (h.theta_deg hL (60 + 60 * i / 99))
    have hi0 : (0 : ℝ) ≤ i := Nat.cast_nonneg i
    have hi1 : (i : ℝ) ≤ 99 := by exact_mod_cast (by omega : i ≤ 99)
    constructor <;> nlinarith
  have hph : ∀ j : ℕ, j < 100 → -((2 * L - 1 : ℝ) / 6) - 1 ≤ 2 * (phiIdx ((-30 + 60 * j / 99) * Real.pi / 180) : ℝ) ∧
      2 * (phiIdx ((-30 + 60 * j / 99) * Real.pi / 180) : ℝ) ≤ (2 * L - 1 : ℝ) / 6 + 1 := by
    intro j hj
    have h1 := abs_le.mp (h.phi_deg hL (-30 + 60 * j / 99))
    have hi0 : (0 : ℝ) ≤ j := Nat.cast_nonneg j
    have hi1 : (j : ℝ) ≤ 99 := by exact_mod_cast (by omega : j ≤ 99)
    constructor <;> nlinarith
  have rngt : ∀ i : ℕ, i < 100 → 0 ≤ thetaIdx ((60 + 60 * i / 99) * Real.pi / 180) ∧ thetaIdx ((60 + 60 * i / 99) * Real.pi / 180) < L := by
    intro i hi
    obtain ⟨h1, h2⟩ := hth i hi
    constructor
    · have : (-1 : ℝ) < (thetaIdx ((60 + 60 * i / 99) * Real.pi / 180) : ℝ) := by linarith
      have : (-1 : ℤ) < thetaIdx ((60 + 60 * i / 99) * Real.pi / 180) := by exact_mod_cast this
      omega
    · have : (thetaIdx ((60 + 60 * i / 99) * Real.pi / 180) : ℝ) < L := by linarith
      exact_mod_cast this
  have rngp : ∀ j : ℕ, j < 100 → -((2 * L - 1 : ℕ) : ℤ) ≤ phiIdx ((-30 + 60 * j / 99) * Real.pi / 180) ∧
      phiIdx ((-30 + 60 * j / 99) * Real.pi / 180) < (2 * L - 1 : ℕ) := by
    intro j hj
    obtain ⟨h1, h2⟩ := hph j hj
    constructor
    · have : (-((2 * L - 1 : ℕ) : ℝ)) ≤ (phiIdx ((-30 + 60 * j / 99) * Real.pi / 180) : ℝ) := by rw [hnc]; linarith
      exact_mod_cast this
    · have : (phiIdx ((-30 + 60 * j / 99) * Real.pi / 180) : ℝ) < ((2 * L - 1 : ℕ) : ℝ) := by rw [hnc]; linarith
      exact_mod_cast this
  refine ⟨fun sigma scale areas => ?_, fun t p ht hp hg => ?_, fun h297 t p ht hp hA => ?_⟩
  · exact levels_return rngt rngp sigma scale areas
  · obtain ⟨i, j, hi, hj, h1, h2⟩ := hg
    rw [inAfrica_iff hL]
    have ht1 : thetaIdx ((60 + 60 * i / 99) * Real.pi / 180) = t := by
      have := rngt i hi
      omega
    have h3 := hth i hi
    rw [ht1] at h3
    push_cast at h3
    refine ⟨h3.1, h3.2, ?_⟩
    have h4 := hph j hj
    rcases h2 with h2 | h2
    · rw [h2] at h4
      push_cast at h4
      exact Or.inl h4.2
    · rw [h2, Int.cast_sub, Int.cast_natCast, Int.cast_natCast, hnc] at h4
      refine Or.inr ?_
      linarith [h4.1]
  · have hA := (inAfrica_iff hL t p 0 0).mp (by simpa using hA)
    obtain ⟨a1, a2, a3⟩ := hA
    have hn : (2 * L - 1 : ℝ) ≤ 593 := by
      have : (L : ℝ) ≤ 297 := by exact_mod_cast h297
      linarith
    have hn0 : (0 : ℝ) < 2 * L - 1 := by linarith
    set n : ℝ := 2 * L - 1 with hndef
    -- the ring
    obtain ⟨i, hi, hi2⟩ := near_grid (r := ((2 * t + 1) / n * 180 - 60) * (99 / 60))
      (by
        have : 1 / 3 ≤ (2 * (t : ℝ) + 1) / n := by rw [le_div_iff₀ hn0]; linarith
        linarith)
      (by
        have : (2 * (t : ℝ) + 1) / n ≤ 2 / 3 := by rw [div_le_iff₀ hn0]; linarith
        linarith)
    have hti : thetaIdx ((60 + 60 * i / 99) * Real.pi / 180) = t := by
      refine int_eq ?_
      have h1 := abs_le.mp (h.theta_deg hL (60 + 60 * i / 99))
      rw [← hndef] at h1
      have e : (2 * (t : ℝ) + 1) = (2 * t + 1) / n * n := by field_simp
      have h2 := abs_le.mp hi2
      set q := (2 * (t : ℝ) + 1) / n
      rw [abs_lt]
      push_cast
      have h3 : (60 + 60 * (i : ℝ) / 99) / 180 - q ≤ 1 / 594 := by linarith
      have h4 : -(1 / 594) ≤ (60 + 60 * (i : ℝ) / 99) / 180 - q := by linarith
      have h5 : ((60 + 60 * (i : ℝ) / 99) / 180 - q) * n ≤ 1 / 594 * n := mul_le_mul_of_nonneg_right h3 hn0.le
      have h6 : -(1 / 594) * n ≤ ((60 + 60 * (i : ℝ) / 99) / 180 - q) * n := mul_le_mul_of_nonneg_right h4 hn0.le
      constructor <;> nlinarith
    -- the column
    have key : ∀ z : ℤ, -(n / 6) ≤ 2 * z → (2 * z : ℝ) ≤ n / 6 → ∃ j : ℕ, j < 100 ∧ phiIdx ((-30 + 60 * j / 99) * Real.pi / 180) = z := by
      intro z hz1 hz2
      obtain ⟨j, hj, hj2⟩ := near_grid (r := (2 * z / n * 180 + 30) * (99 / 60))
        (by
          have : -(1 / 6) ≤ 2 * (z : ℝ) / n := by rw [le_div_iff₀ hn0]; linarith
          linarith)
        (by
          have : 2 * (z : ℝ) / n ≤ 1 / 6 := by rw [div_le_iff₀ hn0]; linarith
          linarith)
      refine ⟨j, hj, int_eq ?_⟩
      have h1 := abs_le.mp (h.phi_deg hL (-30 + 60 * j / 99))
      rw [← hndef] at h1
      have e : 2 * (z : ℝ) = 2 * z / n * n := by field_simp
      have h2 := abs_le.mp hj2
      set q := 2 * (z : ℝ) / n
      rw [abs_lt]
      have h3 : (-30 + 60 * (j : ℝ) / 99) / 180 - q ≤ 1 / 594 := by linarith
      have h4 : -(1 / 594) ≤ (-30 + 60 * (j : ℝ) / 99) / 180 - q := by linarith
      have h5 : ((-30 + 60 * (j : ℝ) / 99) / 180 - q) * n ≤ 1 / 594 * n := mul_le_mul_of_nonneg_right h3 hn0.le
      have h6 : -(1 / 594) * n ≤ ((-30 + 60 * (j : ℝ) / 99) / 180 - q) * n := mul_le_mul_of_nonneg_right h4 hn0.le
      constructor <;> nlinarith
    rcases a3 with a3 | a3
    · obtain ⟨j, hj, hpj⟩ := key p (by push_cast; have : (0 : ℝ) ≤ p := Nat.cast_nonneg p; linarith) (by push_cast; linarith)
      exact ⟨i, j, hi, hj, Or.inl hti, Or.inl hpj⟩
    · have hp' : (p : ℝ) ≤ n - 1 := by
        have : (p : ℝ) + 1 ≤ ((2 * L - 1 : ℕ) : ℝ) := by exact_mod_cast hp
        rw [hnc] at this
        linarith
      obtain ⟨j, hj, hpj⟩ := key ((p : ℤ) - (2 * L - 1 : ℕ)) (by rw [Int.cast_sub, Int.cast_natCast, Int.cast_natCast, hnc]; linarith)
        (by rw [Int.cast_sub, Int.cast_natCast, Int.cast_natCast, hnc]; linarith)
      exact ⟨i, j, hi, hj, Or.inl hti, Or.inr hpj⟩

/-- Rounding gives a nearest ring and a nearest column. -/
theorem round_nearest (hL : 1 ≤ L) : NearestIndex L (fun x => round ((x * (2 * L - 1) / Real.pi - 1) / 2))
    (fun x => round (x * (2 * L - 1) / (2 * Real.pi))) := by
  have hn : (0 : ℝ) < 2 * L - 1 := by
    have : (1 : ℝ) ≤ L := by exact_mod_cast hL
    linarith
  have hpi := Real.pi_pos
  constructor
  · intro x
    have h1 := abs_sub_round ((x * (2 * L - 1) / Real.pi - 1) / 2)
    have e : (2 * ((round ((x * (2 * L - 1) / Real.pi - 1) / 2) : ℤ) : ℝ) + 1) * Real.pi / (2 * L - 1) - x =
        -((x * (2 * L - 1) / Real.pi - 1) / 2 - round ((x * (2 * L - 1) / Real.pi - 1) / 2)) * (2 * Real.pi / (2 * L - 1)) := by
      field_simp
      ring
    rw [e, abs_mul, abs_neg, abs_of_pos (show 0 < 2 * Real.pi / (2 * (L : ℝ) - 1) by positivity)]
    calc _ ≤ 1 / 2 * (2 * Real.pi / (2 * (L : ℝ) - 1)) := mul_le_mul_of_nonneg_right h1 (by positivity)
      _ = _ := by ring
  · intro x
    have h1 := abs_sub_round (x * (2 * L - 1) / (2 * Real.pi))
    have e : 2 * ((round (x * (2 * L - 1) / (2 * Real.pi)) : ℤ) : ℝ) * Real.pi / (2 * L - 1) - x =
        -(x * (2 * L - 1) / (2 * Real.pi) - round (x * (2 * L - 1) / (2 * Real.pi))) * (2 * Real.pi / (2 * L - 1)) := by
      field_simp
      ring
    rw [e, abs_mul, abs_neg, abs_of_pos (show 0 < 2 * Real.pi / (2 * (L : ℝ) - 1) by positivity)]
    calc _ ≤ 1 / 2 * (2 * Real.pi / (2 * (L : ℝ) - 1)) := mul_le_mul_of_nonneg_right h1 (by positivity)
      _ = _ := by ring

/-- C136 is violated: for every band limit from 303 on, whatever `theta_to_index` and `phi_to_index` give, the 10000 grid points cannot
reach all pixels of the block: some pixel whose centre lies in it keeps the noise level of the pixels outside. -/
theorem C136_refuted (thetaIdx phiIdx : ℝ → ℤ) (L : ℕ) (hL : 303 ≤ L) (sigma : ℝ) (scale : ℤ) (hs : scale ≠ 0) (areas sig : List ℝ)
    (hl : areas.length = mwLength L) (h : topoLevels thetaIdx phiIdx L sigma scale areas = .ok sig) :
    ∃ t p : ℕ, t < L ∧ p < 2 * L - 1 ∧ InAfrica L t p 0 0 ∧ ∀ a, areas[t * (2 * L - 1) + p]? = some a →
      sig[t * (2 * L - 1) + p]? = some √(sigma ^ 2 / a) := by
  obtain ⟨-, hlev⟩ := levels_get hs hl h
  by_contra hno
  push Not at hno
  have hall : ∀ t p : ℕ, t < L → p < 2 * L - 1 → InAfrica L t p 0 0 → GridHits thetaIdx phiIdx L t p := by
    intro t p ht hp hA
    by_contra hg
    obtain ⟨a, ha, hne⟩ := hno t p ht hp hA
    exact hne ((hlev t p ht hp a ha).2 hg)
  have hcast : ((2 * L - 1 : ℕ) : ℝ) = 2 * L - 1 := by
    rw [Nat.cast_sub (by omega)]
    push_cast
    ring
  set n := 2 * L - 1 with hn
  set t0 := (n + 2) / 6 with ht0
  set P : Fin 101 → ℕ := fun v => if (v : ℕ) ≤ 50 then v else n - (v - 50) with hP
  have hPlt : ∀ v, P v < n := by
    intro v
    simp only [hP]
    split_ifs <;> omega
  have hTlt : ∀ u : Fin 101, t0 + u < L := by
    intro u
    omega
  have hin : ∀ u v : Fin 101, InAfrica L (t0 + u) (P v) 0 0 := by
    intro u v
    have := inAfrica_iff (L := L) (by omega) (t0 + u) (P v) 0 0
    rw [zero_mul, zero_div] at this
    rw [this, ← hcast]
    refine ⟨?_, ?_, ?_⟩
    · have : n ≤ 3 * (2 * (t0 + u) + 1) := by omega
      have : (n : ℝ) ≤ 3 * (2 * ((t0 + u : ℕ) : ℝ) + 1) := by exact_mod_cast this
      linarith
    · have : 3 * (2 * (t0 + u) + 1) ≤ 2 * n := by omega
      have : 3 * (2 * ((t0 + u : ℕ) : ℝ) + 1) ≤ 2 * n := by exact_mod_cast this
      linarith
    · by_cases hv : (v : ℕ) ≤ 50
      · left
        have : 12 * P v ≤ n := by simp only [hP, if_pos hv]; omega
        have : 12 * (P v : ℝ) ≤ n := by exact_mod_cast this
        linarith
      · right
        have : 11 * n ≤ 12 * P v := by simp only [hP, if_neg hv]; omega
        have : 11 * (n : ℝ) ≤ 12 * (P v : ℝ) := by exact_mod_cast this
        linarith
  have hg : ∀ q : Fin 101 × Fin 101, ∃ g : Fin 100 × Fin 100,
      (thetaIdx ((60 + 60 * (g.1 : ℕ) / 99) * Real.pi / 180) = (t0 + q.1 : ℕ) ∨
        thetaIdx ((60 + 60 * (g.1 : ℕ) / 99) * Real.pi / 180) = ((t0 + q.1 : ℕ) : ℤ) - L) ∧
      (phiIdx ((-30 + 60 * (g.2 : ℕ) / 99) * Real.pi / 180) = P q.2 ∨
        phiIdx ((-30 + 60 * (g.2 : ℕ) / 99) * Real.pi / 180) = (P q.2 : ℤ) - n) := by
    intro q
    obtain ⟨i, j, hi, hj, h1, h2⟩ := hall _ _ (hTlt q.1) (hPlt q.2) (hin q.1 q.2)
    exact ⟨(⟨i, hi⟩, ⟨j, hj⟩), h1, h2⟩
  choose g hg using hg
  have hinj : Function.Injective g := by
    intro a b hab
    obtain ⟨a1, a2⟩ := hg a
    obtain ⟨b1, b2⟩ := hg b
    rw [hab] at a1 a2
    have e1 : (a.1 : ℕ) = b.1 := by
      have := hTlt a.1
      have := hTlt b.1
      omega
    have e2 : P a.2 = P b.2 := by
      have := hPlt a.2
      have := hPlt b.2
      omega
    refine Prod.ext (Fin.ext e1) (Fin.ext ?_)
    simp only [hP] at e2
    have := a.2.2
    have := b.2.2
    split_ifs at e2 <;> omega
  have := Fintype.card_le_of_injective g hinj
  simp at this

theorem pyInt_le {r : ℝ} (h : 0 ≤ r) : (pyInt r : ℝ) ≤ r ∧ r < pyInt r + 1 := by
  rw [pyInt, if_pos h]
  exact ⟨Int.floor_le r, Int.lt_floor_add_one r⟩

theorem le_pyInt {r : ℝ} (h : r ≤ 0) : r ≤ pyInt r ∧ (pyInt r : ℝ) - 1 < r := by
  unfold pyInt
  split_ifs with h1
  · obtain rfl := le_antisymm h h1
    simp
  · exact ⟨Int.le_ceil r, by linarith [Int.ceil_lt_add_one r]⟩

theorem pyInt_eq {r : ℝ} {z : ℤ} (h : (0 ≤ (z : ℝ) ∧ (z : ℝ) ≤ r ∧ r < z + 1) ∨ ((z : ℝ) ≤ 0 ∧ (z : ℝ) - 1 < r ∧ r ≤ z)) : pyInt r = z := by
  refine int_eq ?_
  rcases h with ⟨h0, h1, h2⟩ | ⟨h0, h1, h2⟩
  · have := pyInt_le (h0.trans h1)
    rw [abs_lt]
    constructor <;> linarith
  · have := le_pyInt (h2.trans h0)
    rw [abs_lt]
    constructor <;> linarith

/-- Between `r` and `r + 1` there is a grid point, or `r` is the last one. -/
theorem next_grid {r : ℝ} (h0 : 0 ≤ r) (h1 : r ≤ 99) : ∃ i : ℕ, i < 100 ∧ r ≤ i ∧ (i : ℝ) ≤ r + 1 := by
  refine ⟨⌈r⌉₊, ?_, Nat.le_ceil r, (Nat.ceil_lt_add_one h0).le⟩
  have : ⌈r⌉₊ ≤ 99 := Nat.ceil_le.mpr (by exact_mod_cast h1)
  omega

/-- Between `r - 1` and `r` there is a grid point. -/
theorem prev_grid {r : ℝ} (h0 : 0 ≤ r) (h1 : r ≤ 99) : ∃ i : ℕ, i < 100 ∧ (i : ℝ) ≤ r ∧ r - 1 ≤ i := by
  refine ⟨⌊r⌋₊, ?_, Nat.floor_le h0, by linarith [Nat.lt_floor_add_one r]⟩
  have : ⌊r⌋₊ < 100 := (Nat.floor_lt h0).mpr (by norm_num; linarith)
  omega

set_option maxHeartbeats 1000000 in
/-- C136, the block, if the positions are truncated to integers: again the levels are computed and for `L ≤ 299` all pixels with centre in
the block are scaled; no column outside the block is, and rings at most one pixel outside it are.  Missing: larger band limits
(`C136_trunc_refuted`). -/
theorem C136_trunc_partial (hL : 1 ≤ L) (hθ : ∀ x, thetaIdx x = pyInt ((x * (2 * L - 1) / Real.pi - 1) / 2))
    (hφ : ∀ x, phiIdx x = pyInt (x * (2 * L - 1) / (2 * Real.pi))) :
    (∀ (sigma : ℝ) (scale : ℤ) (areas : List ℝ), ∃ sig, topoLevels thetaIdx phiIdx L sigma scale areas = .ok sig) ∧
    (∀ t p : ℕ, t < L → p < 2 * L - 1 → GridHits thetaIdx phiIdx L t p →
      InAfrica L t p (2 * Real.pi / (2 * L - 1)) 0) ∧
    (L ≤ 299 → ∀ t p : ℕ, t < L → p < 2 * L - 1 → InAfrica L t p 0 0 → GridHits thetaIdx phiIdx L t p) := by
  have hn1 : (1 : ℝ) ≤ 2 * L - 1 := by
    have : (1 : ℝ) ≤ L := by exact_mod_cast hL
    linarith
  have hnc : ((2 * L - 1 : ℕ) : ℝ) = 2 * L - 1 := by
    rw [Nat.cast_sub (by omega)]
    push_cast
    ring
  have hpi := Real.pi_pos
  have hθd : ∀ d : ℝ, thetaIdx (d * Real.pi / 180) = pyInt ((d / 180 * (2 * L - 1) - 1) / 2) := by
    intro d
    rw [hθ]
    congr 3
    field_simp
  have hφd : ∀ d : ℝ, phiIdx (d * Real.pi / 180) = pyInt (d / 180 * (2 * L - 1) / 2) := by
    intro d
    rw [hφ]
    congr 1
    field_simp
  have hth : ∀ i : ℕ, i < 100 → (2 * L - 1 : ℝ) / 3 - 2 ≤ 2 * (thetaIdx ((60 + 60 * i / 99) * Real.pi / 180) : ℝ) + 1 ∧
      2 * (thetaIdx ((60 + 60 * i / 99) * Real.pi / 180) : ℝ) + 1 ≤ 2 * (2 * L - 1 : ℝ) / 3 + 2 ∧
      -1 < (thetaIdx ((60 + 60 * i / 99) * Real.pi / 180) : ℝ) ∧ (thetaIdx ((60 + 60 * i / 99) * Real.pi / 180) : ℝ) < L := by
    intro i hi
    rw [hθd]
    have hi0 : (0 : ℝ) ≤ i := Nat.cast_nonneg i
    have hi1 : (i : ℝ) ≤ 99 := by exact_mod_cast (by omega : i ≤ 99)
    have b1 : (2 * L - 1 : ℝ) / 3 ≤ (60 + 60 * i / 99) / 180 * (2 * L - 1) := by nlinarith
    have b2 : (60 + 60 * i / 99) / 180 * (2 * L - 1) ≤ 2 * (2 * L - 1 : ℝ) / 3 := by nlinarith
    rcases le_total 0 (((60 + 60 * (i : ℝ) / 99) / 180 * (2 * L - 1) - 1) / 2) with h | h
    · have := pyInt_le h
      have h0 : (0 : ℤ) ≤ pyInt (((60 + 60 * (i : ℝ) / 99) / 180 * (2 * L - 1) - 1) / 2) := by
        rw [pyInt, if_pos h]
        exact Int.floor_nonneg.mpr h
      have h0 : (0 : ℝ) ≤ (pyInt (((60 + 60 * (i : ℝ) / 99) / 180 * (2 * L - 1) - 1) / 2) : ℝ) := by exact_mod_cast h0
      refine ⟨by linarith, by linarith, by linarith, by linarith⟩
    · have := le_pyInt h
      refine ⟨by linarith, by linarith, by linarith, by linarith⟩
  have hph : ∀ j : ℕ, j < 100 → -((2 * L - 1 : ℝ) / 6) ≤ 2 * (phiIdx ((-30 + 60 * j / 99) * Real.pi / 180) : ℝ) ∧
      2 * (phiIdx ((-30 + 60 * j / 99) * Real.pi / 180) : ℝ) ≤ (2 * L - 1 : ℝ) / 6 := by
    intro j hj
    rw [hφd]
    have hi0 : (0 : ℝ) ≤ j := Nat.cast_nonneg j
    have hi1 : (j : ℝ) ≤ 99 := by exact_mod_cast (by omega : j ≤ 99)
    have b1 : -((2 * L - 1 : ℝ) / 6) ≤ (-30 + 60 * j / 99) / 180 * (2 * L - 1) := by nlinarith
    have b2 : (-30 + 60 * j / 99) / 180 * (2 * L - 1) ≤ (2 * L - 1 : ℝ) / 6 := by nlinarith
    rcases le_total 0 ((-30 + 60 * (j : ℝ) / 99) / 180 * (2 * L - 1) / 2) with h | h
    · have h0 : (0 : ℤ) ≤ pyInt ((-30 + 60 * (j : ℝ) / 99) / 180 * (2 * L - 1) / 2) := by
        rw [pyInt, if_pos h]
        exact Int.floor_nonneg.mpr h
      have h0 : (0 : ℝ) ≤ (pyInt ((-30 + 60 * (j : ℝ) / 99) / 180 * (2 * L - 1) / 2) : ℝ) := by exact_mod_cast h0
      have := pyInt_le h
      constructor <;> linarith
    · have h0 : pyInt ((-30 + 60 * (j : ℝ) / 99) / 180 * (2 * L - 1) / 2) ≤ (0 : ℤ) := by
        unfold pyInt
        split_ifs with h2
        · rw [le_antisymm h h2]
          simp
        · exact Int.ceil_le.mpr (by exact_mod_cast h)
      have h0 : (pyInt ((-30 + 60 * (j : ℝ) / 99) / 180 * (2 * L - 1) / 2) : ℝ) ≤ 0 := by exact_mod_cast h0
      have := le_pyInt h
      constructor <;> linarith
  have rngt : ∀ i : ℕ, i < 100 → 0 ≤ thetaIdx ((60 + 60 * i / 99) * Real.pi / 180) ∧ thetaIdx ((60 + 60 * i / 99) * Real.pi / 180) < L := by
    intro i hi
    obtain ⟨-, -, h1, h2⟩ := hth i hi
    have h1 : (-1 : ℤ) < thetaIdx ((60 + 60 * i / 99) * Real.pi / 180) := by exact_mod_cast h1
    exact ⟨by omega, by exact_mod_cast h2⟩
  have rngp : ∀ j : ℕ, j < 100 → -((2 * L - 1 : ℕ) : ℤ) ≤ phiIdx ((-30 + 60 * j / 99) * Real.pi / 180) ∧
      phiIdx ((-30 + 60 * j / 99) * Real.pi / 180) < (2 * L - 1 : ℕ) := by
    intro j hj
    obtain ⟨h1, h2⟩ := hph j hj
    constructor
    · have : (-((2 * L - 1 : ℕ) : ℝ)) ≤ (phiIdx ((-30 + 60 * j / 99) * Real.pi / 180) : ℝ) := by rw [hnc]; linarith
      exact_mod_cast this
    · have : (phiIdx ((-30 + 60 * j / 99) * Real.pi / 180) : ℝ) < ((2 * L - 1 : ℕ) : ℝ) := by rw [hnc]; linarith
      exact_mod_cast this
  refine ⟨levels_return rngt rngp, fun t p ht hp hg => ?_, fun h299 t p ht hp hA => ?_⟩
  · obtain ⟨i, j, hi, hj, h1, h2⟩ := hg
    have := inAfrica_iff hL t p 2 0
    rw [zero_mul, zero_div] at this
    rw [this]
    have ht1 : thetaIdx ((60 + 60 * i / 99) * Real.pi / 180) = t := by
      have := rngt i hi
      omega
    have h3 := hth i hi
    rw [ht1] at h3
    push_cast at h3
    refine ⟨h3.1, h3.2.1, ?_⟩
    have h4 := hph j hj
    rcases h2 with h2 | h2
    · rw [h2] at h4
      push_cast at h4
      exact Or.inl (by linarith [h4.2])
    · rw [h2, Int.cast_sub, Int.cast_natCast, Int.cast_natCast, hnc] at h4
      exact Or.inr (by linarith [h4.1])
  · obtain ⟨a1, a2, a3⟩ := (inAfrica_iff hL t p 0 0).mp (by simpa using hA)
    -- two band limits with more pixels than the general argument allows: the grid points keep pace with the pixels
    have large : L = 298 ∨ L = 299 → GridHits thetaIdx phiIdx L t p := by
      intro h2
      have hring : ∃ i : ℕ, i < 100 ∧ thetaIdx ((60 + 60 * i / 99) * Real.pi / 180) = t := by
        rcases h2 with rfl | rfl
        · have t1 : 99 ≤ t := by
            have : (98 : ℝ) < t := by norm_num at a1; linarith
            exact_mod_cast this
          have t2 : t ≤ 197 := by
            have : (t : ℝ) < 198 := by norm_num at a2; linarith
            have : t < 198 := by exact_mod_cast this
            omega
          obtain ⟨i, rfl⟩ := Nat.exists_eq_add_of_le (show 98 ≤ t by omega)
          refine ⟨i, by omega, ?_⟩
          have hi : (i : ℝ) ≤ 99 := by exact_mod_cast (by omega : i ≤ 99)
          have hi0 : (0 : ℝ) ≤ i := Nat.cast_nonneg i
          rw [hθd]
          refine pyInt_eq (Or.inl ?_)
          push_cast
          refine ⟨by linarith, by linarith, by linarith⟩
        · have t1 : 99 ≤ t := by
            have : (98 : ℝ) < t := by norm_num at a1; linarith
            exact_mod_cast this
          have t2 : t ≤ 198 := by
            have : (t : ℝ) < 199 := by norm_num at a2; linarith
            have : t < 199 := by exact_mod_cast this
            omega
          obtain ⟨i, rfl⟩ := Nat.exists_eq_add_of_le t1
          refine ⟨i, by omega, ?_⟩
          have hi : (i : ℝ) ≤ 99 := by exact_mod_cast (by omega : i ≤ 99)
          have hi0 : (0 : ℝ) ≤ i := Nat.cast_nonneg i
          rw [hθd]
          refine pyInt_eq (Or.inl ?_)
          push_cast
          refine ⟨by linarith, by linarith, by linarith⟩
      obtain ⟨i, hi, hti⟩ := hring
      have hLr : (L : ℝ) = 298 ∨ (L : ℝ) = 299 := by
        rcases h2 with rfl | rfl
        · left; norm_num
        · right; norm_num
      have up : ∀ k : ℕ, k ≤ 49 → phiIdx ((-30 + 60 * (50 + k : ℕ) / 99) * Real.pi / 180) = k := by
        intro k hk
        have hk1 : (k : ℝ) ≤ 49 := by exact_mod_cast hk
        have hk0 : (0 : ℝ) ≤ k := Nat.cast_nonneg k
        rw [hφd]
        refine pyInt_eq (Or.inl ?_)
        push_cast
        rcases hLr with h | h <;> rw [h] <;> refine ⟨by linarith, by linarith, by linarith⟩
      have down : ∀ k : ℕ, k ≤ 49 → phiIdx ((-30 + 60 * (49 - k : ℕ) / 99) * Real.pi / 180) = -k := by
        intro k hk
        have hk1 : (k : ℝ) ≤ 49 := by exact_mod_cast hk
        have hk0 : (0 : ℝ) ≤ k := Nat.cast_nonneg k
        rw [hφd]
        refine pyInt_eq (Or.inr ?_)
        rw [Nat.cast_sub hk]
        push_cast
        rcases hLr with h | h <;> rw [h] <;> refine ⟨by linarith, by linarith, by linarith⟩
      rcases a3 with a3 | a3
      · have hp1 : p ≤ 49 := by
          have : (p : ℝ) < 50 := by rcases hLr with h | h <;> rw [h] at a3 <;> linarith
          have : p < 50 := by exact_mod_cast this
          omega
        exact ⟨i, 50 + p, hi, by omega, Or.inl hti, Or.inl (up p hp1)⟩
      · have hp1 : 2 * L - 1 - p ≤ 49 := by
          have h3 : ((2 * L - 1 : ℕ) : ℝ) - p < 50 := by rw [hnc]; rcases hLr with h | h <;> rw [h] at a3 ⊢ <;> linarith
          have h4 : ((2 * L - 1 - p : ℕ) : ℝ) < 50 := by rw [Nat.cast_sub hp.le]; exact h3
          have : 2 * L - 1 - p < 50 := by exact_mod_cast h4
          omega
        refine ⟨i, 49 - (2 * L - 1 - p), hi, by omega, Or.inl hti, Or.inr ?_⟩
        rw [down _ hp1]
        omega
    by_cases h297 : L ≤ 297
    swap
    · exact large (by omega)
    have hn : (2 * L - 1 : ℝ) ≤ 593 := by
      have : (L : ℝ) ≤ 297 := by exact_mod_cast h297
      linarith
    have hn0 : (0 : ℝ) < 2 * L - 1 := by linarith
    set n : ℝ := 2 * L - 1 with hndef
    obtain ⟨i, hi, hi2, hi3⟩ := next_grid (r := ((2 * t + 1) / n * 180 - 60) * (99 / 60))
      (by
        have : 1 / 3 ≤ (2 * (t : ℝ) + 1) / n := by rw [le_div_iff₀ hn0]; linarith
        linarith)
      (by
        have : (2 * (t : ℝ) + 1) / n ≤ 2 / 3 := by rw [div_le_iff₀ hn0]; linarith
        linarith)
    have hti : thetaIdx ((60 + 60 * i / 99) * Real.pi / 180) = t := by
      rw [hθd]
      refine pyInt_eq (Or.inl ?_)
      have e : (2 * (t : ℝ) + 1) = (2 * t + 1) / n * n := by field_simp
      set q := (2 * (t : ℝ) + 1) / n
      push_cast
      have h3 : (60 + 60 * (i : ℝ) / 99) / 180 - q ≤ 1 / 297 := by linarith
      have h4 : 0 ≤ (60 + 60 * (i : ℝ) / 99) / 180 - q := by linarith
      have h5 : ((60 + 60 * (i : ℝ) / 99) / 180 - q) * n ≤ 1 / 297 * n := mul_le_mul_of_nonneg_right h3 hn0.le
      have h6 : 0 ≤ ((60 + 60 * (i : ℝ) / 99) / 180 - q) * n := mul_nonneg h4 hn0.le
      refine ⟨Nat.cast_nonneg t, ?_, ?_⟩ <;> nlinarith
    have key : ∀ z : ℤ, -(n / 6) ≤ 2 * z → (2 * z : ℝ) ≤ n / 6 → ∃ j : ℕ, j < 100 ∧ phiIdx ((-30 + 60 * j / 99) * Real.pi / 180) = z := by
      intro z hz1 hz2
      have c1 : 0 ≤ (2 * (z : ℝ) / n * 180 + 30) * (99 / 60) := by
        have : -(1 / 6) ≤ 2 * (z : ℝ) / n := by rw [le_div_iff₀ hn0]; linarith
        linarith
      have c2 : (2 * (z : ℝ) / n * 180 + 30) * (99 / 60) ≤ 99 := by
        have : 2 * (z : ℝ) / n ≤ 1 / 6 := by rw [div_le_iff₀ hn0]; linarith
        linarith
      have e : 2 * (z : ℝ) = 2 * z / n * n := by field_simp
      rcases le_total 0 (z : ℝ) with hz | hz
      · obtain ⟨j, hj, hj2, hj3⟩ := next_grid c1 c2
        refine ⟨j, hj, ?_⟩
        rw [hφd]
        refine pyInt_eq (Or.inl ?_)
        set q := 2 * (z : ℝ) / n
        have h3 : (-30 + 60 * (j : ℝ) / 99) / 180 - q ≤ 1 / 297 := by linarith
        have h4 : 0 ≤ (-30 + 60 * (j : ℝ) / 99) / 180 - q := by linarith
        have h5 : ((-30 + 60 * (j : ℝ) / 99) / 180 - q) * n ≤ 1 / 297 * n := mul_le_mul_of_nonneg_right h3 hn0.le
        have h6 : 0 ≤ ((-30 + 60 * (j : ℝ) / 99) / 180 - q) * n := mul_nonneg h4 hn0.le
        refine ⟨hz, ?_, ?_⟩ <;> nlinarith
      · obtain ⟨j, hj, hj2, hj3⟩ := prev_grid c1 c2
        refine ⟨j, hj, ?_⟩
        rw [hφd]
        refine pyInt_eq (Or.inr ?_)
        set q := 2 * (z : ℝ) / n
        have h3 : (-30 + 60 * (j : ℝ) / 99) / 180 - q ≤ 0 := by linarith
        have h4 : -(1 / 297) ≤ (-30 + 60 * (j : ℝ) / 99) / 180 - q := by linarith
        have h5 : ((-30 + 60 * (j : ℝ) / 99) / 180 - q) * n ≤ 0 * n := mul_le_mul_of_nonneg_right h3 hn0.le
        have h6 : -(1 / 297) * n ≤ ((-30 + 60 * (j : ℝ) / 99) / 180 - q) * n := mul_le_mul_of_nonneg_right h4 hn0.le
        refine ⟨hz, ?_, ?_⟩ <;> nlinarith
    rcases a3 with a3 | a3
    · obtain ⟨j, hj, hpj⟩ := key p (by push_cast; have : (0 : ℝ) ≤ p := Nat.cast_nonneg p; linarith) (by push_cast; linarith)
      exact ⟨i, j, hi, hj, Or.inl hti, Or.inl hpj⟩
    · have hp' : (p : ℝ) ≤ n - 1 := by
        have : (p : ℝ) + 1 ≤ ((2 * L - 1 : ℕ) : ℝ) := by exact_mod_cast hp
        rw [hnc] at this
        linarith
      obtain ⟨j, hj, hpj⟩ := key ((p : ℤ) - (2 * L - 1 : ℕ)) (by rw [Int.cast_sub, Int.cast_natCast, Int.cast_natCast, hnc]; linarith)
        (by rw [Int.cast_sub, Int.cast_natCast, Int.cast_natCast, hnc]; linarith)
      exact ⟨i, j, hi, hj, Or.inl hti, Or.inr hpj⟩

/-- C136 is violated for every `L ≥ 298` if the indices are those of nearest pixels: the two grid points next to the zero meridian lie more
than half a column from it, so the noise on the whole meridian is not scaled, and part of the meridian is in the block. -/
theorem C136_meridian_refuted (h : NearestIndex L thetaIdx phiIdx) (hL : 298 ≤ L) (sigma : ℝ) (scale : ℤ) (hs : scale ≠ 0)
    (areas sig : List ℝ) (hl : areas.length = mwLength L) (hsig : topoLevels thetaIdx phiIdx L sigma scale areas = .ok sig) :
    (∀ t, t < L → ∀ a, areas[t * (2 * L - 1)]? = some a → sig[t * (2 * L - 1)]? = some √(sigma ^ 2 / a)) ∧
    ∃ t, t < L ∧ InAfrica L t 0 0 0 := by
  have hL1 : 1 ≤ L := by omega
  have hLr : (298 : ℝ) ≤ L := by exact_mod_cast hL
  have hnc : ((2 * L - 1 : ℕ) : ℝ) = 2 * L - 1 := by
    rw [Nat.cast_sub (by omega)]
    push_cast
    ring
  obtain ⟨-, hlev⟩ := levels_get hs hl hsig
  constructor
  · intro t ht a ha
    refine (hlev t 0 ht (by omega) a ha).2 ?_
    rintro ⟨i, j, hi, hj, -, h2⟩
    have h1 := abs_le.mp (h.phi_deg hL1 (-30 + 60 * j / 99))
    set z := phiIdx ((-30 + 60 * j / 99) * Real.pi / 180)
    rcases h2 with h2 | h2
    · rw [h2] at h1
      push_cast at h1
      rcases Nat.lt_or_ge j 50 with hj2 | hj2
      · have : (j : ℝ) ≤ 49 := by exact_mod_cast (by omega : j ≤ 49)
        nlinarith [h1.2]
      · have : (50 : ℝ) ≤ j := by exact_mod_cast hj2
        nlinarith [h1.1]
    · rw [h2, Int.cast_sub, Int.cast_natCast, Int.cast_natCast, hnc] at h1
      have : (0 : ℝ) ≤ j := Nat.cast_nonneg j
      push_cast at h1
      nlinarith [h1.1]
  · refine ⟨L / 2, by omega, ?_⟩
    have := inAfrica_iff (L := L) hL1 (L / 2) 0 0 0
    rw [zero_mul, zero_div] at this
    rw [this]
    have b1 : (2 * (L / 2 : ℕ) : ℝ) ≤ L := by exact_mod_cast (by omega : 2 * (L / 2) ≤ L)
    have b2 : (L : ℝ) ≤ 2 * (L / 2 : ℕ) + 1 := by exact_mod_cast (by omega : L ≤ 2 * (L / 2) + 1)
    refine ⟨by linarith, by linarith, Or.inl (by push_cast; linarith)⟩

/-- C136 is violated for every `L ≥ 300` if the positions are truncated to integers. -/
theorem C136_trunc_refuted (hL : 300 ≤ L) (hθ : ∀ x, thetaIdx x = pyInt ((x * (2 * L - 1) / Real.pi - 1) / 2))
    (sigma : ℝ) (scale : ℤ) (hs : scale ≠ 0) (areas sig : List ℝ) (hl : areas.length = mwLength L)
    (hsig : topoLevels thetaIdx phiIdx L sigma scale areas = .ok sig) :
    ∃ t p : ℕ, t < L ∧ p < 2 * L - 1 ∧ InAfrica L t p 0 0 ∧ ∀ a, areas[t * (2 * L - 1) + p]? = some a →
      sig[t * (2 * L - 1) + p]? = some √(sigma ^ 2 / a) := by
  by_cases h303 : 303 ≤ L
  · exact C136_refuted thetaIdx phiIdx L h303 sigma scale hs areas sig hl hsig
  have hpi := Real.pi_pos
  have hθd : ∀ d : ℝ, thetaIdx (d * Real.pi / 180) = pyInt ((d / 180 * (2 * L - 1) - 1) / 2) := by
    intro d
    rw [hθ]
    congr 3
    field_simp
  obtain ⟨-, hlev⟩ := levels_get hs hl hsig
  -- ring `t` lies between the grid points `k` and `k + 1`
  have main : ∀ t k : ℕ, t < L → 2 * (2 * L - 1 : ℝ) ≥ 3 * (2 * t + 1) → (2 * L - 1 : ℝ) ≤ 3 * (2 * t + 1) →
      ((60 + 60 * (k : ℝ) / 99) / 180 * (2 * L - 1) - 1) / 2 < t → (t : ℝ) + 1 ≤ ((60 + 60 * ((k : ℝ) + 1) / 99) / 180 * (2 * L - 1) - 1) / 2 →
      ∃ t p : ℕ, t < L ∧ p < 2 * L - 1 ∧ InAfrica L t p 0 0 ∧ ∀ a, areas[t * (2 * L - 1) + p]? = some a →
        sig[t * (2 * L - 1) + p]? = some √(sigma ^ 2 / a) := by
    intro t k ht c1 c2 c3 c4
    have hLr : (300 : ℝ) ≤ L := by exact_mod_cast hL
    refine ⟨t, 0, ht, by omega, ?_, fun a ha => (hlev t 0 ht (by omega) a ha).2 ?_⟩
    · have := inAfrica_iff (L := L) (by omega) t 0 0 0
      rw [zero_mul, zero_div] at this
      rw [this]
      exact ⟨by linarith, by linarith, Or.inl (by push_cast; linarith)⟩
    · rintro ⟨i, j, hi, hj, h1, -⟩
      have hi0 : (0 : ℝ) ≤ i := Nat.cast_nonneg i
      have hpos : 0 ≤ ((60 + 60 * (i : ℝ) / 99) / 180 * (2 * L - 1) - 1) / 2 := by nlinarith
      have h2 := pyInt_le hpos
      rw [← hθd] at h2
      have h3 : thetaIdx ((60 + 60 * i / 99) * Real.pi / 180) = t := by
        rcases h1 with h1 | h1
        · exact h1
        · rw [h1] at h2
          have : (t : ℝ) + 1 ≤ L := by exact_mod_cast ht
          push_cast at h2
          linarith [h2.2]
      rw [h3] at h2
      push_cast at h2
      rcases Nat.lt_or_ge k i with hk | hk
      · have : (k : ℝ) + 1 ≤ i := by exact_mod_cast hk
        nlinarith [h2.2]
      · have : (i : ℝ) ≤ k := by exact_mod_cast hk
        nlinarith [h2.1]
  obtain rfl | rfl | rfl : L = 300 ∨ L = 301 ∨ L = 302 := by omega
  · exact main 179 79 (by norm_num) (by norm_num) (by norm_num) (by norm_num) (by norm_num)
  · exact main 128 28 (by norm_num) (by norm_num) (by norm_num) (by norm_num) (by norm_num)
  · exact main 166 65 (by norm_num) (by norm_num) (by norm_num) (by norm_num) (by norm_num)

/-- The default `L = 32`: the pixel on the equator (ring 15 has its centre at 31/63 of a half circle) and the zero meridian is in the block
and scaled by a factor of 4, the one on the north pole is not. -/
example : ∃ sig, topoLevels (fun x => pyInt ((x * (2 * (32 : ℕ) - 1) / Real.pi - 1) / 2)) (fun x => pyInt (x * (2 * (32 : ℕ) - 1) / (2 * Real.pi)))
      32 3 4 (List.replicate (mwLength 32) 9) = .ok sig ∧
    sig[15 * 63 + 0]? = some 4 ∧ sig[0]? = some 1 := by
  obtain ⟨h1, h2, h3⟩ := C136_trunc_partial (L := 32) (thetaIdx := fun x => pyInt ((x * (2 * (32 : ℕ) - 1) / Real.pi - 1) / 2))
    (phiIdx := fun x => pyInt (x * (2 * (32 : ℕ) - 1) / (2 * Real.pi))) (by norm_num) (fun _ => rfl) (fun _ => rfl)
  obtain ⟨sig, hsig⟩ := h1 3 4 (List.replicate (mwLength 32) 9)
  obtain ⟨-, h4⟩ := (C136_levels_partial _ _ 32 3 (List.replicate (mwLength 32) 9) (by simp)).1 4 sig (by norm_num) hsig
  have e9 : √((3 : ℝ) ^ 2 / 9) = 1 := by norm_num
  refine ⟨sig, hsig, ?_, ?_⟩
  · have h := (h4 15 0 (by norm_num) (by norm_num) 9 (by rw [List.getElem?_replicate, if_pos (by rw [mwLength]; norm_num)])).1 (h3 (by norm_num) 15 0 (by norm_num) (by norm_num) (by
      have := inAfrica_iff (L := 32) (by norm_num) 15 0 0 0
      rw [zero_mul, zero_div] at this
      rw [this]
      norm_num))
    rw [e9] at h
    simpa using h
  · have h := (h4 0 0 (by norm_num) (by norm_num) 9 (by rw [List.getElem?_replicate, if_pos (by rw [mwLength]; norm_num)])).2 (fun hg => by
      have h5 := h2 0 0 (by norm_num) (by norm_num) hg
      have := inAfrica_iff (L := 32) (by norm_num) 0 0 2 0
      rw [zero_mul, zero_div] at this
      rw [this] at h5
      norm_num at h5)
    rw [e9] at h
    simpa using h

/-- The same with the nearest pixels. -/
example : ∃ sig, topoLevels (fun x => round ((x * (2 * (32 : ℕ) - 1) / Real.pi - 1) / 2)) (fun x => round (x * (2 * (32 : ℕ) - 1) / (2 * Real.pi)))
      32 3 4 (List.replicate (mwLength 32) 9) = .ok sig :=
  (C136_block_partial (round_nearest (L := 32) (by norm_num)) (by norm_num)).1 _ _ _

/-- `L = 400` computes levels that miss a pixel of the block. -/
example : ∃ sig t p, topoLevels (fun x => round ((x * (2 * (400 : ℕ) - 1) / Real.pi - 1) / 2))
      (fun x => round (x * (2 * (400 : ℕ) - 1) / (2 * Real.pi))) 400 3 4 (List.replicate (mwLength 400) 9) = .ok sig ∧
    InAfrica 400 t p 0 0 ∧ sig[t * 799 + p]? = some 1 := by
  obtain ⟨sig, h⟩ := (C136_block_partial (round_nearest (L := 400) (by norm_num)) (by norm_num)).1 3 4 (List.replicate (mwLength 400) 9)
  obtain ⟨t, p, ht, hp, h1, h2⟩ := C136_refuted _ _ 400 (by norm_num) 3 4 (by norm_num) (List.replicate (mwLength 400) 9) sig (by simp) h
  refine ⟨sig, t, p, h, h1, ?_⟩
  have h3 := h2 9 (by rw [List.getElem?_replicate, if_pos (by rw [mwLength]; omega)])
  have e9 : √((3 : ℝ) ^ 2 / 9) = 1 := by norm_num
  rwa [e9] at h3

end Nearest

end Pxmcmc
