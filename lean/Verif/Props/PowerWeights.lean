import Verif.Model.PowerPrior
import Verif.Props.Prior
import Verif.Props.Packing
import Verif.Props.Uncertainty

/-! # Property C127: the weights of the power-weighted wavelet prior (`pxmcmc/prior.py:101-149`) -/

namespace Pxmcmc

/-! ## `np.argmax` -/

/-- `a` comes strictly before `b` in numpy's order on complex numbers. -/
def LexLt (a b : ℂ) : Prop := a.re < b.re ∨ (a.re = b.re ∧ a.im < b.im)

theorem not_lexLe {a b : ℂ} : ¬ lexLe a b ↔ LexLt b a := by
  unfold lexLe LexLt
  constructor
  · intro h
    push Not at h
    obtain ⟨h1, h2⟩ := h
    rcases lt_or_eq_of_le h1 with h3 | h3
    · exact .inl h3
    · exact .inr ⟨h3, h2 h3.symm⟩
  · rintro (h | ⟨h1, h2⟩) (h3 | ⟨h3, h4⟩) <;> linarith

theorem lexLe_refl (a : ℂ) : lexLe a a := .inr ⟨rfl, le_rfl⟩

theorem LexLt.le {a b : ℂ} (h : LexLt a b) : lexLe a b := by
  rcases h with h | ⟨h1, h2⟩
  · exact .inl h
  · exact .inr ⟨h1, h2.le⟩

theorem lexLe.trans {a b c : ℂ} (h : lexLe a b) (h' : lexLe b c) : lexLe a c := by
  unfold lexLe at *
  rcases h with h | ⟨h1, h2⟩ <;> rcases h' with h3 | ⟨h3, h4⟩
  · exact .inl (by linarith)
  · exact .inl (by linarith)
  · exact .inl (by linarith)
  · exact .inr ⟨by linarith, by linarith⟩

theorem lexLe.trans_lt {a b c : ℂ} (h : lexLe a b) (h' : LexLt b c) : LexLt a c := by
  unfold lexLe LexLt at *
  rcases h with h | ⟨h1, h2⟩ <;> rcases h' with h3 | ⟨h3, h4⟩
  · exact .inl (by linarith)
  · exact .inl (by linarith)
  · exact .inl (by linarith)
  · exact .inr ⟨by linarith, by linarith⟩

/-- `k` is the smallest degree below `L` at which `g` is largest (in numpy's order). -/
def IsPeak (L : ℕ) (g : ℕ → ℂ) (k : ℕ) : Prop :=
  k < L ∧ (∀ l < L, lexLe (g l) (g k)) ∧ ∀ l < k, LexLt (g l) (g k)

theorem argmaxLoop_spec : ∀ (ys pre : List ℂ) (best : ℕ) (v : ℂ),
    IsPeak pre.length (fun i => pre.getD i 0) best → pre.getD best 0 = v →
    IsPeak (pre ++ ys).length (fun i => (pre ++ ys).getD i 0) (argmaxLoop ys pre.length best v)
  | [], pre, best, v, h, _ => by simpa [argmaxLoop] using h
  | y :: ys, pre, best, v, h, hv => by
    have hl : ∀ i, i < pre.length → (pre ++ [y]).getD i 0 = pre.getD i 0 := by
      intro i hi; simp [List.getD, List.getElem?_append_left hi]
    have hy : (pre ++ [y]).getD pre.length 0 = y := by simp [List.getD]
    have happ : pre ++ y :: ys = (pre ++ [y]) ++ ys := by simp
    have hlen : pre.length + 1 = (pre ++ [y]).length := by simp
    rw [happ, argmaxLoop, hlen]
    obtain ⟨h1, h2, h3⟩ := h
    split
    · rename_i hle
      refine argmaxLoop_spec ys (pre ++ [y]) best v ⟨by simp; omega, fun l hlt => ?_, fun l hlt => ?_⟩ (by rw [hl _ h1, hv])
      · rw [← hlen] at hlt
        simp only [hl _ h1]
        rcases Nat.lt_succ_iff_lt_or_eq.mp hlt with h4 | rfl
        · rw [hl _ h4]; exact h2 l h4
        · rw [hy, hv]; exact hle
      · simp only [hl _ h1, hl _ (hlt.trans h1)]
        exact h3 l hlt
    · rename_i hle
      have hlt' : LexLt v y := not_lexLe.mp hle
      refine argmaxLoop_spec ys (pre ++ [y]) pre.length y ⟨by simp, fun l hlt => ?_, fun l hlt => ?_⟩ hy
      · rw [← hlen] at hlt
        simp only [hy]
        rcases Nat.lt_succ_iff_lt_or_eq.mp hlt with h4 | rfl
        · rw [hl _ h4]; exact (h2 l h4).trans (by show lexLe (pre.getD best 0) y; rw [hv]; exact hlt'.le)
        · rw [hy]; exact lexLe_refl _
      · simp only [hy, hl _ hlt]
        exact (h2 l hlt).trans_lt (by show LexLt (pre.getD best 0) y; rw [hv]; exact hlt')

theorem npArgmaxC_spec (l : List ℂ) (k : ℕ) (h : npArgmaxC l = .ok k) : IsPeak l.length (fun i => l.getD i 0) k := by
  cases l with
  | nil => cases h
  | cons x xs =>
    simp only [npArgmaxC, Except.ok.injEq] at h
    subst h
    have := argmaxLoop_spec xs [x] 0 x ⟨by simp, fun l hl => ?_, fun l hl => absurd hl (by omega)⟩ (by simp)
    · simpa using this
    · have : l = 0 := by simpa using hl
      subst this; exact lexLe_refl _

theorem IsPeak.congr {L k : ℕ} {g g' : ℕ → ℂ} (h : IsPeak L g k) (e : ∀ l < L, g l = g' l) : IsPeak L g' k := by
  obtain ⟨h1, h2, h3⟩ := h
  refine ⟨h1, fun l hl => ?_, fun l hl => ?_⟩
  · rw [← e l hl, ← e k h1]; exact h2 l hl
  · rw [← e l (hl.trans h1), ← e k h1]; exact h3 l hl

/-- A peak is unique. -/
theorem IsPeak.unique {L k k' : ℕ} {g : ℕ → ℂ} (h : IsPeak L g k) (h' : IsPeak L g k') : k = k' := by
  by_contra hne
  rcases lt_or_gt_of_ne hne with h1 | h1
  · exact not_lexLe.mpr (h'.2.2 k h1) (h.2.1 k' h'.1)
  · exact not_lexLe.mpr (h.2.2 k' h1) (h'.2.1 k h.1)

/-! ## Positions in concatenated blocks -/

theorem flatMap_index {α β : Type} (f : α → List β) : ∀ (l : List α) (F : ℕ → ℕ)
    (_ : ∀ i (hi : i < l.length), (f l[i]).length = F i) (j : ℕ) (hj : j < l.length) (k : ℕ) (_ : k < F j),
    (l.flatMap f)[∑ i ∈ Finset.range j, F i + k]? = (f l[j])[k]?
  | [], _, _, _, hj, _, _ => absurd hj (by simp)
  | a :: l, F, hF, 0, _, k, hk => by
    have h0 : (f a).length = F 0 := hF 0 (by simp)
    rw [List.flatMap_cons, Finset.sum_range_zero, zero_add, List.getElem?_append_left (by omega)]
    rfl
  | a :: l, F, hF, j + 1, hj, k, hk => by
    have h0 : (f a).length = F 0 := hF 0 (by simp)
    have ih := flatMap_index f l (fun i => F (i + 1)) (fun i hi => hF (i + 1) (by simpa using hi)) j
      (by simpa using hj) k hk
    rw [List.flatMap_cons, Finset.sum_range_succ', List.getElem?_append_right (by omega), h0]
    rw [show ∑ i ∈ Finset.range j, F (i + 1) + F 0 + k - F 0 = ∑ i ∈ Finset.range j, F (i + 1) + k by omega, ih]
    rfl

theorem flatMap_length_sum {α β : Type} (f : α → List β) : ∀ (l : List α) (F : ℕ → ℕ)
    (_ : ∀ i (hi : i < l.length), (f l[i]).length = F i),
    (l.flatMap f).length = ∑ i ∈ Finset.range l.length, F i
  | [], _, _ => by simp
  | a :: l, F, hF => by
    have h0 : (f a).length = F 0 := hF 0 (by simp)
    rw [List.flatMap_cons, List.length_append, List.length_cons, Finset.sum_range_succ', h0,
      flatMap_length_sum f l (fun i => F (i + 1)) (fun i hi => hF (i + 1) (by simpa using hi)), add_comm]

theorem sinWeights_get (b : ℕ) (c : ℝ) (t : ℕ) (ht : t < b) (p : ℕ) (hp : p < 2 * b - 1) :
    (sinWeights b c)[t * (2 * b - 1) + p]? = some (c * Real.sin ((2 * t + 1) * Real.pi / (2 * b - 1))) := by
  have h := flatMap_index (fun t => List.replicate (2 * b - 1) (c * Real.sin t)) (mwThetas b) (fun _ => 2 * b - 1)
    (fun i hi => by simp) t (by simpa [mwThetas_length] using ht) p hp
  simp only [Finset.sum_const, Finset.card_range, smul_eq_mul] at h
  unfold sinWeights
  rw [h, List.getElem?_replicate, if_pos hp]
  simp [mwThetas]

/-! ## The constructor -/

theorem initTiling_inv {h : Heap ℝ} {setting : String} {T : TObj} {L : ℕ} {til til1 : Tiling} {eta : ℝ} {fresh : ℕ}
    {h' : Heap ℝ} {P : S2L1} (hok : S2L1.initTiling h setting T L til til1 eta fresh = .ok (h', P)) :
    ∃ bls bls1 peaks s ww h1 P1, multiresBandlimits L til.phi til.psis = .ok bls ∧
      S2L1.init h "synthesis" T bls fresh = .ok (h1, P1) ∧ scalingWeights til.phi = .ok s ∧
      multiresBandlimits L til1.phi til1.psis = .ok bls1 ∧ peakLs L til.psis = .ok peaks ∧
      waveletWeights bls1 til.psis peaks eta = .ok ww ∧ imul h1 P1.T (s ++ ww) (fresh + 1) = .ok (h', P.T) ∧
      P.mapWeights = s ++ ww ∧ setting = "synthesis" := by
  unfold S2L1.initTiling at hok
  split at hok
  · cases hok
  · cases hok
  rename_i hset
  have hst : setting = "synthesis" := by
    unfold Setting.parse at hset
    split at hset <;> simp_all
  subst hst
  cases e1 : multiresBandlimits L til.phi til.psis with
  | error e => rw [e1] at hok; cases hok
  | ok bls =>
  rw [e1] at hok
  simp only [bind, Except.bind] at hok
  cases e2 : S2L1.init h "synthesis" T bls fresh with
  | error e => rw [e2] at hok; cases hok
  | ok r =>
  obtain ⟨h1, P1⟩ := r
  rw [e2] at hok
  simp only at hok
  cases e3 : scalingWeights til.phi with
  | error e => rw [e3] at hok; cases hok
  | ok s =>
  rw [e3] at hok
  simp only [waveletWeightsTiling, bind, Except.bind] at hok
  cases e4 : multiresBandlimits L til1.phi til1.psis with
  | error e => rw [e4] at hok; cases hok
  | ok bls1 =>
  rw [e4] at hok
  simp only at hok
  cases e5 : peakLs L til.psis with
  | error e => rw [e5] at hok; cases hok
  | ok peaks =>
  rw [e5] at hok
  simp only at hok
  cases e6 : waveletWeights bls1 til.psis peaks eta with
  | error e => rw [e6] at hok; cases hok
  | ok ww =>
  rw [e6] at hok
  simp only at hok
  cases e7 : imul h1 P1.T (s ++ ww) (fresh + 1) with
  | error e => rw [e7] at hok; cases hok
  | ok r2 =>
  rw [e7] at hok
  simp only [Except.ok.injEq, Prod.mk.injEq] at hok
  obtain ⟨rfl, rfl⟩ := hok
  exact ⟨bls, bls1, peaks, s, ww, h1, P1, rfl, e2, rfl, rfl, rfl, e6, by rw [e7], rfl, rfl⟩

/-- The tiling has the shapes that pys2let returns: `L` entries for the scaling function, `L²` for every wavelet. -/
def Tiling.Shape (L : ℕ) (til : Tiling) : Prop := til.phi.length = L ∧ ∀ psi ∈ til.psis, psi.length = L ^ 2

theorem peakLs_spec {L : ℕ} {psis : List (List ℂ)} (hs : ∀ psi ∈ psis, psi.length = L ^ 2) {peaks : List ℕ}
    (h : peakLs L psis = .ok peaks) : List.Forall₂ (fun psi k => IsPeak L (profile psi) k) psis peaks := by
  unfold peakLs at h
  have hps : psis.mapM (degreeZeroPart L) = .ok (psis.map fun psi => (List.range L).map (profile psi)) := by
    rw [mapM_ok_iff, List.forall₂_map_right_iff, List.forall₂_same]
    exact fun psi hp => degreeZeroPart_ok L psi (hs psi hp).ge
  rw [hps] at h
  simp only [bind, Except.bind] at h
  rw [mapM_ok_iff, List.forall₂_map_left_iff] at h
  refine h.imp fun psi k hk => ?_
  have := npArgmaxC_spec _ _ hk
  rw [List.length_map, List.length_range] at this
  exact this.congr fun l hl => by simp [List.getD, hl]

theorem forall2_getD {α β : Type} {R : α → β → Prop} {l : List α} {r : List β} (h : List.Forall₂ R l r) (a : α) (b : β) :
    ∀ j < l.length, R (l.getD j a) (r.getD j b) := by
  induction h with
  | nil => intro j hj; simp at hj
  | cons h1 _ ih =>
    intro j hj
    cases j with
    | zero => simpa using h1
    | succ j => simpa using ih j (by simpa using hj)

/-- The energy `∑ |z|²` of an array. -/
noncomputable def energy (x : List ℂ) : ℝ := (x.map fun z => z.re ^ 2 + z.im ^ 2).sum

theorem power_eq_energy (x : List ℂ) : power x = energy x := by
  unfold power energy
  congr 1
  apply List.map_congr_left
  intro z _
  rw [← Complex.normSq_eq_norm_sq, Complex.normSq_apply]
  ring

/-- What the constructor computes: bandlimits, peaks, and the weights as a concatenation of rings. -/
theorem initTiling_blocks {h : Heap ℝ} {setting : String} {T : TObj} {L : ℕ} {til til1 : Tiling} {eta : ℝ} {fresh : ℕ}
    {h' : Heap ℝ} {P : S2L1} (hS : til.Shape L) (hS1 : til1.Shape L) (hJ : til1.psis.length = til.psis.length)
    (hok : S2L1.initTiling h setting T L til til1 eta fresh = .ok (h', P)) :
    ∃ (b : ℕ) (bs peak : ℕ → ℕ), (IsBandlimit L (fun l => til.phi.getD l 0) b ∧ 1 ≤ b ∧ b ≤ L) ∧
      (∀ j < til.psis.length, (IsBandlimit L (profile (til1.psis.getD j [])) (bs j) ∧ 1 ≤ bs j ∧ bs j ≤ L) ∧
        IsPeak L (profile (til.psis.getD j [])) (peak j)) ∧
      P.mapWeights = sinWeights b (2 * Real.pi ^ 2 / (energy til.phi * (b * (2 * b - 1 : ℕ) : ℕ))) ++
        (List.range til.psis.length).flatMap fun j => sinWeights (bs j)
          (2 * Real.pi ^ 2 * (peak j : ℝ) ^ eta / (energy (til.psis.getD j []) * (bs j * (2 * bs j - 1) : ℕ))) := by
  obtain ⟨bls, bls1, peaks, s, ww, h1, P1, e1, -, e3, e4, e5, e6, -, e8, -⟩ := initTiling_inv hok
  have hB := C72_bandlimits L til.phi til.psis hS.1 (fun p hp => (hS.2 p hp).ge) bls e1
  have hB1 := C72_bandlimits L til1.phi til1.psis hS1.1 (fun p hp => (hS1.2 p hp).ge) bls1 e4
  have hP := peakLs_spec hS.2 e5
  cases hB1 with
  | @cons _ b1 _ bls1' _ hB1' =>
  rw [List.forall₂_map_left_iff] at hB1'
  have hlen1 := hB1'.length_eq
  have hlenp := hP.length_eq
  -- the scaling function
  obtain ⟨b, hb⟩ : ∃ b, bandlimitOf til.phi = .ok b := by
    unfold scalingWeights at e3
    cases hb : bandlimitOf til.phi with
    | error e => rw [hb] at e3; cases e3
    | ok b => exact ⟨b, rfl⟩
  have hsw : s = sinWeights b (2 * Real.pi ^ 2 / (power til.phi * mwLength b)) := by
    unfold scalingWeights at e3
    rw [hb] at e3
    simp only [bind, Except.bind, Except.ok.injEq] at e3
    exact e3.symm
  have hbl : IsBandlimit L (fun l => til.phi.getD l 0) b ∧ 1 ≤ b ∧ b ≤ L := by
    apply isBandlimit_of_spec
    rw [← hb]
    congr 1
    apply List.ext_getElem
    · simp [hS.1]
    · intro i h1 h2; simp [List.getD, List.getElem?_eq_getElem h2]
  refine ⟨b, fun j => bls1'.getD j 0, fun j => peaks.getD j 0, hbl, fun j hj => ?_, ?_⟩
  · exact ⟨forall2_getD hB1' [] 0 j (by omega), forall2_getD hP [] 0 j hj⟩
  · have hscales : waveletScales (b1 :: bls1') til.psis peaks = (List.range til.psis.length).map fun j =>
        ((bls1'.getD j 0, power (til.psis.getD j [])), peaks.getD j 0) := by
      apply List.ext_getElem
      · simp [waveletScales]; omega
      · intro i hi1 hi2
        have hi : i < til.psis.length := by simpa using hi2
        simp [waveletScales, List.getD, List.getElem?_eq_getElem hi, List.getElem?_eq_getElem (show i < bls1'.length by omega),
          List.getElem?_eq_getElem (show i < peaks.length by omega)]
    have hww : ww = (waveletScales (b1 :: bls1') til.psis peaks).flatMap fun x =>
        sinWeights x.1.1 (2 * Real.pi ^ 2 * (x.2 : ℝ) ^ eta / (x.1.2 * mwLength x.1.1)) := by
      unfold waveletWeights at e6
      cases hx : waveletScales (b1 :: bls1') til.psis peaks with
      | nil => rw [hx] at e6; cases e6
      | cons x xs =>
        rw [hx] at e6
        simp only at e6
        split at e6
        · cases e6
        · injection e6 with e6; exact e6.symm
    rw [e8, hsw, hww, hscales, List.flatMap_map]
    simp only [power_eq_energy, mwLength]

/-- C127: the weight of every pixel.  With `b` the bandlimit of the scaling function, `b_j` that of the `j`-th wavelet (of the tiling
for the default `dirs`, `spin`) and `k_j` the degree at which its `m = 0` coefficient is largest, pixel `(t, p)` of the scaling map
gets `2π² sin θ_t / (‖φ‖² b(2b-1))` and pixel `(t, p)` of the `j`-th wavelet map `2π² k_j^η sin θ_t / (‖ψ_j‖² b_j(2b_j-1))`, where
`θ_t = (2t+1)π/(2b-1)` resp. `(2t+1)π/(2b_j-1)`; there are no other weights, and all divisors are positive.
(`0 ≤ η`: for a negative exponent numpy's `0 ** η` is not the real power of the model.) -/
theorem C127_entries {h : Heap ℝ} {setting : String} {T : TObj} {L : ℕ} {til til1 : Tiling} {eta : ℝ} {fresh : ℕ}
    {h' : Heap ℝ} {P : S2L1} (_heta : 0 ≤ eta) (hS : til.Shape L) (hS1 : til1.Shape L) (hJ : til1.psis.length = til.psis.length)
    (hok : S2L1.initTiling h setting T L til til1 eta fresh = .ok (h', P)) :
    ∃ (b : ℕ) (bs peak : ℕ → ℕ), IsBandlimit L (fun l => til.phi.getD l 0) b ∧ 1 ≤ b ∧
      (∀ j < til.psis.length, IsBandlimit L (profile (til1.psis.getD j [])) (bs j) ∧ 1 ≤ bs j ∧
        IsPeak L (profile (til.psis.getD j [])) (peak j)) ∧
      0 < energy til.phi ∧ (∀ j < til.psis.length, 0 < energy (til.psis.getD j [])) ∧
      (∀ t < b, ∀ p < 2 * b - 1, P.mapWeights[t * (2 * b - 1) + p]? =
        some (2 * Real.pi ^ 2 * Real.sin ((2 * t + 1) * Real.pi / (2 * b - 1)) / (energy til.phi * (b * (2 * b - 1))))) ∧
      (∀ j < til.psis.length, ∀ t < bs j, ∀ p < 2 * bs j - 1,
        P.mapWeights[b * (2 * b - 1) + ∑ i ∈ Finset.range j, bs i * (2 * bs i - 1) + (t * (2 * bs j - 1) + p)]? =
        some (2 * Real.pi ^ 2 * (peak j : ℝ) ^ eta * Real.sin ((2 * t + 1) * Real.pi / (2 * bs j - 1)) /
          (energy (til.psis.getD j []) * (bs j * (2 * bs j - 1))))) ∧
      P.mapWeights.length = b * (2 * b - 1) + ∑ j ∈ Finset.range til.psis.length, bs j * (2 * bs j - 1) := by
  obtain ⟨b, bs, peak, ⟨hb1, hb2, hb3⟩, hj, hw⟩ := initTiling_blocks hS hS1 hJ hok
  obtain ⟨bls, -, -, -, -, -, -, e1, -⟩ := initTiling_inv hok
  have hB := C72_bandlimits L til.phi til.psis hS.1 (fun p hp => (hS.2 p hp).ge) bls e1
  have cast : ∀ b : ℕ, 1 ≤ b → ((b * (2 * b - 1) : ℕ) : ℝ) = b * (2 * b - 1) := by
    intro b hb
    rw [Nat.cast_mul, Nat.cast_sub (by omega)]
    push_cast; ring
  have enn : ∀ x : List ℂ, ∀ i, x.getD i 0 ≠ 0 → 0 < energy x := by
    intro x i hi
    have hlt : i < x.length := by
      by_contra hc
      exact hi (by simp [List.getD, List.getElem?_eq_none (not_lt.mp hc)])
    have hmem : x[i] ∈ x := List.getElem_mem hlt
    have hne : x[i] ≠ 0 := by simpa [List.getD, List.getElem?_eq_getElem hlt] using hi
    have hpos : 0 < x[i].re ^ 2 + x[i].im ^ 2 := by
      have := Complex.normSq_pos.mpr hne
      rw [Complex.normSq_apply] at this
      nlinarith
    have hle := List.single_le_sum (l := x.map fun z : ℂ => z.re ^ 2 + z.im ^ 2)
      (by intro y hy; obtain ⟨z, -, rfl⟩ := List.mem_map.mp hy; positivity) _ (List.mem_map_of_mem hmem)
    exact lt_of_lt_of_le hpos hle
  have pk : ∀ (g : ℕ → ℂ) (b : ℕ), IsBandlimit L g b → 1 ≤ b → b ≤ L → g (b - 1) ≠ 0 := by
    intro g b hb h1 hL hz
    have : b ≤ b - 1 := hb.2 (fun l hl hlL => by
      rcases Nat.lt_or_ge l b with h2 | h2
      · rw [show l = b - 1 by omega]; exact hz
      · exact hb.1 l h2 hlL)
    omega
  refine ⟨b, bs, peak, hb1, hb2, fun j hjJ => ⟨(hj j hjJ).1.1, (hj j hjJ).1.2.1, (hj j hjJ).2⟩, ?_, ?_, ?_, ?_, ?_⟩
  · exact enn _ _ (pk _ b hb1 hb2 hb3)
  · intro j hjJ
    cases hB with
    | cons _ hB' =>
    rw [List.forall₂_map_left_iff] at hB'
    obtain ⟨h3, h4, h5⟩ := forall2_getD hB' [] 0 j hjJ
    exact enn _ _ (pk _ _ h3 h4 h5)
  · intro t ht p hp
    have hlt : t * (2 * b - 1) + p < b * (2 * b - 1) := by
      have : (t + 1) * (2 * b - 1) ≤ b * (2 * b - 1) := Nat.mul_le_mul_right _ ht
      nlinarith
    rw [hw, List.getElem?_append_left (by rw [sinWeights_length]; exact hlt), sinWeights_get _ _ t ht p hp, cast b hb2]
    congr 1
    ring
  · intro j hjJ t ht p hp
    have hlt : t * (2 * bs j - 1) + p < bs j * (2 * bs j - 1) := by
      have : (t + 1) * (2 * bs j - 1) ≤ bs j * (2 * bs j - 1) := Nat.mul_le_mul_right _ ht
      nlinarith
    rw [hw, add_assoc, List.getElem?_append_right (by rw [sinWeights_length]; omega), sinWeights_length, Nat.add_sub_cancel_left,
      flatMap_index _ _ (fun i => bs i * (2 * bs i - 1)) (fun i hi => by simp [sinWeights_length]) j (by simpa using hjJ) _ hlt]
    simp only [List.getElem_range]
    rw [sinWeights_get _ _ t ht p hp, cast _ (hj j hjJ).1.2.1]
    congr 1
    ring
  · rw [hw, List.length_append, sinWeights_length,
      flatMap_length_sum _ _ (fun i => bs i * (2 * bs i - 1)) (fun i hi => by simp [sinWeights_length]), List.length_range]

theorem init_float (h : Heap ℝ) (tau : ℝ) (bls : List ℕ) (fresh : ℕ) : S2L1.init h "synthesis" (.float tau) bls fresh =
    .ok (h.write fresh ((bls.flatMap mwMapWeights).map fun x => tau * x), ⟨.arr fresh, bls.flatMap mwMapWeights⟩) := rfl

/-- The parameters of `initPower` (properties C11, C12, C84, …) when the code computes them. -/
theorem initTiling_eq {h : Heap ℝ} {T : TObj} {L : ℕ} {til til1 : Tiling} {eta : ℝ} {fresh : ℕ} {bls bls1 peaks : List ℕ}
    (e1 : multiresBandlimits L til.phi til.psis = .ok bls) (e2 : multiresBandlimits L til1.phi til1.psis = .ok bls1)
    (e3 : peakLs L til.psis = .ok peaks) :
    S2L1.initTiling h "synthesis" T L til til1 eta fresh =
      S2L1.initPower h "synthesis" T til.phi til.psis bls bls1 peaks eta fresh := by
  have hp : Setting.parse "synthesis" = some .synthesis := rfl
  unfold S2L1.initTiling S2L1.initPower waveletWeightsTiling
  rw [hp, e1, e2, e3]
  rfl

/-- C127: no weight is negative, and the weights vanish on the southernmost ring of every map (the south pole). -/
theorem C127_nonneg_south {h : Heap ℝ} {setting : String} {T : TObj} {L : ℕ} {til til1 : Tiling} {eta : ℝ} {fresh : ℕ}
    {h' : Heap ℝ} {P : S2L1} (heta : 0 ≤ eta) (hS : til.Shape L) (hS1 : til1.Shape L) (hJ : til1.psis.length = til.psis.length)
    (hok : S2L1.initTiling h setting T L til til1 eta fresh = .ok (h', P)) :
    (∀ w ∈ P.mapWeights, 0 ≤ w) ∧
    ∃ (b : ℕ) (bs : ℕ → ℕ), IsBandlimit L (fun l => til.phi.getD l 0) b ∧
      (∀ j < til.psis.length, IsBandlimit L (profile (til1.psis.getD j [])) (bs j)) ∧
      (∀ p < 2 * b - 1, P.mapWeights[(b - 1) * (2 * b - 1) + p]? = some 0) ∧
      ∀ j < til.psis.length, ∀ p < 2 * bs j - 1,
        P.mapWeights[b * (2 * b - 1) + ∑ i ∈ Finset.range j, bs i * (2 * bs i - 1) + ((bs j - 1) * (2 * bs j - 1) + p)]? = some 0 := by
  have hpi : ∀ b : ℕ, 1 ≤ b → Real.sin ((2 * ((b - 1 : ℕ) : ℝ) + 1) * Real.pi / (2 * b - 1)) = 0 := by
    intro b hb
    have h0 : (2 * (b : ℝ) - 1) ≠ 0 := (two_L_pos hb).ne'
    rw [Nat.cast_sub hb, show (2 * ((b : ℝ) - (1 : ℕ)) + 1) * Real.pi / (2 * b - 1) = Real.pi by push_cast; field_simp; ring,
      Real.sin_pi]
  constructor
  · obtain ⟨b, bs, peak, ⟨hb1, hb2, hb3⟩, hj, hw⟩ := initTiling_blocks hS hS1 hJ hok
    have hen : ∀ x : List ℂ, 0 ≤ energy x := fun x => List.sum_nonneg (by
      intro y hy; obtain ⟨z, -, rfl⟩ := List.mem_map.mp hy; positivity)
    intro w hwm
    rw [hw, List.mem_append] at hwm
    rcases hwm with hwm | hwm
    · exact sinWeights_nonneg hb2 (by have := hen til.phi; positivity) w hwm
    · obtain ⟨j, hjJ, hwm⟩ := List.mem_flatMap.mp hwm
      rw [List.mem_range] at hjJ
      exact sinWeights_nonneg (hj j hjJ).1.2.1 (by have := hen (til.psis.getD j []); positivity) w hwm
  · obtain ⟨b, bs, peak, hb1, hb2, hj, -, -, h1, h2, -⟩ := C127_entries heta hS hS1 hJ hok
    refine ⟨b, bs, hb1, fun j hjJ => (hj j hjJ).1, fun p hp => ?_, fun j hjJ p hp => ?_⟩
    · rw [h1 (b - 1) (by omega) p hp, hpi b hb2]; simp
    · rw [h2 j hjJ (bs j - 1) (by have := (hj j hjJ).2.1; omega) p hp, hpi _ (hj j hjJ).2.1]; simp

/-- C127: a coefficient whose weight is zero is never thresholded: `proxf` leaves it as it is (threshold given as a float). -/
theorem C127_zero_weight_kept {h : Heap ℝ} {setting : String} {tau : ℝ} {L : ℕ} {til til1 : Tiling} {eta : ℝ} {fresh : ℕ}
    {h' : Heap ℝ} {P : S2L1} (heta : 0 ≤ eta) (hS : til.Shape L) (hS1 : til1.Shape L) (hJ : til1.psis.length = til.psis.length)
    (hok : S2L1.initTiling h setting (.float tau) L til til1 eta fresh = .ok (h', P)) (X : List ℂ)
    (hX : X.length = P.mapWeights.length) :
    ∃ Y, P.proxf h' X = .ok Y ∧ Y.length = X.length ∧ ∀ i : ℕ, P.mapWeights[i]? = some 0 → Y[i]? = X[i]? := by
  obtain ⟨b, bs, peak, hb1, hb2, hj, -, -, -, -, hlen⟩ := C127_entries heta hS hS1 hJ hok
  obtain ⟨bls, bls1, peaks, s, ww, h1, P1, e1, e2, e3, e4, e5, e6, e7, e8, rfl⟩ := initTiling_inv hok
  rw [init_float] at e2
  obtain ⟨rfl, rfl⟩ := Prod.mk.inj (Except.ok.inj e2)
  have hJ0 : 0 < til.psis.length := by
    by_contra hc
    have h0 : til.psis = [] := List.eq_nil_of_length_eq_zero (by omega)
    rw [h0] at e6
    simp [waveletWeights, waveletScales] at e6
  have hlen2 : 2 ≤ (s ++ ww).length := by
    rw [← e8, hlen]
    have h3 : 1 ≤ b * (2 * b - 1) := Nat.mul_pos hb2 (by omega)
    have h4 : 1 ≤ bs 0 * (2 * bs 0 - 1) := Nat.mul_pos (hj 0 hJ0).2.1 (by have := (hj 0 hJ0).2.1; omega)
    have h5 : bs 0 * (2 * bs 0 - 1) ≤ ∑ j ∈ Finset.range til.psis.length, bs j * (2 * bs j - 1) :=
      Finset.single_le_sum (f := fun j => bs j * (2 * bs j - 1)) (fun _ _ => Nat.zero_le _) (Finset.mem_range.mpr hJ0)
    omega
  simp only [imul, Heap.write, if_true] at e7
  by_cases hl : ((bls.flatMap mwMapWeights).map fun x => tau * x).length = (s ++ ww).length
  · rw [if_pos hl] at e7
    simp only [Except.ok.injEq, Prod.mk.injEq] at e7
    obtain ⟨e7, e9⟩ := e7
    have hval : P.T.value h' = some (.vector
        ((((bls.flatMap mwMapWeights).map fun x => tau * x).zip (s ++ ww)).map fun p => p.1 * p.2)) := by
      rw [← e9, ← e7]
      simp [TObj.value, Heap.write]
    have hXl : X.length = ((((bls.flatMap mwMapWeights).map fun x => tau * x).zip (s ++ ww)).map fun p => p.1 * p.2).length := by
      rw [List.length_map, List.length_zip, hl, min_self, hX, e8]
    refine ⟨(X.zip ((((bls.flatMap mwMapWeights).map fun x => tau * x).zip (s ++ ww)).map fun p => p.1 * p.2)).map
      fun p => softEntry p.1 p.2, ?_, ?_, fun i hi => ?_⟩
    · unfold S2L1.proxf
      rw [hval]
      simp only [soft, Thresh.arr]
      rw [bcast_eq _ _ hXl]
      rfl
    · rw [List.length_map, List.length_zip, ← hXl, min_self]
    · rw [e8] at hi
      have hi' : i < (s ++ ww).length := by
        by_contra hc
        rw [List.getElem?_eq_none (not_lt.mp hc)] at hi
        cases hi
      have hi0 : (s ++ ww)[i] = 0 := by
        rw [List.getElem?_eq_getElem hi'] at hi
        exact Option.some.inj hi
      have hiX : i < X.length := by rw [hX, e8]; exact hi'
      have hib : i < (bls.flatMap mwMapWeights).length := by rw [List.length_map] at hl; omega
      rw [List.getElem?_eq_getElem (by rw [List.length_map, List.length_zip, ← hXl, min_self]; exact hiX),
        List.getElem?_eq_getElem hiX]
      congr 1
      simp only [List.getElem_map, List.getElem_zip, hi0, mul_zero]
      by_cases hx : X[i] = 0
      · rw [hx, softEntry_zero_left]
      · rw [softEntry_of_lt (norm_pos_iff.mpr hx) hx]
        have : ‖X[i]‖ ≠ 0 := norm_ne_zero_iff.mpr hx
        simp [this]
  · rw [if_neg hl] at e7
    exfalso
    split at e7
    · rename_i x hx
      rw [hx] at hlen2
      simp at hlen2
    · cases e7

/-- C127: if the `m = 0` coefficient of the `j`-th wavelet is largest at degree 0 and `η > 0`, the whole map has weight zero. -/
theorem C127_peak_zero {h : Heap ℝ} {setting : String} {T : TObj} {L : ℕ} {til til1 : Tiling} {eta : ℝ} {fresh : ℕ}
    {h' : Heap ℝ} {P : S2L1} (hS : til.Shape L) (hS1 : til1.Shape L) (hJ : til1.psis.length = til.psis.length) (heta : 0 < eta)
    (hok : S2L1.initTiling h setting T L til til1 eta fresh = .ok (h', P)) (j : ℕ) (hj : j < til.psis.length)
    (hpk : ∀ l < L, lexLe (profile (til.psis.getD j []) l) (profile (til.psis.getD j []) 0)) :
    ∃ (b : ℕ) (bs : ℕ → ℕ), IsBandlimit L (fun l => til.phi.getD l 0) b ∧
      (∀ i < til.psis.length, IsBandlimit L (profile (til1.psis.getD i [])) (bs i)) ∧
      ∀ k < bs j * (2 * bs j - 1),
        P.mapWeights[b * (2 * b - 1) + ∑ i ∈ Finset.range j, bs i * (2 * bs i - 1) + k]? = some 0 := by
  obtain ⟨b, bs, peak, hb1, hb2, hjs, -, -, -, h2, -⟩ := C127_entries heta.le hS hS1 hJ hok
  refine ⟨b, bs, hb1, fun i hi => (hjs i hi).1, fun k hk => ?_⟩
  obtain ⟨-, hbj, hP⟩ := hjs j hj
  have hp0 : peak j = 0 := hP.unique ⟨by have := hP.1; omega, hpk, fun l hl => absurd hl (by omega)⟩
  have hpos : 0 < 2 * bs j - 1 := by omega
  have := h2 j hj (k / (2 * bs j - 1)) (Nat.div_lt_of_lt_mul (by rwa [mul_comm] at hk)) (k % (2 * bs j - 1)) (Nat.mod_lt _ hpos)
  rw [mul_comm (k / _), Nat.div_add_mod, hp0] at this
  rw [this]
  simp [Real.zero_rpow heta.ne']

/-- C127: a wavelet whose `m = 0` coefficients all vanish (as for an even number of directions), or a zero scaling function, makes
the constructor raise `ValueError`. -/
theorem C127_no_axisymmetric_part {h : Heap ℝ} {T : TObj} {L : ℕ} {til til1 : Tiling} {eta : ℝ} {fresh : ℕ} (hS : til.Shape L)
    (hz : (∀ l, til.phi.getD l 0 = 0) ∨ ∃ psi ∈ til.psis, ∀ l < L, psi.getD (l ^ 2 + l) 0 = 0) :
    S2L1.initTiling h "synthesis" T L til til1 eta fresh = .error .ValueError := by
  obtain ⟨e, he⟩ := C72_zero_function_raises L til.phi til.psis hS.1 (fun p hp => (hS.2 p hp).ge) hz
  have hps : til.psis.mapM (degreeZeroPart L) = .ok (til.psis.map fun psi => (List.range L).map (profile psi)) := by
    rw [mapM_ok_iff, List.forall₂_map_right_iff, List.forall₂_same]
    exact fun psi hp => degreeZeroPart_ok L psi (hS.2 psi hp).ge
  have hve : ∀ (l : List (List ℂ)) (e : PyErr), l.mapM bandlimitOf = .error e → e = .ValueError := by
    intro l
    induction l with
    | nil => intro e h; cases h
    | cons a l ih =>
      intro e h
      rw [List.mapM_cons] at h
      cases ha : bandlimitOf a with
      | error e' =>
        rw [ha] at h
        simp only [bind, Except.bind, Except.error.injEq] at h
        rw [← h]
        exact ((bandlimitOf_error a e').mp ha).1
      | ok b =>
        rw [ha] at h
        simp only [bind, Except.bind] at h
        cases hl : l.mapM bandlimitOf with
        | error e' =>
          rw [hl] at h
          simp only [Except.error.injEq] at h
          rw [← h]; exact ih e' hl
        | ok bs => rw [hl] at h; cases h
  have : e = .ValueError := by
    have he' := he
    unfold multiresBandlimits at he'
    rw [hps] at he'
    simp only [bind, Except.bind, if_pos hS.1] at he'
    exact hve _ _ he'
  subst this
  have hp : Setting.parse "synthesis" = some .synthesis := rfl
  unfold S2L1.initTiling
  rw [hp, he]
  rfl

/-! ## Scaling the tiling -/

/-- The tiling multiplied by a real number. -/
def Tiling.scale (c : ℝ) (til : Tiling) : Tiling := ⟨til.phi.map (c * ·), til.psis.map (List.map (c * ·))⟩

theorem getD_scale (c : ℝ) (x : List ℂ) (i : ℕ) : (x.map ((c : ℂ) * ·)).getD i 0 = c * x.getD i 0 := by
  by_cases hi : i < x.length
  · simp [List.getD, hi]
  · simp [List.getD, not_lt.mp hi]

theorem lexLe_scale {c : ℝ} (hc : 0 < c) (a b : ℂ) : lexLe (c * a) (c * b) ↔ lexLe a b := by
  unfold lexLe
  simp only [Complex.re_ofReal_mul, Complex.im_ofReal_mul, mul_lt_mul_iff_right₀ hc, mul_le_mul_iff_right₀ hc,
    mul_right_inj' hc.ne']

theorem argmaxLoop_scale {c : ℝ} (hc : 0 < c) : ∀ (ys : List ℂ) (i best : ℕ) (v : ℂ),
    argmaxLoop (ys.map ((c : ℂ) * ·)) i best (c * v) = argmaxLoop ys i best v
  | [], _, _, _ => rfl
  | y :: ys, i, best, v => by
    simp only [List.map_cons, argmaxLoop, lexLe_scale hc, argmaxLoop_scale hc ys]

theorem npArgmaxC_scale {c : ℝ} (hc : 0 < c) (x : List ℂ) : npArgmaxC (x.map ((c : ℂ) * ·)) = npArgmaxC x := by
  cases x with
  | nil => rfl
  | cons a x => simp only [List.map_cons, npArgmaxC, argmaxLoop_scale hc]

theorem bandlimitOf_scale {c : ℝ} (hc : c ≠ 0) (x : List ℂ) : bandlimitOf (x.map ((c : ℂ) * ·)) = bandlimitOf x := by
  unfold bandlimitOf nonzeroIdx
  simp only [List.length_map, getD_scale, ne_eq, mul_eq_zero, Complex.ofReal_eq_zero, hc, false_or]

theorem degreeZeroPart_scale (c : ℝ) {L : ℕ} {psi : List ℂ} (h : psi.length = L ^ 2) :
    degreeZeroPart L (psi.map ((c : ℂ) * ·)) = .ok ((List.range L).map fun l => (c : ℂ) * profile psi l) := by
  rw [degreeZeroPart_ok L _ (by simp [h])]
  congr 1
  apply List.map_congr_left
  intro l _
  exact getD_scale c psi _

theorem energy_scale (c : ℝ) (x : List ℂ) : energy (x.map ((c : ℂ) * ·)) = c ^ 2 * energy x := by
  unfold energy
  rw [List.map_map, ← List.sum_map_mul_left]
  congr 1
  apply List.map_congr_left
  intro z _
  simp
  ring

theorem sinWeights_scale (b : ℕ) (a c : ℝ) : sinWeights b (a * c) = (sinWeights b c).map (a * ·) := by
  simp [sinWeights, List.map_flatMap, mul_assoc]

theorem multires_scale {c : ℝ} (hc : c ≠ 0) {L : ℕ} {til : Tiling} (hS : til.Shape L) :
    multiresBandlimits L (til.scale c).phi (til.scale c).psis = multiresBandlimits L til.phi til.psis := by
  have hps : til.psis.mapM (degreeZeroPart L) = .ok (til.psis.map fun psi => (List.range L).map (profile psi)) := by
    rw [mapM_ok_iff, List.forall₂_map_right_iff, List.forall₂_same]
    exact fun psi hp => degreeZeroPart_ok L psi (hS.2 psi hp).ge
  have hps' : (til.scale c).psis.mapM (degreeZeroPart L) =
      .ok ((til.psis.map fun psi => (List.range L).map (profile psi)).map (List.map ((c : ℂ) * ·))) := by
    rw [mapM_ok_iff]
    simp only [Tiling.scale, List.map_map]
    rw [List.forall₂_map_left_iff, List.forall₂_map_right_iff, List.forall₂_same]
    intro psi hp
    rw [degreeZeroPart_scale c (hS.2 psi hp)]
    simp [Function.comp_def]
  have hm : ∀ l : List (List ℂ), (l.map (List.map ((c : ℂ) * ·))).mapM bandlimitOf = l.mapM bandlimitOf := by
    intro l
    induction l with
    | nil => rfl
    | cons a l ih => rw [List.map_cons, List.mapM_cons, List.mapM_cons, bandlimitOf_scale hc, ih]
  unfold multiresBandlimits
  rw [hps, hps']
  simp only [bind, Except.bind, Tiling.scale, List.length_map]
  rw [← List.map_cons (f := List.map ((c : ℂ) * ·)), hm]

theorem peakLs_scale {c : ℝ} (hc : 0 < c) {L : ℕ} {til : Tiling} (hS : til.Shape L) :
    peakLs L (til.scale c).psis = peakLs L til.psis := by
  have hps : til.psis.mapM (degreeZeroPart L) = .ok (til.psis.map fun psi => (List.range L).map (profile psi)) := by
    rw [mapM_ok_iff, List.forall₂_map_right_iff, List.forall₂_same]
    exact fun psi hp => degreeZeroPart_ok L psi (hS.2 psi hp).ge
  have hps' : (til.scale c).psis.mapM (degreeZeroPart L) =
      .ok ((til.psis.map fun psi => (List.range L).map (profile psi)).map (List.map ((c : ℂ) * ·))) := by
    rw [mapM_ok_iff]
    simp only [Tiling.scale, List.map_map]
    rw [List.forall₂_map_left_iff, List.forall₂_map_right_iff, List.forall₂_same]
    intro psi hp
    rw [degreeZeroPart_scale c (hS.2 psi hp)]
    simp [Function.comp_def]
  have hm : ∀ l : List (List ℂ), (l.map (List.map ((c : ℂ) * ·))).mapM npArgmaxC = l.mapM npArgmaxC := by
    intro l
    induction l with
    | nil => rfl
    | cons a l ih => rw [List.map_cons, List.mapM_cons, List.mapM_cons, npArgmaxC_scale hc, ih]
  unfold peakLs
  rw [hps, hps']
  simp only [bind, Except.bind]
  exact hm _

/-- C127: if the tiling is multiplied by `c > 0`, every weight is divided by `c²`. -/
theorem C127_scale {h : Heap ℝ} {tau : ℝ} {L : ℕ} {til til1 : Tiling} {eta : ℝ} {fresh : ℕ}
    {h' : Heap ℝ} {P : S2L1} (_heta : 0 ≤ eta) (hS : til.Shape L) (hS1 : til1.Shape L) {c : ℝ} (hc : 0 < c)
    (hok : S2L1.initTiling h "synthesis" (.float tau) L til til1 eta fresh = .ok (h', P)) :
    ∃ h'' P', S2L1.initTiling h "synthesis" (.float tau) L (til.scale c) (til1.scale c) eta fresh = .ok (h'', P') ∧
      P'.mapWeights = P.mapWeights.map (· / c ^ 2) := by
  obtain ⟨bls, bls1, peaks, s, ww, h1, P1, e1, e2, e3, e4, e5, e6, e7, e8, -⟩ := initTiling_inv hok
  have hsc : ∀ x : List ℝ, x.map (· / c ^ 2) = x.map ((c ^ 2)⁻¹ * ·) := fun x =>
    List.map_congr_left fun y _ => by rw [div_eq_inv_mul]
  have hs' : scalingWeights (til.scale c).phi = .ok (s.map (· / c ^ 2)) := by
    unfold scalingWeights at e3 ⊢
    simp only [Tiling.scale, bandlimitOf_scale hc.ne']
    cases hb : bandlimitOf til.phi with
    | error e => rw [hb] at e3; cases e3
    | ok b =>
      rw [hb] at e3
      simp only [bind, Except.bind, Except.ok.injEq] at e3 ⊢
      rw [← e3, hsc, ← sinWeights_scale]
      congr 1
      rw [power_eq_energy, power_eq_energy, energy_scale, mul_assoc, ← div_div, div_eq_inv_mul (2 * Real.pi ^ 2), mul_div_assoc]
  have hww' : waveletWeights bls1 (til.scale c).psis peaks eta = .ok (ww.map (· / c ^ 2)) := by
    have hwS : waveletScales bls1 (til.scale c).psis peaks =
        (waveletScales bls1 til.psis peaks).map fun x => ((x.1.1, c ^ 2 * x.1.2), x.2) := by
      unfold waveletScales Tiling.scale
      rw [List.map_map, show (power ∘ List.map ((c : ℂ) * ·)) = fun x => c ^ 2 * power x by
        funext x; simp only [Function.comp, power_eq_energy, energy_scale], List.map_zip_eq_zipWith, List.zip_eq_zipWith]
      apply List.ext_getElem
      · simp
      · intro i hi1 hi2
        simp
    unfold waveletWeights at e6 ⊢
    rw [hwS]
    cases hx : waveletScales bls1 til.psis peaks with
    | nil => rw [hx] at e6; cases e6
    | cons x xs =>
      rw [hx] at e6
      simp only [List.map_cons, List.forall_mem_map] at e6 ⊢
      split at e6
      · cases e6
      · rename_i hne
        rw [if_neg hne]
        simp only [Except.ok.injEq] at e6 ⊢
        rw [← e6, hsc, List.map_flatMap, ← List.map_cons (f := fun x : (ℕ × ℝ) × ℕ => ((x.1.1, c ^ 2 * x.1.2), x.2)),
          List.flatMap_map]
        congr 1
        funext y
        rw [← sinWeights_scale]
        congr 1
        rw [mul_assoc (c ^ 2), ← div_div, div_eq_inv_mul (2 * Real.pi ^ 2 * (y.2 : ℝ) ^ eta), mul_div_assoc]
  rw [init_float] at e2
  obtain ⟨rfl, rfl⟩ := Prod.mk.inj (Except.ok.inj e2)
  have him : ∃ r, imul (h.write fresh ((bls.flatMap mwMapWeights).map fun x => tau * x)) (.arr fresh)
      (s.map (· / c ^ 2) ++ ww.map (· / c ^ 2)) (fresh + 1) = .ok r := by
    simp only [imul, Heap.write, if_true, ← List.map_append] at e7 ⊢
    rw [List.length_map (f := (· / c ^ 2))]
    split at e7
    · rename_i hl
      rw [if_pos hl]; exact ⟨_, rfl⟩
    · rename_i hl
      rw [if_neg hl]
      split at e7
      · rename_i x hx
        rw [hx]; exact ⟨_, rfl⟩
      · cases e7
  obtain ⟨⟨h2, T2⟩, hr⟩ := him
  refine ⟨h2, ⟨T2, s.map (· / c ^ 2) ++ ww.map (· / c ^ 2)⟩, ?_, by rw [e8, List.map_append]⟩
  rw [initTiling_eq (bls := bls) (bls1 := bls1) (peaks := peaks) (by rw [multires_scale hc.ne' hS, e1])
    (by rw [multires_scale hc.ne' hS1, e4]) (by rw [peakLs_scale hc hS, e5])]
  unfold S2L1.initPower
  rw [init_float]
  simp only [bind, Except.bind, hs', hww', hr]

/-! ## A concrete tiling -/

/-- A tiling at bandlimit 2: scaling function `(1, 1)`, wavelets with `m = 0` coefficients `(1, 0)` and `(0, s)`. -/
noncomputable def smallTiling (s : ℝ) : Tiling := ⟨[1, 1], [[1, 0, 0, 0], [0, 0, s, 0]]⟩

theorem smallTiling_shape (s : ℝ) : (smallTiling s).Shape 2 := by
  refine ⟨rfl, ?_⟩
  simp [smallTiling]

theorem smallTiling_peaks {s : ℝ} (hs : 0 < s) : peakLs 2 (smallTiling s).psis = .ok [0, 1] := by
  have d1 : degreeZeroPart 2 [1, 0, 0, 0] = .ok [1, 0] := rfl
  have d2 : degreeZeroPart 2 [0, 0, (s : ℂ), 0] = .ok [0, (s : ℂ)] := rfl
  have l1 : lexLe 0 1 := .inl (by simp)
  have l2 : ¬ lexLe (s : ℂ) 0 := not_lexLe.mpr (.inl (by simpa using hs))
  simp [peakLs, smallTiling, d1, d2, npArgmaxC, argmaxLoop, l1, l2, bind, Except.bind, pure, Except.pure]

theorem smallTiling_peaks_neg {s : ℝ} (hs : s < 0) : peakLs 2 (smallTiling s).psis = .ok [0, 0] := by
  have d1 : degreeZeroPart 2 [1, 0, 0, 0] = .ok [1, 0] := rfl
  have d2 : degreeZeroPart 2 [0, 0, (s : ℂ), 0] = .ok [0, (s : ℂ)] := rfl
  have l1 : lexLe 0 1 := .inl (by simp)
  have l2 : lexLe (s : ℂ) 0 := .inl (by simpa using hs)
  simp [peakLs, smallTiling, d1, d2, npArgmaxC, argmaxLoop, l1, l2, bind, Except.bind, pure, Except.pure]

theorem smallTiling_bandlimits {s : ℝ} (hs : s ≠ 0) :
    multiresBandlimits 2 (smallTiling s).phi (smallTiling s).psis = .ok [2, 1, 2] := by
  have b1 : bandlimitOf [1, 1] = .ok 2 := by simp [bandlimitOf, nonzeroIdx, List.range_succ]
  have b2 : bandlimitOf [1, 0] = .ok 1 := by simp [bandlimitOf, nonzeroIdx, List.range_succ]
  have b3 : bandlimitOf [0, (s : ℂ)] = .ok 2 := by simp [bandlimitOf, nonzeroIdx, List.range_succ, hs]
  have d1 : degreeZeroPart 2 [1, 0, 0, 0] = .ok [1, 0] := rfl
  have d2 : degreeZeroPart 2 [0, 0, (s : ℂ), 0] = .ok [0, (s : ℂ)] := rfl
  simp [multiresBandlimits, smallTiling, d1, d2, b1, b2, b3, bind, Except.bind, pure, Except.pure]

theorem smallTiling_ok (h : Heap ℝ) {s : ℝ} (hs : s ≠ 0) (tau eta : ℝ) (fresh : ℕ) :
    ∃ h' P, S2L1.initTiling h "synthesis" (.float tau) 2 (smallTiling s) (smallTiling s) eta fresh = .ok (h', P) := by
  obtain ⟨peaks, hp, hpl⟩ : ∃ peaks, peakLs 2 (smallTiling s).psis = .ok peaks ∧ peaks.length = 2 := by
    rcases lt_or_gt_of_ne hs with h | h
    · exact ⟨_, smallTiling_peaks_neg h, rfl⟩
    · exact ⟨_, smallTiling_peaks h, rfl⟩
  obtain ⟨k0, k1, rfl⟩ : ∃ k0 k1, peaks = [k0, k1] := List.length_eq_two.mp hpl
  rw [initTiling_eq (smallTiling_bandlimits hs) (smallTiling_bandlimits hs) hp]
  have b1 : bandlimitOf (smallTiling s).phi = .ok 2 := by simp [smallTiling, bandlimitOf, nonzeroIdx, List.range_succ]
  obtain ⟨sw, hsw, hsl⟩ : ∃ sw, scalingWeights (smallTiling s).phi = .ok sw ∧ sw.length = 6 := by
    unfold scalingWeights
    rw [b1]
    exact ⟨_, rfl, by rw [sinWeights_length]⟩
  obtain ⟨ww, hww, hwl⟩ : ∃ ww, waveletWeights [2, 1, 2] (smallTiling s).psis [k0, k1] eta = .ok ww ∧ ww.length = 7 := by
    simp [waveletWeights, waveletScales, smallTiling, sinWeights_length]
  have hl : (sw ++ ww).length = 13 := by simp [hsl, hwl]
  have hl' : (([2, 1, 2].flatMap mwMapWeights).map fun x => tau * x).length = 13 := by simp [mwMapWeights_length]
  unfold S2L1.initPower
  rw [init_float]
  simp only [bind, Except.bind, hsw, hww, imul, Heap.write, if_true]
  rw [if_pos (by rw [hl, hl'])]
  exact ⟨_, _, rfl⟩

/-- The hypotheses of the theorems above hold for this tiling. -/
example : ∃ h' P, S2L1.initTiling (fun _ => none) "synthesis" (.float 3) 2 (smallTiling 1) (smallTiling 1) 1 0 = .ok (h', P) ∧
    (smallTiling 1).Shape 2 ∧ P.mapWeights.length = 13 ∧ (∀ w ∈ P.mapWeights, 0 ≤ w) := by
  obtain ⟨h', P, hok⟩ := smallTiling_ok (fun _ => none) one_ne_zero 3 1 0
  obtain ⟨bls, bls1, peaks, s, ww, h1, P1, e1, -, e3, e4, e5, e6, -, e8, -⟩ := initTiling_inv hok
  refine ⟨h', P, hok, smallTiling_shape 1, ?_, (C127_nonneg_south zero_le_one (smallTiling_shape 1) (smallTiling_shape 1) rfl hok).1⟩
  rw [smallTiling_bandlimits one_ne_zero] at e4
  rw [smallTiling_peaks one_pos] at e5
  cases e4; cases e5
  have b1 : bandlimitOf (smallTiling 1).phi = .ok 2 := by simp [smallTiling, bandlimitOf, nonzeroIdx, List.range_succ]
  unfold scalingWeights at e3
  rw [b1] at e3
  cases e3
  simp [waveletWeights, waveletScales, smallTiling] at e6
  rw [e8, ← e6]
  simp [sinWeights_length]

/-- The peak is found by signed comparison: if the second wavelet is negated, its whole map gets weight zero (`C127_peak_zero`). -/
example : ∀ l < 2, lexLe (profile ((smallTiling (-1)).psis.getD 1 []) l) (profile ((smallTiling (-1)).psis.getD 1 []) 0) := by
  intro l hl
  match l, hl with
  | 0, _ => exact lexLe_refl _
  | 1, _ => exact .inl (by simp [smallTiling, profile])

/-- Two directions: the second wavelet has no `m = 0` part (`C127_no_axisymmetric_part`). -/
example : (smallTiling 0).Shape 2 ∧ ∃ psi ∈ (smallTiling 0).psis, ∀ l < 2, psi.getD (l ^ 2 + l) 0 = 0 := by
  refine ⟨smallTiling_shape 0, [0, 0, ((0 : ℝ) : ℂ), 0], by simp [smallTiling], ?_⟩
  intro l hl
  match l, hl with
  | 0, _ => simp
  | 1, _ => simp

end Pxmcmc
