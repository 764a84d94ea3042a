import Verif.Props.Measurements

/-!
# Noise weights of the weak-lensing operator (C79)
-/

namespace Pxmcmc

/-- The flat indices of the observed (unmasked) pixels, in order. -/
def observed (mask : List Bool) : List ℕ :=
  (List.range mask.length).filter fun i => mask[i]? = some true

theorem keep_observed {α β : Type} (g : α → β) (d : α) : ∀ (f : List α) (mask : List Bool), f.length = mask.length →
    (keep f mask).map g = (observed mask).map fun i => g (f.getD i d)
  | [], [], _ => rfl
  | x :: xs, m :: ms, h => by
    have ih := keep_observed g d xs ms (by simpa using h)
    have e : observed (m :: ms) = (if m then [0] else []) ++ (observed ms).map (· + 1) := by
      unfold observed
      rw [List.length_cons, List.range_succ_eq_map, List.filter_cons, List.filter_map]
      cases m <;> simp [Function.comp_def]
    rw [e]
    have hk : keep (x :: xs) (m :: ms) = (if m then [x] else []) ++ keep xs ms := by
      cases m <;> simp [keep]
    rw [hk, List.map_append, List.map_append, ih]
    cases m <;> simp [List.map_map, Function.comp_def]

/-- The mask that the operator works with. -/
theorem WL_init_ngal (L : ℕ) (hL : 1 ≤ L) (m : NdArr Bool) (hm : m.WF) (hs : m.shape = [L, 2 * L - 1]) (ngal : NdArr ℝ)
    (hg : ngal.WF) (hgs : ngal.shape = [L, 2 * L - 1]) : ∃ w, WL.init L (some m) (some ngal) = .ok w ∧ w.mask = m ∧
      w.L = L ∧ w.invCov = (keep ngal.data m.data).map fun x => √(2 * x / varE) := by
  obtain ⟨k, hk, -⟩ := C29_kernel L hL
  have hml : ngal.data.length = m.data.length := by
    unfold NdArr.WF at hm hg
    rw [hm, hg, hs, hgs]
  have e : ngal = ⟨[L, 2 * L - 1], ngal.data⟩ := by cases ngal; simp at hgs; simp [hgs]
  have hf := maskForward_eq [L, 2 * L - 1] m hm hs ngal.data hml
  rw [← e] at hf
  refine ⟨⟨L, k, m, (keep ngal.data m.data).map fun x => √(2 * x / varE)⟩, ?_, rfl, rfl, rfl⟩
  unfold WL.init
  rw [hk]
  simp only [bind, Except.bind, wlMask, wlInvCov, ngalToInvCov, Int.toNat_natCast]
  rw [hf]
  simp [hs]

/-- C79: with a map of galaxy counts the weights are the inverse standard deviations of the documented noise model: the
weight of the `k`-th observed pixel is non-negative and its square times `0.37²` is twice that pixel's count. -/
theorem C79_weights (L : ℕ) (hL : 1 ≤ L) (m : NdArr Bool) (hm : m.WF) (hs : m.shape = [L, 2 * L - 1]) (ngal : NdArr ℝ)
    (hg : ngal.WF) (hgs : ngal.shape = [L, 2 * L - 1]) (hpos : ∀ x ∈ ngal.data, 0 ≤ x) :
    ∃ w, WL.init L (some m) (some ngal) = .ok w ∧ (∀ x ∈ w.invCov, 0 ≤ x) ∧
      (w.invCov.map fun x => (0.37 : ℝ) ^ 2 * x ^ 2) = (observed m.data).map fun i => 2 * ngal.data.getD i 0 := by
  obtain ⟨w, hw, -, -, hi⟩ := WL_init_ngal L hL m hm hs ngal hg hgs
  have hml : ngal.data.length = m.data.length := by
    unfold NdArr.WF at hm hg
    rw [hm, hg, hs, hgs]
  refine ⟨w, hw, ?_, ?_⟩
  · rw [hi]
    intro x hx
    obtain ⟨y, -, rfl⟩ := List.mem_map.mp hx
    exact Real.sqrt_nonneg _
  · rw [hi, ← keep_observed (fun x => 2 * x) 0 _ _ hml, List.map_map]
    refine List.map_congr_left fun x hx => ?_
    have hx0 : 0 ≤ x := by
      obtain ⟨p, hp, rfl⟩ := List.mem_map.mp hx
      exact hpos _ (List.of_mem_zip (List.mem_of_mem_filter hp)).1
    have hv : 0 < varE := by unfold varE; norm_num
    simp only [Function.comp_apply]
    rw [Real.sq_sqrt (by positivity)]
    have : varE = (0.37 : ℝ) ^ 2 := by unfold varE; norm_num
    rw [← this]
    field_simp

/-- C79: hence weighting whitens: shear errors `z_k` scaled with the documented standard deviation `0.37/√(2 n_k)` of their
pixel come out as `z_k`, provided every observed pixel has a positive count. -/
theorem C79_whitens (L : ℕ) (hL : 1 ≤ L) (m : NdArr Bool) (hm : m.WF) (hs : m.shape = [L, 2 * L - 1]) (ngal : NdArr ℝ)
    (hg : ngal.WF) (hgs : ngal.shape = [L, 2 * L - 1]) (hpos : ∀ i ∈ observed m.data, 0 < ngal.data.getD i 0)
    (z : ℕ → ℂ) :
    ∃ w, WL.init L (some m) (some ngal) = .ok w ∧
      covWeight w ((observed m.data).map fun i => ((0.37 / √(2 * ngal.data.getD i 0) : ℝ) : ℂ) * z i) =
        .ok ((observed m.data).map z) := by
  obtain ⟨w, hw, -, -, hi⟩ := WL_init_ngal L hL m hm hs ngal hg hgs
  have hml : ngal.data.length = m.data.length := by
    unfold NdArr.WF at hm hg
    rw [hm, hg, hs, hgs]
  refine ⟨w, hw, ?_⟩
  have hw' : w.invCov = (observed m.data).map fun i => √(2 * ngal.data.getD i 0 / varE) := by
    rw [hi, keep_observed (fun x => √(2 * x / varE)) 0 _ _ hml]
  unfold covWeight
  rw [hw', bcast_eq _ _ (by simp)]
  show Except.ok _ = _
  rw [List.zip_map', List.map_map]
  congr 1
  refine List.map_congr_left fun i hii => ?_
  have h0 := hpos i hii
  simp only [Function.comp_apply]
  have hv : √varE = 0.37 := by
    unfold varE
    rw [Real.sqrt_sq (by norm_num)]
    norm_num
  have h1 : √(2 * ngal.data.getD i 0) ≠ 0 := (Real.sqrt_pos.mpr (by positivity)).ne'
  rw [Real.sqrt_div' _ (by unfold varE; norm_num), hv, mul_right_comm, ← Complex.ofReal_mul]
  have : 0.37 / √(2 * ngal.data.getD i 0) * (√(2 * ngal.data.getD i 0) / 0.37) = 1 := by field_simp
  rw [this]
  simp

/-- C79: without counts every weight is one, i.e. weighting changes nothing. -/
theorem C79_no_counts (L : ℕ) (hL : 1 ≤ L) (m : NdArr Bool) (hm : m.WF) (hs : m.shape = [L, 2 * L - 1]) (x : List ℂ)
    (hx : x.length = m.data.count true) : ∃ w, WL.init L (some m) none = .ok w ∧ covWeight w x = .ok x := by
  obtain ⟨k, hk, -⟩ := C29_kernel L hL
  have hl : m.data.length = L * (2 * L - 1) := by
    unfold NdArr.WF at hm
    rw [hm, hs]; simp
  have hf := maskForward_eq [L, 2 * L - 1] m hm hs (List.replicate (L * (2 * L - 1)) (1 : ℝ)) (by simp [hl])
  have hones : keep (List.replicate (L * (2 * L - 1)) (1 : ℝ)) m.data = List.replicate (m.data.count true) 1 := by
    rw [List.eq_replicate_iff]
    refine ⟨keep_length _ _ (by simp [hl]), fun b hb => ?_⟩
    obtain ⟨p, hp, rfl⟩ := List.mem_map.mp hb
    exact List.eq_of_mem_replicate (List.of_mem_zip (List.mem_of_mem_filter hp)).1
  refine ⟨⟨L, k, m, keep (List.replicate (L * (2 * L - 1)) (1 : ℝ)) m.data⟩, ?_, ?_⟩
  · unfold WL.init
    rw [hk]
    simp only [bind, Except.bind, wlMask, wlInvCov, Int.toNat_natCast]
    rw [hf]
    simp [hs]
  · unfold covWeight
    rw [hones, bcast_eq _ _ (by simp [hx])]
    show Except.ok _ = _
    congr 1
    apply List.ext_getElem
    · simp [hx]
    · intro i h1 h2
      simp

/-- A 2 × 3 map with two masked pixels and counts 30 (the value used in the experiment) and 0. -/
example : (⟨[2, 3], [true, false, true, true, false, true]⟩ : NdArr Bool).WF ∧
    (⟨[2, 3], [30, 30, 0, 30, 30, 30]⟩ : NdArr ℝ).WF ∧
    observed [true, false, true, true, false, true] = [0, 2, 3, 5] := by
  refine ⟨rfl, rfl, rfl⟩

end Pxmcmc
