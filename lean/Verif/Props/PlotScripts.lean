import Verif.Model.PlotScripts
import Verif.Props.Plotting
import Verif.Props.Summaries

/-! # C106, C109–C112: masks, what the plot scripts report after drawing, interval labels, colour limits, figure numbers -/

namespace Pxmcmc
open Real

/-! ## Helper lemmas -/

theorem nanBlocks_false (b : ℕ) : ∀ (k : ℕ) (data : List Pixel), nanBlocks b data (List.replicate k false) = data
  | 0, data => rfl
  | k + 1, data => by
    rw [List.replicate_succ, nanBlocks, nanBlocks_false b k]
    simp

theorem nanBlocks_one : ∀ (ms : List Bool) (data : List Pixel), data.length = ms.length →
    nanBlocks 1 data ms = List.zipWith (fun p m => if m = true then none else p) data ms
  | [], data, h => by
    have : data = [] := List.length_eq_zero_iff.mp h
    subst this; rfl
  | m :: ms, [], h => by simp at h
  | m :: ms, p :: data, h => by
    rw [nanBlocks]
    simp only [List.take_succ_cons, List.take_zero, List.drop_succ_cons, List.drop_zero, List.zipWith_cons_cons]
    rw [nanBlocks_one ms data (by simpa using h)]
    cases m <;> simp

theorem foldl_pixMax_none : ∀ (l : List Pixel) (x : Pixel), x = none ∨ none ∈ l → l.foldl pixMax x = none
  | [], x, h => by simpa using h
  | y :: l, x, h => by
    rw [List.foldl_cons]
    apply foldl_pixMax_none l
    rcases h with rfl | h
    · left; cases y <;> rfl
    · rcases List.mem_cons.mp h with h | h
      · left; subst h; cases x <;> rfl
      · right; exact h

theorem foldl_pixMin_none : ∀ (l : List Pixel) (x : Pixel), x = none ∨ none ∈ l → l.foldl pixMin x = none
  | [], x, h => by simpa using h
  | y :: l, x, h => by
    rw [List.foldl_cons]
    apply foldl_pixMin_none l
    rcases h with rfl | h
    · left; cases y <;> rfl
    · rcases List.mem_cons.mp h with h | h
      · left; subst h; cases x <;> rfl
      · right; exact h

theorem cbarEnd_nan (d : List Pixel) (h : none ∈ d) : cbarEnd d = .ok none := by
  obtain ⟨x, l, rfl⟩ : ∃ x l, d = x :: l := by
    cases d with
    | nil => simp at h
    | cons x l => exact ⟨x, l, rfl⟩
  have h' : x = none ∨ none ∈ l := by
    rcases List.mem_cons.mp h with h | h
    · exact .inl h.symm
    · exact .inr h
  unfold cbarEnd diffRange npMinPix npMaxPix
  simp only [bind, Except.bind]
  rw [foldl_pixMax_none l x h', foldl_pixMin_none l x h']
  rfl

theorem relSqErrorNan_nan (p o : List (Option ℂ)) (h : none ∈ p) : relSqErrorNan p o = .ok none := by
  unfold relSqErrorNan
  have : p.mapM id = none := by
    induction p with
    | nil => simp at h
    | cons a p ih =>
      rw [List.mapM_cons]
      cases a with
      | none => rfl
      | some a =>
        rw [ih (by simpa using h)]
        rfl
  rw [this]

theorem plotMask_length (galb : ℝ → ℝ → ℝ) (L : ℕ) : (plotMask galb L).data.length = L * (2 * L - 1) := by
  unfold plotMask buildMask mwThetas mwPhis
  simp [List.length_flatten, Function.comp_def]

theorem flatten_get {α : Type} (k : ℕ) : ∀ (l : List (List α)), (∀ r ∈ l, r.length = k) → ∀ (t p : ℕ) (row : List α),
    l[t]? = some row → p < k → l.flatten[t * k + p]? = row[p]?
  | [], _, t, p, row, h, _ => by simp at h
  | x :: l, hl, 0, p, row, h, hp => by
    simp only [List.getElem?_cons_zero, Option.some.injEq] at h
    subst h
    rw [List.flatten_cons, Nat.zero_mul, Nat.zero_add, List.getElem?_append_left (by rw [hl x (by simp)]; exact hp)]
  | x :: l, hl, t + 1, p, row, h, hp => by
    rw [List.getElem?_cons_succ] at h
    have hx := hl x (by simp)
    have e : (t + 1) * k + p - x.length = t * k + p := by
      rw [hx, Nat.succ_mul]; omega
    rw [List.flatten_cons, List.getElem?_append_right (by rw [hx, Nat.succ_mul]; omega), e]
    exact flatten_get k l (fun r hr => hl r (by simp [hr])) t p row h hp

/-- How far pixel `(t, p)` is from the nearer of the two masked great circles, in degrees of latitude. -/
noncomputable def Spec.bandDistance (galb : ℝ → ℝ → ℝ) (L t p : ℕ) : ℝ :=
  min |90 - (2 * (t : ℝ) + 1) * π / (2 * L - 1) * 180 / π|
    |galb (2 * π * p / (2 * L - 1) * 180 / π - 180) ((2 * (t : ℝ) + 1) * π / (2 * L - 1) * 180 / π - 90)|

theorem flatMask_get (galb : ℝ → ℝ → ℝ) (L t p : ℕ) (size : ℝ) (ht : t < L) (hp : p < 2 * L - 1) :
    ((buildMask galb L size).flatten.map fun x => decide (x ≠ 0))[t * (2 * L - 1) + p]? =
      some (decide (size ≤ Spec.bandDistance galb L t p)) := by
  obtain ⟨row, v, h1, h2, h3, -, h5⟩ := (C26_mask galb L size).2 t p ht hp
  have hall : ∀ r ∈ buildMask galb L size, r.length = 2 * L - 1 := by
    unfold buildMask
    intro r hr
    obtain ⟨a, -, rfl⟩ := List.mem_map.mp hr
    simp [mwPhis_length]
  rw [List.getElem?_map, flatten_get _ _ hall t p row h1 hp, h3]
  simp only [Option.map_some, Option.some.injEq, decide_eq_decide, Ne, h5]
  unfold Masked Spec.bandDistance
  push Not
  rw [le_min_iff]

/-- C109: the mask used for drawing shows exactly the pixels at least 20 degrees away from the ecliptic and the galactic plane. -/
theorem C109_mask (galb : ℝ → ℝ → ℝ) (L t p : ℕ) (ht : t < L) (hp : p < 2 * L - 1) :
    ∃ b, (plotMask galb L).data[t * (2 * L - 1) + p]? = some b ∧
      (b = true ↔ 20 ≤ |90 - (2 * t + 1) * π / (2 * L - 1) * 180 / π| ∧
        20 ≤ |galb (2 * π * p / (2 * L - 1) * 180 / π - 180) ((2 * t + 1) * π / (2 * L - 1) * 180 / π - 90)|) := by
  refine ⟨_, flatMask_get galb L t p 20 ht hp, ?_⟩
  rw [decide_eq_true_iff, Spec.bandDistance, le_min_iff]

/-! ## C106: the masks of the inversion and of the plots -/

/-- C106 (partial): both masks have the shape of the maps, and without `--no-mask` every pixel that the plots show was observed in
the inversion; the masks differ at exactly the pixels between 10 and 20 degrees from the nearer circle.  With `--no-mask`, every
pixel is shown, and they differ exactly at the pixels closer than 10 degrees.  Missing: the masks are not the same. -/
theorem C106_shown_observed_partial (galb : ℝ → ℝ → ℝ) (L t p : ℕ) (ht : t < L) (hp : p < 2 * L - 1) :
    (∀ nm, (wlPlotMasks galb L nm).1.shape = (mainMask galb L).shape) ∧
    ((wlPlotMasks galb L false).1.data[t * (2 * L - 1) + p]? = some true →
      (mainMask galb L).data[t * (2 * L - 1) + p]? = some true) ∧
    ((wlPlotMasks galb L false).1.data[t * (2 * L - 1) + p]? ≠ (mainMask galb L).data[t * (2 * L - 1) + p]? ↔
      10 ≤ Spec.bandDistance galb L t p ∧ Spec.bandDistance galb L t p < 20) ∧
    (wlPlotMasks galb L true).1.data[t * (2 * L - 1) + p]? = some true ∧
    ((mainMask galb L).data[t * (2 * L - 1) + p]? ≠ some true ↔ Spec.bandDistance galb L t p < 10) := by
  have e1 : (wlPlotMasks galb L false).1.data[t * (2 * L - 1) + p]? = some (decide (20 ≤ Spec.bandDistance galb L t p)) :=
    flatMask_get galb L t p 20 ht hp
  have e2 : (mainMask galb L).data[t * (2 * L - 1) + p]? = some (decide (10 ≤ Spec.bandDistance galb L t p)) :=
    flatMask_get galb L t p 10 ht hp
  rw [e1, e2]
  refine ⟨fun nm => by cases nm <;> rfl, ?_, ?_, ?_, ?_⟩
  · simp only [Option.some.injEq, decide_eq_true_eq]
    intro h; linarith
  · simp only [Ne, Option.some.injEq, decide_eq_decide]
    constructor
    · intro h
      by_cases h1 : 10 ≤ Spec.bandDistance galb L t p
      · exact ⟨h1, by by_contra h2; exact h ⟨fun _ => h1, fun _ => not_lt.mp h2⟩⟩
      · exact absurd ⟨fun h2 => by linarith, fun h2 => absurd h2 h1⟩ h
    · rintro ⟨h1, h2⟩ h
      exact absurd (h.mpr h1) (not_le.mpr h2)
  · have hlt : t * (2 * L - 1) + p < L * (2 * L - 1) := by
      calc t * (2 * L - 1) + p < t * (2 * L - 1) + (2 * L - 1) := by omega
        _ = (t + 1) * (2 * L - 1) := (Nat.succ_mul _ _).symm
        _ ≤ L * (2 * L - 1) := Nat.mul_le_mul_right _ ht
    show (List.replicate (L * (2 * L - 1)) true)[t * (2 * L - 1) + p]? = some true
    rw [List.getElem?_replicate, if_pos hlt]
  · simp

theorem bandDistance_example : Spec.bandDistance (fun _ _ => 90) 8 4 0 = 18 := by
  unfold Spec.bandDistance
  have : (2 * ((4 : ℕ) : ℝ) + 1) * π / (2 * ((8 : ℕ) : ℝ) - 1) * 180 / π = 108 := by
    field_simp
    norm_num
  rw [this]
  norm_num [abs_of_pos, abs_of_neg]

/-- C106 is false: at `L = 8` the ring at 108 degrees colatitude is used by the inversion but left out of the plots and of the
printed error (for a galactic plane that is far away from it). -/
theorem C106_same_mask_refuted : ∃ (galb : ℝ → ℝ → ℝ) (L : ℕ), (wlPlotMasks galb L false).1 ≠ mainMask galb L := by
  refine ⟨fun _ _ => 90, 8, fun h => ?_⟩
  have := ((C106_shown_observed_partial (fun _ _ => 90) 8 4 0 (by norm_num) (by norm_num)).2.2.1).mpr
  rw [bandDistance_example] at this
  exact this (by norm_num) (by rw [h])

example : (4 : ℕ) < 8 ∧ (0 : ℕ) < 2 * 8 - 1 := by decide

/-- The script masks a pixel near the equator. -/
theorem plotMask_hides (galb : ℝ → ℝ → ℝ) (L : ℕ) (hL : 8 ≤ L) : false ∈ (plotMask galb L).data := by
  have hl : L / 2 < L := by omega
  obtain ⟨row, v, h1, -, h3, -, h5⟩ := (C26_mask galb L 20).2 (L / 2) 0 hl (by omega)
  have hv : v = 0 := by
    rw [h5]
    left
    have hL' : (8 : ℝ) ≤ L := by exact_mod_cast hL
    have hp : (0 : ℝ) < 2 * L - 1 := by linarith
    have hk : (L : ℝ) ≤ 2 * (L / 2 : ℕ) + 1 ∧ (2 * (L / 2 : ℕ) + 1 : ℝ) ≤ L + 1 := by
      constructor
      · have : L ≤ 2 * (L / 2) + 1 := by omega
        exact_mod_cast this
      · have : 2 * (L / 2) + 1 ≤ L + 1 := by omega
        exact_mod_cast this
    have e : (2 * ((L / 2 : ℕ) : ℝ) + 1) * π / (2 * L - 1) * 180 / π = (2 * ((L / 2 : ℕ) : ℝ) + 1) * 180 / (2 * L - 1) := by
      field_simp
    rw [e, abs_lt]
    constructor
    · rw [neg_lt_sub_iff_lt_add, div_lt_iff₀ hp]
      nlinarith
    · rw [sub_lt_comm, lt_div_iff₀ hp]
      nlinarith
  unfold plotMask
  refine List.mem_map.mpr ⟨0, ?_, by simp⟩
  rw [List.mem_flatten]
  exact ⟨row, List.mem_of_getElem? h1, hv ▸ List.mem_of_getElem? h3⟩

/-! ## C111: colour limits of the difference plots -/

theorem diffRange_num (d : List ℝ) (hd : d ≠ []) : ∃ e : ℝ, diffRange (d.map some) = .ok (some e) ∧
    (∀ x ∈ d, |x| ≤ e) ∧ ∃ x ∈ d, |x| = e := by
  obtain ⟨x, ys, rfl⟩ := List.exists_cons_of_ne_nil hd
  unfold diffRange
  simp only [List.map_cons, npMaxPix, npMinPix, bind, Except.bind, foldl_maxPix, foldl_minPix, Option.map_some]
  obtain ⟨hM, hMb⟩ := foldl_max_spec ys x
  obtain ⟨hm, hmb⟩ := foldl_min_spec ys x
  set M := ys.foldl max x
  set m := ys.foldl min x
  have hpy : pyMax2 (some |m|) (some M) = some (max |m| M) := by
    simp only [pyMax2]
    split_ifs with hlt
    · rw [max_eq_right hlt.le]
    · rw [max_eq_left (not_lt.mp hlt)]
  refine ⟨max |m| M, by rw [hpy], fun z hz => ?_, ?_⟩
  · rcases le_or_gt 0 z with h0 | h0
    · rw [abs_of_nonneg h0]; exact (hMb z hz).trans (le_max_right _ _)
    · have := hmb z hz
      rw [abs_of_neg h0]
      refine le_trans ?_ (le_max_left _ _)
      rw [abs_of_neg (lt_of_le_of_lt this h0)]; linarith
  · rcases le_total M |m| with hle | hle
    · exact ⟨m, hm, by rw [max_eq_left hle]⟩
    · exact ⟨M, hM, by rw [max_eq_right hle, abs_of_nonneg (le_trans (abs_nonneg _) hle)]⟩

/-- C111, `earthtopography/plot.py`: the limits `-e, e` of the difference plot contain the difference at every pixel and are the
smallest symmetric limits that do. -/
theorem C111_symmetric (d : List ℝ) (hd : d ≠ []) : ∃ e : ℝ, diffRange (d.map some) = .ok (some e) ∧
    (∀ x ∈ d, -e ≤ x ∧ x ≤ e) ∧ ∀ e', (∀ x ∈ d, -e' ≤ x ∧ x ≤ e') → e ≤ e' := by
  obtain ⟨e, h1, h2, x, hx, h3⟩ := diffRange_num d hd
  refine ⟨e, h1, fun y hy => abs_le.mp (h2 y hy), fun e' h' => ?_⟩
  rw [← h3]
  exact abs_le.mpr (h' x hx)

/-- C111, `phasevel/plot.py`: the upper limit of the plot of absolute differences is the largest absolute difference, but at
most 100. -/
theorem C111_capped (d : List ℝ) (hd : d ≠ []) : ∃ e : ℝ, cbarEnd (d.map some) = .ok (some e) ∧ 0 ≤ e ∧ e ≤ 100 ∧
    (∀ x ∈ d, |x| ≤ 100 → |x| ≤ e) ∧ (e = 100 ∨ ∃ x ∈ d, |x| = e) := by
  obtain ⟨e, h1, h2, x, hx, h3⟩ := diffRange_num d hd
  have h0 : 0 ≤ e := h3 ▸ abs_nonneg x
  unfold cbarEnd
  rw [h1]
  simp only [bind, Except.bind, pyMinHundred]
  split_ifs with hlt
  · exact ⟨100, rfl, by norm_num, le_rfl, fun _ _ h => h, .inl rfl⟩
  · exact ⟨e, rfl, h0, not_lt.mp hlt, fun y hy _ => h2 y hy, .inr ⟨x, hx, h3⟩⟩

theorem zipWith_pixMask : ∀ (d : List ℝ) (m : List Bool),
    List.zipWith pixMask (d.map some) m = (List.zipWith (fun x b => if b = true then x else (0 : ℝ)) d m).map some
  | [], m => by simp
  | x :: d, [] => by simp
  | x :: d, b :: m => by simp [pixMask, zipWith_pixMask d m]

/-- C111, `weaklensing/plot.py`: the same for the pixels that the mask does not hide; hidden pixels do not matter. -/
theorem C111_masked (d : List ℝ) (m : List Bool) (hl : d.length = m.length) (hd : d ≠ []) :
    ∃ e : ℝ, cbarEnd (List.zipWith pixMask (d.map some) m) = .ok (some e) ∧ 0 ≤ e ∧ e ≤ 100 ∧
    (∀ (i : ℕ) (x : ℝ), d[i]? = some x → m[i]? = some true → |x| ≤ 100 → |x| ≤ e) ∧
    (e = 100 ∨ e = 0 ∨ ∃ (i : ℕ) (x : ℝ), d[i]? = some x ∧ m[i]? = some true ∧ |x| = e) := by
  rw [zipWith_pixMask]
  have hne : List.zipWith (fun x b => if b = true then x else (0 : ℝ)) d m ≠ [] := by
    rw [← List.length_pos_iff, List.length_zipWith, ← hl, min_self]
    exact List.length_pos_iff.mpr hd
  obtain ⟨e, h1, h2, h3, h4, h5⟩ := C111_capped _ hne
  refine ⟨e, h1, h2, h3, fun i x hx hm hc => ?_, ?_⟩
  · apply h4 x _ hc
    refine List.mem_of_getElem? (i := i) ?_
    rw [List.getElem?_zipWith, hx, hm]
    rfl
  · rcases h5 with h5 | ⟨y, hy, h5⟩
    · exact .inl h5
    · right
      obtain ⟨i, hi, rfl⟩ := List.getElem_of_mem hy
      rw [List.length_zipWith] at hi
      rw [List.getElem_zipWith] at h5
      cases hb : m[i] with
      | false =>
        left
        rw [hb] at h5
        simpa using h5.symm
      | true =>
        right
        rw [hb] at h5
        refine ⟨i, d[i], List.getElem?_eq_getElem _, ?_, by simpa using h5⟩
        rw [List.getElem?_eq_getElem (by omega), hb]

example : ([1, -3] : List ℝ) ≠ [] ∧ ([1, -3] : List ℝ).length = [true, false].length := ⟨by simp, rfl⟩

/-! ## C109: the maximum a posteriori map after it has been drawn -/

/-- What the script reports, once it is known what drawing left in the array `MAP`. -/
theorem wlMapSummary_of (S : PlotSsht) (galb : ℝ → ℝ → ℝ) (L : ℕ) (noMask : Bool) (W : List Pixel → List (Option ℂ))
    (obs : List (Option ℂ)) (m : NdArr Pixel) (truth : List Pixel) (out : WlMapOut)
    (h : wlMapSummary S galb L noMask W obs m truth = .ok out) :
    truth.length = out.saved.data.length ∧ out.diff = List.zipWith pixSub truth out.saved.data ∧
    cbarEnd (List.zipWith pixMask out.diff (wlPlotMasks galb L noMask).1.data) = .ok out.cbar ∧
    relSqErrorNan (W out.saved.data) obs = .ok out.r2e := by
  unfold wlMapSummary at h
  simp only at h
  split at h
  · simp at h
  · split_ifs at h with hl
    · simp only [bind, Except.bind] at h
      split at h
      · simp at h
      · rename_i c hc
        split at h
        · simp at h
        · rename_i r hr
          injection h with h
          subst h
          exact ⟨hl, rfl, hc, hr⟩
    · simp [bind, Except.bind] at h

/-- The array `MAP` after drawing without oversampling: hidden pixels are NaN. -/
theorem wlMapSummary_drawn (S : PlotSsht) (galb : ℝ → ℝ → ℝ) (L : ℕ) (hL : 256 ≤ L) (noMask : Bool)
    (W : List Pixel → List (Option ℂ)) (obs : List (Option ℂ)) (m : NdArr Pixel) (hs : m.shape = [L, 2 * L - 1])
    (truth : List Pixel) (out : WlMapOut) (h : wlMapSummary S galb L noMask W obs m truth = .ok out) :
    out.saved = ⟨m.shape, nanBlocks 1 m.data ((wlPlotMasks galb L noMask).2.data.map not)⟩ := by
  have hsh : (wlPlotMasks galb L noMask).2.shape = [L, 2 * L - 1] := by
    unfold wlPlotMasks plotMask
    cases noMask <;> simp [show ¬ L < 256 by omega]
  unfold wlMapSummary at h
  simp only [plotMap, plotSource, if_true, hs, hsh, show ¬ L < 256 by omega, decide_false, Bool.false_eq_true, if_false,
    colourRange, maskNan, List.prefix_refl, Option.getD_some] at h
  split_ifs at h with hl
  · simp only [bind, Except.bind] at h
    split at h
    · simp at h
    · split at h
      · simp at h
      · injection h with h
        subst h
        simp [hs]
  · simp [bind, Except.bind] at h

theorem pixSub_eq : pixSub = fun a b => a.bind fun u => b.map fun v => u - v := by
  funext a b
  cases a <;> cases b <;> rfl

theorem mapM_id_some {α : Type} : ∀ l : List α, (l.map some).mapM id = some l
  | [] => rfl
  | a :: l => by
    rw [List.map_cons, List.mapM_cons, mapM_id_some l]
    rfl

theorem relSqErrorNan_num {n : ℕ} (p o : Fin n → ℂ) (ho : o ≠ 0) :
    relSqErrorNan ((List.ofFn p).map some) ((List.ofFn o).map some) = .ok (some ((∑ i, ‖p i - o i‖ ^ 2) / ∑ i, ‖o i‖ ^ 2)) := by
  obtain ⟨r, h1, h2, -⟩ := C105_relative_error p o ho
  unfold relSqErrorNan
  rw [mapM_id_some, mapM_id_some]
  simp only
  rw [h1, h2]
  rfl

/-- C109, the part that holds: if the map is oversampled for drawing (`L < 256`) or nothing is hidden (`--no-mask`), the saved
map, the saved difference (truth minus map, NaN where one of them is NaN) and the printed error are those of the map that was
selected.  Without NaN the colour limit is a number that covers the difference in every pixel outside the mask, up to 100.  Missing:
masked maps with `L ≥ 256`, see `C109_masked_refuted`. -/
theorem C109_kept_partial (S : PlotSsht) (galb : ℝ → ℝ → ℝ) (L : ℕ) (noMask : Bool) (hor : L < 256 ∨ noMask = true)
    (W : List Pixel → List (Option ℂ)) (obs : List (Option ℂ)) (m : NdArr Pixel) (hs : m.shape = [L, 2 * L - 1])
    (truth : List Pixel) (out : WlMapOut) (h : wlMapSummary S galb L noMask W obs m truth = .ok out) :
    out.saved = m ∧ truth.length = m.data.length ∧
    out.diff = List.zipWith (fun a b => a.bind fun u => b.map fun v => u - v) truth m.data ∧
    (∀ (k : ℕ) (p o : Fin k → ℂ), o ≠ 0 → W m.data = (List.ofFn p).map some → obs = (List.ofFn o).map some →
      out.r2e = some ((∑ i, ‖p i - o i‖ ^ 2) / ∑ i, ‖o i‖ ^ 2)) ∧
    (none ∈ W m.data → out.r2e = none) ∧
    (none ∉ truth → none ∉ m.data → ∃ c : ℝ, out.cbar = some c ∧ 0 ≤ c ∧ c ≤ 100 ∧
      ∀ (i : ℕ) (u v : ℝ), i < L * (2 * L - 1) → truth[i]? = some (some u) → m.data[i]? = some (some v) →
        (noMask = true ∨ (plotMask galb L).data[i]? = some true) → |u - v| ≤ 100 → |u - v| ≤ c) := by
  have hsaved : out.saved = m := by
    by_cases hL : L < 256
    · unfold wlMapSummary at h
      simp only at h
      rw [C67_preserved_partial S _ 0 1 _ (.inl (by simp [hL])) 0 (by norm_num)] at h
      simp only [if_true, Option.getD_some] at h
      split at h
      · simp at h
      · split_ifs at h with hl
        · simp only [bind, Except.bind] at h
          split at h
          · simp at h
          · split at h
            · simp at h
            · injection h with h
              subst h
              rfl
        · simp [bind, Except.bind] at h
    · rcases hor with hor | rfl
      · exact absurd hor hL
      · rw [wlMapSummary_drawn S galb L (by omega) true W obs m hs truth out h]
        unfold wlPlotMasks
        simp only [if_true, hL, if_false, List.map_replicate, Bool.not_true]
        rw [nanBlocks_false]
  obtain ⟨h1, h2, h3, h4⟩ := wlMapSummary_of S galb L noMask W obs m truth out h
  rw [hsaved] at h1 h2 h4
  refine ⟨hsaved, h1, by rw [h2, pixSub_eq], ?_, ?_, fun ht hm => ?_⟩
  · intro k p o ho hp hob
    rw [hp, hob, relSqErrorNan_num p o ho] at h4
    injection h4 with h4
    exact h4.symm
  · intro hn
    rw [relSqErrorNan_nan _ _ hn] at h4
    injection h4 with h4
    exact h4.symm
  obtain ⟨t, rfl⟩ := exists_reals _ ht
  obtain ⟨r, hr⟩ := exists_reals _ hm
  have e : List.zipWith pixSub (t.map some) (r.map some) = (List.zipWith (fun x y => x - y) t r).map some := by
    clear h h1 h2 h4 hr ht
    induction t generalizing r with
    | nil => simp
    | cons x t ih =>
      cases r with
      | nil => simp
      | cons y r => simp [pixSub, ih r]
  rw [h2, hr, e, zipWith_pixMask] at h3
  by_cases hn : List.zipWith (fun x b => if b = true then x else (0 : ℝ)) (List.zipWith (fun x y => x - y) t r)
      (wlPlotMasks galb L noMask).1.data = []
  · rw [hn] at h3
    simp [cbarEnd, diffRange, npMinPix, bind, Except.bind] at h3
  · obtain ⟨c, hc, hc0, hc1, hc2, -⟩ := C111_capped _ hn
    rw [hc] at h3
    injection h3 with h3
    refine ⟨c, h3.symm, hc0, hc1, fun i u v hi hu hv hvis hle => hc2 _ ?_ hle⟩
    rw [hr] at hv
    simp only [List.getElem?_map, Option.map_eq_some_iff, Option.some.injEq, exists_eq_right] at hu hv
    have hmask : (wlPlotMasks galb L noMask).1.data[i]? = some true := by
      unfold wlPlotMasks
      rcases hvis with rfl | hvis
      · simp only [if_true]
        rw [List.getElem?_replicate, if_pos hi]
      · cases noMask
        · simpa using hvis
        · simp only [if_true]
          rw [List.getElem?_replicate, if_pos hi]
    refine List.mem_of_getElem? (i := i) ?_
    rw [List.getElem?_zipWith, List.getElem?_zipWith, hu, hv, hmask]
    rfl

theorem mapM_id_length {α : Type} (l : List (Option α)) : ∀ p, l.mapM id = some p → p.length = l.length := by
  induction l with
  | nil => intro p h; simp at h; simp [← h]
  | cons a l ih =>
    intro p h
    simp only [List.mapM_cons, id_eq, Option.bind_eq_bind, Option.bind_eq_some_iff, Option.pure_def, Option.some.injEq] at h
    obtain ⟨x, -, q, hq, rfl⟩ := h
    simp [ih q hq]

/-- C109, the part that holds: below band limit 256 the script gets to the end whenever oversampling does, and the figure shows
the oversampled map with exactly the pixels hidden that lie in the mask at band limit 256 (none with `--no-mask`).  Missing:
`L ≥ 256`. -/
theorem C109_drawn_partial (S : PlotSsht) (galb : ℝ → ℝ → ℝ) (L : ℕ) (hL : L < 256) (noMask : Bool)
    (W : List Pixel → List (Option ℂ)) (obs : List (Option ℂ)) (m : NdArr Pixel) (hs : m.shape = [L, 2 * L - 1]) (hm : m.WF)
    (h0 : 0 < L) (truth : List Pixel) (ht : truth.length = m.data.length) (hW : (W m.data).length = obs.length)
    (g : NdArr Pixel) (hg : oversampleMap S m 256 = .ok g) (hgs : g.shape = [256, 511]) (hgw : g.WF) :
    (∃ out, wlMapSummary S galb L noMask W obs m truth = .ok out) ∧
    ∃ fig, (plotMap S (fun a => if a = 0 then some m else none) 0 1
        { title := some "Maximum a posetriori solution", vmin := none, vmax := none, oversample := decide (L < 256),
          centre0 := false, mask := some ⟨(wlPlotMasks galb L noMask).2.shape, (wlPlotMasks galb L noMask).2.data.map not⟩ }).2 =
        .ok fig ∧
      ∀ (i : ℕ) (x : Pixel), g.data[i]? = some x →
        ((noMask = true ∨ (plotMask galb 256).data[i]? = some true) → fig.data.data[i]? = some x) ∧
        (noMask = false → (plotMask galb 256).data[i]? = some false → fig.data.data[i]? = some none) := by
  have hsh : (wlPlotMasks galb L noMask).2.shape = [256, 511] := by
    unfold wlPlotMasks plotMask
    cases noMask <;> simp only [hL, if_true, Bool.false_eq_true, if_false]
  have hlen : (wlPlotMasks galb L noMask).2.data.length = 256 * 511 := by
    unfold wlPlotMasks
    cases noMask
    · simp only [hL, if_true, Bool.false_eq_true, if_false]
      rw [plotMask_length]
    · simp only [hL, if_true, List.length_replicate]
  have hgl : g.data.length = 256 * 511 := by rw [hgw, hgs]; rfl
  have hplot : plotMap S (fun a => if a = 0 then some m else none) 0 1
      { title := some "Maximum a posetriori solution", vmin := none, vmax := none, oversample := decide (L < 256),
        centre0 := false, mask := some ⟨(wlPlotMasks galb L noMask).2.shape, (wlPlotMasks galb L noMask).2.data.map not⟩ } =
      (fun x => if x = 1 then some ⟨[256, 511], nanBlocks 1 g.data ((wlPlotMasks galb L noMask).2.data.map not)⟩ else
        if x = 0 then some m else none,
       .ok ⟨⟨[256, 511], nanBlocks 1 g.data ((wlPlotMasks galb L noMask).2.data.map not)⟩, 256,
        some "Maximum a posetriori solution", none, none⟩) := by
    simp only [plotMap, plotSource, if_true, hL, decide_true, hg, bind, Except.bind, colourRange, Bool.false_eq_true, if_false,
      maskNan, hgs, hsh, List.prefix_refl, List.length_cons, List.length_nil, List.drop_succ_cons, List.drop_nil, List.prod_nil]
    congr 1
    funext x
    by_cases hx : x = 1 <;> simp [hx]
  refine ⟨?_, _, by rw [hplot], fun i x hx => ?_⟩
  · have hne : List.zipWith pixMask (List.zipWith pixSub truth m.data) (wlPlotMasks galb L noMask).1.data ≠ [] := by
      have h1 : (wlPlotMasks galb L noMask).1.data.length = L * (2 * L - 1) := by
        unfold wlPlotMasks
        cases noMask
        · simp only [Bool.false_eq_true, if_false]
          rw [plotMask_length]
        · simp only [if_true, List.length_replicate]
      have h2 : m.data.length = L * (2 * L - 1) := by rw [hm, hs]; simp
      rw [ne_eq, ← List.length_eq_zero_iff, List.length_zipWith, List.length_zipWith, ht, h1, h2, min_self, min_self]
      exact (Nat.mul_pos h0 (by omega)).ne'
    obtain ⟨c, hc⟩ : ∃ c, cbarEnd (List.zipWith pixMask (List.zipWith pixSub truth m.data) (wlPlotMasks galb L noMask).1.data) =
        .ok c := by
      generalize List.zipWith pixMask _ _ = l at hne
      cases l with
      | nil => exact absurd rfl hne
      | cons a l => exact ⟨_, rfl⟩
    obtain ⟨e, hr⟩ : ∃ e, relSqErrorNan (W m.data) obs = .ok e := by
      unfold relSqErrorNan
      split
      · rename_i p o h1 h2
        obtain ⟨d, hd⟩ : ∃ d, npSub p o = .ok d := by
          have e : p.length = o.length := by rw [mapM_id_length _ _ h1, mapM_id_length _ _ h2, hW]
          unfold npSub
          rw [bcast_eq _ _ e]
          exact ⟨_, rfl⟩
        refine ⟨some ((npNorm d / npNorm o) ^ 2), ?_⟩
        unfold relSqError
        rw [hd]
        rfl
      · exact ⟨_, rfl⟩
    refine ⟨⟨m, List.zipWith pixSub truth m.data, c, e⟩, ?_⟩
    unfold wlMapSummary
    simp only [hplot]
    simp only [if_true, zero_ne_one, if_false, Option.getD_some, ht, bind, Except.bind, hc, hr]
  · rw [nanBlocks_one _ _ (by rw [List.length_map, hlen, hgl])]
    simp only [List.getElem?_zipWith, hx, List.getElem?_map]
    have hi : i < 256 * 511 := by rw [← hgl]; exact (List.getElem?_eq_some_iff.mp hx).1
    have hall : (wlPlotMasks galb L true).2.data[i]? = some true := by
      unfold wlPlotMasks
      simp only [hL, if_true]
      rw [List.getElem?_replicate, if_pos hi]
    have hmask : (wlPlotMasks galb L false).2 = plotMask galb 256 := by
      unfold wlPlotMasks
      simp only [hL, if_true, Bool.false_eq_true, if_false]
    refine ⟨?_, ?_⟩
    · rintro (rfl | hv)
      · rw [hall]; rfl
      · cases noMask
        · rw [hmask, hv]; rfl
        · rw [hall]; rfl
    · rintro rfl hv
      rw [hmask, hv]; rfl

/-- C109 refuted: for every bandlimit `L ≥ 256` (the default of `main.py` is 512) and without `--no-mask`, whatever the map and
the truth are, drawing the map puts NaN into it, so that the saved map and difference contain NaN, the colour limit of the
difference plot is NaN and `MAP R2E: nan` is printed.  `hW`: the harmonic transform uses every pixel. -/
theorem C109_masked_refuted (S : PlotSsht) (galb : ℝ → ℝ → ℝ) (L : ℕ) (hL : 256 ≤ L)
    (W : List Pixel → List (Option ℂ)) (hW : ∀ x, none ∈ x → none ∈ W x) (obs : List (Option ℂ)) (m : NdArr Pixel)
    (hs : m.shape = [L, 2 * L - 1]) (hm : m.WF) (truth : List Pixel) (ht : truth.length = m.data.length) :
    ∃ out, wlMapSummary S galb L false W obs m truth = .ok out ∧ none ∈ out.saved.data ∧ none ∈ out.diff ∧
      out.cbar = none ∧ out.r2e = none := by
  have hlen : m.data.length = (plotMask galb L).data.length := by
    rw [hm, hs, plotMask_length]; simp
  have hmask : wlPlotMasks galb L false = (plotMask galb L, plotMask galb L) := by
    simp [wlPlotMasks, show ¬ L < 256 by omega]
  have hn := nanBlocks_one ((plotMask galb L).data.map not) m.data (by simpa using hlen)
  obtain ⟨i, hi, hf⟩ := List.getElem_of_mem (plotMask_hides galb L (by omega))
  have hi' : i < m.data.length := by omega
  have hg : (nanBlocks 1 m.data ((plotMask galb L).data.map not))[i]? = some none := by
    rw [hn, List.getElem?_zipWith, List.getElem?_eq_getElem hi', List.getElem?_map, List.getElem?_eq_getElem hi, hf]
    rfl
  have hd : (List.zipWith pixSub truth (nanBlocks 1 m.data ((plotMask galb L).data.map not)))[i]? = some none := by
    rw [List.getElem?_zipWith, hg, List.getElem?_eq_getElem (by omega)]
    cases truth[i] <;> rfl
  have hc : none ∈ List.zipWith pixMask (List.zipWith pixSub truth (nanBlocks 1 m.data ((plotMask galb L).data.map not)))
      (plotMask galb L).data := by
    refine List.mem_of_getElem? (i := i) ?_
    rw [List.getElem?_zipWith, hd, List.getElem?_eq_getElem hi]
    rfl
  have hl2 : (nanBlocks 1 m.data ((plotMask galb L).data.map not)).length = m.data.length := by
    rw [hn, List.length_zipWith, List.length_map, hlen, min_self]
  have hsh : (plotMask galb L).shape = [L, 2 * L - 1] := rfl
  refine ⟨⟨⟨[L, 2 * L - 1], nanBlocks 1 m.data ((plotMask galb L).data.map not)⟩, _, none, none⟩, ?_,
    List.mem_of_getElem? hg, List.mem_of_getElem? hd, rfl, rfl⟩
  unfold wlMapSummary
  simp only [hmask, plotMap, plotSource, if_true, hs, hsh, show ¬ L < 256 by omega, decide_false, Bool.false_eq_true, if_false,
    colourRange, maskNan, List.prefix_refl, Option.getD_some]
  simp only [List.length_cons, List.length_nil, List.drop_succ_cons, List.drop_nil, List.prod_nil]
  rw [if_pos (by rw [ht, hl2])]
  simp only [bind, Except.bind]
  rw [cbarEnd_nan _ hc, relSqErrorNan_nan _ _ (hW _ (List.mem_of_getElem? hg))]

/-- C109: even then the pixels that are not hidden keep their values, in the map and in the difference (from which the printed
signal-to-noise ratio is computed). -/
theorem C109_visible (S : PlotSsht) (galb : ℝ → ℝ → ℝ) (L : ℕ) (hL : 256 ≤ L) (W : List Pixel → List (Option ℂ))
    (obs : List (Option ℂ)) (m : NdArr Pixel) (hs : m.shape = [L, 2 * L - 1]) (hm : m.WF) (truth : List Pixel)
    (out : WlMapOut) (h : wlMapSummary S galb L false W obs m truth = .ok out) (i : ℕ) (x y : Pixel)
    (hvis : (plotMask galb L).data[i]? = some true) (hx : m.data[i]? = some x) (hy : truth[i]? = some y) :
    out.saved.data[i]? = some x ∧ out.diff[i]? = some (y.bind fun u => x.map fun v => u - v) := by
  have hlen : m.data.length = (plotMask galb L).data.length := by
    rw [hm, hs, plotMask_length]; simp
  have hmask : wlPlotMasks galb L false = (plotMask galb L, plotMask galb L) := by
    simp [wlPlotMasks, show ¬ L < 256 by omega]
  have e : out.saved.data[i]? = some x := by
    rw [wlMapSummary_drawn S galb L hL false W obs m hs truth out h, hmask]
    simp only
    rw [nanBlocks_one _ _ (by simpa using hlen), List.getElem?_zipWith, hx, List.getElem?_map, hvis]
    rfl
  refine ⟨e, ?_⟩
  rw [(wlMapSummary_of S galb L false W obs m truth out h).2.1, List.getElem?_zipWith, hy, e, pixSub_eq]

/-- C109 is not vacuous: a one-pixel map, drawn with oversampling. -/
example : ∃ out, wlMapSummary ⟨fun _ _ => .ok [], fun _ L => .ok ⟨[L, 2 * L - 1], List.replicate (L * (2 * L - 1)) (some 0)⟩⟩
    (fun _ _ => 90) 1 true (fun x => x.map (Option.map Complex.ofReal)) [some 1] ⟨[1, 1], [some 2]⟩ [some 3] = .ok out := by
  obtain ⟨e, he, -⟩ := C111_capped [(3 : ℝ) - 2] (by simp)
  have h1 : ∀ M : List Bool, M = [true] → cbarEnd (List.zipWith pixMask [some ((3 : ℝ) - 2)] M) = .ok (some e) := by
    rintro M rfl
    simpa [pixMask] using he
  unfold wlMapSummary
  simp only [wlPlotMasks, plotMap, plotSource, oversampleMap, if_true, show (1 : ℕ) < 256 by norm_num, decide_true, bind,
    Except.bind, show ¬ (256 ^ 2 < 1 ^ 2) by norm_num, if_false, colourRange, maskNan, Bool.false_eq_true,
    show (2 * 256 - 1 : ℕ) = 511 by norm_num, List.prefix_refl, show (0 : ℕ) ≠ 1 by norm_num, Option.getD_some,
    List.length_cons, List.length_nil, List.zipWith_cons_cons, List.zipWith_nil_right, pixSub]
  rw [h1 _ (by simp)]
  exact ⟨_, rfl⟩

/-- `C109_drawn_partial` is not vacuous: the same map. -/
example : ∃ g, oversampleMap ⟨fun _ _ => .ok [], fun _ L => .ok ⟨[L, 2 * L - 1], List.replicate (L * (2 * L - 1)) (some 0)⟩⟩
    ⟨[1, 1], [some 2]⟩ 256 = .ok g ∧ g.shape = [256, 511] ∧ g.WF ∧ (⟨[1, 1], [some 2]⟩ : NdArr Pixel).WF := by
  refine ⟨⟨[256, 511], List.replicate (256 * 511) (some 0)⟩, ?_, rfl, ?_, rfl⟩
  · simp only [oversampleMap, bind, Except.bind, show ¬ (256 ^ 2 < 1 ^ 2) by norm_num, if_false,
      show (2 * 256 - 1 : ℕ) = 511 by norm_num]
  · simp only [NdArr.WF, List.length_replicate, List.prod_cons, List.prod_nil, mul_one]

/-- C109 is not vacuous: at `L = 256` the pole is visible. -/
example : (plotMask (fun _ _ => 90) 256).data[0]? = some true ∧ (∀ x : List Pixel, none ∈ x →
    none ∈ x.map (Option.map Complex.ofReal)) ∧
    (⟨[256, 511], List.replicate (256 * 511) (some 1)⟩ : NdArr Pixel).WF := by
  refine ⟨?_, fun x hx => List.mem_map.mpr ⟨none, hx, rfl⟩, by simp only [NdArr.WF, List.length_replicate, List.prod_cons, List.prod_nil, mul_one]⟩
  obtain ⟨row, v, h1, h2, h3, h4, h5⟩ := (C26_mask (fun _ _ => 90) 256 20).2 0 0 (by norm_num) (by norm_num)
  have hv : v ≠ 0 := by
    rw [Ne, h5]
    unfold Masked
    have e : (2 * ((0 : ℕ) : ℝ) + 1) * π / (2 * ((256 : ℕ) : ℝ) - 1) * 180 / π = 180 / 511 := by
      field_simp
      norm_num
    rw [e]
    norm_num [abs_lt]
  unfold plotMask
  cases hb : buildMask (fun _ _ => 90) 256 20 with
  | nil => rw [hb] at h1; simp at h1
  | cons r0 rs =>
    rw [hb] at h1
    simp only [List.getElem?_cons_zero, Option.some.injEq] at h1
    subst h1
    cases r0 with
    | nil => simp at h3
    | cons a r0 =>
      simp only [List.getElem?_cons_zero, Option.some.injEq] at h3
      subst h3
      simp [hv]

/-! ## C110: credible intervals of the phase-velocity script -/

/-- C110, the part that holds: the width drawn as the 95% interval is at least that of the 95% interval, pixel by pixel.
Missing: equality, see `C110_label_refuted`. -/
theorem C110_wider_partial (C : SampleArr ℝ) (hwf : C.WF) (hn : 0 < C.nsamples) :
    ∃ r r', phasevelCi C = .ok r ∧ credibleIntervalRange (· ≤ ·) C (5 / 100) = .ok r' ∧
      List.Forall₂ (fun w w' => w' ≤ w) r r' := by
  obtain ⟨r, h1, -⟩ := C60_width C hwf hn (1 / 100) (by norm_num) (by norm_num)
  obtain ⟨r', h2, -⟩ := C60_width C hwf hn (5 / 100) (by norm_num) (by norm_num)
  exact ⟨r, r', h1, h2, C60_antitone C hwf (1 / 100) (5 / 100) (by norm_num) r r' h1 h2⟩

/-- C110 refuted: with the two samples 0 and 1 the width drawn is 0.99 (that of the 99% interval), the 95% width is 0.95. -/
theorem C110_label_refuted : phasevelCi ⟨2, [[0, 1]]⟩ = .ok [99 / 100] ∧
    credibleIntervalRange (· ≤ ·) (⟨2, [[0, 1]]⟩ : SampleArr ℝ) (5 / 100) = .ok [95 / 100] := by
  have hwf : (⟨2, [[0, 1]]⟩ : SampleArr ℝ).WF := by
    intro c hc
    simp at hc
    subst hc
    rfl
  have ho : ∀ a : ℝ, colWidth [0, 1] 1 a = clamp01 (1 - a / 2) - clamp01 (a / 2) := by
    intro a
    have h0 : ostat [0, 1] 0 = 0 ∧ ostat [0, 1] 1 = 1 := by
      constructor <;> simp [ostat]
    simp [colWidth, tele, h0.1, h0.2]
  constructor
  · have : phasevelCi ⟨2, [[0, 1]]⟩ = credibleIntervalRange (· ≤ ·) (⟨2, [[0, 1]]⟩ : SampleArr ℝ) (1 / 100) := rfl
    rw [this, ciRange_real _ hwf 1 rfl _ (by norm_num) (by norm_num)]
    simp only [List.map_cons, List.map_nil, ho]
    rw [clamp01_of_mem (by norm_num) (by norm_num), clamp01_of_mem (by norm_num) (by norm_num)]
    norm_num
  · rw [ciRange_real _ hwf 1 rfl _ (by norm_num) (by norm_num)]
    simp only [List.map_cons, List.map_nil, ho]
    rw [clamp01_of_mem (by norm_num) (by norm_num), clamp01_of_mem (by norm_num) (by norm_num)]
    norm_num

/-! ## C112: figures of `mollview` -/

/-- The numbers below 1000 that `n` successive calls draw. -/
def Spec.draws {σ : Type} (randint : ℕ → σ → ℕ × σ) : ℕ → σ → List ℕ
  | 0, _ => []
  | n + 1, s => (randint 1000 s).1 :: Spec.draws randint n (randint 1000 s).2

theorem mollviews_figures {σ : Type} (randint : ℕ → σ → ℕ × σ) : ∀ (n k : ℕ) (s : σ) (F : FigMgr),
    (∀ i j a, F i = some a → F j = some a → i = j) → (∀ i a, F i = some a → a < k) →
    ∃ F' : FigMgr, (∀ i a, F i = some a → F' i = some a) ∧ (∀ i j a, F' i = some a → F' j = some a → i = j) ∧
      List.Forall₂ (fun i v => F' i = some v) (Spec.draws randint n s) (mollviews randint n k s F)
  | 0, k, s, F, h1, h2 => ⟨F, fun _ _ h => h, h1, .nil⟩
  | n + 1, k, s, F, h1, h2 => by
    rw [Spec.draws, mollviews]
    cases hF : F (randint 1000 s).1 with
    | some fig =>
      have hm : mollview randint k s F = ((randint 1000 s).2, F, fig) := by simp only [mollview, hF]
      rw [hm]
      obtain ⟨F', g1, g2, g3⟩ := mollviews_figures randint n (k + 1) (randint 1000 s).2 F h1
        fun i a h => (h2 i a h).trans (Nat.lt_succ_self k)
      exact ⟨F', g1, g2, .cons (g1 _ _ hF) g3⟩
    | none =>
      have hm : mollview randint k s F =
          ((randint 1000 s).2, fun i => if i = (randint 1000 s).1 then some k else F i, k) := by simp only [mollview, hF]
      rw [hm]
      obtain ⟨F', g1, g2, g3⟩ := mollviews_figures randint n (k + 1) (randint 1000 s).2
        (fun i => if i = (randint 1000 s).1 then some k else F i) (by
          intro i j a hi hj
          split_ifs at hi hj with e1 e2 e2
          · rw [e1, e2]
          · injection hi with hi
            exact absurd (h2 j a hj) (by omega)
          · injection hj with hj
            exact absurd (h2 i a hi) (by omega)
          · exact h1 i j a hi hj) (by
          intro i a hi
          split_ifs at hi with e1
          · injection hi with hi
            omega
          · exact (h2 i a hi).trans (Nat.lt_succ_self k))
      refine ⟨F', fun i a hi => g1 i a ?_, g2, .cons (g1 _ _ (by simp)) g3⟩
      rw [if_neg (by rintro rfl; rw [hF] at hi; cases hi), hi]

/-- C112 (partial): two calls return different figures exactly if they drew different numbers.  Missing: that they do draw
different numbers. -/
theorem C112_distinct_partial {σ : Type} (randint : ℕ → σ → ℕ × σ) (n k : ℕ) (s : σ) (i j : ℕ) (hi : i < n) (hj : j < n) :
    (mollviews randint n k s fun _ => none)[i]? = (mollviews randint n k s fun _ => none)[j]? ↔
      (Spec.draws randint n s)[i]? = (Spec.draws randint n s)[j]? := by
  have hlen : ∀ (n : ℕ) (s : σ), (Spec.draws randint n s).length = n := by
    intro n
    induction n with
    | zero => intro s; rfl
    | succ n ih => intro s; simp [Spec.draws, ih]
  obtain ⟨F', -, g2, g3⟩ := mollviews_figures randint n k s (fun _ => none) (by simp) (by simp)
  have hl := g3.length_eq
  rw [hlen] at hl
  have hg := fun a (ha : a < n) => List.Forall₂.get g3 (i := a) (by rw [hlen]; exact ha) (by omega)
  rw [List.getElem?_eq_getElem (by omega), List.getElem?_eq_getElem (by omega),
    List.getElem?_eq_getElem (by rw [hlen]; omega), List.getElem?_eq_getElem (by rw [hlen]; omega),
    Option.some_inj, Option.some_inj]
  have a1 := hg i hi
  have a2 := hg j hj
  simp only [List.get_eq_getElem] at a1 a2
  constructor
  · intro h
    rw [h] at a1
    exact g2 _ _ _ a1 a2
  · intro h
    rw [h] at a1
    exact Option.some_inj.mp (a1.symm.trans a2)

theorem draws_length {σ : Type} (randint : ℕ → σ → ℕ × σ) : ∀ (n : ℕ) (s : σ), (Spec.draws randint n s).length = n
  | 0, _ => rfl
  | n + 1, s => by simp [Spec.draws, draws_length randint n]

theorem draws_lt {σ : Type} (randint : ℕ → σ → ℕ × σ) (hr : ∀ s, (randint 1000 s).1 < 1000) :
    ∀ (n : ℕ) (s : σ), ∀ x ∈ Spec.draws randint n s, x < 1000
  | 0, s, x, hx => by simp [Spec.draws] at hx
  | n + 1, s, x, hx => by
    rcases List.mem_cons.mp hx with rfl | hx
    · exact hr s
    · exact draws_lt randint hr n _ x hx

/-- C112 refuted: whatever the generator does, among 1001 calls two return the same figure, so that the later one draws over
the earlier one. -/
theorem C112_fresh_refuted {σ : Type} (randint : ℕ → σ → ℕ × σ) (hr : ∀ s, (randint 1000 s).1 < 1000) (k : ℕ) (s : σ) :
    ∃ i j, i < j ∧ j < 1001 ∧ (mollviews randint 1001 k s fun _ => none)[i]? = (mollviews randint 1001 k s fun _ => none)[j]? := by
  have hl := draws_length randint 1001 s
  have hb := draws_lt randint hr 1001 s
  obtain ⟨x, -, y, -, hne, he⟩ := Finset.exists_ne_map_eq_of_card_lt_of_maps_to (s := (Finset.univ : Finset (Fin 1001)))
    (t := Finset.range 1000) (f := fun a => (Spec.draws randint 1001 s)[a.val]'(by rw [hl]; exact a.isLt)) (by simp)
    (fun a _ => Finset.mem_coe.mpr (Finset.mem_range.mpr (hb _ (List.getElem_mem _))))
  have key : ∀ a b : Fin 1001, (Spec.draws randint 1001 s)[a.val]'(by rw [hl]; exact a.isLt) =
      (Spec.draws randint 1001 s)[b.val]'(by rw [hl]; exact b.isLt) →
      (mollviews randint 1001 k s fun _ => none)[a.val]? = (mollviews randint 1001 k s fun _ => none)[b.val]? := by
    intro a b hab
    rw [C112_distinct_partial randint 1001 k s a b a.isLt b.isLt, List.getElem?_eq_getElem (by rw [hl]; exact a.isLt),
      List.getElem?_eq_getElem (by rw [hl]; exact b.isLt), hab]
  rcases lt_or_gt_of_ne (Fin.val_ne_of_ne hne) with h | h
  · exact ⟨x, y, h, y.isLt, key x y he⟩
  · exact ⟨y, x, h, x.isLt, key y x he.symm⟩

example : ∀ s : ℕ, ((fun n s : ℕ => (s % n, s + 1)) 1000 s).1 < 1000 := fun s => Nat.mod_lt s (by norm_num)

end Pxmcmc
