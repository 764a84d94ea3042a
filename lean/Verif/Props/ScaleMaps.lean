import Verif.Model.ScaleMaps
import Verif.Props.PlotExamples
import Verif.Props.Download
import Verif.Props.Summaries

/-! # C146: the per-scale interval maps of the phase-velocity plots share one colour scale -/

namespace Pxmcmc

/-- `np.max` of an array without NaN. -/
theorem npMaxPix_real (l : List Pixel) (hn : none ∉ l) (h0 : l ≠ []) :
    ∃ u, npMaxPix l = .ok (some u) ∧ some u ∈ l ∧ ∀ y, some y ∈ l → y ≤ u := by
  obtain ⟨r, rfl⟩ := exists_reals l hn
  cases r with
  | nil => simp at h0
  | cons x ys =>
    obtain ⟨hM, hMb⟩ := foldl_max_spec ys x
    refine ⟨ys.foldl max x, ?_, ?_, ?_⟩
    · simp only [List.map_cons, npMaxPix, foldl_maxPix]
    · exact List.mem_map.mpr ⟨_, hM, rfl⟩
    · intro y hy
      simp only [List.mem_map, Option.some.injEq, exists_eq_right] at hy
      exact hMb y hy

theorem commonVmax_spec (S : PlotSsht) : ∀ (ms gs : List (NdArr Pixel)) (a : ℝ),
    List.Forall₂ (fun m g => oversampleMap S m 256 = .ok g ∧ none ∉ g.data ∧ g.data ≠ []) ms gs →
    ∃ v, commonVmax S ms (some a) = .ok (some v) ∧ a ≤ v ∧ (∀ g ∈ gs, ∀ y, some y ∈ g.data → y ≤ v) ∧
      (v = a ∨ ∃ g ∈ gs, some v ∈ g.data)
  | _, _, a, .nil => ⟨a, rfl, le_rfl, by simp, .inl rfl⟩
  | m :: ms, g :: gs, a, .cons ⟨h1, h2, h3⟩ ht => by
    obtain ⟨u, hu, hum, hub⟩ := npMaxPix_real g.data h2 h3
    have e : pyMax2 (some a) (some u) = some (max a u) := by
      simp only [pyMax2]
      split_ifs with h
      · rw [max_eq_right h.le]
      · rw [max_eq_left (not_lt.mp h)]
    obtain ⟨v, hv, hav, hb, hatt⟩ := commonVmax_spec S ms gs (max a u) ht
    refine ⟨v, ?_, (le_max_left a u).trans hav, ?_, ?_⟩
    · simp only [commonVmax, h1, hu, bind, Except.bind, e, hv]
    · intro g' hg' y hy
      rcases List.mem_cons.mp hg' with rfl | hg'
      · exact (hub y hy).trans ((le_max_right a u).trans hav)
      · exact hb g' hg' y hy
    · rcases hatt with hatt | ⟨g', hg', h⟩
      · rcases max_choice a u with h | h
        · exact .inl (hatt.trans h)
        · exact .inr ⟨g, by simp, by rw [hatt, h]; exact hum⟩
      · exact .inr ⟨g', by simp [hg'], h⟩

theorem scaleFigLoop_spec (S : PlotSsht) (dir suffix : String) (v : Pixel) : ∀ (ms gs : List (NdArr Pixel)) (i : ℕ),
    List.Forall₂ (fun m g => oversampleMap S m 256 = .ok g ∧ none ∉ g.data ∧ g.data ≠ []) ms gs →
    scaleFigLoop S dir suffix v ms i = .ok ((gs.zipIdx i).map fun p =>
      (dir ++ "/" ++ ("ci_map_scale" ++ toString p.2) ++ suffix ++ ".png",
        ⟨p.1, 256, some (scaleTitle p.2), some (some 0), some v⟩))
  | _, _, _, .nil => rfl
  | m :: ms, g :: gs, i, .cons ⟨h1, _, _⟩ ht => by
    simp only [scaleFigLoop, plotMap, plotSource, if_true, h1, bind, Except.bind, colourRange, Bool.false_eq_true, if_false,
      plotFilename, scaleFigLoop_spec S dir suffix v ms gs (i + 1) ht, List.zipIdx_cons, List.map_cons]

theorem scaleName_inj (dir suffix : String) (i j : ℕ)
    (h : dir ++ "/" ++ ("ci_map_scale" ++ toString i) ++ suffix ++ ".png" =
      dir ++ "/" ++ ("ci_map_scale" ++ toString j) ++ suffix ++ ".png") : i = j := by
  have h1 := congrArg String.toList h
  simp only [String.toList_append] at h1
  have h2 := List.append_cancel_left (List.append_cancel_left
    (by simpa only [List.append_assoc] using List.append_cancel_right (List.append_cancel_right h1)))
  exact toDigits_inj (by simpa using h2)

/-- C146. From the samples after burn-in (real, at least one), with `pyssht` exact at the bandlimits and no scale finer than the
bandlimit 256 of the drawing, one figure per scale is saved.  All have the colour limits 0 and `v`; no drawn value of any of
them exceeds `v`, and `v` is 0 or one of the drawn values, so a smaller limit would not do.  Figure `i` shows the ranges of scale
`i` (same harmonic coefficients, zero beyond its bandlimit) under that scale's title, and no two are saved in one file. -/
theorem C146_common_scale (S : PlotSsht) (hS : S.Exact) (dir suffix : String) (C : SampleArr ℝ) (hw : C.WF) (N : ℕ)
    (hn : C.nsamples = N + 1) (bls : List ℕ) (hb : ∀ b ∈ bls, b ≤ 256)
    (hlen : (bls.map fun b => b * (2 * b - 1)).sum ≤ C.cols.length) :
    ∃ figs maps v, scaleCiFigs S dir suffix C bls = .ok figs ∧
      waveletCredibleIntervalRange (· ≤ ·) C bls (1 / 20) = .ok maps ∧ figs.length = bls.length ∧ maps.length = bls.length ∧
      0 ≤ v ∧ (v = 0 ∨ ∃ p ∈ figs, some v ∈ p.2.data.data) ∧ (figs.map Prod.fst).Nodup ∧
      ∀ (i : ℕ) (p : String × MapFig), figs[i]? = some p →
        p.2.vmin = some (some 0) ∧ p.2.vmax = some (some v) ∧ (∀ x ∈ p.2.data.data, ∃ y, x = some y ∧ y ≤ v) ∧
        p.1 = dir ++ "/ci_map_scale" ++ toString i ++ suffix ++ ".png" ∧
        p.2.title = some (if i = 0 then "95% credible interval range Scaling function"
          else "95% credible interval range Wavelet scale " ++ toString i) ∧
        ∃ m b c, maps[i]? = some m ∧ bls[i]? = some b ∧ S.forward ⟨m.shape, m.data.map some⟩ b = .ok c ∧
          S.forward p.2.data 256 = .ok (c ++ List.replicate (256 ^ 2 - b ^ 2) 0) := by
  have hr := ciRange_real C hw N hn (1 / 20) (by norm_num) (by norm_num)
  obtain ⟨maps, h1, h2, -, -⟩ := C62_partition (fun a b : ℝ => a ≤ b) C (1 / 20) _ hr bls hlen
  have hov : ∀ (bs : List ℕ) (ms : List (NdArr ℝ)), (∀ b ∈ bs, b ≤ 256) →
      List.Forall₂ (fun bl (m : NdArr ℝ) => m.shape = [bl, 2 * bl - 1] ∧ m.data.length = bl * (2 * bl - 1)) bs ms →
      ∃ gs, List.Forall₂ (fun m g => oversampleMap S m 256 = .ok g ∧ none ∉ g.data ∧ g.data ≠ []) (ms.map toPixels) gs ∧
        gs.length = bs.length ∧ ∀ (i : ℕ) (g : NdArr Pixel), gs[i]? = some g →
          ∃ m b c, ms[i]? = some m ∧ bs[i]? = some b ∧ S.forward ⟨m.shape, m.data.map some⟩ b = .ok c ∧
            S.forward g 256 = .ok (c ++ List.replicate (256 ^ 2 - b ^ 2) 0) := by
    intro bs ms hb h
    induction h with
    | nil => exact ⟨[], .nil, rfl, by simp⟩
    | @cons b m bs ms hm _ ih =>
      obtain ⟨gs, i1, i2, i3⟩ := ih fun b' hb' => hb b' (List.mem_cons_of_mem _ hb')
      have hb256 := hb b (by simp)
      obtain ⟨c, hfw, hcl, hreal⟩ := hS.1 (toPixels m) b hm.1 (by simp [toPixels]) (by simp [NdArr.WF, toPixels, hm.1, hm.2])
      have hle : b ^ 2 ≤ 256 ^ 2 := Nat.pow_le_pow_left hb256 2
      obtain ⟨g, hinv, hgs, hgw, hgn, hgf⟩ := hS.2 (c ++ List.replicate (256 ^ 2 - b ^ 2) 0) 256
        (by rw [List.length_append, List.length_replicate, hcl]; omega) (hreal.pad b _ hcl)
      have hsh : (toPixels m).shape = [b, 2 * b - 1] := hm.1
      have ho : oversampleMap S (toPixels m) 256 = .ok g := by
        simp only [oversampleMap, hsh, hfw, bind, Except.bind, if_neg (not_lt.mpr hle), hinv]
      have hne : g.data ≠ [] := by
        intro e
        rw [NdArr.WF, e, hgs] at hgw
        simp at hgw
      refine ⟨g :: gs, .cons ⟨ho, hgn, hne⟩ i1, by simp [i2], ?_⟩
      intro i g' hg'
      cases i with
      | zero =>
        simp only [List.getElem?_cons_zero, Option.some.injEq] at hg'
        subst hg'
        exact ⟨m, b, c, rfl, rfl, hfw, hgf⟩
      | succ i => exact i3 i g' (by simpa using hg')
  obtain ⟨gs, hf, hgl, hgc⟩ := hov bls maps hb h2
  obtain ⟨v, hv, hv0, hvb, hva⟩ := commonVmax_spec S _ gs 0 hf
  have hloop := scaleFigLoop_spec S dir suffix (some v) _ gs 0 hf
  have hall : scaleCiFigs S dir suffix C bls = scaleFigLoop S dir suffix (some v) (maps.map toPixels) 0 := by
    simp only [scaleCiFigs, h1, bind, Except.bind, hv]
  refine ⟨_, maps, v, hall.trans hloop, h1, ?_, h2.length_eq.symm, hv0, ?_, ?_, ?_⟩
  · simp [hgl]
  · rcases hva with h | ⟨g, hg, h⟩
    · exact .inl h
    · right
      obtain ⟨i, hi⟩ := List.mem_iff_getElem?.mp hg
      refine ⟨_, List.mem_map.mpr ⟨(g, i), ?_, rfl⟩, h⟩
      rw [List.mem_zipIdx_iff_getElem?]
      exact hi
  · rw [List.map_map]
    have : (gs.zipIdx.map (Prod.fst ∘ fun p : NdArr Pixel × ℕ =>
        ((dir ++ "/" ++ ("ci_map_scale" ++ toString p.2) ++ suffix ++ ".png",
          ⟨p.1, 256, some (scaleTitle p.2), some (some 0), some (some v)⟩) : String × MapFig))) =
        (gs.zipIdx.map Prod.snd).map fun i => dir ++ "/" ++ ("ci_map_scale" ++ toString i) ++ suffix ++ ".png" := by
      rw [List.map_map]; rfl
    rw [this, List.zipIdx_map_snd]
    exact (List.nodup_range' ..).map fun i j h => scaleName_inj dir suffix i j h
  · intro i p hp
    rw [List.getElem?_map, List.getElem?_zipIdx] at hp
    cases hg : gs[i]? with
    | none => simp [hg] at hp
    | some g =>
      simp only [hg, Option.map_some, Nat.zero_add, Option.some.injEq] at hp
      subst hp
      have hgm := List.mem_of_getElem? hg
      refine ⟨rfl, rfl, ?_, ?_, ?_, hgc i g hg⟩
      · intro x hx
        cases x with
        | none =>
          exfalso
          have : ∀ g ∈ gs, none ∉ g.data := by
            intro g' hg'
            obtain ⟨j, hj⟩ := List.mem_iff_getElem?.mp hg'
            have hjl : j < gs.length := (List.getElem?_eq_some_iff.mp hj).1
            have := (List.forall₂_iff_get.mp hf).2 j (by rw [hf.length_eq]; exact hjl) hjl
            have e : gs.get ⟨j, hjl⟩ = g' := (List.getElem?_eq_some_iff.mp hj).2
            rw [e] at this
            exact this.2.1
          exact this g hgm hx
        | some y => exact ⟨y, rfl, hvb g hgm y hx⟩
      · have e : "/ci_map_scale" = "/" ++ "ci_map_scale" := rfl
        rw [e]
        simp only [String.append_assoc]
      · by_cases h : i = 0
        · simp [scaleTitle, h]
        · simp [scaleTitle, h, ← String.append_assoc]

/-- C146 is not vacuous: two samples, a scaling function and one wavelet scale, both of bandlimit 1. -/
example : ∃ S : PlotSsht, S.Exact ∧ ∃ figs, scaleCiFigs S "out" "" ⟨2, [[0, 1], [3, 5]]⟩ [1, 1] = .ok figs ∧ figs.length = 2 := by
  obtain ⟨e, he⟩ := exists_code
  obtain ⟨figs, maps, v, h1, -, h2, -⟩ := C146_common_scale (codeSsht e) (codeSsht_exact e he) "out" "" ⟨2, [[0, 1], [3, 5]]⟩
    (by intro c hc; simp at hc; rcases hc with rfl | rfl <;> rfl) 1 rfl [1, 1] (by simp) (by simp)
  exact ⟨_, codeSsht_exact e he, figs, h1, h2⟩

/-! ## C76 again: `same_scale` with `centre0` -/

theorem foldl_const {α : Type} (f : α → α → α) (c : α) (hf : f c c = c) (l : List α) (h : ∀ y ∈ l, y = c) : l.foldl f c = c := by
  induction l with
  | nil => rfl
  | cons a l ih =>
    rw [List.foldl_cons, h a (by simp), hf]
    exact ih fun y hy => h y (by simp [hy])

theorem centred_const (g : NdArr Pixel) (x : ℝ) (hx : 0 ≤ x) (hne : g.data ≠ []) (hg : ∀ y ∈ g.data, y = some x) (ti : Option String)
    (v : Option Pixel) : colourRange g ⟨ti, none, v, true, true, none⟩ = .ok (some (some (-x)), some (some x)) := by
  cases hd : g.data with
  | nil => exact absurd hd hne
  | cons a l =>
    have ha : a = some x := hg a (by simp [hd])
    have hl : ∀ y ∈ l, y = some x := fun y hy => hg y (by simp [hd, hy])
    have h1 : l.foldl pixMax (some x) = some x := foldl_const _ _ (by simp [pixMax]) l hl
    have h2 : l.foldl pixMin (some x) = some x := foldl_const _ _ (by simp [pixMin]) l hl
    simp [colourRange, npMaxPix, npMinPix, hd, ha, h1, h2, bind, Except.bind, pyMax2, abs_of_nonneg hx]

/-- C76 refuted as the scripts use it (phasevel/plot.py:144-146: `centre0=True`): `plot_map` then takes both limits from the
single map, and `same_scale` has no effect at all.  Two scales of bandlimit 1 with coefficients 1 and 5 are drawn with limits
±1 and ±5, for every pyssht that turns constant maps into constant maps. -/
theorem C76_centre0_refuted (S : PlotSsht)
    (hS : ∀ x : ℝ, ∃ g, oversampleMap S ⟨[1, 1], [some x]⟩ 256 = .ok g ∧ g.data ≠ [] ∧ ∀ y ∈ g.data, y = some x) :
    plotWaveletMaps (fun m (a : WavMapArgs Unit) => do
        let g ← oversampleMap S ⟨m.shape, m.data.map fun z => some z.re⟩ 256
        colourRange g ⟨a.title, none, a.vmax.map some, true, true, none⟩)
      [1, 1, 1] [1, 5] [7] true ⟨none, none, ()⟩ =
      .ok [(some (some (-7)), some (some 7)), (some (some (-1)), some (some 1)), (some (some (-5)), some (some 5))] := by
  obtain ⟨g7, h7, n7, c7⟩ := hS 7
  obtain ⟨g1, h1, n1, c1⟩ := hS 1
  obtain ⟨g5, h5, n5, c5⟩ := hS 5
  have hlex : lexLe 1 5 := .inl (by norm_num)
  simp [plotWaveletMaps, sameScaleArgs, wavMapLoop, npReshape, bind, Except.bind, npMaxC, slice, mwLength, hlex, h7, h1, h5,
    centred_const g7 7 (by norm_num) n7 c7, centred_const g1 1 (by norm_num) n1 c1, centred_const g5 5 (by norm_num) n5 c5]

/-- The hypothesis is met: at bandlimit 1 a map is its mean, and the oversampled map is constant. -/
example : ∃ S : PlotSsht, ∀ x : ℝ, ∃ g, oversampleMap S ⟨[1, 1], [some x]⟩ 256 = .ok g ∧ g.data ≠ [] ∧ ∀ y ∈ g.data, y = some x := by
  refine ⟨⟨fun f _ => .ok (f.data.map fun y => ((y.getD 0 : ℝ) : ℂ)), fun flm L => .ok ⟨[L, 2 * L - 1],
    some (flm.headD 0).re :: List.replicate (L * (2 * L - 1) - 1) (some (flm.headD 0).re)⟩⟩, fun x => ⟨_, rfl, ?_, ?_⟩⟩
  · exact List.cons_ne_nil _ _
  · intro y hy
    rcases List.mem_cons.mp hy with rfl | hy
    · rfl
    · exact List.eq_of_mem_replicate hy

end Pxmcmc
