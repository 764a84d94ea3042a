import Verif.Model.Meridian
import Verif.Props.Reorder
import Verif.Props.MassSheet
import Verif.Props.Noise
import Verif.Props.PowerWeights

/-! # Property C149: the choice of the zero meridian does not matter -/

namespace Pxmcmc

/-! ## What `turnRings` does -/

theorem turn_cons_append {α : Type} (w k : ℕ) (rs : List (ℕ × ℕ)) (row l : List α) (h : row.length = w) :
    turnRings ((w, k) :: rs) (row ++ l) = row.rotate k ++ turnRings rs l := by
  subst h
  simp [turnRings]

/-- `turnRings` on the flattened sequence of maps, given by their rows: every row of map `j` is rotated by the shift of map `j`. -/
theorem turn_maps {α : Type} : ∀ (maps : List (ℕ × ℕ)) (rows : List (List (List α))),
    List.Forall₂ (fun m M => M.length = m.1 ∧ ∀ row ∈ M, row.length = 2 * m.1 - 1) maps rows →
    turnRings (mapRings maps) rows.flatten.flatten =
      (List.zipWith (fun m M => M.map fun row => row.rotate m.2) maps rows).flatten.flatten
  | [], [], _ => rfl
  | m :: maps, M :: rows, .cons hm h => by
    have ih := turn_maps maps rows h
    have key : ∀ (M : List (List α)), (∀ row ∈ M, row.length = 2 * m.1 - 1) → ∀ l : List α,
        turnRings (List.replicate M.length (2 * m.1 - 1, m.2) ++ mapRings maps) (M.flatten ++ l) =
          (M.map fun row => row.rotate m.2).flatten ++ turnRings (mapRings maps) l := by
      intro M
      induction M with
      | nil => intro _ l; rfl
      | cons row M ihM =>
        intro hr l
        have e := turn_cons_append (2 * m.1 - 1) m.2 (List.replicate M.length (2 * m.1 - 1, m.2) ++ mapRings maps) row (M.flatten ++ l)
          (hr row (by simp))
        simp only [List.length_cons, List.replicate_succ, List.cons_append, List.flatten_cons, List.append_assoc, List.map_cons] at e ⊢
        rw [e, ihM (fun r h => hr r (by simp [h]))]
    have hk := key M hm.2 rows.flatten.flatten
    rw [hm.1, ih] at hk
    simpa [mapRings, List.flatMap_cons] using hk

/-- Arrays that are constant along the rings stay the same. -/
theorem turn_const {α β : Type} (g : β → α) (w k : ℕ) (rs : List (ℕ × ℕ)) (l : List α) : ∀ qs : List β,
    turnRings (List.replicate qs.length (w, k) ++ rs) ((qs.flatMap fun q => List.replicate w (g q)) ++ l) =
      (qs.flatMap fun q => List.replicate w (g q)) ++ turnRings rs l
  | [] => rfl
  | q :: qs => by
    have e := turn_cons_append w k (List.replicate qs.length (w, k) ++ rs) (List.replicate w (g q))
      ((qs.flatMap fun q => List.replicate w (g q)) ++ l) (by simp)
    rw [turn_const g w k rs l qs] at e
    simpa [List.replicate_succ, List.flatMap_cons] using e

theorem mwQ_length (L : ℕ) : (mwQ L).length = L := by simp [mwQ]

theorem turn_mwMapWeights : ∀ maps : List (ℕ × ℕ),
    turnRings (mapRings maps) ((maps.map Prod.fst).flatMap mwMapWeights) = (maps.map Prod.fst).flatMap mwMapWeights
  | [] => rfl
  | m :: maps => by
    have h := turn_const (fun q : ℝ => q) (2 * m.1 - 1) m.2 (mapRings maps) ((maps.map Prod.fst).flatMap mwMapWeights) (mwQ m.1)
    rw [turn_mwMapWeights maps, mwQ_length] at h
    simpa [mapRings, mwMapWeights, List.flatMap_cons] using h

theorem turn_sinWeights (m : ℕ × ℕ) (c : ℝ) (rs : List (ℕ × ℕ)) (l : List ℝ) :
    turnRings (List.replicate m.1 (2 * m.1 - 1, m.2) ++ rs) (sinWeights m.1 c ++ l) = sinWeights m.1 c ++ turnRings rs l := by
  have h := turn_const (fun t : ℝ => c * Real.sin t) (2 * m.1 - 1) m.2 rs l (mwThetas m.1)
  have hl : (mwThetas m.1).length = m.1 := by simp [mwThetas]
  rw [hl] at h
  exact h

/-! ## Integrals, areas, signal-to-noise ratios -/

/-- C149: the integral over the sphere does not depend on the meridian at which the rings of the map start (also not whether it raises). -/
theorem C149_integral (f : List ℂ) (L k : ℕ) : s2Integrate (turnRings (mapRings [(L, k)]) f) L = s2Integrate f L := by
  have hw : reord (turnOrder (mapRings [(L, k)])) (mwMapWeights L) = mwMapWeights L := by
    rw [reord_turn]
    have := turn_mwMapWeights [(L, k)]
    simpa using this
  unfold s2Integrate
  rw [← reord_turn, ← hw, bcast_reord, hw]
  cases bcast (mwMapWeights L) f with
  | error e => rfl
  | ok ps =>
    simp only [Except.map, bind, Except.bind, ← reord_map]
    rw [(reord_perm _ _).sum_eq]

theorem pairs_phis (L : ℕ) (hL : 1 ≤ L) (p : ℝ × ℝ) (hp : p ∈ pairs (mwPhis L ++ [2 * Real.pi])) :
    p.2 - p.1 = 2 * Real.pi / (2 * L - 1) := by
  have hc : ((2 * L - 1 : ℕ) : ℝ) = 2 * L - 1 := by
    rw [Nat.cast_sub (by omega)]
    push_cast
    ring
  have hpos : (0 : ℝ) < 2 * L - 1 := by
    have : (1 : ℝ) ≤ L := by exact_mod_cast hL
    linarith
  have e : mwPhis L ++ [2 * Real.pi] = (List.range (2 * L - 1 + 1)).map fun (i : ℕ) => 2 * Real.pi * (i : ℝ) / (2 * L - 1) := by
    rw [List.range_succ, List.map_append, mwPhis]
    congr 1
    simp only [List.map_cons, List.map_nil, hc]
    rw [mul_div_assoc, div_self hpos.ne', mul_one]
  rw [e] at hp
  unfold pairs at hp
  obtain ⟨i, hi, rfl⟩ := List.getElem_of_mem hp
  simp
  ring

/-- C149: within a ring all pixels have the same area, so the array of areas is the same for every meridian. -/
theorem C149_areas (L k : ℕ) (r : ℝ) (areas : List (List ℝ)) (h : calcPixelAreas L r = .ok areas) :
    turnRings (mapRings [(L, k)]) areas.flatten = areas.flatten ∧ areas.length = L ∧ ∀ row ∈ areas, row.length = 2 * L - 1 := by
  have hL : 1 ≤ L := by
    by_contra h0
    obtain rfl : L = 0 := by omega
    simp [calcPixelAreas, mwThetas, pyGet, bind, Except.bind] at h
  have hrow : ∀ th : ℝ × ℝ, ((pairs (mwPhis L ++ [2 * Real.pi])).map fun ph => pixelArea r th.1 th.2 ph.1 ph.2) =
      List.replicate (2 * L - 1) (r ^ 2 * (Real.cos th.1 - Real.cos th.2) * (2 * Real.pi / (2 * L - 1))) := by
    intro th
    rw [List.eq_replicate_iff]
    refine ⟨by simp [pairs, mwPhis], fun x hx => ?_⟩
    obtain ⟨p, hp, rfl⟩ := List.mem_map.1 hx
    unfold pixelArea
    rw [pairs_phis L hL p hp]
  unfold calcPixelAreas at h
  obtain ⟨t0, -, h⟩ := bind_ok h
  injection h with h
  have hl : (mwPhis L).length = 2 * L - 1 := by simp [mwPhis]
  have e : areas = (polarCapArea r t0 / ((mwPhis L).length : ℝ) :: (pairs (mwThetas L)).map fun th =>
      r ^ 2 * (Real.cos th.1 - Real.cos th.2) * (2 * Real.pi / (2 * L - 1))).map fun a => List.replicate (2 * L - 1) a := by
    rw [← h]
    simp [hrow, hl, Function.comp_def]
  have hlen : ∀ qs : List ℝ, qs.length = L → turnRings (mapRings [(L, k)]) (qs.map fun a => List.replicate (2 * L - 1) a).flatten =
      (qs.map fun a => List.replicate (2 * L - 1) a).flatten := by
    intro qs hq
    have h := turn_const (fun q : ℝ => q) (2 * L - 1) k [] [] qs
    rw [hq] at h
    simpa [mapRings, turnRings, List.flatMap] using h
  have hn : ((pairs (mwThetas L)).length + 1) = L := by
    simp [pairs, mwThetas]
    omega
  rw [e]
  refine ⟨hlen _ (by simp [hn]), by simp [hn], fun row hr => ?_⟩
  obtain ⟨a, -, rfl⟩ := List.mem_map.1 hr
  simp

/-- C149: the signal-to-noise ratio of turned maps. -/
theorem C149_snr (rs : List (ℕ × ℕ)) (x y : List ℂ) : snr (turnRings rs x) (turnRings rs y) = snr x y := by
  have hn : ∀ x : List ℂ, npNorm (turnRings rs x) = npNorm x := by
    intro x
    unfold npNorm
    rw [((turn_perm rs x).map _).sum_eq]
  unfold snr
  rw [hn, hn]

/-! ## The wavelet priors -/

theorem imul_reord (τ : Order) (h h' : Heap ℝ) (T T' : TObj) (hT : T'.value h' = (T.value h).map (Thresh.reord τ)) (w : List ℝ)
    (hw : reord τ w = w) (fresh fresh' : ℕ) (h1 : Heap ℝ) (T1 : TObj) (hi : imul h T w fresh = .ok (h1, T1)) :
    ∃ h1' T1', imul h' T' w fresh' = .ok (h1', T1') ∧ T1'.value h1' = (T1.value h1).map (Thresh.reord τ) := by
  cases T with
  | float t =>
    cases T' with
    | float t' =>
      simp only [TObj.value, Option.map, Thresh.reord, Option.some.injEq, Thresh.scalar.injEq] at hT
      subst hT
      simp only [imul] at hi
      cases hi
      refine ⟨_, _, rfl, ?_⟩
      simp [TObj.value, Heap.write, Thresh.reord, reord_map, hw]
    | arr a' =>
      simp only [TObj.value] at hT
      cases h' a' <;> simp [Thresh.reord] at hT
  | arr a =>
    cases T' with
    | float t' =>
      simp only [TObj.value] at hT
      cases h a <;> simp [Thresh.reord] at hT
    | arr a' =>
      simp only [imul] at hi ⊢
      cases ha : h a with
      | none => rw [ha] at hi; cases hi
      | some ts =>
        rw [ha] at hi
        simp only [TObj.value, ha, Option.map, Thresh.reord] at hT
        cases ha' : h' a' with
        | none => rw [ha'] at hT; cases hT
        | some ts' =>
          rw [ha'] at hT
          simp only [Option.some.injEq, Thresh.vector.injEq] at hT
          subst hT
          simp only [reord_length]
          simp only at hi
          by_cases hl : ts.length = w.length
          · rw [if_pos hl] at hi ⊢
            cases hi
            refine ⟨_, _, rfl, ?_⟩
            simp [TObj.value, Heap.write, Thresh.reord, reord_map, reord_zip τ ts w hl, hw]
          · rw [if_neg hl] at hi ⊢
            split at hi
            · rename_i x
              cases hi
              refine ⟨_, _, rfl, ?_⟩
              simp [TObj.value, Heap.write, Thresh.reord, reord_map]
            · cases hi

theorem S2L1.init_turn (h h' : Heap ℝ) (s : String) (maps : List (ℕ × ℕ)) (T T' : TObj)
    (hT : T'.value h' = (T.value h).map (Thresh.reord (turnOrder (mapRings maps)))) (fresh fresh' : ℕ) (h1 : Heap ℝ) (P : S2L1)
    (hP : S2L1.init h s T (maps.map Prod.fst) fresh = .ok (h1, P)) :
    ∃ h1' P', S2L1.init h' s T' (maps.map Prod.fst) fresh' = .ok (h1', P') ∧ P'.mapWeights = P.mapWeights ∧
      P.mapWeights = (maps.map Prod.fst).flatMap mwMapWeights ∧
      P'.T.value h1' = (P.T.value h1).map (Thresh.reord (turnOrder (mapRings maps))) := by
  unfold S2L1.init at hP ⊢
  cases hS : Setting.parse s with
  | none => rw [hS] at hP; cases hP
  | some S =>
    rw [hS] at hP
    cases S with
    | analysis => cases hP
    | synthesis =>
      simp only at hP ⊢
      obtain ⟨⟨h2, T2⟩, hi, hP⟩ := bind_ok hP
      injection hP with hP
      cases hP
      have hw : reord (turnOrder (mapRings maps)) ((maps.map Prod.fst).flatMap mwMapWeights) = (maps.map Prod.fst).flatMap mwMapWeights := by
        rw [reord_turn, turn_mwMapWeights]
      obtain ⟨h1', T1', hi', hv⟩ := imul_reord _ h h' T T' hT _ hw fresh fresh' _ _ hi
      rw [hi']
      exact ⟨_, _, rfl, rfl, rfl, hv⟩

/-- C149 for the wavelet prior: for all bandlimits, shifts of the scales and thresholds (a number, or an array that is turned like the
coefficients), the prior of the turned coefficients is the same and its proximal map gives the turned result. -/
theorem C149_wavelets (h h' : Heap ℝ) (s : String) (maps : List (ℕ × ℕ)) (T T' : TObj)
    (hT : T'.value h' = (T.value h).map (Thresh.reord (turnOrder (mapRings maps)))) (fresh fresh' : ℕ) (h1 : Heap ℝ) (P : S2L1)
    (hP : S2L1.init h s T (maps.map Prod.fst) fresh = .ok (h1, P)) :
    ∃ h1' P', S2L1.init h' s T' (maps.map Prod.fst) fresh' = .ok (h1', P') ∧
      PriorReorder (turnOrder (mapRings maps)) (P.toPrior h1) (P'.toPrior h1') ∧
      ∀ X : List ℂ, P'.prior (turnRings (mapRings maps) X) = P.prior X ∧
        P'.proxf h1' (turnRings (mapRings maps) X) = (P.proxf h1 X).map (turnRings (mapRings maps)) := by
  obtain ⟨h1', P', hP', hw', hw, hv⟩ := S2L1.init_turn h h' s maps T T' hT fresh fresh' h1 P hP
  have R := (C145_wavelets (turnOrder (mapRings maps)) P P' h1 h1' (by rw [hw', hw, reord_turn, turn_mwMapWeights]) hv).1
  refine ⟨h1', P', hP', R, fun X => ⟨?_, ?_⟩⟩
  · have h2 := R.prior X
    rw [reord_turn] at h2
    exact h2
  · have h2 := R.prox X
    rw [reord_turn] at h2
    simp only [funext (reord_turn (α := ℂ) (mapRings maps))] at h2
    exact h2

theorem turn_waveletWeights (c : (ℕ × ℝ) × ℕ → ℝ) : ∀ (maps : List (ℕ × ℕ)) (xs : List ((ℕ × ℝ) × ℕ)),
    xs.map (fun x => x.1.1) = maps.map Prod.fst →
    turnRings (mapRings maps) (xs.flatMap fun x => sinWeights x.1.1 (c x)) = xs.flatMap fun x => sinWeights x.1.1 (c x)
  | [], [], _ => rfl
  | m :: maps, x :: xs, h => by
    simp only [List.map_cons, List.cons.injEq] at h
    have e := turn_sinWeights m (c x) (mapRings maps) (xs.flatMap fun x => sinWeights x.1.1 (c x))
    rw [turn_waveletWeights c maps xs h.2] at e
    rw [List.flatMap_cons, h.1]
    simpa [mapRings, List.flatMap_cons] using e

/-- C149 for the prior with power weights, for every tiling, when the bandlimits without the arguments `dirs` and `spin` (prior.py:131) are those of
the tiling. -/
theorem C149_power (h h' : Heap ℝ) (s : String) (L : ℕ) (til til1 : Tiling) (eta : ℝ) (maps : List (ℕ × ℕ))
    (hb : multiresBandlimits L til.phi til.psis = .ok (maps.map Prod.fst))
    (hb1 : multiresBandlimits L til1.phi til1.psis = .ok (maps.map Prod.fst)) (T T' : TObj)
    (hT : T'.value h' = (T.value h).map (Thresh.reord (turnOrder (mapRings maps)))) (fresh fresh' : ℕ) (h1 : Heap ℝ) (P : S2L1)
    (hP : S2L1.initTiling h s T L til til1 eta fresh = .ok (h1, P)) :
    ∃ h1' P', S2L1.initTiling h' s T' L til til1 eta fresh' = .ok (h1', P') ∧
      PriorReorder (turnOrder (mapRings maps)) (P.toPriorPower h1) (P'.toPriorPower h1') ∧
      ∀ X : List ℂ, P'.priorPower (turnRings (mapRings maps) X) = P.priorPower X ∧
        P'.proxf h1' (turnRings (mapRings maps) X) = (P.proxf h1 X).map (turnRings (mapRings maps)) := by
  obtain ⟨bls, bls1, peaks, sw, ww, h2, P2, e1, e2, e3, e4, e5, e6, e7, e8, rfl⟩ := initTiling_inv hP
  rw [hb] at e1
  cases e1
  rw [hb1] at e4
  cases e4
  obtain ⟨h2', P2', hi', -, -, hv⟩ := S2L1.init_turn h h' "synthesis" maps T T' hT fresh fresh' h2 P2 e2
  -- the weights are constant along the rings
  have hw : reord (turnOrder (mapRings maps)) (sw ++ ww) = sw ++ ww := by
    rw [reord_turn]
    obtain ⟨b, hb', hsw⟩ : ∃ b, bandlimitOf til.phi = .ok b ∧ sw = sinWeights b (2 * Real.pi ^ 2 / (power til.phi * mwLength b)) := by
      unfold scalingWeights at e3
      obtain ⟨b, hb', e3⟩ := bind_ok e3
      injection e3 with e3
      exact ⟨b, hb', e3.symm⟩
    unfold multiresBandlimits at hb
    obtain ⟨psil, hpsil, hb⟩ := bind_ok hb
    split at hb
    · rw [mapM_ok_iff] at hb hpsil
      cases maps with
      | nil => cases hb
      | cons m maps =>
        rw [List.map_cons, List.forall₂_cons, hb'] at hb
        obtain ⟨hbm, hbs⟩ := hb
        injection hbm with hbm
        subst hbm
        have hl1 := hbs.length_eq
        have hl2 := hpsil.length_eq
        have hl3 : peaks.length = til.psis.length := by
          unfold peakLs at e5
          obtain ⟨q, hq, e5⟩ := bind_ok e5
          rw [mapM_ok_iff] at hq e5
          rw [← e5.length_eq, hq.length_eq]
        have hww : ww = (waveletScales (m.1 :: maps.map Prod.fst) til.psis peaks).flatMap fun x =>
            sinWeights x.1.1 (2 * Real.pi ^ 2 * (x.2 : ℝ) ^ eta / (x.1.2 * mwLength x.1.1)) := by
          unfold waveletWeights at e6
          simp only [List.map_cons] at e6
          cases hx : waveletScales (m.1 :: maps.map Prod.fst) til.psis peaks with
          | nil => rw [hx] at e6; cases e6
          | cons x xs =>
            rw [hx] at e6
            simp only at e6
            split at e6
            · cases e6
            · injection e6 with e6; exact e6.symm
        have hsc : (waveletScales (m.1 :: maps.map Prod.fst) til.psis peaks).map (fun x => x.1.1) = maps.map Prod.fst := by
          simp only [List.length_map] at hl1
          unfold waveletScales
          rw [show (fun x : (ℕ × ℝ) × ℕ => x.1.1) = Prod.fst ∘ Prod.fst from rfl, ← List.map_map, List.map_fst_zip (by simp; omega),
            List.tail_cons, List.map_fst_zip (by simp; omega)]
        have e := turn_sinWeights m (2 * Real.pi ^ 2 / (power til.phi * mwLength m.1)) (mapRings maps) ww
        rw [hww, turn_waveletWeights _ maps _ hsc, ← hww] at e
        rw [hsw]
        simpa [mapRings, List.flatMap_cons] using e
    · cases hb
  obtain ⟨h1', T1', hi2, hv2⟩ := imul_reord _ h2 h2' P2.T P2'.T hv _ hw (fresh + 1) (fresh' + 1) h1 P.T e7
  have hP' : S2L1.initTiling h' "synthesis" T' L til til1 eta fresh' = .ok (h1', ⟨T1', sw ++ ww⟩) := by
    rw [initTiling_eq hb hb1 e5]
    unfold S2L1.initPower
    rw [hi']
    simp only [bind, Except.bind]
    rw [e3]
    simp only
    rw [e6]
    simp only
    rw [hi2]
  have R := (C145_wavelets (turnOrder (mapRings maps)) P ⟨T1', sw ++ ww⟩ h1 h1' (by rw [e8, hw]) hv2).2
  refine ⟨h1', _, hP', R, fun X => ⟨?_, ?_⟩⟩
  · have h2 := R.prior X
    rw [reord_turn] at h2
    exact h2
  · have h2 := R.prox X
    rw [reord_turn] at h2
    simp only [funext (reord_turn (α := ℂ) (mapRings maps))] at h2
    exact h2

/-! ## Weak lensing -/

/-- Harmonic coefficients multiplied by phases. -/
noncomputable def phases (ph g : List ℂ) : List ℂ := List.zipWith (fun a b => a * b) ph g

/-- What pyssht's transforms at bandlimit `L` do when the rings of a map start `k` pixels later: the coefficients get phases (`e^{imα}` for
degree `l` and order `m`), for all four transforms. -/
structure SshtTurns (T : Ssht) (L k : ℕ) (ph : List ℂ) : Prop where
  len : ph.length = L ^ 2
  fwd0_len : ∀ f, f.length = L * (2 * L - 1) → (T.fwd0 f).length = L ^ 2
  inv2_len : ∀ f, f.length = L ^ 2 → (T.inv2 f).length = L * (2 * L - 1)
  invAdj2_len : ∀ f, f.length = L * (2 * L - 1) → (T.invAdj2 f).length = L ^ 2
  fwd0 : ∀ f, f.length = L * (2 * L - 1) → T.fwd0 (turnRings (mapRings [(L, k)]) f) = phases ph (T.fwd0 f)
  inv2 : ∀ g, g.length = L ^ 2 → T.inv2 (phases ph g) = turnRings (mapRings [(L, k)]) (T.inv2 g)
  invAdj2 : ∀ f, f.length = L * (2 * L - 1) → T.invAdj2 (turnRings (mapRings [(L, k)]) f) = phases ph (T.invAdj2 f)
  fwdAdj0 : ∀ g, g.length = L ^ 2 → T.fwdAdj0 (phases ph g) = turnRings (mapRings [(L, k)]) (T.fwdAdj0 g)

theorem harmonicMapping_phases (N : ℕ) (k : List ℝ) (hk : k.length = N) (ph g : List ℂ) (hp : ph.length = N) (hg : g.length = N) :
    ∃ r, harmonicMapping k g = .ok r ∧ r.length = N ∧ harmonicMapping k (phases ph g) = .ok (phases ph r) := by
  obtain ⟨k, rfl⟩ := exists_ofFn k hk
  obtain ⟨ph, rfl⟩ := exists_ofFn ph hp
  obtain ⟨g, rfl⟩ := exists_ofFn g hg
  have hz : ∀ a b : Fin N → ℂ, phases (List.ofFn a) (List.ofFn b) = List.ofFn fun i => a i * b i := by
    intro a b
    refine List.ext_getElem (by simp [phases]) fun i h1 h2 => ?_
    simp [phases]
  have hm : ∀ g : Fin N → ℂ, harmonicMapping (List.ofFn k) (List.ofFn g) =
      .ok (List.ofFn fun i => if i.val < 4 then 0 else g i * (k i : ℂ)) := by
    intro g
    unfold harmonicMapping
    rw [bcast_eq _ _ (by simp), zip_ofFn]
    show Except.ok _ = _
    rw [map_ofFn', zeroFirst4_ofFn]
    rfl
  refine ⟨_, hm g, by simp, ?_⟩
  rw [hz, hm, hz]
  congr 2
  funext i
  split
  · simp
  · ring

theorem turn_zip {α β : Type} (rs : List (ℕ × ℕ)) (x : List α) (y : List β) (h : x.length = y.length) :
    turnRings rs (x.zip y) = (turnRings rs x).zip (turnRings rs y) := by
  rw [← reord_turn, ← reord_turn, ← reord_turn, reord_zip _ _ _ h]

theorem keep_zip {α β γ : Type} (f : α → β → γ) : ∀ (x : List α) (y : List β) (m : List Bool), x.length = m.length → y.length = m.length →
    ((keep x m).zip (keep y m)).map (fun p => f p.1 p.2) = keep ((x.zip y).map fun p => f p.1 p.2) m
  | [], [], [], _, _ => rfl
  | [], _ :: _, [], _, hy => by simp at hy
  | _ :: _, _, [], hx, _ => by simp at hx
  | [], _, _ :: _, hx, _ => by simp at hx
  | _ :: _, [], _ :: _, _, hy => by simp at hy
  | a :: x, b :: y, c :: m, hx, hy => by
    have ih := keep_zip f x y m (by simpa using hx) (by simpa using hy)
    cases c
    · simpa [keep] using ih
    · simpa [keep] using ih

theorem keep_map' {α β : Type} (f : α → β) (x : List α) (m : List Bool) : keep (x.map f) m = (keep x m).map f := by
  unfold keep
  rw [List.zip_map_left, List.filter_map, List.map_map, List.map_map]
  rfl

/-- The weight of every pixel: 1, or √(2n/σ_e²) for the count `n` (measurements.py:201-204). -/
noncomputable def lensWeights (L : ℕ) : Option (NdArr ℝ) → List ℝ
  | none => List.replicate (L * (2 * L - 1)) 1
  | some g => g.data.map fun x => √(2 * x / varE)

theorem lens_init (L : ℕ) (hL : 1 ≤ L) (m : NdArr Bool) (hm : m.WF) (hs : m.shape = [L, 2 * L - 1]) (ngal : Option (NdArr ℝ))
    (hg : ∀ g ∈ ngal, g.WF ∧ g.shape = [L, 2 * L - 1]) :
    ∃ w, WL.init L (some m) ngal = .ok w ∧ w.mask = m ∧ w.L = L ∧ w.kernel.length = L ^ 2 ∧ w.invCov = keep (lensWeights L ngal) m.data := by
  have hml : m.data.length = L * (2 * L - 1) := by
    unfold NdArr.WF at hm
    rw [hm, hs]; simp
  have hker : ∀ w : WL, w.L = L → WL.init L (some m) ngal = .ok w → w.kernel.length = L ^ 2 := by
    intro w hw h
    have h1 := (WL_init_spec L (some m) ngal w (by rintro _ ⟨rfl⟩; exact hm) (fun g hg' => (hg g hg').1) h).1
    obtain ⟨κ, hκ, -⟩ := harmonic_ofFn w.L w.kernel h1
    rw [hκ, List.length_ofFn, hw]
  cases ngal with
  | none =>
    obtain ⟨k, hk, -⟩ := C29_kernel L hL
    have hml' : (List.replicate (L * (2 * L - 1)) (1 : ℝ)).length = m.data.length := by simp [hml]
    have hf := maskForward_eq [L, 2 * L - 1] m hm hs _ hml'
    have h : WL.init L (some m) none = .ok ⟨L, k, m, keep (List.replicate (L * (2 * L - 1)) (1 : ℝ)) m.data⟩ := by
      unfold WL.init
      rw [hk]
      simp only [wlInvCov, wlMask, Int.toNat_natCast, bind, Except.bind]
      rw [hf]
      simp [hs]
    exact ⟨_, h, rfl, rfl, hker _ rfl h, rfl⟩
  | some g =>
    obtain ⟨hgw, hgs⟩ := hg g rfl
    obtain ⟨w, hw, hwm, hwL, hwi⟩ := WL_init_ngal L hL m hm hs g hgw hgs
    exact ⟨w, hw, hwm, hwL, hker w hwL hw, by rw [hwi, lensWeights, keep_map']⟩

/-- C149 for the weak lensing operator, with any mask and any galaxy counts: with convergence, mask and counts turned, the predicted data are the
turned map on the turned mask, and the adjoint of turned data is the turned map. -/
theorem C149_lensing (L k : ℕ) (hL : 1 ≤ L) (m : NdArr Bool) (hm : m.WF) (hs : m.shape = [L, 2 * L - 1]) (ngal : Option (NdArr ℝ))
    (hg : ∀ g ∈ ngal, g.WF ∧ g.shape = [L, 2 * L - 1]) (T : Ssht) (ph : List ℂ) (hT : SshtTurns T L k ph) :
    ∃ w w', WL.init L (some m) ngal = .ok w ∧
      WL.init L (some ⟨m.shape, turnRings (mapRings [(L, k)]) m.data⟩) (ngal.map fun g => ⟨g.shape, turnRings (mapRings [(L, k)]) g.data⟩) = .ok w' ∧
      (∀ kappa, kappa.length = L * (2 * L - 1) → ∃ g, g.length = L * (2 * L - 1) ∧ w.forward T kappa = .ok (keep g m.data) ∧
        w'.forward T (turnRings (mapRings [(L, k)]) kappa) =
          .ok (keep (turnRings (mapRings [(L, k)]) g) (turnRings (mapRings [(L, k)]) m.data))) ∧
      ∀ gamma, gamma.length = L * (2 * L - 1) → ∃ r, w.adjoint T (keep gamma m.data) = .ok r ∧
        w'.adjoint T (keep (turnRings (mapRings [(L, k)]) gamma) (turnRings (mapRings [(L, k)]) m.data)) = .ok (turnRings (mapRings [(L, k)]) r) := by
  obtain ⟨rs, hrs⟩ : ∃ rs, rs = mapRings [(L, k)] := ⟨_, rfl⟩
  have hT0 := hT.fwd0
  have hT1 := hT.inv2
  have hT2 := hT.invAdj2
  have hT3 := hT.fwdAdj0
  rw [← hrs] at *
  have hml : m.data.length = L * (2 * L - 1) := by
    unfold NdArr.WF at hm
    rw [hm, hs]; simp
  have hm' : NdArr.WF ⟨m.shape, turnRings rs m.data⟩ := by
    unfold NdArr.WF at hm ⊢
    simp only [turn_length]
    exact hm
  have hwl : (lensWeights L ngal).length = L * (2 * L - 1) := by
    cases ngal with
    | none => simp [lensWeights]
    | some g =>
      obtain ⟨h1, h2⟩ := hg g rfl
      unfold NdArr.WF at h1
      simp [lensWeights, h1, h2]
  have hw' : lensWeights L (ngal.map fun g => ⟨g.shape, turnRings rs g.data⟩) = turnRings rs (lensWeights L ngal) := by
    cases ngal with
    | none =>
      show List.replicate _ _ = turnRings _ (List.replicate _ _)
      rw [← reord_turn, reord_replicate]
    | some g => exact (turn_map _ _ _).symm
  obtain ⟨w, hw, hwm, hwL, hwk, hwi⟩ := lens_init L hL m hm hs ngal hg
  obtain ⟨w', hw2, hwm', hwL', hwk', hwi'⟩ := lens_init L hL ⟨m.shape, turnRings rs m.data⟩ hm' hs (ngal.map fun g => ⟨g.shape, turnRings rs g.data⟩) (by
    intro g hg'
    obtain ⟨g0, hg0, rfl⟩ := Option.mem_map.1 hg'
    obtain ⟨h1, h2⟩ := hg g0 hg0
    refine ⟨?_, h2⟩
    unfold NdArr.WF at h1 ⊢
    simp only [turn_length]
    exact h1)
  have hkk : w'.kernel = w.kernel := by
    have h1 := (WL_init_spec L _ _ w (by rintro _ ⟨rfl⟩; exact hm) (fun g hg' => (hg g hg').1) hw).1
    unfold WL.init at hw hw2
    obtain ⟨k1, hk1, hw⟩ := bind_ok hw
    obtain ⟨k2, hk2, hw2⟩ := bind_ok hw2
    obtain ⟨i1, -, hw⟩ := bind_ok hw
    obtain ⟨i2, -, hw2⟩ := bind_ok hw2
    rw [hk1] at hk2
    cases hk2
    split at hw
    · cases hw
    split at hw2
    · cases hw2
    cases hw
    cases hw2
    rfl
  rw [hw'] at hwi'
  -- covariance weighting of masked maps
  have hcov : ∀ (u : WL) (x : List ℂ) (y : List ℝ) (mm : List Bool), x.length = mm.length → y.length = mm.length → u.invCov = keep y mm →
      covWeight u (keep x mm) = .ok (keep ((x.zip y).map fun p => p.1 * (p.2 : ℂ)) mm) := by
    intro u x y mm hx hy hu
    unfold covWeight
    rw [hu, bcast_eq _ _ (by rw [keep_length _ _ hx, keep_length _ _ hy])]
    show Except.ok _ = _
    rw [keep_zip (fun (a : ℂ) (b : ℝ) => a * (b : ℂ)) x y mm hx hy]
  have hzip : ∀ x : List ℂ, x.length = L * (2 * L - 1) → ((turnRings rs x).zip (turnRings rs (lensWeights L ngal))).map (fun p => p.1 * (p.2 : ℂ)) =
      turnRings rs ((x.zip (lensWeights L ngal)).map fun p => p.1 * (p.2 : ℂ)) := by
    intro x hx
    rw [← turn_zip _ _ _ (by rw [hx, hwl])]
    exact (turn_map _ _ _).symm
  refine ⟨w, w', hw, hw2, fun kappa hkap => ?_, fun gamma hgam => ?_⟩
  · obtain ⟨r, hr, hrl, hr'⟩ := harmonicMapping_phases (L ^ 2) w.kernel hwk ph (T.fwd0 kappa) hT.len (hT.fwd0_len kappa hkap)
    have hgl := hT.inv2_len r hrl
    refine ⟨((T.inv2 r).zip (lensWeights L ngal)).map fun p => p.1 * (p.2 : ℂ), by simp [hgl, hwl], ?_, ?_⟩
    · unfold WL.forward
      rw [if_neg (by rw [hwL, hkap]; simp)]
      simp only [wlHarmonicForward, bind, Except.bind, hr]
      rw [hwm, maskForward_eq w.shape m hm (by rw [hs, WL.shape, hwL]) _ (by rw [hgl, hml])]
      simp only
      rw [hcov w _ (lensWeights L ngal) m.data (by rw [hgl, hml]) (by rw [hwl, hml]) hwi]
    · unfold WL.forward
      rw [if_neg (by rw [hwL', turn_length, hkap]; simp), hT0 kappa hkap]
      simp only [wlHarmonicForward, bind, Except.bind, hkk, hr']
      rw [hT1 r hrl, hwm', maskForward_eq w'.shape _ hm' (by rw [WL.shape, hwL']; exact hs) _ (by simp only [turn_length]; rw [hgl, hml])]
      simp only
      rw [hcov w' _ (turnRings rs (lensWeights L ngal)) (turnRings rs m.data) (by simp only [turn_length]; rw [hgl, hml]) (by simp only [turn_length]; rw [hwl, hml]) hwi']
      rw [hzip _ hgl]
  · have hz : ((gamma.zip (lensWeights L ngal)).map fun p => p.1 * (p.2 : ℂ)).length = m.data.length := by
      simp [hgam, hwl, hml]
    have hma : ∀ (mm : List Bool) (x : List ℂ), x.length = mm.length → maskAdjoint mm (keep x mm) =
        .ok ((x.zip mm).map fun p => if p.2 then p.1 else 0) := by
      intro mm x hx
      unfold maskAdjoint
      simp only [Bool.false_eq_true, if_false]
      rw [if_pos (keep_length _ _ hx), scatter_keep _ _ hx]
    set z := ((gamma.zip (lensWeights L ngal)).map fun p => p.1 * (p.2 : ℂ)) with hzdef
    have hsl : ((z.zip m.data).map fun p => if p.2 then p.1 else 0).length = L * (2 * L - 1) := by simp [hz, hml]
    obtain ⟨r, hr, hrl, hr'⟩ := harmonicMapping_phases (L ^ 2) w.kernel hwk ph _ hT.len (hT.invAdj2_len _ hsl)
    refine ⟨T.fwdAdj0 r, ?_, ?_⟩
    · unfold WL.adjoint
      rw [hcov w gamma (lensWeights L ngal) m.data (by rw [hgam, hml]) (by rw [hwl, hml]) hwi]
      simp only [bind, Except.bind]
      rw [hwm, hma m.data z hz]
      simp only [wlHarmonicAdjoint]
      rw [hr]
    · unfold WL.adjoint
      rw [hcov w' (turnRings rs gamma) (turnRings rs (lensWeights L ngal)) (turnRings rs m.data) (by simp only [turn_length]; rw [hgam, hml]) (by simp only [turn_length]; rw [hwl, hml]) hwi']
      simp only [bind, Except.bind]
      rw [hzip gamma hgam, hwm', hma (turnRings rs m.data) (turnRings rs z) (by simp only [turn_length]; exact hz)]
      simp only [wlHarmonicAdjoint]
      rw [← turn_zip _ _ _ hz, ← turn_map, hT2 _ hsl, hkk, hr']
      simp only
      rw [hT3 r hrl]

/-! ## Runs -/

/-- C149 for whole runs with the wavelet prior (or, by `C149_power`, any prior of the same kind): for every pair of forward operators that belong to
the two meridians (`C145_forward`, `C145_path`), all bandlimits and shifts, every parameter object, generator, start argument and number of
iterations, the run from the turned start with the turned noise does the same; its samples are the turned ones, and the recorded log-posteriors,
misfits, priors, acceptances and step sizes are equal. -/
theorem C149_runs {n : ℕ} {M : Sampler n} (ρ : Order) (maps : List (ℕ × ℕ)) {F F' : ForwardOp n} {P P' : PriorObj}
    (hF : ForwardReorder (turnOrder (mapRings maps)) ρ F F') (hP : PriorReorder (turnOrder (mapRings maps)) P P') (par : Params)
    (A : Arrays) (hM : samplerInit F P par = .ok (M, A)) :
    ∃ (M' : Sampler n) (A' : Arrays), samplerInit F' P' par = .ok (M', A') ∧
      ∀ (R : Rng) (r : R.σ) (sp : StartPoint) (fuel : ℕ),
        (∀ st, myulaRun M R A r sp fuel = .ok (some st) → ∃ st',
          myulaRun M' (R.reord (turnOrder (mapRings maps))) A' r (sp.reord (turnOrder (mapRings maps))) fuel = .ok (some st') ∧
          (A'.applyAll st'.ev).chain = (A.applyAll st.ev).chain.map (fun l => l.map (turnRings (mapRings maps))) ∧
          (A'.applyAll st'.ev).logPi = (A.applyAll st.ev).logPi ∧ (A'.applyAll st'.ev).L2s = (A.applyAll st.ev).L2s ∧
          (A'.applyAll st'.ev).priors = (A.applyAll st.ev).priors) ∧
        (∀ st, skrockRun M R A r sp fuel = .ok (some st) → ∃ st',
          skrockRun M' (R.reord (turnOrder (mapRings maps))) A' r (sp.reord (turnOrder (mapRings maps))) fuel = .ok (some st') ∧
          (A'.applyAll st'.ev).chain = (A.applyAll st.ev).chain.map (fun l => l.map (turnRings (mapRings maps))) ∧
          (A'.applyAll st'.ev).logPi = (A.applyAll st.ev).logPi ∧ (A'.applyAll st'.ev).L2s = (A.applyAll st.ev).L2s ∧
          (A'.applyAll st'.ev).priors = (A.applyAll st.ev).priors) ∧
        ∀ (tune : Bool) (δ : ℝ) (st : MalaSt R), malaRun M R tune δ A r sp fuel = .ok (some st) → ∃ st',
          malaRun M' (R.reord (turnOrder (mapRings maps))) tune δ A' r (sp.reord (turnOrder (mapRings maps))) fuel = .ok (some st') ∧
          st'.acc = st.acc ∧ st'.deltas = st.deltas ∧
          (A'.applyAll st'.ev).chain = (A.applyAll st.ev).chain.map (fun l => l.map (turnRings (mapRings maps))) ∧
          (A'.applyAll st'.ev).logPi = (A.applyAll st.ev).logPi ∧ (A'.applyAll st'.ev).L2s = (A.applyAll st.ev).L2s ∧
          (A'.applyAll st'.ev).priors = (A.applyAll st.ev).priors := by
  obtain ⟨M', A', hM', h⟩ := C145_runs hF hP par A hM
  have hc : ∀ B : Arrays, (B.reord (turnOrder (mapRings maps)) ρ).chain = B.chain.map (fun l => l.map (turnRings (mapRings maps))) := by
    intro B
    simp only [Arrays.reord, funext (reord_turn (α := ℂ) (mapRings maps))]
  refine ⟨M', A', hM', fun R r sp fuel => ?_⟩
  obtain ⟨⟨-, h1⟩, ⟨-, h2⟩, h3⟩ := h R r sp fuel
  refine ⟨fun st hst => ?_, fun st hst => ?_, fun tune δ st hst => ?_⟩
  · obtain ⟨st', e, ha⟩ := h1 st hst
    refine ⟨st', e, ?_⟩
    rw [ha]
    exact ⟨hc _, rfl, rfl, rfl⟩
  · obtain ⟨st', e, ha⟩ := h2 st hst
    refine ⟨st', e, ?_⟩
    rw [ha]
    exact ⟨hc _, rfl, rfl, rfl⟩
  · obtain ⟨st', e, ha1, ha2, ha⟩ := (h3 tune δ).2 st hst
    refine ⟨st', e, ha1, ha2, ?_⟩
    rw [ha]
    exact ⟨hc _, rfl, rfl, rfl⟩

/-! ## Concrete cases -/

/-- Bandlimit 2, shifted by one pixel: rings of three pixels. -/
theorem turn_two {α : Type} (a b c d e f : α) : turnRings (mapRings [(2, 1)]) [a, b, c, d, e, f] = [b, c, a, e, f, d] := rfl

/-- A transform at bandlimit 2 that is turned as `SshtTurns` says, with `ω` a third root of unity. -/
noncomputable def turnSsht (ω : ℂ) : Ssht where
  fwd0 f := [f.getD 0 0 + f.getD 1 0 + f.getD 2 0, f.getD 0 0 + ω * f.getD 1 0 + ω ^ 2 * f.getD 2 0,
    f.getD 3 0 + f.getD 4 0 + f.getD 5 0, f.getD 0 0 + ω ^ 2 * f.getD 1 0 + ω * f.getD 2 0]
  inv2 g := [g.getD 0 0 + g.getD 1 0 + g.getD 3 0, g.getD 0 0 + ω ^ 2 * g.getD 1 0 + ω * g.getD 3 0,
    g.getD 0 0 + ω * g.getD 1 0 + ω ^ 2 * g.getD 3 0, g.getD 2 0, g.getD 2 0, g.getD 2 0]
  invAdj2 f := [f.getD 0 0 + f.getD 1 0 + f.getD 2 0, f.getD 0 0 + ω * f.getD 1 0 + ω ^ 2 * f.getD 2 0,
    f.getD 3 0 + f.getD 4 0 + f.getD 5 0, f.getD 0 0 + ω ^ 2 * f.getD 1 0 + ω * f.getD 2 0]
  fwdAdj0 g := [g.getD 0 0 + g.getD 1 0 + g.getD 3 0, g.getD 0 0 + ω ^ 2 * g.getD 1 0 + ω * g.getD 3 0,
    g.getD 0 0 + ω * g.getD 1 0 + ω ^ 2 * g.getD 3 0, g.getD 2 0, g.getD 2 0, g.getD 2 0]

theorem turnSsht_turns (ω : ℂ) (hω : ω ^ 3 = 1) : SshtTurns (turnSsht ω) 2 1 [1, ω ^ 2, 1, ω] := by
  have h6 : ∀ f : List ℂ, f.length = 6 → ∃ a b c d e g, f = [a, b, c, d, e, g] := by
    intro f hf
    obtain ⟨v, rfl⟩ := exists_ofFn f hf
    exact ⟨v 0, v 1, v 2, v 3, v 4, v 5, by simp [List.ofFn_succ]⟩
  have h4 : ∀ f : List ℂ, f.length = 4 → ∃ a b c d, f = [a, b, c, d] := by
    intro f hf
    obtain ⟨v, rfl⟩ := exists_ofFn f hf
    exact ⟨v 0, v 1, v 2, v 3, by simp [List.ofFn_succ]⟩
  have hf : ∀ f : List ℂ, f.length = 6 → (turnSsht ω).fwd0 (turnRings (mapRings [(2, 1)]) f) = phases [1, ω ^ 2, 1, ω] ((turnSsht ω).fwd0 f) := by
    intro f hf
    obtain ⟨a, b, c, d, e, g, rfl⟩ := h6 f hf
    rw [turn_two]
    simp only [turnSsht, phases, List.getD_cons_zero, List.getD_cons_succ, List.zipWith_cons_cons, List.zipWith_nil_left, List.cons.injEq,
      and_true, one_mul]
    refine ⟨by ring, by linear_combination (-b - ω * c) * hω, by ring, by linear_combination (-b) * hω⟩
  have hi : ∀ g : List ℂ, g.length = 4 → (turnSsht ω).inv2 (phases [1, ω ^ 2, 1, ω] g) = turnRings (mapRings [(2, 1)]) ((turnSsht ω).inv2 g) := by
    intro g hg
    obtain ⟨a, b, c, d, rfl⟩ := h4 g hg
    simp only [turnSsht, phases, List.getD_cons_zero, List.getD_cons_succ, List.zipWith_cons_cons, List.zipWith_nil_left, turn_two,
      List.cons.injEq, and_true, one_mul]
    refine ⟨trivial, by linear_combination (ω * b) * hω, by linear_combination (b + d) * hω⟩
  exact ⟨by simp, fun _ _ => by simp [turnSsht], fun _ _ => by simp [turnSsht], fun _ _ => by simp [turnSsht], hf, hi, hf, hi⟩

/-- The hypotheses of `C149_lensing` with a mask and counts that vary along the rings, and a phase that is not 1. -/
example : ∃ ω : ℂ, SshtTurns (turnSsht ω) 2 1 [1, ω ^ 2, 1, ω] ∧ ω ≠ 1 ∧
    NdArr.WF (⟨[2, 3], [true, false, true, true, true, false]⟩ : NdArr Bool) ∧
    NdArr.WF (⟨[2, 3], [1, 2, 3, 4, 5, 6]⟩ : NdArr ℝ) ∧
    turnRings (mapRings [(2, 1)]) [true, false, true, true, true, false] ≠ [true, false, true, true, true, false] := by
  have h := Complex.isPrimitiveRoot_exp 3 (by norm_num)
  refine ⟨_, turnSsht_turns _ h.pow_eq_one, h.ne_one (by norm_num), by simp [NdArr.WF], by simp [NdArr.WF], ?_⟩
  rw [turn_two]
  simp

/-- The hypotheses of `C149_wavelets` with two scales that are shifted, a threshold array that varies along a ring, and turned thresholds that
differ. -/
example : ∃ h1 P, S2L1.init (fun _ => some [1, 2, 3, 4, 5, 6, 7]) "synthesis" (.arr 0) (([(1, 0), (2, 1)] : List (ℕ × ℕ)).map Prod.fst) 1 =
      .ok (h1, P) ∧
    (TObj.arr 0).value (fun _ => some [1, 3, 4, 2, 6, 7, 5]) = ((TObj.arr 0).value (fun _ => some [1, 2, 3, 4, 5, 6, 7])).map
      (Thresh.reord (turnOrder (mapRings [(1, 0), (2, 1)]))) := by
  have hw : ((([(1, 0), (2, 1)] : List (ℕ × ℕ)).map Prod.fst).flatMap mwMapWeights).length = 7 := by
    simp [mwMapWeights, List.length_flatMap, mwQ, Function.comp_def]
  have hi : ∃ r, S2L1.init (fun _ => some [1, 2, 3, 4, 5, 6, 7]) "synthesis" (.arr 0) (([(1, 0), (2, 1)] : List (ℕ × ℕ)).map Prod.fst) 1 =
      .ok r := by
    unfold S2L1.init
    have hp : Setting.parse "synthesis" = some .synthesis := rfl
    rw [hp]
    simp only [imul]
    rw [if_pos (by rw [hw]; rfl)]
    exact ⟨_, rfl⟩
  obtain ⟨⟨h1, P⟩, hi⟩ := hi
  refine ⟨h1, P, hi, ?_⟩
  simp only [TObj.value, Option.map, Thresh.reord, reord_turn]
  rfl

/-- The hypotheses of `C149_power`: three scales of bandlimits 2, 1 and 2. -/
example : multiresBandlimits 2 (smallTiling 1).phi (smallTiling 1).psis = .ok (([(2, 1), (1, 0), (2, 1)] : List (ℕ × ℕ)).map Prod.fst) ∧
    ∃ h1 P, S2L1.initTiling (fun _ => none) "synthesis" (.float 3) 2 (smallTiling 1) (smallTiling 1) 1 0 = .ok (h1, P) :=
  ⟨smallTiling_bandlimits one_ne_zero, smallTiling_ok (fun _ => none) one_ne_zero 3 1 0⟩

/-- The hypotheses of `C149_runs`: one path over a map of bandlimit 2 and the wavelet prior for one scale. -/
example : ∃ (F F' : ForwardOp 1) (h1 h1' : Heap ℝ) (P P' : S2L1) (M : Sampler 1) (A : Arrays),
    ForwardOp.init ⟨false, ![3]⟩ (.num ((2 : ℝ) : ℂ) false) "analysis" none
      (some ⟨pathForward !![1, 2, 0, 0, 3, 0], pathAdjoint !![1, 2, 0, 0, 3, 0]⟩) (some 6) = .ok F ∧
    ForwardReorder (turnOrder (mapRings [(2, 1)])) (fun _ => Equiv.refl _) F F' ∧
    S2L1.init (fun _ => none) "synthesis" (.float 1) [2] 0 = .ok (h1, P) ∧
    PriorReorder (turnOrder (mapRings [(2, 1)])) (P.toPrior h1) (P'.toPrior h1') ∧
    samplerInit F (P.toPrior h1) ⟨1, 1 / 2, 1, 1, 4, 3, 2, true, 0, ["chain"]⟩ = .ok (M, A) := by
  obtain ⟨W, hW, -⟩ := C35_diagonal (⟨false, ![3]⟩ : DataVec 1) rfl (.num ((2 : ℝ) : ℂ) false) _ (IsSigma.scalar 2 (by norm_num))
  have hF : ForwardOp.init (⟨false, ![3]⟩ : DataVec 1) (.num ((2 : ℝ) : ℂ) false) "analysis" none
      (some ⟨pathForward !![1, 2, 0, 0, 3, 0], pathAdjoint !![1, 2, 0, 0, 3, 0]⟩) (some 6) = .ok ⟨⟨false, ![3]⟩, W, .analysis, none,
        some ⟨pathForward !![1, 2, 0, 0, 3, 0], pathAdjoint !![1, 2, 0, 0, 3, 0]⟩, some 6⟩ := by
    unfold ForwardOp.init
    rw [hW]
    rfl
  obtain ⟨F', -, hR⟩ := C145_forward (turnOrder (mapRings [(2, 1)])) (turnOrder (mapRings [(2, 1)])) (fun _ => Equiv.refl _) _ _ "analysis"
    (fun _ => rfl) none _ none _ _ trivial (C145_path _ _ !![1, 2, 0, 0, 3, 0]) _ hF
  obtain ⟨h1', P', -, hP, -⟩ := C149_wavelets (fun _ => none) (fun _ => none) "synthesis" [(2, 1)] (.float 1) (.float 1) rfl 0 0 _ _ rfl
  exact ⟨_, F', _, h1', _, P', _, _, hF, hR, rfl, hP, rfl⟩

end Pxmcmc
