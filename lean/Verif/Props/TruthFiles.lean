import Verif.Model.TruthFiles
import Verif.Props.Noise
import Verif.Props.MassSheet
import Verif.Props.PathCache
import Verif.Props.PlotScripts

/-! # C138: the plot scripts compare the results with the data of the run -/

namespace Pxmcmc

theorem mainMask_wf (galb : ℝ → ℝ → ℝ) (L : ℕ) : (mainMask galb L).WF := by
  unfold NdArr.WF mainMask buildMask mwThetas mwPhis
  simp [List.length_flatten, Function.comp_def]

theorem plotMask_wf (galb : ℝ → ℝ → ℝ) (L : ℕ) : (plotMask galb L).WF := by
  unfold NdArr.WF
  rw [plotMask_length]
  simp [plotMask]

theorem wlPlotMasks_wf (galb : ℝ → ℝ → ℝ) (L : ℕ) (nm : Bool) :
    (wlPlotMasks galb L nm).1.WF ∧ (wlPlotMasks galb L nm).1.shape = [L, 2 * L - 1] := by
  cases nm
  · exact ⟨plotMask_wf galb L, rfl⟩
  · refine ⟨?_, rfl⟩
    show (List.replicate (L * (2 * L - 1)) true).length = [L, 2 * L - 1].prod
    simp

theorem WL_init_none (L : ℕ) (hL : 1 ≤ L) (m : NdArr Bool) (hm : m.WF) (hs : m.shape = [L, 2 * L - 1]) :
    ∃ w, WL.init L (some m) none = .ok w ∧ w.mask = m ∧ w.L = L ∧ w.invCov = (observed m.data).map fun _ => 1 := by
  obtain ⟨k, hk, -⟩ := C29_kernel L hL
  have hml : (List.replicate (L * (2 * L - 1)) (1 : ℝ)).length = m.data.length := by
    unfold NdArr.WF at hm
    rw [hm, hs]; simp
  have hf := maskForward_eq [L, 2 * L - 1] m hm hs _ hml
  refine ⟨⟨L, k, m, (observed m.data).map fun _ => 1⟩, ?_, rfl, rfl, rfl⟩
  have e : keep (List.replicate (L * (2 * L - 1)) (1 : ℝ)) m.data = (observed m.data).map fun _ => 1 := by
    have := keep_observed (fun x : ℝ => x) 0 _ _ hml
    rw [List.map_id'] at this
    rw [this]
    refine List.map_congr_left fun i hi => ?_
    have hi' : i < m.data.length := by
      have := (List.mem_filter.mp hi).1
      simpa using this
    rw [List.getD_eq_getElem?_getD, List.getElem?_replicate, if_pos (by rw [List.length_replicate] at hml; omega)]
    rfl
  unfold WL.init
  rw [hk]
  simp only [bind, Except.bind, wlMask, wlInvCov, Int.toNat_natCast]
  rw [hf, e]
  simp [hs]

/-- pyssht at bandlimit `L`: pixels to coefficients and back. -/
def Ssht.Sizes (T : Ssht) (L : ℕ) : Prop :=
  (∀ f, f.length = L * (2 * L - 1) → (T.fwd0 f).length = L ^ 2) ∧ ∀ f, f.length = L ^ 2 → (T.inv2 f).length = L * (2 * L - 1)

/-- One shear map serves all masks and weights. -/
theorem wl_forward_observed (T : Ssht) (L : ℕ) (hT : T.Sizes L) (hL : 1 ≤ L) (kappa : List ℂ) (hk : kappa.length = L * (2 * L - 1)) :
    ∃ γ : ℕ → ℂ, ∀ (m : NdArr Bool) (ngal : Option (NdArr ℝ)) (w : WL) (c : ℝ), m.WF → m.shape = [L, 2 * L - 1] →
      (∀ g, ngal = some g → g.WF) → WL.init L (some m) ngal = .ok w → w.mask = m → w.L = L →
      w.invCov = (observed m.data).map (fun _ => c) →
      w.forward T kappa = .ok ((observed m.data).map fun i => (c : ℂ) * γ i) := by
  obtain ⟨k0, hk0, -⟩ := C29_kernel L hL
  obtain ⟨x, hx⟩ := exists_ofFn _ (hT.1 kappa hk)
  have hkl : ∃ κ : Fin (L ^ 2) → ℝ, k0 = List.ofFn κ := by
    obtain ⟨w, hw, -, hwL, -⟩ := WL_init_none L hL ⟨[L, 2 * L - 1], List.replicate (L * (2 * L - 1)) true⟩ (by simp [NdArr.WF]) rfl
    obtain ⟨hker, -, -, -⟩ := WL_init_spec L _ none w (by rintro m ⟨⟩; simp [NdArr.WF]) (by simp) hw
    rw [hwL] at hker
    obtain ⟨κ, hκ, -⟩ := harmonic_ofFn L w.kernel hker
    refine ⟨κ, ?_⟩
    have : wlHarmonicInit (L : ℤ) = .ok w.kernel := by
      unfold WL.init at hw
      obtain ⟨k, hk, hw⟩ := bind_ok hw
      obtain ⟨ic, -, hw⟩ := bind_ok hw
      split at hw
      · cases hw
      · cases hw
        exact hk
    rw [hk0] at this
    injection this with this
    exact this.trans hκ
  obtain ⟨κ, hκ⟩ := hkl
  refine ⟨fun i => (T.inv2 (List.ofFn fun i => if i.val < 4 then 0 else x i * (κ i : ℂ))).getD i 0, ?_⟩
  intro m ngal w c hm hs hg hw hwm hwL hwc
  have hker : w.kernel = k0 := by
    unfold WL.init at hw
    obtain ⟨k, hk, hw⟩ := bind_ok hw
    obtain ⟨ic, -, hw⟩ := bind_ok hw
    rw [hk0] at hk
    injection hk with hk
    split at hw
    · cases hw
    · injection hw with hw
      rw [← hw, hk]
  have hml : m.data.length = L * (2 * L - 1) := by
    unfold NdArr.WF at hm
    rw [hm, hs]; simp
  have l3 : (T.inv2 (List.ofFn fun i => if i.val < 4 then 0 else x i * (κ i : ℂ))).length = m.data.length := by
    rw [hT.2 _ (by simp), hml]
  have esh : w.shape = [L, 2 * L - 1] := by simp [WL.shape, hwL]
  unfold WL.forward
  rw [hwL, if_neg (not_not.mpr hk), hx, esh, hwm, hker, hκ]
  have hM : harmonicMapping (List.ofFn κ) (List.ofFn x) =
    .ok (List.ofFn fun i => if i.val < 4 then 0 else x i * (κ i : ℂ)) := harmonicMapping_ofFn κ x
  simp only [wlHarmonicForward, hM, bind, Except.bind]
  rw [maskForward_eq _ _ hm hs _ l3]
  simp only
  have hko := keep_observed (fun z : ℂ => z) 0 _ _ l3
  rw [List.map_id'] at hko
  rw [hko]
  unfold covWeight
  rw [hwc, bcast_eq _ _ (by simp)]
  show Except.ok _ = _
  rw [List.zip_map', List.map_map]
  congr 1
  refine List.map_congr_left fun i _ => ?_
  simp only [Function.comp_apply]
  ring

/-- C138 (partial), weak lensing: if the run was given the simulation whose name `plot.py` contains, then both scripts work with one
shear map `γ`: the run with its values at the pixels of its mask, in units of the noise (30 galaxies per pixel), the plot script with
its values at the pixels of the other mask, which with masking all belong to the run's mask.  Missing: other inputs, see
`C138_lensing_refuted`; the two masks are not the same, see C106. -/
theorem C138_lensing_partial {K : Type} (T : Ssht) (L : ℕ) (hL : 1 ≤ L) (hT : T.Sizes L) (pipe : K → ℕ → List ℂ)
    (hp : ∀ k, (pipe k L).length = L * (2 * L - 1)) (galb : ℝ → ℝ → ℝ) (F : ExpFiles K) (infile : String)
    (hin : infile = "takahasi_4096_000_zs16_kappa.fits") (kappa : K) (hk : F.fits infile = some kappa) :
    ∃ γ : ℕ → ℂ,
      wlRunData T pipe galb F infile L = .ok ((observed (mainMask galb L).data).map fun i => ((√60 / 0.37 : ℝ) : ℂ) * γ i) ∧
      (∀ nm, wlPlotObs T pipe galb F L nm = .ok ((observed (wlPlotMasks galb L nm).1.data).map γ)) ∧
      ∀ i ∈ observed (wlPlotMasks galb L false).1.data, i ∈ observed (mainMask galb L).data := by
  obtain ⟨γ, hγ⟩ := wl_forward_observed T L hT hL (pipe kappa L) (hp kappa)
  refine ⟨γ, ?_, ?_, ?_⟩
  · have hgw : (⟨[L, 2 * L - 1], List.replicate (L * (2 * L - 1)) (30 : ℝ)⟩ : NdArr ℝ).WF := by simp [NdArr.WF]
    obtain ⟨w, hw, h1, h2, h3⟩ := WL_init_ngal L hL (mainMask galb L) (mainMask_wf galb L) rfl _ hgw rfl
    have hml : (List.replicate (L * (2 * L - 1)) (30 : ℝ)).length = (mainMask galb L).data.length := by
      have := mainMask_wf galb L
      unfold NdArr.WF at this
      rw [this]; simp [mainMask]
    rw [keep_observed (fun x : ℝ => √(2 * x / varE)) 0 _ _ hml] at h3
    have h4 : w.invCov = (observed (mainMask galb L).data).map fun _ => √60 / 0.37 := by
      rw [h3]
      refine List.map_congr_left fun i hi => ?_
      have hi' : i < (mainMask galb L).data.length := by
        have := (List.mem_filter.mp hi).1
        simpa using this
      have e : (List.replicate (L * (2 * L - 1)) (30 : ℝ)).getD i 0 = 30 := by
        rw [List.getD_eq_getElem?_getD, List.getElem?_replicate, if_pos (by rw [List.length_replicate] at hml; omega)]
        rfl
      rw [e]
      unfold varE
      rw [Real.sqrt_div' _ (by norm_num), Real.sqrt_sq (by norm_num)]
      norm_num
    unfold wlRunData
    rw [hw]
    simp only [bind, Except.bind, hk, openFile]
    exact hγ _ _ w _ (mainMask_wf galb L) rfl (by rintro g ⟨⟩; exact hgw) hw h1 h2 h4
  · intro nm
    obtain ⟨hwf, hsh⟩ := wlPlotMasks_wf galb L nm
    obtain ⟨w, hw, h1, h2, h3⟩ := WL_init_none L hL _ hwf hsh
    unfold wlPlotObs
    rw [hin] at hk
    rw [hk]
    simp only [bind, Except.bind, openFile]
    rw [hw]
    have := hγ _ _ w 1 hwf hsh (by simp) hw h1 h2 h3
    simpa using this
  · intro i hi
    obtain ⟨hi1, hi2⟩ := List.mem_filter.mp hi
    have hlen : (plotMask galb L).data.length = L * (2 * L - 1) := plotMask_length galb L
    have hi3 : i < L * (2 * L - 1) := by
      have : i < (wlPlotMasks galb L false).1.data.length := by simpa using hi1
      have h2 : i < (plotMask galb L).data.length := this
      omega
    have hpos : 0 < 2 * L - 1 := by omega
    have ht : i / (2 * L - 1) < L := (Nat.div_lt_iff_lt_mul hpos).mpr hi3
    have hr : i % (2 * L - 1) < 2 * L - 1 := Nat.mod_lt _ hpos
    have e : i / (2 * L - 1) * (2 * L - 1) + i % (2 * L - 1) = i := by
      rw [Nat.mul_comm]; exact Nat.div_add_mod i (2 * L - 1)
    have := (C106_shown_observed_partial galb L _ _ ht hr).2.1
    rw [e] at this
    have hm := this (by simpa using hi2)
    refine List.mem_filter.mpr ⟨?_, by simpa using hm⟩
    have hw := mainMask_wf galb L
    unfold NdArr.WF at hw
    rw [List.mem_range, hw]
    simpa [mainMask] using hi3

/-- C138 refuted, weak lensing: the name given to the run does not matter to `plot.py`.  The run succeeds with a file of any name, but
the plot script raises if there is no map under its own name, and otherwise compares with the shear that a run on that map would have
had. -/
theorem C138_lensing_refuted {K : Type} (T : Ssht) (L : ℕ) (hL : 1 ≤ L) (hT : T.Sizes L) (pipe : K → ℕ → List ℂ)
    (hp : ∀ k, (pipe k L).length = L * (2 * L - 1)) (galb : ℝ → ℝ → ℝ) (F : ExpFiles K) (infile : String)
    (kappa : K) (hk : F.fits infile = some kappa) (nm : Bool) :
    (∃ d, wlRunData T pipe galb F infile L = .ok d) ∧
    (F.fits "takahasi_4096_000_zs16_kappa.fits" = none → ∃ e, wlPlotObs T pipe galb F L nm = .error e) ∧
    ∀ other, F.fits "takahasi_4096_000_zs16_kappa.fits" = some other → ∃ γ : ℕ → ℂ,
      wlPlotObs T pipe galb F L nm = .ok ((observed (wlPlotMasks galb L nm).1.data).map γ) ∧
      wlRunData T pipe galb F "takahasi_4096_000_zs16_kappa.fits" L =
        .ok ((observed (mainMask galb L).data).map fun i => ((√60 / 0.37 : ℝ) : ℂ) * γ i) := by
  refine ⟨?_, ?_, ?_⟩
  · have := C138_lensing_partial T L hL hT pipe hp galb ⟨fun _ => some kappa, F.txt, F.npz, F.npy⟩ _ rfl kappa rfl
    obtain ⟨γ, h, -⟩ := this
    refine ⟨_, Eq.trans ?_ h⟩
    unfold wlRunData
    rw [hk]
  · intro h
    refine ⟨.Other "FileNotFoundError", ?_⟩
    unfold wlPlotObs
    rw [h]; rfl
  · intro other h
    obtain ⟨γ, h1, h2, -⟩ := C138_lensing_partial T L hL hT pipe hp galb F _ rfl other h
    exact ⟨γ, h2 nm, h1⟩

/-- Non-vacuity: a stand-in for pyssht at bandlimit 3 with arrays of the right sizes, and a disk with the simulation. -/
example : ∃ (T : Ssht) (F : ExpFiles Unit), T.Sizes 3 ∧ F.fits "takahasi_4096_000_zs16_kappa.fits" = some () :=
  ⟨⟨fun f => List.replicate 9 (f.headD 0), fun f => List.replicate 15 (f.headD 0), fun f => List.replicate 9 (f.headD 0),
    fun f => List.replicate 15 (f.headD 0)⟩, ⟨fun _ => some (), fun _ => none, fun _ => none, fun _ => none⟩,
    ⟨fun _ _ => by simp, fun _ _ => by simp⟩, rfl⟩

/-! ## `phasevel` -/

theorem openFile_ok {α : Type} {f : Option α} {x : α} (h : f = some x) : openFile f = .ok x := by rw [h]; rfl

theorem readDatafile_data (rows : List PathRow) (d : PathData) (h : readDatafile rows = .ok d) :
    2 ≤ rows.length ∧ d.data = rows.map PathRow.datum := by
  match rows with
  | [] => cases h
  | [_] => cases h
  | a :: b :: l =>
    refine ⟨by simp, ?_⟩
    injection h with h
    rw [← h]

/-- C138 (partial), phase velocities: if the run was given the file names that `plot.py` contains, with bandlimit 28, and its path
matrix was found or built, the printed error of any map is that of its predictions with the run's path matrix for the run's data.
Missing: other arguments, see `C138_phasevel_bandlimit_refuted`, `C138_phasevel_data_refuted`. -/
theorem C138_phasevel_partial {K : Type} (buildPath : ℝ × ℝ → ℝ × ℝ → ℕ → List ℝ) (F F' : ExpFiles K) (infile pathsfile : String)
    (hi : infile = "synthetic_GDM40_0S254_L28.txt") (hp : pathsfile = "0S254L28.npz") (truth : NdArr ℂ)
    (ht : F.npy "GDM40_L28.npy" = some truth) (hts : truth.shape = [28, 55]) (A : SparseMat) (data : List ℝ)
    (hrun : phasevelRun buildPath F infile pathsfile 28 = (.ok (A, data), F')) (m : List ℂ) :
    phasevelError F' 28 m = (do
      let preds ← pathForward A.toMatrix m
      relSqError preds (data.map fun x : ℝ => (x : ℂ))) := by
  subst hi hp
  unfold phasevelRun at hrun
  cases ho : F.txt "synthetic_GDM40_0S254_L28.txt" with
  | none => rw [ho] at hrun; simp [openFile] at hrun
  | some rows =>
    rw [ho] at hrun
    simp only [openFile, Prod.mk.injEq] at hrun
    obtain ⟨h1, h2⟩ := hrun
    obtain ⟨A', hA', h1⟩ := bind_ok h1
    obtain ⟨d, hd, h1⟩ := bind_ok h1
    injection h1 with h1
    obtain ⟨rfl, rfl⟩ := Prod.mk.inj h1
    obtain ⟨hlen, hdata⟩ := readDatafile_data rows d hd
    have hnpz : F'.npz "0S254L28.npz" = some A' := by
      rw [← h2]
      show (phasevelPaths buildPath F.npz "0S254L28.npz" rows 28).2 "0S254L28.npz" = some A'
      cases hc : F.npz "0S254L28.npz" with
      | some B =>
        rw [phasevelPaths_hit buildPath F.npz _ rows 28 hlen B hc] at hA' ⊢
        simp only at hA'
        split at hA'
        · injection hA' with hA'
          show F.npz "0S254L28.npz" = some A'
          rw [hc, hA']
        · cases hA'
      | none =>
        rw [phasevelPaths_miss buildPath F.npz _ rows 28 hlen hc] at hA' ⊢
        injection hA' with hA'
        have : npzName "0S254L28.npz" = "0S254L28.npz" := by decide
        simp only [this, if_true, hA']
    have hb : bcastShape [28, 55] [28, 2 * 28 - 1] = .ok [28, 55] := by decide
    have h3 : F'.npy "GDM40_L28.npy" = some truth := by rw [← h2]; exact ht
    have h4 : F'.txt "synthetic_GDM40_0S254_L28.txt" = some rows := by rw [← h2]; exact ho
    unfold phasevelError
    rw [openFile_ok h3, openFile_ok hnpz, openFile_ok h4]
    show Except.bind (bcastShape truth.shape [28, 2 * 28 - 1]) _ = _
    rw [hts, hb]
    simp only [bind, Except.bind, show ¬ rows.length ≤ 1 by omega, if_false, hdata, List.map_map, Function.comp_def]

/-- C138 refuted, phase velocities: the results of a run with any other bandlimit than 28 cannot be compared at all; `plot.py` raises
after having drawn the first map. -/
theorem C138_phasevel_bandlimit_refuted {K : Type} (F : ExpFiles K) (truth : NdArr ℂ) (ht : F.npy "GDM40_L28.npy" = some truth)
    (hts : truth.shape = [28, 55]) (L : ℕ) (hL : 2 ≤ L) (hL28 : L ≠ 28) (m : List ℂ) :
    phasevelError F L m = .error .ValueError := by
  unfold phasevelError
  rw [openFile_ok ht]
  show Except.bind (bcastShape truth.shape [L, 2 * L - 1]) _ = _
  have : bcastShape truth.shape [L, 2 * L - 1] = .error .ValueError := by
    rw [hts]
    simp only [bcastShape, List.reverse_cons, List.reverse_nil, List.nil_append, List.singleton_append, bcastRev]
    rw [if_neg (by omega), if_neg (by omega), if_neg (by omega)]
  rw [this]
  rfl

/-- Two measurements of the first of `n + 1` pixels. -/
def firstPixelPaths (n : ℕ) : SparseMat := ⟨List.replicate 2 (1 :: List.replicate n 0), n + 1⟩

/-- A map of `n + 1` pixels that is one in the first and zero elsewhere. -/
def firstPixelMap (n : ℕ) : List ℂ := 1 :: List.replicate n 0

theorem firstPixel_pred (n : ℕ) : pathForward (firstPixelPaths n).toMatrix (firstPixelMap n) = .ok [1, 1] := by
  have hl : (firstPixelMap n).length = (firstPixelPaths n).ncols := by simp [firstPixelMap, firstPixelPaths]
  unfold pathForward matDot
  rw [if_pos hl, dif_pos hl]
  congr 1
  have h2 : (firstPixelPaths n).rows.length = 2 := by simp [firstPixelPaths]
  refine List.ext_getElem (by simp [h2]) ?_
  intro k h1 h3
  rw [List.getElem_ofFn]
  have hk : k = 0 ∨ k = 1 := by
    simp at h3; omega
  have : ([1, 1] : List ℂ)[k] = 1 := by
    rcases hk with rfl | rfl <;> rfl
  rw [this]
  show ∑ j : Fin (n + 1), ((((firstPixelPaths n).rows[k]'(by omega)).getD (j : ℕ) 0 : ℝ) : ℂ) * (firstPixelMap n)[(j : ℕ)]'(by
    rw [hl]; exact j.2) = 1
  rw [Fin.sum_univ_succ]
  rcases hk with rfl | rfl <;> simp [firstPixelPaths, firstPixelMap]

/-- A line of a data file with this datum. -/
def lineOf (x : ℝ) : PathRow := ⟨0, 0, 0, 0, x, 1, 0, 1⟩

/-- Non-vacuity of `C138_phasevel_partial`: a run whose path matrix is on disk. -/
example : ∃ (F F' : ExpFiles Unit) (truth : NdArr ℂ) (A : SparseMat) (data : List ℝ), F.npy "GDM40_L28.npy" = some truth ∧
    truth.shape = [28, 55] ∧
    phasevelRun (fun _ _ _ => []) F "synthetic_GDM40_0S254_L28.txt" "0S254L28.npz" 28 = (.ok (A, data), F') := by
  let F : ExpFiles Unit := ⟨fun _ => none, fun _ => some [lineOf 1, lineOf 1], fun _ => some (firstPixelPaths 3),
    fun _ => some ⟨[28, 55], []⟩⟩
  refine ⟨F, F, ⟨[28, 55], []⟩, firstPixelPaths 3, [1, 1], rfl, rfl, ?_⟩
  unfold phasevelRun
  rw [openFile_ok (show F.txt _ = some [lineOf 1, lineOf 1] from rfl)]
  simp only
  rw [phasevelPaths_hit (fun _ _ _ => []) F.npz _ _ 28 (by simp) (firstPixelPaths 3) rfl]
  rw [if_pos (show (firstPixelPaths 3).rows.length = [lineOf 1, lineOf 1].length from List.length_replicate)]
  simp [readDatafile, lineOf, bind, Except.bind]

/-- C138 refuted, phase velocities: with the right bandlimit but another data file, the printed error is not that of the run's data.
Here the run's data are all 2 and the map predicts 1, an error of a quarter; the script prints 0. -/
theorem C138_phasevel_data_refuted : ∃ (F : ExpFiles Unit) (infile : String) (A : SparseMat) (data : List ℝ) (F' : ExpFiles Unit)
    (m preds : List ℂ), m.length = 28 * 55 ∧ phasevelRun (fun _ _ _ => []) F infile "0S254L28.npz" 28 = (.ok (A, data), F') ∧
      pathForward A.toMatrix m = .ok preds ∧ relSqError preds (data.map fun x : ℝ => (x : ℂ)) = .ok (1 / 4) ∧
      phasevelError F' 28 m = .ok 0 := by
  obtain ⟨N, hN⟩ : ∃ N : ℕ, N = 1539 := ⟨_, rfl⟩
  have hlen : (firstPixelMap N).length = 28 * 55 := by
    have : (firstPixelMap N).length = N + 1 := by simp [firstPixelMap]
    omega
  let F : ExpFiles Unit := ⟨fun _ => none, fun s => if s = "other.txt" then some [lineOf 2, lineOf 2] else some [lineOf 1, lineOf 1],
    fun _ => some (firstPixelPaths N), fun _ => some ⟨[28, 55], []⟩⟩
  have hb : bcastShape [28, 55] [28, 2 * 28 - 1] = .ok [28, 55] := by decide
  refine ⟨F, "other.txt", firstPixelPaths N, [2, 2], F, firstPixelMap N, [1, 1], hlen, ?_, firstPixel_pred _, ?_, ?_⟩
  · unfold phasevelRun
    rw [openFile_ok (show F.txt "other.txt" = some [lineOf 2, lineOf 2] by simp [F])]
    simp only
    rw [phasevelPaths_hit (fun _ _ _ => []) F.npz _ _ 28 (by simp) (firstPixelPaths N) rfl]
    rw [if_pos (show (firstPixelPaths N).rows.length = [lineOf 2, lineOf 2].length from List.length_replicate)]
    simp [readDatafile, lineOf, bind, Except.bind]
  · simp only [relSqError, npSub, List.map_cons, List.map_nil]
    rw [bcast_eq _ _ (by simp)]
    simp only [bind, Except.bind, npNorm, List.zip_cons_cons, List.zip_nil_right, List.map_cons, List.map_nil, List.sum_cons, List.sum_nil]
    rw [div_pow, Real.sq_sqrt (by positivity), Real.sq_sqrt (by positivity)]
    norm_num
  · unfold phasevelError
    rw [openFile_ok (show F.npy "GDM40_L28.npy" = some ⟨[28, 55], []⟩ from rfl), openFile_ok (show F.npz "0S254L28.npz" = some (firstPixelPaths N) from rfl),
      openFile_ok (show F.txt "synthetic_GDM40_0S254_L28.txt" = some [lineOf 1, lineOf 1] by simp [F])]
    simp only [bind, Except.bind, hb, List.length_cons, List.length_nil, firstPixel_pred]
    simp only [show ¬ (0 + 1 + 1 ≤ 1) by norm_num, if_false, relSqError, npSub, lineOf, List.map_cons, List.map_nil]
    rw [bcast_eq _ _ (by simp)]
    simp [bind, Except.bind, npNorm]

/-! ## `earthtopography` -/

/-- C138 (partial), topography: if the run was given the file whose name `plot.py` contains and no noise was added, its data are the
plotted truth (both are synthesised from the same coefficients; pys2let and pyssht agree).  Missing: other inputs, see
`C138_topography_refuted`. -/
theorem C138_topography_partial {K : Type} (alm : K → ℕ → List ℂ) (synth : List ℂ → ℕ → List ℂ) (inv : List ℂ → ℕ → List ℝ)
    (L : ℕ) (topo : K) (hsy : synth (alm topo L) L = (inv (alm topo L) L).map fun x : ℝ => (x : ℂ)) (F : ExpFiles K) (infile : String)
    (hin : infile = "ETOPO1_Ice_hpx_256.fits") (hf : F.fits infile = some topo) :
    ∃ t, topoTruth alm inv F L = .ok t ∧ topoRunData alm synth F infile L = .ok (t.map fun x : ℝ => (x : ℂ)) := by
  subst hin
  refine ⟨_, by unfold topoTruth; rw [openFile_ok hf]; rfl, ?_⟩
  unfold topoRunData
  rw [if_pos (by decide), openFile_ok hf]
  simp only [bind, Except.bind, hsy, List.map_map, Function.comp_def]
  congr 2
  funext x
  push_cast
  rfl

/-- C138 refuted, topography: a run can be given a map of any planet in the other format, and its results are compared with the
topography of the Earth. -/
theorem C138_topography_refuted {K : Type} (alm : K → ℕ → List ℂ) (synth : List ℂ → ℕ → List ℂ) (inv : List ℂ → ℕ → List ℝ)
    (L : ℕ) (topo : K) (a : List ℂ) (ha : a.length = L * (2 * L - 1)) (hne : a ≠ (inv (alm topo L) L).map fun x : ℝ => (x : ℂ)) :
    ∃ (F : ExpFiles K) (infile : String) (t : List ℝ) (d : List ℂ), topoTruth alm inv F L = .ok t ∧
      topoRunData alm synth F infile L = .ok d ∧ d ≠ t.map fun x : ℝ => (x : ℂ) := by
  refine ⟨⟨fun _ => some topo, fun _ => none, fun _ => none, fun _ => some ⟨[L, 2 * L - 1], a⟩⟩, "mars_mw_.npy",
    (inv (alm topo L) L).map (· / 1000), a.map (· / 1000), rfl, ?_, ?_⟩
  · unfold topoRunData
    rw [if_neg (by decide), if_pos (by decide)]
    simp [openFile, bind, Except.bind, ha]
  · intro h
    apply hne
    have h2 := congrArg (List.map fun z : ℂ => z * 1000) h
    simp only [List.map_map, Function.comp_def] at h2
    have e1 : (fun x : ℂ => x / 1000 * 1000) = fun x => x := by
      funext x; field_simp
    have e2 : (fun x : ℝ => (((x / 1000 : ℝ)) : ℂ) * 1000) = fun x : ℝ => (x : ℂ) := by
      funext x; push_cast; field_simp
    rw [e1, e2, List.map_id'] at h2
    exact h2

/-- Non-vacuity: stand-ins for the transforms that agree, and a map of another planet. -/
example : ∃ (alm : ℝ → ℕ → List ℂ) (synth : List ℂ → ℕ → List ℂ) (inv : List ℂ → ℕ → List ℝ) (a : List ℂ),
    synth (alm 5 1) 1 = (inv (alm 5 1) 1).map (fun x : ℝ => (x : ℂ)) ∧ a.length = 1 * (2 * 1 - 1) ∧
    a ≠ (inv (alm 5 1) 1).map fun x : ℝ => (x : ℂ) :=
  ⟨fun k _ => [(k : ℂ)], fun c _ => c, fun c _ => c.map Complex.re, [7], by simp, rfl, by simp⟩

end Pxmcmc
