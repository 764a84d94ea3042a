import Verif.Model.Results
import Verif.Props.Saving

/-! # Property C117: plot scripts read the settings of the run from the results file -/

namespace Pxmcmc

/-- What HDF5 accepts as an attribute: nothing of 64 KiB or more, and everything that leaves 512 bytes for name, type and shape. -/
structure H5Limit (st : AttrVal → Bool) : Prop where
  refused : ∀ v, 65536 ≤ v.bytes → st v = false
  stored : ∀ v, v.bytes ≤ 65024 → st v = true

/-- Writing attributes up to the first one that is refused. -/
theorem runOps_attrs_fail {V : Type} (st : V → Bool) (l l' : List (String × V)) (q : String × V) (hl : ∀ p ∈ l, st p.2 = true)
    (hq : st q.2 = false) (f : H5File V) :
    runOps st ((l ++ q :: l').map fun p => .attr p.1 p.2) f =
      (⟨f.ds, fun s => (lastValue l s).or (f.attrs s)⟩, some .TypeError) := by
  rw [List.map_append, runOps_append st _ _ _ _ (runOps_attrs st l hl f), List.map_cons]
  unfold runOps
  simp only [FileOp.run, hq, Bool.false_eq_true, if_false]
  rfl

theorem paramAttrs_small (p : Params) (st : AttrVal → Bool) (hst : H5Limit st) (ht : 16 * p.track.length ≤ 65024) :
    ∀ a ∈ paramAttrs p, st a.2 = true := by
  intro a ha
  refine hst.stored _ ?_
  simp only [paramAttrs, List.mem_cons, List.not_mem_nil, or_false] at ha
  rcases ha with rfl | rfl | rfl | rfl | rfl | rfl | rfl | rfl | rfl | rfl <;> (simp [AttrVal.bytes]; try omega)

theorem paramAttrs_nodup (p : Params) : ((paramAttrs p).map Prod.fst).Nodup := by
  simp [paramAttrs]

/-- Every parameter of the run is an attribute with the parameter's name and value. -/
def StoresParams (attrs : String → Option AttrVal) (p : Params) : Prop :=
  attrs "lmda" = some (.num p.lmda) ∧ attrs "delta" = some (.num p.delta) ∧ attrs "mu" = some (.num p.mu) ∧
  attrs "s" = some (.num p.s) ∧ attrs "nsamples" = some (.num p.nsamples) ∧ attrs "nburn" = some (.num p.nburn) ∧
  attrs "ngap" = some (.num p.ngap) ∧ attrs "complex" = some (.flag p.complex) ∧
  attrs "verbosity" = some (.num p.verbosity) ∧ attrs "track" = some (.texts p.track)

/-- C117, `phasevel` and `weaklensing`: the results file can always be written, and the plot script reads from it the band limit, the
wavelet parameters and the setting of the run.  The parameters of the sampler and the run time are attributes of the file. -/
theorem C117_phasevel_lensing (st : AttrVal → Bool) (hst : H5Limit st) (openable : String → Bool) (D : Disk AttrVal) (m : McmcObj)
    (par : Params) (htrack : 16 * par.track.length ≤ 65024) (outdir name : String) (ho : openable (savePath outdir name) = true)
    (L J np : ℕ) (B : ℝ) (setting time : String) (nsim : Bool) (eta : ℝ) (kw : List (String × AttrVal))
    (hkw : kw = phasevelKwargs L J np B setting time nsim eta ∨ kw = wlKwargs L J np B setting time) :
    ∃ D' f, saveMcmc st openable D m (paramAttrs par) outdir name kw = (D', none) ∧ D' (savePath outdir name) = some f ∧
      f.ds = m.expected ∧ plotHeader f = .ok ⟨.num L, .num B, .num J, .text setting, false⟩ ∧ StoresParams f.attrs par ∧
      f.attrs "nparams" = some (.num np) ∧ f.attrs "time" = some (.text time) ∧
      (kw = phasevelKwargs L J np B setting time nsim eta →
        f.attrs "nsim" = some (.flag nsim) ∧ f.attrs "eta" = some (.num eta)) := by
  have hnd : (kw.map Prod.fst).Nodup := by
    rcases hkw with rfl | rfl <;> simp [phasevelKwargs, wlKwargs]
  have hs : ∀ p ∈ paramAttrs par ++ kw, st p.2 = true := by
    intro p hp
    rcases List.mem_append.mp hp with h | h
    · exact paramAttrs_small par st hst htrack p h
    · refine hst.stored _ ?_
      rcases hkw with rfl | rfl
      · simp only [phasevelKwargs, List.mem_cons, List.not_mem_nil, or_false] at h
        rcases h with rfl | rfl | rfl | rfl | rfl | rfl | rfl | rfl <;> simp [AttrVal.bytes]
      · simp only [wlKwargs, List.mem_cons, List.not_mem_nil, or_false] at h
        rcases h with rfl | rfl | rfl | rfl | rfl | rfl <;> simp [AttrVal.bytes]
  obtain ⟨D', f, h1, h2, -, -, -, -, -, -, -, -, -, h3, h6, -⟩ :=
    C65_saved st openable D m (paramAttrs par) kw (paramAttrs_nodup par) hnd outdir name ho hs
  obtain ⟨f', h4, h5⟩ := (C66_preserved_partial st openable D m (paramAttrs par) kw outdir name).2.2.2 ho
  rw [h1] at h4
  obtain rfl : f = f' := Option.some.inj (h2.symm.trans h4)
  have hL : f.attrs "L" = some (.num L) := h3 _ _ (by rcases hkw with rfl | rfl <;> simp [phasevelKwargs, wlKwargs])
  have hB : f.attrs "B" = some (.num B) := h3 _ _ (by rcases hkw with rfl | rfl <;> simp [phasevelKwargs, wlKwargs])
  have hJ : f.attrs "J_min" = some (.num J) := h3 _ _ (by rcases hkw with rfl | rfl <;> simp [phasevelKwargs, wlKwargs])
  have hS : f.attrs "setting" = some (.text setting) := h3 _ _ (by rcases hkw with rfl | rfl <;> simp [phasevelKwargs, wlKwargs])
  have hN : f.attrs "nparams" = some (.num np) := h3 _ _ (by rcases hkw with rfl | rfl <;> simp [phasevelKwargs, wlKwargs])
  have hT : f.attrs "time" = some (.text time) := h3 _ _ (by rcases hkw with rfl | rfl <;> simp [phasevelKwargs, wlKwargs])
  refine ⟨D', f, h1, h2, h5, ?_, ?_, hN, hT, ?_⟩
  · simp only [plotHeader, attrGet, hL, hB, hJ, hS, bind, Except.bind]
  · refine ⟨?_, ?_, ?_, ?_, ?_, ?_, ?_, ?_, ?_, ?_⟩ <;>
      exact h6 _ _ (by simp [paramAttrs]) (by rcases hkw with rfl | rfl <;> simp [phasevelKwargs, wlKwargs])
  · rintro rfl
    exact ⟨h3 _ _ (by simp [phasevelKwargs]), h3 _ _ (by simp [phasevelKwargs])⟩

/-- C117, `earthtopography`, the part that holds: without `--makenoise`, or for band limits up to 64. -/
theorem C117_topography_partial (st : AttrVal → Bool) (hst : H5Limit st) (openable : String → Bool) (D : Disk AttrVal) (m : McmcObj)
    (par : Params) (htrack : 16 * par.track.length ≤ 65024) (outdir name : String) (ho : openable (savePath outdir name) = true)
    (L J np : ℕ) (B sigma : ℝ) (setting time : String) (scale : ℤ) (mk : Bool) (noise : List ℝ) (hlen : noise.length = mwLength L)
    (hL : mk = false ∨ L ≤ 64) (answer : String) :
    ∃ D' f, saveMcmc st openable D m (paramAttrs par) outdir name
        (topoKwargs L J np B (topoNoiseAttr mk noise) setting sigma scale time) = (D', none) ∧ D' (savePath outdir name) = some f ∧
      f.ds = m.expected ∧ f.attrs "noise" = some (if mk then .arr noise else .num 0) ∧
      topoPlotHeader f answer = .ok ⟨.num L, .num B, .num J, .text setting, false⟩ ∧ StoresParams f.attrs par ∧
      f.attrs "nparams" = some (.num np) ∧ f.attrs "sigma" = some (.num sigma) ∧ f.attrs "scaleafrica" = some (.num scale) ∧
      f.attrs "time" = some (.text time) := by
  have hnb : (topoNoiseAttr mk noise).bytes ≤ 65024 := by
    unfold topoNoiseAttr
    cases mk with
    | false => simp [AttrVal.bytes]
    | true =>
      have h64 : L ≤ 64 := by simpa using hL
      simp only [if_true, AttrVal.bytes, hlen, mwLength]
      have : L * (2 * L - 1) ≤ 64 * 127 := Nat.mul_le_mul h64 (by omega)
      omega
  have hnd : ((topoKwargs L J np B (topoNoiseAttr mk noise) setting sigma scale time).map Prod.fst).Nodup := by simp [topoKwargs]
  have hs : ∀ p ∈ paramAttrs par ++ topoKwargs L J np B (topoNoiseAttr mk noise) setting sigma scale time, st p.2 = true := by
    intro p hp
    rcases List.mem_append.mp hp with h | h
    · exact paramAttrs_small par st hst htrack p h
    · refine hst.stored _ ?_
      simp only [topoKwargs, List.mem_cons, List.not_mem_nil, or_false] at h
      rcases h with rfl | rfl | rfl | rfl | rfl | rfl | rfl | rfl | rfl
      all_goals first | exact hnb | simp [AttrVal.bytes]
  obtain ⟨D', f, h1, h2, -, -, -, -, -, -, -, -, -, h3, h6, -⟩ := C65_saved st openable D m (paramAttrs par) _ (paramAttrs_nodup par) hnd
    outdir name ho hs
  obtain ⟨f', h4, h5⟩ := (C66_preserved_partial st openable D m (paramAttrs par)
    (topoKwargs L J np B (topoNoiseAttr mk noise) setting sigma scale time) outdir name).2.2.2 ho
  rw [h1] at h4
  obtain rfl : f = f' := Option.some.inj (h2.symm.trans h4)
  have hL : f.attrs "L" = some (.num L) := h3 _ _ (by simp [topoKwargs])
  have hB : f.attrs "B" = some (.num B) := h3 _ _ (by simp [topoKwargs])
  have hJ : f.attrs "J_min" = some (.num J) := h3 _ _ (by simp [topoKwargs])
  have hS : f.attrs "setting" = some (.text setting) := h3 _ _ (by simp [topoKwargs])
  refine ⟨D', f, h1, h2, h5, h3 _ _ (by simp [topoKwargs, topoNoiseAttr]), ?_, ?_, h3 _ _ (by simp [topoKwargs]), h3 _ _ (by simp [topoKwargs]),
    h3 _ _ (by simp [topoKwargs]), h3 _ _ (by simp [topoKwargs])⟩
  · simp only [topoPlotHeader, attrGet, hL, hB, hJ, hS, bind, Except.bind]
  · refine ⟨?_, ?_, ?_, ?_, ?_, ?_, ?_, ?_, ?_, ?_⟩ <;>
      exact h6 _ _ (by simp [paramAttrs]) (by simp [topoKwargs])

/-- C117 refuted for `earthtopography`: with `--makenoise` and any band limit of 65 or more, whatever the run, `save_mcmc` raises when it
comes to the attribute `noise`.  The datasets are in the file, but not the noise, the setting, sigma, the scale factor and the run time, so
the plot script asks for the setting and takes whatever the user types. -/
theorem C117_topography_refuted (st : AttrVal → Bool) (hst : H5Limit st) (openable : String → Bool) (D : Disk AttrVal) (m : McmcObj)
    (par : Params) (htrack : 16 * par.track.length ≤ 65024) (outdir name : String) (ho : openable (savePath outdir name) = true)
    (L J np : ℕ) (B sigma : ℝ) (setting time : String) (scale : ℤ) (noise : List ℝ) (hlen : noise.length = mwLength L)
    (hL : 65 ≤ L) (answer : String) :
    ∃ D' f e, saveMcmc st openable D m (paramAttrs par) outdir name
        (topoKwargs L J np B (topoNoiseAttr true noise) setting sigma scale time) = (D', some e) ∧ D' (savePath outdir name) = some f ∧
      f.ds = m.expected ∧ (∀ s ∈ ["noise", "setting", "sigma", "scaleafrica", "time"], f.attrs s = none) ∧
      topoPlotHeader f answer = .ok ⟨.num L, .num B, .num J, .text answer, true⟩ := by
  have hnb : st (topoNoiseAttr true noise) = false := by
    refine hst.refused _ ?_
    simp only [topoNoiseAttr, if_true, AttrVal.bytes, hlen, mwLength]
    have : 65 * 129 ≤ L * (2 * L - 1) := Nat.mul_le_mul hL (by omega)
    omega
  set pre : List (String × AttrVal) := [("L", .num L), ("B", .num B), ("J_min", .num J), ("nparams", .num np)] with hpre
  set post : List (String × AttrVal) := [("setting", .text setting), ("sigma", .num sigma), ("scaleafrica", .num scale), ("time", .text time)]
    with hpost
  have hpre' : ∀ p ∈ paramAttrs par ++ pre, st p.2 = true := by
    intro p hp
    rcases List.mem_append.mp hp with h | h
    · exact paramAttrs_small par st hst htrack p h
    · refine hst.stored _ ?_
      simp only [hpre, List.mem_cons, List.not_mem_nil, or_false] at h
      rcases h with rfl | rfl | rfl | rfl <;> simp [AttrVal.bytes]
  have hrun : runOps st (saveOps m (paramAttrs par) (topoKwargs L J np B (topoNoiseAttr true noise) setting sigma scale time))
      H5File.empty = (⟨m.expected, fun s => (lastValue (paramAttrs par ++ pre) s).or none⟩, some .TypeError) := by
    have e : saveOps m (paramAttrs par) (topoKwargs L J np B (topoNoiseAttr true noise) setting sigma scale time) =
        dataOps m ++ (((paramAttrs par ++ pre) ++ ("noise", topoNoiseAttr true noise) :: post).map fun p => FileOp.attr p.1 p.2) := by
      unfold saveOps dataOps topoKwargs
      simp only [List.append_assoc, List.map_append, hpre, hpost]
      rfl
    rw [e, runOps_append st _ _ _ _ (runOps_dataOps st m), runOps_attrs_fail st _ _ _ hpre' hnb]
  have hnd : ((paramAttrs par ++ pre).map Prod.fst).Nodup := by simp [paramAttrs, hpre]
  have hget : ∀ s v, (s, v) ∈ pre → lastValue (paramAttrs par ++ pre) s = some v := fun s v h =>
    lastValue_some _ hnd s v (List.mem_append_right _ h)
  have hno : ∀ s ∈ ["noise", "setting", "sigma", "scaleafrica", "time"], lastValue (paramAttrs par ++ pre) s = none := by
    intro s hs
    rw [lastValue_none]
    simp only [List.mem_cons, List.not_mem_nil, or_false] at hs
    rcases hs with rfl | rfl | rfl | rfl | rfl <;> simp [paramAttrs, hpre]
  refine ⟨fun s => if s = savePath outdir name then some (runOps st (saveOps m (paramAttrs par)
      (topoKwargs L J np B (topoNoiseAttr true noise) setting sigma scale time)) H5File.empty).1 else D s,
    ⟨m.expected, fun s => (lastValue (paramAttrs par ++ pre) s).or none⟩, .TypeError, ?_, ?_, rfl, fun s hs => ?_, ?_⟩
  · unfold saveMcmc
    simp only [if_pos ho]
    rw [hrun]
  · simp only [if_true, hrun]
  · simp only [hno s hs, Option.or_none]
  · simp only [topoPlotHeader, attrGet, hget "L" (.num L) (by simp [hpre]), hget "B" (.num B) (by simp [hpre]),
      hget "J_min" (.num J) (by simp [hpre]), hno "setting" (by simp), bind, Except.bind, Option.or_none]

/-- The hypotheses of C117 are met, by both branches: the parameters of earthtopography/main.py:123-133, band limits 32 and 128. -/
example : ∃ (st : AttrVal → Bool) (par : Params) (noise32 noise128 : List ℝ), H5Limit st ∧ 16 * par.track.length ≤ 65024 ∧
    noise32.length = mwLength 32 ∧ noise128.length = mwLength 128 :=
  ⟨fun v => decide (v.bytes ≤ 65400), ⟨1 / 1000000, 1 / 1000000, 1, 10, 100, 0, 500, false, 5000, ["logposterior", "L2", "prior", "chain"]⟩,
    List.replicate (mwLength 32) 1, List.replicate (mwLength 128) 1,
    ⟨fun v h => by simp only [decide_eq_false_iff_not]; omega, fun v h => by simp only [decide_eq_true_eq]; omega⟩, by simp, by simp, by simp⟩

end Pxmcmc
