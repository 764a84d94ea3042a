import Verif.Lemmas.Averages
import Verif.Lemmas.Avoid
import Mathlib.MeasureTheory.Measure.Prokhorov
import Mathlib.MeasureTheory.Measure.TightNormed
import Mathlib.MeasureTheory.Measure.Portmanteau
import Mathlib.MeasureTheory.Function.ConvergenceInMeasure

/-! # Iterated random maps that never expand and contract on a set visited infinitely often

Weaker than `Verif.Lemmas.Ergodic`: the maps `x ↦ f x w` only contract where one of the two points lies in a set `C`, but a drift
condition makes the chain return to `C` for ever.  The chain then has exactly one stationary law, its law converges to it from every
start, and averages along the chain converge in probability. -/

namespace Pxmcmc
open MeasureTheory ProbabilityTheory Filter
open scoped ENNReal NNReal Topology

/-- The assumptions. -/
structure Coupled {E W : Type} [NormedAddCommGroup E] [MeasurableSpace E] [MeasurableSpace W] (ν : Measure W) (f : E → W → E)
    (C : Set E) (V : E → ℝ≥0∞) (K : ℝ≥0) : Prop where
  meas : Measurable (Function.uncurry f)
  measC : MeasurableSet C
  measV : Measurable V
  nonexp : ∀ x y w, dist (f x w) (f y w) ≤ dist x y
  contract : ∀ D : ℝ, ∃ ρ : ℝ, 0 ≤ ρ ∧ ρ < 1 ∧ ∀ x ∈ C, ∀ y w, dist x y ≤ D → dist (f x w) (f y w) ≤ ρ * dist x y
  finite : ∀ x, V x ≠ ⊤
  drift : ∀ x, ∫⁻ w, V (f x w) ∂ν + ‖x‖ₑ ≤ V x + K
  reach : ∀ r : ℝ≥0, ∃ ε : ℝ≥0∞, ε ≠ 0 ∧ ∀ x, ‖x‖ₑ ≤ r → ε ≤ ν {w | f x w ∈ C}

section Hit
variable {E W : Type} [MeasurableSpace E] [MeasurableSpace W] {ν : Measure W} [IsProbabilityMeasure ν] {f : E → W → E}

open Classical in
/-- The probability of staying outside `B` for `m` steps. -/
noncomputable def outside (ν : Measure W) (f : E → W → E) (B : Set E) : ℕ → E → ℝ≥0∞
  | 0, _ => 1
  | m + 1, s => if s ∈ B then 0 else ∫⁻ w, outside ν f B m (f s w) ∂ν

theorem outside_measurable (hf : Measurable (Function.uncurry f)) {B : Set E} (hB : MeasurableSet B) (m : ℕ) :
    Measurable (outside ν f B m) := by
  classical
  induction m with
  | zero => exact measurable_const
  | succ m ih =>
    refine Measurable.ite hB measurable_const ?_
    exact Measurable.lintegral_prod_right' (f := fun q : E × W => outside ν f B m (f q.1 q.2)) (ih.comp hf)

omit [MeasurableSpace E] in
theorem outside_le_one (B : Set E) (m : ℕ) (s : E) : outside ν f B m s ≤ 1 := by
  induction m generalizing s with
  | zero => exact le_rfl
  | succ m ih =>
    unfold outside
    split
    · exact zero_le
    · exact (lintegral_mono fun w => ih _).trans (by simp)

omit [MeasurableSpace E] in
theorem outside_anti (B : Set E) (m : ℕ) (s : E) : outside ν f B (m + 1) s ≤ outside ν f B m s := by
  induction m generalizing s with
  | zero => exact outside_le_one B 1 s
  | succ m ih =>
    rw [outside]
    conv_rhs => rw [outside]
    split
    · exact le_rfl
    · exact lintegral_mono fun w => ih _

/-- With a drift towards `B` the time outside `B` has a finite mean. -/
theorem outside_sum (hf : Measurable (Function.uncurry f)) {B : Set E} (hB : MeasurableSet B) {V : E → ℝ≥0∞}
    (hdrift : ∀ s, s ∉ B → 1 + ∫⁻ w, V (f s w) ∂ν ≤ V s) (M : ℕ) (s : E) :
    ∑ m ∈ Finset.range M, outside ν f B (m + 1) s ≤ V s := by
  induction M generalizing s with
  | zero => simp
  | succ M ih =>
    by_cases hs : s ∈ B
    · have : ∀ m, outside ν f B (m + 1) s = 0 := fun m => by rw [outside, if_pos hs]
      simp [this]
    · have e : ∀ m, outside ν f B (m + 1) s = ∫⁻ w, outside ν f B m (f s w) ∂ν := fun m => by rw [outside, if_neg hs]
      have hfs : Measurable (f s) := hf.comp (measurable_const.prodMk measurable_id)
      simp only [e]
      rw [← lintegral_finsetSum (f := fun m w => outside ν f B m (f s w)) _ fun m _ => (outside_measurable hf hB m).comp hfs]
      refine le_trans ?_ (hdrift s hs)
      have h1 : (1 : ℝ≥0∞) + ∫⁻ w, V (f s w) ∂ν = ∫⁻ w, (1 + V (f s w)) ∂ν := by
        rw [lintegral_add_left measurable_const]
        simp
      rw [h1]
      refine lintegral_mono fun w => ?_
      dsimp only
      rw [Finset.sum_range_succ', add_comm]
      exact add_le_add le_rfl (ih _)

theorem outside_mul (hf : Measurable (Function.uncurry f)) {B : Set E} (hB : MeasurableSet B) {V : E → ℝ≥0∞}
    (hdrift : ∀ s, s ∉ B → 1 + ∫⁻ w, V (f s w) ∂ν ≤ V s) (M : ℕ) (s : E) : M * outside ν f B M s ≤ V s := by
  refine le_trans ?_ (outside_sum hf hB hdrift M s)
  have hanti : Antitone fun m => outside ν f B m s := antitone_nat_of_succ_le fun m => outside_anti B m s
  calc (M : ℝ≥0∞) * outside ν f B M s = ∑ _m ∈ Finset.range M, outside ν f B M s := by simp
    _ ≤ _ := Finset.sum_le_sum fun m hm => hanti (by have := Finset.mem_range.mp hm; omega)

theorem outside_inf (hf : Measurable (Function.uncurry f)) {B : Set E} (hB : MeasurableSet B) {V : E → ℝ≥0∞}
    (hdrift : ∀ s, s ∉ B → 1 + ∫⁻ w, V (f s w) ∂ν ≤ V s) (s : E) (hV : V s ≠ ⊤) : ⨅ m, outside ν f B m s = 0 := by
  by_contra hne
  set c := ⨅ m, outside ν f B m s with hc
  have h1 : ∀ M : ℕ, M * c ≤ V s := fun M => (mul_le_mul' le_rfl (iInf_le _ M)).trans (outside_mul hf hB hdrift M s)
  have hct : c ≠ ⊤ := ne_top_of_le_ne_top ENNReal.one_ne_top ((iInf_le _ 0).trans (outside_le_one B 0 s))
  obtain ⟨M, hM⟩ := ENNReal.exists_nat_gt (ENNReal.div_ne_top hV hne)
  rw [ENNReal.div_lt_iff (.inl hne) (.inl hct)] at hM
  exact absurd (h1 M) (not_le.mpr hM)

end Hit

section Recurrence
variable {E W Ω : Type} [NormedAddCommGroup E] [MeasurableSpace E] [BorelSpace E] [MeasurableSpace W] [MeasurableSpace Ω] {ν : Measure W}
  [IsProbabilityMeasure ν] {f : E → W → E} {C : Set E} {V : E → ℝ≥0∞} {K : ℝ≥0}

omit [BorelSpace E] [IsProbabilityMeasure ν] in
theorem Coupled.drift_outside (h : Coupled ν f C V K) (s : E) (hs : s ∉ {x : E | ‖x‖ₑ ≤ ((K + 1 : ℝ≥0) : ℝ≥0∞)}) :
    1 + ∫⁻ w, V (f s w) ∂ν ≤ V s := by
  have h1 := h.drift s
  have h2 : ((K + 1 : ℝ≥0) : ℝ≥0∞) ≤ ‖s‖ₑ := (not_le.mp hs).le
  have h3 : (1 + ∫⁻ w, V (f s w) ∂ν) + K ≤ V s + K := by
    refine le_trans ?_ h1
    push_cast at h2
    calc (1 + ∫⁻ w, V (f s w) ∂ν) + K = ∫⁻ w, V (f s w) ∂ν + (K + 1) := by ring
      _ ≤ _ := add_le_add le_rfl h2
  exact (ENNReal.add_le_add_iff_right ENNReal.coe_ne_top).mp h3

/-- The set `C` cannot be avoided. -/
theorem Coupled.unavoidable (h : Coupled ν f C V K) (k : ℕ) (s : E) :
    ⨅ m, avoid ν f (fun _ => C ×ˢ Set.univ) (fun _ => 1) m k s = 0 := by
  classical
  set D : ℕ → Set (E × W) := fun _ => C ×ˢ Set.univ with hD
  have hDm : ∀ k, MeasurableSet (D k) := fun _ => h.measC.prod MeasurableSet.univ
  have hf : Measurable fun q : E × W => f q.1 q.2 := h.meas
  have hsucc : ∀ k s, avoidInf ν f D (k + 1) s = avoidInf ν f D k s := by
    intro k s
    simp only [avoidInf]
    exact iInf_congr fun m => avoid_period 1 k (fun j => rfl) _ m s
  have hconst : ∀ k s, avoidInf ν f D k s = avoidInf ν f D 0 s := by
    intro k s
    induction k with
    | zero => rfl
    | succ k ih => rw [hsucc, ih]
  set a : E → ℝ≥0∞ := avoidInf ν f D 0 with ha
  have ha1 : ∀ s, a s ≤ 1 := fun s => avoidInf_le_one _ _
  have hstep : ∀ s, a s ≤ if s ∈ C then 0 else ∫⁻ w, a (f s w) ∂ν := by
    intro s
    have h1 := avoidInf_step (ν := ν) hf hDm 0 s
    have e : avoidInf ν f D (0 + 1) = a := funext fun s => hsucc 0 s
    rw [e] at h1
    refine h1.trans (le_of_eq ?_)
    unfold killStep
    by_cases hs : s ∈ C
    · simp [hD, hs]
    · simp [hD, hs]
  have hstep' : ∀ s, a s ≤ ∫⁻ w, a (f s w) ∂ν := fun s => (hstep s).trans (by split <;> simp)
  have haC : ∀ s ∈ C, a s = 0 := fun s hs => le_antisymm ((hstep s).trans (by rw [if_pos hs])) zero_le
  set B : Set E := {x : E | ‖x‖ₑ ≤ ((K + 1 : ℝ≥0) : ℝ≥0∞)} with hB
  have hBm : MeasurableSet B := measurableSet_le measurable_enorm measurable_const
  obtain ⟨ε, hε0, hε⟩ := h.reach (K + 1)
  set c := ⨆ s, a s with hc
  have hc1 : c ≤ 1 := iSup_le ha1
  have hle : ∀ s, a s ≤ c := fun s => le_iSup a s
  have hBle : ∀ s ∈ B, a s ≤ (1 - ε) * c := by
    intro s hs
    have hfs : Measurable (f s) := hf.comp (measurable_const.prodMk measurable_id)
    have hCs : MeasurableSet {w | f s w ∈ C} := hfs h.measC
    refine (hstep' s).trans ?_
    have h1 : ∫⁻ w, a (f s w) ∂ν ≤ ∫⁻ w, {w | f s w ∈ C}ᶜ.indicator (fun _ => c) w ∂ν := by
      refine lintegral_mono fun w => ?_
      by_cases hw : f s w ∈ C
      · rw [haC _ hw]
        exact zero_le
      · rw [Set.indicator_of_mem (show w ∈ {w | f s w ∈ C}ᶜ from hw)]
        exact hle _
    refine h1.trans ?_
    rw [lintegral_indicator_const hCs.compl, mul_comm, prob_compl_eq_one_sub hCs]
    exact mul_le_mul' (tsub_le_tsub_left (hε s hs) 1) le_rfl
  have hall : ∀ m s, a s ≤ (1 - ε) * c + outside ν f B m s := by
    intro m
    induction m with
    | zero => exact fun s => (ha1 s).trans le_add_self
    | succ m ih =>
      intro s
      by_cases hs : s ∈ B
      · exact (hBle s hs).trans le_self_add
      · rw [outside, if_neg hs]
        refine (hstep' s).trans ((lintegral_mono fun w => ih (f s w)).trans (le_of_eq ?_))
        rw [lintegral_add_left measurable_const]
        simp
  have hfin : ∀ s, a s ≤ (1 - ε) * c := by
    intro s
    have h1 := outside_inf h.meas hBm h.drift_outside s (h.finite s)
    calc a s ≤ ⨅ m, ((1 - ε) * c + outside ν f B m s) := le_iInf fun m => hall m s
      _ = (1 - ε) * c + ⨅ m, outside ν f B m s := ENNReal.add_iInf.symm
      _ = _ := by rw [h1, add_zero]
  have hcc : c ≤ (1 - ε) * c := iSup_le hfin
  have hc0 : c = 0 := by
    by_contra hne
    have hct : c ≠ ⊤ := ne_top_of_le_ne_top ENNReal.one_ne_top hc1
    have hlt : 1 - ε < 1 := ENNReal.sub_lt_self (by simp) (by simp) hε0
    have h2 := (ENNReal.mul_lt_mul_iff_left hne hct).mpr hlt
    rw [one_mul] at h2
    exact absurd hcc (not_le.mpr h2)
  show avoidInf ν f D k s = 0
  rw [hconst]
  exact le_antisymm ((hle s).trans hc0.le) zero_le

variable {P : Measure Ω} [IsProbabilityMeasure P] {S0 : Ω → E} {v : ℕ → Ω → W}

/-- The chain visits `C` infinitely often. -/
theorem Coupled.recurrent (h : Coupled ν f C V K) (hs : SeqIndep P S0 v ν) :
    ∀ᵐ ω ∂P, ∀ N, ∃ k, N ≤ k ∧ fwState f (S0 ω) (fun i => v i ω) k ∈ C := by
  rw [ae_all_iff]
  intro N
  have h1 := hs.unavoidable (B := fun _ => C ×ˢ Set.univ) (f := f) h.meas (fun _ => h.measC.prod MeasurableSet.univ) N
    (fun s => h.unavoidable N s)
  filter_upwards [h1] with ω hω
  obtain ⟨i, hi⟩ := hω
  exact ⟨N + i, by omega, hi.1⟩

/-- Two chains driven by the same random numbers meet in the limit, whatever the second start. -/
theorem Coupled.forget (h : Coupled ν f C V K) (hs : SeqIndep P S0 v ν) :
    ∀ᵐ ω ∂P, ∀ y, Tendsto (fun k => dist (fwState f (S0 ω) (fun i => v i ω) k) (fwState f y (fun i => v i ω) k)) atTop (𝓝 0) := by
  filter_upwards [h.recurrent hs] with ω hω y
  set d : ℕ → ℝ := fun k => dist (fwState f (S0 ω) (fun i => v i ω) k) (fwState f y (fun i => v i ω) k) with hd
  have hanti : Antitone d := antitone_nat_of_succ_le fun k => h.nonexp _ _ _
  have hbdd : BddBelow (Set.range d) := ⟨0, by rintro _ ⟨k, rfl⟩; exact dist_nonneg⟩
  have hlim := tendsto_atTop_ciInf hanti hbdd
  set l := ⨅ k, d k with hl
  have hl0 : 0 ≤ l := le_ciInf fun k => dist_nonneg
  obtain ⟨ρ, hρ0, hρ1, hρ⟩ := h.contract (d 0)
  have hfreq : ∃ᶠ k in atTop, l ≤ ρ * d k := by
    rw [frequently_atTop]
    intro N
    obtain ⟨k, hk, hC⟩ := hω N
    refine ⟨k, hk, (ciInf_le hbdd (k + 1)).trans ?_⟩
    exact hρ _ hC _ _ (hanti (Nat.zero_le k))
  have h2 : l ≤ ρ * l := ge_of_tendsto_of_frequently (hlim.const_mul ρ) hfreq
  have : l = 0 := by nlinarith
  rw [← this]
  exact hlim

end Recurrence

section Laws
variable {E W Ω : Type} [MeasurableSpace E] [MeasurableSpace W] [MeasurableSpace Ω] {ν : Measure W} [IsProbabilityMeasure ν] {f : E → W → E}
  {P : Measure Ω} [IsProbabilityMeasure P] {S0 : Ω → E} {v : ℕ → Ω → W}

omit [IsProbabilityMeasure ν] [IsProbabilityMeasure P] in
theorem SeqIndep.state_meas (hs : SeqIndep P S0 v ν) (hf : Measurable (Function.uncurry f)) (k : ℕ) :
    Measurable fun ω => fwState f (S0 ω) (fun i => v i ω) k := by
  obtain ⟨G, hG, hGe⟩ := state_prefix (f := f) hf k
  simp only [hGe]
  exact hG.comp (hs.pre_meas k)

omit [IsProbabilityMeasure ν] in
/-- The law of the state after `k` steps. -/
theorem SeqIndep.law_state (hs : SeqIndep P S0 v ν) (hf : Measurable (Function.uncurry f)) (k : ℕ) :
    P.map (fun ω => fwState f (S0 ω) (fun i => v i ω) k) = (stepLaw f ν)^[k] (P.map S0) := by
  induction k with
  | zero => rfl
  | succ k ih =>
    rw [Function.iterate_succ_apply', ← ih, stepLaw]
    have hm := hs.state_meas hf k
    obtain ⟨G, hG, hGe⟩ := state_prefix (f := f) hf k
    have hind : IndepFun (fun ω => fwState f (S0 ω) (fun i => v i ω) k) (v k) P := by
      have e : (fun ω => fwState f (S0 ω) (fun i => v i ω) k) = G ∘ fun ω => (S0 ω, fun i : Fin k => v i ω) :=
        funext fun ω => hGe _ _
      rw [e]
      exact (hs.indep k).comp hG measurable_id
    have hj := (indepFun_iff_map_prod_eq_prod_map_map hm.aemeasurable (hs.meas k).aemeasurable).mp hind
    rw [hs.law] at hj
    rw [← hj, Measure.map_map hf (hm.prodMk (hs.meas k))]
    rfl

omit [IsProbabilityMeasure ν] [IsProbabilityMeasure P] in
/-- A fixed start and independent random numbers. -/
theorem Driven.seqIndep (hV : Driven P v ν) (s0 : E) : SeqIndep P (fun _ => s0) v ν := by
  refine ⟨measurable_const, hV.meas, hV.law, fun k => ?_⟩
  have h := hV.indep.indepFun_finset (Finset.range k) {k} (by simp) hV.meas
  refine h.comp (φ := fun u : Finset.range k → W => (s0, fun i : Fin k => u ⟨i, Finset.mem_range.mpr i.2⟩))
    (ψ := fun u : ({k} : Finset ℕ) → W => u ⟨k, Finset.mem_singleton_self k⟩) ?_ (by fun_prop)
  exact measurable_const.prodMk (measurable_pi_lambda _ fun i => measurable_pi_apply _)

omit [IsProbabilityMeasure ν] in
/-- A random start, independent of the random numbers. -/
theorem Driven.seqIndep_prod (hV : Driven P v ν) (μ : Measure E) [IsProbabilityMeasure μ] :
    SeqIndep (μ.prod P) Prod.fst (fun k (q : E × Ω) => v k q.2) ν := by
  have hsnd : MeasurePreserving (Prod.snd : E × Ω → Ω) (μ.prod P) P := measurePreserving_snd
  refine ⟨measurable_fst, fun k => (hV.meas k).comp measurable_snd, fun k => ?_, fun k => ?_⟩
  · have e : (fun q : E × Ω => v k q.2) = v k ∘ Prod.snd := rfl
    rw [e, ← Measure.map_map (hV.meas k) measurable_snd, hsnd.map_eq, hV.law]
  · have hpre : Measurable fun ω => (fun i : Fin k => v i ω) := measurable_pi_lambda _ fun i => hV.meas i
    have h1 : IndepFun (fun ω => (fun i : Fin k => v i ω)) (v k) P := by
      have := ((hV.seqIndep (0 : ℕ)).indep k).comp (φ := Prod.snd) (ψ := id) measurable_snd measurable_id
      exact this
    rw [indepFun_iff_map_prod_eq_prod_map_map hpre.aemeasurable (hV.meas k).aemeasurable] at h1
    have hm1 : Measurable fun q : E × Ω => (q.1, fun i : Fin k => v i q.2) := measurable_fst.prodMk (hpre.comp measurable_snd)
    have hm2 : Measurable fun q : E × Ω => v k q.2 := (hV.meas k).comp measurable_snd
    rw [indepFun_iff_map_prod_eq_prod_map_map hm1.aemeasurable hm2.aemeasurable]
    have e2 : (μ.prod P).map (fun q : E × Ω => v k q.2) = P.map (v k) := by
      have e : (fun q : E × Ω => v k q.2) = v k ∘ Prod.snd := rfl
      rw [e, ← Measure.map_map (hV.meas k) measurable_snd, hsnd.map_eq]
    have e1 : (μ.prod P).map (fun q : E × Ω => (q.1, fun i : Fin k => v i q.2)) = μ.prod (P.map fun ω => (fun i : Fin k => v i ω)) := by
      have := Measure.map_prod_map μ P measurable_id hpre
      rw [Measure.map_id] at this
      rw [this]
      rfl
    have hp1 : IsProbabilityMeasure (P.map fun ω => (fun i : Fin k => v i ω)) := Measure.isProbabilityMeasure_map hpre.aemeasurable
    have hp2 : IsProbabilityMeasure (P.map (v k)) := Measure.isProbabilityMeasure_map (hV.meas k).aemeasurable
    have hpair : Measurable fun ω => ((fun i : Fin k => v i ω), v k ω) := hpre.prodMk (hV.meas k)
    have e3 : (fun q : E × Ω => ((q.1, fun i : Fin k => v i q.2), v k q.2)) =
        MeasurableEquiv.prodAssoc.symm ∘ Prod.map id (fun ω => ((fun i : Fin k => v i ω), v k ω)) := rfl
    have h4 := Measure.map_prod_map μ P measurable_id hpair
    rw [Measure.map_id] at h4
    have h5 := (measurePreserving_prodAssoc μ (P.map fun ω => (fun i : Fin k => v i ω)) (P.map (v k))).symm
    rw [e1, e2, e3, ← Measure.map_map MeasurableEquiv.prodAssoc.symm.measurable (measurable_id.prodMap hpair), ← h4, h1]
    exact h5.map_eq

theorem stepLaw_integral (hf : Measurable (Function.uncurry f)) (μ : Measure E) [IsProbabilityMeasure μ] {V : E → ℝ≥0∞}
    (hV : Measurable V) : ∫⁻ x, V x ∂(stepLaw f ν μ) = ∫⁻ x, ∫⁻ w, V (f x w) ∂ν ∂μ := by
  rw [stepLaw, lintegral_map hV hf]
  exact lintegral_prod _ (hV.comp hf).aemeasurable

end Laws

section Existence
variable {E W : Type} [NormedAddCommGroup E] [ProperSpace E] [MeasurableSpace E] [BorelSpace E] [MeasurableSpace W] {ν : Measure W}
  [IsProbabilityMeasure ν] {f : E → W → E} {C : Set E} {V : E → ℝ≥0∞} {K : ℝ≥0}

/-- The laws of the chain from zero. -/
noncomputable def lawAt (ν : Measure W) (f : E → W → E) (k : ℕ) : Measure E := (stepLaw f ν)^[k] (Measure.dirac 0)

omit [ProperSpace E] [BorelSpace E] in
theorem lawAt_prob (hf : Measurable (Function.uncurry f)) (k : ℕ) : IsProbabilityMeasure (lawAt ν f k) :=
  stepLaw_iter_prob ν f hf _ k

omit [ProperSpace E] [BorelSpace E] [IsProbabilityMeasure ν] in
theorem lawAt_succ (k : ℕ) : lawAt ν f (k + 1) = stepLaw f ν (lawAt ν f k) := Function.iterate_succ_apply' _ _ _

omit [ProperSpace E] in
theorem Coupled.moments (h : Coupled ν f C V K) (N : ℕ) :
    ∫⁻ x, V x ∂(lawAt ν f N) + ∑ k ∈ Finset.range N, ∫⁻ x, ‖x‖ₑ ∂(lawAt ν f k) ≤ V 0 + N * K := by
  induction N with
  | zero =>
    simp only [Finset.range_zero, Finset.sum_empty, add_zero, Nat.cast_zero, zero_mul]
    show ∫⁻ x, V x ∂(Measure.dirac 0) ≤ _
    rw [lintegral_dirac' _ h.measV]
  | succ N ih =>
    have := lawAt_prob (ν := ν) h.meas N
    have h1 : ∫⁻ x, V x ∂(lawAt ν f (N + 1)) + ∫⁻ x, ‖x‖ₑ ∂(lawAt ν f N) ≤ ∫⁻ x, V x ∂(lawAt ν f N) + K := by
      rw [lawAt_succ, stepLaw_integral h.meas _ h.measV, ← lintegral_add_right _ measurable_enorm]
      refine (lintegral_mono fun x => h.drift x).trans ?_
      rw [lintegral_add_right _ measurable_const]
      simp
    rw [Finset.sum_range_succ]
    calc ∫⁻ x, V x ∂(lawAt ν f (N + 1)) + (∑ k ∈ Finset.range N, ∫⁻ x, ‖x‖ₑ ∂(lawAt ν f k) + ∫⁻ x, ‖x‖ₑ ∂(lawAt ν f N))
        = (∫⁻ x, V x ∂(lawAt ν f (N + 1)) + ∫⁻ x, ‖x‖ₑ ∂(lawAt ν f N)) + ∑ k ∈ Finset.range N, ∫⁻ x, ‖x‖ₑ ∂(lawAt ν f k) := by ring
      _ ≤ (∫⁻ x, V x ∂(lawAt ν f N) + K) + ∑ k ∈ Finset.range N, ∫⁻ x, ‖x‖ₑ ∂(lawAt ν f k) := add_le_add h1 le_rfl
      _ = (∫⁻ x, V x ∂(lawAt ν f N) + ∑ k ∈ Finset.range N, ∫⁻ x, ‖x‖ₑ ∂(lawAt ν f k)) + K := by ring
      _ ≤ (V 0 + N * K) + K := add_le_add ih le_rfl
      _ = _ := by push_cast; ring

/-- The mean of the first `N+1` laws. -/
noncomputable def meanLaw (ν : Measure W) (f : E → W → E) (N : ℕ) : Measure E :=
  ((N + 1 : ℕ) : ℝ≥0∞)⁻¹ • ∑ k ∈ Finset.range (N + 1), lawAt ν f k

omit [ProperSpace E] [BorelSpace E] in
theorem meanLaw_prob (hf : Measurable (Function.uncurry f)) (N : ℕ) : IsProbabilityMeasure (meanLaw ν f N) := by
  constructor
  have : ∀ k, lawAt ν f k Set.univ = 1 := fun k => (lawAt_prob (ν := ν) hf k).measure_univ
  simp only [meanLaw, Measure.smul_apply, Measure.coe_finsetSum, Finset.sum_apply, this, smul_eq_mul, Finset.sum_const,
    Finset.card_range, nsmul_eq_mul, mul_one]
  exact ENNReal.inv_mul_cancel (by simp) (ENNReal.natCast_ne_top _)

omit [ProperSpace E] [BorelSpace E] [IsProbabilityMeasure ν] in
theorem meanLaw_lintegral (N : ℕ) (φ : E → ℝ≥0∞) :
    ∫⁻ x, φ x ∂(meanLaw ν f N) = ((N + 1 : ℕ) : ℝ≥0∞)⁻¹ * ∑ k ∈ Finset.range (N + 1), ∫⁻ x, φ x ∂(lawAt ν f k) := by
  rw [meanLaw, lintegral_smul_measure, lintegral_finsetSum_measure, smul_eq_mul]

omit [ProperSpace E] in
theorem Coupled.mean_moment (h : Coupled ν f C V K) (N : ℕ) : ∫⁻ x, ‖x‖ₑ ∂(meanLaw ν f N) ≤ V 0 + K := by
  rw [meanLaw_lintegral]
  have h1 := (le_add_self (a := ∑ k ∈ Finset.range (N + 1), ∫⁻ x, ‖x‖ₑ ∂(lawAt ν f k))
    (b := ∫⁻ x, V x ∂(lawAt ν f (N + 1)))).trans (h.moments (N + 1))
  rw [mul_comm, ← div_eq_mul_inv]
  refine ENNReal.div_le_of_le_mul (h1.trans ?_)
  rw [add_mul]
  refine add_le_add ?_ (le_of_eq (mul_comm _ _))
  refine le_mul_of_one_le_right zero_le ?_
  exact_mod_cast Nat.le_add_left 1 N

theorem Coupled.mean_tight (h : Coupled ν f C V K) : IsTightMeasureSet (Set.range (meanLaw ν f)) := by
  refine isTightMeasureSet_of_tendsto_measure_norm_gt ?_
  have hM : V 0 + K ≠ ⊤ := ENNReal.add_ne_top.mpr ⟨h.finite 0, ENNReal.coe_ne_top⟩
  have hb : ∀ r : ℝ, 0 < r → ⨆ μ ∈ Set.range (meanLaw ν f), μ {x | r < ‖x‖} ≤ (V 0 + K) / ENNReal.ofReal r := by
    intro r hr
    refine iSup₂_le ?_
    rintro _ ⟨N, rfl⟩
    have hr' : ENNReal.ofReal r ≠ 0 := (ENNReal.ofReal_pos.mpr hr).ne'
    rw [ENNReal.le_div_iff_mul_le (.inl hr') (.inl ENNReal.ofReal_ne_top), mul_comm]
    refine le_trans ?_ (h.mean_moment N)
    refine le_trans ?_ (mul_meas_ge_le_lintegral₀ measurable_enorm.aemeasurable (ENNReal.ofReal r))
    refine mul_le_mul' le_rfl (measure_mono fun x hx => ?_)
    have : r ≤ ‖x‖ := (show r < ‖x‖ from hx).le
    rw [Set.mem_ofPred_eq, ← ofReal_norm]
    exact ENNReal.ofReal_le_ofReal this
  have hlim : Tendsto (fun r : ℝ => (V 0 + K) / ENNReal.ofReal r) atTop (𝓝 0) := by
    have := ENNReal.Tendsto.const_div (a := V 0 + K) ENNReal.tendsto_ofReal_atTop (.inr hM)
    simpa using this
  refine tendsto_of_tendsto_of_tendsto_of_le_of_le' tendsto_const_nhds hlim (Eventually.of_forall fun _ => zero_le) ?_
  filter_upwards [eventually_gt_atTop 0] with r hr
  exact hb r hr

omit [ProperSpace E] [BorelSpace E] [IsProbabilityMeasure ν] in
theorem Coupled.cont (h : Coupled ν f C V K) (w : W) : Continuous fun x => f x w :=
  (LipschitzWith.of_dist_le_mul (K := 1) fun x y => by simpa using h.nonexp x y w).continuous

/-- The expectation of `g` after one step. -/
noncomputable def Coupled.push (h : Coupled ν f C V K) (g : BoundedContinuousFunction E ℝ) : BoundedContinuousFunction E ℝ :=
  BoundedContinuousFunction.ofNormedAddCommGroup (fun x => ∫ w, g (f x w) ∂ν)
    (continuous_of_dominated (bound := fun _ => ‖g‖)
      (fun x => (g.continuous.measurable.comp (h.meas.comp (measurable_const.prodMk measurable_id))).aestronglyMeasurable)
      (fun _ => Eventually.of_forall fun _ => g.norm_coe_le_norm _) (integrable_const _)
      (Eventually.of_forall fun w => g.continuous.comp (h.cont w)))
    ‖g‖ (fun x => (norm_integral_le_of_norm_le (integrable_const ‖g‖) (Eventually.of_forall fun _ => g.norm_coe_le_norm _)).trans
      (by simp))

omit [ProperSpace E] in
theorem Coupled.push_integral (h : Coupled ν f C V K) (g : BoundedContinuousFunction E ℝ) (μ : Measure E) [IsProbabilityMeasure μ] :
    ∫ x, h.push g x ∂μ = ∫ x, g x ∂(stepLaw f ν μ) := by
  rw [stepLaw, integral_map h.meas.aemeasurable g.continuous.aestronglyMeasurable]
  refine (integral_prod (μ := μ) (ν := ν) (fun q : E × W => g (Function.uncurry f q)) ?_).symm
  exact (integrable_const ‖g‖).mono' (g.continuous.measurable.comp h.meas).aestronglyMeasurable
    (Eventually.of_forall fun _ => g.norm_coe_le_norm _)

omit [ProperSpace E] in
theorem meanLaw_integral (hf : Measurable (Function.uncurry f)) (N : ℕ) (g : BoundedContinuousFunction E ℝ) :
    ∫ x, g x ∂(meanLaw ν f N) = ((N : ℝ) + 1)⁻¹ * ∑ k ∈ Finset.range (N + 1), ∫ x, g x ∂(lawAt ν f k) := by
  have := fun k => lawAt_prob (ν := ν) hf k
  rw [meanLaw, integral_smul_measure, integral_finsetSum_measure fun k _ => g.integrable _, smul_eq_mul, ENNReal.toReal_inv,
    ENNReal.toReal_natCast]
  push_cast
  rfl

/-- There is a stationary law, with finite mean norm. -/
theorem Coupled.stationary (h : Coupled ν f C V K) :
    ∃ π : Measure E, IsProbabilityMeasure π ∧ ∫⁻ x, ‖x‖ₑ ∂π ≠ ⊤ ∧ stepLaw f ν π = π := by
  have hprob := fun N => meanLaw_prob (ν := ν) h.meas N
  have hlaw := fun N => lawAt_prob (ν := ν) h.meas N
  let m : ℕ → ProbabilityMeasure E := fun N => ⟨meanLaw ν f N, hprob N⟩
  have hcomp : IsCompact (closure (Set.range m)) := by
    refine isCompact_closure_of_isTightMeasureSet ?_
    convert h.mean_tight using 1
    ext μ
    constructor
    · rintro ⟨_, ⟨N, rfl⟩, rfl⟩
      exact ⟨N, rfl⟩
    · rintro ⟨N, rfl⟩
      exact ⟨m N, ⟨N, rfl⟩, rfl⟩
  let U : Ultrafilter ℕ := Ultrafilter.of atTop
  have hU : (U : Filter ℕ) ≤ atTop := Ultrafilter.of_le atTop
  obtain ⟨π, -, hπ⟩ := hcomp.ultrafilter_le_nhds (U.map m) (le_principal_iff.mpr
    (Filter.mem_map.mpr (Filter.univ_mem' fun N => subset_closure ⟨N, rfl⟩)))
  have hlim : ∀ g : BoundedContinuousFunction E ℝ, Tendsto (fun N => ∫ x, g x ∂(meanLaw ν f N)) U (𝓝 (∫ x, g x ∂(π : Measure E))) :=
    ProbabilityMeasure.tendsto_iff_forall_integral_tendsto.mp (show Tendsto m U (𝓝 π) from hπ)
  refine ⟨π, inferInstance, ?_, ?_⟩
  · have hfin : V 0 + K ≠ ⊤ := ENNReal.add_ne_top.mpr ⟨h.finite 0, ENNReal.coe_ne_top⟩
    have hcut : ∀ M : ℕ, ∫⁻ x, ENNReal.ofReal (min ‖x‖ M) ∂(π : Measure E) ≤ V 0 + K := by
      intro M
      let g : BoundedContinuousFunction E ℝ := BoundedContinuousFunction.ofNormedAddCommGroup (fun x => min ‖x‖ M) (by fun_prop) M
        (fun x => by rw [Real.norm_of_nonneg (le_min (norm_nonneg _) (Nat.cast_nonneg _))]; exact min_le_right _ _)
      have hg0 : ∀ x, 0 ≤ g x := fun x => le_min (norm_nonneg _) (Nat.cast_nonneg _)
      have hgi : ∀ μ : Measure E, IsProbabilityMeasure μ → ∫⁻ x, ENNReal.ofReal (g x) ∂μ = ENNReal.ofReal (∫ x, g x ∂μ) := by
        intro μ _
        exact (ofReal_integral_eq_lintegral_ofReal (g.integrable μ) (Eventually.of_forall hg0)).symm
      have h1 : ∀ N, ∫ x, g x ∂(meanLaw ν f N) ≤ (V 0 + K).toReal := by
        intro N
        rw [← ENNReal.ofReal_le_iff_le_toReal hfin, ← hgi _ (hprob N)]
        refine (lintegral_mono fun x => ?_).trans (h.mean_moment N)
        rw [← ofReal_norm]
        exact ENNReal.ofReal_le_ofReal (min_le_left _ _)
      have h2 := le_of_tendsto' (hlim g) h1
      rw [← ENNReal.ofReal_le_iff_le_toReal hfin, ← hgi _ inferInstance] at h2
      exact h2
    have hmono : Tendsto (fun M : ℕ => ∫⁻ x, ENNReal.ofReal (min ‖x‖ M) ∂(π : Measure E)) atTop (𝓝 (∫⁻ x, ‖x‖ₑ ∂(π : Measure E))) := by
      refine lintegral_tendsto_of_tendsto_of_monotone (fun M => Measurable.aemeasurable (by fun_prop))
        (Eventually.of_forall fun x a b hab => ENNReal.ofReal_le_ofReal (min_le_min le_rfl (Nat.cast_le.mpr hab)))
        (Eventually.of_forall fun x => ?_)
      refine tendsto_const_nhds.congr' ?_
      obtain ⟨n0, hn0⟩ := exists_nat_ge ‖x‖
      filter_upwards [eventually_ge_atTop n0] with M hM
      rw [min_eq_left (hn0.trans (Nat.cast_le.mpr hM)), ofReal_norm]
    exact ne_top_of_le_ne_top hfin (le_of_tendsto' hmono hcut)
  · have hp := stepLaw_prob ν f h.meas (π : Measure E)
    refine ext_of_forall_integral_eq_of_IsFiniteMeasure fun g => ?_
    rw [← h.push_integral g]
    have h1 := (hlim (h.push g)).sub (hlim g)
    have h2 : Tendsto (fun N => ∫ x, h.push g x ∂(meanLaw ν f N) - ∫ x, g x ∂(meanLaw ν f N)) U (𝓝 0) := by
      refine Tendsto.mono_left ?_ hU
      have hb : ∀ N : ℕ, ‖∫ x, h.push g x ∂(meanLaw ν f N) - ∫ x, g x ∂(meanLaw ν f N)‖ ≤ 2 * ‖g‖ * (1 / ((N : ℝ) + 1)) := by
        intro N
        rw [meanLaw_integral h.meas, meanLaw_integral h.meas, ← mul_sub, ← Finset.sum_sub_distrib]
        have e : ∀ k, ∫ x, h.push g x ∂(lawAt ν f k) = ∫ x, g x ∂(lawAt ν f (k + 1)) := fun k => by
          rw [h.push_integral, lawAt_succ]
        simp only [e]
        rw [Finset.sum_range_sub (fun k => ∫ x, g x ∂(lawAt ν f k)), norm_mul, mul_comm, one_div]
        have hi : ∀ k, ‖∫ x, g x ∂(lawAt ν f k)‖ ≤ ‖g‖ := fun k => g.norm_integral_le_norm _
        have h0 : (0 : ℝ) < (N : ℝ) + 1 := by positivity
        rw [Real.norm_of_nonneg (inv_nonneg.mpr h0.le)]
        refine mul_le_mul_of_nonneg_right ?_ (inv_nonneg.mpr h0.le)
        refine (norm_sub_le _ _).trans ?_
        linarith [hi (N + 1), hi 0]
      have h3 : Tendsto (fun N : ℕ => 2 * ‖g‖ * (1 / ((N : ℝ) + 1))) atTop (𝓝 0) := by
        simpa using (tendsto_one_div_add_atTop_nhds_zero_nat (𝕜 := ℝ)).const_mul (2 * ‖g‖)
      exact squeeze_zero_norm hb h3
    exact sub_eq_zero.mp (tendsto_nhds_unique h1 h2)

omit [ProperSpace E] in
/-- The law of the state forgets the start. -/
theorem Coupled.law_diff (h : Coupled ν f C V K) (μ : Measure E) [IsProbabilityMeasure μ] (g : E → ℝ) (M : ℝ) (hM : ∀ x, |g x| ≤ M)
    (L : ℝ) (hL : ∀ x y, |g x - g y| ≤ L * dist x y) :
    Tendsto (fun k => ∫ x, g x ∂((stepLaw f ν)^[k] μ) - ∫ x, g x ∂(lawAt ν f k)) atTop (𝓝 0) := by
  have hgc : Continuous g := by
    refine (LipschitzWith.of_dist_le_mul (K := NNReal.mk |L| (abs_nonneg L)) fun x y => ?_).continuous
    rw [Real.dist_eq]
    exact (hL x y).trans (mul_le_mul_of_nonneg_right (le_abs_self L) dist_nonneg)
  have hdr := Driven.mk (P := seqLaw ν) (V := fun k (ω : ℕ → W) => ω k) (ν := ν) (fun k => measurable_pi_apply k)
    (iIndepFun_infinitePi (P := fun _ : ℕ => ν) (X := fun _ (x : W) => x) (fun _ => measurable_id))
    (fun k => Measure.infinitePi_map_eval (fun _ : ℕ => ν) k)
  have hs0 := hdr.seqIndep (0 : E)
  have hs := hdr.seqIndep_prod μ
  have hfor := h.forget hs0
  have hsnd : MeasurePreserving (Prod.snd : E × (ℕ → W) → (ℕ → W)) (μ.prod (seqLaw ν)) (seqLaw ν) := measurePreserving_snd
  have hfst : MeasurePreserving (Prod.fst : E × (ℕ → W) → E) (μ.prod (seqLaw ν)) μ := measurePreserving_fst
  have e1 : ∀ k, ∫ x, g x ∂((stepLaw f ν)^[k] μ) = ∫ q : E × (ℕ → W), g (fwState f q.1 (fun i => q.2 i) k) ∂(μ.prod (seqLaw ν)) := by
    intro k
    have := hs.law_state h.meas k
    rw [hfst.map_eq] at this
    rw [← this, integral_map (hs.state_meas h.meas k).aemeasurable hgc.aestronglyMeasurable]
  have e2 : ∀ k, ∫ x, g x ∂(lawAt ν f k) = ∫ q : E × (ℕ → W), g (fwState f 0 (fun i => q.2 i) k) ∂(μ.prod (seqLaw ν)) := by
    intro k
    have := hs0.law_state h.meas k
    rw [Measure.map_const, measure_univ, one_smul] at this
    have hm := hs0.state_meas h.meas k
    have e3 : (μ.prod (seqLaw ν)).map (fun q : E × (ℕ → W) => fwState f 0 (fun i => q.2 i) k) = lawAt ν f k := by
      rw [show (fun q : E × (ℕ → W) => fwState f 0 (fun i => q.2 i) k) = (fun ω : ℕ → W => fwState f 0 (fun i => ω i) k) ∘ Prod.snd
        from rfl, ← Measure.map_map hm measurable_snd, hsnd.map_eq]
      exact this
    rw [← e3]
    exact integral_map (hm.comp measurable_snd).aemeasurable hgc.aestronglyMeasurable
  have hm1 : ∀ k, Measurable fun q : E × (ℕ → W) => g (fwState f q.1 (fun i => q.2 i) k) := fun k =>
    hgc.measurable.comp (hs.state_meas h.meas k)
  have hm2 : ∀ k, Measurable fun q : E × (ℕ → W) => g (fwState f 0 (fun i => q.2 i) k) := fun k =>
    hgc.measurable.comp ((hs0.state_meas h.meas k).comp measurable_snd)
  have hi : ∀ φ : E × (ℕ → W) → E, Measurable (fun q => g (φ q)) → Integrable (fun q => g (φ q)) (μ.prod (seqLaw ν)) := fun φ hφ =>
    (integrable_const M).mono' hφ.aestronglyMeasurable (Eventually.of_forall fun q => hM _)
  simp only [e1, e2]
  have e4 : ∀ k, ∫ q : E × (ℕ → W), g (fwState f q.1 (fun i => q.2 i) k) ∂(μ.prod (seqLaw ν)) -
      ∫ q : E × (ℕ → W), g (fwState f 0 (fun i => q.2 i) k) ∂(μ.prod (seqLaw ν)) =
      ∫ q : E × (ℕ → W), (g (fwState f q.1 (fun i => q.2 i) k) - g (fwState f 0 (fun i => q.2 i) k)) ∂(μ.prod (seqLaw ν)) := fun k =>
    (integral_sub (hi _ (hm1 k)) (hi _ (hm2 k))).symm
  simp only [e4]
  rw [show (0 : ℝ) = ∫ q : E × (ℕ → W), (0 : ℝ) ∂(μ.prod (seqLaw ν)) by simp]
  refine tendsto_integral_of_dominated_convergence (fun _ => 2 * M) (fun k => ((hm1 k).sub (hm2 k)).aestronglyMeasurable)
    (integrable_const _) (fun k => Eventually.of_forall fun q => ?_) ?_
  · rw [Real.norm_eq_abs]
    refine (abs_sub _ _).trans ?_
    linarith [hM (fwState f q.1 (fun i => q.2 i) k), hM (fwState f 0 (fun i => q.2 i) k)]
  · filter_upwards [hsnd.quasiMeasurePreserving.ae hfor] with q hq
    refine squeeze_zero_norm (fun k => ?_) ((hq q.1).const_mul L |>.trans (by simp))
    rw [Real.norm_eq_abs, abs_sub_comm]
    exact hL _ _

omit [ProperSpace E] in
/-- The law of the state converges to the stationary law from every start. -/
theorem Coupled.converge (h : Coupled ν f C V K) (π : Measure E) [IsProbabilityMeasure π] (hπ : stepLaw f ν π = π) (μ : Measure E)
    [IsProbabilityMeasure μ] (g : BoundedContinuousFunction E ℝ) :
    Tendsto (fun k => ∫ x, g x ∂((stepLaw f ν)^[k] μ)) atTop (𝓝 (∫ x, g x ∂π)) := by
  have hpr := fun k => stepLaw_iter_prob ν f h.meas μ k
  have hfix : ∀ k, (stepLaw f ν)^[k] π = π := fun k => Function.iterate_fixed hπ k
  let m : ℕ → ProbabilityMeasure E := fun k => ⟨(stepLaw f ν)^[k] μ, hpr k⟩
  let pm : ProbabilityMeasure E := ⟨π, inferInstance⟩
  have key : Tendsto m atTop (𝓝 pm) := by
    rw [tendsto_iff_forall_lipschitz_integral_tendsto]
    rintro q ⟨B, hB⟩ ⟨L, hL⟩
    have hM : ∀ x, |q x| ≤ B + |q 0| := by
      intro x
      have h1 := hB x 0
      rw [Real.dist_eq] at h1
      have h2 := abs_sub_abs_le_abs_sub (q x) (q 0)
      linarith
    have hL' : ∀ x y, |q x - q y| ≤ (L : ℝ) * dist x y := fun x y => by
      rw [← Real.dist_eq]
      exact hL.dist_le_mul x y
    have h1 := (h.law_diff μ q _ hM L hL').sub (h.law_diff π q _ hM L hL')
    simp only [hfix, sub_sub_sub_cancel_right, sub_zero] at h1
    have h2 := h1.add_const (∫ x, q x ∂π)
    simp only [sub_add_cancel, zero_add] at h2
    exact h2
  exact ProbabilityMeasure.tendsto_iff_forall_integral_tendsto.mp key g

omit [ProperSpace E] in
/-- The stationary law is unique. -/
theorem Coupled.unique (h : Coupled ν f C V K) (π π' : Measure E) [IsProbabilityMeasure π] [IsProbabilityMeasure π']
    (h1 : stepLaw f ν π = π) (h2 : stepLaw f ν π' = π') : π' = π := by
  refine ext_of_forall_integral_eq_of_IsFiniteMeasure fun g => ?_
  have hl := h.converge π h1 π' g
  have : ∀ k, (stepLaw f ν)^[k] π' = π' := fun k => Function.iterate_fixed h2 k
  simp only [this] at hl
  exact tendsto_nhds_unique tendsto_const_nhds hl

end Existence

section Averages

/-- Averages of bounded variables whose covariances decay tend to zero in mean square. -/
theorem average_sq_zero {Ω : Type} [MeasurableSpace Ω] {P : Measure Ω} [IsProbabilityMeasure P] (Y : ℕ → Ω → ℝ) (hm : ∀ k, Measurable (Y k))
    (M : ℝ) (hM : ∀ k ω, |Y k ω| ≤ M)
    (hcov : ∀ ε > 0, ∃ m0 : ℕ, ∀ i m, m0 ≤ m → ∫ ω, Y i ω * Y (i + m) ω ∂P ≤ ε) :
    Tendsto (fun N : ℕ => ∫ ω, ((∑ k ∈ Finset.range N, Y k ω) / N) ^ 2 ∂P) atTop (𝓝 0) := by
  obtain ⟨ω0⟩ : Nonempty Ω := nonempty_of_isProbabilityMeasure P
  have hM0 : 0 ≤ M := (abs_nonneg _).trans (hM 0 ω0)
  have hprod : ∀ i j ω, |Y i ω * Y j ω| ≤ M ^ 2 := fun i j ω => by
    rw [abs_mul, pow_two]
    exact mul_le_mul (hM i ω) (hM j ω) (abs_nonneg _) hM0
  have hint : ∀ i j, Integrable (fun ω => Y i ω * Y j ω) P := fun i j =>
    (integrable_const (M ^ 2)).mono' ((hm i).mul (hm j)).aestronglyMeasurable (Eventually.of_forall fun ω => hprod i j ω)
  have hle : ∀ i j, ∫ ω, Y i ω * Y j ω ∂P ≤ M ^ 2 := fun i j => by
    refine (integral_mono (hint i j) (integrable_const (M ^ 2)) fun ω => (le_abs_self _).trans (hprod i j ω)).trans ?_
    simp
  have hexp : ∀ N : ℕ, ∫ ω, ((∑ k ∈ Finset.range N, Y k ω) / N) ^ 2 ∂P =
      (∑ i ∈ Finset.range N, ∑ j ∈ Finset.range N, ∫ ω, Y i ω * Y j ω ∂P) / (N : ℝ) ^ 2 := by
    intro N
    simp only [div_pow]
    rw [integral_div]
    congr 1
    have e : ∀ ω, (∑ k ∈ Finset.range N, Y k ω) ^ 2 = ∑ i ∈ Finset.range N, ∑ j ∈ Finset.range N, Y i ω * Y j ω := fun ω => by
      rw [pow_two, Finset.sum_mul_sum]
    simp only [e]
    rw [integral_finsetSum _ fun i _ => integrable_finsetSum _ fun j _ => hint i j]
    exact Finset.sum_congr rfl fun i _ => integral_finsetSum _ fun j _ => hint i j
  have hnn : ∀ N : ℕ, 0 ≤ ∫ ω, ((∑ k ∈ Finset.range N, Y k ω) / N) ^ 2 ∂P := fun N => integral_nonneg fun ω => sq_nonneg _
  rw [Metric.tendsto_atTop]
  intro ε hε
  obtain ⟨m0, hm0⟩ := hcov (ε / 2) (by linarith)
  have hrow : ∀ N i : ℕ, ∑ j ∈ Finset.range N, ∫ ω, Y i ω * Y j ω ∂P ≤ (2 * m0 + 1) * M ^ 2 + N * (ε / 2) := by
    intro N i
    have h1 : ∀ j ∈ Finset.range N, ∫ ω, Y i ω * Y j ω ∂P ≤ (if j ∈ Finset.Icc (i - m0) (i + m0) then M ^ 2 else 0) + ε / 2 := by
      intro j _
      split
      · have := hle i j
        linarith
      · rename_i hj
        rw [Finset.mem_Icc, not_and_or] at hj
        rw [zero_add]
        rcases hj with hj | hj
        · have h2 := hm0 j (i - j) (by omega)
          rw [show j + (i - j) = i by omega] at h2
          simp only [mul_comm (Y i _)]
          exact h2
        · have h2 := hm0 i (j - i) (by omega)
          rw [show i + (j - i) = j by omega] at h2
          exact h2
    refine (Finset.sum_le_sum h1).trans ?_
    rw [Finset.sum_add_distrib, Finset.sum_const, Finset.card_range, nsmul_eq_mul]
    refine add_le_add ?_ le_rfl
    rw [← Finset.sum_filter, Finset.sum_const, nsmul_eq_mul]
    refine mul_le_mul_of_nonneg_right ?_ (sq_nonneg M)
    have h3 : ((Finset.range N).filter fun j => j ∈ Finset.Icc (i - m0) (i + m0)).card ≤ 2 * m0 + 1 := by
      refine (Finset.card_le_card (t := Finset.Icc (i - m0) (i + m0)) fun j hj => (Finset.mem_filter.mp hj).2).trans ?_
      rw [Nat.card_Icc]
      omega
    exact_mod_cast h3
  have hlim : Tendsto (fun N : ℕ => (2 * (m0 : ℝ) + 1) * M ^ 2 / N) atTop (𝓝 0) := tendsto_const_div_atTop_nhds_zero_nat _
  obtain ⟨N0, hN0⟩ := (Metric.tendsto_atTop.mp hlim) (ε / 2) (by linarith)
  refine ⟨max N0 1, fun N hN => ?_⟩
  have hN1 : 1 ≤ N := (le_max_right _ _).trans hN
  have hNp : (0 : ℝ) < N := by exact_mod_cast hN1
  rw [Real.dist_eq, sub_zero, abs_of_nonneg (hnn N), hexp, div_lt_iff₀ (by positivity)]
  have h4 := hN0 N ((le_max_left _ _).trans hN)
  rw [Real.dist_eq, sub_zero, abs_of_nonneg (by positivity), div_lt_iff₀ hNp] at h4
  calc ∑ i ∈ Finset.range N, ∑ j ∈ Finset.range N, ∫ ω, Y i ω * Y j ω ∂P
      ≤ ∑ _i ∈ Finset.range N, ((2 * m0 + 1) * M ^ 2 + N * (ε / 2)) := Finset.sum_le_sum fun i _ => hrow N i
    _ = N * ((2 * m0 + 1) * M ^ 2 + N * (ε / 2)) := by rw [Finset.sum_const, Finset.card_range, nsmul_eq_mul]
    _ < N * (ε / 2 * N + N * (ε / 2)) := mul_lt_mul_of_pos_left (by linarith) hNp
    _ = ε * (N : ℝ) ^ 2 := by ring

variable {E W Ω : Type} [NormedAddCommGroup E] [ProperSpace E] [MeasurableSpace E] [BorelSpace E] [MeasurableSpace W] [MeasurableSpace Ω]
  {ν : Measure W} [IsProbabilityMeasure ν] {f : E → W → E} {C : Set E} {V : E → ℝ≥0∞} {K : ℝ≥0}
  {P : Measure Ω} [IsProbabilityMeasure P] {S0 : Ω → E} {v : ℕ → Ω → W}

omit [ProperSpace E] [NormedAddCommGroup E] [BorelSpace E] [IsProbabilityMeasure ν] [IsProbabilityMeasure P] in
/-- The state after `i` steps as a new start. -/
theorem SeqIndep.shift (hs : SeqIndep P S0 v ν) (hf : Measurable (Function.uncurry f)) (i : ℕ) :
    SeqIndep P (fun ω => fwState f (S0 ω) (fun j => v j ω) i) (fun k => v (i + k)) ν := by
  refine ⟨hs.state_meas hf i, fun k => hs.meas _, fun k => hs.law _, fun k => ?_⟩
  obtain ⟨G, hG, hGe⟩ := state_prefix (f := f) hf i
  have e : (fun ω => (fwState f (S0 ω) (fun j => v j ω) i, fun j : Fin k => v (i + j) ω)) =
      (fun u : E × (Fin (i + k) → W) => (G (u.1, fun j : Fin i => u.2 (j.castLE (by omega))), fun j : Fin k => u.2 ⟨i + j, by omega⟩)) ∘
        fun ω => (S0 ω, fun j : Fin (i + k) => v j ω) := by
    funext ω
    simp only [Function.comp, hGe]
    rfl
  rw [e]
  refine (hs.indep (i + k)).comp ?_ measurable_id
  refine (hG.comp (measurable_fst.prodMk (measurable_pi_lambda _ fun j => ?_))).prodMk (measurable_pi_lambda _ fun j => ?_)
  · exact (measurable_pi_apply _).comp measurable_snd
  · exact (measurable_pi_apply _).comp measurable_snd

omit [ProperSpace E] [NormedAddCommGroup E] [BorelSpace E] [IsProbabilityMeasure ν] in
/-- The joint law of the start and of the state after `m` steps only depends on the law of the start. -/
theorem SeqIndep.pair_law {Ω' : Type} [MeasurableSpace Ω'] {P' : Measure Ω'} [IsProbabilityMeasure P'] {S0' : Ω' → E} {v' : ℕ → Ω' → W}
    (hs : SeqIndep P S0 v ν) (hs' : SeqIndep P' S0' v' ν) (hf : Measurable (Function.uncurry f)) (hlaw : P.map S0 = P'.map S0') (m : ℕ) :
    P.map (fun ω => (S0 ω, fwState f (S0 ω) (fun j => v j ω) m)) = P'.map (fun ω => (S0' ω, fwState f (S0' ω) (fun j => v' j ω) m)) := by
  let F : E × E → W → E × E := fun a w => (a.1, f a.2 w)
  have hF : Measurable (Function.uncurry F) := by
    have h1 : Measurable fun q : (E × E) × W => q.1.1 := measurable_fst.comp measurable_fst
    have h2 : Measurable fun q : (E × E) × W => (q.1.2, q.2) := (measurable_snd.comp measurable_fst).prodMk measurable_snd
    exact h1.prodMk (hf.comp h2)
  have hst : ∀ (s : E) (u : ℕ → W) (k : ℕ), fwState F (s, s) u k = (s, fwState f s u k) := by
    intro s u k
    induction k with
    | zero => rfl
    | succ k ih => rw [fwState, ih]; rfl
  have hdiag : Measurable fun s : E => (s, s) := measurable_id.prodMk measurable_id
  have lift : ∀ {Ω₁ : Type} [MeasurableSpace Ω₁] {P₁ : Measure Ω₁} {S₁ : Ω₁ → E} {v₁ : ℕ → Ω₁ → W}, SeqIndep P₁ S₁ v₁ ν →
      SeqIndep P₁ (fun ω => (S₁ ω, S₁ ω)) v₁ ν := by
    intro Ω₁ _ P₁ S₁ v₁ h₁
    refine ⟨hdiag.comp h₁.meas_start, h₁.meas, h₁.law, fun k => ?_⟩
    exact (h₁.indep k).comp (φ := fun u : E × (Fin k → W) => ((u.1, u.1), u.2)) (ψ := id)
      ((hdiag.comp measurable_fst).prodMk measurable_snd) measurable_id
  have h1 := (lift hs).law_state hF m
  have h2 := (lift hs').law_state hF m
  simp only [hst] at h1 h2
  rw [h1, h2]
  congr 1
  have e1 := Measure.map_map (μ := P) hdiag hs.meas_start
  have e2 := Measure.map_map (μ := P') hdiag hs'.meas_start
  rw [hlaw] at e1
  exact e1.symm.trans e2

omit [ProperSpace E] in
/-- Averages of a bounded Lipschitz quantity along the stationary chain converge in mean square. -/
theorem Coupled.stationary_average (h : Coupled ν f C V K) (hV : Driven P v ν) (π : Measure E) [IsProbabilityMeasure π]
    (hπ : stepLaw f ν π = π) (g : E → ℝ) (M : ℝ) (hM : ∀ x, |g x| ≤ M) (L : ℝ) (hL : ∀ x y, |g x - g y| ≤ L * dist x y)
    (t : ℕ → ℕ) (ht : StrictMono t) :
    Tendsto (fun N : ℕ => ∫ q : E × Ω, ((∑ k ∈ Finset.range N, (g (fwState f q.1 (fun j => v j q.2) (t k)) - ∫ z, g z ∂π)) / N) ^ 2
      ∂(π.prod P)) atTop (𝓝 0) := by
  have hgc : Continuous g := by
    refine (LipschitzWith.of_dist_le_mul (K := NNReal.mk |L| (abs_nonneg L)) fun x y => ?_).continuous
    rw [Real.dist_eq]
    exact (hL x y).trans (mul_le_mul_of_nonneg_right (le_abs_self L) dist_nonneg)
  have hs := hV.seqIndep_prod π
  have hs0 := hV.seqIndep (0 : E)
  have hfst : MeasurePreserving (Prod.fst : E × Ω → E) (π.prod P) π := measurePreserving_fst
  have hsnd : MeasurePreserving (Prod.snd : E × Ω → Ω) (π.prod P) P := measurePreserving_snd
  set gb : E → ℝ := fun x => g x - ∫ z, g z ∂π with hgb
  have hgi : Integrable g π := (integrable_const M).mono' hgc.aestronglyMeasurable (Eventually.of_forall hM)
  have hmean : |∫ z, g z ∂π| ≤ M := by
    have h0 := norm_integral_le_of_norm_le (μ := π) (f := g) (integrable_const M) (Eventually.of_forall hM)
    rw [Real.norm_eq_abs] at h0
    simpa using h0
  have hgbM : ∀ x, |gb x| ≤ 2 * M := fun x => (abs_sub _ _).trans (by linarith [hM x])
  have hgbc : Continuous gb := hgc.sub continuous_const
  have hgb0 : ∫ z, gb z ∂π = 0 := by
    rw [hgb, integral_sub hgi (integrable_const _)]
    simp
  have hM0 : 0 ≤ M := (abs_nonneg _).trans (hM 0)
  set Z : ℕ → E × Ω → E := fun k q => fwState f q.1 (fun j => v j q.2) k with hZ
  have hZm : ∀ k, Measurable (Z k) := fun k => hs.state_meas h.meas k
  have hZlaw : ∀ k, (π.prod P).map (Z k) = π := fun k => by
    rw [hZ, hs.law_state h.meas k, hfst.map_eq]
    exact Function.iterate_fixed hπ k
  -- the covariances
  have hcov : ∀ i m, ∫ q, gb (Z i q) * gb (Z (i + m) q) ∂(π.prod P) = ∫ q, gb q.1 * gb (Z m q) ∂(π.prod P) := by
    intro i m
    have h1 := (hs.shift h.meas i).pair_law hs h.meas (by rw [hfst.map_eq]; exact hZlaw i) m
    have hmm : Measurable fun a : E × E => gb a.1 * gb a.2 :=
      (hgbc.measurable.comp measurable_fst).mul (hgbc.measurable.comp measurable_snd)
    have e1 : ∀ q : E × Ω, Z (i + m) q = fwState f (Z i q) (fun j => v (i + j) q.2) m := fun q => fwState_add f _ _ i m
    have h2 := integral_map (μ := π.prod P) (φ := fun q => (Z i q, Z (i + m) q)) ((hZm i).prodMk (hZm (i + m))).aemeasurable
      (f := fun a : E × E => gb a.1 * gb a.2) hmm.aestronglyMeasurable
    have h3 := integral_map (μ := π.prod P) (φ := fun q => (q.1, Z m q)) (measurable_fst.prodMk (hZm m)).aemeasurable
      (f := fun a : E × E => gb a.1 * gb a.2) hmm.aestronglyMeasurable
    rw [← h2, ← h3]
    simp only [e1]
    exact congrArg (fun μ => ∫ a : E × E, gb a.1 * gb a.2 ∂μ) h1
  have hX0m : ∀ m, Measurable fun q : E × Ω => fwState f 0 (fun j => v j q.2) m := fun m =>
    (hs0.state_meas h.meas m).comp measurable_snd
  have hzero : ∀ m, ∫ q : E × Ω, gb q.1 * gb (fwState f 0 (fun j => v j q.2) m) ∂(π.prod P) = 0 := by
    intro m
    rw [integral_prod_mul (μ := π) (ν := P) gb fun ω => gb (fwState f 0 (fun j => v j ω) m), hgb0, zero_mul]
  have hlim : Tendsto (fun m => ∫ q : E × Ω, |gb (Z m q) - gb (fwState f 0 (fun j => v j q.2) m)| ∂(π.prod P)) atTop (𝓝 0) := by
    rw [show (0 : ℝ) = ∫ q : E × Ω, (0 : ℝ) ∂(π.prod P) by simp]
    refine tendsto_integral_of_dominated_convergence (fun _ => 4 * M)
      (fun k => (((hgbc.measurable.comp (hZm k)).sub (hgbc.measurable.comp (hX0m k))).norm).aestronglyMeasurable)
      (integrable_const _) (fun k => Eventually.of_forall fun q => ?_) ?_
    · rw [Real.norm_eq_abs, abs_abs]
      refine (abs_sub _ _).trans ?_
      linarith [hgbM (Z k q), hgbM (fwState f 0 (fun j => v j q.2) k)]
    · filter_upwards [hsnd.quasiMeasurePreserving.ae (h.forget hs0)] with q hq
      refine squeeze_zero_norm (fun k => ?_) ((hq q.1).const_mul L |>.trans (by simp))
      rw [Real.norm_eq_abs, abs_abs, abs_sub_comm]
      simp only [hgb, sub_sub_sub_cancel_right]
      exact hL _ _
  have hsmall : ∀ m, ∫ q, gb q.1 * gb (Z m q) ∂(π.prod P) ≤
      2 * M * ∫ q : E × Ω, |gb (Z m q) - gb (fwState f 0 (fun j => v j q.2) m)| ∂(π.prod P) := by
    intro m
    have hbi : ∀ φ ψ : E × Ω → E, Measurable φ → Measurable ψ → Integrable (fun q => gb (φ q) * gb (ψ q)) (π.prod P) := by
      intro φ ψ hφ hψ
      refine (integrable_const (2 * M * (2 * M))).mono' ((hgbc.measurable.comp hφ).mul (hgbc.measurable.comp hψ)).aestronglyMeasurable
        (Eventually.of_forall fun q => ?_)
      rw [norm_mul]
      exact mul_le_mul (hgbM _) (hgbM _) (norm_nonneg _) (by linarith)
    have hdi : Integrable (fun q : E × Ω => |gb (Z m q) - gb (fwState f 0 (fun j => v j q.2) m)|) (π.prod P) := by
      refine (integrable_const (4 * M)).mono'
        (((hgbc.measurable.comp (hZm m)).sub (hgbc.measurable.comp (hX0m m))).norm).aestronglyMeasurable
        (Eventually.of_forall fun q => ?_)
      rw [Real.norm_eq_abs, abs_abs]
      refine (abs_sub _ _).trans ?_
      linarith [hgbM (Z m q), hgbM (fwState f 0 (fun j => v j q.2) m)]
    rw [← sub_zero (∫ q, gb q.1 * gb (Z m q) ∂(π.prod P)), ← hzero m,
      ← integral_sub (hbi _ _ measurable_fst (hZm m)) (hbi _ _ measurable_fst (hX0m m)), ← integral_const_mul]
    refine integral_mono ((hbi _ _ measurable_fst (hZm m)).sub (hbi _ _ measurable_fst (hX0m m))) (hdi.const_mul _) fun q => ?_
    dsimp only
    rw [← mul_sub]
    refine (le_abs_self _).trans ?_
    rw [abs_mul]
    exact mul_le_mul_of_nonneg_right (hgbM _) (abs_nonneg _)
  refine average_sq_zero (P := π.prod P) (fun k q => gb (Z (t k) q)) (fun k => hgbc.measurable.comp (hZm _)) (2 * M) (fun k q => hgbM _) ?_
  intro ε hε
  have h4 := hlim.const_mul (2 * M)
  rw [mul_zero] at h4
  obtain ⟨m0, hm0⟩ := (Metric.tendsto_atTop.mp h4) ε hε
  refine ⟨m0, fun i m hm => ?_⟩
  have hti : t i + m ≤ t (i + m) := by
    have := ht.add_le_nat m i
    rwa [add_comm m, add_comm m] at this
  obtain ⟨d, hd⟩ : ∃ d, t (i + m) = t i + d := ⟨t (i + m) - t i, by omega⟩
  rw [hd, hcov]
  refine (hsmall d).trans ?_
  have h5 := hm0 d (by omega)
  rw [Real.dist_eq, sub_zero] at h5
  exact (le_abs_self _).trans h5.le

omit [ProperSpace E] in
/-- Averages of a Lipschitz quantity along the stationary chain converge in mean. -/
theorem Coupled.stationary_mean (h : Coupled ν f C V K) (hV : Driven P v ν) (π : Measure E) [IsProbabilityMeasure π]
    (hπ : stepLaw f ν π = π) (hfin : ∫⁻ x, ‖x‖ₑ ∂π ≠ ⊤) (g : E → ℝ) (L : ℝ) (hL : ∀ x y, |g x - g y| ≤ L * dist x y)
    (t : ℕ → ℕ) (ht : StrictMono t) :
    Tendsto (fun N : ℕ => ∫ q : E × Ω, |(∑ k ∈ Finset.range N, g (fwState f q.1 (fun j => v j q.2) (t k))) / N - ∫ z, g z ∂π|
      ∂(π.prod P)) atTop (𝓝 0) := by
  have hgc : Continuous g := by
    refine (LipschitzWith.of_dist_le_mul (K := NNReal.mk |L| (abs_nonneg L)) fun x y => ?_).continuous
    rw [Real.dist_eq]
    exact (hL x y).trans (mul_le_mul_of_nonneg_right (le_abs_self L) dist_nonneg)
  have hs := hV.seqIndep_prod π
  have hfst : MeasurePreserving (Prod.fst : E × Ω → E) (π.prod P) π := measurePreserving_fst
  set Z : ℕ → E × Ω → E := fun k q => fwState f q.1 (fun j => v j q.2) k with hZ
  have hZm : ∀ k, Measurable (Z k) := fun k => hs.state_meas h.meas k
  have hZlaw : ∀ k, (π.prod P).map (Z k) = π := fun k => by
    rw [hZ, hs.law_state h.meas k, hfst.map_eq]
    exact Function.iterate_fixed hπ k
  have hZp : ∀ k, MeasurePreserving (Z k) (π.prod P) π := fun k => ⟨hZm k, hZlaw k⟩
  have hni : Integrable (fun x : E => ‖x‖) π := by
    refine ⟨continuous_norm.aestronglyMeasurable, ?_⟩
    rw [hasFiniteIntegral_iff_enorm]
    simpa using lt_top_iff_ne_top.mpr hfin
  have hgi : Integrable g π := by
    refine ((integrable_const |g 0|).add (hni.const_mul |L|)).mono' hgc.aestronglyMeasurable (Eventually.of_forall fun x => ?_)
    have h1 := hL x 0
    rw [dist_zero_right] at h1
    have h2 := mul_le_mul_of_nonneg_right (le_abs_self L) (norm_nonneg x)
    have h3 := abs_sub_abs_le_abs_sub (g x) (g 0)
    rw [Real.norm_eq_abs]
    show |g x| ≤ |g 0| + |L| * ‖x‖
    linarith
  -- truncation
  let T : ℕ → E → ℝ := fun m x => max (-(m : ℝ)) (min (g x) m)
  have hTc : ∀ m, Continuous (T m) := fun m => continuous_const.max (hgc.min continuous_const)
  have hTM : ∀ m x, |T m x| ≤ m := fun m x => by
    rw [abs_le]
    exact ⟨le_max_left _ _, max_le (by have : (0 : ℝ) ≤ m := Nat.cast_nonneg m; linarith) (min_le_right _ _)⟩
  have hTg : ∀ m x, |T m x| ≤ |g x| := fun m x => by
    have hm : (0 : ℝ) ≤ m := Nat.cast_nonneg m
    rw [abs_le]
    have h1 := neg_abs_le (g x)
    have h2 := le_abs_self (g x)
    constructor
    · refine le_max_of_le_right (le_min h1 ?_)
      linarith [abs_nonneg (g x)]
    · refine max_le (by linarith [abs_nonneg (g x)]) ((min_le_left _ _).trans h2)
  have hTL : ∀ m x y, |T m x - T m y| ≤ L * dist x y := fun m x y => by
    refine (?_ : |T m x - T m y| ≤ |g x - g y|).trans (hL x y)
    refine (abs_max_sub_max_le_max _ _ _ _).trans ?_
    rw [sub_self, abs_zero]
    refine max_le (abs_nonneg _) ((abs_min_sub_min_le_max _ _ _ _).trans ?_)
    rw [sub_self, abs_zero]
    exact max_le le_rfl (abs_nonneg _)
  have hTi : ∀ m, Integrable (T m) π := fun m => hgi.abs.mono' (hTc m).aestronglyMeasurable (Eventually.of_forall (hTg m))
  have hcut : Tendsto (fun m => ∫ x, |g x - T m x| ∂π) atTop (𝓝 0) := by
    rw [show (0 : ℝ) = ∫ x : E, (0 : ℝ) ∂π by simp]
    refine tendsto_integral_of_dominated_convergence (fun x => 2 * |g x|) (fun m => (hgc.sub (hTc m)).abs.aestronglyMeasurable)
      (hgi.abs.const_mul 2) (fun m => Eventually.of_forall fun x => ?_) (Eventually.of_forall fun x => ?_)
    · rw [Real.norm_eq_abs, abs_abs]
      refine (abs_sub _ _).trans ?_
      linarith [hTg m x]
    · refine tendsto_const_nhds.congr' ?_
      obtain ⟨m0, hm0⟩ := exists_nat_ge |g x|
      filter_upwards [eventually_ge_atTop m0] with m hm
      have h1 : |g x| ≤ m := hm0.trans (by exact_mod_cast hm)
      have h2 := abs_le.mp h1
      have h3 : T m x = g x := by
        show max (-(m : ℝ)) (min (g x) m) = g x
        rw [min_eq_left h2.2, max_eq_right h2.1]
      rw [h3, sub_self, abs_zero]
  have hcomp : ∀ (φ : E → ℝ) (k : ℕ), Integrable φ π → Continuous φ → Integrable (fun q => φ (Z k q)) (π.prod P) := fun φ k hi hc =>
    (hZp k).integrable_comp_of_integrable hi
  have hcompi : ∀ (φ : E → ℝ) (k : ℕ), Continuous φ → ∫ q, φ (Z k q) ∂(π.prod P) = ∫ x, φ x ∂π := fun φ k hc => by
    have h0 := integral_map (μ := π.prod P) (hZm k).aemeasurable (f := φ) hc.aestronglyMeasurable
    rw [hZlaw k] at h0
    exact h0.symm
  rw [Metric.tendsto_atTop]
  intro ε hε
  obtain ⟨m, hm⟩ := ((Metric.tendsto_atTop.mp hcut) (ε / 4) (by linarith)).imp fun m0 h0 => h0 m0 le_rfl
  rw [Real.dist_eq, sub_zero, abs_of_nonneg (integral_nonneg fun x => abs_nonneg _)] at hm
  have hst := h.stationary_average hV π hπ (T m) m (hTM m) L (hTL m) t ht
  obtain ⟨N0, hN0⟩ := (Metric.tendsto_atTop.mp hst) ((ε / 4) ^ 2) (by positivity)
  refine ⟨max N0 1, fun N hN => ?_⟩
  have hN1 : 1 ≤ N := (le_max_right _ _).trans hN
  have hNp : (0 : ℝ) < N := by exact_mod_cast hN1
  set S : E × Ω → ℝ := fun q => (∑ k ∈ Finset.range N, (T m (Z (t k) q) - ∫ z, T m z ∂π)) / N with hS
  have hSm : Measurable S := (Finset.measurable_fun_sum _ fun k _ => ((hTc m).measurable.comp (hZm _)).sub_const _).div_const _
  have hSb : ∀ q, |S q| ≤ 2 * m := by
    intro q
    rw [hS, abs_div, abs_of_pos hNp, div_le_iff₀ hNp]
    refine (Finset.abs_sum_le_sum_abs _ _).trans ?_
    have hmean : |∫ z, T m z ∂π| ≤ m := by
      have h0 := norm_integral_le_of_norm_le (μ := π) (f := T m) (integrable_const (m : ℝ)) (Eventually.of_forall (hTM m))
      rw [Real.norm_eq_abs] at h0
      simpa using h0
    have h1 : ∀ k ∈ Finset.range N, |T m (Z (t k) q) - ∫ z, T m z ∂π| ≤ 2 * m := fun k _ =>
      (abs_sub _ _).trans (by linarith [hTM m (Z (t k) q)])
    refine (Finset.sum_le_sum h1).trans (le_of_eq ?_)
    rw [Finset.sum_const, Finset.card_range, nsmul_eq_mul]
    ring
  have hSi : Integrable S (π.prod P) := (integrable_const (2 * (m : ℝ))).mono' hSm.aestronglyMeasurable (Eventually.of_forall hSb)
  have hS2 : Integrable (fun q => S q ^ 2) (π.prod P) := by
    refine (integrable_const ((2 * (m : ℝ)) ^ 2)).mono' (hSm.pow_const 2).aestronglyMeasurable (Eventually.of_forall fun q => ?_)
    rw [Real.norm_eq_abs, abs_of_nonneg (sq_nonneg _), ← sq_abs]
    exact pow_le_pow_left₀ (abs_nonneg _) (hSb q) 2
  have hSlt : ∫ q, S q ^ 2 ∂(π.prod P) ≤ (ε / 4) ^ 2 := by
    have h1 := hN0 N ((le_max_left _ _).trans hN)
    rw [Real.dist_eq, sub_zero] at h1
    exact (le_abs_self _).trans h1.le
  have hSabs : ∫ q, |S q| ∂(π.prod P) ≤ ε / 4 := by
    have h1 : ∀ q, |S q| ≤ S q ^ 2 / (ε / 2) + ε / 8 := by
      intro q
      rw [← sq_abs, ← sub_nonneg]
      have h2 : |S q| ^ 2 / (ε / 2) + ε / 8 - |S q| = 2 / ε * (|S q| - ε / 4) ^ 2 := by
        field_simp
        ring
      rw [h2]
      positivity
    have h6 := integral_mono hSi.abs ((hS2.div_const _).add (integrable_const _)) h1
    have h3 : ∫ q, (S q ^ 2 / (ε / 2) + ε / 8) ∂(π.prod P) = (∫ q, S q ^ 2 ∂(π.prod P)) / (ε / 2) + ε / 8 := by
      rw [integral_add (hS2.div_const _) (integrable_const _), integral_div]
      simp
    have h7 := h6.trans (le_of_eq h3)
    have h4 : (∫ q, S q ^ 2 ∂(π.prod P)) / (ε / 2) ≤ (ε / 4) ^ 2 / (ε / 2) := div_le_div_of_nonneg_right hSlt (by linarith)
    have h5 : (ε / 4) ^ 2 / (ε / 2) = ε / 8 := by field_simp; ring
    linarith
  set D : E → ℝ := fun x => |g x - T m x| with hD
  have hDc : Continuous D := (hgc.sub (hTc m)).abs
  have hDi : Integrable D π := (hgi.sub (hTi m)).abs
  have hgap : |∫ z, g z ∂π - ∫ z, T m z ∂π| ≤ ∫ x, D x ∂π := by
    rw [← integral_sub hgi (hTi m)]
    exact abs_integral_le_integral_abs
  have hpt : ∀ q, |(∑ k ∈ Finset.range N, g (Z (t k) q)) / N - ∫ z, g z ∂π| ≤
      |S q| + (∑ k ∈ Finset.range N, D (Z (t k) q)) / N + ∫ x, D x ∂π := by
    intro q
    have e1 : (∑ k ∈ Finset.range N, g (Z (t k) q)) / N - ∫ z, g z ∂π =
        S q + (∑ k ∈ Finset.range N, (g (Z (t k) q) - T m (Z (t k) q))) / N - (∫ z, g z ∂π - ∫ z, T m z ∂π) := by
      simp only [hS, Finset.sum_sub_distrib, Finset.sum_const, Finset.card_range, nsmul_eq_mul]
      field_simp
      ring
    rw [e1]
    refine (abs_sub _ _).trans (add_le_add ((abs_add_le _ _).trans (add_le_add le_rfl ?_)) hgap)
    rw [abs_div, abs_of_pos hNp]
    exact div_le_div_of_nonneg_right (Finset.abs_sum_le_sum_abs _ _) hNp.le
  have hDsum : Integrable (fun q => (∑ k ∈ Finset.range N, D (Z (t k) q)) / N) (π.prod P) :=
    (integrable_finsetSum _ fun k _ => hcomp D _ hDi hDc).div_const _
  have hDsumv : ∫ q, (∑ k ∈ Finset.range N, D (Z (t k) q)) / N ∂(π.prod P) = ∫ x, D x ∂π := by
    rw [integral_div, integral_finsetSum _ fun k _ => hcomp D _ hDi hDc]
    simp only [hcompi D _ hDc, Finset.sum_const, Finset.card_range, nsmul_eq_mul]
    field_simp
  rw [Real.dist_eq, sub_zero, abs_of_nonneg (integral_nonneg fun q => abs_nonneg _)]
  have hleft : Integrable (fun q => |(∑ k ∈ Finset.range N, g (Z (t k) q)) / N - ∫ z, g z ∂π|) (π.prod P) :=
    (((integrable_finsetSum _ fun k _ => hcomp g _ hgi hgc).div_const _).sub (integrable_const _)).abs
  have h6 := integral_mono hleft ((hSi.abs.add hDsum).add (integrable_const (∫ x, D x ∂π))) hpt
  have h7 : ∫ q, (|S q| + (∑ k ∈ Finset.range N, D (Z (t k) q)) / N + ∫ x, D x ∂π) ∂(π.prod P) =
      ∫ q, |S q| ∂(π.prod P) + ∫ x, D x ∂π + ∫ x, D x ∂π := by
    have hSD : Integrable (fun q => |S q| + (∑ k ∈ Finset.range N, D (Z (t k) q)) / N) (π.prod P) := hSi.abs.add hDsum
    rw [integral_add hSD (integrable_const _), integral_add hSi.abs hDsum, hDsumv]
    simp
  have h8 := h6.trans (le_of_eq h7)
  exact lt_of_le_of_lt h8 (by linarith)

omit [ProperSpace E] in
/-- Averages of a Lipschitz quantity along the chain from any start converge in probability. -/
theorem Coupled.average (h : Coupled ν f C V K) (hV : Driven P v ν) (π : Measure E) [IsProbabilityMeasure π]
    (hπ : stepLaw f ν π = π) (hfin : ∫⁻ x, ‖x‖ₑ ∂π ≠ ⊤) (g : E → ℝ) (L : ℝ) (hL : ∀ x y, |g x - g y| ≤ L * dist x y)
    (t : ℕ → ℕ) (ht : StrictMono t) (x0 : E) (ε : ℝ) (hε : 0 < ε) :
    Tendsto (fun N : ℕ => P {ω | ε ≤ |(∑ k ∈ Finset.range N, g (fwState f x0 (fun j => v j ω) (t k))) / N - ∫ z, g z ∂π|}) atTop (𝓝 0) := by
  have hgc : Continuous g := by
    refine (LipschitzWith.of_dist_le_mul (K := NNReal.mk |L| (abs_nonneg L)) fun x y => ?_).continuous
    rw [Real.dist_eq]
    exact (hL x y).trans (mul_le_mul_of_nonneg_right (le_abs_self L) dist_nonneg)
  have hs := hV.seqIndep_prod π
  have hs0 := hV.seqIndep x0
  have hsnd : MeasurePreserving (Prod.snd : E × Ω → Ω) (π.prod P) P := measurePreserving_snd
  have hni : Integrable (fun x : E => ‖x‖) π := by
    refine ⟨continuous_norm.aestronglyMeasurable, ?_⟩
    rw [hasFiniteIntegral_iff_enorm]
    simpa using lt_top_iff_ne_top.mpr hfin
  have hgi : Integrable g π := by
    refine ((integrable_const |g 0|).add (hni.const_mul |L|)).mono' hgc.aestronglyMeasurable (Eventually.of_forall fun x => ?_)
    have h1 := hL x 0
    rw [dist_zero_right] at h1
    have h2 := mul_le_mul_of_nonneg_right (le_abs_self L) (norm_nonneg x)
    have h3 := abs_sub_abs_le_abs_sub (g x) (g 0)
    rw [Real.norm_eq_abs]
    show |g x| ≤ |g 0| + |L| * ‖x‖
    linarith
  set Z : ℕ → E × Ω → E := fun k q => fwState f q.1 (fun j => v j q.2) k with hZ
  have hZm : ∀ k, Measurable (Z k) := fun k => hs.state_meas h.meas k
  have hZp : ∀ k, MeasurePreserving (Z k) (π.prod P) π := fun k => ⟨hZm k, by
    rw [hZ, hs.law_state h.meas k, (measurePreserving_fst (μ := π) (ν := P)).map_eq]
    exact Function.iterate_fixed hπ k⟩
  set X : ℕ → Ω → E := fun k ω => fwState f x0 (fun j => v j ω) k with hX
  have hXm : ∀ k, Measurable (X k) := fun k => hs0.state_meas h.meas k
  set A : ℕ → E × Ω → ℝ := fun N q => (∑ k ∈ Finset.range N, g (Z (t k) q)) / N - ∫ z, g z ∂π with hA
  set B : ℕ → Ω → ℝ := fun N ω => (∑ k ∈ Finset.range N, g (X (t k) ω)) / N - ∫ z, g z ∂π with hB
  have hAm : ∀ N, Measurable (A N) := fun N =>
    ((Finset.measurable_fun_sum _ fun k _ => hgc.measurable.comp (hZm _)).div_const _).sub_const _
  have hBm : ∀ N, Measurable (B N) := fun N =>
    ((Finset.measurable_fun_sum _ fun k _ => hgc.measurable.comp (hXm _)).div_const _).sub_const _
  have hAi : ∀ N, Integrable (A N) (π.prod P) := fun N =>
    ((integrable_finsetSum _ fun k _ => (hZp (t k)).integrable_comp_of_integrable hgi).div_const _).sub (integrable_const _)
  have hmean := h.stationary_mean hV π hπ hfin g L hL t ht
  -- the averages of the two chains approach each other
  have hae : ∀ᵐ q ∂(π.prod P), Tendsto (fun N => A N q - B N q.2) atTop (𝓝 0) := by
    filter_upwards [hsnd.quasiMeasurePreserving.ae (h.forget hs0)] with q hq
    have h1 : Tendsto (fun k => g (Z k q) - g (X k q.2)) atTop (𝓝 0) := by
      refine squeeze_zero_norm (fun k => ?_) ((hq q.1).const_mul L |>.trans (by simp))
      rw [Real.norm_eq_abs, abs_sub_comm]
      exact hL _ _
    have h2 := (h1.comp ht.tendsto_atTop).cesaro
    refine h2.congr fun N => ?_
    simp only [hA, hB, Function.comp, Finset.sum_sub_distrib]
    ring
  have hdm : TendstoInMeasure (π.prod P) (fun N q => A N q - B N q.2) atTop (fun _ => (0 : ℝ)) :=
    tendstoInMeasure_of_tendsto_ae (fun N => ((hAm N).sub ((hBm N).comp measurable_snd)).aestronglyMeasurable) hae
  have h3 := (tendstoInMeasure_iff_norm.mp hdm) (ε / 2) (by linarith)
  simp only [sub_zero, Real.norm_eq_abs] at h3
  have h4 : Tendsto (fun N => ENNReal.ofReal ((∫ q, |A N q| ∂(π.prod P)) / (ε / 2))) atTop (𝓝 0) := by
    have := ENNReal.tendsto_ofReal (hmean.div_const (ε / 2))
    simpa using this
  have h5 := h4.add h3
  rw [add_zero] at h5
  refine tendsto_of_tendsto_of_tendsto_of_le_of_le tendsto_const_nhds h5 (fun N => zero_le) fun N => ?_
  have hset : MeasurableSet {ω | ε ≤ |B N ω|} := measurableSet_le measurable_const (hBm N).norm
  have h6 : P {ω | ε ≤ |B N ω|} = (π.prod P) {q | ε ≤ |B N q.2|} := (hsnd.measure_preimage hset.nullMeasurableSet).symm
  refine (le_of_eq h6).trans ?_
  have h7 : {q : E × Ω | ε ≤ |B N q.2|} ⊆ {q | ε / 2 ≤ |A N q|} ∪ {q | ε / 2 ≤ |A N q - B N q.2|} := by
    intro q hq
    by_contra hc
    simp only [Set.mem_union, Set.mem_ofPred_eq, not_or, not_le] at hc
    have h8 : |B N q.2| ≤ |A N q| + |A N q - B N q.2| := by
      have := abs_sub (A N q) (A N q - B N q.2)
      rwa [sub_sub_cancel] at this
    have h9 : ε ≤ |B N q.2| := hq
    linarith [hc.1, hc.2]
  refine (measure_mono h7).trans ((measure_union_le _ _).trans (add_le_add ?_ le_rfl))
  have h10 := mul_meas_ge_le_integral_of_nonneg (μ := π.prod P) (f := fun q => |A N q|) (Eventually.of_forall fun q => abs_nonneg _)
    (hAi N).abs (ε / 2)
  rw [← ofReal_measureReal]
  refine ENNReal.ofReal_le_ofReal ?_
  rw [le_div_iff₀ (by linarith), mul_comm]
  exact h10

end Averages

end Pxmcmc
