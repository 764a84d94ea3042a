import Mathlib.Probability.HasLaw
import Mathlib.Probability.Independence.Basic
import Mathlib.Probability.Independence.InfinitePi
import Mathlib.Probability.ProductMeasure
import Mathlib.MeasureTheory.Measure.HasOuterApproxClosed
import Mathlib.MeasureTheory.Constructions.BorelSpace.Metrizable
import Mathlib.Analysis.SpecificLimits.Basic

/-! # Iterated random contractions

`x ↦ f x w` with independent `w` of law `ν`, contracting a distance-like function `φ` by a factor below one: the law of the
state converges to a unique stationary law from every start. -/

namespace Pxmcmc
open MeasureTheory ProbabilityTheory Filter
open scoped ENNReal Topology

section Seq
variable {W : Type*} [MeasurableSpace W] (ν : Measure W) [IsProbabilityMeasure ν]

/-- The law of an independent sequence. -/
noncomputable abbrev seqLaw : Measure (ℕ → W) := Measure.infinitePi fun _ : ℕ => ν

theorem seqLaw_cons : (ν.prod (seqLaw ν)).map (fun q k => Nat.casesOn k q.1 q.2 : W × (ℕ → W) → ℕ → W) = seqLaw ν := by
  have hm : Measurable (fun q k => Nat.casesOn k q.1 q.2 : W × (ℕ → W) → ℕ → W) := by
    refine measurable_pi_lambda _ fun k => ?_
    cases k with
    | zero => exact measurable_fst
    | succ k => exact (measurable_pi_apply k).comp measurable_snd
  refine Measure.eq_infinitePi _ fun s t ht => ?_
  rw [Measure.map_apply hm (MeasurableSet.pi s.countable_toSet fun i _ => ht i)]
  classical
  -- enlarge `s` by putting `univ` outside
  set t' : ℕ → Set W := fun i => if i ∈ s then t i else Set.univ with ht'
  have hmt' : ∀ i, MeasurableSet (t' i) := fun i => by
    simp only [ht']
    split
    · exact ht i
    · exact .univ
  set s' : Finset ℕ := (s.erase 0).image (fun i => i - 1) with hs'
  have hset : (fun q k => Nat.casesOn k q.1 q.2 : W × (ℕ → W) → ℕ → W) ⁻¹' (Set.pi s t) =
      t' 0 ×ˢ Set.pi s' (fun i => t' (i + 1)) := by
    ext q
    simp only [Set.mem_preimage, Set.mem_pi, Finset.mem_coe, Set.mem_prod]
    constructor
    · intro h
      refine ⟨?_, fun i hi => ?_⟩
      · simp only [ht']
        split
        · exact h 0 (by assumption)
        · trivial
      · simp only [ht']
        split
        · exact h (i + 1) (by assumption)
        · trivial
    · rintro ⟨h0, h1⟩ i hi
      cases i with
      | zero => simpa [ht', hi] using h0
      | succ i =>
        have := h1 i (by simp only [hs', Finset.mem_image, Finset.mem_erase]; exact ⟨i + 1, ⟨by omega, hi⟩, by omega⟩)
        simpa [ht', hi] using this
  rw [hset, Measure.prod_prod, Measure.infinitePi_pi _ fun i _ => hmt' _]
  have hp : ∏ i ∈ s', ν (t' (i + 1)) = ∏ i ∈ s.erase 0, ν (t i) := by
    rw [hs', Finset.prod_image]
    · refine Finset.prod_congr rfl fun i hi => ?_
      have := Finset.mem_erase.mp hi
      have e : i - 1 + 1 = i := by omega
      simp [ht', e, this.2]
    · intro a ha b hb hab
      have h1 := (Finset.mem_erase.mp ha).1
      have h2 := (Finset.mem_erase.mp hb).1
      simp only at hab
      omega
  rw [hp]
  by_cases h0 : 0 ∈ s
  · rw [← Finset.mul_prod_erase s _ h0]
    simp [ht', h0]
  · rw [Finset.erase_eq_of_notMem h0]
    simp [ht', h0]

/-- The first element and the rest of an independent sequence are independent, with the same laws. -/
theorem seqLaw_shift : MeasurePreserving (fun ω : ℕ → W => ((fun k => ω (k + 1), ω 0) : (ℕ → W) × W)) (seqLaw ν)
    ((seqLaw ν).prod ν) := by
  have hg : Measurable (fun ω : ℕ → W => ((fun k => ω (k + 1), ω 0) : (ℕ → W) × W)) := by fun_prop
  refine ⟨hg, ?_⟩
  have hm : Measurable (fun q k => Nat.casesOn k q.1 q.2 : W × (ℕ → W) → ℕ → W) := by
    refine measurable_pi_lambda _ fun k => ?_
    cases k with
    | zero => exact measurable_fst
    | succ k => exact (measurable_pi_apply k).comp measurable_snd
  rw [← seqLaw_cons ν, Measure.map_map hg hm]
  have : ((fun ω : ℕ → W => ((fun k => ω (k + 1), ω 0) : (ℕ → W) × W)) ∘
      (fun q k => Nat.casesOn k q.1 q.2 : W × (ℕ → W) → ℕ → W)) = Prod.swap := rfl
  rw [this, Measure.prod_swap, seqLaw_cons]

end Seq

variable {E W : Type*}

/-- The state after `k` steps, driven by the sequence `w`. -/
def fwState (f : E → W → E) (x0 : E) (w : ℕ → W) : ℕ → E
  | 0 => x0
  | k + 1 => f (fwState f x0 w k) (w k)

/-- The same maps composed in the opposite order. -/
def bkState (f : E → W → E) : ℕ → E → (ℕ → W) → E
  | 0, x, _ => x
  | k + 1, x, w => f (bkState f k x fun j => w (j + 1)) (w 0)

theorem bk_diff (f : E → W → E) (φ : E → E → ℝ) (ρ : ℝ) (hρ : 0 ≤ ρ) (hφ : ∀ x y w, φ (f x w) (f y w) ≤ ρ * φ x y)
    (k : ℕ) (x : E) (w : ℕ → W) : φ (bkState f (k + 1) x w) (bkState f k x w) ≤ ρ ^ k * φ (f x (w k)) x := by
  induction k generalizing w with
  | zero => simp [bkState]
  | succ k ih =>
    have h1 := hφ (bkState f (k + 1) x fun j => w (j + 1)) (bkState f k x fun j => w (j + 1)) (w 0)
    have h2 := mul_le_mul_of_nonneg_left (ih fun j => w (j + 1)) hρ
    calc _ ≤ _ := h1
      _ ≤ _ := h2
      _ = _ := by rw [pow_succ]; ring

theorem bk_start (f : E → W → E) (φ : E → E → ℝ) (ρ : ℝ) (hρ : 0 ≤ ρ) (hφ : ∀ x y w, φ (f x w) (f y w) ≤ ρ * φ x y)
    (k : ℕ) (x y : E) (w : ℕ → W) : φ (bkState f k x w) (bkState f k y w) ≤ ρ ^ k * φ x y := by
  induction k generalizing w with
  | zero => simp [bkState]
  | succ k ih =>
    have h1 := hφ (bkState f k x fun j => w (j + 1)) (bkState f k y fun j => w (j + 1)) (w 0)
    have h2 := mul_le_mul_of_nonneg_left (ih fun j => w (j + 1)) hρ
    calc _ ≤ _ := h1
      _ ≤ _ := h2
      _ = _ := by rw [pow_succ]; ring

variable [MeasurableSpace W] [MeasurableSpace E]

theorem bk_measurable (f : E → W → E) (hf : Measurable (Function.uncurry f)) (k : ℕ) :
    Measurable fun q : E × (ℕ → W) => bkState f k q.1 q.2 := by
  induction k with
  | zero => exact measurable_fst
  | succ k ih =>
    have h1 : Measurable fun q : E × (ℕ → W) => (q.1, fun j => q.2 (j + 1)) := by fun_prop
    have h2 : Measurable fun q : E × (ℕ → W) => q.2 0 := by fun_prop
    exact hf.comp ((ih.comp h1).prodMk h2)

/-- One step on the level of laws. -/
noncomputable def stepLaw (f : E → W → E) (ν : Measure W) (μ : Measure E) : Measure E := (μ.prod ν).map (Function.uncurry f)

variable (ν : Measure W) [IsProbabilityMeasure ν]

theorem stepLaw_prob (f : E → W → E) (hf : Measurable (Function.uncurry f)) (μ : Measure E) [IsProbabilityMeasure μ] :
    IsProbabilityMeasure (stepLaw f ν μ) := Measure.isProbabilityMeasure_map hf.aemeasurable

theorem stepLaw_iter_prob (f : E → W → E) (hf : Measurable (Function.uncurry f)) (μ : Measure E) [IsProbabilityMeasure μ]
    (k : ℕ) : IsProbabilityMeasure ((stepLaw f ν)^[k] μ) := by
  induction k with
  | zero => simpa
  | succ k ih =>
    rw [Function.iterate_succ_apply']
    exact stepLaw_prob ν f hf _

theorem bk_law (f : E → W → E) (hf : Measurable (Function.uncurry f)) (μ : Measure E) [IsProbabilityMeasure μ] (k : ℕ) :
    (μ.prod (seqLaw ν)).map (fun q => bkState f k q.1 q.2) = (stepLaw f ν)^[k] μ := by
  induction k with
  | zero =>
    show (μ.prod (seqLaw ν)).map Prod.fst = μ
    rw [Measure.map_fst_prod]
    simp
  | succ k ih =>
    rw [Function.iterate_succ_apply', ← ih, stepLaw]
    have hbk := bk_measurable f hf k
    have h1 : MeasurePreserving (Prod.map id fun ω : ℕ → W => ((fun k => ω (k + 1), ω 0) : (ℕ → W) × W))
        (μ.prod (seqLaw ν)) (μ.prod ((seqLaw ν).prod ν)) := (MeasurePreserving.id μ).prod (seqLaw_shift ν)
    have h2 := (measurePreserving_prodAssoc μ (seqLaw ν) ν).symm
    have h3 := h2.comp h1
    have e : (fun q : E × (ℕ → W) => bkState f (k + 1) q.1 q.2) =
        (Function.uncurry f ∘ Prod.map (fun q : E × (ℕ → W) => bkState f k q.1 q.2) id) ∘
          (MeasurableEquiv.prodAssoc.symm ∘ Prod.map id fun ω : ℕ → W => ((fun k => ω (k + 1), ω 0) : (ℕ → W) × W)) := rfl
    have hg : Measurable (Function.uncurry f ∘ Prod.map (fun q : E × (ℕ → W) => bkState f k q.1 q.2) (id : W → W)) :=
      hf.comp (hbk.prodMap measurable_id)
    rw [e, ← Measure.map_map hg h3.measurable, h3.map_eq, ← Measure.map_map hf (hbk.prodMap measurable_id),
      ← Measure.map_prod_map _ _ hbk measurable_id, Measure.map_id]

section Limit
variable {E W : Type*} [MeasurableSpace W] [MetricSpace E] [CompleteSpace E] [MeasurableSpace E] [BorelSpace E]
  (ν : Measure W) [IsProbabilityMeasure ν] (f : E → W → E) (φ : E → E → ℝ) (ρ : ℝ)

/-- The assumptions: `φ` dominates the distance, is contracted by every map, and the displacement of `x0` is integrable. -/
structure RandomContraction (x0 : E) : Prop where
  meas : Measurable (Function.uncurry f)
  cont : ∀ w, Continuous fun x => f x w
  nonneg : 0 ≤ ρ
  lt_one : ρ < 1
  dist_le : ∀ x y, dist x y ≤ φ x y
  contract : ∀ x y w, φ (f x w) (f y w) ≤ ρ * φ x y
  start_meas : Measurable fun w => φ (f x0 w) x0
  start_int : ∫⁻ w, ENNReal.ofReal (φ (f x0 w) x0) ∂ν ≠ ⊤

variable {ν f φ ρ}

theorem bk_limit {x0 : E} (h : RandomContraction ν f φ ρ x0) : ∃ Z : (ℕ → W) → E, Measurable Z ∧
    ∀ᵐ w ∂(seqLaw ν), ∀ x, Tendsto (fun k => bkState f k x w) atTop (𝓝 (Z w)) := by
  have hφ0 : ∀ x y, 0 ≤ φ x y := fun x y => dist_nonneg.trans (h.dist_le x y)
  have hm : ∀ k, Measurable fun w : ℕ → W => ENNReal.ofReal (ρ ^ k * φ (f x0 (w k)) x0) := fun k =>
    ((h.start_meas.comp (measurable_pi_apply k)).const_mul _).ennreal_ofReal
  have hint : ∫⁻ w, ∑' k, ENNReal.ofReal (ρ ^ k * φ (f x0 (w k)) x0) ∂(seqLaw ν) ≠ ⊤ := by
    rw [lintegral_tsum fun k => (hm k).aemeasurable]
    have he : ∀ k, ∫⁻ w, ENNReal.ofReal (ρ ^ k * φ (f x0 (w k)) x0) ∂(seqLaw ν) =
        ENNReal.ofReal ρ ^ k * ∫⁻ w, ENNReal.ofReal (φ (f x0 w) x0) ∂ν := by
      intro k
      have hp := measurePreserving_eval_infinitePi (fun _ : ℕ => ν) k
      have h1 : ∀ w : W, ENNReal.ofReal (ρ ^ k * φ (f x0 w) x0) = ENNReal.ofReal ρ ^ k * ENNReal.ofReal (φ (f x0 w) x0) := by
        intro w
        rw [ENNReal.ofReal_mul (pow_nonneg h.nonneg k), ENNReal.ofReal_pow h.nonneg]
      rw [← lintegral_const_mul _ h.start_meas.ennreal_ofReal]
      simp only [← h1]
      exact hp.lintegral_comp ((h.start_meas.const_mul (ρ ^ k)).ennreal_ofReal)
    simp only [he]
    rw [ENNReal.tsum_mul_right, ENNReal.tsum_geometric]
    refine ENNReal.mul_ne_top ?_ h.start_int
    rw [ENNReal.inv_ne_top]
    have : ENNReal.ofReal ρ < 1 := by
      rw [← ENNReal.ofReal_one]
      exact (ENNReal.ofReal_lt_ofReal_iff one_pos).mpr h.lt_one
    exact (tsub_pos_of_lt this).ne'
  have hae := ae_lt_top (Measurable.tsum hm) hint
  have hlim : ∀ᵐ w ∂(seqLaw ν), ∃ z, ∀ x, Tendsto (fun k => bkState f k x w) atTop (𝓝 z) := by
    filter_upwards [hae] with w hw
    have hsum : Summable fun k => ρ ^ k * φ (f x0 (w k)) x0 := by
      have := ENNReal.summable_toReal hw.ne
      refine this.congr fun k => ?_
      exact ENNReal.toReal_ofReal (mul_nonneg (pow_nonneg h.nonneg k) (hφ0 _ _))
    have hc : CauchySeq fun k => bkState f k x0 w := by
      refine cauchySeq_of_dist_le_of_summable _ (fun k => ?_) hsum
      rw [dist_comm]
      exact (h.dist_le _ _).trans (bk_diff f φ ρ h.nonneg h.contract k x0 w)
    obtain ⟨z, hz⟩ := cauchySeq_tendsto_of_complete hc
    refine ⟨z, fun x => ?_⟩
    have h0 : Tendsto (fun k => dist (bkState f k x w) (bkState f k x0 w)) atTop (𝓝 0) := by
      have hb : Tendsto (fun k => ρ ^ k * φ x x0) atTop (𝓝 0) := by
        simpa using (tendsto_pow_atTop_nhds_zero_of_lt_one h.nonneg h.lt_one).mul_const (φ x x0)
      exact squeeze_zero (fun _ => dist_nonneg)
        (fun k => (h.dist_le _ _).trans (bk_start f φ ρ h.nonneg h.contract k x x0 w)) hb
    rwa [tendsto_iff_of_dist h0]
  classical
  let Z0 : (ℕ → W) → E := fun w => if hw : ∃ z, ∀ x, Tendsto (fun k => bkState f k x w) atTop (𝓝 z) then hw.choose else x0
  have hZ0 : ∀ᵐ w ∂(seqLaw ν), ∀ x, Tendsto (fun k => bkState f k x w) atTop (𝓝 (Z0 w)) := by
    filter_upwards [hlim] with w hw x
    simp only [Z0, dif_pos hw]
    exact hw.choose_spec x
  have hZm : AEMeasurable Z0 (seqLaw ν) := by
    refine aemeasurable_of_tendsto_metrizable_ae atTop (f := fun k w => bkState f k x0 w) (fun k => ?_)
      (by filter_upwards [hZ0] with w hw using hw x0)
    exact ((bk_measurable f h.meas k).comp (measurable_const.prodMk measurable_id)).aemeasurable
  refine ⟨hZm.mk Z0, hZm.measurable_mk, ?_⟩
  filter_upwards [hZ0, hZm.ae_eq_mk] with w h1 h2 x
  rw [← h2]
  exact h1 x

/-- There is a stationary law to which the laws converge from every initial law. -/
theorem contraction_limit {x0 : E} (h : RandomContraction ν f φ ρ x0) : ∃ π : Measure E, IsProbabilityMeasure π ∧
    stepLaw f ν π = π ∧ ∀ μ : Measure E, IsProbabilityMeasure μ → ∀ g : BoundedContinuousFunction E ℝ,
      Tendsto (fun k => ∫ x, g x ∂((stepLaw f ν)^[k] μ)) atTop (𝓝 (∫ x, g x ∂π)) := by
  obtain ⟨Z, hZ, hlim⟩ := bk_limit h
  refine ⟨(seqLaw ν).map Z, Measure.isProbabilityMeasure_map hZ.aemeasurable, ?_, fun μ _ g => ?_⟩
  · have hs := seqLaw_shift ν
    have hshift : MeasurePreserving (fun (ω : ℕ → W) k => ω (k + 1)) (seqLaw ν) (seqLaw ν) := by
      have h2 : MeasurePreserving (Prod.fst : (ℕ → W) × W → (ℕ → W)) ((seqLaw ν).prod ν) (seqLaw ν) :=
        measurePreserving_fst
      exact h2.comp hs
    have hae : Z =ᵐ[seqLaw ν] (fun q : (ℕ → W) × W => f (Z q.1) q.2) ∘ fun ω => (fun k => ω (k + 1), ω 0) := by
      filter_upwards [hlim, hshift.quasiMeasurePreserving.ae hlim] with w h1 h2
      have h3 := (tendsto_add_atTop_iff_nat 1).mpr (h1 x0)
      have h4 := ((h.cont (w 0)).tendsto _).comp (h2 x0)
      exact tendsto_nhds_unique h3 h4
    have hg : Measurable fun q : (ℕ → W) × W => f (Z q.1) q.2 := h.meas.comp ((hZ.comp measurable_fst).prodMk measurable_snd)
    conv_rhs => rw [Measure.map_congr hae, ← Measure.map_map hg hs.measurable, hs.map_eq]
    have e : (fun q : (ℕ → W) × W => f (Z q.1) q.2) = Function.uncurry f ∘ Prod.map Z id := rfl
    rw [e, ← Measure.map_map h.meas (hZ.prodMap measurable_id), ← Measure.map_prod_map _ _ hZ measurable_id, Measure.map_id]
    rfl
  · have hb := bk_measurable f h.meas
    have e1 : ∀ k, ∫ x, g x ∂((stepLaw f ν)^[k] μ) = ∫ q, g (bkState f k q.1 q.2) ∂(μ.prod (seqLaw ν)) := by
      intro k
      rw [← bk_law ν f h.meas μ k, integral_map (hb k).aemeasurable g.continuous.aestronglyMeasurable]
    have e2 : ∫ x, g x ∂((seqLaw ν).map Z) = ∫ q, g (Z q.2) ∂(μ.prod (seqLaw ν)) := by
      have hs : MeasurePreserving (Prod.snd : E × (ℕ → W) → (ℕ → W)) (μ.prod (seqLaw ν)) (seqLaw ν) := measurePreserving_snd
      rw [← hs.map_eq, Measure.map_map hZ hs.measurable,
        integral_map (hZ.comp hs.measurable).aemeasurable g.continuous.aestronglyMeasurable, hs.map_eq]
      rfl
    simp only [e1, e2]
    refine tendsto_integral_of_dominated_convergence (fun _ => ‖g‖) (fun k => ?_) (integrable_const _)
      (fun k => Filter.Eventually.of_forall fun q => g.norm_coe_le_norm _) ?_
    · exact (g.continuous.measurable.comp (hb k)).aestronglyMeasurable
    · have hs : MeasurePreserving (Prod.snd : E × (ℕ → W) → (ℕ → W)) (μ.prod (seqLaw ν)) (seqLaw ν) := measurePreserving_snd
      filter_upwards [hs.quasiMeasurePreserving.ae hlim] with q hq
      exact (g.continuous.tendsto _).comp (hq q.1)

/-- The stationary law is unique. -/
theorem contraction_unique {x0 : E} (h : RandomContraction ν f φ ρ x0) (π π' : Measure E) [IsProbabilityMeasure π]
    [IsProbabilityMeasure π'] (h1 : stepLaw f ν π = π) (h2 : stepLaw f ν π' = π') : π = π' := by
  obtain ⟨π0, hp, -, hlim⟩ := contraction_limit h
  have key : ∀ μ : Measure E, IsProbabilityMeasure μ → stepLaw f ν μ = μ → μ = π0 := by
    intro μ hμ hfix
    refine ext_of_forall_integral_eq_of_IsFiniteMeasure fun g => ?_
    have hl := hlim μ hμ g
    have : ∀ k, (stepLaw f ν)^[k] μ = μ := fun k => Function.iterate_fixed hfix k
    simp only [this] at hl
    exact tendsto_nhds_unique tendsto_const_nhds hl
  rw [key π inferInstance h1, key π' inferInstance h2]

end Limit

section Forward
variable {E W : Type*} [MeasurableSpace W] [MeasurableSpace E]

omit [MeasurableSpace W] [MeasurableSpace E] in
theorem fwState_congr (f : E → W → E) (x0 : E) (w w' : ℕ → W) (k : ℕ) (h : ∀ j < k, w j = w' j) :
    fwState f x0 w k = fwState f x0 w' k := by
  induction k with
  | zero => rfl
  | succ k ih =>
    simp only [fwState]
    rw [ih fun j hj => h j (by omega), h k (by omega)]

theorem fwState_measurable (f : E → W → E) (hf : Measurable (Function.uncurry f)) (x0 : E) {α : Type*} [MeasurableSpace α]
    (w : α → ℕ → W) (hw : ∀ j, Measurable fun u => w u j) (k : ℕ) : Measurable fun u => fwState f x0 (w u) k := by
  induction k with
  | zero => exact measurable_const
  | succ k ih => exact hf.comp (ih.prodMk (hw k))

/-- The law of the state driven by independent noise of law `ν`. -/
theorem fwState_law {Ω : Type*} [MeasurableSpace Ω] (P : Measure Ω) [IsProbabilityMeasure P] (V : ℕ → Ω → W)
    (hm : ∀ k, Measurable (V k)) (hi : iIndepFun V P) (ν : Measure W) [IsProbabilityMeasure ν] (hl : ∀ k, P.map (V k) = ν)
    (f : E → W → E) (hf : Measurable (Function.uncurry f)) (x0 : E) (k : ℕ) :
    P.map (fun ω => fwState f x0 (fun j => V j ω) k) = (stepLaw f ν)^[k] (Measure.dirac x0) := by
  induction k with
  | zero =>
    show P.map (fun _ => x0) = _
    rw [Measure.map_const, measure_univ, one_smul]
    rfl
  | succ k ih =>
    rw [Function.iterate_succ_apply', ← ih, stepLaw]
    obtain ⟨ω0⟩ : Nonempty Ω := nonempty_of_isProbabilityMeasure P
    have hX : (fun ω => fwState f x0 (fun j => V j ω) k) =
        (fun u : (Finset.range k → W) => fwState f x0 (fun j => if h : j ∈ Finset.range k then u ⟨j, h⟩ else V 0 ω0) k) ∘
          fun ω (j : Finset.range k) => V j ω := by
      funext ω
      refine fwState_congr _ _ _ _ _ fun j hj => ?_
      simp [hj]
    have hind : IndepFun (fun ω => fwState f x0 (fun j => V j ω) k) (V k) P := by
      have h := hi.indepFun_finset (Finset.range k) {k} (by simp) hm
      rw [hX]
      refine h.comp (ψ := fun u : (({k} : Finset ℕ) → W) => u ⟨k, Finset.mem_singleton_self k⟩) ?_ (by fun_prop)
      refine fwState_measurable _ hf _ _ (fun j => ?_) _
      by_cases hj : j ∈ Finset.range k
      · simp only [hj, dif_pos]
        fun_prop
      · simp only [hj, dif_neg, not_false_eq_true]
        fun_prop
    have hfm := fwState_measurable f hf x0 (fun ω j => V j ω) hm k
    have hj := (indepFun_iff_map_prod_eq_prod_map_map hfm.aemeasurable (hm k).aemeasurable).mp hind
    rw [hl] at hj
    rw [← hj, Measure.map_map hf (hfm.prodMk (hm k))]
    rfl

end Forward

end Pxmcmc
