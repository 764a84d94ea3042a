import Verif.Lemmas.SavedRows
import Mathlib.Analysis.SpecialFunctions.Log.Basic
import Mathlib.MeasureTheory.Function.SpecialFunctions.Basic

/-! # When the accepted states of a stationary chain have the stationary law -/

namespace Pxmcmc
open MeasureTheory Filter
open scoped ENNReal Topology

set_option linter.unusedSectionVars false

section Ratio
variable {E V : Type} [MeasurableSpace E] [MeasurableSpace V] {κ : Measure V} [IsProbabilityMeasure κ] {f : E → V → E}
  {A : Set (E × V)} {ρ : Measure E} [IsProbabilityMeasure ρ] {φ : E → ℝ≥0∞}

/-- The probability that a step from `x` is accepted. -/
noncomputable def accW (κ : Measure V) (A : Set (E × V)) (x : E) : ℝ≥0∞ := κ {v | (x, v) ∈ A}

theorem accW_meas (hA : MeasurableSet A) : Measurable (accW κ A) := measurable_measure_prodMk_left hA

theorem accW_le_one (x : E) : accW κ A x ≤ 1 := prob_le_one

/-- The means of a function over the accepted steps. -/
theorem flow_mean (hA : MeasurableSet A) (g : E × V → ℝ≥0∞) (hg : Measurable g) :
    ∫⁻ q, g q ∂((ρ.prod κ).restrict A) = ∫⁻ x, ∫⁻ v, A.indicator g (x, v) ∂κ ∂ρ := by
  rw [← lintegral_indicator hA, lintegral_prod _ (hg.indicator hA).aemeasurable]

theorem flow_fst (hA : MeasurableSet A) (hφ : Measurable φ) :
    ∫⁻ q, φ q.1 ∂((ρ.prod κ).restrict A) = ∫⁻ x, φ x * accW κ A x ∂ρ := by
  rw [flow_mean hA (fun q => φ q.1) (hφ.comp measurable_fst)]
  refine lintegral_congr fun x => ?_
  have hm : MeasurableSet {v | (x, v) ∈ A} := measurable_prodMk_left hA
  have e : ∀ v, A.indicator (fun q : E × V => φ q.1) (x, v) = Set.indicator {v | (x, v) ∈ A} (fun _ => φ x) v := by
    intro v
    by_cases h : (x, v) ∈ A
    · rw [Set.indicator_of_mem h, Set.indicator_of_mem (show v ∈ {v | (x, v) ∈ A} from h)]
    · rw [Set.indicator_of_notMem h, Set.indicator_of_notMem (show v ∉ {v | (x, v) ∈ A} from h)]
  simp only [e]
  rw [lintegral_indicator_const hm]
  rfl

/-- In a stationary chain the states before and after an accepted step have the same law. -/
theorem flow_marginals (hf : Measurable (Function.uncurry f)) (hA : MeasurableSet A) (hrej : ∀ s v, (s, v) ∉ A → f s v = s)
    (hinv : stepLaw f κ ρ = ρ) :
    ((ρ.prod κ).restrict A).map (Function.uncurry f) = ((ρ.prod κ).restrict A).map Prod.fst := by
  ext S hS
  have h1 : Measurable (S.indicator (1 : E → ℝ≥0∞)) := measurable_one.indicator hS
  rw [← lintegral_indicator_one hS, ← lintegral_indicator_one hS, lintegral_map h1 hf, lintegral_map h1 measurable_fst, flow_fst hA h1,
    flow_mean hA (fun q => S.indicator 1 (Function.uncurry f q)) (h1.comp hf)]
  exact acc_weighted hf hA hrej hinv h1 (fun x => Set.indicator_le_self' (fun _ _ => zero_le) x)

/-- The mean after an accepted step. -/
theorem flow_snd (hf : Measurable (Function.uncurry f)) (hA : MeasurableSet A) (hrej : ∀ s v, (s, v) ∉ A → f s v = s)
    (hinv : stepLaw f κ ρ = ρ) (hφ : Measurable φ) :
    ∫⁻ q, φ (f q.1 q.2) ∂((ρ.prod κ).restrict A) = ∫⁻ x, φ x * accW κ A x ∂ρ := by
  rw [← flow_fst hA hφ, ← lintegral_map hφ measurable_fst, ← flow_marginals hf hA hrej hinv, lintegral_map hφ hf]
  rfl

/-- If the first accepted state of the stationary chain has the stationary law, accepted steps do not change the acceptance probability. -/
theorem first_preserved (hf : Measurable (Function.uncurry f)) (hA : MeasurableSet A) (hrej : ∀ s v, (s, v) ∉ A → f s v = s)
    (hpos : ∀ s, κ {v | (s, v) ∈ A} ≠ 0) (hinv : stepLaw f κ ρ = ρ)
    (h : ∫⁻ x, accF κ f A (accW κ A) x / accW κ A x ∂ρ = ∫⁻ x, accW κ A x ∂ρ) :
    ∀ᵐ q ∂(ρ.prod κ), accW κ A (f q.1 q.2) = accW κ A q.1 := by
  set J := (ρ.prod κ).restrict A with hJ
  set a : E → ℝ := fun x => (accW κ A x).toReal with ha
  have hnt : ∀ x, accW κ A x ≠ ∞ := fun x => ne_top_of_le_ne_top ENNReal.one_ne_top (accW_le_one x)
  have ham : Measurable a := (accW_meas hA).ennreal_toReal
  have ha0 : ∀ x, 0 < a x := fun x => ENNReal.toReal_pos (hpos x) (hnt x)
  have ha1 : ∀ x, a x ≤ 1 := fun x => ENNReal.toReal_le_of_le_ofReal zero_le_one (by simpa using accW_le_one x)
  have hae : ∀ x, accW κ A x = ENNReal.ofReal (a x) := fun x => (ENNReal.ofReal_toReal (hnt x)).symm
  have hfin : IsFiniteMeasure J := inferInstance
  -- the mean ratio is one
  have hr : ∫⁻ q, ENNReal.ofReal (a (f q.1 q.2) / a q.1) ∂J = ∫⁻ q, 1 ∂J := by
    have hm : Measurable fun q : E × V => ENNReal.ofReal (a (f q.1 q.2) / a q.1) :=
      ((ham.comp hf).div (ham.comp measurable_fst)).ennreal_ofReal
    have e1 : ∫⁻ q, 1 ∂J = ∫⁻ x, accW κ A x ∂ρ := by
      rw [flow_fst hA (measurable_const (a := (1 : ℝ≥0∞)))]
      simp
    rw [e1, ← h, flow_mean hA _ hm]
    refine lintegral_congr fun x => ?_
    unfold accF
    rw [ENNReal.div_eq_inv_mul, ← lintegral_const_mul _ (show Measurable fun v => A.indicator (fun q : E × V => accW κ A (f q.1 q.2)) (x, v) from
      (((accW_meas hA).comp hf).indicator hA).comp measurable_prodMk_left)]
    refine lintegral_congr fun v => ?_
    by_cases hv : (x, v) ∈ A
    · rw [Set.indicator_of_mem hv, Set.indicator_of_mem hv]
      simp only
      rw [ENNReal.ofReal_div_of_pos (ha0 x), ← hae, ← hae, ENNReal.div_eq_inv_mul]
    · rw [Set.indicator_of_notMem hv, Set.indicator_of_notMem hv, mul_zero]
  -- the logarithm is integrable
  have hlm : Measurable fun x => Real.log (a x) := Real.measurable_log.comp ham
  have hlog : Integrable (fun x => Real.log (a x)) (J.map Prod.fst) := by
    refine ⟨hlm.aestronglyMeasurable, ?_⟩
    rw [hasFiniteIntegral_iff_enorm, lintegral_map hlm.enorm measurable_fst, flow_fst hA hlm.enorm]
    refine lt_of_le_of_lt (lintegral_mono (g := fun _ => 1) fun x => ?_) (by simp)
    show ‖Real.log (a x)‖ₑ * accW κ A x ≤ 1
    rw [hae x, ← ofReal_norm, ← ENNReal.ofReal_mul (norm_nonneg _), ENNReal.ofReal_le_one, Real.norm_eq_abs]
    have := (Real.abs_log_mul_self_lt (a x) (ha0 x) (ha1 x)).le
    rwa [abs_mul, abs_of_pos (ha0 x)] at this
  have hl1 : Integrable (fun q : E × V => Real.log (a q.1)) J := hlog.comp_measurable measurable_fst
  have hlog2 : Integrable (fun x => Real.log (a x)) (J.map (Function.uncurry f)) := by
    rw [flow_marginals hf hA hrej hinv]
    exact hlog
  have hl2 : Integrable (fun q : E × V => Real.log (a (f q.1 q.2))) J := hlog2.comp_measurable hf
  have hleq : ∫ q, Real.log (a (f q.1 q.2)) ∂J = ∫ q, Real.log (a q.1) ∂J := by
    have e1 := integral_map (μ := J) hf.aemeasurable (f := fun x => Real.log (a x)) hlm.aestronglyMeasurable
    have e2 := integral_map (μ := J) measurable_fst.aemeasurable (f := fun x => Real.log (a x)) hlm.aestronglyMeasurable
    rw [flow_marginals hf hA hrej hinv, e2] at e1
    exact e1.symm
  have hrm : Measurable fun q : E × V => a (f q.1 q.2) / a q.1 := (ham.comp hf).div (ham.comp measurable_fst)
  have hr0 : ∀ q : E × V, 0 < a (f q.1 q.2) / a q.1 := fun q => div_pos (ha0 _) (ha0 _)
  have hri : Integrable (fun q : E × V => a (f q.1 q.2) / a q.1) J := by
    refine ⟨hrm.aestronglyMeasurable, ?_⟩
    rw [hasFiniteIntegral_iff_ofReal (Eventually.of_forall fun q => (hr0 q).le), hr]
    simp
  have hrI : ∫ q, a (f q.1 q.2) / a q.1 ∂J = ∫ q, (1 : ℝ) ∂J := by
    rw [integral_eq_lintegral_of_nonneg_ae (Eventually.of_forall fun q => (hr0 q).le) hrm.aestronglyMeasurable, hr]
    simp [Measure.real]
  -- the gap in `log r ≤ r - 1` vanishes
  have hg0 : ∀ q : E × V, 0 ≤ a (f q.1 q.2) / a q.1 - 1 - (Real.log (a (f q.1 q.2)) - Real.log (a q.1)) := by
    intro q
    have := Real.log_le_sub_one_of_pos (hr0 q)
    rw [Real.log_div (ha0 _).ne' (ha0 _).ne'] at this
    linarith
  have hgI : ∫ q, (a (f q.1 q.2) / a q.1 - 1 - (Real.log (a (f q.1 q.2)) - Real.log (a q.1))) ∂J = 0 := by
    have i1 : Integrable (fun q : E × V => a (f q.1 q.2) / a q.1 - 1) J := hri.sub (integrable_const _)
    have i2 : Integrable (fun q : E × V => Real.log (a (f q.1 q.2)) - Real.log (a q.1)) J := hl2.sub hl1
    rw [integral_sub i1 i2, integral_sub hri (integrable_const _), integral_sub hl2 hl1, hleq, hrI]
    ring
  have hz := (integral_eq_zero_iff_of_nonneg (fun q => hg0 q) ((hri.sub (integrable_const _)).sub (hl2.sub hl1))).mp hgI
  rw [hJ, EventuallyEq, ae_restrict_iff' hA] at hz
  filter_upwards [hz] with q hq
  by_cases hqA : q ∈ A
  · have h1 := hq hqA
    simp only [Pi.zero_apply] at h1
    rw [← Real.log_div (ha0 _).ne' (ha0 _).ne'] at h1
    have h2 : a (f q.1 q.2) / a q.1 = 1 := by
      by_contra hne
      have := Real.log_lt_sub_one_of_pos (hr0 q) hne
      linarith
    rw [div_eq_one_iff_eq (ha0 _).ne'] at h2
    rw [hae, hae, h2]
  · rw [hrej q.1 q.2 hqA]

/-- The same, with the law of the first accepted state given on sets. -/
theorem first_preserved_sets (hf : Measurable (Function.uncurry f)) (hA : MeasurableSet A) (hrej : ∀ s v, (s, v) ∉ A → f s v = s)
    (hpos : ∀ s, κ {v | (s, v) ∈ A} ≠ 0) (hinv : stepLaw f κ ρ = ρ)
    (h : ∀ S : Set E, MeasurableSet S → ∫⁻ x, accF κ f A (S.indicator 1) x / accW κ A x ∂ρ = ρ S) :
    ∀ᵐ q ∂(ρ.prod κ), accW κ A (f q.1 q.2) = accW κ A q.1 := by
  refine first_preserved hf hA hrej hpos hinv ?_
  have ham := accW_meas (κ := κ) hA
  have hwm : Measurable fun q : E × V => (accW κ A q.1)⁻¹ := (ham.comp measurable_fst).inv
  set μ := (((ρ.prod κ).restrict A).withDensity fun q => (accW κ A q.1)⁻¹).map (Function.uncurry f) with hμ
  have hmean : ∀ φ : E → ℝ≥0∞, Measurable φ → ∫⁻ x, φ x ∂μ = ∫⁻ x, accF κ f A φ x / accW κ A x ∂ρ := by
    intro φ hφ
    have hc : Measurable fun q : E × V => φ (Function.uncurry f q) := hφ.comp hf
    rw [hμ, lintegral_map hφ hf, lintegral_withDensity_eq_lintegral_mul _ hwm hc, flow_mean hA _ (hwm.mul hc)]
    refine lintegral_congr fun x => ?_
    unfold accF
    rw [ENNReal.div_eq_inv_mul, ← lintegral_const_mul _ (show Measurable fun v => A.indicator (fun q : E × V => φ (f q.1 q.2)) (x, v) from
      ((hφ.comp hf).indicator hA).comp measurable_prodMk_left)]
    refine lintegral_congr fun v => ?_
    by_cases hv : (x, v) ∈ A
    · rw [Set.indicator_of_mem hv, Set.indicator_of_mem hv]
      rfl
    · rw [Set.indicator_of_notMem hv, Set.indicator_of_notMem hv, mul_zero]
  have e : μ = ρ := by
    ext S hS
    rw [← h S hS, ← hmean _ (measurable_one.indicator hS), lintegral_indicator_one hS]
  rw [← hmean _ ham, e]

/-- A function of the state that the steps do not change can be taken out of the means. -/
theorem acc_out (hf : Measurable (Function.uncurry f)) (hA : MeasurableSet A) {χ : E → ℝ≥0∞}
    (h : ∀ᵐ q ∂(ρ.prod κ), χ (f q.1 q.2) = χ q.1) {ψ : E → ℝ≥0∞} (hψ : Measurable ψ)
    {η : E → ℝ≥0∞} (hη : ∀ᵐ x ∂ρ, η x = χ x * ψ x) (hinv : stepLaw f κ ρ = ρ) :
    ∀ᵐ x ∂ρ, accF κ f A η x = χ x * accF κ f A ψ x := by
  have hq : ∀ᵐ q ∂(ρ.prod κ), η (f q.1 q.2) = χ (f q.1 q.2) * ψ (f q.1 q.2) := by
    have : ∀ᵐ x ∂((ρ.prod κ).map (Function.uncurry f)), η x = χ x * ψ x := by
      have e : (ρ.prod κ).map (Function.uncurry f) = ρ := hinv
      rw [e]
      exact hη
    exact ae_of_ae_map hf.aemeasurable this
  filter_upwards [Measure.ae_ae_of_ae_prod hq, Measure.ae_ae_of_ae_prod h] with x h1 h2
  unfold accF
  rw [← lintegral_const_mul _ (show Measurable fun v => A.indicator (fun q : E × V => ψ (f q.1 q.2)) (x, v) from
    ((hψ.comp hf).indicator hA).comp measurable_prodMk_left)]
  refine lintegral_congr_ae ?_
  filter_upwards [h1, h2] with v e1 e2
  by_cases hv : (x, v) ∈ A
  · rw [Set.indicator_of_mem hv, Set.indicator_of_mem hv]
    simp only at e1 e2 ⊢
    rw [e1, e2]
  · rw [Set.indicator_of_notMem hv, Set.indicator_of_notMem hv, mul_zero]

theorem accF_univ (φ : E → ℝ≥0∞) : accF κ f Set.univ φ = fullF κ f φ := by
  funext x
  unfold accF fullF
  simp

theorem iter_out (hf : Measurable (Function.uncurry f)) {χ : E → ℝ≥0∞}
    (h : ∀ᵐ q ∂(ρ.prod κ), χ (f q.1 q.2) = χ q.1) {ψ : E → ℝ≥0∞} (hψ : Measurable ψ)
    {η : E → ℝ≥0∞} (hη : ∀ᵐ x ∂ρ, η x = χ x * ψ x) (hinv : stepLaw f κ ρ = ρ) (k : ℕ) :
    ∀ᵐ x ∂ρ, (fullF κ f)^[k] η x = χ x * (fullF κ f)^[k] ψ x := by
  induction k with
  | zero => exact hη
  | succ k ih =>
    have := acc_out hf MeasurableSet.univ h (iter_meas hf hψ k) ih hinv
    rw [accF_univ, accF_univ] at this
    rw [Function.iterate_succ_apply', Function.iterate_succ_apply']
    exact this

theorem pot_out (hf : Measurable (Function.uncurry f)) (hA : MeasurableSet A) {χ : E → ℝ≥0∞}
    (h : ∀ᵐ q ∂(ρ.prod κ), χ (f q.1 q.2) = χ q.1) (hφ : Measurable φ) (hinv : stepLaw f κ ρ = ρ) (s : ℕ) :
    ∀ᵐ x ∂ρ, pot κ f A s (fun x => χ x * φ x) x = χ x * pot κ f A s φ x := by
  have hN : ∀ N, ∀ᵐ x ∂ρ, potN κ f A s (fun x => χ x * φ x) N x = χ x * potN κ f A s φ N x := by
    intro N
    induction N with
    | zero => exact Eventually.of_forall fun x => by simp [potN]
    | succ N ih =>
      have h1 := acc_out hf hA h hφ (η := fun x => χ x * φ x) (Eventually.of_forall fun x => rfl) hinv
      have h2 := acc_out hf hA.compl h (iter_meas hf (potN_meas hf hA hφ s N) s)
        (iter_out hf h (potN_meas hf hA hφ s N) ih hinv s) hinv
      filter_upwards [h1, h2] with x e1 e2
      simp only [potN]
      rw [e1, e2, mul_add]
  filter_upwards [ae_all_iff.mpr hN] with x hx
  unfold pot
  rw [ENNReal.mul_iSup]
  exact iSup_congr hx

/-- If the steps of a stationary chain do not change the acceptance probability, the first accepted state on a grid has the stationary law. -/
theorem pot_mean (hf : Measurable (Function.uncurry f)) (hA : MeasurableSet A) (hrej : ∀ s v, (s, v) ∉ A → f s v = s)
    (hpos : ∀ s, κ {v | (s, v) ∈ A} ≠ 0) (hinv : stepLaw f κ ρ = ρ)
    (h : ∀ᵐ q ∂(ρ.prod κ), accW κ A (f q.1 q.2) = accW κ A q.1) (s : ℕ) (hφ : Measurable φ) (hφ1 : ∀ x, φ x ≤ 1) :
    ∫⁻ x, pot κ f A s φ x ∂ρ = ∫⁻ x, φ x ∂ρ := by
  have ham := accW_meas (κ := κ) hA
  have hnt : ∀ x, accW κ A x ≠ ∞ := fun x => ne_top_of_le_ne_top ENNReal.one_ne_top (accW_le_one x)
  have hVm := pot_meas (κ := κ) hf hA hφ s
  -- cut-off weights
  set χ : ℕ → E → ℝ≥0∞ := fun m x => min 1 ((accW κ A x)⁻¹ / (m + 1 : ℕ)) with hχd
  have hχm : ∀ m, Measurable (χ m) := fun m => measurable_const.min (ham.inv.div_const _)
  have hχ : ∀ m, ∀ᵐ q ∂(ρ.prod κ), χ m (f q.1 q.2) = χ m q.1 := by
    intro m
    filter_upwards [h] with q hq
    simp only [hχd, hq]
  have hw : ∀ m x, (m + 1 : ℕ) * (χ m x * accW κ A x) = min ((m + 1 : ℕ) * accW κ A x) 1 := by
    intro m x
    have hm0 : ((m + 1 : ℕ) : ℝ≥0∞) ≠ 0 := by simp
    have hmt : ((m + 1 : ℕ) : ℝ≥0∞) ≠ ∞ := ENNReal.natCast_ne_top _
    simp only [hχd]
    rw [min_mul_of_nonneg _ _ zero_le, one_mul, mul_min_of_nonneg _ _ zero_le]
    congr 1
    rw [ENNReal.div_eq_inv_mul, mul_assoc, ENNReal.inv_mul_cancel (show accW κ A x ≠ 0 from hpos x) (hnt x), mul_one, ENNReal.mul_inv_cancel hm0 hmt]
  have hsup : ∀ x, ⨆ m : ℕ, (m + 1 : ℕ) * (χ m x * accW κ A x) = 1 := by
    intro x
    refine le_antisymm (iSup_le fun m => by rw [hw]; exact min_le_right _ _) ?_
    obtain ⟨m, hm⟩ := ENNReal.exists_nat_mul_gt (a := accW κ A x) (b := 1) (hpos x) ENNReal.one_ne_top
    refine le_trans ?_ (le_iSup _ m)
    rw [hw]
    refine le_min (hm.le.trans ?_) le_rfl
    gcongr
    exact Nat.le_succ m
  have hmono : ∀ x, Monotone fun m : ℕ => (m + 1 : ℕ) * (χ m x * accW κ A x) := by
    intro x i j hij
    simp only [hw]
    gcongr
  have hlim : ∀ ψ : E → ℝ≥0∞, Measurable ψ → ∫⁻ x, ψ x ∂ρ = ⨆ m : ℕ, (m + 1 : ℕ) * ∫⁻ x, χ m x * ψ x * accW κ A x ∂ρ := by
    intro ψ hψ
    have e : ∀ m : ℕ, (m + 1 : ℕ) * ∫⁻ x, χ m x * ψ x * accW κ A x ∂ρ = ∫⁻ x, (m + 1 : ℕ) * (χ m x * accW κ A x) * ψ x ∂ρ := by
      intro m
      rw [← lintegral_const_mul _ (show Measurable fun x => χ m x * ψ x * accW κ A x from ((hχm m).mul hψ).mul ham)]
      refine lintegral_congr fun x => ?_
      ring
    simp only [e]
    rw [← lintegral_iSup (f := fun (m : ℕ) x => ((m + 1 : ℕ) : ℝ≥0∞) * (χ m x * accW κ A x) * ψ x)
      (fun m => (measurable_const.mul ((hχm m).mul ham)).mul hψ)
      (fun i j hij x => mul_le_mul_left (hmono x hij) (ψ x))]
    refine lintegral_congr fun x => ?_
    rw [← ENNReal.iSup_mul, hsup, one_mul]
  have hTm := iter_meas (κ := κ) hf hVm s
  have key : ∀ m : ℕ, ∫⁻ x, χ m x * (fullF κ f)^[s] (pot κ f A s φ) x * accW κ A x ∂ρ = ∫⁻ x, χ m x * φ x * accW κ A x ∂ρ := by
    intro m
    have hle : ∀ x, χ m x * φ x ≤ 1 := fun x => mul_le_one' (min_le_left _ _) (hφ1 x)
    have hm : Measurable fun x => χ m x * φ x := (hχm m).mul hφ
    have h1 := weighted_fixed (κ := κ) hf hA hinv s hm hle
    rw [acc_weighted hf hA hrej hinv (iter_meas hf (pot_meas hf hA hm s) s) (iter_le_one (pot_le_one hf hA hle s) s),
      acc_weighted hf hA hrej hinv hm hle] at h1
    refine Eq.trans (lintegral_congr_ae ?_) h1
    filter_upwards [iter_out hf (hχ m) hVm (pot_out hf hA (hχ m) hφ hinv s) hinv s] with x hx
    rw [hx]
    rfl
  rw [hlim φ hφ, ← iter_invariant hf hinv s hVm, hlim _ hTm]
  exact iSup_congr fun m => by rw [key m]

end Ratio

end Pxmcmc
