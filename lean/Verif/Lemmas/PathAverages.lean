import Verif.Lemmas.Birkhoff
import Verif.Lemmas.SavedAverages
import Mathlib.MeasureTheory.Constructions.Cylinders

/-! # Averages along random paths converge with probability one -/

namespace Pxmcmc
open MeasureTheory ProbabilityTheory Filter
open scoped ENNReal Topology
set_option linter.unusedSectionVars false

/-- The average of a sequence has the limit of the average of a tail of it. -/
theorem average_tail (c : ℕ → ℝ) (τ : ℕ) (h : Tendsto (fun n : ℕ => (∑ j ∈ Finset.range n, c (τ + j)) / n) atTop (𝓝 0)) :
    Tendsto (fun n : ℕ => (∑ j ∈ Finset.range n, c j) / n) atTop (𝓝 0) := by
  rw [← tendsto_add_atTop_iff_nat τ]
  have h1 : Tendsto (fun n : ℕ => |(∑ j ∈ Finset.range τ, c j) / ((n + τ : ℕ) : ℝ)| + |(∑ j ∈ Finset.range n, c (τ + j)) / n|) atTop (𝓝 (|0| + |0|)) := by
    have h2 := (tendsto_const_div_atTop_nhds_zero_nat (∑ j ∈ Finset.range τ, c j)).comp (tendsto_add_atTop_nat τ)
    exact h2.abs.add h.abs
  simp only [abs_zero, add_zero] at h1
  refine squeeze_zero_norm (fun n => ?_) h1
  rw [Real.norm_eq_abs, add_comm n τ, Finset.sum_range_add, add_div]
  refine (abs_add_le _ _).trans (add_le_add le_rfl ?_)
  rcases Nat.eq_zero_or_pos n with rfl | hn
  · simp
  · rw [abs_div, abs_div]
    refine div_le_div_of_nonneg_left (abs_nonneg _) (by rw [Nat.abs_cast]; exact_mod_cast hn) ?_
    rw [Nat.abs_cast, Nat.abs_cast]
    exact_mod_cast Nat.le_add_left n τ

section Path
variable {E V : Type} [MeasurableSpace E] [MeasurableSpace V] {κ : Measure V} [IsProbabilityMeasure κ]

/-- One step: a new state and the random numbers that are left. -/
def pathStep (f : E → V → E) (q : E × (ℕ → V)) : E × (ℕ → V) := (f q.1 (q.2 0), fun k => q.2 (k + 1))

theorem pathStep_iterate (f : E → V → E) (q : E × (ℕ → V)) (k : ℕ) :
    (pathStep f)^[k] q = (fwState f q.1 q.2 k, fun j => q.2 (k + j)) := by
  induction k with
  | zero =>
    refine Prod.ext rfl (funext fun j => ?_)
    show q.2 j = q.2 (0 + j)
    rw [zero_add]
  | succ k ih =>
    rw [Function.iterate_succ_apply', ih]
    refine Prod.ext rfl (funext fun j => ?_)
    show q.2 (k + (j + 1)) = q.2 (k + 1 + j)
    rw [show k + (j + 1) = k + 1 + j by omega]

/-- The step keeps the law of a stationary start and independent random numbers. -/
theorem pathStep_preserving {f : E → V → E} (hf : Measurable (Function.uncurry f)) (ρ : Measure E) [IsProbabilityMeasure ρ]
    (hinv : stepLaw f κ ρ = ρ) : MeasurePreserving (pathStep f) (ρ.prod (seqLaw κ)) (ρ.prod (seqLaw κ)) := by
  have h1 : MeasurePreserving (Prod.map id fun ω : ℕ → V => ((fun k => ω (k + 1), ω 0) : (ℕ → V) × V)) (ρ.prod (seqLaw κ))
      (ρ.prod ((seqLaw κ).prod κ)) := (MeasurePreserving.id ρ).prod (seqLaw_shift κ)
  have h2 : MeasurePreserving (Prod.map id Prod.swap : E × ((ℕ → V) × V) → E × (V × (ℕ → V))) (ρ.prod ((seqLaw κ).prod κ))
      (ρ.prod (κ.prod (seqLaw κ))) := (MeasurePreserving.id ρ).prod Measure.measurePreserving_swap
  have h3 : MeasurePreserving (MeasurableEquiv.prodAssoc.symm : E × (V × (ℕ → V)) ≃ᵐ (E × V) × (ℕ → V)) (ρ.prod (κ.prod (seqLaw κ)))
      ((ρ.prod κ).prod (seqLaw κ)) := (measurePreserving_prodAssoc ρ κ (seqLaw κ)).symm
  have h4 : MeasurePreserving (Prod.map (Function.uncurry f) id : (E × V) × (ℕ → V) → E × (ℕ → V)) ((ρ.prod κ).prod (seqLaw κ))
      (ρ.prod (seqLaw κ)) := MeasurePreserving.prod ⟨hf, hinv⟩ (MeasurePreserving.id _)
  exact h4.comp (h3.comp (h2.comp h1))

variable {Ω : Type} [MeasurableSpace Ω] {P : Measure Ω} [IsProbabilityMeasure P] {S0 : Ω → E} {v : ℕ → Ω → V}

theorem SeqIndep.box (hs : SeqIndep P S0 v κ) (A : Set E) (hA : MeasurableSet A) (t : ℕ → Set V) (ht : ∀ i, MeasurableSet (t i)) (k : ℕ) :
    P {ω | S0 ω ∈ A ∧ ∀ i < k, v i ω ∈ t i} = P {ω | S0 ω ∈ A} * ∏ i ∈ Finset.range k, κ (t i) := by
  induction k with
  | zero => simp
  | succ k ih =>
    have hB : MeasurableSet {q : E × (Fin k → V) | q.1 ∈ A ∧ ∀ i : Fin k, q.2 i ∈ t i} := by
      have h1 : MeasurableSet {q : E × (Fin k → V) | q.1 ∈ A} := measurable_fst hA
      have h2 : MeasurableSet {q : E × (Fin k → V) | ∀ i : Fin k, q.2 i ∈ t i} := by
        have e : {q : E × (Fin k → V) | ∀ i : Fin k, q.2 i ∈ t i} = ⋂ i : Fin k, {q | q.2 i ∈ t i} := by ext; simp
        rw [e]
        exact MeasurableSet.iInter fun i => ((measurable_pi_apply i).comp measurable_snd) (ht i)
      exact h1.inter h2
    have h1 := (hs.indep k).measure_inter_preimage_eq_mul _ _ hB (ht k)
    have e1 : (fun ω => (S0 ω, fun i : Fin k => v i ω)) ⁻¹' {q : E × (Fin k → V) | q.1 ∈ A ∧ ∀ i : Fin k, q.2 i ∈ t i} =
        {ω | S0 ω ∈ A ∧ ∀ i < k, v i ω ∈ t i} := by
      ext ω
      exact ⟨fun h => ⟨h.1, fun i hi => h.2 ⟨i, hi⟩⟩, fun h => ⟨h.1, fun i => h.2 i i.2⟩⟩
    have e2 : {ω | S0 ω ∈ A ∧ ∀ i < k + 1, v i ω ∈ t i} = {ω | S0 ω ∈ A ∧ ∀ i < k, v i ω ∈ t i} ∩ v k ⁻¹' t k := by
      ext ω
      refine ⟨fun h => ⟨⟨h.1, fun i hi => h.2 i (by omega)⟩, h.2 k (by omega)⟩, fun h => ⟨h.1.1, fun i hi => ?_⟩⟩
      rcases Nat.lt_succ_iff_lt_or_eq.mp hi with hi | rfl
      · exact h.1.2 i hi
      · exact h.2
    rw [e1, ← e2, ih, ← Measure.map_apply (hs.meas k) (ht k), hs.law] at h1
    rw [h1, Finset.prod_range_succ, mul_assoc]

/-- Start and random numbers together have the product law. -/
theorem SeqIndep.law_path (hs : SeqIndep P S0 v κ) :
    MeasurePreserving (fun ω => (S0 ω, fun k => v k ω)) P ((P.map S0).prod (seqLaw κ)) := by
  have hm : Measurable fun ω => (S0 ω, fun k => v k ω) := hs.meas_start.prodMk (measurable_pi_lambda _ fun k => hs.meas k)
  have hp : IsProbabilityMeasure (P.map S0) := Measure.isProbabilityMeasure_map hs.meas_start.aemeasurable
  refine ⟨hm, Eq.symm ?_⟩
  have huniv : (Set.univ : Set (ℕ → V)) ∈ squareCylinders fun _ : ℕ => {s : Set V | MeasurableSet s} :=
    ⟨∅, fun _ => Set.univ, fun i _ => MeasurableSet.univ, by simp⟩
  refine Measure.prod_eq_generateFrom (C := {s | MeasurableSet s}) (D := squareCylinders fun _ : ℕ => {s : Set V | MeasurableSet s})
    MeasurableSpace.generateFrom_measurableSet generateFrom_squareCylinders MeasurableSpace.isPiSystem_measurableSet
    (isPiSystem_squareCylinders (fun _ => MeasurableSpace.isPiSystem_measurableSet) fun _ => MeasurableSet.univ)
    (Measure.toFiniteSpanningSetsIn _)
    ⟨fun _ => Set.univ, fun _ => huniv, fun _ => measure_lt_top _ _, Set.iUnion_const _⟩ ?_
  rintro A hA _ ⟨s, t, ht, rfl⟩
  classical
  have ht' : ∀ i, MeasurableSet (t i) := fun i => ht i trivial
  set t' : ℕ → Set V := fun i => if i ∈ s then t i else Set.univ with ht'd
  have htm : ∀ i, MeasurableSet (t' i) := fun i => by
    by_cases hi : i ∈ s
    · simp only [ht'd, if_pos hi, ht']
    · simp only [ht'd, if_neg hi, MeasurableSet.univ]
  obtain ⟨k, hk⟩ : ∃ k, s ⊆ Finset.range k := ⟨s.sup id + 1, fun i hi => Finset.mem_range.mpr (Nat.lt_succ_of_le (Finset.le_sup (f := id) hi))⟩
  have h1 := hs.box A hA t' htm k
  have e1 : (fun ω => (S0 ω, fun k => v k ω)) ⁻¹' (A ×ˢ (s : Set ℕ).pi t) = {ω | S0 ω ∈ A ∧ ∀ i < k, v i ω ∈ t' i} := by
    ext ω
    refine ⟨fun h => ⟨h.1, fun i _ => ?_⟩, fun h => ⟨h.1, fun i hi => ?_⟩⟩
    · by_cases hi : i ∈ s
      · simp only [ht'd, if_pos hi]
        exact h.2 i hi
      · simp only [ht'd, if_neg hi, Set.mem_univ]
    · have h2 := h.2 i (Finset.mem_range.mp (hk hi))
      have hi : i ∈ s := hi
      simp only [ht'd, if_pos hi] at h2
      exact h2
  have e2 : ∏ i ∈ Finset.range k, κ (t' i) = ∏ i ∈ s, κ (t i) := by
    rw [← Finset.prod_subset hk fun i _ hi => ?_]
    · refine Finset.prod_congr rfl fun i hi => ?_
      simp only [ht'd, if_pos hi]
    · simp only [ht'd, if_neg hi, measure_univ]
  have hbox : MeasurableSet (A ×ˢ (s : Set ℕ).pi t) := MeasurableSet.prod hA (MeasurableSet.pi (Finset.countable_toSet s) fun i _ => ht' i)
  rw [Measure.map_apply hm hbox, e1, h1, e2, Measure.map_apply hs.meas_start hA, Measure.infinitePi_pi _ fun i _ => ht' i]
  rfl

/-- What holds for almost every start and sequence holds for almost every outcome. -/
theorem SeqIndep.ae_path (hs : SeqIndep P S0 v κ) {p : E → (ℕ → V) → Prop} (h : ∀ᵐ q ∂((P.map S0).prod (seqLaw κ)), p q.1 q.2) :
    ∀ᵐ ω ∂P, p (S0 ω) fun k => v k ω :=
  hs.law_path.quasiMeasurePreserving.ae h

/-- Convergence in mean square gives convergence in mean. -/
theorem mean_of_square {u : ℕ → Ω → ℝ} (hm : ∀ n, Measurable (u n)) (hi : ∀ n, Integrable (fun ω => u n ω ^ 2) P)
    (h : Tendsto (fun n => ∫ ω, u n ω ^ 2 ∂P) atTop (𝓝 0)) : Tendsto (fun n => ∫ ω, |u n ω| ∂P) atTop (𝓝 0) := by
  have hle : ∀ η : ℝ, 0 < η → ∀ n ω, |u n ω| ≤ η + u n ω ^ 2 / η := by
    intro η hη n ω
    rcases le_total (|u n ω|) η with h1 | h1
    · have : 0 ≤ u n ω ^ 2 / η := by positivity
      linarith
    · have h2 : |u n ω| ≤ u n ω ^ 2 / η := by
        rw [le_div_iff₀ hη, ← sq_abs]
        nlinarith [abs_nonneg (u n ω)]
      linarith
  have hai : ∀ n, Integrable (fun ω => |u n ω|) P := fun n =>
    ((integrable_const (1 : ℝ)).add ((hi n).div_const 1)).mono' (continuous_abs.measurable.comp (hm n)).aestronglyMeasurable
      (Eventually.of_forall fun ω => by
        rw [Real.norm_eq_abs, abs_abs]
        exact hle 1 one_pos n ω)
  rw [Metric.tendsto_atTop]
  intro ε hε
  obtain ⟨N, hN⟩ := (Metric.tendsto_atTop.mp h) ((ε / 4) ^ 2) (by positivity)
  refine ⟨N, fun n hn => ?_⟩
  have h1 := hN n hn
  rw [Real.dist_eq, sub_zero, abs_of_nonneg (integral_nonneg fun ω => sq_nonneg _)] at h1
  rw [Real.dist_eq, sub_zero, abs_of_nonneg (integral_nonneg fun ω => abs_nonneg _)]
  have hη : 0 < ε / 4 := by linarith
  have h2 : ∫ ω, |u n ω| ∂P ≤ ∫ ω, (ε / 4 + u n ω ^ 2 / (ε / 4)) ∂P :=
    integral_mono (hai n) ((integrable_const _).add ((hi n).div_const _)) fun ω => hle _ hη n ω
  rw [integral_add (integrable_const _) ((hi n).div_const _), integral_const, integral_div] at h2
  have h3 : (∫ ω, u n ω ^ 2 ∂P) / (ε / 4) ≤ ε / 4 := by
    rw [div_le_iff₀ hη]
    nlinarith
  simp only [probReal_univ, smul_eq_mul, one_mul] at h2
  linarith

theorem coord_driven (κ : Measure V) [IsProbabilityMeasure κ] : Driven (seqLaw κ) (fun k (ω : ℕ → V) => ω k) κ := by
  refine ⟨fun k => measurable_pi_apply k, ?_, fun k => Measure.infinitePi_map_eval (fun _ : ℕ => κ) k⟩
  exact iIndepFun_infinitePi (P := fun _ : ℕ => κ) (X := fun _ => id) (fun _ => measurable_id)

variable {ρ : Measure E} [IsProbabilityMeasure ρ] {f : E → V → E} {A : Set (E × V)} {S : Set E}

theorem gridSum_birkhoff (f : E → V → E) (F : E × V → ℝ) (h n : ℕ) (q : E × (ℕ → V)) :
    birkhoffSum ((pathStep f)^[h]) (fun q => F (q.1, q.2 0)) n q = gridSum f F h n q.1 q.2 := by
  unfold birkhoffSum gridSum
  refine Finset.sum_congr rfl fun j _ => ?_
  rw [← Function.iterate_mul, pathStep_iterate]
  rfl

theorem gridSum_measurable (hf : Measurable (Function.uncurry f)) {F : E × V → ℝ} (hF : Measurable F) (h n : ℕ) :
    Measurable fun q : E × (ℕ → V) => gridSum f F h n q.1 q.2 := by
  obtain ⟨ψ, hψ, he⟩ := gridSum_prefix hf hF h n
  simp only [he]
  exact hψ.comp (measurable_fst.prodMk (measurable_pi_lambda _ fun i => (measurable_pi_apply _).comp measurable_snd))

/-- Grid averages of a function of mean zero vanish along almost every path of the stationary chain. -/
theorem grid_stationary_ae (hf : Measurable (Function.uncurry f)) (hinv : stepLaw f κ ρ = ρ) (hR : Reaches κ f A ρ S) (h : ℕ) (hh : 0 < h)
    (F : E × V → ℝ) (hF : Measurable F) (B : ℝ) (hB : ∀ q, |F q| ≤ B) (h0 : ∫ q, F q ∂(ρ.prod κ) = 0) :
    ∀ᵐ q ∂(ρ.prod (seqLaw κ)), Tendsto (fun n : ℕ => gridSum f F h n q.1 q.2 / n) atTop (𝓝 0) := by
  have hs := (coord_driven κ).seqIndep_prod ρ
  have hsq := square_limit κ ρ hf hinv hR.ae h hh hs measurePreserving_fst.map_eq F hF B hB h0
  have hT := (pathStep_preserving hf ρ hinv).iterate h
  have hFm : Measurable fun q : E × (ℕ → V) => F (q.1, q.2 0) :=
    hF.comp (measurable_fst.prodMk ((measurable_pi_apply 0).comp measurable_snd))
  have hFi : Integrable (fun q : E × (ℕ → V) => F (q.1, q.2 0)) (ρ.prod (seqLaw κ)) :=
    (integrable_const B).mono' hFm.aestronglyMeasurable (Eventually.of_forall fun q => hB _)
  have hbd : ∀ n (q : E × (ℕ → V)), |gridSum f F h n q.1 q.2 / n| ≤ B := fun n q => by
    have hB0 : 0 ≤ B := (abs_nonneg _).trans (hB (q.1, q.2 0))
    rcases Nat.eq_zero_or_pos n with rfl | hn
    · simpa using hB0
    · have hn' : (0 : ℝ) < n := by exact_mod_cast hn
      rw [abs_div, abs_of_pos hn', div_le_iff₀ hn']
      refine (Finset.abs_sum_le_sum_abs _ _).trans ((Finset.sum_le_sum fun j _ => hB _).trans ?_)
      rw [Finset.sum_const, Finset.card_range, nsmul_eq_mul, mul_comm]
  have hm : ∀ n, Measurable fun q : E × (ℕ → V) => gridSum f F h n q.1 q.2 / n := fun n => (gridSum_measurable hf hF h n).div_const _
  have hmean := mean_of_square (P := ρ.prod (seqLaw κ)) hm (fun n =>
    (integrable_const (B ^ 2)).mono' ((hm n).pow_const 2).aestronglyMeasurable (Eventually.of_forall fun q => by
      rw [Real.norm_eq_abs, abs_pow]
      exact pow_le_pow_left₀ (abs_nonneg _) (hbd n q) 2)) (by
    refine hsq.congr fun n => ?_
    rw [← integral_div]
    refine integral_congr_ae (Eventually.of_forall fun q => ?_)
    show (∑ j ∈ Finset.range n, _) ^ 2 / (n : ℝ) ^ 2 = (_ / _) ^ 2
    rw [div_pow]
    rfl)
  have h1 := pointwise_average hT hFm hFi 0 (by
    refine hmean.congr fun n => ?_
    simp only [sub_zero, gridSum_birkhoff])
  filter_upwards [h1] with q hq
  simpa only [gridSum_birkhoff] using hq

/-- The same from any start in `S`. -/
theorem grid_average_ae {x0 : Ω → E} {w : ℕ → Ω → V} (hf : Measurable (Function.uncurry f)) (hA : MeasurableSet A)
    (hrej : ∀ s v, (s, v) ∉ A → f s v = s) (hpos : ∀ s, κ {v | (s, v) ∈ A} ≠ 0) (hinv : stepLaw f κ ρ = ρ) (hR : Reaches κ f A ρ S)
    (h : ℕ) (hh : 0 < h) (hs : SeqIndep P x0 w κ) (hx0 : ∀ᵐ ω ∂P, x0 ω ∈ S) (F : E × V → ℝ) (hF : Measurable F) (B : ℝ)
    (hB : ∀ q, |F q| ≤ B) (h0 : ∫ q, F q ∂(ρ.prod κ) = 0) :
    ∀ᵐ ω ∂P, Tendsto (fun n : ℕ => gridSum f F h n (x0 ω) (fun i => w i ω) / n) atTop (𝓝 0) := by
  classical
  set good : Set (E × (ℕ → V)) := {q | Tendsto (fun n : ℕ => gridSum f F h n q.1 q.2 / n) atTop (𝓝 0)} with hgood
  have hgm : MeasurableSet good := measurableSet_tendsto _ fun n => (gridSum_measurable hf hF h n).div_const _
  set N : Set E := {x | seqLaw κ (Prod.mk x ⁻¹' goodᶜ) ≠ 0} with hN
  have hNm : MeasurableSet N := (measurable_measure_prodMk_left hgm.compl) (measurableSet_singleton 0).compl
  have hN0 : ρ N = 0 := by
    have h1 : (ρ.prod (seqLaw κ)) goodᶜ = 0 := grid_stationary_ae hf hinv hR h hh F hF B hB h0
    exact (Measure.measure_prod_null hgm.compl).mp h1
  -- from time `t` on, unless nothing was accepted before
  have hfrom : ∀ t : ℕ, ∀ᵐ ω ∂P, hitsAt f A 0 1 x0 w t ω ≠ 0 → (stAt f x0 w t ω, fun i => w (t + i) ω) ∈ good := by
    intro t
    have hsh := hs.shift hf t
    have h1 : ∀ μ : Measure E, IsProbabilityMeasure μ → ∀ᵐ q ∂(μ.prod (seqLaw κ)), q.1 ∉ N → q ∈ good := by
      intro μ _
      have hbad : MeasurableSet {q : E × (ℕ → V) | q.1 ∉ N → q ∈ good}ᶜ := by
        have e : {q : E × (ℕ → V) | q.1 ∉ N → q ∈ good}ᶜ = (Prod.fst ⁻¹' Nᶜ) ∩ goodᶜ := by
          ext q
          simp
        rw [e]
        exact (measurable_fst hNm.compl).inter hgm.compl
      refine (Measure.measure_prod_null hbad).mpr (Eventually.of_forall fun x => ?_)
      show seqLaw κ _ = 0
      by_cases hx : x ∈ N
      · have e : Prod.mk x ⁻¹' {q : E × (ℕ → V) | q.1 ∉ N → q ∈ good}ᶜ = ∅ := by
          ext w
          simp [hx]
        rw [e, measure_empty]
      · refine measure_mono_null (fun w hw => ?_) (not_not.mp hx)
        intro hg
        exact hw fun _ => hg
    have hp : IsProbabilityMeasure (P.map fun ω => fwState f (x0 ω) (fun j => w j ω) t) :=
      Measure.isProbabilityMeasure_map hsh.meas_start.aemeasurable
    have h2 := hsh.ae_path (p := fun x u => x ∉ N → (x, u) ∈ good) (h1 _ hp)
    have h3 : ∀ᵐ ω ∂P, ¬ (hitsAt f A 0 1 x0 w t ω ≠ 0 ∧ stAt f x0 w t ω ∈ N) := by
      rw [ae_iff]
      simpa only [not_not] using accepted_null hf hA hrej hR hs hx0 t N hNm hN0
    filter_upwards [h2, h3] with ω h2 h3 hhit
    exact h2 fun h4 => h3 ⟨hhit, h4⟩
  have hhit : ∀ᵐ ω ∂P, ∃ k, (stAt f x0 w k ω, w k ω) ∈ A := by
    filter_upwards [hs.grid_infinitely_often (f := f) hf hA hrej hpos 0 1 le_rfl] with ω hω
    obtain ⟨k, _, _, _, hk⟩ := hω 0
    exact ⟨k, hk⟩
  filter_upwards [hhit, ae_all_iff.mpr fun τ : ℕ => hfrom (h * τ)] with ω h1 h2
  obtain ⟨k, hk⟩ := h1
  have hle : k + 1 ≤ h * (k + 1) := Nat.le_mul_of_pos_left _ hh
  have hne : hitsAt f A 0 1 x0 w (h * (k + 1)) ω ≠ 0 := by
    have h3 : hits f A 0 1 (x0 ω) (fun i => w i ω) (k + 1) ≤ hits f A 0 1 (x0 ω) (fun i => w i ω) (h * (k + 1)) := by
      unfold hits
      exact Nat.count_monotone _ hle
    rw [hits_grid ⟨Nat.zero_le k, one_dvd _⟩, if_pos hk] at h3
    show hits f A 0 1 (x0 ω) (fun i => w i ω) (h * (k + 1)) ≠ 0
    omega
  have h4 : Tendsto (fun n : ℕ => gridSum f F h n (stAt f x0 w (h * (k + 1)) ω) (fun i => w (h * (k + 1) + i) ω) / n) atTop (𝓝 0) := h2 (k + 1) hne
  refine average_tail (fun j => F (stAt f x0 w (h * j) ω, w (h * j) ω)) (k + 1) (h4.congr fun n => ?_)
  congr 1
  unfold gridSum
  refine Finset.sum_congr rfl fun j _ => ?_
  have e : fwState f (stAt f x0 w (h * (k + 1)) ω) (fun i => w (h * (k + 1) + i) ω) (h * j) = stAt f x0 w (h * (k + 1) + h * j) ω :=
    (fwState_add f _ _ _ _).symm
  rw [e, ← mul_add]
  show F (_, w (h * (k + 1) + h * j) ω) = _
  rw [← mul_add]

/-- The averages over the first `N` accepted states on the grid `b, b + h, …` converge with probability one. -/
theorem saved_average_ae {x0 : Ω → E} {w : ℕ → Ω → V} (hf : Measurable (Function.uncurry f)) (hA : MeasurableSet A)
    (hrej : ∀ s v, (s, v) ∉ A → f s v = s) (hpos : ∀ s, κ {v | (s, v) ∈ A} ≠ 0) (hinv : stepLaw f κ ρ = ρ) (hR : Reaches κ f A ρ S)
    (b h : ℕ) (hh : 0 < h) (hs : SeqIndep P x0 w κ) (hx0 : ∀ᵐ ω ∂P, x0 ω ∈ S) (φ : E → ℝ) (hφ : Measurable φ) (B : ℝ) (hB : ∀ x, |φ x| ≤ B)
    (rows : ℕ → Ω → ℕ → ℝ) (hrB : ∀ N ω k, |rows N ω k| ≤ B)
    (hr : ∀ N, ∀ᵐ ω ∂P, ∀ t, b ≤ t → h ∣ t - b → (stAt f x0 w t ω, w t ω) ∈ A → hitsAt f A b h x0 w t ω < N →
      rows N ω (hitsAt f A b h x0 w t ω) = φ (stAt f x0 w (t + 1) ω)) :
    ∀ᵐ ω ∂P, Tendsto (fun N : ℕ => (∑ k ∈ Finset.range N, rows N ω k) / N) atTop
      (𝓝 ((∫ q in A, φ (f q.1 q.2) ∂(ρ.prod κ)) / (ρ.prod κ).real A)) := by
  have hB0 : 0 ≤ B := by
    obtain ⟨ω⟩ : Nonempty Ω := P.nonempty_of_neZero
    exact (abs_nonneg _).trans (hB (x0 ω))
  set a := (ρ.prod κ).real A with ha
  set β := ∫ q in A, φ (f q.1 q.2) ∂(ρ.prod κ) with hβ
  have ha1 : a ≤ 1 := measureReal_le_one
  have hap : 0 < a := by
    refine lt_of_le_of_ne measureReal_nonneg (Ne.symm ?_)
    rw [ha, measureReal_def, ne_eq, ENNReal.toReal_eq_zero_iff, not_or]
    refine ⟨fun h0 => ?_, measure_ne_top _ _⟩
    have h1 := (Measure.measure_prod_null hA).mp h0
    obtain ⟨x, hx⟩ := h1.exists
    exact hpos x hx
  set F1 : E × V → ℝ := fun q => A.indicator 1 q - a with hF1
  set F2 : E × V → ℝ := fun q => A.indicator (fun q => φ (f q.1 q.2)) q - β with hF2
  have hφf : Measurable fun q : E × V => φ (f q.1 q.2) := hφ.comp hf
  have m1 : Measurable F1 := (measurable_one.indicator hA).sub_const a
  have m2 : Measurable F2 := (hφf.indicator hA).sub_const β
  have i1 : Integrable (A.indicator (1 : E × V → ℝ)) (ρ.prod κ) := (integrable_const (1 : ℝ)).indicator hA
  have hib : Integrable (fun q : E × V => φ (f q.1 q.2)) (ρ.prod κ) :=
    (integrable_const B).mono' hφf.aestronglyMeasurable (Eventually.of_forall fun q => hB _)
  have i2 : Integrable (A.indicator (fun q : E × V => φ (f q.1 q.2))) (ρ.prod κ) := hib.indicator hA
  have z1 : ∫ q, F1 q ∂(ρ.prod κ) = 0 := by
    rw [hF1, integral_sub i1 (integrable_const a), integral_const, integral_indicator_one hA]
    simp [ha]
  have z2 : ∫ q, F2 q ∂(ρ.prod κ) = 0 := by
    rw [hF2, integral_sub i2 (integrable_const β), integral_const, integral_indicator hA]
    simp [hβ]
  have b1 : ∀ q, |F1 q| ≤ 1 + |a| := fun q => by
    refine (abs_sub _ _).trans (add_le_add ?_ le_rfl)
    by_cases hq : q ∈ A <;> simp [hq]
  have b2 : ∀ q, |F2 q| ≤ B + |β| := fun q => by
    refine (abs_sub _ _).trans (add_le_add ?_ le_rfl)
    by_cases hq : q ∈ A
    · rw [Set.indicator_of_mem hq]
      exact hB _
    · rw [Set.indicator_of_notMem hq, abs_zero]
      exact hB0
  have hs' := hs.shift hf b
  have hx0' := (stays_in hf hA hrej hR hs hx0 b).1
  have l1 := grid_average_ae hf hA hrej hpos hinv hR h hh hs' hx0' F1 m1 _ b1 z1
  have l2 := grid_average_ae hf hA hrej hpos hinv hR h hh hs' hx0' F2 m2 _ b2 z2
  have hTlim : Tendsto (fun N : ℕ => ⌊(N : ℝ) / a⌋₊) atTop atTop := by
    refine tendsto_nat_floor_atTop.comp ?_
    exact (tendsto_natCast_atTop_atTop (R := ℝ)).atTop_div_const hap
  filter_upwards [l1, l2, ae_all_iff.mpr hr] with ω h1 h2 hω
  rw [Metric.tendsto_nhds]
  intro ε hε
  have hθp : 0 < ε * a / (2 * (B + 1)) := by positivity
  have hlarge : ∀ᶠ N : ℕ in atTop, (B + |β / a|) < ε / 2 * N := by
    have h1 : Tendsto (fun n : ℕ => ε / 2 * (n : ℝ)) atTop atTop := tendsto_natCast_atTop_atTop.const_mul_atTop (by linarith)
    exact h1.eventually_gt_atTop _
  have c1 := (Metric.tendsto_nhds.mp (h1.comp hTlim)) _ hθp
  have c2 := (Metric.tendsto_nhds.mp (h2.comp hTlim)) _ hθp
  filter_upwards [hlarge, eventually_gt_atTop 0, c1, c2, hTlim.eventually_gt_atTop 0] with N hN hN0 c1 c2 hT0
  have hTp : (0 : ℝ) < (⌊(N : ℝ) / a⌋₊ : ℕ) := by exact_mod_cast hT0
  simp only [Function.comp, Real.dist_eq, sub_zero, abs_div, abs_of_pos hTp] at c1 c2
  rw [div_lt_iff₀ hTp] at c1 c2
  rw [Real.dist_eq]
  exact saved_close b h hh (x0 ω) (fun i => w i ω) φ B hB a β ε hap ha1 hε N hN0 hN (rows N ω) (hrB N ω) (hω N) c1 c2

end Path

section Coupled
variable {E W Ω : Type} [NormedAddCommGroup E] [MeasurableSpace E] [BorelSpace E] [MeasurableSpace W] [MeasurableSpace Ω]
  [SecondCountableTopology E] {ν : Measure W} [IsProbabilityMeasure ν] {f : E → W → E} {C : Set E} {V : E → ℝ≥0∞} {K : NNReal}
  {P : Measure Ω} [IsProbabilityMeasure P] {v : ℕ → Ω → W}

/-- Averages of a Lipschitz quantity along the chain from any start converge with probability one. -/
theorem Coupled.average_ae (h : Coupled ν f C V K) (hV : Driven P v ν) (π : Measure E) [IsProbabilityMeasure π]
    (hπ : stepLaw f ν π = π) (hfin : ∫⁻ x, ‖x‖ₑ ∂π ≠ ⊤) (g : E → ℝ) (L : ℝ) (hL : ∀ x y, |g x - g y| ≤ L * dist x y)
    (b : ℕ) (s : ℕ) (hs : 0 < s) (x0 : E) :
    ∀ᵐ ω ∂P, Tendsto (fun N : ℕ => (∑ k ∈ Finset.range N, g (fwState f x0 (fun j => v j ω) (b + k * s))) / N) atTop (𝓝 (∫ z, g z ∂π)) := by
  have hgc : Continuous g := by
    refine (LipschitzWith.of_dist_le_mul (K := NNReal.mk |L| (abs_nonneg L)) fun x y => ?_).continuous
    rw [Real.dist_eq]
    exact (hL x y).trans (mul_le_mul_of_nonneg_right (le_abs_self L) dist_nonneg)
  have ht : StrictMono fun k : ℕ => b + k * s := fun i j hij => Nat.add_lt_add_left (Nat.mul_lt_mul_of_pos_right hij hs) b
  have hni : Integrable (fun x : E => ‖x‖) π := by
    refine ⟨continuous_norm.aestronglyMeasurable, ?_⟩
    rw [hasFiniteIntegral_iff_enorm]
    simpa using lt_top_iff_ne_top.mpr hfin
  have hgi : Integrable g π := by
    refine ((integrable_const |g 0|).add (hni.const_mul |L|)).mono' hgc.aestronglyMeasurable (Eventually.of_forall fun x => ?_)
    have h1 := hL x 0
    rw [dist_zero_right] at h1
    have h2 := mul_le_mul_of_nonneg_right (le_abs_self L) (norm_nonneg x)
    have h3 := abs_sub_abs_le_abs_sub (g x) (g 0)
    rw [Real.norm_eq_abs]
    show |g x| ≤ |g 0| + |L| * ‖x‖
    linarith
  have hd := coord_driven ν
  have hmean := h.stationary_mean hd π hπ hfin g L hL _ ht
  have hp := pathStep_preserving h.meas π hπ
  set G : E × (ℕ → W) → ℝ := fun q => g ((pathStep f)^[b] q).1 with hG
  have hfst : MeasurePreserving (Prod.fst : E × (ℕ → W) → E) (π.prod (seqLaw ν)) π := measurePreserving_fst
  have hGm : Measurable G := hgc.measurable.comp (measurable_fst.comp (hp.iterate b).measurable)
  have hGi : Integrable G (π.prod (seqLaw ν)) := (hfst.comp (hp.iterate b)).integrable_comp_of_integrable hgi
  have hsum : ∀ (N : ℕ) (q : E × (ℕ → W)), birkhoffSum ((pathStep f)^[s]) G N q = ∑ k ∈ Finset.range N, g (fwState f q.1 q.2 (b + k * s)) := by
    intro N q
    unfold birkhoffSum
    refine Finset.sum_congr rfl fun k _ => ?_
    rw [hG]
    simp only
    rw [← Function.iterate_mul, ← Function.iterate_add_apply, pathStep_iterate, mul_comm s k]
  have hstat := pointwise_average (hp.iterate s) hGm hGi (∫ z, g z ∂π) (by
    refine hmean.congr fun N => ?_
    simp only [hsum])
  simp only [hsum] at hstat
  have hgood : MeasurableSet {q : E × (ℕ → W) | Tendsto (fun N : ℕ => (∑ k ∈ Finset.range N, g (fwState f q.1 q.2 (b + k * s))) / N) atTop
      (𝓝 (∫ z, g z ∂π))} := by
    refine measurableSet_tendsto _ fun N => ?_
    have e : (fun q : E × (ℕ → W) => (∑ k ∈ Finset.range N, g (fwState f q.1 q.2 (b + k * s))) / (N : ℝ)) =
        fun q => birkhoffSum ((pathStep f)^[s]) G N q / N := by
      funext q
      rw [hsum]
    rw [e]
    exact (birkhoff_measurable (hp.iterate s).measurable hGm N).div_const _
  -- some start works for almost every sequence, hence every start
  have hsome : ∀ᵐ w ∂(seqLaw ν), ∃ y, Tendsto (fun N : ℕ => (∑ k ∈ Finset.range N, g (fwState f y w (b + k * s))) / N) atTop (𝓝 (∫ z, g z ∂π)) := by
    have h1 : ∀ᵐ q ∂((seqLaw ν).prod π), Tendsto (fun N : ℕ => (∑ k ∈ Finset.range N, g (fwState f q.2 q.1 (b + k * s))) / N) atTop
        (𝓝 (∫ z, g z ∂π)) := (Measure.measurePreserving_swap (μ := seqLaw ν) (ν := π)).quasiMeasurePreserving.ae hstat
    filter_upwards [Measure.ae_ae_of_ae_prod h1] with w hw
    exact hw.exists
  have hs0 := hV.seqIndep x0
  have hev : ∀ᵐ ω ∂P, ∃ y, Tendsto (fun N : ℕ => (∑ k ∈ Finset.range N, g (fwState f y (fun j => v j ω) (b + k * s))) / N) atTop
      (𝓝 (∫ z, g z ∂π)) := by
    have hp0 : IsProbabilityMeasure (P.map fun _ : Ω => x0) := Measure.isProbabilityMeasure_map hs0.meas_start.aemeasurable
    exact hs0.ae_path (p := fun _ w => ∃ y, Tendsto (fun N : ℕ => (∑ k ∈ Finset.range N, g (fwState f y w (b + k * s))) / N) atTop
      (𝓝 (∫ z, g z ∂π))) ((measurePreserving_snd (μ := P.map fun _ : Ω => x0) (ν := seqLaw ν)).quasiMeasurePreserving.ae hsome)
  filter_upwards [hev, h.forget hs0] with ω h1 h2
  obtain ⟨y, hy⟩ := h1
  have h3 : Tendsto (fun k => g (fwState f x0 (fun j => v j ω) k) - g (fwState f y (fun j => v j ω) k)) atTop (𝓝 0) := by
    refine squeeze_zero_norm (fun k => ?_) ((h2 y).const_mul L |>.trans (by simp))
    rw [Real.norm_eq_abs]
    exact hL _ _
  have h4 := (h3.comp ht.tendsto_atTop).cesaro
  have h5 := h4.add hy
  rw [zero_add] at h5
  refine h5.congr fun N => ?_
  simp only [Function.comp, Finset.sum_sub_distrib]
  ring

end Coupled
end Pxmcmc
