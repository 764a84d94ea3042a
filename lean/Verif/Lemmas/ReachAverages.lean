import Verif.Lemmas.MeanErgodic
import Mathlib.MeasureTheory.Measure.Decomposition.RadonNikodym

/-! # Averages along an accept–reject chain that reaches everything, from any start -/

namespace Pxmcmc
open MeasureTheory ProbabilityTheory Filter
open scoped ENNReal Topology
set_option linter.unusedSectionVars false

variable {E V : Type} [MeasurableSpace E] [MeasurableSpace V]

/-- From every state of `S`, which carries the law `ρ`, the accepted moves charge the same sets as `ρ`. -/
structure Reaches (κ : Measure V) (f : E → V → E) (A : Set (E × V)) (ρ : Measure E) (S : Set E) : Prop where
  meas : MeasurableSet S
  null : ρ Sᶜ = 0
  reach : ∀ x ∈ S, ∀ B, MeasurableSet B → (κ {v | (x, v) ∈ A ∧ f x v ∈ B} = 0 ↔ ρ B = 0)

variable {κ : Measure V} [IsProbabilityMeasure κ] {ρ : Measure E} [IsProbabilityMeasure ρ] {f : E → V → E} {A : Set (E × V)} {S : Set E}

theorem Reaches.ae (hR : Reaches κ f A ρ S) : ∀ᵐ x ∂ρ, ∀ B, MeasurableSet B → (∀ᵐ v ∂κ, f x v ∈ B) → ∀ᵐ y ∂ρ, y ∈ B := by
  have h : ∀ᵐ x ∂ρ, x ∈ S := hR.null
  filter_upwards [h] with x hx B hB hv
  refine (hR.reach x hx Bᶜ hB.compl).mp (measure_mono_null (fun v hv' => ?_) hv)
  exact hv'.2

/-- Means over the first draws, as means over the start. -/
theorem prefix_mean (κ : Measure V) [IsProbabilityMeasure κ] (k : ℕ) (ψ : E × (Fin k → V) → ℝ≥0∞) (hψ : Measurable ψ) :
    ∃ g : E → ℝ≥0∞, Measurable g ∧ ((∀ q, ψ q ≤ 1) → ∀ x, g x ≤ 1) ∧ ∀ (Ω : Type) [MeasurableSpace Ω] (P : Measure Ω) [IsProbabilityMeasure P]
      (x0 : Ω → E) (w : ℕ → Ω → V), SeqIndep P x0 w κ → ∫⁻ ω, ψ (x0 ω, fun i : Fin k => w i ω) ∂P = ∫⁻ ω, g (x0 ω) ∂P := by
  induction k with
  | zero =>
    refine ⟨fun x => ψ (x, Fin.elim0), hψ.comp (measurable_id.prodMk measurable_const), fun h x => h _, fun Ω _ P _ x0 w _ => ?_⟩
    refine lintegral_congr fun ω => ?_
    congr 2
    exact funext fun i => i.elim0
  | succ k ih =>
    have hc : Measurable fun r : (E × (Fin k → V)) × V => (r.1.1, (Fin.snoc r.1.2 r.2 : Fin (k + 1) → V)) := by
      refine (measurable_fst.comp measurable_fst).prodMk (measurable_pi_lambda _ fun i => ?_)
      refine Fin.lastCases ?_ (fun i => ?_) i
      · simp only [Fin.snoc_last]
        exact measurable_snd
      · simp only [Fin.snoc_castSucc]
        exact (measurable_pi_apply i).comp (measurable_snd.comp measurable_fst)
    have hψ' : Measurable fun r : (E × (Fin k → V)) × V => ψ (r.1.1, (Fin.snoc r.1.2 r.2 : Fin (k + 1) → V)) := hψ.comp hc
    obtain ⟨g, hg, hg1, hge⟩ := ih (fun q => ∫⁻ u, ψ (q.1, (Fin.snoc q.2 u : Fin (k + 1) → V)) ∂κ) hψ'.lintegral_prod_right'
    refine ⟨g, hg, fun h => hg1 fun q => ?_, fun Ω _ P _ x0 w hs => ?_⟩
    · refine (lintegral_mono fun u => h _).trans ?_
      simp
    · rw [← hge Ω P x0 w hs, ← hs.peel k _ hψ']
      refine lintegral_congr fun ω => ?_
      congr 2
      funext i
      refine Fin.lastCases ?_ (fun i => ?_) i
      · simp only [Fin.snoc_last]
        rfl
      · simp only [Fin.snoc_castSucc]
        rfl

/-- Sums over the grid `0, h, 2h, …`. -/
noncomputable def gridSum (f : E → V → E) (F : E × V → ℝ) (h n : ℕ) (s : E) (v : ℕ → V) : ℝ :=
  ∑ j ∈ Finset.range n, F (fwState f s v (h * j), v (h * j))

theorem gridSum_prefix (hf : Measurable (Function.uncurry f)) {F : E × V → ℝ} (hF : Measurable F) (h n : ℕ) :
    ∃ ψ : E × (Fin (h * n + 1) → V) → ℝ, Measurable ψ ∧ ∀ s v, gridSum f F h n s v = ψ (s, fun i : Fin (h * n + 1) => v i) := by
  have key : ∀ j : Fin n, ∃ G : E × (Fin (h * j) → V) → E, Measurable G ∧
      ∀ (s : E) (v : ℕ → V), fwState f s v (h * j) = G (s, fun i : Fin (h * j) => v i) := fun j => state_prefix (f := f) hf _
  choose G hG hGe using key
  have hlt : ∀ j : Fin n, h * j < h * n + 1 := fun j => Nat.lt_succ_of_le (Nat.mul_le_mul_left h j.2.le)
  refine ⟨fun q => ∑ j : Fin n, F (G j (q.1, fun i : Fin (h * j) => q.2 ⟨i, i.2.trans (hlt j)⟩), q.2 ⟨h * j, hlt j⟩), ?_, fun s v => ?_⟩
  · refine Finset.measurable_sum _ fun j _ => hF.comp (Measurable.prodMk ((hG j).comp (measurable_fst.prodMk
      (measurable_pi_lambda _ fun i => (measurable_pi_apply _).comp measurable_snd))) ((measurable_pi_apply _).comp measurable_snd))
  · rw [gridSum, ← Fin.sum_univ_eq_sum_range (fun j => F (fwState f s v (h * j), v (h * j)))]
    refine Finset.sum_congr rfl fun j _ => ?_
    rw [hGe]

section Start
variable {Ω : Type} [MeasurableSpace Ω] {P : Measure Ω} [IsProbabilityMeasure P] {x0 : Ω → E} {w : ℕ → Ω → V}

/-- From the law that is kept. -/
theorem average_stationary (hf : Measurable (Function.uncurry f)) (hinv : stepLaw f κ ρ = ρ) (hR : Reaches κ f A ρ S) (h : ℕ) (hh : 0 < h)
    (hs : SeqIndep P x0 w κ) (hx0 : P.map x0 = ρ) (F : E × V → ℝ) (hF : Measurable F) (B : ℝ) (hB : ∀ q, |F q| ≤ B)
    (h0 : ∫ q, F q ∂(ρ.prod κ) = 0) (ε : ℝ) (hε : 0 < ε) :
    Tendsto (fun n : ℕ => P {ω | ε * n ≤ |gridSum f F h n (x0 ω) (fun i => w i ω)|}) atTop (𝓝 0) := by
  have hsq := square_limit κ ρ hf hinv hR.ae h hh hs hx0 F hF B hB h0
  have hm : ∀ n, Measurable fun ω => gridSum f F h n (x0 ω) (fun i => w i ω) := fun n => by
    obtain ⟨ψ, hψ, he⟩ := gridSum_prefix hf hF h n
    simp only [he]
    exact hψ.comp (hs.pre_meas _)
  have hbd : ∀ n ω, |gridSum f F h n (x0 ω) (fun i => w i ω)| ≤ n * B := fun n ω => by
    refine (Finset.abs_sum_le_sum_abs _ _).trans ?_
    refine (Finset.sum_le_sum fun j _ => hB _).trans ?_
    simp
  have hint : ∀ n, Integrable (fun ω => gridSum f F h n (x0 ω) (fun i => w i ω) ^ 2) P := fun n => by
    refine (integrable_const ((n * B) ^ 2)).mono' ((hm n).pow_const 2).aestronglyMeasurable (Eventually.of_forall fun ω => ?_)
    rw [Real.norm_eq_abs, abs_pow]
    exact pow_le_pow_left₀ (abs_nonneg _) (hbd n ω) 2
  have hreal : Tendsto (fun n : ℕ => P.real {ω | ε * n ≤ |gridSum f F h n (x0 ω) (fun i => w i ω)|}) atTop (𝓝 0) := by
    have h1 := hsq.const_mul (ε ^ 2)⁻¹
    rw [mul_zero] at h1
    refine squeeze_zero' (Eventually.of_forall fun n => measureReal_nonneg) ?_ h1
    filter_upwards [eventually_gt_atTop 0] with n hn
    have hnp : (0 : ℝ) < n := by exact_mod_cast hn
    have h2 := mul_meas_ge_le_integral_of_nonneg (μ := P) (Eventually.of_forall fun ω => sq_nonneg _) (hint n) ((ε * n) ^ 2)
    have h3 : {ω | ε * n ≤ |gridSum f F h n (x0 ω) (fun i => w i ω)|} ⊆ {ω | (ε * n) ^ 2 ≤ gridSum f F h n (x0 ω) (fun i => w i ω) ^ 2} := by
      intro ω hω
      have hω : ε * n ≤ |gridSum f F h n (x0 ω) (fun i => w i ω)| := hω
      show (ε * n) ^ 2 ≤ _
      rw [← sq_abs (gridSum f F h n (x0 ω) (fun i => w i ω))]
      exact pow_le_pow_left₀ (by positivity) hω 2
    have h4 : P.real {ω | ε * n ≤ |gridSum f F h n (x0 ω) (fun i => w i ω)|} ≤ _ := measureReal_mono h3
    have h5 : (ε * n) ^ 2 * P.real {ω | ε * n ≤ |gridSum f F h n (x0 ω) (fun i => w i ω)|} ≤
        ∫ ω, gridSum f F h n (x0 ω) (fun i => w i ω) ^ 2 ∂P := (mul_le_mul_of_nonneg_left h4 (by positivity)).trans h2
    have h6 : (0 : ℝ) < (ε * n) ^ 2 := by positivity
    rw [← le_div_iff₀' h6] at h5
    refine h5.trans (le_of_eq ?_)
    show (∫ ω, gridSum f F h n (x0 ω) (fun i => w i ω) ^ 2 ∂P) / (ε * n) ^ 2 =
      (ε ^ 2)⁻¹ * ((∫ ω, gridSum f F h n (x0 ω) (fun i => w i ω) ^ 2 ∂P) / (n : ℝ) ^ 2)
    field_simp
  have h7 := ENNReal.tendsto_ofReal hreal
  rw [ENNReal.ofReal_zero] at h7
  refine h7.congr fun n => ?_
  rw [ofReal_measureReal]

/-- The chain stays in `S`. -/
theorem stays_in (hf : Measurable (Function.uncurry f)) (hA : MeasurableSet A) (hrej : ∀ s v, (s, v) ∉ A → f s v = s)
    (hR : Reaches κ f A ρ S) (hs : SeqIndep P x0 w κ) (hx0 : ∀ᵐ ω ∂P, x0 ω ∈ S) (k : ℕ) :
    (∀ᵐ ω ∂P, stAt f x0 w k ω ∈ S) ∧ ∀ N, MeasurableSet N → ρ N = 0 → P {ω | (stAt f x0 w k ω, w k ω) ∈ A ∧ stAt f x0 w (k + 1) ω ∈ N} = 0 := by
  have step : ∀ k, (∀ᵐ ω ∂P, stAt f x0 w k ω ∈ S) → ∀ N, MeasurableSet N → ρ N = 0 →
      P {ω | (stAt f x0 w k ω, w k ω) ∈ A ∧ stAt f x0 w (k + 1) ω ∈ N} = 0 := by
    intro k hk N hN hN0
    obtain ⟨G, hG, hGe⟩ := state_prefix (f := f) hf k
    have hD : MeasurableSet (A ∩ Function.uncurry f ⁻¹' N) := hA.inter (hf hN)
    have hψ : Measurable fun r : (E × (Fin k → V)) × V => (A ∩ Function.uncurry f ⁻¹' N).indicator (1 : E × V → ℝ≥0∞) (G r.1, r.2) :=
      (measurable_one.indicator hD).comp ((hG.comp measurable_fst).prodMk measurable_snd)
    have h1 := hs.peel k _ hψ
    have hZm : Measurable fun ω => (stAt f x0 w k ω, w k ω) := (hs.state_meas hf k).prodMk (hs.meas k)
    have h2 : ∫⁻ ω, (A ∩ Function.uncurry f ⁻¹' N).indicator (1 : E × V → ℝ≥0∞) (stAt f x0 w k ω, w k ω) ∂P =
        P {ω | (stAt f x0 w k ω, w k ω) ∈ A ∧ stAt f x0 w (k + 1) ω ∈ N} := by
      rw [← lintegral_indicator_one (show MeasurableSet {ω | (stAt f x0 w k ω, w k ω) ∈ A ∧ stAt f x0 w (k + 1) ω ∈ N} from hZm hD)]
      rfl
    rw [← h2]
    simp only [stAt, hGe]
    rw [h1]
    refine lintegral_eq_zero_of_ae_eq_zero ?_
    filter_upwards [hk] with ω hω
    simp only [stAt, hGe] at hω
    show ∫⁻ u, (A ∩ Function.uncurry f ⁻¹' N).indicator (1 : E × V → ℝ≥0∞) (G (x0 ω, fun i : Fin k => w i ω), u) ∂κ = 0
    have h3 : MeasurableSet {v | (G (x0 ω, fun i : Fin k => w i ω), v) ∈ A ∧ f (G (x0 ω, fun i : Fin k => w i ω)) v ∈ N} :=
      measurable_prodMk_left hD
    have h4 := (hR.reach _ hω N hN).mpr hN0
    rw [← lintegral_indicator_one h3] at h4
    exact h4
  have main : ∀ k, ∀ᵐ ω ∂P, stAt f x0 w k ω ∈ S := by
    intro k
    induction k with
    | zero => exact hx0
    | succ k ih =>
      have h1 := step k ih Sᶜ hR.meas.compl hR.null
      have h2 : ∀ᵐ ω ∂P, ¬ ((stAt f x0 w k ω, w k ω) ∈ A ∧ stAt f x0 w (k + 1) ω ∈ Sᶜ) := by
        rw [ae_iff]
        simpa using h1
      filter_upwards [ih, h2] with ω h3 h4
      by_contra h5
      by_cases h6 : (stAt f x0 w k ω, w k ω) ∈ A
      · exact h4 ⟨h6, h5⟩
      · have h7 : stAt f x0 w (k + 1) ω = stAt f x0 w k ω := hrej _ _ h6
        rw [h7] at h5
        exact h5 h3
  exact ⟨main k, step k (main k)⟩

/-- After an acceptance no set of `ρ`-measure zero is hit. -/
theorem accepted_null (hf : Measurable (Function.uncurry f)) (hA : MeasurableSet A) (hrej : ∀ s v, (s, v) ∉ A → f s v = s)
    (hR : Reaches κ f A ρ S) (hs : SeqIndep P x0 w κ) (hx0 : ∀ᵐ ω ∂P, x0 ω ∈ S) (k : ℕ) (N : Set E) (hN : MeasurableSet N) (hN0 : ρ N = 0) :
    P {ω | hitsAt f A 0 1 x0 w k ω ≠ 0 ∧ stAt f x0 w k ω ∈ N} = 0 := by
  classical
  induction k with
  | zero =>
    have : {ω | hitsAt f A 0 1 x0 w 0 ω ≠ 0 ∧ stAt f x0 w 0 ω ∈ N} = ∅ := by
      ext ω
      simp [hitsAt, hits]
    rw [this, measure_empty]
  | succ k ih =>
    refine measure_mono_null ?_ (measure_union_null ih ((stays_in hf hA hrej hR hs hx0 k).2 N hN hN0))
    rintro ω ⟨h1, h2⟩
    by_cases h3 : (stAt f x0 w k ω, w k ω) ∈ A
    · exact Or.inr ⟨h3, h2⟩
    · refine Or.inl ⟨?_, ?_⟩
      · intro h4
        apply h1
        show hits f A 0 1 (x0 ω) (fun i => w i ω) (k + 1) = 0
        rw [hits_grid ⟨Nat.zero_le k, one_dvd _⟩, if_neg h3]
        exact h4
      · have h7 : stAt f x0 w (k + 1) ω = stAt f x0 w k ω := hrej _ _ h3
        rw [← h7]
        exact h2

/-- Averages over the grid `b, b + h, b + 2h, …` converge in probability, from any start in `S`. -/
theorem average_limit (hf : Measurable (Function.uncurry f)) (hA : MeasurableSet A) (hrej : ∀ s v, (s, v) ∉ A → f s v = s)
    (hpos : ∀ s, κ {v | (s, v) ∈ A} ≠ 0) (hinv : stepLaw f κ ρ = ρ) (hR : Reaches κ f A ρ S) (h : ℕ) (hh : 0 < h)
    (hs : SeqIndep P x0 w κ) (hx0 : ∀ᵐ ω ∂P, x0 ω ∈ S) (F : E × V → ℝ) (hF : Measurable F) (B : ℝ) (hB : ∀ q, |F q| ≤ B)
    (h0 : ∫ q, F q ∂(ρ.prod κ) = 0) (ε : ℝ) (hε : 0 < ε) :
    Tendsto (fun n : ℕ => P {ω | ε * n ≤ |gridSum f F h n (x0 ω) (fun i => w i ω)|}) atTop (𝓝 0) := by
  have hB0 : 0 ≤ B := by
    obtain ⟨ω⟩ : Nonempty Ω := P.nonempty_of_neZero
    exact (abs_nonneg _).trans (hB (x0 ω, w 0 ω))
  -- events as functions of the start
  choose ψ hψ hψe using fun n => gridSum_prefix (f := f) hf hF h n
  set D : (n : ℕ) → Set (E × (Fin (h * n + 1) → V)) := fun n => {q | ε / 2 * n ≤ |ψ n q|} with hD
  have hDm : ∀ n, MeasurableSet (D n) := fun n => measurableSet_le measurable_const (continuous_abs.measurable.comp (hψ n))
  choose g hg hg1 hge using fun n => prefix_mean κ (h * n + 1) ((D n).indicator 1) (measurable_one.indicator (hDm n))
  have hg1' : ∀ n x, g n x ≤ 1 := fun n => hg1 n fun q => Set.indicator_le_self' (fun _ _ => zero_le) q
  have hev : ∀ {Ω' : Type} [MeasurableSpace Ω'] (P' : Measure Ω') [IsProbabilityMeasure P'] (x' : Ω' → E) (w' : ℕ → Ω' → V), SeqIndep P' x' w' κ → ∀ n,
      P' {ω | ε / 2 * n ≤ |gridSum f F h n (x' ω) (fun i => w' i ω)|} = ∫⁻ ω, g n (x' ω) ∂P' := by
    intro Ω' _ P' _ x' w' hs' n
    rw [← hge n Ω' P' x' w' hs', ← lintegral_indicator_one]
    · refine lintegral_congr fun ω => ?_
      simp only [Set.indicator, hψe]
      rfl
    · simp only [hψe]
      exact (hs'.pre_meas _) (hDm n)
  -- under the law that is kept
  have hstat : Tendsto (fun n => ∫⁻ x, g n x ∂ρ) atTop (𝓝 0) := by
    have hd : Driven (seqLaw κ) (fun k (ω : ℕ → V) => ω k) κ := by
      refine ⟨fun k => measurable_pi_apply k, ?_, fun k => Measure.infinitePi_map_eval (fun _ : ℕ => κ) k⟩
      exact iIndepFun_infinitePi (P := fun _ : ℕ => κ) (X := fun _ => id) (fun _ => measurable_id)
    have hs' := hd.seqIndep_prod ρ
    have hfst : (ρ.prod (seqLaw κ)).map Prod.fst = ρ := measurePreserving_fst.map_eq
    have h1 := average_stationary hf hinv hR h hh hs' hfst F hF B hB h0 (ε / 2) (by linarith)
    refine h1.congr fun n => ?_
    rw [hev _ _ _ hs' n, ← lintegral_map (hg n) measurable_fst, hfst]
  rw [ENNReal.tendsto_nhds_zero]
  intro η hη
  -- a time by which an acceptance is likely
  have hno := hits_limit hs hf hA hrej hpos 0 0 0
  obtain ⟨τ, hτ⟩ := (((tendsto_order.1 hno).2 (η / 2) (ENNReal.half_pos hη.ne')).and (eventually_ge_atTop 0)).exists_forall_of_atTop
  set t := h * τ with ht
  have htτ : τ ≤ t := Nat.le_mul_of_pos_left τ hh
  have hnot : P {ω | hitsAt f A 0 1 x0 w t ω = 0} < η / 2 := by
    have h1 := (hτ t htτ).1
    refine lt_of_le_of_lt (measure_mono fun ω hω => ?_) h1
    have hω : hitsAt f A 0 1 x0 w t ω = 0 := hω
    show hitsAt f A 0 (0 + 1) x0 w (0 + t * (0 + 1)) ω ≤ 0
    simp only [zero_add, mul_one]
    exact hω.le
  have hXm : Measurable (stAt f x0 w t) := hs.state_meas hf t
  have hHm : MeasurableSet {ω | hitsAt f A 0 1 x0 w t ω ≠ 0} := (hitsAt_meas hs hf hA 0 1 t (measurableSet_singleton 0)).compl
  set α : Measure E := (P.restrict {ω | hitsAt f A 0 1 x0 w t ω ≠ 0}).map (stAt f x0 w t) with hα
  have hαρ : α ≪ ρ := by
    refine Measure.AbsolutelyContinuous.mk fun N hN hN0 => ?_
    rw [hα, Measure.map_apply hXm hN, Measure.restrict_apply (hXm hN), Set.inter_comm]
    exact accepted_null hf hA hrej hR hs hx0 t N hN hN0
  have hα1 : α Set.univ ≤ 1 := by
    rw [hα, Measure.map_apply hXm MeasurableSet.univ]
    exact (Measure.restrict_apply_le _ _).trans prob_le_one
  have hfin : IsFiniteMeasure α := ⟨lt_of_le_of_lt hα1 ENNReal.one_lt_top⟩
  have hset : ∀ θ : ℝ≥0∞, 0 < θ → θ ≠ ∞ → Tendsto (fun n => α {x | θ ≤ g n x}) atTop (𝓝 0) := by
    intro θ hθ hθt
    have h1 : Tendsto (fun n => ρ {x | θ ≤ g n x}) atTop (𝓝 0) := by
      have h2 := ENNReal.Tendsto.div_const hstat (Or.inr hθ.ne')
      rw [ENNReal.zero_div] at h2
      exact tendsto_of_tendsto_of_tendsto_of_le_of_le tendsto_const_nhds h2 (fun _ => zero_le)
        fun n => meas_ge_le_lintegral_div (hg n).aemeasurable hθ.ne' hθt
    have h3 := tendsto_setLIntegral_zero (μ := ρ) (f := α.rnDeriv ρ) (Measure.lintegral_rnDeriv_lt_top α ρ).ne h1
    refine h3.congr fun n => ?_
    rw [← withDensity_apply _ (measurableSet_le measurable_const (hg n)), Measure.withDensity_rnDeriv_eq α ρ hαρ]
  have hαlim : ∀ᶠ n in atTop, ∫⁻ x, g n x ∂α ≤ η / 2 := by
    rcases eq_or_ne η ∞ with rfl | hηt
    · exact Eventually.of_forall fun n => le_top.trans (ENNReal.top_div_of_ne_top (by norm_num)).ge
    have hη4 : 0 < η / 4 := ENNReal.div_pos hη.ne' (by norm_num)
    have hη4t : η / 4 ≠ ∞ := ENNReal.div_ne_top hηt (by norm_num)
    filter_upwards [(tendsto_order.1 (hset (η / 4) hη4 hη4t)).2 (η / 4) hη4] with n hn
    have h1 : ∀ x, g n x ≤ η / 4 + Set.indicator {x | η / 4 ≤ g n x} 1 x := by
      intro x
      by_cases hx : η / 4 ≤ g n x
      · rw [Set.indicator_of_mem (show x ∈ {x | η / 4 ≤ g n x} from hx)]
        exact (hg1' n x).trans le_add_self
      · exact (not_le.mp hx).le.trans le_self_add
    calc ∫⁻ x, g n x ∂α ≤ ∫⁻ x, (η / 4 + Set.indicator {x | η / 4 ≤ g n x} 1 x) ∂α := lintegral_mono h1
      _ = η / 4 * α Set.univ + α {x | η / 4 ≤ g n x} := by
        rw [lintegral_add_left measurable_const, lintegral_const, lintegral_indicator_one (measurableSet_le measurable_const (hg n))]
      _ ≤ η / 4 * 1 + η / 4 := add_le_add (mul_le_mul_right hα1 _) hn.le
      _ = η / 2 := by
        rw [mul_one, ENNReal.div_add_div_same, ← two_mul]
        have : (4 : ℝ≥0∞) = 2 * 2 := by norm_num
        rw [this, ENNReal.mul_div_mul_left _ _ (by norm_num) (by norm_num)]
  have hlarge : ∀ᶠ n : ℕ in atTop, 2 * τ * B ≤ ε / 2 * n := by
    have h1 : Tendsto (fun n : ℕ => ε / 2 * (n : ℝ)) atTop atTop := tendsto_natCast_atTop_atTop.const_mul_atTop (by linarith)
    exact h1.eventually_ge_atTop _
  have hsh := hs.shift hf t
  filter_upwards [hαlim, hlarge] with n hn1 hn2
  have hsub : {ω | ε * n ≤ |gridSum f F h n (x0 ω) (fun i => w i ω)|} ⊆
      {ω | ε / 2 * n ≤ |gridSum f F h n (stAt f x0 w t ω) (fun i => w (t + i) ω)|} := by
    intro ω hω
    have hω : ε * n ≤ |gridSum f F h n (x0 ω) (fun i => w i ω)| := hω
    show ε / 2 * n ≤ |gridSum f F h n (stAt f x0 w t ω) (fun i => w (t + i) ω)|
    set c : ℕ → ℝ := fun j => F (stAt f x0 w (h * j) ω, w (h * j) ω) with hc
    have e1 : gridSum f F h n (x0 ω) (fun i => w i ω) = ∑ j ∈ Finset.range n, c j := rfl
    have e2 : gridSum f F h n (stAt f x0 w t ω) (fun i => w (t + i) ω) = ∑ j ∈ Finset.range n, c (τ + j) := by
      unfold gridSum
      refine Finset.sum_congr rfl fun j _ => ?_
      simp only [hc, stAt]
      rw [mul_add, ← ht, fwState_add]
    have e3 : ∑ j ∈ Finset.range τ, c j + ∑ j ∈ Finset.range n, c (τ + j) = ∑ j ∈ Finset.range n, c j + ∑ j ∈ Finset.range τ, c (n + j) := by
      rw [← Finset.sum_range_add, ← Finset.sum_range_add, add_comm]
    have bd : ∀ d : ℕ → ℕ, |∑ j ∈ Finset.range τ, c (d j)| ≤ τ * B := fun d => by
      refine (Finset.abs_sum_le_sum_abs _ _).trans ?_
      refine (Finset.sum_le_sum fun j _ => hB _).trans ?_
      simp
    have b1 := bd (fun j => j)
    have b2 := bd (fun j => n + j)
    rw [e1] at hω
    rw [e2]
    have e4 : ∑ j ∈ Finset.range n, c j = ∑ j ∈ Finset.range n, c (τ + j) + (∑ j ∈ Finset.range τ, c j - ∑ j ∈ Finset.range τ, c (n + j)) := by linarith
    have e5 := abs_add_le (∑ j ∈ Finset.range n, c (τ + j)) (∑ j ∈ Finset.range τ, c j - ∑ j ∈ Finset.range τ, c (n + j))
    have e6 := abs_sub (∑ j ∈ Finset.range τ, c j) (∑ j ∈ Finset.range τ, c (n + j))
    rw [← e4] at e5
    linarith
  refine (measure_mono hsub).trans ?_
  rw [hev P _ _ hsh n, ← lintegral_add_compl _ hHm]
  have e1 : ∫⁻ ω in {ω | hitsAt f A 0 1 x0 w t ω ≠ 0}, g n (stAt f x0 w t ω) ∂P = ∫⁻ x, g n x ∂α := by
    rw [hα, lintegral_map (hg n) hXm]
  have e2 : ∫⁻ ω in {ω | hitsAt f A 0 1 x0 w t ω ≠ 0}ᶜ, g n (stAt f x0 w t ω) ∂P ≤ η / 2 := by
    refine (lintegral_mono fun ω => hg1' n _).trans ?_
    rw [lintegral_const, one_mul, Measure.restrict_apply MeasurableSet.univ, Set.univ_inter]
    refine le_trans (measure_mono fun ω hω => ?_) hnot.le
    exact not_not.mp hω
  rw [← ENNReal.add_halves η]
  exact add_le_add (e1.le.trans hn1) e2

end Start
end Pxmcmc
