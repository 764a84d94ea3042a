import Verif.Lemmas.SavedRows
import Mathlib.Analysis.InnerProductSpace.MeanErgodic
import Mathlib.Analysis.InnerProductSpace.Adjoint
import Mathlib.Analysis.Asymptotics.Lemmas
import Mathlib.MeasureTheory.Function.L2Space
import Mathlib.MeasureTheory.Function.LpSpace.Indicator
import Mathlib.MeasureTheory.Function.AEEqOfIntegral
import Mathlib.MeasureTheory.Integral.Prod

/-! # Averages along a stationary chain converge in mean square

A chain `x ↦ f x v` with independent `v` of law `κ` that keeps a law `ρ` and can reach from almost every state everything that `ρ` charges. -/

namespace Pxmcmc
open MeasureTheory ProbabilityTheory Filter
open scoped ENNReal Topology
set_option linter.unusedSectionVars false

section Operators
variable {E V : Type} [MeasurableSpace E] [MeasurableSpace V] (κ : Measure V) [IsProbabilityMeasure κ] (ρ : Measure E) [IsProbabilityMeasure ρ]
  {f : E → V → E} (hf : Measurable (Function.uncurry f)) (hinv : stepLaw f κ ρ = ρ)

/-- Functions of the next state, as functions of state and draw. -/
noncomputable def nextOp : Lp ℝ 2 ρ →ₗᵢ[ℝ] Lp ℝ 2 (ρ.prod κ) := Lp.compMeasurePreservingₗᵢ ℝ (Function.uncurry f) ⟨hf, hinv⟩

/-- Functions of the state, as functions of state and draw. -/
noncomputable def curOp : Lp ℝ 2 ρ →ₗᵢ[ℝ] Lp ℝ 2 (ρ.prod κ) := Lp.compMeasurePreservingₗᵢ ℝ Prod.fst measurePreserving_fst

/-- The mean one step later. -/
noncomputable def laterOp : Lp ℝ 2 (ρ.prod κ) →L[ℝ] Lp ℝ 2 (ρ.prod κ) :=
  (nextOp κ ρ hf hinv).toContinuousLinearMap ∘L (ContinuousLinearMap.adjoint (curOp κ ρ).toContinuousLinearMap)

theorem nextOp_coe (φ : Lp ℝ 2 ρ) : nextOp κ ρ hf hinv φ =ᵐ[ρ.prod κ] fun q => φ (f q.1 q.2) :=
  Lp.coeFn_compMeasurePreserving φ ⟨hf, hinv⟩

theorem curOp_coe (φ : Lp ℝ 2 ρ) : curOp κ ρ φ =ᵐ[ρ.prod κ] fun q => φ q.1 :=
  Lp.coeFn_compMeasurePreserving φ measurePreserving_fst

theorem meanOp_norm (u : Lp ℝ 2 (ρ.prod κ)) : ‖ContinuousLinearMap.adjoint (curOp κ ρ).toContinuousLinearMap u‖ ≤ ‖u‖ := by
  refine (ContinuousLinearMap.le_opNorm _ u).trans ?_
  rw [LinearIsometryEquiv.norm_map]
  refine mul_le_of_le_one_left (norm_nonneg u) (ContinuousLinearMap.opNorm_le_bound _ zero_le_one fun x => ?_)
  rw [one_mul]
  exact ((curOp κ ρ).norm_map x).le

theorem laterOp_norm (u : Lp ℝ 2 (ρ.prod κ)) : ‖laterOp κ ρ hf hinv u‖ ≤ ‖u‖ :=
  ((nextOp κ ρ hf hinv).norm_map _).le.trans (meanOp_norm κ ρ u)

/-- The adjoint averages over the draw. -/
theorem meanOp_coe (u : Lp ℝ 2 (ρ.prod κ)) :
    ContinuousLinearMap.adjoint (curOp κ ρ).toContinuousLinearMap u =ᵐ[ρ] fun x => ∫ v, u (x, v) ∂κ := by
  have hu : Integrable u (ρ.prod κ) := (Lp.memLp u).integrable (by norm_num)
  refine Integrable.ae_eq_of_forall_setIntegral_eq _ _ ((Lp.memLp _).integrable (by norm_num)) hu.integral_prod_left fun s hs _ => ?_
  rw [← L2.inner_indicatorConstLp_one (𝕜 := ℝ) hs (measure_ne_top ρ s), ContinuousLinearMap.adjoint_inner_right]
  have e : (curOp κ ρ).toContinuousLinearMap (indicatorConstLp 2 hs (measure_ne_top ρ s) (1 : ℝ)) =
      indicatorConstLp 2 (measurable_fst hs : MeasurableSet (Prod.fst ⁻¹' s : Set (E × V))) (measure_ne_top _ _) (1 : ℝ) :=
    Lp.indicatorConstLp_compMeasurePreserving hs (measure_ne_top ρ s) 1 measurePreserving_fst
  rw [e, L2.inner_indicatorConstLp_one]
  have e2 : (Prod.fst ⁻¹' s : Set (E × V)) = s ×ˢ Set.univ := by ext; simp
  rw [e2, setIntegral_prod _ hu.integrableOn]
  simp

/-- Fixed functions of several steps are constant. -/
theorem laterOp_fixed (hreach : ∀ᵐ x ∂ρ, ∀ B, MeasurableSet B → (∀ᵐ v ∂κ, f x v ∈ B) → ∀ᵐ y ∂ρ, y ∈ B) (h : ℕ) (hh : 0 < h)
    (u : Lp ℝ 2 (ρ.prod κ)) (hu : (laterOp κ ρ hf hinv ^ h) u = u) : ∃ c : ℝ, u =ᵐ[ρ.prod κ] fun _ => c := by
  set Q := laterOp κ ρ hf hinv with hQ
  have hle : ∀ (m : ℕ) w, ‖(Q ^ m) w‖ ≤ ‖w‖ := by
    intro m
    induction m with
    | zero => intro w; simp
    | succ m ih =>
      intro w
      rw [pow_succ, mul_apply_eq_comp]
      exact (ih _).trans (laterOp_norm κ ρ hf hinv w)
  have range : ∀ w, (Q ^ h) w = w → (curOp κ ρ) (ContinuousLinearMap.adjoint (curOp κ ρ).toContinuousLinearMap w) = w := by
    intro w hw
    set T := (curOp κ ρ).toContinuousLinearMap with hT
    obtain ⟨m, rfl⟩ : ∃ m, h = m + 1 := ⟨h - 1, by omega⟩
    have h1 : ‖w‖ ≤ ‖Q w‖ := by
      conv_lhs => rw [← hw]
      rw [pow_succ, mul_apply_eq_comp]
      exact hle m _
    have h2 : ‖Q w‖ = ‖ContinuousLinearMap.adjoint T w‖ := (nextOp κ ρ hf hinv).norm_map _
    have h3 : ‖ContinuousLinearMap.adjoint T w‖ = ‖w‖ := le_antisymm (meanOp_norm κ ρ w) (by rw [← h2]; exact h1)
    have h4 : ‖T (ContinuousLinearMap.adjoint T w) - w‖ ^ 2 = 0 := by
      rw [@norm_sub_sq_real, ← ContinuousLinearMap.adjoint_inner_right, real_inner_self_eq_norm_sq, h3]
      have h5 : ‖T (ContinuousLinearMap.adjoint T w)‖ = ‖w‖ := by rw [← h3]; exact (curOp κ ρ).norm_map _
      rw [h5]
      ring
    exact sub_eq_zero.mp (norm_eq_zero.mp (pow_eq_zero_iff (two_ne_zero)|>.mp h4))
  have hQu : (Q ^ h) (Q u) = Q u := by
    have : (Q ^ h * Q) u = (Q * Q ^ h) u := by rw [(Commute.pow_self Q h).eq]
    rw [mul_apply_eq_comp, mul_apply_eq_comp, hu] at this
    exact this
  set φ0 := ContinuousLinearMap.adjoint (curOp κ ρ).toContinuousLinearMap u with hφ0
  set φ1 := ContinuousLinearMap.adjoint (curOp κ ρ).toContinuousLinearMap (Q u) with hφ1
  have e0 : curOp κ ρ φ0 = u := range u hu
  have e1 : curOp κ ρ φ1 = nextOp κ ρ hf hinv φ0 := range (Q u) hQu
  have e2 : ∀ᵐ q ∂(ρ.prod κ), φ0 (f q.1 q.2) = φ1 q.1 := by
    filter_upwards [curOp_coe κ ρ φ1, nextOp_coe κ ρ hf hinv φ0] with q h1 h2
    rw [← h1, ← h2, e1]
  have e3 := Measure.ae_ae_of_ae_prod e2
  have hne : ρ ≠ 0 := IsProbabilityMeasure.ne_zero ρ
  have : (ae ρ).NeBot := ae_neBot.mpr hne
  obtain ⟨x, hx1, hx2⟩ := (e3.and hreach).exists
  have hm : Measurable φ0 := (Lp.stronglyMeasurable φ0).measurable
  have h5 := hx2 {y | φ0 y = φ1 x} (hm (measurableSet_singleton (φ1 x))) hx1
  refine ⟨φ1 x, ?_⟩
  have h6 : ∀ᵐ q ∂(ρ.prod κ), φ0 q.1 = φ1 x := Measure.quasiMeasurePreserving_fst.ae h5
  filter_upwards [curOp_coe κ ρ φ0, h6] with q h1 h2
  rw [← h2, ← h1, e0]

/-- The averages of the correlations of a function of mean zero tend to zero. -/
theorem correlations (hreach : ∀ᵐ x ∂ρ, ∀ B, MeasurableSet B → (∀ᵐ v ∂κ, f x v ∈ B) → ∀ᵐ y ∂ρ, y ∈ B) (h : ℕ) (hh : 0 < h)
    (u : Lp ℝ 2 (ρ.prod κ)) (hu : ∫ q, u q ∂(ρ.prod κ) = 0) :
    Tendsto (fun n : ℕ => (n : ℝ)⁻¹ * ∑ d ∈ Finset.range n, inner ℝ u ((laterOp κ ρ hf hinv ^ (h * d)) u)) atTop (𝓝 0) := by
  set Q := laterOp κ ρ hf hinv with hQ
  have hnorm : ‖Q ^ h‖ ≤ 1 := by
    have h1 : ‖Q‖ ≤ 1 := ContinuousLinearMap.opNorm_le_bound _ zero_le_one fun w => by rw [one_mul]; exact laterOp_norm κ ρ hf hinv w
    refine (norm_pow_le' Q hh).trans (pow_le_one₀ (norm_nonneg _) h1)
  have key := ContinuousLinearMap.tendsto_birkhoffAverage_orthogonalProjection (Q ^ h) hnorm u
  have hz : ((Q ^ h).eqLocus (1 : Lp ℝ 2 (ρ.prod κ) →L[ℝ] Lp ℝ 2 (ρ.prod κ))).orthogonalProjectionOnto u = 0 := by
    rw [Submodule.orthogonalProjectionOnto_eq_zero_iff, Submodule.mem_orthogonal]
    intro w hw
    obtain ⟨c, hc⟩ := laterOp_fixed κ ρ hf hinv hreach h hh w hw
    rw [L2.inner_def]
    have : ∫ q, inner ℝ (w q) (u q) ∂(ρ.prod κ) = ∫ q, c * u q ∂(ρ.prod κ) := by
      refine integral_congr_ae ?_
      filter_upwards [hc] with q hq
      rw [hq]
      simp [mul_comm]
    rw [this, integral_const_mul, hu, mul_zero]
  rw [hz] at key
  have h2 := (continuous_const.inner continuous_id : Continuous fun w => inner ℝ u w).continuousAt.tendsto.comp key
  simp only [ZeroMemClass.coe_zero, inner_zero_right] at h2
  refine h2.congr fun n => ?_
  simp only [Function.comp, birkhoffAverage, birkhoffSum, id, inner_smul_right, inner_sum]
  congr 1
  refine Finset.sum_congr rfl fun d _ => ?_
  rw [pow_mul]
  exact congrArg (inner ℝ u) (congrFun (FunLike.coe_pow_eq_iterate (Q ^ h) d).symm u)

section Chain
variable {Ω : Type} [MeasurableSpace Ω] {P : Measure Ω} [IsProbabilityMeasure P] {x0 : Ω → E} {w : ℕ → Ω → V}

variable {κ ρ} in
include hf hinv in
theorem stationary_pair (hs : SeqIndep P x0 w κ) (hx0 : P.map x0 = ρ) (k : ℕ) :
    P.map (fun ω => (stAt f x0 w k ω, w k ω)) = ρ.prod κ := by
  obtain ⟨G, hG, hGe⟩ := state_prefix (f := f) hf k
  have hm := hs.state_meas hf k
  have hind : IndepFun (stAt f x0 w k) (w k) P := by
    have e : stAt f x0 w k = G ∘ fun ω => (x0 ω, fun i : Fin k => w i ω) := funext fun ω => hGe _ _
    rw [e]
    exact (hs.indep k).comp hG measurable_id
  have hj := (indepFun_iff_map_prod_eq_prod_map_map hm.aemeasurable (hs.meas k).aemeasurable).mp hind
  have hst : P.map (stAt f x0 w k) = ρ := by
    rw [hs.law_state hf k, hx0]
    clear hj hind hGe hG hm G
    induction k with
    | zero => rfl
    | succ k ih => rw [Function.iterate_succ_apply', ih, hinv]
  rw [hj, hs.law, hst]

include hf hinv in
/-- Correlations along the chain. -/
theorem chain_corr (hs : SeqIndep P x0 w κ) (hx0 : P.map x0 = ρ) (F : E × V → ℝ) (hF : Measurable F) (B : ℝ) (hB : ∀ q, |F q| ≤ B)
    (j d : ℕ) (u : Lp ℝ 2 (ρ.prod κ)) :
    ∫ ω, F (stAt f x0 w j ω, w j ω) * u (stAt f x0 w (j + d) ω, w (j + d) ω) ∂P =
      ∫ q, F q * ((laterOp κ ρ hf hinv ^ d) u) q ∂(ρ.prod κ) := by
  have hZm : ∀ k, Measurable fun ω => (stAt f x0 w k ω, w k ω) := fun k => (hs.state_meas hf k).prodMk (hs.meas k)
  have hZ := stationary_pair (f := f) hf hinv hs hx0
  induction d generalizing u with
  | zero =>
    rw [pow_zero, one_apply_eq_self]
    have h1 := integral_map (μ := P) (hZm j).aemeasurable (f := fun q => F q * u q)
      (hF.mul (Lp.stronglyMeasurable u).measurable).aestronglyMeasurable
    rw [hZ] at h1
    exact h1.symm
  | succ d ih =>
    rw [pow_succ, mul_apply_eq_comp, ← ih]
    set k := j + d with hk
    have hk1 : j + (d + 1) = k + 1 := by omega
    rw [hk1]
    obtain ⟨G, hG, hGe⟩ := state_prefix (f := f) hf (k + 1)
    obtain ⟨G', hG', hGe'⟩ := state_prefix (f := f) hf j
    have hum : Measurable u := (Lp.stronglyMeasurable u).measurable
    have hui : Integrable u (ρ.prod κ) := (Lp.memLp u).integrable (by norm_num)
    set W : Ω → (E × V) × E := fun ω => ((stAt f x0 w j ω, w j ω), stAt f x0 w (k + 1) ω) with hW
    have hWm : Measurable W := (hZm j).prodMk (hs.state_meas hf (k + 1))
    have hind : IndepFun W (w (k + 1)) P := by
      have e : W = (fun q : E × (Fin (k + 1) → V) => ((G' (q.1, fun i : Fin j => q.2 ⟨i, by omega⟩), q.2 ⟨j, by omega⟩), G q)) ∘
          fun ω => (x0 ω, fun i : Fin (k + 1) => w i ω) := by
        funext ω
        simp only [hW, Function.comp, stAt, hGe, hGe']
      rw [e]
      refine (hs.indep (k + 1)).comp ?_ measurable_id
      refine Measurable.prodMk (Measurable.prodMk (hG'.comp (measurable_fst.prodMk (measurable_pi_lambda _ fun i => ?_))) ?_) hG
      · exact (measurable_pi_apply _).comp measurable_snd
      · exact (measurable_pi_apply _).comp measurable_snd
    have hj := (indepFun_iff_map_prod_eq_prod_map_map hWm.aemeasurable (hs.meas (k + 1)).aemeasurable).mp hind
    rw [hs.law] at hj
    have hψ : Measurable fun r : ((E × V) × E) × V => F r.1.1 * u (r.1.2, r.2) :=
      (hF.comp (measurable_fst.comp measurable_fst)).mul (hum.comp ((measurable_snd.comp measurable_fst).prodMk measurable_snd))
    have hint : Integrable (fun r : ((E × V) × E) × V => F r.1.1 * u (r.1.2, r.2)) ((P.map W).prod κ) := by
      rw [← hj, integrable_map_measure hψ.aestronglyMeasurable (hWm.prodMk (hs.meas _)).aemeasurable]
      have hi : Integrable (fun ω => u (stAt f x0 w (k + 1) ω, w (k + 1) ω)) P := by
        have := (integrable_map_measure (μ := P) (f := fun ω => (stAt f x0 w (k + 1) ω, w (k + 1) ω)) (g := u)
          hum.aestronglyMeasurable (hZm (k + 1)).aemeasurable).mp (by rw [hZ]; exact hui)
        exact this
      exact hi.bdd_mul (c := B) (hF.comp (hZm j)).aestronglyMeasurable (Eventually.of_forall fun ω => hB _)
    have e1 : ∫ ω, F (stAt f x0 w j ω, w j ω) * u (stAt f x0 w (k + 1) ω, w (k + 1) ω) ∂P =
        ∫ r, F r.1.1 * u (r.1.2, r.2) ∂((P.map W).prod κ) := by
      rw [← hj, integral_map (hWm.prodMk (hs.meas _)).aemeasurable hψ.aestronglyMeasurable]
    rw [e1, integral_prod _ hint, integral_map hWm.aemeasurable]
    · refine integral_congr_ae ?_
      have h1 := meanOp_coe κ ρ u
      have h2 : ∀ᵐ ω ∂P, ContinuousLinearMap.adjoint (curOp κ ρ).toContinuousLinearMap u (stAt f x0 w (k + 1) ω) =
          ∫ v, u (stAt f x0 w (k + 1) ω, v) ∂κ := by
        have h3 : P.map (stAt f x0 w (k + 1)) = ρ := by
          have h4 := congrArg (Measure.map Prod.fst) (hZ (k + 1))
          rw [Measure.map_map measurable_fst (hZm _)] at h4
          have h5 : (ρ.prod κ).map Prod.fst = ρ := measurePreserving_fst.map_eq
          rw [h5] at h4
          exact h4
        exact (MeasurePreserving.quasiMeasurePreserving ⟨hs.state_meas hf _, h3⟩).ae h1
      have h3 : ∀ᵐ ω ∂P, laterOp κ ρ hf hinv u (stAt f x0 w k ω, w k ω) =
          ContinuousLinearMap.adjoint (curOp κ ρ).toContinuousLinearMap u (stAt f x0 w (k + 1) ω) := by
        have h4 := nextOp_coe κ ρ hf hinv (ContinuousLinearMap.adjoint (curOp κ ρ).toContinuousLinearMap u)
        exact (MeasurePreserving.quasiMeasurePreserving ⟨hZm k, hZ k⟩).ae h4
      filter_upwards [h2, h3] with ω h2 h3
      rw [h3, h2, ← integral_const_mul]
    · exact hint.integral_prod_left.aestronglyMeasurable

include hf hinv in
/-- The mean square of sums over the grid `0, h, 2h, …`, for a function of mean zero. -/
theorem square_limit (hreach : ∀ᵐ x ∂ρ, ∀ B, MeasurableSet B → (∀ᵐ v ∂κ, f x v ∈ B) → ∀ᵐ y ∂ρ, y ∈ B) (h : ℕ) (hh : 0 < h)
    (hs : SeqIndep P x0 w κ) (hx0 : P.map x0 = ρ) (F : E × V → ℝ) (hF : Measurable F) (B : ℝ) (hB : ∀ q, |F q| ≤ B)
    (h0 : ∫ q, F q ∂(ρ.prod κ) = 0) :
    Tendsto (fun n : ℕ => (∫ ω, (∑ j ∈ Finset.range n, F (stAt f x0 w (h * j) ω, w (h * j) ω)) ^ 2 ∂P) / (n : ℝ) ^ 2) atTop (𝓝 0) := by
  have hZm : ∀ k, Measurable fun ω => (stAt f x0 w k ω, w k ω) := fun k => (hs.state_meas hf k).prodMk (hs.meas k)
  have hZ := stationary_pair (f := f) hf hinv hs hx0
  have hL : MemLp F 2 (ρ.prod κ) := MemLp.of_bound hF.aestronglyMeasurable B (Eventually.of_forall hB)
  set u : Lp ℝ 2 (ρ.prod κ) := hL.toLp F with hu
  have huF : u =ᵐ[ρ.prod κ] F := hL.coeFn_toLp
  set c : ℕ → ℝ := fun d => inner ℝ u ((laterOp κ ρ hf hinv ^ (h * d)) u) with hc
  have hcorr : ∀ j d, ∫ ω, F (stAt f x0 w (h * j) ω, w (h * j) ω) * F (stAt f x0 w (h * (j + d)) ω, w (h * (j + d)) ω) ∂P = c d := by
    intro j d
    have h1 := chain_corr κ ρ hf hinv hs hx0 F hF B hB (h * j) (h * d) u
    rw [← mul_add] at h1
    have h2 : ∀ᵐ ω ∂P, u (stAt f x0 w (h * (j + d)) ω, w (h * (j + d)) ω) = F (stAt f x0 w (h * (j + d)) ω, w (h * (j + d)) ω) := by
      exact (MeasurePreserving.quasiMeasurePreserving ⟨hZm _, hZ _⟩).ae huF
    have h4 : ∫ ω, F (stAt f x0 w (h * j) ω, w (h * j) ω) * F (stAt f x0 w (h * (j + d)) ω, w (h * (j + d)) ω) ∂P =
        ∫ ω, F (stAt f x0 w (h * j) ω, w (h * j) ω) * u (stAt f x0 w (h * (j + d)) ω, w (h * (j + d)) ω) ∂P := by
      refine integral_congr_ae ?_
      filter_upwards [h2] with ω h2
      rw [h2]
    rw [h4, h1, hc]
    simp only
    rw [L2.inner_def]
    refine integral_congr_ae ?_
    filter_upwards [huF] with q hq
    rw [hq]
    simp [mul_comm]
  set Fj : ℕ → Ω → ℝ := fun j ω => F (stAt f x0 w (h * j) ω, w (h * j) ω) with hFj
  have hFjm : ∀ j, Measurable (Fj j) := fun j => hF.comp (hZm _)
  have hFjb : ∀ j ω, |Fj j ω| ≤ B := fun j ω => hB _
  have hprod : ∀ i j, Integrable (fun ω => Fj i ω * Fj j ω) P := fun i j =>
    ((integrable_const B).mono' (hFjm j).aestronglyMeasurable (Eventually.of_forall (hFjb j))).bdd_mul (c := B)
      (hFjm i).aestronglyMeasurable (Eventually.of_forall (hFjb i))
  have hsum : ∀ n, ∫ ω, (∑ j ∈ Finset.range n, Fj j ω) ^ 2 ∂P = ∑ k ∈ Finset.range n, (2 * ∑ d ∈ Finset.range (k + 1), c d - c 0) := by
    intro n
    induction n with
    | zero => simp
    | succ n ih =>
      have hexp : ∀ ω, (∑ j ∈ Finset.range (n + 1), Fj j ω) ^ 2 =
          (∑ j ∈ Finset.range n, Fj j ω) ^ 2 + (2 * ∑ j ∈ Finset.range n, Fj j ω * Fj n ω + Fj n ω * Fj n ω) := by
        intro ω
        rw [Finset.sum_range_succ, ← Finset.sum_mul]
        ring
      have hi1 : Integrable (fun ω => (∑ j ∈ Finset.range n, Fj j ω) ^ 2) P := by
        have : (fun ω => (∑ j ∈ Finset.range n, Fj j ω) ^ 2) = fun ω => ∑ i ∈ Finset.range n, ∑ j ∈ Finset.range n, Fj i ω * Fj j ω := by
          funext ω
          rw [sq, Finset.sum_mul_sum]
        rw [this]
        exact integrable_finsetSum _ fun i _ => integrable_finsetSum _ fun j _ => hprod i j
      have hi2 : Integrable (fun ω => ∑ j ∈ Finset.range n, Fj j ω * Fj n ω) P := integrable_finsetSum _ fun j _ => hprod j n
      simp only [hexp]
      have hi3 : Integrable (fun ω => 2 * ∑ j ∈ Finset.range n, Fj j ω * Fj n ω + Fj n ω * Fj n ω) P := (hi2.const_mul 2).add (hprod n n)
      rw [integral_add hi1 hi3, integral_add (hi2.const_mul 2) (hprod n n), integral_const_mul,
        integral_finsetSum _ (fun j _ => hprod j n), ih, Finset.sum_range_succ]
      have h1 : ∫ ω, Fj n ω * Fj n ω ∂P = c 0 := hcorr n 0
      have h2 : ∑ j ∈ Finset.range n, ∫ ω, Fj j ω * Fj n ω ∂P = ∑ d ∈ Finset.range (n + 1), c d - c 0 := by
        rw [Finset.sum_range_succ', add_sub_cancel_right, ← Finset.sum_range_reflect (fun d => c (d + 1))]
        refine Finset.sum_congr rfl fun j hj => ?_
        have hj' := Finset.mem_range.mp hj
        have h3 := hcorr j (n - 1 - j + 1)
        rw [show j + (n - 1 - j + 1) = n by omega] at h3
        exact h3
      rw [h1, h2]
      ring
  have hu0 : ∫ q, u q ∂(ρ.prod κ) = 0 := by rw [integral_congr_ae huF, h0]
  have hlim := correlations κ ρ hf hinv hreach h hh u hu0
  set a : ℕ → ℝ := fun n => (n : ℝ)⁻¹ * ∑ d ∈ Finset.range n, c d with ha
  have ha1 : Tendsto (fun k => |a (k + 1)|) atTop (𝓝 0) := by
    have := (hlim.comp (tendsto_add_atTop_nat 1)).abs
    rw [abs_zero] at this
    exact this
  have hces := ha1.cesaro
  have hc0 : 0 ≤ c 0 := by
    rw [hc]
    simp only [mul_zero, pow_zero, one_apply_eq_self]
    exact real_inner_self_nonneg
  refine squeeze_zero (g := fun n : ℕ => 2 * ((n : ℝ)⁻¹ * ∑ k ∈ Finset.range n, |a (k + 1)|))
    (fun n => div_nonneg (integral_nonneg fun ω => sq_nonneg _) (sq_nonneg _)) (fun n => ?_) (by simpa using hces.const_mul 2)
  rcases Nat.eq_zero_or_pos n with rfl | hn
  · simp
  have hnp : (0 : ℝ) < n := by exact_mod_cast hn
  rw [div_le_iff₀ (by positivity)]
  have e : 2 * ((n : ℝ)⁻¹ * ∑ k ∈ Finset.range n, |a (k + 1)|) * (n : ℝ) ^ 2 = 2 * (n * ∑ k ∈ Finset.range n, |a (k + 1)|) := by
    field_simp
  rw [e]
  show ∫ ω, (∑ j ∈ Finset.range n, Fj j ω) ^ 2 ∂P ≤ _
  rw [hsum n, Finset.mul_sum, Finset.mul_sum]
  refine Finset.sum_le_sum fun k hk => ?_
  have hk' : ((k + 1 : ℕ) : ℝ) ≤ n := by exact_mod_cast Finset.mem_range.mp hk
  have hkp : (0 : ℝ) < ((k + 1 : ℕ) : ℝ) := by exact_mod_cast Nat.succ_pos k
  have h1 : ∑ d ∈ Finset.range (k + 1), c d = ((k + 1 : ℕ) : ℝ) * a (k + 1) := by
    rw [ha]
    simp only
    rw [← mul_assoc, mul_inv_cancel₀ hkp.ne', one_mul]
  rw [h1]
  have h2 : ((k + 1 : ℕ) : ℝ) * a (k + 1) ≤ n * |a (k + 1)| :=
    (mul_le_mul_of_nonneg_left (le_abs_self _) hkp.le).trans (mul_le_mul_of_nonneg_right hk' (abs_nonneg _))
  linarith

end Chain
end Operators
end Pxmcmc
