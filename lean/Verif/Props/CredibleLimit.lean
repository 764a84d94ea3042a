import Verif.Props.Averages
import Verif.Props.Uncertainty
import Verif.Lemmas.QuantileLimit

/-! # Property C115: credible intervals of MYULA chains converge -/

namespace Pxmcmc
open MeasureTheory ProbabilityTheory Filter
open scoped ENNReal Topology NNReal
variable {n p : ℕ}
variable {M : Sampler n} {fwd : (Fin p → ℂ) → (Fin n → ℂ)} {grad : (Fin n → ℂ) → (Fin p → ℂ)}
  {prox : (Fin p → ℂ) → (Fin p → ℂ)} {pri g : (Fin p → ℂ) → ℝ} {Q : Matrix (Fin p) (Fin p) ℂ} {c Lf : ℝ}

theorem normalLaw_prob : IsProbabilityMeasure (normalLaw p) :=
  Measure.isProbabilityMeasure_map (show Measurable fun (x : Fin p → ℝ) (i : Fin p) => ((x i : ℝ) : ℂ) by fun_prop).aemeasurable

/-- One coordinate of a stationary law: a mixture of normal laws. -/
theorem coord_law (delta : ℝ) (G : (Fin p → ℂ) → (Fin p → ℂ)) (hf : Measurable (Function.uncurry (ulaStep delta G)))
    (π : Measure (Fin p → ℂ)) [IsProbabilityMeasure π] (hπ : stepLaw (ulaStep delta G) (normalLaw p) π = π) (i : Fin p) (B : Set ℝ)
    (hB : MeasurableSet B) : π.map (fun z => (z i).re) B =
      ∫⁻ z, gaussianReal 0 1 {y | (z i + (delta : ℂ) * G z i).re + √(2 * delta) * y ∈ B} ∂π := by
  have := normalLaw_prob (p := p)
  have hre : Measurable fun z : Fin p → ℂ => (z i).re := by fun_prop
  have hm : Measurable fun (x : Fin p → ℝ) (i : Fin p) => ((x i : ℝ) : ℂ) := by fun_prop
  conv_lhs => rw [← hπ]
  unfold stepLaw
  rw [Measure.map_map hre hf, Measure.map_apply (hre.comp hf) hB, Measure.prod_apply ((hre.comp hf) hB)]
  refine lintegral_congr fun z => ?_
  have hset : MeasurableSet (Prod.mk z ⁻¹' ((fun z : Fin p → ℂ => (z i).re) ∘ Function.uncurry (ulaStep delta G) ⁻¹' B)) :=
    measurable_prodMk_left ((hre.comp hf) hB)
  unfold normalLaw
  rw [Measure.map_apply hm hset]
  have hB' : MeasurableSet {y : ℝ | (z i + (delta : ℂ) * G z i).re + √(2 * delta) * y ∈ B} :=
    (show Measurable fun y : ℝ => (z i + (delta : ℂ) * G z i).re + √(2 * delta) * y by fun_prop) hB
  have hp := measurePreserving_eval (fun _ : Fin p => gaussianReal 0 1) i
  rw [← hp.measure_preimage hB'.nullMeasurableSet]
  congr 1
  ext x
  simp [ulaStep, Function.eval]

theorem coord_no_atom (delta : ℝ) (hd : 0 < delta) (G : (Fin p → ℂ) → (Fin p → ℂ))
    (hf : Measurable (Function.uncurry (ulaStep delta G)))
    (π : Measure (Fin p → ℂ)) [IsProbabilityMeasure π] (hπ : stepLaw (ulaStep delta G) (normalLaw p) π = π) (i : Fin p) (t : ℝ) :
    π.map (fun z => (z i).re) {t} = 0 := by
  rw [coord_law delta G hf π hπ i _ (measurableSet_singleton t)]
  have hs : 0 < √(2 * delta) := Real.sqrt_pos.mpr (by linarith)
  have h0 : ∀ z : Fin p → ℂ, gaussianReal 0 1 {y | (z i + (delta : ℂ) * G z i).re + √(2 * delta) * y ∈ ({t} : Set ℝ)} = 0 := by
    intro z
    have := nullSingletonClass_gaussianReal (μ := 0) (v := 1) one_ne_zero
    refine measure_mono_null (t := {(t - (z i + (delta : ℂ) * G z i).re) / √(2 * delta)}) (fun y hy => ?_) (measure_singleton _)
    rw [Set.mem_singleton_iff, eq_div_iff hs.ne']
    have : (z i + (delta : ℂ) * G z i).re + √(2 * delta) * y = t := hy
    linarith
  simp only [h0, lintegral_zero]

theorem coord_open (delta : ℝ) (hd : 0 < delta) (G : (Fin p → ℂ) → (Fin p → ℂ))
    (hf : Measurable (Function.uncurry (ulaStep delta G)))
    (π : Measure (Fin p → ℂ)) [IsProbabilityMeasure π] (hπ : stepLaw (ulaStep delta G) (normalLaw p) π = π) (i : Fin p) (s t : ℝ)
    (hst : s < t) : π.map (fun z => (z i).re) (Set.Ioo s t) ≠ 0 := by
  have := normalLaw_prob (p := p)
  have hs : 0 < √(2 * delta) := Real.sqrt_pos.mpr (by linarith)
  have hpos : ∀ z : Fin p → ℂ,
      gaussianReal 0 1 {y | (z i + (delta : ℂ) * G z i).re + √(2 * delta) * y ∈ Set.Ioo s t} ≠ 0 := by
    intro z h0
    have h1 := gaussianReal_absolutelyContinuous' 0 (v := 1) one_ne_zero h0
    set m := (z i + (delta : ℂ) * G z i).re with hm
    have e : {y | m + √(2 * delta) * y ∈ Set.Ioo s t} = Set.Ioo ((s - m) / √(2 * delta)) ((t - m) / √(2 * delta)) := by
      ext y
      simp only [Set.mem_ofPred_eq, Set.mem_Ioo, div_lt_iff₀ hs, lt_div_iff₀ hs]
      constructor <;> rintro ⟨h1, h2⟩ <;> constructor <;> linarith
    rw [e, Real.volume_Ioo, ENNReal.ofReal_eq_zero, ← sub_div] at h1
    have : 0 < (t - m - (s - m)) / √(2 * delta) := div_pos (by linarith) hs
    linarith
  rw [coord_law delta G hf π hπ i _ measurableSet_Ioo]
  intro h0
  have hmeas : Measurable fun z : Fin p → ℂ =>
      gaussianReal 0 1 {y | (z i + (delta : ℂ) * G z i).re + √(2 * delta) * y ∈ Set.Ioo s t} := by
    have hd0 : Measurable fun z : Fin p → ℂ => (z i + (delta : ℂ) * G z i).re := by
      have h1 : Measurable fun z : Fin p → ℂ => (ulaStep delta G z 0 i).re :=
        Complex.measurable_re.comp ((measurable_pi_apply i).comp (hf.comp measurable_prodMk_right))
      simpa [ulaStep] using h1
    have hj : Measurable fun v : (Fin p → ℂ) × ℝ => (v.1 i + (delta : ℂ) * G v.1 i).re + √(2 * delta) * v.2 :=
      (hd0.comp measurable_fst).add (measurable_const.mul measurable_snd)
    exact measurable_measure_prodMk_left (hj measurableSet_Ioo)
  rw [lintegral_eq_zero_iff hmeas] at h0
  obtain ⟨z, hz⟩ := h0.exists
  exact hpos z hz

theorem unique_quantile (π : Measure (Fin p → ℂ)) [IsProbabilityMeasure π] (i : Fin p)
    (hno : ∀ t : ℝ, π.map (fun z => (z i).re) {t} = 0) (hop : ∀ s t : ℝ, s < t → π.map (fun z => (z i).re) (Set.Ioo s t) ≠ 0)
    (q : ℝ) (hq0 : 0 < q) (hq1 : q < 1) : ∃! a : ℝ, π.real {z | (z i).re ≤ a} = q := by
  have hre : Measurable fun z : Fin p → ℂ => (z i).re := by fun_prop
  have := Measure.isProbabilityMeasure_map (μ := π) hre.aemeasurable
  have e : ∀ a, (π.map fun z => (z i).re).real (Set.Iic a) = π.real {z | (z i).re ≤ a} := fun a =>
    map_measureReal_apply hre measurableSet_Iic
  obtain ⟨a, h1, h2, h3⟩ := quantile_exists (π.map fun z => (z i).re) hno hop q hq0 hq1
  simp only [e] at h1 h2 h3
  refine ⟨a, h1, fun b hb => ?_⟩
  rcases lt_trichotomy b a with hlt | heq | hgt
  · exact absurd hb (h2 b hlt).ne
  · exact heq
  · exact absurd hb (h3 b hgt).ne'

/-- C115, quantiles of the limit: with standard normal noise every coordinate of the stationary law has exactly one quantile of every level
strictly between 0 and 1. -/
theorem C115_unique_quantile (R : Rng) (tot : Total M p fwd grad prox pri) (h : Identifiable M fwd grad prox g Q c Lf)
    (hreal : M.par.complex = false) {Ω : Type} [MeasurableSpace Ω] (P : Measure Ω) [IsProbabilityMeasure P] (r : Ω → R.σ)
    (hr : NormalStream R p P r) (π : Measure (Fin p → ℂ)) [IsProbabilityMeasure π] (hπ : StationaryLaw M R (normalLaw p) π)
    (i : Fin p) (q : ℝ) (hq0 : 0 < q) (hq1 : q < 1) : ∃! a : ℝ, π.real {z | (z i).re ≤ a} = q := by
  have := normalLaw_prob (p := p)
  have hs : NoiseStream R M.par.complex p P r (normalLaw p) := by rw [hreal]; exact C99_normal_noise R P r hr
  have hf := (myula_contraction h (normalLaw p) hs.finite 0).meas
  have hfix := (stationary_iff R tot h P r _ hs π).mp hπ
  exact unique_quantile π i (coord_no_atom _ h.delta _ hf π hfix i) (coord_open _ h.delta _ hf π hfix i) q hq0 hq1

/-- If, almost surely, the averages of ramps of a parameter over the rows of `N` saved samples converge to the means under `π`, the widths that
`credible_interval_range` returns for this parameter converge to the distance between the quantiles of `π`. -/
theorem interval_converges {Ω : Type} [MeasurableSpace Ω] (P : Measure Ω) (π : Measure (Fin p → ℂ)) [IsProbabilityMeasure π] (i : Fin p)
    (hno : ∀ t : ℝ, π.map (fun z => (z i).re) {t} = 0) (hop : ∀ s t : ℝ, s < t → π.map (fun z => (z i).re) (Set.Ioo s t) ≠ 0)
    (rows : (N : ℕ) → Ω → Fin N → Fin p → ℂ)
    (hav : ∀ s t : ℝ, s < t → ∀ᵐ ω ∂P, Tendsto (fun N : ℕ =>
      ((List.ofFn fun k : Fin N => (rows N ω k i).re).map (ramp s t)).sum / N) atTop
      (𝓝 (∫ y, ramp s t y ∂(π.map fun z => (z i).re))))
    (alpha lo hi : ℝ) (h0 : 0 < alpha) (h2 : alpha < 2) (hlo : π.real {z | (z i).re ≤ lo} = alpha / 2)
    (hhi : π.real {z | (z i).re ≤ hi} = 1 - alpha / 2) :
    ∀ᵐ ω ∂P, ∃ w : ℕ → ℝ, (∀ N : ℕ, 0 < N → ∃ ws, credibleIntervalRange (· ≤ ·)
        (⟨N, List.ofFn fun j : Fin p => List.ofFn fun k : Fin N => (rows N ω k j).re⟩ : SampleArr ℝ) alpha = .ok ws ∧
        ws[(i : ℕ)]? = some (w N)) ∧ Tendsto w atTop (𝓝 (hi - lo)) := by
  have hre : Measurable fun z : Fin p → ℂ => (z i).re := by fun_prop
  have := Measure.isProbabilityMeasure_map (μ := π) hre.aemeasurable
  have e : ∀ a, (π.map fun z => (z i).re).real (Set.Iic a) = π.real {z | (z i).re ≤ a} := fun a =>
    map_measureReal_apply hre measurableSet_Iic
  have hlim : ∀ (a q : ℝ), 0 < q → q < 1 → π.real {z | (z i).re ≤ a} = q → ∀ᵐ ω ∂P, Tendsto (fun N : ℕ =>
      tele (ostat (List.ofFn fun k : Fin (N + 1) => (rows (N + 1) ω k i).re)) N (N * q)) atTop (𝓝 a) := by
    intro a q hq0 hq1 ha
    obtain ⟨a', h3, h4, h5⟩ := quantile_exists (π.map fun z => (z i).re) hno
      hop q hq0 hq1
    obtain rfl : a' = a := by
      rcases lt_trichotomy a a' with hlt | heq | hgt
      · exact absurd ((e a).trans ha) (h4 a hlt).ne
      · exact heq.symm
      · exact absurd ((e a).trans ha) (h5 a hgt).ne'
    have hlt : ∀ m : ℕ, (1 : ℝ) / (m + 2) < 1 / (m + 1) := fun m => by
      have : (0 : ℝ) ≤ m := Nat.cast_nonneg m
      exact one_div_lt_one_div_of_lt (by linarith) (by linarith)
    have h6 := ae_all_iff.mpr fun m : ℕ => hav (a' - 1 / ((m : ℝ) + 1)) (a' - 1 / ((m : ℝ) + 2)) (by linarith [hlt m])
    have h7 := ae_all_iff.mpr fun m : ℕ => hav (a' + 1 / ((m : ℝ) + 2)) (a' + 1 / ((m : ℝ) + 1)) (by linarith [hlt m])
    filter_upwards [h6, h7] with ω h8 h9
    exact quantile_tendsto (fun N => List.ofFn fun k : Fin N => (rows N ω k i).re) (fun N => List.length_ofFn) _ a' q hq0.le hq1.le
      h4 h5 h8 h9
  filter_upwards [hlim lo (alpha / 2) (by linarith) (by linarith) hlo,
    hlim hi (1 - alpha / 2) (by linarith) (by linarith) hhi] with ω h3 h4
  refine ⟨fun N => colWidth (List.ofFn fun k : Fin N => (rows N ω k i).re) (N - 1) alpha, fun N hN => ?_, ?_⟩
  · have hwf : SampleArr.WF (⟨N, List.ofFn fun j : Fin p => List.ofFn fun k : Fin N => (rows N ω k j).re⟩ : SampleArr ℝ) := by
      intro col hcol
      obtain ⟨j, rfl⟩ := (List.mem_ofFn' _ _).mp hcol
      exact List.length_ofFn
    refine ⟨_, ciRange_real _ hwf (N - 1) (show N = N - 1 + 1 by omega) alpha h0.le h2.le, ?_⟩
    simp
  · refine (tendsto_add_atTop_iff_nat 1).mp ?_
    exact h4.sub h3

/-- C115: credible intervals converge.  Take MYULA runs of every length `N` from one fixed start array on a real sampler with standard
normal noise, for a data term that determines the parameters.  For every level `0 < alpha < 2` the width that `credible_interval_range`
returns for parameter `i` of the saved chain converges almost surely to the distance between the `alpha/2` and `1 - alpha/2` quantiles of
that parameter under the stationary law. -/
theorem C115_interval (R : Rng) (tot : Total M p fwd grad prox pri) (h : Identifiable M fwd grad prox g Q c Lf)
    (hreal : M.par.complex = false) {Ω : Type} [MeasurableSpace Ω] (P : Measure Ω) [IsProbabilityMeasure P] (r : Ω → R.σ)
    (hr : NormalStream R p P r) (π : Measure (Fin p → ℂ)) [IsProbabilityMeasure π] (hπ : StationaryLaw M R (normalLaw p) π)
    (x0 : Fin p → ℂ) (b gap : ℕ) (v : ℤ) (track : List String) (A : ℕ → Arrays)
    (hA : ∀ N, (A N).Shaped N) (fuel : ℕ → Ω → ℕ) (st : ℕ → Ω → St R)
    (hrun : ∀ N ω, myulaRun (M.resched N b gap v track) R (A N) (r ω) (.array1 (List.ofFn x0)) (fuel N ω) = .ok (some (st N ω)))
    (rows : (N : ℕ) → Ω → Fin N → Fin p → ℂ)
    (hrows : ∀ N ω, ((A N).applyAll (st N ω).ev).chain = some (List.ofFn fun k : Fin N => List.ofFn (rows N ω k)))
    (i : Fin p) (alpha lo hi : ℝ) (h0 : 0 < alpha) (h2 : alpha < 2) (hlo : π.real {z | (z i).re ≤ lo} = alpha / 2)
    (hhi : π.real {z | (z i).re ≤ hi} = 1 - alpha / 2) :
    ∀ᵐ ω ∂P, ∃ w : ℕ → ℝ, (∀ N : ℕ, 0 < N → ∃ ws, credibleIntervalRange (· ≤ ·)
        (⟨N, List.ofFn fun j : Fin p => List.ofFn fun k : Fin N => (rows N ω k j).re⟩ : SampleArr ℝ) alpha = .ok ws ∧
        ws[(i : ℕ)]? = some (w N)) ∧ Tendsto w atTop (𝓝 (hi - lo)) := by
  have := normalLaw_prob (p := p)
  have hs : NoiseStream R M.par.complex p P r (normalLaw p) := by rw [hreal]; exact C99_normal_noise R P r hr
  have hf := (myula_contraction h (normalLaw p) hs.finite 0).meas
  have hfix := (stationary_iff R tot h P r _ hs π).mp hπ
  have hre : Measurable fun z : Fin p → ℂ => (z i).re := by fun_prop
  have hav : ∀ s t : ℝ, s < t → ∀ᵐ ω ∂P, Tendsto (fun N : ℕ =>
      ((List.ofFn fun k : Fin N => (rows N ω k i).re).map (ramp s t)).sum / N) atTop
      (𝓝 (∫ y, ramp s t y ∂(π.map fun z => (z i).re))) := by
    intro s t hst
    have h3 := (C114_averages R tot h P r _ hs C114_normal_noise π hπ x0 b gap v track A hA fuel st hrun rows hrows
      (fun x => ramp s t (x i).re) (1 / (t - s)) fun x y => ?_).2
    · filter_upwards [h3] with ω hω
      rw [integral_map hre.aemeasurable (ramp_continuous s t).aestronglyMeasurable]
      simp only [List.map_ofFn, List.sum_ofFn]
      simpa [hreal, store] using hω
    · refine (ramp_lipschitz hst _ _).trans ?_
      refine mul_le_mul_of_nonneg_left ?_ (one_div_pos.mpr (sub_pos.mpr hst)).le
      rw [← Complex.sub_re]
      refine (Complex.abs_re_le_norm _).trans (Real.le_sqrt_of_sq_le ?_)
      exact Finset.single_le_sum (f := fun i => ‖x i - y i‖ ^ 2) (fun i _ => sq_nonneg _) (Finset.mem_univ i)
  exact interval_converges P π i (coord_no_atom _ h.delta _ hf π hfix i) (coord_open _ h.delta _ hf π hfix i) rows hav alpha lo hi h0 h2
    hlo hhi

/-- The hypotheses of C115 are met: the runs of the example of C114, with level 0.05. -/
example : ∃ (M : Sampler 1) (prox : (Fin 1 → ℂ) → (Fin 1 → ℂ)) (pri g : (Fin 1 → ℂ) → ℝ) (π : Measure (Fin 1 → ℂ)) (lo hi : ℝ),
    Total M 1 (fun x => x) (fun y => y) prox pri ∧ Identifiable M (fun x : Fin 1 → ℂ => x) (fun y => y) prox g 1 1 1 ∧
    M.par.complex = false ∧ NormalStream streamRng 1 (Measure.infinitePi fun _ : ℕ => gaussianReal 0 1) (fun ω => ω) ∧
    IsProbabilityMeasure π ∧ StationaryLaw M streamRng (normalLaw 1) π ∧
    (∃ (A : ℕ → Arrays) (fuel : ℕ → (ℕ → ℝ) → ℕ) (st : ℕ → (ℕ → ℝ) → St streamRng) (rows : (N : ℕ) → (ℕ → ℝ) → Fin N → Fin 1 → ℂ),
      (∀ N, (A N).Shaped N) ∧
      (∀ N ω, myulaRun (M.resched N (3 : ℕ) (2 : ℕ) 0 ["chain"]) streamRng (A N) ω (.array1 (List.ofFn fun _ : Fin 1 => 5)) (fuel N ω) =
        .ok (some (st N ω))) ∧
      ∀ N ω, ((A N).applyAll (st N ω).ev).chain = some (List.ofFn fun k : Fin N => List.ofFn (rows N ω k))) ∧
    π.real {z | (z 0).re ≤ lo} = 0.05 / 2 ∧ π.real {z | (z 0).re ≤ hi} = 1 - 0.05 / 2 := by
  obtain ⟨M, prox, pri, g, π, h1, h2, h3, -, h5, h6, h7⟩ := averages_demo
  obtain ⟨lo, hlo, -⟩ := C115_unique_quantile streamRng h1 h2 h3 _ _ streamRng_normal π h6 0 (0.05 / 2) (by norm_num) (by norm_num)
  obtain ⟨hi, hhi, -⟩ := C115_unique_quantile streamRng h1 h2 h3 _ _ streamRng_normal π h6 0 (1 - 0.05 / 2) (by norm_num) (by norm_num)
  exact ⟨M, prox, pri, g, π, lo, hi, h1, h2, h3, streamRng_normal, h5, h6, h7, hlo, hhi⟩

end Pxmcmc
