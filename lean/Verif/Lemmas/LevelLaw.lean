import Verif.Lemmas.QuantileLimit
import Mathlib.Probability.Distributions.Gaussian.Real
import Mathlib.MeasureTheory.Constructions.Pi
import Mathlib.Analysis.Convex.Measure
import Mathlib.MeasureTheory.Measure.Haar.OfBasis

/-! # Laws of convex functions of Gaussian vectors -/

namespace Pxmcmc
open MeasureTheory ProbabilityTheory Filter Set
open scoped Topology ENNReal

theorem pi_ac : ∀ (n : ℕ) (μ ν : Measure ℝ) [SigmaFinite μ] [SigmaFinite ν], μ ≪ ν →
    (Measure.pi fun _ : Fin n => μ) ≪ Measure.pi fun _ : Fin n => ν := by
  intro n
  induction n with
  | zero =>
    intro μ ν _ _ _
    rw [Measure.pi_of_empty, Measure.pi_of_empty (fun _ : Fin 0 => ν)]
  | succ n ih =>
    intro μ ν _ _ h
    have h1 := measurePreserving_piFinSuccAbove (fun _ : Fin (n + 1) => μ) 0
    have h2 := measurePreserving_piFinSuccAbove (fun _ : Fin (n + 1) => ν) 0
    have h3 := h.prod (ih μ ν h)
    refine Measure.AbsolutelyContinuous.mk fun s hs h0 => ?_
    set e := MeasurableEquiv.piFinSuccAbove (fun _ : Fin (n + 1) => ℝ) 0
    have hs' : MeasurableSet (e.symm ⁻¹' s) := e.symm.measurable hs
    rw [← h1.symm.measure_preimage hs.nullMeasurableSet]
    refine h3 ?_
    exact (h2.symm.measure_preimage hs.nullMeasurableSet).trans h0

/-- The standard normal law on `ℝⁿ`. -/
noncomputable abbrev gaussVec (n : ℕ) : Measure (Fin n → ℝ) := Measure.pi fun _ => gaussianReal 0 1

theorem gaussVec_ac (n : ℕ) : gaussVec n ≪ volume := pi_ac n _ volume (gaussianReal_absolutelyContinuous 0 one_ne_zero)

theorem gaussVec_open (n : ℕ) (U : Set (Fin n → ℝ)) (hU : IsOpen U) (hne : U.Nonempty) : gaussVec n U ≠ 0 := by
  have h : volume ≪ gaussVec n := pi_ac n volume _ (gaussianReal_absolutelyContinuous' 0 one_ne_zero)
  exact fun h0 => hU.measure_ne_zero volume hne (h h0)

/-- Level sets of a strictly convex function are null sets. -/
theorem level_null {n : ℕ} (hn : 0 < n) (φ : (Fin n → ℝ) → ℝ) (hc : ConvexOn ℝ univ φ)
    (hmid : ∀ w e, e ≠ 0 → 2 * φ w < φ (w + e) + φ (w - e)) (c : ℝ) : gaussVec n {w | φ w = c} = 0 := by
  refine gaussVec_ac n (measure_mono_null (t := frontier {w | φ w ≤ c}) (fun w hw => ?_) ?_)
  · refine ⟨subset_closure (le_of_eq hw), fun hint => ?_⟩
    have hnhds := mem_interior_iff_mem_nhds.mp hint
    have hlim : Tendsto (fun m : ℕ => fun _ : Fin n => (1 : ℝ) / (m + 1)) atTop (𝓝 0) :=
      tendsto_pi_nhds.mpr fun _ => tendsto_one_div_add_atTop_nhds_zero_nat
    have h1 : Tendsto (fun m : ℕ => w + fun _ : Fin n => (1 : ℝ) / (m + 1)) atTop (𝓝 w) := by
      simpa using (tendsto_const_nhds (x := w)).add hlim
    have h2 : Tendsto (fun m : ℕ => w - fun _ : Fin n => (1 : ℝ) / (m + 1)) atTop (𝓝 w) := by
      simpa using (tendsto_const_nhds (x := w)).sub hlim
    obtain ⟨m, hm1, hm2⟩ := ((h1.eventually hnhds).and (h2.eventually hnhds)).exists
    have hne : (fun _ : Fin n => (1 : ℝ) / (m + 1)) ≠ 0 := by
      intro h0
      have h3 := congrFun h0 ⟨0, hn⟩
      have : (0 : ℝ) < 1 / (m + 1) := by positivity
      simp only [Pi.zero_apply] at h3
      linarith
    have h3 := hmid w _ hne
    have hw' : φ w = c := hw
    have h4 : φ (w + fun _ : Fin n => (1 : ℝ) / (m + 1)) ≤ c := hm1
    have h5 : φ (w - fun _ : Fin n => (1 : ℝ) / (m + 1)) ≤ c := hm2
    linarith
  · have hconv : Convex ℝ {w | φ w ≤ c} := by simpa using hc.convex_le c
    exact hconv.addHaar_frontier volume

/-- A law without atoms that lives below `m` and charges every interval below `m` has exactly one quantile of every level strictly between 0
and 1. -/
theorem quantile_exists_below (μ : Measure ℝ) [IsProbabilityMeasure μ] (hat : ∀ t, μ {t} = 0) (m : ℝ) (hm : μ.real (Iic m) = 1)
    (hopen : ∀ s t, s < t → t ≤ m → μ (Ioo s t) ≠ 0) (q : ℝ) (hq0 : 0 < q) (hq1 : q < 1) :
    ∃ a, μ.real (Iic a) = q ∧ a < m ∧ (∀ u < a, μ.real (Iic u) < q) ∧ ∀ u > a, q < μ.real (Iic u) := by
  have hmono : Monotone fun t => μ.real (Iic t) := fun s t hst => measureReal_mono (Iic_subset_Iic.mpr hst)
  have hstrict : ∀ s t, s < t → t ≤ m → μ.real (Iic s) < μ.real (Iic t) := by
    intro s t hst htm
    have hd : Disjoint (Iic s) (Ioc s t) := Set.disjoint_left.mpr fun x hx hx' => absurd hx'.1 (not_lt.mpr hx)
    have h1 : μ.real (Iic s) + μ.real (Ioc s t) = μ.real (Iic t) := by
      rw [← measureReal_union hd measurableSet_Ioc, Iic_union_Ioc_eq_Iic hst.le]
    have h2 : 0 < μ.real (Ioc s t) := by
      refine ENNReal.toReal_pos ?_ (measure_ne_top _ _)
      exact fun h => hopen s t hst htm (measure_mono_null Ioo_subset_Ioc_self h)
    linarith
  have hE : (fun t => μ.real (Iic t)) = cdf μ := funext fun t => (cdf_eq_real μ t).symm
  have hcont : Continuous fun t => μ.real (Iic t) := by
    refine continuous_iff_continuousAt.mpr fun t => ?_
    rw [hE, (monotone_cdf μ).continuousAt_iff_leftLim_eq_rightLim, StieltjesFunction.rightLim_eq]
    refine le_antisymm ((monotone_cdf μ).leftLim_le le_rfl) ?_
    have h1 := (cdf μ).measure_singleton t
    rw [measure_cdf, hat] at h1
    have := ENNReal.ofReal_eq_zero.mp h1.symm
    linarith
  have hbot : Tendsto (fun t => μ.real (Iic t)) atBot (𝓝 0) := by rw [hE]; exact tendsto_cdf_atBot μ
  obtain ⟨u, hu⟩ := (hbot.eventually (eventually_lt_nhds hq0)).exists
  obtain ⟨a, ha⟩ := mem_range_of_exists_le_of_exists_ge hcont ⟨u, hu.le⟩ ⟨m, hm.symm ▸ hq1.le⟩
  have ham : a < m := by
    by_contra h
    push Not at h
    have := hmono h
    simp only [hm] at this
    have : μ.real (Iic a) = q := ha
    linarith
  refine ⟨a, ha, ham, fun w hw => ?_, fun w hw => ?_⟩
  · rw [← ha]
    exact hstrict w a hw ham.le
  · rw [← ha]
    rcases le_total w m with h | h
    · exact hstrict a w hw h
    · exact (hstrict a m ham le_rfl).trans_le (hmono h)

end Pxmcmc
