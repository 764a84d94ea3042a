import Verif.Lemmas.Coupling
import Verif.Lemmas.LevelLaw
import Verif.Props.PosteriorBias
import Mathlib.MeasureTheory.Measure.Haar.Disintegration
import Mathlib.MeasureTheory.Measure.Haar.OfBasis
import Mathlib.Algebra.Polynomial.Roots

/-! # Values of a random chain that differ with probability one -/

namespace Pxmcmc
open MeasureTheory ProbabilityTheory Set
open scoped ENNReal

section Chain
variable {E V Ω : Type} [MeasurableSpace E] [MeasurableSpace V] [MeasurableSpace Ω] {P : Measure Ω} [IsProbabilityMeasure P]
  {S0 : Ω → E} {v : ℕ → Ω → V} {ν : Measure V} {f : E → V → E}

/-- If a quantity of the state and the fresh random number takes no value with positive probability, whatever the state in `I`, its values
at different times differ with probability one. -/
theorem SeqIndep.values_ne (hs : SeqIndep P S0 v ν) (hf : Measurable (Function.uncurry f)) (Q : E → V → ℝ)
    (hQ : Measurable (Function.uncurry Q)) (I : Set E) (hI : ∀ ω k, fwState f (S0 ω) (fun i => v i ω) k ∈ I)
    (hnull : ∀ s ∈ I, ∀ c, ν {w | Q s w = c} = 0) :
    ∀ᵐ ω ∂P, ∀ i j, i < j → Q (fwState f (S0 ω) (fun i => v i ω) i) (v i ω) ≠ Q (fwState f (S0 ω) (fun i => v i ω) j) (v j ω) := by
  rw [ae_all_iff]
  intro i
  rw [ae_all_iff]
  intro j
  by_cases hij : i < j
  swap
  · exact Filter.Eventually.of_forall fun ω h => absurd h hij
  have hν : IsProbabilityMeasure ν := by
    rw [← hs.law 0]
    exact Measure.isProbabilityMeasure_map (hs.meas 0).aemeasurable
  set S : ℕ → Ω → E := fun k ω => fwState f (S0 ω) (fun i => v i ω) k with hS
  obtain ⟨Gi, hGi, hGie⟩ := state_prefix (f := f) hf i
  obtain ⟨Gj, hGj, hGje⟩ := state_prefix (f := f) hf j
  have hm : Measurable fun ω => (S j ω, Q (S i ω) (v i ω)) :=
    (hs.state_meas hf j).prodMk (hQ.comp ((hs.state_meas hf i).prodMk (hs.meas i)))
  have hind : IndepFun (fun ω => (S j ω, Q (S i ω) (v i ω))) (v j) P := by
    have e : (fun ω => (S j ω, Q (S i ω) (v i ω))) =
        (fun u : E × (Fin j → V) => (Gj u, Q (Gi (u.1, fun l : Fin i => u.2 (l.castLE hij.le))) (u.2 ⟨i, hij⟩))) ∘
          fun ω => (S0 ω, fun l : Fin j => v l ω) := by
      funext ω
      simp only [hS, Function.comp, hGie, hGje]
      rfl
    rw [e]
    refine (hs.indep j).comp (hGj.prodMk (hQ.comp (?_ : Measurable fun u : E × (Fin j → V) =>
      (Gi (u.1, fun l : Fin i => u.2 (l.castLE hij.le)), u.2 ⟨i, hij⟩)))) measurable_id
    refine (hGi.comp (measurable_fst.prodMk (measurable_pi_lambda _ fun l => ?_))).prodMk ?_
    · exact (measurable_pi_apply _).comp measurable_snd
    · exact (measurable_pi_apply _).comp measurable_snd
  have hj := (indepFun_iff_map_prod_eq_prod_map_map hm.aemeasurable (hs.meas j).aemeasurable).mp hind
  rw [hs.law] at hj
  set D : Set ((E × ℝ) × V) := {u | u.1.2 = Q u.1.1 u.2} with hD
  have hDm : MeasurableSet D := by
    have h2 : Measurable fun u : (E × ℝ) × V => (u.1.1, u.2) := (measurable_fst.comp measurable_fst).prodMk measurable_snd
    exact measurableSet_eq_fun (measurable_snd.comp measurable_fst) (hQ.comp h2)
  have hzero : P ((fun ω => ((S j ω, Q (S i ω) (v i ω)), v j ω)) ⁻¹' D) = 0 := by
    rw [← Measure.map_apply (hm.prodMk (hs.meas j)) hDm, hj, Measure.measure_prod_null hDm]
    have hm2 : MeasurableSet {u : E × ℝ | ν (Prod.mk u ⁻¹' D) = 0} :=
      measurable_measure_prodMk_left hDm (measurableSet_singleton 0)
    refine (ae_map_iff hm.aemeasurable hm2).mpr (Filter.Eventually.of_forall fun ω => ?_)
    refine (congrArg ν ?_).trans (hnull (S j ω) (hI ω j) (Q (S i ω) (v i ω)))
    ext w
    exact eq_comm
  rw [ae_iff]
  refine measure_mono_null (fun ω hω => ?_) hzero
  simp only [mem_ofPred_eq, Classical.not_imp, not_not] at hω
  exact hω.2

end Chain

/-! ## Sets that meet every line of a coordinate direction in countably many points -/

variable {p : ℕ}

/-- The law gives no mass to a measurable set that meets every real line in direction `k` in countably many points. -/
def LineFree (ν : Measure (Fin p → ℂ)) (k : Fin p) : Prop :=
  ∀ B, MeasurableSet B → (∀ z : Fin p → ℂ, {t : ℝ | z + Pi.single k (t : ℂ) ∈ B}.Countable) → ν B = 0

theorem pi_line_null {ι : Type} [Fintype ι] [DecidableEq ι] (k : ι) (B : Set (ι → ℝ)) (hB : MeasurableSet B)
    (h : ∀ z : ι → ℝ, {t : ℝ | z + Pi.single k t ∈ B}.Countable) : volume B = 0 := by
  have h1 := ae_mem_of_ae_add_linearMap_mem (𝕜 := ℝ) (LinearMap.single ℝ (fun _ : ι => ℝ) k) volume volume hB.compl fun y => by
    rw [ae_iff]
    refine measure_mono_null (fun t ht => ?_) ((h y).measure_zero volume)
    simpa using ht
  rw [ae_iff] at h1
  simpa using h1

theorem lineFree_normal (k : Fin p) : LineFree (normalLaw p) k := by
  intro B hB h
  have hm : Measurable fun (x : Fin p → ℝ) (i : Fin p) => ((x i : ℝ) : ℂ) := by fun_prop
  rw [normalLaw, Measure.map_apply hm hB]
  refine gaussVec_ac p (pi_line_null k _ (hm hB) fun z => ?_)
  refine (h fun i => (z i : ℂ)).mono fun t ht => ?_
  have ht' : (fun i => (((z + Pi.single k t : Fin p → ℝ) i : ℝ) : ℂ)) ∈ B := ht
  have e : (fun i => (((z + Pi.single k t : Fin p → ℝ) i : ℝ) : ℂ)) = (fun i => (z i : ℂ)) + Pi.single k (t : ℂ) := by
    funext i
    rw [Pi.add_apply, Pi.add_apply, Complex.ofReal_add]
    by_cases hi : i = k
    · subst hi; simp
    · simp [hi]
  rwa [e] at ht'

theorem sum_ac (n : ℕ) (μ ν : Measure ℝ) [SigmaFinite μ] [SigmaFinite ν] (h : μ ≪ ν) :
    (Measure.pi fun _ : Fin n ⊕ Fin n => μ) ≪ Measure.pi fun _ : Fin n ⊕ Fin n => ν := by
  have h1 := measurePreserving_sumPiEquivProdPi (fun _ : Fin n ⊕ Fin n => μ)
  have h2 := measurePreserving_sumPiEquivProdPi (fun _ : Fin n ⊕ Fin n => ν)
  have h3 := (pi_ac n μ ν h).prod (pi_ac n μ ν h)
  refine Measure.AbsolutelyContinuous.mk fun s hs h0 => ?_
  rw [← h1.symm.measure_preimage hs.nullMeasurableSet]
  refine h3 ?_
  exact (h2.symm.measure_preimage hs.nullMeasurableSet).trans h0

theorem lineFree_cplx (k : Fin p) : LineFree (cplxNormalLaw p) k := by
  intro B hB h
  have hm : Measurable (cplxVec : (Fin p ⊕ Fin p → ℝ) → Fin p → ℂ) := by
    refine measurable_pi_lambda _ fun i => ?_
    have h1 : Measurable fun t : Fin p ⊕ Fin p → ℝ => ((t (.inl i) : ℝ) : ℂ) + ((t (.inr i) : ℝ) : ℂ) * Complex.I := by fun_prop
    convert h1 using 2 with t
    apply Complex.ext <;> simp [cplxVec]
  rw [cplxNormalLaw, Measure.map_apply hm hB]
  refine sum_ac p _ volume (gaussianReal_absolutelyContinuous 0 one_ne_zero) (pi_line_null (.inl k) _ (hm hB) fun z => ?_)
  refine (h (cplxVec z)).mono fun t ht => ?_
  have ht' : cplxVec (z + Pi.single (.inl k) t) ∈ B := ht
  have e : cplxVec (z + Pi.single (.inl k) t) = cplxVec z + Pi.single k (t : ℂ) := by
    funext i
    by_cases hi : i = k
    · subst hi
      apply Complex.ext <;> simp [cplxVec]
    · apply Complex.ext <;> simp [cplxVec, hi]
  rwa [e] at ht'

/-! ## Level sets of the log-posterior -/

theorem poly_finite (K α β γ a b : ℝ) (h0 : α = 0 → β = 0) (h : K ≠ 0 ∨ α ≠ 0) :
    {t : ℝ | (γ + β * t + α * t ^ 2) ^ 2 = K ^ 2 * ((a + t) ^ 2 + b ^ 2)}.Finite := by
  set p : Polynomial ℝ := (Polynomial.C γ + Polynomial.C β * Polynomial.X + Polynomial.C α * Polynomial.X ^ 2) ^ 2 -
    Polynomial.C (K ^ 2) * ((Polynomial.C a + Polynomial.X) ^ 2 + Polynomial.C (b ^ 2)) with hp
  have he : ∀ t, p.eval t = (γ + β * t + α * t ^ 2) ^ 2 - K ^ 2 * ((a + t) ^ 2 + b ^ 2) := fun t => by simp [hp]
  have hne : p ≠ 0 := by
    intro hz
    have hv : ∀ t : ℝ, (γ + β * t + α * t ^ 2) ^ 2 - K ^ 2 * ((a + t) ^ 2 + b ^ 2) = 0 := fun t => by
      rw [← he, hz, Polynomial.eval_zero]
    by_cases hα : α = 0
    · have hβ := h0 hα
      have hK : K ≠ 0 := h.resolve_right fun h1 => h1 hα
      have : K ^ 2 = 0 := by
        have h1 := hv 1
        have h2 := hv 0
        have h3 := hv (-1)
        rw [hα, hβ] at h1 h2 h3
        linarith
      exact hK (by simpa using this)
    · have : α ^ 2 = 0 := by
        have h1 := hv 2
        have h2 := hv 1
        have h3 := hv 0
        have h4 := hv (-1)
        have h5 := hv (-2)
        linarith
      exact hα (by simpa using this)
  refine (Polynomial.finite_setOfPred_isRoot hne).subset fun t ht => ?_
  show p.eval t = 0
  rw [he, show (γ + β * t + α * t ^ 2) ^ 2 = K ^ 2 * ((a + t) ^ 2 + b ^ 2) from ht, sub_self]

/-- The log-posterior of an l1 prior with weights `W` and a weighted least-squares data term, along a coordinate direction. -/
theorem level_line {n : ℕ} (mu : ℝ) (W : Fin p → ℝ) (c : Fin n → ℝ) (hc : ∀ j, 0 ≤ c j) (d : Fin n → ℂ)
    (A : (Fin p → ℂ) →ₗ[ℂ] (Fin n → ℂ)) (k : Fin p) (hk : mu * W k ≠ 0 ∨ ∃ j, c j ≠ 0 ∧ A (Pi.single k 1) j ≠ 0) (y : Fin p → ℂ) (l : ℝ) :
    {t : ℝ | -mu * ∑ i, W i * ‖(y + Pi.single k (t : ℂ) : Fin p → ℂ) i‖ - ∑ j, c j * ‖d j - A (y + Pi.single k (t : ℂ)) j‖ ^ 2 = l}.Finite := by
  set u : Fin n → ℂ := fun j => d j - A y j with hu
  set v : Fin n → ℂ := fun j => A (Pi.single k 1) j with hv
  have hA : ∀ (t : ℝ) j, d j - A (y + Pi.single k (t : ℂ)) j = u j - (t : ℂ) * v j := by
    intro t j
    have e : (Pi.single k (t : ℂ) : Fin p → ℂ) = (t : ℂ) • Pi.single k 1 := by
      rw [← Pi.single_smul, smul_eq_mul, mul_one]
    rw [map_add, e, map_smul]
    simp only [hu, hv, Pi.add_apply, Pi.smul_apply, smul_eq_mul]
    ring
  have hsq : ∀ (t : ℝ) j, ‖u j - (t : ℂ) * v j‖ ^ 2 =
      ‖u j‖ ^ 2 + (-2 * ((u j).re * (v j).re + (u j).im * (v j).im)) * t + ‖v j‖ ^ 2 * t ^ 2 := by
    intro t j
    simp only [← Complex.normSq_eq_norm_sq, Complex.normSq_apply, Complex.sub_re, Complex.sub_im, Complex.mul_re, Complex.mul_im,
      Complex.ofReal_re, Complex.ofReal_im]
    ring
  have hW : ∀ t : ℝ, ∑ i, W i * ‖(y + Pi.single k (t : ℂ) : Fin p → ℂ) i‖ = ∑ i ∈ Finset.univ.erase k, W i * ‖y i‖ + W k * ‖y k + t‖ := by
    intro t
    rw [← Finset.sum_erase_add _ _ (Finset.mem_univ k)]
    congr 1
    · refine Finset.sum_congr rfl fun i hi => ?_
      rw [Pi.add_apply, Pi.single_eq_of_ne (Finset.ne_of_mem_erase hi), add_zero]
    · rw [Pi.add_apply, Pi.single_eq_same]
  set α := ∑ j, c j * ‖v j‖ ^ 2 with hα
  set β := ∑ j, c j * (-2 * ((u j).re * (v j).re + (u j).im * (v j).im)) with hβ
  set g := mu * ∑ i ∈ Finset.univ.erase k, W i * ‖y i‖ + ∑ j, c j * ‖u j‖ ^ 2 + l with hg
  have hα0 : ∀ j, α = 0 → c j * ‖v j‖ ^ 2 = 0 := fun j h =>
    (Finset.sum_eq_zero_iff_of_nonneg (fun j _ => mul_nonneg (hc j) (sq_nonneg _))).mp h j (Finset.mem_univ j)
  refine (poly_finite (mu * W k) α β g (y k).re (y k).im (fun h => ?_) ?_).subset fun t ht => ?_
  · refine Finset.sum_eq_zero fun j _ => ?_
    rcases mul_eq_zero.mp (hα0 j h) with h1 | h1
    · rw [h1, zero_mul]
    · have h2 : v j = 0 := by simpa using h1
      rw [h2]; simp
  · refine hk.imp id ?_
    rintro ⟨j, h1, h2⟩ h3
    rcases mul_eq_zero.mp (hα0 j h3) with h4 | h4
    · exact h1 h4
    · exact h2 (by simpa [hv] using h4)
  · have ht' : -mu * ∑ i, W i * ‖(y + Pi.single k (t : ℂ) : Fin p → ℂ) i‖ - ∑ j, c j * ‖d j - A (y + Pi.single k (t : ℂ)) j‖ ^ 2 = l := ht
    rw [hW] at ht'
    simp only [hA, hsq] at ht'
    have hs : ∑ j, c j * (‖u j‖ ^ 2 + (-2 * ((u j).re * (v j).re + (u j).im * (v j).im)) * t + ‖v j‖ ^ 2 * t ^ 2) =
        ∑ j, c j * ‖u j‖ ^ 2 + β * t + α * t ^ 2 := by
      rw [hβ, hα, Finset.sum_mul, Finset.sum_mul, ← Finset.sum_add_distrib, ← Finset.sum_add_distrib]
      exact Finset.sum_congr rfl fun j _ => by ring
    rw [hs] at ht'
    have hn : ‖y k + (t : ℂ)‖ ^ 2 = ((y k).re + t) ^ 2 + (y k).im ^ 2 := by
      rw [← Complex.normSq_eq_norm_sq, Complex.normSq_apply]
      simp only [Complex.add_re, Complex.add_im, Complex.ofReal_re, Complex.ofReal_im]
      ring
    show (g + β * t + α * t ^ 2) ^ 2 = (mu * W k) ^ 2 * (((y k).re + t) ^ 2 + (y k).im ^ 2)
    rw [← hn]
    have e : g + β * t + α * t ^ 2 = -((mu * W k) * ‖y k + (t : ℂ)‖) := by rw [hg]; linarith
    rw [e]
    ring

end Pxmcmc
