import Verif.Props.DenoiseLimit
import Verif.Lemmas.LevelLaw

/-! # Property C118: the threshold of the credible region converges -/

namespace Pxmcmc
open MeasureTheory ProbabilityTheory Filter
open scoped ENNReal Topology NNReal
variable {n p : ℕ}

/-- A stationary law as a mixture of normal laws. -/
theorem stationary_apply (delta : ℝ) (G : (Fin p → ℂ) → (Fin p → ℂ)) (hf : Measurable (Function.uncurry (ulaStep delta G)))
    (π : Measure (Fin p → ℂ)) [IsProbabilityMeasure π] (hπ : stepLaw (ulaStep delta G) (normalLaw p) π = π) (B : Set (Fin p → ℂ))
    (hB : MeasurableSet B) : π B = ∫⁻ z, gaussVec p {x | ulaStep delta G z (fun i => ((x i : ℝ) : ℂ)) ∈ B} ∂π := by
  have := normalLaw_prob (p := p)
  have hm : Measurable fun (x : Fin p → ℝ) (i : Fin p) => ((x i : ℝ) : ℂ) := by fun_prop
  conv_lhs => rw [← hπ]
  unfold stepLaw
  rw [Measure.map_apply hf hB, Measure.prod_apply (hf hB)]
  refine lintegral_congr fun z => ?_
  unfold normalLaw
  rw [Measure.map_apply hm (measurable_prodMk_left (hf hB))]
  rfl

theorem denoisePost_continuous (mu : ℝ) (d : Fin n → ℂ) (σ : Fin n → ℝ) : Continuous (denoisePost mu d σ) := by
  unfold denoisePost
  fun_prop

theorem denoisePost_nonpos {mu : ℝ} (hmu : 0 ≤ mu) (d : Fin n → ℂ) (σ : Fin n → ℝ) (x : Fin n → ℂ) : denoisePost mu d σ x ≤ 0 := by
  have h1 : 0 ≤ mu * ∑ i, ‖x i‖ := mul_nonneg hmu (Finset.sum_nonneg fun i _ => norm_nonneg _)
  have h2 : 0 ≤ ∑ i, ‖d i - x i‖ ^ 2 / σ i ^ 2 := Finset.sum_nonneg fun i _ => by positivity
  unfold denoisePost
  linarith

/-- Dropping imaginary parts makes a sample more probable. -/
theorem denoisePost_re {mu : ℝ} (hmu : 0 ≤ mu) (d : Fin n → ℂ) (hd : ∀ i, (d i).im = 0) (σ : Fin n → ℝ) (x : Fin n → ℂ) :
    denoisePost mu d σ x ≤ denoisePost mu d σ (fun i => ((x i).re : ℂ)) := by
  have h1 : ∑ i, ‖((x i).re : ℂ)‖ ≤ ∑ i, ‖x i‖ := Finset.sum_le_sum fun i _ => by
    rw [Complex.norm_real]; exact Complex.abs_re_le_norm _
  have h2 : ∑ i, ‖d i - ((x i).re : ℂ)‖ ^ 2 / σ i ^ 2 ≤ ∑ i, ‖d i - x i‖ ^ 2 / σ i ^ 2 := by
    refine Finset.sum_le_sum fun i _ => div_le_div_of_nonneg_right ?_ (sq_nonneg _)
    refine pow_le_pow_left₀ (norm_nonneg _) ?_ 2
    have e : d i - ((x i).re : ℂ) = (((d i - x i).re : ℝ) : ℂ) := by
      apply Complex.ext <;> simp [hd i]
    rw [e, Complex.norm_real]
    exact Complex.abs_re_le_norm _
  have h3 := mul_le_mul_of_nonneg_left h1 hmu
  unfold denoisePost
  linarith

theorem norm_sq_lerp (u v : ℂ) (a b : ℝ) (ha : 0 ≤ a) (hb : 0 ≤ b) (hab : a + b = 1) :
    ‖(a : ℂ) * u + (b : ℂ) * v‖ ≤ a * ‖u‖ + b * ‖v‖ ∧ ‖(a : ℂ) * u + (b : ℂ) * v‖ ^ 2 ≤ a * ‖u‖ ^ 2 + b * ‖v‖ ^ 2 := by
  have h1 : ‖(a : ℂ) * u + (b : ℂ) * v‖ ≤ a * ‖u‖ + b * ‖v‖ := by
    refine (norm_add_le _ _).trans (le_of_eq ?_)
    rw [norm_mul, norm_mul, Complex.norm_real, Complex.norm_real, Real.norm_of_nonneg ha, Real.norm_of_nonneg hb]
  refine ⟨h1, (pow_le_pow_left₀ (norm_nonneg _) h1 2).trans ?_⟩
  have hb' : b = 1 - a := by linarith
  subst hb'
  nlinarith [mul_nonneg ha hb, sq_nonneg (‖u‖ - ‖v‖)]

/-- Along real directions the negative log-posterior is strictly convex. -/
theorem denoisePost_convex {mu : ℝ} (hmu : 0 ≤ mu) (d : Fin n → ℂ) (σ : Fin n → ℝ) (m : Fin n → ℂ) (s : ℝ) :
    ConvexOn ℝ Set.univ fun w : Fin n → ℝ => -denoisePost mu d σ (fun i => m i + (s : ℂ) * ((w i : ℝ) : ℂ)) := by
  refine ⟨convex_univ, fun x _ y _ a b ha hb hab => ?_⟩
  have hab' : (a : ℂ) + (b : ℂ) = 1 := by exact_mod_cast hab
  have e1 : ∀ i, m i + (s : ℂ) * (((a • x + b • y) i : ℝ) : ℂ) =
      (a : ℂ) * (m i + (s : ℂ) * ((x i : ℝ) : ℂ)) + (b : ℂ) * (m i + (s : ℂ) * ((y i : ℝ) : ℂ)) := by
    intro i
    simp only [Pi.add_apply, Pi.smul_apply, smul_eq_mul]
    push_cast
    linear_combination (-(m i)) * hab'
  have e2 : ∀ i, d i - (m i + (s : ℂ) * (((a • x + b • y) i : ℝ) : ℂ)) =
      (a : ℂ) * (d i - (m i + (s : ℂ) * ((x i : ℝ) : ℂ))) + (b : ℂ) * (d i - (m i + (s : ℂ) * ((y i : ℝ) : ℂ))) := by
    intro i
    rw [e1]
    linear_combination (-(d i)) * hab'
  have h1 : ∑ i, ‖m i + (s : ℂ) * (((a • x + b • y) i : ℝ) : ℂ)‖ ≤
      a * ∑ i, ‖m i + (s : ℂ) * ((x i : ℝ) : ℂ)‖ + b * ∑ i, ‖m i + (s : ℂ) * ((y i : ℝ) : ℂ)‖ := by
    rw [Finset.mul_sum, Finset.mul_sum, ← Finset.sum_add_distrib]
    exact Finset.sum_le_sum fun i _ => by rw [e1]; exact (norm_sq_lerp _ _ a b ha hb hab).1
  have h2 : ∑ i, ‖d i - (m i + (s : ℂ) * (((a • x + b • y) i : ℝ) : ℂ))‖ ^ 2 / σ i ^ 2 ≤
      a * ∑ i, ‖d i - (m i + (s : ℂ) * ((x i : ℝ) : ℂ))‖ ^ 2 / σ i ^ 2 +
      b * ∑ i, ‖d i - (m i + (s : ℂ) * ((y i : ℝ) : ℂ))‖ ^ 2 / σ i ^ 2 := by
    rw [Finset.mul_sum, Finset.mul_sum, ← Finset.sum_add_distrib]
    refine Finset.sum_le_sum fun i _ => ?_
    rw [e2, mul_div_assoc', mul_div_assoc', ← add_div]
    exact div_le_div_of_nonneg_right (norm_sq_lerp _ _ a b ha hb hab).2 (sq_nonneg _)
  have h3 := mul_le_mul_of_nonneg_left h1 hmu
  simp only [denoisePost, smul_eq_mul]
  nlinarith

theorem denoisePost_mid {mu : ℝ} (hmu : 0 ≤ mu) (d : Fin n → ℂ) (σ : Fin n → ℝ) (hσ : ∀ i, 0 < σ i) (m : Fin n → ℂ) (s : ℝ) (hs : 0 < s)
    (w e : Fin n → ℝ) (he : e ≠ 0) :
    2 * -denoisePost mu d σ (fun i => m i + (s : ℂ) * ((w i : ℝ) : ℂ)) <
      -denoisePost mu d σ (fun i => m i + (s : ℂ) * (((w + e) i : ℝ) : ℂ)) +
      -denoisePost mu d σ (fun i => m i + (s : ℂ) * (((w - e) i : ℝ) : ℂ)) := by
  have h1 : 2 * ∑ i, ‖m i + (s : ℂ) * ((w i : ℝ) : ℂ)‖ ≤
      ∑ i, ‖m i + (s : ℂ) * (((w + e) i : ℝ) : ℂ)‖ + ∑ i, ‖m i + (s : ℂ) * (((w - e) i : ℝ) : ℂ)‖ := by
    rw [Finset.mul_sum, ← Finset.sum_add_distrib]
    refine Finset.sum_le_sum fun i _ => ?_
    have h2 := norm_add_le (m i + (s : ℂ) * (((w + e) i : ℝ) : ℂ)) (m i + (s : ℂ) * (((w - e) i : ℝ) : ℂ))
    have e1 : m i + (s : ℂ) * (((w + e) i : ℝ) : ℂ) + (m i + (s : ℂ) * (((w - e) i : ℝ) : ℂ)) =
        2 * (m i + (s : ℂ) * ((w i : ℝ) : ℂ)) := by
      simp only [Pi.add_apply, Pi.sub_apply]
      push_cast
      ring
    rw [e1, norm_mul, Complex.norm_ofNat] at h2
    exact h2
  have hsq : ∀ i, ‖d i - (m i + (s : ℂ) * (((w + e) i : ℝ) : ℂ))‖ ^ 2 + ‖d i - (m i + (s : ℂ) * (((w - e) i : ℝ) : ℂ))‖ ^ 2 =
      2 * ‖d i - (m i + (s : ℂ) * ((w i : ℝ) : ℂ))‖ ^ 2 + 2 * (s * e i) ^ 2 := by
    intro i
    simp only [← Complex.normSq_eq_norm_sq, Complex.normSq_apply, Pi.add_apply, Pi.sub_apply]
    simp
    ring
  have h2 : 2 * ∑ i, ‖d i - (m i + (s : ℂ) * ((w i : ℝ) : ℂ))‖ ^ 2 / σ i ^ 2 <
      ∑ i, ‖d i - (m i + (s : ℂ) * (((w + e) i : ℝ) : ℂ))‖ ^ 2 / σ i ^ 2 +
      ∑ i, ‖d i - (m i + (s : ℂ) * (((w - e) i : ℝ) : ℂ))‖ ^ 2 / σ i ^ 2 := by
    rw [Finset.mul_sum, ← Finset.sum_add_distrib]
    obtain ⟨i0, hi0⟩ := Function.ne_iff.mp he
    have hterm : ∀ i, ‖d i - (m i + (s : ℂ) * (((w + e) i : ℝ) : ℂ))‖ ^ 2 / σ i ^ 2 +
        ‖d i - (m i + (s : ℂ) * (((w - e) i : ℝ) : ℂ))‖ ^ 2 / σ i ^ 2 =
        2 * (‖d i - (m i + (s : ℂ) * ((w i : ℝ) : ℂ))‖ ^ 2 / σ i ^ 2) + 2 * (s * e i) ^ 2 / σ i ^ 2 := by
      intro i
      rw [← add_div, hsq, add_div, mul_div_assoc]
    refine Finset.sum_lt_sum (fun i _ => ?_) ⟨i0, Finset.mem_univ _, ?_⟩
    · rw [hterm]
      have : 0 ≤ 2 * (s * e i) ^ 2 / σ i ^ 2 := by positivity
      linarith
    · rw [hterm]
      have h3 : s * e i0 ≠ 0 := mul_ne_zero hs.ne' hi0
      have := hσ i0
      have : 0 < 2 * (s * e i0) ^ 2 / σ i0 ^ 2 := by positivity
      linarith
  have h3 := mul_le_mul_of_nonneg_left h1 hmu
  unfold denoisePost
  nlinarith

/-- Between any two levels below the largest there is a real vector. -/
theorem denoisePost_between {mu : ℝ} (hmu : 0 ≤ mu) (hn : 0 < n) (d : Fin n → ℂ) (σ : Fin n → ℝ) (hσ : ∀ i, 0 < σ i) (y : Fin n → ℝ)
    (s t : ℝ) (hst : s < t) (hy : s < denoisePost mu d σ (fun i => ((y i : ℝ) : ℂ))) :
    ∃ x : Fin n → ℝ, s < denoisePost mu d σ (fun i => ((x i : ℝ) : ℂ)) ∧ denoisePost mu d σ (fun i => ((x i : ℝ) : ℂ)) < t := by
  by_cases hyt : denoisePost mu d σ (fun i => ((y i : ℝ) : ℂ)) < t
  · exact ⟨y, hy, hyt⟩
  push Not at hyt
  set φ : ℝ → ℝ := fun τ => denoisePost mu d σ (fun i => ((y i + τ : ℝ) : ℂ)) with hφ
  have hcont : Continuous φ := by
    have : Continuous fun (τ : ℝ) (i : Fin n) => ((y i + τ : ℝ) : ℂ) := by fun_prop
    exact (denoisePost_continuous mu d σ).comp this
  have h0 : φ 0 = denoisePost mu d σ (fun i => ((y i : ℝ) : ℂ)) := by simp [hφ]
  have hup : ∀ τ : ℝ, φ τ ≤ -((τ - ‖d ⟨0, hn⟩ - (y ⟨0, hn⟩ : ℂ)‖) ⊔ 0) ^ 2 / σ ⟨0, hn⟩ ^ 2 := by
    intro τ
    have h1 : 0 ≤ mu * ∑ i, ‖((y i + τ : ℝ) : ℂ)‖ := mul_nonneg hmu (Finset.sum_nonneg fun i _ => norm_nonneg _)
    have h2 := Finset.single_le_sum (f := fun i => ‖d i - ((y i + τ : ℝ) : ℂ)‖ ^ 2 / σ i ^ 2) (fun i _ => by positivity)
      (Finset.mem_univ (⟨0, hn⟩ : Fin n))
    have h3 : ((τ - ‖d ⟨0, hn⟩ - (y ⟨0, hn⟩ : ℂ)‖) ⊔ 0) ^ 2 ≤ ‖d ⟨0, hn⟩ - ((y ⟨0, hn⟩ + τ : ℝ) : ℂ)‖ ^ 2 := by
      refine pow_le_pow_left₀ (le_max_right _ _) (max_le ?_ (norm_nonneg _)) 2
      have h4 := norm_sub_norm_le ((τ : ℝ) : ℂ) (d ⟨0, hn⟩ - (y ⟨0, hn⟩ : ℂ))
      rw [Complex.norm_real, norm_sub_rev ((τ : ℝ) : ℂ)] at h4
      have e : d ⟨0, hn⟩ - (y ⟨0, hn⟩ : ℂ) - ((τ : ℝ) : ℂ) = d ⟨0, hn⟩ - ((y ⟨0, hn⟩ + τ : ℝ) : ℂ) := by push_cast; ring
      rw [e] at h4
      have := Real.le_norm_self τ
      linarith
    have h5 := div_le_div_of_nonneg_right h3 (sq_nonneg (σ ⟨0, hn⟩))
    simp only [hφ, denoisePost]
    rw [neg_div]
    linarith
  obtain ⟨τ, hτ⟩ : ∃ τ : ℝ, φ τ ≤ s := by
    set r := ‖d ⟨0, hn⟩ - (y ⟨0, hn⟩ : ℂ)‖
    have hσ0 := hσ ⟨0, hn⟩
    refine ⟨r + σ ⟨0, hn⟩ * (|s| + 1), (hup _).trans ?_⟩
    have hpos : 0 ≤ σ ⟨0, hn⟩ * (|s| + 1) := by positivity
    rw [show r + σ ⟨0, hn⟩ * (|s| + 1) - r = σ ⟨0, hn⟩ * (|s| + 1) by ring, max_eq_left hpos, neg_div, mul_pow,
      mul_div_cancel_left₀ _ (by positivity)]
    have := neg_abs_le s
    nlinarith [abs_nonneg s]
  have hmem : (s + t) / 2 ∈ Set.range φ := mem_range_of_exists_le_of_exists_ge hcont ⟨τ, by linarith⟩ ⟨0, by rw [h0]; linarith⟩
  obtain ⟨τ', h'⟩ := hmem
  refine ⟨fun i => y i + τ', ?_, ?_⟩
  · have : denoisePost mu d σ (fun i => ((y i + τ' : ℝ) : ℂ)) = (s + t) / 2 := h'
    rw [this]; linarith
  · have : denoisePost mu d σ (fun i => ((y i + τ' : ℝ) : ℂ)) = (s + t) / 2 := h'
    rw [this]; linarith

theorem min_sq_lipschitz (a b r : ℝ) (ha : 0 ≤ a) (hb : 0 ≤ b) (hr : 0 ≤ r) : |min a r ^ 2 - min b r ^ 2| ≤ 2 * r * |a - b| := by
  have h1 : |min a r - min b r| ≤ |a - b| := by
    have := abs_min_sub_min_le_max a r b r
    rwa [sub_self, abs_zero, max_eq_left (abs_nonneg _)] at this
  have h2 : |min a r + min b r| ≤ 2 * r := by
    rw [abs_of_nonneg (add_nonneg (le_min ha hr) (le_min hb hr))]
    linarith [min_le_right a r, min_le_right b r]
  rw [sq_sub_sq, abs_mul]
  exact mul_le_mul h2 h1 (abs_nonneg _) (by linarith)

/-- Ramp functions of the log-posterior are Lipschitz. -/
theorem ramp_post_lipschitz {mu : ℝ} (hmu : 0 ≤ mu) (d : Fin n → ℂ) (σ : Fin n → ℝ) (hσ : ∀ i, 0 < σ i) (s t : ℝ) (hst : s < t) :
    ∃ K, 0 ≤ K ∧ ∀ x y : Fin n → ℂ,
      |ramp s t (denoisePost mu d σ x) - ramp s t (denoisePost mu d σ y)| ≤ K * √(Spec.distSq x y) := by
  set T := max (-s) 0 with hT
  have hT0 : 0 ≤ T := le_max_right _ _
  set V : (Fin n → ℂ) → ℝ := fun x => mu * ∑ i, ‖x i‖ + ∑ i, min (‖d i - x i‖ / σ i) √T ^ 2 with hV
  have hkey : ∀ x, ramp s t (denoisePost mu d σ x) = ramp s t (-(V x)) := by
    intro x
    by_cases hbig : ∀ i, ‖d i - x i‖ / σ i ≤ √T
    · congr 1
      simp only [hV, denoisePost]
      have : ∑ i, min (‖d i - x i‖ / σ i) √T ^ 2 = ∑ i, ‖d i - x i‖ ^ 2 / σ i ^ 2 :=
        Finset.sum_congr rfl fun i _ => by rw [min_eq_left (hbig i), div_pow]
      rw [this]
      ring
    · push Not at hbig
      obtain ⟨i0, hi0⟩ := hbig
      have hP : 0 ≤ mu * ∑ i, ‖x i‖ := mul_nonneg hmu (Finset.sum_nonneg fun i _ => norm_nonneg _)
      have h1 : T ≤ ∑ i, ‖d i - x i‖ ^ 2 / σ i ^ 2 := by
        refine le_trans ?_ (Finset.single_le_sum (f := fun i => ‖d i - x i‖ ^ 2 / σ i ^ 2) (fun i _ => by positivity) (Finset.mem_univ i0))
        rw [← div_pow, ← Real.sq_sqrt hT0]
        exact pow_le_pow_left₀ (Real.sqrt_nonneg _) hi0.le 2
      have h2 : T ≤ ∑ i, min (‖d i - x i‖ / σ i) √T ^ 2 := by
        refine le_trans ?_ (Finset.single_le_sum (f := fun i => min (‖d i - x i‖ / σ i) √T ^ 2) (fun i _ => sq_nonneg _) (Finset.mem_univ i0))
        rw [min_eq_right hi0.le, Real.sq_sqrt hT0]
      have h3 : -s ≤ T := le_max_left _ _
      rw [ramp_one hst (show denoisePost mu d σ x ≤ s by unfold denoisePost; linarith), ramp_one hst (show -(V x) ≤ s by simp only [hV]; linarith)]
  have hco : ∀ (x y : Fin n → ℂ) (i : Fin n), ‖x i - y i‖ ≤ √(Spec.distSq x y) := fun x y i =>
    Real.le_sqrt_of_sq_le (Finset.single_le_sum (f := fun i => ‖x i - y i‖ ^ 2) (fun i _ => sq_nonneg _) (Finset.mem_univ i))
  have hVl : ∀ x y, |V x - V y| ≤ (mu * n + ∑ i, 2 * √T / σ i) * √(Spec.distSq x y) := by
    intro x y
    have h1 : |∑ i, ‖x i‖ - ∑ i, ‖y i‖| ≤ n * √(Spec.distSq x y) := by
      rw [← Finset.sum_sub_distrib]
      refine (Finset.abs_sum_le_sum_abs _ _).trans ?_
      calc ∑ i, |‖x i‖ - ‖y i‖| ≤ ∑ _i : Fin n, √(Spec.distSq x y) :=
            Finset.sum_le_sum fun i _ => (abs_norm_sub_norm_le _ _).trans (hco x y i)
        _ = _ := by simp
    have h2 : |∑ i, min (‖d i - x i‖ / σ i) √T ^ 2 - ∑ i, min (‖d i - y i‖ / σ i) √T ^ 2| ≤
        (∑ i, 2 * √T / σ i) * √(Spec.distSq x y) := by
      rw [← Finset.sum_sub_distrib, Finset.sum_mul]
      refine (Finset.abs_sum_le_sum_abs _ _).trans (Finset.sum_le_sum fun i _ => ?_)
      have hs := hσ i
      refine (min_sq_lipschitz _ _ _ (by positivity) (by positivity) (Real.sqrt_nonneg T)).trans ?_
      rw [← sub_div, abs_div, abs_of_pos hs, mul_div_assoc', div_mul_eq_mul_div]
      refine div_le_div_of_nonneg_right (mul_le_mul_of_nonneg_left ?_ (by positivity)) hs.le
      refine (abs_norm_sub_norm_le _ _).trans ?_
      rw [show d i - x i - (d i - y i) = -(x i - y i) by ring, norm_neg]
      exact hco x y i
    have h3 : |mu * ∑ i, ‖x i‖ - mu * ∑ i, ‖y i‖| ≤ mu * n * √(Spec.distSq x y) := by
      rw [← mul_sub, abs_mul, abs_of_nonneg hmu, mul_assoc]
      exact mul_le_mul_of_nonneg_left h1 hmu
    calc |V x - V y| = |(mu * ∑ i, ‖x i‖ - mu * ∑ i, ‖y i‖) +
          (∑ i, min (‖d i - x i‖ / σ i) √T ^ 2 - ∑ i, min (‖d i - y i‖ / σ i) √T ^ 2)| := by simp only [hV]; ring_nf
      _ ≤ _ := abs_add_le _ _
      _ ≤ mu * n * √(Spec.distSq x y) + (∑ i, 2 * √T / σ i) * √(Spec.distSq x y) := add_le_add h3 h2
      _ = _ := by ring
  have hpos : 0 < t - s := sub_pos.mpr hst
  refine ⟨1 / (t - s) * (mu * n + ∑ i, 2 * √T / σ i), ?_, fun x y => ?_⟩
  · have : 0 ≤ ∑ i, 2 * √T / σ i := Finset.sum_nonneg fun i _ => by have := hσ i; positivity
    positivity
  · rw [hkey, hkey]
    refine (ramp_lipschitz hst _ _).trans ?_
    rw [mul_assoc]
    refine mul_le_mul_of_nonneg_left ?_ (one_div_pos.mpr hpos).le
    rw [show -(V x) - -(V y) = -(V x - V y) by ring, abs_neg]
    exact hVl x y

variable {M : Sampler n} {fwd : (Fin p → ℂ) → (Fin n → ℂ)} {grad : (Fin n → ℂ) → (Fin p → ℂ)}
  {prox : (Fin p → ℂ) → (Fin p → ℂ)} {pri g : (Fin p → ℂ) → ℝ} {Q : Matrix (Fin p) (Fin p) ℂ} {c Lf : ℝ}

/-- If steps with real noise keep real vectors real, the stationary law lives on real vectors. -/
theorem stationary_real (h : Identifiable M fwd grad prox g Q c Lf) (π : Measure (Fin p → ℂ)) [IsProbabilityMeasure π]
    (hf : Measurable (Function.uncurry (ulaStep M.par.delta (gradVec M.par.lmda fwd grad prox))))
    (hπ : stepLaw (ulaStep M.par.delta (gradVec M.par.lmda fwd grad prox)) (normalLaw p) π = π)
    (hreal : ∀ (z : Fin p → ℂ) (x : Fin p → ℝ), (∀ i, (z i).im = 0) →
      ∀ i, (ulaStep M.par.delta (gradVec M.par.lmda fwd grad prox) z (fun i => ((x i : ℝ) : ℂ)) i).im = 0) :
    ∀ᵐ z ∂π, ∀ i, (z i).im = 0 := by
  obtain ⟨h0, h1⟩ := h.rate
  set ρ := 1 - M.par.delta * c with hρ
  set D : (Fin p → ℂ) → ℝ := fun z => ∑ i, (z i).im ^ 2 with hD
  have hDm : Measurable D := by
    simp only [hD]
    exact Finset.measurable_sum _ fun i _ => (Complex.measurable_im.comp (measurable_pi_apply i)).pow_const 2
  have hstep : ∀ (z : Fin p → ℂ) (x : Fin p → ℝ),
      D (ulaStep M.par.delta (gradVec M.par.lmda fwd grad prox) z (fun i => ((x i : ℝ) : ℂ))) ≤ ρ ^ 2 * D z := by
    intro z x
    have h2 := strong_contract h z (fun i => ((z i).re : ℂ)) (fun i => ((x i : ℝ) : ℂ))
    have h3 := hreal (fun i => ((z i).re : ℂ)) x (fun i => by simp)
    have e1 : Spec.distSq z (fun i => ((z i).re : ℂ)) = D z := by
      simp only [Spec.distSq, hD]
      refine Finset.sum_congr rfl fun i _ => ?_
      rw [← Complex.normSq_eq_norm_sq, Complex.normSq_apply]
      simp
      ring
    rw [e1] at h2
    refine le_trans ?_ h2
    refine Finset.sum_le_sum fun i _ => ?_
    rw [← Complex.normSq_eq_norm_sq, Complex.normSq_apply, Complex.sub_im, h3 i, sub_zero]
    nlinarith [mul_self_nonneg ((ulaStep M.par.delta (gradVec M.par.lmda fwd grad prox) z (fun i => ((x i : ℝ) : ℂ)) i -
      ulaStep M.par.delta (gradVec M.par.lmda fwd grad prox) (fun i => ((z i).re : ℂ)) (fun i => ((x i : ℝ) : ℂ)) i).re)]
  have hρ2 : 0 < ρ ^ 2 := by positivity
  have hone : ∀ ε : ℝ, π {z | ε < D z} ≤ π {z | ε / ρ ^ 2 < D z} := by
    intro ε
    rw [stationary_apply _ _ hf π hπ _ (measurableSet_lt measurable_const hDm)]
    have hle : ∀ z : Fin p → ℂ, gaussVec p {x | ulaStep M.par.delta (gradVec M.par.lmda fwd grad prox) z (fun i => ((x i : ℝ) : ℂ)) ∈
        {z | ε < D z}} ≤ Set.indicator {z | ε / ρ ^ 2 < D z} (fun _ => (1 : ℝ≥0∞)) z := by
      intro z
      by_cases hz : ε / ρ ^ 2 < D z
      · rw [Set.indicator_of_mem (show z ∈ {z | ε / ρ ^ 2 < D z} from hz)]
        exact prob_le_one
      · rw [Set.indicator_of_notMem (show z ∉ {z | ε / ρ ^ 2 < D z} from hz)]
        rw [nonpos_iff_eq_zero]
        convert measure_empty (μ := gaussVec p)
        rw [Set.eq_empty_iff_forall_notMem]
        intro x hx
        have hx' : ε < D _ := hx
        push Not at hz
        rw [le_div_iff₀ hρ2] at hz
        have := hstep z x
        linarith
    refine (lintegral_mono hle).trans ?_
    rw [lintegral_indicator (measurableSet_lt measurable_const hDm), setLIntegral_const, one_mul]
  have hpow : ∀ (k : ℕ) (ε : ℝ), π {z | ε < D z} ≤ π {z | ε / (ρ ^ 2) ^ k < D z} := by
    intro k
    induction k with
    | zero => intro ε; simp
    | succ k ih =>
      intro ε
      refine (ih ε).trans ((hone _).trans (le_of_eq ?_))
      rw [div_div, ← pow_succ]
  have hzero : ∀ ε : ℝ, 0 < ε → π {z | ε < D z} = 0 := by
    intro ε hε
    have hlim : Tendsto (fun k : ℕ => π {z | ε / (ρ ^ 2) ^ k < D z}) atTop (𝓝 0) := by
      have hanti : Antitone fun k : ℕ => {z | ε / (ρ ^ 2) ^ k < D z} := by
        intro k l hkl z hz
        have hz' : ε / (ρ ^ 2) ^ l < D z := hz
        show ε / (ρ ^ 2) ^ k < D z
        refine lt_of_le_of_lt ?_ hz'
        refine div_le_div_of_nonneg_left hε.le (pow_pos hρ2 l) (pow_le_pow_of_le_one hρ2.le ?_ hkl)
        nlinarith
      have h2 := tendsto_measure_iInter_atTop (μ := π) (s := fun k : ℕ => {z | ε / (ρ ^ 2) ^ k < D z})
        (fun k => (measurableSet_lt measurable_const hDm).nullMeasurableSet) hanti ⟨0, measure_ne_top _ _⟩
      have h3 : (⋂ k : ℕ, {z | ε / (ρ ^ 2) ^ k < D z}) = ∅ := by
        rw [Set.eq_empty_iff_forall_notMem]
        intro z hz
        have hz' : ∀ k : ℕ, ε / (ρ ^ 2) ^ k < D z := fun k => Set.mem_iInter.mp hz k
        have hlt : ρ ^ 2 < 1 := by nlinarith
        have h4 : Tendsto (fun k : ℕ => (ρ ^ 2) ^ k * D z) atTop (𝓝 0) := by
          simpa using (tendsto_pow_atTop_nhds_zero_of_lt_one hρ2.le hlt).mul_const (D z)
        obtain ⟨k, hk⟩ := (h4.eventually (eventually_lt_nhds hε)).exists
        have := hz' k
        rw [div_lt_iff₀ (pow_pos hρ2 k)] at this
        linarith
      rw [h3, measure_empty] at h2
      exact h2
    exact le_antisymm (ge_of_tendsto' hlim fun k => hpow k ε) zero_le
  have hae : ∀ᵐ z ∂π, ∀ k : ℕ, ¬ (1 / ((k : ℝ) + 1) < D z) := by
    rw [ae_all_iff]
    intro k
    exact measure_eq_zero_iff_ae_notMem.mp (hzero _ (by positivity))
  filter_upwards [hae] with z hz i
  have hD0 : D z ≤ 0 := by
    by_contra hpos
    push Not at hpos
    obtain ⟨k, hk⟩ := exists_nat_one_div_lt hpos
    exact hz k hk
  have h2 : (z i).im ^ 2 ≤ D z := Finset.single_le_sum (f := fun i => (z i).im ^ 2) (fun i _ => sq_nonneg _) (Finset.mem_univ i)
  exact pow_eq_zero_iff two_ne_zero |>.mp (le_antisymm (h2.trans hD0) (sq_nonneg _))

theorem iter_eq_fwState (f : (Fin p → ℂ) → (Fin p → ℂ) → (Fin p → ℂ)) (w : ℕ → Fin p → ℂ) (x0 : Fin p → ℂ) (k : ℕ) :
    iter f w x0 k = fwState f x0 w k := by
  induction k with
  | zero => rfl
  | succ k ih => rw [iter, fwState, ih]

/-- The gradient step of the denoising problem. -/
noncomputable def denoiseG (lmda t : ℝ) (d : Fin n → ℂ) (σ : Fin n → ℝ) : (Fin n → ℂ) → (Fin n → ℂ) :=
  gradVec lmda (fun x => x) (fun y i => (y i - d i) / ((σ i ^ 2 : ℝ) : ℂ)) (fun x i => softEntry (x i) t)

theorem denoiseG_real (lmda t delta : ℝ) (d : Fin n → ℂ) (hd : ∀ i, (d i).im = 0) (σ : Fin n → ℝ) (z : Fin n → ℂ)
    (hz : ∀ i, (z i).im = 0) (i : Fin n) : (z i + (delta : ℂ) * denoiseG lmda t d σ z i).im = 0 := by
  have h1 := softEntry_im (z i) t (hz i)
  unfold denoiseG gradVec
  simp only [Complex.add_im, Complex.im_ofReal_mul, Complex.sub_im, Complex.neg_im, Complex.div_ofReal_im, hz i, hd i, h1]
  simp

theorem ulaStep_real (lmda t delta : ℝ) (d : Fin n → ℂ) (hd : ∀ i, (d i).im = 0) (σ : Fin n → ℝ) (z : Fin n → ℂ) (x : Fin n → ℝ)
    (hz : ∀ i, (z i).im = 0) (i : Fin n) : (ulaStep delta (denoiseG lmda t d σ) z (fun i => ((x i : ℝ) : ℂ)) i).im = 0 := by
  have := denoiseG_real lmda t delta d hd σ z hz i
  unfold ulaStep
  rw [Complex.add_im, this, ← Complex.ofReal_mul, Complex.ofReal_im, add_zero]

/-- The law of the log-posterior under the stationary law: its quantiles are unique and lie below the log-posterior of every maximiser. -/
theorem post_quantile (hn : 0 < n) {mu : ℝ} (hmu : 0 ≤ mu) (d : Fin n → ℂ) (hd : ∀ i, (d i).im = 0) (σ : Fin n → ℝ) (hσ : ∀ i, 0 < σ i)
    (lmda t delta : ℝ) (hdel : 0 < delta) (hf : Measurable (Function.uncurry (ulaStep delta (denoiseG lmda t d σ))))
    (π : Measure (Fin n → ℂ)) [IsProbabilityMeasure π] (hπ : stepLaw (ulaStep delta (denoiseG lmda t d σ)) (normalLaw n) π = π)
    (hre : ∀ᵐ z ∂π, ∀ i, (z i).im = 0) (q : ℝ) (hq0 : 0 < q) (hq1 : q < 1) :
    ∃ a, (π.map (denoisePost mu d σ)).real (Set.Iic a) = q ∧ (∀ x, (∀ y, denoisePost mu d σ y ≤ denoisePost mu d σ x) → a < denoisePost mu d σ x) ∧
      (∀ u < a, (π.map (denoisePost mu d σ)).real (Set.Iic u) < q) ∧ ∀ u > a, q < (π.map (denoisePost mu d σ)).real (Set.Iic u) := by
  have hs : 0 < √(2 * delta) := Real.sqrt_pos.mpr (by linarith)
  have hs' : ((√(2 * delta) : ℝ) : ℂ) ≠ 0 := by exact_mod_cast hs.ne'
  have hpm : Measurable (denoisePost mu d σ) := (denoisePost_continuous mu d σ).measurable
  have := Measure.isProbabilityMeasure_map (μ := π) hpm.aemeasurable
  set S : Set ℝ := Set.range fun x : Fin n → ℝ => denoisePost mu d σ (fun i => ((x i : ℝ) : ℂ)) with hS
  have hbdd : BddAbove S := ⟨0, by rintro _ ⟨x, rfl⟩; exact denoisePost_nonpos hmu d σ _⟩
  have hle : ∀ z, denoisePost mu d σ z ≤ sSup S := fun z =>
    (denoisePost_re hmu d hd σ z).trans (le_csSup hbdd ⟨fun i => (z i).re, rfl⟩)
  have hat : ∀ c, (π.map (denoisePost mu d σ)) {c} = 0 := by
    intro c
    rw [Measure.map_apply hpm (measurableSet_singleton c), stationary_apply _ _ hf π hπ _ (hpm (measurableSet_singleton c))]
    rw [lintegral_eq_zero_of_ae_eq_zero]
    refine Eventually.of_forall fun z => ?_
    have h1 := level_null hn _ (denoisePost_convex hmu d σ (fun i => z i + (delta : ℂ) * denoiseG lmda t d σ z i) (√(2 * delta)))
      (fun w e he => denoisePost_mid hmu d σ hσ _ _ hs w e he) (-c)
    refine (measure_mono_null (fun x hx => ?_) h1)
    have hx' : denoisePost mu d σ (ulaStep delta (denoiseG lmda t d σ) z fun i => ((x i : ℝ) : ℂ)) = c := hx
    show -denoisePost mu d σ _ = -c
    rw [← hx']
    rfl
  have hm : (π.map (denoisePost mu d σ)).real (Set.Iic (sSup S)) = 1 := by
    rw [map_measureReal_apply hpm measurableSet_Iic]
    rw [show (denoisePost mu d σ) ⁻¹' Set.Iic (sSup S) = Set.univ from Set.eq_univ_of_forall hle]
    simp
  have hopen : ∀ u v, u < v → v ≤ sSup S → (π.map (denoisePost mu d σ)) (Set.Ioo u v) ≠ 0 := by
    intro u v huv hv h0
    rw [Measure.map_apply hpm measurableSet_Ioo, stationary_apply _ _ hf π hπ _ (hpm measurableSet_Ioo)] at h0
    have hmeas : Measurable fun z : Fin n → ℂ => gaussVec n {x | ulaStep delta (denoiseG lmda t d σ) z (fun i => ((x i : ℝ) : ℂ)) ∈
        denoisePost mu d σ ⁻¹' Set.Ioo u v} := by
      have hj : Measurable fun w : (Fin n → ℂ) × (Fin n → ℝ) => ulaStep delta (denoiseG lmda t d σ) w.1 (fun i => ((w.2 i : ℝ) : ℂ)) := by
        refine hf.comp (measurable_fst.prodMk (measurable_pi_lambda _ fun i => Complex.measurable_ofReal.comp ?_))
        exact (measurable_pi_apply i).comp measurable_snd
      exact measurable_measure_prodMk_left (hj (hpm measurableSet_Ioo))
    rw [lintegral_eq_zero_iff hmeas] at h0
    obtain ⟨z, hz0, hz⟩ := (h0.and hre).exists
    obtain ⟨_, ⟨y, rfl⟩, hy⟩ := exists_lt_of_lt_csSup (Set.range_nonempty _) (lt_of_lt_of_le huv hv)
    obtain ⟨x, hx1, hx2⟩ := denoisePost_between hmu hn d σ hσ y u v huv hy
    refine gaussVec_open n {x | ulaStep delta (denoiseG lmda t d σ) z (fun i => ((x i : ℝ) : ℂ)) ∈ denoisePost mu d σ ⁻¹' Set.Ioo u v}
      ?_ ⟨fun i => (x i - (z i + (delta : ℂ) * denoiseG lmda t d σ z i).re) / √(2 * delta), ?_⟩ hz0
    · have hc : Continuous fun x : Fin n → ℝ => denoisePost mu d σ (ulaStep delta (denoiseG lmda t d σ) z (fun i => ((x i : ℝ) : ℂ))) := by
        refine (denoisePost_continuous mu d σ).comp ?_
        unfold ulaStep
        fun_prop
      exact isOpen_Ioo.preimage hc
    · have e : ulaStep delta (denoiseG lmda t d σ) z (fun i => (((x i - (z i + (delta : ℂ) * denoiseG lmda t d σ z i).re) / √(2 * delta) : ℝ) : ℂ)) =
          fun i => ((x i : ℝ) : ℂ) := by
        funext i
        have h2 : ((((z i + (delta : ℂ) * denoiseG lmda t d σ z i).re : ℝ)) : ℂ) = z i + (delta : ℂ) * denoiseG lmda t d σ z i :=
          Complex.ext (by simp) (by rw [Complex.ofReal_im, denoiseG_real lmda t delta d hd σ z hz i])
        simp only [ulaStep]
        rw [Complex.ofReal_div, Complex.ofReal_sub, h2, mul_div_cancel₀ _ hs']
        ring
      simp only [Set.mem_ofPred_eq, Set.mem_preimage, e]
      exact ⟨hx1, hx2⟩
  obtain ⟨a, h1, h2, h3, h4⟩ := quantile_exists_below _ hat (sSup S) hm hopen q hq0 hq1
  refine ⟨a, h1, fun x hx => lt_of_lt_of_le h2 (csSup_le (Set.range_nonempty _) ?_), h3, h4⟩
  rintro _ ⟨y, rfl⟩
  exact hx _

/-- C118: the threshold of the credible region converges.  The denoising set-up of C116 with real data values, `mu ≥ 0` and
`logposterior` tracked, from the constructor arguments: constructors succeed, every run returns with a full `logPi` array, and for every
`0 < alpha < 1` there is exactly one level `h` such that the stationary law `π` gives samples with log-posterior at most `h` — the ones
that `in_credible_region` accepts at threshold `h` — probability `1 - alpha`.  `credible_region_threshold` of the saved log-posteriors
converges to `h` almost surely.  No point of largest posterior is accepted at threshold `h`. -/
theorem C118_threshold (hn : 0 < n) (data : DataVec n) (hd : data.cplx = false) (hdr : ∀ i, (data.vals i).im = 0) (sig : SigD)
    (σ : Fin n → ℝ) (hσ : IsSigma n sig σ)
    (s : String) (hs : s = "analysis" ∨ s = "synthesis") (t : ℝ) (ht : 0 ≤ t) (par : Params) (b g : ℕ) (hb : par.nburn = b)
    (hg : par.ngap = g) (hreal : par.complex = false) (hl : 0 < par.lmda) (hdel : 0 < par.delta) (hmu : 0 ≤ par.mu)
    (hstep : ∀ i j, par.delta * (1 / par.lmda + 1 / σ i ^ 2 + 1 / σ j ^ 2) ≤ 2)
    (hv : par.verbosity ≤ 0 ∨ ("L2" ∈ par.track ∧ "prior" ∈ par.track)) (hc : "logposterior" ∈ par.track)
    (R : Rng) {Ω : Type} [MeasurableSpace Ω] (P : Measure Ω) [IsProbabilityMeasure P] (r : Ω → R.σ) (hr : NormalStream R n P r)
    (x0 : Fin n → ℂ) :
    ∃ (F : ForwardOp n) (Pr : L1 ℂ) (M : ℕ → Sampler n) (A : ℕ → Arrays) (logpis : ℕ → Ω → List ℝ) (π : Measure (Fin n → ℂ)),
      ForwardOp.init data sig s (some identityTransform) (some (identityMeasurement n n)) (some n) = .ok F ∧
      L1.init s identityTransform.op identityTransform.adj (.scalar t) = .ok Pr ∧
      (∀ N, samplerInit F Pr.toPrior { par with nsamples := N } = .ok (M N, A N)) ∧
      (∀ N ω, ∃ fuel0 st, (∀ fuel ≥ fuel0, myulaRun (M N) R (A N) (r ω) (.array1 (List.ofFn x0)) fuel = .ok (some st)) ∧
        ((A N).applyAll st.ev).logPi = some (logpis N ω) ∧ (logpis N ω).length = N) ∧
      IsProbabilityMeasure π ∧ (∀ N, StationaryLaw (M N) R (normalLaw n) π) ∧
      ∀ alpha : ℝ, 0 < alpha → alpha < 1 → ∃ h : ℝ,
        (∀ h', π.real {z | inCredibleRegion (denoisePost par.mu data.vals σ z) h' = true} = 1 - alpha ↔ h' = h) ∧
        (∀ᵐ ω ∂P, ∃ thr : ℕ → ℝ, (∀ N : ℕ, 0 < N → credibleRegionThreshold (logpis N ω) alpha = .ok (thr N)) ∧
          Tendsto thr atTop (𝓝 h)) ∧
        ∀ x, (∀ y, denoisePost par.mu data.vals σ y ≤ denoisePost par.mu data.vals σ x) →
          inCredibleRegion (denoisePost par.mu data.vals σ x) h = false := by
  have hpos : ∀ i, 0 < σ i := by
    cases hσ with
    | scalar s hs => intro _; exact hs
    | vector s hs => exact hs
  obtain ⟨F, Pr, hF, hP, hdat, hcov, hnp, tot⟩ := denoise_total data hd sig σ hσ s hs t
  obtain ⟨lm, de, mu, sk, ns, nb, ng, cp, vb, tr⟩ := par
  simp only at hb hg hreal hl hdel hmu hstep hv hc
  subst hb hg hreal
  have totN : ∀ N, Total (⟨F, Pr.toPrior, ⟨lm, de, mu, sk, N, b, g, false, vb, tr⟩, n⟩ : Sampler n) n (fun x => x)
      (fun y i => (y i - data.vals i) / ((σ i ^ 2 : ℝ) : ℂ)) (fun x i => softEntry (x i) t) (fun x => ∑ i, ‖x i‖) :=
    fun N => tot _ hl.ne'
  obtain ⟨c0, L0, hid0⟩ := denoise_identifiable hn data.vals σ hpos t ht
    (⟨F, Pr.toPrior, ⟨lm, de, mu, sk, 0, b, g, false, vb, tr⟩, n⟩ : Sampler n) hl hdel hstep
  have := normalLaw_prob (p := n)
  have hns : NoiseStream R false n P r (normalLaw n) := C99_normal_noise R P r hr
  obtain ⟨π, hπ, hst, -, -⟩ := C99_ergodic R (totN 0) hid0 P r (normalLaw n) hns
  have hfix : stepLaw (ulaStep de (denoiseG lm t data.vals σ)) (normalLaw n) π = π := (stationary_iff R (totN 0) hid0 P r _ hns π).mp hst
  have hf : Measurable (Function.uncurry (ulaStep de (denoiseG lm t data.vals σ))) :=
    (myula_contraction hid0 (normalLaw n) hns.finite 0).meas
  have hre : ∀ᵐ z ∂π, ∀ i, (z i).im = 0 := stationary_real hid0 π hf hfix fun z x hz i => ulaStep_real lm t de data.vals hdr σ z x hz i
  set X : ℕ → Ω → Fin n → ℂ := fun k ω => iter (ulaStep de (denoiseG lm t data.vals σ)) (noiseSeq R false n (r ω)) x0 (b + k * max g 1 + 1)
    with hX
  have hrun : ∀ (N : ℕ) (ω : Ω), ∃ (fuel0 : ℕ) (st : St R), (∀ fuel ≥ fuel0, myulaRun
      (⟨F, Pr.toPrior, ⟨lm, de, mu, sk, N, b, g, false, vb, tr⟩, n⟩ : Sampler n) R
      (initArrays ⟨F, Pr.toPrior, ⟨lm, de, mu, sk, N, b, g, false, vb, tr⟩, n⟩) (r ω) (.array1 (List.ofFn x0)) fuel = .ok (some st)) ∧
      ((initArrays (⟨F, Pr.toPrior, ⟨lm, de, mu, sk, N, b, g, false, vb, tr⟩, n⟩ : Sampler n)).applyAll st.ev).logPi =
        some (List.ofFn fun k : Fin N => denoisePost mu data.vals σ (X k ω)) := by
    intro N ω
    obtain ⟨-, st, h1, -, h2⟩ := C41_schedule (⟨F, Pr.toPrior, ⟨lm, de, mu, sk, N, b, g, false, vb, tr⟩, n⟩ : Sampler n) R (initArrays _)
      (initArrays_shaped _) (hv.imp id fun h => by simp [initArrays, h.1, h.2, hc]) b g rfl rfl (totN N) _
      (fun x => gradlogpi_vec _ (totN N) x) (r ω) (r ω) (.array1 (List.ofFn x0)) x0 (start_array R (totN N) (r ω) x0) _ rfl
    refine ⟨_, st, h1, ?_⟩
    rw [h2]
    obtain ⟨l, hl⟩ : ∃ l, (initArrays (⟨F, Pr.toPrior, ⟨lm, de, mu, sk, N, b, g, false, vb, tr⟩, n⟩ : Sampler n)).logPi = some l :=
      ⟨_, if_pos (e := (none : Option (List ℝ))) hc⟩
    simp only [Arrays.ofRows, hl, Option.map_some, Option.some.injEq]
    refine List.ext_getElem (by simp) fun k hk hk' => ?_
    simp only [List.getElem_map, List.getElem_range, List.getElem_ofFn]
    simp only [rowOf, hdat, hcov, sum_diag, denoisePost]
    rfl
  choose fuel st h1 h2 using hrun
  refine ⟨F, Pr, fun N => ⟨F, Pr.toPrior, ⟨lm, de, mu, sk, N, b, g, false, vb, tr⟩, n⟩,
    fun N => initArrays ⟨F, Pr.toPrior, ⟨lm, de, mu, sk, N, b, g, false, vb, tr⟩, n⟩,
    fun N ω => List.ofFn fun k : Fin N => denoisePost mu data.vals σ (X k ω), π, hF, hP,
    fun N => by simp [samplerInit, hnp], fun N ω => ⟨_, _, h1 N ω, h2 N ω, List.length_ofFn⟩, hπ, fun N => hst,
    fun alpha ha0 ha1 => ?_⟩
  have hpm : Measurable (denoisePost mu data.vals σ) := (denoisePost_continuous mu data.vals σ).measurable
  have := Measure.isProbabilityMeasure_map (μ := π) hpm.aemeasurable
  obtain ⟨h, hq, hmax, hlow, hup⟩ := post_quantile hn hmu data.vals hdr σ hpos lm t de hdel hf π hfix hre (1 - alpha) (by linarith)
    (by linarith)
  have e : ∀ a, (π.map (denoisePost mu data.vals σ)).real (Set.Iic a) =
      π.real {z | inCredibleRegion (denoisePost mu data.vals σ z) a = true} := by
    intro a
    rw [map_measureReal_apply hpm measurableSet_Iic]
    congr 1
    ext z
    simp [inCredibleRegion]
  refine ⟨h, fun h' => ⟨fun hh' => ?_, fun hh' => hh' ▸ (e h).symm.trans hq⟩, ?_, fun x hx => ?_⟩
  · have h3 := (e h').trans hh'
    rcases lt_trichotomy h' h with hlt | heq | hgt
    · exact absurd h3 (hlow h' hlt).ne
    · exact heq
    · exact absurd h3 (hup h' hgt).ne'
  · have htimes : StrictMono fun k : ℕ => b + k * max g 1 + 1 := by
      intro i j hij
      have : 0 < max g 1 := lt_max_of_lt_right one_pos
      have := Nat.mul_lt_mul_of_pos_right hij this
      show b + i * max g 1 + 1 < b + j * max g 1 + 1
      omega
    have hav : ∀ u v : ℝ, u < v → ∀ᵐ ω ∂P, Tendsto (fun N : ℕ =>
        ((List.ofFn fun k : Fin N => denoisePost mu data.vals σ (X k ω)).map (ramp u v)).sum / N) atTop
        (𝓝 (∫ y, ramp u v y ∂(π.map (denoisePost mu data.vals σ)))) := by
      intro u v huv
      obtain ⟨K, hK0, hK⟩ := ramp_post_lipschitz hmu data.vals σ hpos u v huv
      have h3 := ((myula_squareContraction hid0 (normalLaw n) hns.finite C114_normal_noise x0).averages ⟨hns.meas, hns.indep, hns.law⟩ π
        hfix (fun z => ramp u v (denoisePost mu data.vals σ z)) ((ramp_continuous u v).comp (denoisePost_continuous mu data.vals σ)) K hK0
        hK _ htimes).2
      filter_upwards [h3] with ω hω
      rw [integral_map hpm.aemeasurable (ramp_continuous u v).aestronglyMeasurable]
      simp only [List.map_ofFn, List.sum_ofFn]
      refine hω.congr fun N => ?_
      rw [Finset.sum_range]
      simp only [Function.comp_apply, hX, iter_eq_fwState]
      rfl
    have hlt : ∀ m : ℕ, (1 : ℝ) / (m + 2) < 1 / (m + 1) := fun m => by
      have : (0 : ℝ) ≤ m := Nat.cast_nonneg m
      exact one_div_lt_one_div_of_lt (by linarith) (by linarith)
    have h6 := ae_all_iff.mpr fun m : ℕ => hav (h - 1 / ((m : ℝ) + 1)) (h - 1 / ((m : ℝ) + 2)) (by linarith [hlt m])
    have h7 := ae_all_iff.mpr fun m : ℕ => hav (h + 1 / ((m : ℝ) + 2)) (h + 1 / ((m : ℝ) + 1)) (by linarith [hlt m])
    filter_upwards [h6, h7] with ω h8 h9
    have h10 := quantile_tendsto (fun N => List.ofFn fun k : Fin N => denoisePost mu data.vals σ (X k ω)) (fun N => List.length_ofFn) _ h
      (1 - alpha) (by linarith) (by linarith) hlow hup h8 h9
    refine ⟨fun N => tele (ostat (List.ofFn fun k : Fin N => denoisePost mu data.vals σ (X k ω))) (N - 1) ((N - 1 : ℕ) * (1 - alpha)),
      fun N hN => ?_, ?_⟩
    · obtain ⟨m, rfl⟩ := Nat.exists_eq_succ_of_ne_zero hN.ne'
      exact npQuantile_real _ m (by simp) _ (by linarith) (by linarith)
    · rw [← tendsto_add_atTop_iff_nat 1]
      simpa using h10
  · have := hmax x hx
    simp [inCredibleRegion, this]

/-- The hypotheses of C118 are met by the parameters of tests/test_mcmc.py:27-29 with data of its fixtures' size, standard deviations
0.1 and independent standard normals. -/
example : ∃ (data : DataVec 190) (sig : SigD) (σ : Fin 190 → ℝ) (par : Params), data.cplx = false ∧ (∀ i, (data.vals i).im = 0) ∧
    IsSigma 190 sig σ ∧ par.nburn = (10 : ℕ) ∧ par.ngap = (5 : ℕ) ∧ par.complex = false ∧ 0 < par.lmda ∧ 0 < par.delta ∧ 0 ≤ par.mu ∧
    (∀ i j, par.delta * (1 / par.lmda + 1 / σ i ^ 2 + 1 / σ j ^ 2) ≤ 2) ∧ par.verbosity ≤ 0 ∧ "logposterior" ∈ par.track ∧
    NormalStream (vecRng 190) 190 (Measure.infinitePi fun _ : ℕ => Measure.pi fun _ : Fin 190 => gaussianReal 0 1) (fun ω => ω) :=
  ⟨⟨false, fun _ => 1⟩, .num ((1 / 10 : ℝ) : ℂ) false, fun _ => 1 / 10,
    ⟨3 / 100000, 1 / 100000, 1, 5, 100, 10, 5, false, 0, ["logposterior", "L2", "prior", "chain"]⟩, rfl, fun _ => Complex.one_im,
    .scalar _ (by norm_num), rfl, rfl, rfl, by norm_num, by norm_num, by norm_num, fun _ _ => by norm_num, le_rfl, by simp, vecRng_normal⟩

end Pxmcmc
