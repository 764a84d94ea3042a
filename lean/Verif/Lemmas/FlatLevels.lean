import Verif.Lemmas.ClipMap
import Verif.Props.RegionLimit

/-! # Levels of the log-posterior of a linear model with an l1 prior on frame coefficients -/

namespace Pxmcmc
open MeasureTheory ProbabilityTheory Filter Set
open scoped ENNReal Topology NNReal
variable {n m p : ℕ}

/-- Level sets of a convex function that is nowhere locally constant are null sets. -/
theorem level_null_convex (φ : (Fin p → ℝ) → ℝ) (hc : ConvexOn ℝ univ φ)
    (hloc : ∀ w, ∀ U ∈ 𝓝 w, ∃ u ∈ U, φ u ≠ φ w) (c : ℝ) : gaussVec p {w | φ w = c} = 0 := by
  refine gaussVec_ac p (measure_mono_null (t := frontier {w | φ w ≤ c}) (fun w hw => ?_) ?_)
  · refine ⟨subset_closure (le_of_eq hw), fun hint => ?_⟩
    have hnhds := mem_interior_iff_mem_nhds.mp hint
    have hrefl : Tendsto (fun u : Fin p → ℝ => (2 : ℝ) • w - u) (𝓝 w) (𝓝 w) := by
      have h1 : Continuous fun u : Fin p → ℝ => (2 : ℝ) • w - u := by fun_prop
      have h2 := h1.tendsto w
      rwa [show (2 : ℝ) • w - w = w by rw [two_smul, add_sub_cancel_right]] at h2
    obtain ⟨u, ⟨hu1, hu2⟩, hne⟩ := hloc w _ (inter_mem hnhds (hrefl hnhds))
    have hw' : φ w = c := hw
    have h1 : φ u ≤ c := hu1
    have h2 : φ ((2 : ℝ) • w - u) ≤ c := hu2
    have h3 := hc.2 (mem_univ u) (mem_univ ((2 : ℝ) • w - u)) (show (0 : ℝ) ≤ 1 / 2 by norm_num) (show (0 : ℝ) ≤ 1 / 2 by norm_num) (by norm_num)
    have e : (1 / 2 : ℝ) • u + (1 / 2 : ℝ) • ((2 : ℝ) • w - u) = w := by
      rw [← smul_add, add_sub_cancel, smul_smul]
      norm_num
    rw [e, smul_eq_mul, smul_eq_mul] at h3
    exact hne (by linarith)
  · have hconv : Convex ℝ {w | φ w ≤ c} := by simpa using hc.convex_le c
    exact hconv.addHaar_frontier volume

variable {A : (Fin p → ℂ) →ₗ[ℂ] (Fin n → ℂ)} {B : (Fin p → ℂ) →ₗ[ℂ] (Fin m → ℂ)}

/-- The log-posterior of a linear model with a weighted l1 prior on the coefficients `B x`. -/
noncomputable def linPost (mu : ℝ) (w : Fin m → ℝ) (σ : Fin n → ℝ) (d : Fin n → ℂ) (A : (Fin p → ℂ) →ₗ[ℂ] (Fin n → ℂ))
    (B : (Fin p → ℂ) →ₗ[ℂ] (Fin m → ℂ)) (x : Fin p → ℂ) : ℝ :=
  -mu * ∑ j, w j * ‖B x j‖ - ∑ i, ‖d i - A x i‖ ^ 2 / σ i ^ 2

variable {mu : ℝ} {w : Fin m → ℝ} {σ : Fin n → ℝ} {d : Fin n → ℂ}

theorem linPost_continuous : Continuous (linPost mu w σ d A B) := by
  have h1 : Continuous A := A.continuous_of_finiteDimensional
  have h2 : Continuous B := B.continuous_of_finiteDimensional
  unfold linPost
  fun_prop

theorem linPost_nonpos (hmu : 0 ≤ mu) (hw : ∀ j, 0 ≤ w j) (x : Fin p → ℂ) : linPost mu w σ d A B x ≤ 0 := by
  have h1 : 0 ≤ mu * ∑ j, w j * ‖B x j‖ := mul_nonneg hmu (Finset.sum_nonneg fun j _ => mul_nonneg (hw j) (norm_nonneg _))
  have h2 : 0 ≤ ∑ i, ‖d i - A x i‖ ^ 2 / σ i ^ 2 := Finset.sum_nonneg fun i _ => by positivity
  unfold linPost
  linarith

theorem linPost_convex (hmu : 0 ≤ mu) (hw : ∀ j, 0 ≤ w j) (c : Fin p → ℂ) (s : ℝ) :
    ConvexOn ℝ univ fun v : Fin p → ℝ => -linPost mu w σ d A B (fun i => c i + (s : ℂ) * ((v i : ℝ) : ℂ)) := by
  refine ⟨convex_univ, fun x _ y _ a b ha hb hab => ?_⟩
  have hab' : (a : ℂ) + (b : ℂ) = 1 := by exact_mod_cast hab
  set u : Fin p → ℂ := fun i => c i + (s : ℂ) * ((x i : ℝ) : ℂ)
  set v : Fin p → ℂ := fun i => c i + (s : ℂ) * ((y i : ℝ) : ℂ)
  have e1 : (fun i => c i + (s : ℂ) * (((a • x + b • y) i : ℝ) : ℂ)) = (a : ℂ) • u + (b : ℂ) • v := by
    funext i
    simp only [Pi.add_apply, Pi.smul_apply, smul_eq_mul, u, v]
    push_cast
    linear_combination (-(c i)) * hab'
  have hA : ∀ i, A ((a : ℂ) • u + (b : ℂ) • v) i = (a : ℂ) * A u i + (b : ℂ) * A v i := fun i => by simp
  have hB : ∀ j, B ((a : ℂ) • u + (b : ℂ) • v) j = (a : ℂ) * B u j + (b : ℂ) * B v j := fun j => by simp
  have h1 : ∑ j, w j * ‖B ((a : ℂ) • u + (b : ℂ) • v) j‖ ≤ a * ∑ j, w j * ‖B u j‖ + b * ∑ j, w j * ‖B v j‖ := by
    rw [Finset.mul_sum, Finset.mul_sum, ← Finset.sum_add_distrib]
    refine Finset.sum_le_sum fun j _ => ?_
    rw [hB]
    have := mul_le_mul_of_nonneg_left (norm_sq_lerp (B u j) (B v j) a b ha hb hab).1 (hw j)
    linarith
  have h2 : ∑ i, ‖d i - A ((a : ℂ) • u + (b : ℂ) • v) i‖ ^ 2 / σ i ^ 2 ≤
      a * ∑ i, ‖d i - A u i‖ ^ 2 / σ i ^ 2 + b * ∑ i, ‖d i - A v i‖ ^ 2 / σ i ^ 2 := by
    rw [Finset.mul_sum, Finset.mul_sum, ← Finset.sum_add_distrib]
    refine Finset.sum_le_sum fun i _ => ?_
    rw [hA, mul_div_assoc', mul_div_assoc', ← add_div]
    refine div_le_div_of_nonneg_right ?_ (sq_nonneg _)
    have e2 : d i - ((a : ℂ) * A u i + (b : ℂ) * A v i) = (a : ℂ) * (d i - A u i) + (b : ℂ) * (d i - A v i) := by
      linear_combination (-(d i)) * hab'
    rw [e2]
    exact (norm_sq_lerp _ _ a b ha hb hab).2
  have h3 := mul_le_mul_of_nonneg_left h1 hmu
  simp only [e1, linPost, smul_eq_mul]
  nlinarith

/-- Along a ray the log-posterior is a polynomial of degree one or two. -/
theorem linPost_ray (hmu : 0 < mu) (hw : ∀ j, 0 < w j) (hσ : ∀ i, 0 < σ i) (hinj : ∀ v, B v = 0 → v = 0) (x v : Fin p → ℂ) (hv : v ≠ 0)
    (hx : x = v ∨ x = 0) : ∃ a b : ℝ, (a ≠ 0 ∨ b ≠ 0) ∧ ∀ ε : ℝ, 0 < ε →
      linPost mu w σ d A B (x + (ε : ℂ) • v) = linPost mu w σ d A B x - (a * ε + b * ε ^ 2) := by
  set q : ℝ := ∑ i, ‖A v i‖ ^ 2 / σ i ^ 2 with hq
  set l : ℝ := ∑ i, 2 * ((starRingEnd ℂ (d i - A x i)) * A v i).re / σ i ^ 2 with hl
  set P : ℝ := ∑ j, w j * ‖B v j‖ with hP
  have hPpos : 0 < P := by
    have hBv : B v ≠ 0 := fun h0 => hv (hinj v h0)
    obtain ⟨j, hj⟩ := Function.ne_iff.mp hBv
    exact Finset.sum_pos' (fun j _ => mul_nonneg (hw j).le (norm_nonneg _)) ⟨j, Finset.mem_univ j, mul_pos (hw j) (norm_pos_iff.mpr hj)⟩
  refine ⟨mu * P - l, q, ?_, fun ε hε => ?_⟩
  · by_contra hcon
    push Not at hcon
    obtain ⟨h1, h2⟩ := hcon
    have hAv : ∀ i, A v i = 0 := by
      intro i
      have h3 := (Finset.sum_eq_zero_iff_of_nonneg fun i _ => by positivity).mp h2 i (Finset.mem_univ i)
      have := hσ i
      have h4 : ‖A v i‖ ^ 2 = 0 := by
        rcases div_eq_zero_iff.mp h3 with h | h
        · exact h
        · exact absurd h (by positivity)
      exact norm_eq_zero.mp (pow_eq_zero_iff two_ne_zero |>.mp h4)
    have hl0 : l = 0 := Finset.sum_eq_zero fun i _ => by simp [hAv i]
    rw [hl0, sub_zero] at h1
    exact (mul_pos hmu hPpos).ne' h1
  · have hB : ∑ j, w j * ‖B (x + (ε : ℂ) • v) j‖ = ∑ j, w j * ‖B x j‖ + ε * P := by
      rw [hP, Finset.mul_sum, ← Finset.sum_add_distrib]
      refine Finset.sum_congr rfl fun j _ => ?_
      rcases hx with rfl | rfl
      · have e : B (x + (ε : ℂ) • x) j = ((1 + ε : ℝ) : ℂ) * B x j := by
          rw [map_add, map_smul, Pi.add_apply, Pi.smul_apply, smul_eq_mul]
          push_cast
          ring
        rw [e, norm_mul, Complex.norm_real, Real.norm_of_nonneg (by linarith)]
        ring
      · have e : B (0 + (ε : ℂ) • v) j = (ε : ℂ) * B v j := by simp
        rw [e, norm_mul, Complex.norm_real, Real.norm_of_nonneg hε.le]
        simp
        ring
    have hA : ∑ i, ‖d i - A (x + (ε : ℂ) • v) i‖ ^ 2 / σ i ^ 2 = ∑ i, ‖d i - A x i‖ ^ 2 / σ i ^ 2 - l * ε + q * ε ^ 2 := by
      rw [hl, hq, Finset.sum_mul, Finset.sum_mul, ← Finset.sum_sub_distrib, ← Finset.sum_add_distrib]
      refine Finset.sum_congr rfl fun i _ => ?_
      have e : d i - A (x + (ε : ℂ) • v) i = (d i - A x i) - (ε : ℂ) * A v i := by
        rw [map_add, map_smul, Pi.add_apply, Pi.smul_apply, smul_eq_mul]
        ring
      rw [e]
      have e2 : ‖(d i - A x i) - (ε : ℂ) * A v i‖ ^ 2 = ‖d i - A x i‖ ^ 2 - 2 * ((starRingEnd ℂ (d i - A x i)) * A v i).re * ε +
          ‖A v i‖ ^ 2 * ε ^ 2 := by
        simp only [← Complex.normSq_eq_norm_sq, Complex.normSq_apply]
        simp
        ring
      rw [e2]
      ring
    unfold linPost
    rw [hB, hA]
    ring

/-- The log-posterior is nowhere locally constant on the real vectors. -/
theorem linPost_vary (hp : 0 < p) (hmu : 0 < mu) (hw : ∀ j, 0 < w j) (hσ : ∀ i, 0 < σ i) (hinj : ∀ v, B v = 0 → v = 0) (c : Fin p → ℂ)
    (hc : ∀ i, (c i).im = 0) (s : ℝ) (hs : 0 < s) (u : Fin p → ℝ) (U : Set (Fin p → ℝ)) (hU : U ∈ 𝓝 u) :
    ∃ u' ∈ U, -linPost mu w σ d A B (fun i => c i + (s : ℂ) * ((u' i : ℝ) : ℂ)) ≠
      -linPost mu w σ d A B (fun i => c i + (s : ℂ) * ((u i : ℝ) : ℂ)) := by
  set x : Fin p → ℂ := fun i => c i + (s : ℂ) * ((u i : ℝ) : ℂ) with hx
  have hs' : (s : ℂ) ≠ 0 := by exact_mod_cast hs.ne'
  obtain ⟨v, hv0, hxv, hvr⟩ : ∃ v : Fin p → ℂ, v ≠ 0 ∧ (x = v ∨ x = 0) ∧ ∀ i, (v i).im = 0 := by
    by_cases h0 : x = 0
    · refine ⟨fun _ => 1, fun h => ?_, .inr h0, fun _ => Complex.one_im⟩
      have := congrFun h ⟨0, hp⟩
      simp at this
    · exact ⟨x, h0, .inl rfl, fun i => by simp [hx, hc i]⟩
  obtain ⟨a, b, hab, hray⟩ := linPost_ray hmu hw hσ hinj x v hv0 hxv (A := A) (d := d)
  set γ : ℝ → Fin p → ℝ := fun ε i => u i + ε * (v i).re / s with hγ
  have hγe : ∀ ε : ℝ, (fun i => c i + (s : ℂ) * ((γ ε i : ℝ) : ℂ)) = x + (ε : ℂ) • v := by
    intro ε
    funext i
    have hv : (((v i).re : ℝ) : ℂ) = v i := Complex.ext (by simp) (by simp [hvr i])
    simp only [hγ, hx, Pi.add_apply, Pi.smul_apply, smul_eq_mul]
    push_cast
    rw [hv]
    field_simp
    ring
  have hcont : Continuous γ := by
    simp only [hγ]
    fun_prop
  have h0 : γ 0 = u := by
    funext i
    simp [hγ]
  have hnear : ∀ᶠ ε in 𝓝 (0 : ℝ), γ ε ∈ U := hcont.tendsto 0 (by rw [h0]; exact hU)
  obtain ⟨η, hη, hball⟩ := Metric.eventually_nhds_iff.mp hnear
  have hin : ∀ ε : ℝ, 0 < ε → ε < η → γ ε ∈ U := fun ε h1 h2 => hball (by rw [dist_zero_right, Real.norm_of_nonneg h1.le]; exact h2)
  by_contra hcon
  push Not at hcon
  have hzero : ∀ ε : ℝ, 0 < ε → ε < η → a * ε + b * ε ^ 2 = 0 := by
    intro ε h1 h2
    have h3 := hcon (γ ε) (hin ε h1 h2)
    rw [hγe, hray ε h1] at h3
    linarith
  have h1 := hzero (η / 2) (by linarith) (by linarith)
  have h2 := hzero (η / 4) (by linarith) (by linarith)
  have hb : b * η ^ 2 = 0 := by nlinarith
  have hb0 : b = 0 := by
    rcases mul_eq_zero.mp hb with h | h
    · exact h
    · exact absurd h (by positivity)
  have ha0 : a = 0 := by
    rw [hb0, zero_mul, add_zero] at h1
    rcases mul_eq_zero.mp h1 with h | h
    · exact h
    · exact absurd h (by positivity)
  rcases hab with h | h
  · exact h ha0
  · exact h hb0

/-- Between any two levels below the largest there is a real vector. -/
theorem linPost_between (hp : 0 < p) (hmu : 0 < mu) (hw : ∀ j, 0 < w j) (hinj : ∀ v, B v = 0 → v = 0) (y : Fin p → ℝ)
    (s t : ℝ) (hst : s < t) (hy : s < linPost mu w σ d A B (fun i => ((y i : ℝ) : ℂ))) :
    ∃ x : Fin p → ℝ, s < linPost mu w σ d A B (fun i => ((x i : ℝ) : ℂ)) ∧ linPost mu w σ d A B (fun i => ((x i : ℝ) : ℂ)) < t := by
  by_cases hyt : linPost mu w σ d A B (fun i => ((y i : ℝ) : ℂ)) < t
  · exact ⟨y, hy, hyt⟩
  push Not at hyt
  set o : Fin p → ℂ := fun _ => 1 with ho
  set P : ℝ := ∑ j, w j * ‖B o j‖ with hP
  set Py : ℝ := ∑ j, w j * ‖B (fun i => ((y i : ℝ) : ℂ)) j‖ with hPy
  have hPpos : 0 < P := by
    have hBo : B o ≠ 0 := fun h0 => by
      have := congrFun (hinj o h0) ⟨0, hp⟩
      simp [ho] at this
    obtain ⟨j, hj⟩ := Function.ne_iff.mp hBo
    exact Finset.sum_pos' (fun j _ => mul_nonneg (hw j).le (norm_nonneg _)) ⟨j, Finset.mem_univ j, mul_pos (hw j) (norm_pos_iff.mpr hj)⟩
  set φ : ℝ → ℝ := fun τ => linPost mu w σ d A B (fun i => ((y i + τ : ℝ) : ℂ)) with hφ
  have hcont : Continuous φ := by
    have : Continuous fun (τ : ℝ) (i : Fin p) => ((y i + τ : ℝ) : ℂ) := by fun_prop
    exact linPost_continuous.comp this
  have h0 : φ 0 = linPost mu w σ d A B (fun i => ((y i : ℝ) : ℂ)) := by simp [hφ]
  have hup : ∀ τ : ℝ, 0 ≤ τ → φ τ ≤ -mu * (τ * P - Py) := by
    intro τ hτ
    have e : (fun i => ((y i + τ : ℝ) : ℂ)) = (fun i => ((y i : ℝ) : ℂ)) + (τ : ℂ) • o := by
      funext i
      simp [ho]
    have h1 : τ * P - Py ≤ ∑ j, w j * ‖B (fun i => ((y i + τ : ℝ) : ℂ)) j‖ := by
      rw [hP, hPy, Finset.mul_sum, ← Finset.sum_sub_distrib]
      refine Finset.sum_le_sum fun j _ => ?_
      rw [e, map_add, map_smul, Pi.add_apply, Pi.smul_apply, smul_eq_mul]
      have h2 := norm_sub_norm_le ((τ : ℂ) * B o j) (-(B (fun i => ((y i : ℝ) : ℂ)) j))
      rw [norm_neg, sub_neg_eq_add, norm_mul, Complex.norm_real, Real.norm_of_nonneg hτ, add_comm ((τ : ℂ) * B o j)] at h2
      have h3 := mul_le_mul_of_nonneg_left h2 (hw j).le
      linarith
    have h2 : 0 ≤ ∑ i, ‖d i - A (fun i => ((y i + τ : ℝ) : ℂ)) i‖ ^ 2 / σ i ^ 2 := Finset.sum_nonneg fun i _ => by positivity
    have h3 := mul_le_mul_of_nonneg_left h1 hmu.le
    simp only [hφ, linPost]
    linarith
  have hPy0 : 0 ≤ Py := Finset.sum_nonneg fun j _ => mul_nonneg (hw j).le (norm_nonneg _)
  obtain ⟨τ, hτ⟩ : ∃ τ : ℝ, φ τ ≤ s := by
    refine ⟨(Py + |s| / mu) / P, (hup _ (by positivity)).trans ?_⟩
    rw [div_mul_cancel₀ _ hPpos.ne', add_sub_cancel_left, neg_mul, mul_div_cancel₀ _ hmu.ne']
    exact neg_abs_le s
  have hmem : (s + t) / 2 ∈ Set.range φ := mem_range_of_exists_le_of_exists_ge hcont ⟨τ, by linarith⟩ ⟨0, by rw [h0]; linarith⟩
  obtain ⟨τ', h'⟩ := hmem
  have h'' : linPost mu w σ d A B (fun i => ((y i + τ' : ℝ) : ℂ)) = (s + t) / 2 := h'
  exact ⟨fun i => y i + τ', by rw [h'']; linarith, by rw [h'']; linarith⟩

/-- A linear map does not move entries further than a multiple of the distance. -/
theorem linear_entry {k : ℕ} (C : (Fin p → ℂ) →ₗ[ℂ] (Fin k → ℂ)) :
    ∃ K : ℝ, 0 ≤ K ∧ ∀ (x y : Fin p → ℂ) (i : Fin k), ‖C x i - C y i‖ ≤ K * √(Spec.distSq x y) := by
  refine ⟨‖LinearMap.toContinuousLinearMap C‖, norm_nonneg _, fun x y i => ?_⟩
  have h1 : ‖C (x - y) i‖ ≤ ‖C (x - y)‖ := norm_le_pi_norm _ i
  have h2 : ‖C (x - y)‖ ≤ ‖LinearMap.toContinuousLinearMap C‖ * ‖x - y‖ := (LinearMap.toContinuousLinearMap C).le_opNorm _
  have h3 : ‖x - y‖ ≤ √(Spec.distSq x y) := by
    have := sqrt_distSq_le x y
    rwa [dist_eq_norm] at this
  rw [← Pi.sub_apply, ← map_sub]
  exact h1.trans (h2.trans (mul_le_mul_of_nonneg_left h3 (norm_nonneg _)))

/-- Ramp functions of the log-posterior are Lipschitz. -/
theorem ramp_linPost_lipschitz (hmu : 0 ≤ mu) (hw : ∀ j, 0 ≤ w j) (hσ : ∀ i, 0 < σ i) (s t : ℝ) (hst : s < t) :
    ∃ K, ∀ x y : Fin p → ℂ, |ramp s t (linPost mu w σ d A B x) - ramp s t (linPost mu w σ d A B y)| ≤ K * √(Spec.distSq x y) := by
  set T := max (-s) 0 with hT
  have hT0 : 0 ≤ T := le_max_right _ _
  set V : (Fin p → ℂ) → ℝ := fun x => mu * ∑ j, w j * ‖B x j‖ + ∑ i, min (‖d i - A x i‖ / σ i) √T ^ 2 with hV
  have hkey : ∀ x, ramp s t (linPost mu w σ d A B x) = ramp s t (-(V x)) := by
    intro x
    by_cases hbig : ∀ i, ‖d i - A x i‖ / σ i ≤ √T
    · congr 1
      simp only [hV, linPost]
      have : ∑ i, min (‖d i - A x i‖ / σ i) √T ^ 2 = ∑ i, ‖d i - A x i‖ ^ 2 / σ i ^ 2 :=
        Finset.sum_congr rfl fun i _ => by rw [min_eq_left (hbig i), div_pow]
      rw [this]
      ring
    · push Not at hbig
      obtain ⟨i0, hi0⟩ := hbig
      have hP : 0 ≤ mu * ∑ j, w j * ‖B x j‖ := mul_nonneg hmu (Finset.sum_nonneg fun j _ => mul_nonneg (hw j) (norm_nonneg _))
      have h1 : T ≤ ∑ i, ‖d i - A x i‖ ^ 2 / σ i ^ 2 := by
        refine le_trans ?_ (Finset.single_le_sum (f := fun i => ‖d i - A x i‖ ^ 2 / σ i ^ 2) (fun i _ => by positivity) (Finset.mem_univ i0))
        rw [← div_pow, ← Real.sq_sqrt hT0]
        exact pow_le_pow_left₀ (Real.sqrt_nonneg _) hi0.le 2
      have h2 : T ≤ ∑ i, min (‖d i - A x i‖ / σ i) √T ^ 2 := by
        refine le_trans ?_ (Finset.single_le_sum (f := fun i => min (‖d i - A x i‖ / σ i) √T ^ 2) (fun i _ => sq_nonneg _) (Finset.mem_univ i0))
        rw [min_eq_right hi0.le, Real.sq_sqrt hT0]
      have h3 : -s ≤ T := le_max_left _ _
      rw [ramp_one hst (show linPost mu w σ d A B x ≤ s by unfold linPost; linarith),
        ramp_one hst (show -(V x) ≤ s by simp only [hV]; linarith)]
  obtain ⟨KA, hKA, hA⟩ := linear_entry A
  obtain ⟨KB, hKB, hB⟩ := linear_entry B
  have hVl : ∀ x y, |V x - V y| ≤ (mu * ∑ j, w j * KB + ∑ i, 2 * √T * KA / σ i) * √(Spec.distSq x y) := by
    intro x y
    have h1 : |∑ j, w j * ‖B x j‖ - ∑ j, w j * ‖B y j‖| ≤ (∑ j, w j * KB) * √(Spec.distSq x y) := by
      rw [← Finset.sum_sub_distrib, Finset.sum_mul]
      refine (Finset.abs_sum_le_sum_abs _ _).trans (Finset.sum_le_sum fun j _ => ?_)
      rw [← mul_sub, abs_mul, abs_of_nonneg (hw j), mul_assoc]
      exact mul_le_mul_of_nonneg_left ((abs_norm_sub_norm_le _ _).trans (hB x y j)) (hw j)
    have h2 : |∑ i, min (‖d i - A x i‖ / σ i) √T ^ 2 - ∑ i, min (‖d i - A y i‖ / σ i) √T ^ 2| ≤
        (∑ i, 2 * √T * KA / σ i) * √(Spec.distSq x y) := by
      rw [← Finset.sum_sub_distrib, Finset.sum_mul]
      refine (Finset.abs_sum_le_sum_abs _ _).trans (Finset.sum_le_sum fun i _ => ?_)
      have hs := hσ i
      refine (min_sq_lipschitz _ _ _ (by positivity) (by positivity) (Real.sqrt_nonneg T)).trans ?_
      rw [← sub_div, abs_div, abs_of_pos hs, mul_div_assoc', div_mul_eq_mul_div]
      refine div_le_div_of_nonneg_right ?_ hs.le
      rw [mul_assoc (2 * √T)]
      refine mul_le_mul_of_nonneg_left ?_ (by positivity)
      refine (abs_norm_sub_norm_le _ _).trans ?_
      rw [show d i - A x i - (d i - A y i) = -(A x i - A y i) by ring, norm_neg]
      exact hA x y i
    have h3 : |mu * ∑ j, w j * ‖B x j‖ - mu * ∑ j, w j * ‖B y j‖| ≤ mu * (∑ j, w j * KB) * √(Spec.distSq x y) := by
      rw [← mul_sub, abs_mul, abs_of_nonneg hmu, mul_assoc]
      exact mul_le_mul_of_nonneg_left h1 hmu
    calc |V x - V y| = |(mu * ∑ j, w j * ‖B x j‖ - mu * ∑ j, w j * ‖B y j‖) +
          (∑ i, min (‖d i - A x i‖ / σ i) √T ^ 2 - ∑ i, min (‖d i - A y i‖ / σ i) √T ^ 2)| := by simp only [hV]; ring_nf
      _ ≤ _ := abs_add_le _ _
      _ ≤ mu * (∑ j, w j * KB) * √(Spec.distSq x y) + (∑ i, 2 * √T * KA / σ i) * √(Spec.distSq x y) := add_le_add h3 h2
      _ = _ := by ring
  have hpos : 0 < t - s := sub_pos.mpr hst
  refine ⟨1 / (t - s) * (mu * ∑ j, w j * KB + ∑ i, 2 * √T * KA / σ i), fun x y => ?_⟩
  rw [hkey, hkey]
  refine (ramp_lipschitz hst _ _).trans ?_
  rw [mul_assoc]
  refine mul_le_mul_of_nonneg_left ?_ (one_div_pos.mpr hpos).le
  rw [show -(V x) - -(V y) = -(V x - V y) by ring, abs_neg]
  exact hVl x y

end Pxmcmc
