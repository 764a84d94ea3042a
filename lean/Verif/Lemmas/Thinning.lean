import Verif.Lemmas.Averages
import Verif.Lemmas.Gauss
import Mathlib.Probability.Moments.Covariance

/-! # Covariances along a contracting chain, and along a Gaussian recursion -/

namespace Pxmcmc
open MeasureTheory ProbabilityTheory Filter
open scoped ENNReal Topology NNReal

section contraction
variable {E W : Type*} [MetricSpace E] [MeasurableSpace E] [BorelSpace E] [MeasurableSpace W]
variable {ν : Measure W} {f : E → W → E} {φ : E → E → ℝ} {ρ : ℝ} {x0 : E}
variable {Ω : Type*} [MeasurableSpace Ω] {P : Measure Ω} [IsProbabilityMeasure P] {V : ℕ → Ω → W}

/-- Quantities at two times of the chain have a covariance that decays geometrically in the time between them. -/
theorem SquareContraction.cov_le (h : SquareContraction ν f φ ρ x0) (hV : Driven P V ν) (g g' : E → ℝ) (hg : Continuous g)
    (hg' : Continuous g') (L L' : ℝ) (hL0 : 0 ≤ L) (hL0' : 0 ≤ L') (hL : ∀ x y, |g x - g y| ≤ L * φ x y)
    (hL' : ∀ x y, |g' x - g' y| ≤ L' * φ x y) (i m : ℕ) :
    |cov[fun ω => g (fwState f x0 (fun j => V j ω) i), fun ω => g' (fwState f x0 (fun j => V j ω) (i + m)); P]| ≤
      L * L' * (2 * momBound ν f φ ρ x0 ^ 2) * ρ ^ m := by
  have hA := momBound_pos (ν := ν) (f := f) (φ := φ) (ρ := ρ) (x0 := x0)
  obtain ⟨i2, b2⟩ := h.moment2 hV i
  obtain ⟨i1, b1⟩ := h.moment1 hV i
  have b2' : ∫ ω, φ (fwState f x0 (fun j => V j ω) i) x0 ^ 2 ∂P ≤ momBound ν f φ ρ x0 := b2.trans (by unfold momBound; linarith)
  set A := momBound ν f φ ρ x0
  have mi := h.obs_int hV g hg L hL i
  have mim := h.obs_int hV g' hg' L' hL' (i + m)
  have mr := h.obs_int (hV.shift i) g' hg' L' hL' m
  have hzero : cov[fun ω => g (fwState f x0 (fun j => V j ω) i), fun ω => g' (fwState f x0 (fun j => V (i + j) ω) m); P] = 0 := by
    have hind := (restart_indep f h.meas x0 hV i m).comp (φ := g) (ψ := g') hg.measurable hg'.measurable
    exact hind.covariance_eq_zero mi mr
  have hD : MemLp (fun ω => g' (fwState f x0 (fun j => V j ω) (i + m)) - g' (fwState f x0 (fun j => V (i + j) ω) m)) 2 P := mim.sub mr
  have hcov : cov[fun ω => g (fwState f x0 (fun j => V j ω) i), fun ω => g' (fwState f x0 (fun j => V j ω) (i + m)); P] =
      ∫ ω, (g (fwState f x0 (fun j => V j ω) i) - ∫ ω', g (fwState f x0 (fun j => V j ω') i) ∂P) *
        (g' (fwState f x0 (fun j => V j ω) (i + m)) - g' (fwState f x0 (fun j => V (i + j) ω) m)) ∂P := by
    have h1 := covariance_fun_sub_right mi mim mr
    rw [hzero, sub_zero] at h1
    rw [← h1, covariance_eq_sub mi hD]
    have j1 := mi.integrable_mul hD
    have j2 := (hD.integrable one_le_two).const_mul (∫ ω', g (fwState f x0 (fun j => V j ω') i) ∂P)
    have h2 := integral_sub j1 j2
    rw [integral_const_mul] at h2
    rw [← h2]
    refine integral_congr_ae (Eventually.of_forall fun ω => ?_)
    simp only [Pi.mul_apply]
    ring
  have hmean : |g x0 - ∫ ω', g (fwState f x0 (fun j => V j ω') i) ∂P| ≤ L * A := by
    have h1 : g x0 - ∫ ω', g (fwState f x0 (fun j => V j ω') i) ∂P = ∫ ω', (g x0 - g (fwState f x0 (fun j => V j ω') i)) ∂P := by
      rw [integral_sub (integrable_const _) (mi.integrable one_le_two)]
      simp
    rw [h1]
    refine (abs_integral_le_integral_abs).trans ?_
    refine (integral_mono ((integrable_const _).sub (mi.integrable one_le_two)).abs (i1.const_mul L) fun ω => ?_).trans ?_
    · simp only [Pi.sub_apply]
      rw [abs_sub_comm]
      exact hL _ _
    · rw [integral_const_mul]
      exact mul_le_mul_of_nonneg_left b1 hL0
  rw [hcov]
  refine (abs_integral_le_integral_abs).trans ?_
  have yi : MemLp (fun ω => g (fwState f x0 (fun j => V j ω) i) - ∫ ω', g (fwState f x0 (fun j => V j ω') i) ∂P) 2 P :=
    mi.sub (memLp_const _)
  have hb : Integrable (fun ω => L' * ρ ^ m * (L * φ (fwState f x0 (fun j => V j ω) i) x0 ^ 2 +
      L * A * φ (fwState f x0 (fun j => V j ω) i) x0)) P := ((i2.const_mul L).add (i1.const_mul (L * A))).const_mul _
  have hint : Integrable (fun ω => (g (fwState f x0 (fun j => V j ω) i) - ∫ ω', g (fwState f x0 (fun j => V j ω') i) ∂P) *
        (g' (fwState f x0 (fun j => V j ω) (i + m)) - g' (fwState f x0 (fun j => V (i + j) ω) m))) P := yi.integrable_mul hD
  refine (integral_mono hint.abs hb fun ω => ?_).trans ?_
  · have h1 : |g (fwState f x0 (fun j => V j ω) i) - ∫ ω', g (fwState f x0 (fun j => V j ω') i) ∂P| ≤
        L * φ (fwState f x0 (fun j => V j ω) i) x0 + L * A :=
      (abs_sub_le _ (g x0) _).trans (add_le_add (hL _ _) hmean)
    have h2 : |g' (fwState f x0 (fun j => V j ω) (i + m)) - g' (fwState f x0 (fun j => V (i + j) ω) m)| ≤
        L' * (ρ ^ m * φ (fwState f x0 (fun j => V j ω) i) x0) := by
      rw [fwState_add]
      exact (hL' _ _).trans (mul_le_mul_of_nonneg_left (fw_start f φ ρ h.nonneg h.contract m _ _ _) hL0')
    have hφ := h.nonnegφ (fwState f x0 (fun j => V j ω) i) x0
    show |_ * _| ≤ _
    rw [abs_mul]
    refine (mul_le_mul h1 h2 (abs_nonneg _) (by positivity)).trans (le_of_eq ?_)
    ring
  · rw [integral_const_mul, integral_add (i2.const_mul L) (i1.const_mul (L * A)), integral_const_mul, integral_const_mul]
    have hρm := pow_nonneg h.nonneg m
    have h3 : L * ∫ ω, φ (fwState f x0 (fun j => V j ω) i) x0 ^ 2 ∂P ≤ L * A ^ 2 :=
      mul_le_mul_of_nonneg_left (b2'.trans (by nlinarith)) hL0
    have h4 : L * A * ∫ ω, φ (fwState f x0 (fun j => V j ω) i) x0 ∂P ≤ L * A * A :=
      mul_le_mul_of_nonneg_left b1 (by positivity)
    calc _ ≤ L' * ρ ^ m * (L * A ^ 2 + L * A * A) := mul_le_mul_of_nonneg_left (add_le_add h3 h4) (by positivity)
      _ = _ := by ring

end contraction

section gauss
variable {n : ℕ} {Ω : Type} [MeasurableSpace Ω]

/-- The state after `k` steps of the recursion is independent of later noise. -/
theorem arState_indep (P : Measure Ω) [IsProbabilityMeasure P] (W : ℕ → Ω → Fin n → ℝ) (hm : ∀ k, Measurable (W k))
    (hi : iIndepFun W P) (c e : Fin n → ℝ) (q : ℝ) (x0 : Fin n → ℝ) (k l : ℕ) (hkl : k ≤ l) :
    IndepFun (fun ω => arState c e q x0 (fun j => W j ω) k) (W l) P := by
  have hX : (fun ω => arState c e q x0 (fun j => W j ω) k) =
      (fun u : (Finset.range k → Fin n → ℝ) => arState c e q x0
        (fun j => if h : j ∈ Finset.range k then u ⟨j, h⟩ else 0) k) ∘ fun ω (j : Finset.range k) => W j ω := by
    funext ω
    refine arState_congr _ _ _ _ _ _ _ fun j hj => ?_
    simp [hj]
  have h := hi.indepFun_finset (Finset.range k) {l} (by simp [hkl]) hm
  rw [hX]
  refine h.comp (ψ := fun u : (({l} : Finset ℕ) → Fin n → ℝ) => u ⟨l, Finset.mem_singleton_self l⟩) ?_ (by fun_prop)
  refine arState_measurable _ _ _ _ _ (fun j => ?_) _
  by_cases hj : j ∈ Finset.range k
  · simp only [hj, dif_pos]
    fun_prop
  · simp only [hj, dif_neg, not_false_eq_true]
    fun_prop

theorem coord_memLp (P : Measure Ω) (m : Fin n → ℝ) (v : Fin n → ℝ≥0) (X : Ω → Fin n → ℝ)
    (h : HasLaw X (Measure.pi fun i => gaussianReal (m i) (v i)) P) (i : Fin n) :
    HasLaw (fun ω => X ω i) (gaussianReal (m i) (v i)) P ∧ MemLp (fun ω => X ω i) 2 P := by
  have h1 : HasLaw (fun ω => X ω i) (gaussianReal (m i) (v i)) P := by
    refine ⟨(measurable_pi_apply i).comp_aemeasurable h.aemeasurable, ?_⟩
    have h2 : (fun ω => X ω i) = Function.eval i ∘ X := rfl
    rw [h2, ← AEMeasurable.map_map_of_aemeasurable (measurable_pi_apply i).aemeasurable h.aemeasurable, h.map_eq]
    exact (measurePreserving_eval (fun i => gaussianReal (m i) (v i)) i).map_eq
  refine ⟨h1, ?_⟩
  have h3 : MemLp (id : ℝ → ℝ) 2 (P.map fun ω => X ω i) := by
    rw [h1.map_eq]
    exact memLp_id_gaussianReal 2
  exact (memLp_map_measure_iff aestronglyMeasurable_id h1.aemeasurable).mp h3

/-- Autocovariance of the recursion. -/
theorem arState_cov (P : Measure Ω) [IsProbabilityMeasure P] (W : ℕ → Ω → Fin n → ℝ) (hm : ∀ k, Measurable (W k))
    (hi : iIndepFun W P) (hl : ∀ k, P.map (W k) = Measure.pi fun _ => gaussianReal 0 1) (c e : Fin n → ℝ) (q : ℝ) (x0 : Fin n → ℝ)
    (k m : ℕ) (i : Fin n) :
    cov[fun ω => arState c e q x0 (fun j => W j ω) k i, fun ω => arState c e q x0 (fun j => W j ω) (k + m) i; P] =
      c i ^ m * arVar (c i) q k := by
  have hX : ∀ j, MemLp (fun ω => arState c e q x0 (fun j => W j ω) j i) 2 P := fun j =>
    (coord_memLp P _ _ _ (arState_law P W hm hi hl c e q x0 j) i).2
  have hW : ∀ j, MemLp (fun ω => W j ω i) 2 P := fun j =>
    (coord_memLp P (fun _ => 0) (fun _ => 1) (W j) ⟨(hm j).aemeasurable, hl j⟩ i).2
  induction m with
  | zero =>
    have h1 := (coord_memLp P _ _ _ (arState_law P W hm hi hl c e q x0 k) i).1
    rw [pow_zero, one_mul]
    show cov[_, fun ω => arState c e q x0 (fun j => W j ω) k i; P] = _
    rw [covariance_self h1.aemeasurable, h1.variance_eq, variance_id_gaussianReal]
  | succ m ih =>
    have e1 : (fun ω => arState c e q x0 (fun j => W j ω) (k + (m + 1)) i) =
        (fun ω => c i * arState c e q x0 (fun j => W j ω) (k + m) i + e i) + fun ω => q * W (k + m) ω i := by
      funext ω
      rfl
    have m1 : MemLp (fun ω => c i * arState c e q x0 (fun j => W j ω) (k + m) i + e i) 2 P :=
      ((hX (k + m)).const_mul (c i)).add (memLp_const (e i))
    have m2 : MemLp (fun ω => q * W (k + m) ω i) 2 P := (hW (k + m)).const_mul q
    rw [e1, covariance_add_right (hX k) m1 m2,
      covariance_add_const_right (((hX (k + m)).const_mul (c i)).integrable one_le_two), covariance_const_mul_right,
      covariance_const_mul_right, ih]
    have hp : Measurable fun x : Fin n → ℝ => x i := measurable_pi_apply i
    have hind := (arState_indep P W hm hi c e q x0 k (k + m) (by omega)).comp hp hp
    have h0 : cov[fun ω => arState c e q x0 (fun j => W j ω) k i, fun ω => W (k + m) ω i; P] = 0 :=
      hind.covariance_eq_zero (hX k) (hW (k + m))
    rw [h0, pow_succ]
    ring

end gauss
end Pxmcmc
