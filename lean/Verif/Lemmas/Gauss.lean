import Mathlib.Probability.Distributions.Gaussian.Real
import Mathlib.Probability.HasLaw
import Mathlib.Probability.Independence.Basic
import Mathlib.Probability.Independence.InfinitePi
import Mathlib.MeasureTheory.Constructions.Pi
import Mathlib.Analysis.SpecificLimits.Basic

/-! # Laws of linear recursions driven by Gaussian noise -/

namespace Pxmcmc
open MeasureTheory ProbabilityTheory
open scoped NNReal

variable {n : ℕ}

/-- Combining two independent vectors coordinate by coordinate. -/
theorem pi_prod_map {μ ν : Fin n → Measure ℝ} [∀ i, IsProbabilityMeasure (μ i)] [∀ i, IsProbabilityMeasure (ν i)]
    (f : Fin n → ℝ × ℝ → ℝ) (hf : ∀ i, Measurable (f i)) :
    ((Measure.pi μ).prod (Measure.pi ν)).map (fun p i => f i (p.1 i, p.2 i)) =
      Measure.pi fun i => ((μ i).prod (ν i)).map (f i) := by
  have h := measurePreserving_arrowProdEquivProdArrow ℝ ℝ (Fin n) μ ν
  have hm : Measurable fun (p : (Fin n → ℝ) × (Fin n → ℝ)) (i : Fin n) => f i (p.1 i, p.2 i) := by
    refine measurable_pi_lambda _ fun i => (hf i).comp ?_
    fun_prop
  rw [← h.map_eq, Measure.map_map hm h.measurable]
  have : ∀ i, IsProbabilityMeasure (((μ i).prod (ν i)).map (f i)) := fun i =>
    Measure.isProbabilityMeasure_map (hf i).aemeasurable
  rw [← Measure.pi_map_pi (fun i => (hf i).aemeasurable)]
  rfl

/-- An affine combination of two independent real Gaussians. -/
theorem gaussian_affine (m : ℝ) (v : ℝ≥0) (c e q : ℝ) :
    ((gaussianReal m v).prod (gaussianReal 0 1)).map (fun p => c * p.1 + e + q * p.2) =
      gaussianReal (c * m + e) (NNReal.mk (c ^ 2) (sq_nonneg c) * v + NNReal.mk (q ^ 2) (sq_nonneg q)) := by
  have h1 : (gaussianReal m v).map (fun x => c * x + e) = gaussianReal (c * m + e) (NNReal.mk (c ^ 2) (sq_nonneg c) * v) := by
    rw [show (fun x : ℝ => c * x + e) = (fun y => y + e) ∘ fun x => c * x from rfl,
      ← Measure.map_map (by fun_prop) (by fun_prop), gaussianReal_map_const_mul, gaussianReal_map_add_const]
  have h2 : (gaussianReal 0 1).map (fun x => q * x) = gaussianReal 0 (NNReal.mk (q ^ 2) (sq_nonneg q)) := by
    rw [gaussianReal_map_const_mul]
    simp
  have h3 : (fun p : ℝ × ℝ => c * p.1 + e + q * p.2) =
      (fun p : ℝ × ℝ => p.1 + p.2) ∘ Prod.map (fun x => c * x + e) fun x => q * x := rfl
  rw [h3, ← Measure.map_map (by fun_prop) (by fun_prop), ← Measure.map_prod_map _ _ (by fun_prop) (by fun_prop), h1, h2]
  have := gaussianReal_conv_gaussianReal (m₁ := c * m + e) (m₂ := 0) (v₁ := NNReal.mk (c ^ 2) (sq_nonneg c) * v)
    (v₂ := NNReal.mk (q ^ 2) (sq_nonneg q))
  rw [add_zero] at this
  exact this

/-- The mean and variance of the recursion after `k` steps. -/
noncomputable def arMean (c e : ℝ) (x0 : ℝ) : ℕ → ℝ
  | 0 => x0
  | k + 1 => c * arMean c e x0 k + e

noncomputable def arVar (c q : ℝ) : ℕ → ℝ≥0
  | 0 => 0
  | k + 1 => NNReal.mk (c ^ 2) (sq_nonneg c) * arVar c q k + NNReal.mk (q ^ 2) (sq_nonneg q)

/-- The state after `k` steps as a function of the noise. -/
noncomputable def arState (c e : Fin n → ℝ) (q : ℝ) (x0 : Fin n → ℝ) (w : ℕ → Fin n → ℝ) : ℕ → Fin n → ℝ
  | 0 => x0
  | k + 1 => fun i => c i * arState c e q x0 w k i + e i + q * w k i

theorem arState_congr (c e : Fin n → ℝ) (q : ℝ) (x0 : Fin n → ℝ) (w w' : ℕ → Fin n → ℝ) (k : ℕ)
    (h : ∀ j < k, w j = w' j) : arState c e q x0 w k = arState c e q x0 w' k := by
  induction k with
  | zero => rfl
  | succ k ih =>
    funext i
    simp only [arState]
    rw [ih fun j hj => h j (by omega), h k (by omega)]

theorem arState_measurable (c e : Fin n → ℝ) (q : ℝ) (x0 : Fin n → ℝ) {α : Type*} [MeasurableSpace α]
    (w : α → ℕ → Fin n → ℝ) (hw : ∀ j, Measurable fun u => w u j) (k : ℕ) :
    Measurable fun u => arState c e q x0 (w u) k := by
  induction k with
  | zero => exact measurable_const
  | succ k ih =>
    refine measurable_pi_lambda _ fun i => ?_
    have h1 : Measurable fun u => arState c e q x0 (w u) k i := (measurable_pi_apply i).comp ih
    have h2 : Measurable fun u => w u k i := (measurable_pi_apply i).comp (hw k)
    simp only [arState]
    fun_prop

/-- Driven by independent standard normal vectors, the recursion has independent Gaussian coordinates. -/
theorem arState_law {Ω : Type} [MeasurableSpace Ω] (P : Measure Ω) [IsProbabilityMeasure P] (W : ℕ → Ω → Fin n → ℝ)
    (hm : ∀ k, Measurable (W k)) (hi : iIndepFun W P)
    (hl : ∀ k, P.map (W k) = Measure.pi fun _ => gaussianReal 0 1) (c e : Fin n → ℝ) (q : ℝ) (x0 : Fin n → ℝ) (k : ℕ) :
    HasLaw (fun ω => arState c e q x0 (fun j => W j ω) k)
      (Measure.pi fun i => gaussianReal (arMean (c i) (e i) (x0 i) k) (arVar (c i) q k)) P := by
  induction k with
  | zero =>
    refine ⟨aemeasurable_const, ?_⟩
    show P.map (fun _ => x0) = _
    rw [Measure.map_const, measure_univ, one_smul]
    simp only [arMean, arVar, gaussianReal_zero_var]
    rw [← Measure.infinitePi_eq_pi, Measure.infinitePi_dirac]
  | succ k ih =>
    have hX : (fun ω => arState c e q x0 (fun j => W j ω) k) =
        (fun u : (Finset.range k → Fin n → ℝ) => arState c e q x0
          (fun j => if h : j ∈ Finset.range k then u ⟨j, h⟩ else 0) k) ∘ fun ω (j : Finset.range k) => W j ω := by
      funext ω
      refine arState_congr _ _ _ _ _ _ _ fun j hj => ?_
      simp [hj]
    have hind : IndepFun (fun ω => arState c e q x0 (fun j => W j ω) k) (W k) P := by
      have h := hi.indepFun_finset (Finset.range k) {k} (by simp) hm
      rw [hX]
      refine h.comp (ψ := fun u : (({k} : Finset ℕ) → Fin n → ℝ) => u ⟨k, Finset.mem_singleton_self k⟩) ?_ (by fun_prop)
      refine arState_measurable _ _ _ _ _ (fun j => ?_) _
      by_cases hj : j ∈ Finset.range k
      · simp only [hj, dif_pos]
        fun_prop
      · simp only [hj, dif_neg, not_false_eq_true]
        fun_prop
    have hj : HasLaw (fun ω => (arState c e q x0 (fun j => W j ω) k, W k ω)) _ P :=
      hind.hasLaw_prod ih ⟨(hm k).aemeasurable, hl k⟩
    have hmeas : Measurable fun (p : (Fin n → ℝ) × (Fin n → ℝ)) (i : Fin n) => c i * p.1 i + e i + q * p.2 i := by
      fun_prop
    have := hj.map_eq
    refine ⟨(arState_measurable _ _ _ _ _ (fun j => hm j) (k + 1)).aemeasurable, ?_⟩
    have e1 : (fun ω => arState c e q x0 (fun j => W j ω) (k + 1)) =
        (fun (p : (Fin n → ℝ) × (Fin n → ℝ)) (i : Fin n) => c i * p.1 i + e i + q * p.2 i) ∘
          fun ω => (arState c e q x0 (fun j => W j ω) k, W k ω) := rfl
    rw [e1, ← AEMeasurable.map_map_of_aemeasurable hmeas.aemeasurable hj.aemeasurable, hj.map_eq]
    rw [pi_prod_map (fun i p => c i * p.1 + e i + q * p.2) (fun i => by fun_prop)]
    simp only [gaussian_affine, arMean, arVar]

theorem arMean_eq (a d x0 : ℝ) (k : ℕ) : arMean (1 - a) (a * d) x0 k = d + (1 - a) ^ k * (x0 - d) := by
  induction k with
  | zero => simp [arMean]
  | succ k ih => rw [arMean, ih, pow_succ]; ring

theorem arVar_eq (c q : ℝ) (hc : c ^ 2 ≠ 1) (k : ℕ) : (arVar c q k : ℝ) = q ^ 2 / (1 - c ^ 2) * (1 - (c ^ 2) ^ k) := by
  have h : 1 - c ^ 2 ≠ 0 := fun h => hc (by linarith)
  induction k with
  | zero => simp [arVar]
  | succ k ih =>
    rw [arVar, NNReal.coe_add, NNReal.coe_mul, ih]
    simp only [NNReal.coe_mk, pow_succ (c ^ 2) k]
    field_simp
    ring

end Pxmcmc
