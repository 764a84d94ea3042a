import Verif.Props.Myula
import Mathlib.Probability.Distributions.Gaussian.Real
import Mathlib.MeasureTheory.Constructions.Pi

/-! # Property C46: the law of a MYULA step -/

namespace Pxmcmc
open MeasureTheory ProbabilityTheory
variable {n p : ℕ}

/-- Scaling and shifting independent standard normals. -/
theorem pi_gaussian_affine (m : Fin p → ℝ) (delta : ℝ) (hd : 0 ≤ delta) :
    (Measure.pi fun _ : Fin p => gaussianReal 0 1).map (fun w i => m i + √(2 * delta) * w i) =
      Measure.pi fun i => gaussianReal (m i) (2 * delta).toNNReal := by
  have hone : ∀ i, (gaussianReal 0 1).map (fun x => m i + √(2 * delta) * x) =
      gaussianReal (m i) (2 * delta).toNNReal := by
    intro i
    have h1 : (fun x : ℝ => m i + √(2 * delta) * x) = (fun y => m i + y) ∘ fun x => √(2 * delta) * x := rfl
    rw [h1, ← Measure.map_map (by fun_prop) (by fun_prop), gaussianReal_map_const_mul, gaussianReal_map_const_add]
    congr 1
    · ring
    · rw [mul_one]
      ext
      rw [Real.coe_toNNReal _ (by positivity)]
      exact Real.sq_sqrt (by positivity)
  have : ∀ i, SigmaFinite ((gaussianReal 0 1).map (fun x => m i + √(2 * delta) * x)) := by
    intro i; rw [hone i]; infer_instance
  rw [Measure.pi_map_pi (μ := fun _ : Fin p => gaussianReal 0 1) (f := fun i x => m i + √(2 * delta) * x)
    (fun i => by fun_prop)]
  simp only [hone]

/-- C46, real sampler: if the `p` numbers drawn by `np.random.randn` are independent standard normals, the new sample has
independent Gaussian coordinates with mean `X_i + delta*∇logπ(X)_i` and variance `2*delta` (its imaginary part, zero for
real data, is not random). -/
theorem C46_law_real (M : Sampler n) (R : Rng) {fwd : (Fin p → ℂ) → (Fin n → ℂ)} {grad : (Fin n → ℂ) → (Fin p → ℂ)}
    {prox : (Fin p → ℂ) → (Fin p → ℂ)} {pri : (Fin p → ℂ) → ℝ} (tot : Total M p fwd grad prox pri)
    {G : (Fin p → ℂ) → (Fin p → ℂ)} (hG : ActsAs (fun X => gradlogpi M.F M.P M.par.lmda X none) G)
    (hc : M.par.complex = false) (hd : 0 ≤ M.par.delta) {Ω : Type} [MeasurableSpace Ω] (P : Measure Ω) (r : Ω → R.σ)
    (hlaw : HasLaw (fun ω => (R.randn (r ω) p).1) (Measure.pi fun _ => gaussianReal 0 1) P) (x : Fin p → ℂ) :
    ∃ y : Ω → Fin p → ℂ,
      (∀ ω, ∃ r', myulaStep M R ⟨List.ofFn x, List.ofFn (fwd x), r ω⟩ =
        .ok ⟨List.ofFn (y ω), List.ofFn (fwd (y ω)), r'⟩) ∧
      HasLaw (fun ω i => (y ω i).re)
        (Measure.pi fun i => gaussianReal (x i + (M.par.delta : ℂ) * G x i).re (2 * M.par.delta).toNNReal) P ∧
      ∀ ω i, (y ω i).im = (x i + (M.par.delta : ℂ) * G x i).im := by
  have hGe : gradVec M.par.lmda fwd grad prox x = G x := by
    have h1 := gradlogpi_vec M tot x
    have h2 := hG x
    simp only at h2
    rw [h1] at h2
    exact List.ofFn_injective (Except.ok.inj h2)
  have hre : ∀ ω i, (ulaStep M.par.delta (gradVec M.par.lmda fwd grad prox) x
      (drawVec R R.randn M.par.complex (r ω) p).1 i).re =
      (x i + (M.par.delta : ℂ) * G x i).re + √(2 * M.par.delta) * (R.randn (r ω) p).1 i := by
    intro ω i
    simp [ulaStep, hGe, drawVec, hc]
  refine ⟨fun ω => ulaStep M.par.delta (gradVec M.par.lmda fwd grad prox) x
    (drawVec R R.randn M.par.complex (r ω) p).1, fun ω => ⟨_, myulaStep_vec M R tot x (r ω)⟩, ?_, ?_⟩
  · have hm : Measurable fun (w : Fin p → ℝ) i => (x i + (M.par.delta : ℂ) * G x i).re + √(2 * M.par.delta) * w i := by
      fun_prop
    refine ⟨?_, ?_⟩
    · simp only [hre]
      exact hm.comp_aemeasurable hlaw.aemeasurable
    · simp only [hre]
      rw [← pi_gaussian_affine _ _ hd, ← hlaw.map_eq, AEMeasurable.map_map_of_aemeasurable hm.aemeasurable hlaw.aemeasurable]
      rfl
  · intro ω i
    simp [ulaStep, hGe, drawVec, hc]

/-- C46, complex sampler: the two vectors drawn give independent real and imaginary parts, each Gaussian with the parts of
the same mean and variance `2*delta`. -/
theorem C46_law_complex (M : Sampler n) (R : Rng) {fwd : (Fin p → ℂ) → (Fin n → ℂ)} {grad : (Fin n → ℂ) → (Fin p → ℂ)}
    {prox : (Fin p → ℂ) → (Fin p → ℂ)} {pri : (Fin p → ℂ) → ℝ} (tot : Total M p fwd grad prox pri)
    {G : (Fin p → ℂ) → (Fin p → ℂ)} (hG : ActsAs (fun X => gradlogpi M.F M.P M.par.lmda X none) G)
    (hc : M.par.complex = true) (hd : 0 ≤ M.par.delta) {Ω : Type} [MeasurableSpace Ω] (P : Measure Ω) (r : Ω → R.σ)
    (hlaw : HasLaw (fun ω => ((R.randn (r ω) p).1, (R.randn (R.randn (r ω) p).2 p).1))
      ((Measure.pi fun _ => gaussianReal 0 1).prod (Measure.pi fun _ => gaussianReal 0 1)) P) (x : Fin p → ℂ) :
    ∃ y : Ω → Fin p → ℂ,
      (∀ ω, ∃ r', myulaStep M R ⟨List.ofFn x, List.ofFn (fwd x), r ω⟩ =
        .ok ⟨List.ofFn (y ω), List.ofFn (fwd (y ω)), r'⟩) ∧
      HasLaw (fun ω => ((fun i => (y ω i).re), fun i => (y ω i).im))
        ((Measure.pi fun i => gaussianReal (x i + (M.par.delta : ℂ) * G x i).re (2 * M.par.delta).toNNReal).prod
          (Measure.pi fun i => gaussianReal (x i + (M.par.delta : ℂ) * G x i).im (2 * M.par.delta).toNNReal)) P := by
  have hGe : gradVec M.par.lmda fwd grad prox x = G x := by
    have h1 := gradlogpi_vec M tot x
    have h2 := hG x
    simp only at h2
    rw [h1] at h2
    exact List.ofFn_injective (Except.ok.inj h2)
  have hre : ∀ ω i, (ulaStep M.par.delta (gradVec M.par.lmda fwd grad prox) x
      (drawVec R R.randn M.par.complex (r ω) p).1 i).re =
      (x i + (M.par.delta : ℂ) * G x i).re + √(2 * M.par.delta) * (R.randn (r ω) p).1 i := by
    intro ω i
    simp [ulaStep, hGe, drawVec, hc]
  have him : ∀ ω i, (ulaStep M.par.delta (gradVec M.par.lmda fwd grad prox) x
      (drawVec R R.randn M.par.complex (r ω) p).1 i).im =
      (x i + (M.par.delta : ℂ) * G x i).im + √(2 * M.par.delta) * (R.randn (R.randn (r ω) p).2 p).1 i := by
    intro ω i
    simp [ulaStep, hGe, drawVec, hc]
  refine ⟨fun ω => ulaStep M.par.delta (gradVec M.par.lmda fwd grad prox) x
    (drawVec R R.randn M.par.complex (r ω) p).1, fun ω => ⟨_, myulaStep_vec M R tot x (r ω)⟩, ?_⟩
  have h1 : Measurable fun (w : Fin p → ℝ) i => (x i + (M.par.delta : ℂ) * G x i).re + √(2 * M.par.delta) * w i := by
    fun_prop
  have h2 : Measurable fun (w : Fin p → ℝ) i => (x i + (M.par.delta : ℂ) * G x i).im + √(2 * M.par.delta) * w i := by
    fun_prop
  have hm := h1.prodMap h2
  refine ⟨?_, ?_⟩
  · simp only [hre, him]
    exact hm.comp_aemeasurable hlaw.aemeasurable
  · simp only [hre, him]
    rw [← pi_gaussian_affine _ _ hd, ← pi_gaussian_affine _ _ hd, Measure.map_prod_map _ _ h1 h2, ← hlaw.map_eq,
      AEMeasurable.map_map_of_aemeasurable hm.aemeasurable hlaw.aemeasurable]
    rfl

/-- The hypothesis on the generator is satisfiable: a generator whose state is the vector it returns. -/
example : ∃ (R : Rng) (r : (Fin 1 → ℝ) → R.σ),
    HasLaw (fun ω => (R.randn (r ω) 1).1) (Measure.pi fun _ => gaussianReal 0 1)
      (Measure.pi fun _ : Fin 1 => gaussianReal 0 1) ∧
    Total (demo (⟨1, 1 / 2, 1, 1, 1, 0, 0, false, 0, ["chain"]⟩)) 1 (fun x => x) (fun y => y) (fun x => x) (fun _ => 0) := by
  refine ⟨⟨Fin 1 → ℝ, fun w _ => (fun _ => w 0, w), fun w _ => (fun _ => w 0, w), fun w => (0, w)⟩, fun w => w,
    ⟨?_, ?_⟩, demo_total _ one_ne_zero⟩
  all_goals
    have : (fun w : Fin 1 → ℝ => (fun _ => w 0 : Fin 1 → ℝ)) = id := by
      funext w i
      rw [Subsingleton.elim i 0]
      rfl
  · simp only [this]
    exact aemeasurable_id
  · simp only [this, Measure.map_id]

end Pxmcmc
