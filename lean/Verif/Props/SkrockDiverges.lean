import Verif.Lemmas.SkrockExpand
import Verif.Lemmas.Expanding
import Verif.Props.Ergodic
import Verif.Props.Averages

/-! # Properties C20, C113 for every number of stages, and C121: the law of the SKROCK samples -/

namespace Pxmcmc
open MeasureTheory ProbabilityTheory Filter
open scoped ENNReal Topology
variable {n p : ℕ}

/-- A convex model: `proxf` is the proximal map of a convex function, the gradient of the data term is affine with Hermitian linear
part `Q`, `0 ≤ Q ≤ Lf`. -/
structure ConvexModel (M : Sampler n) (fwd : (Fin p → ℂ) → (Fin n → ℂ)) (grad : (Fin n → ℂ) → (Fin p → ℂ))
    (prox : (Fin p → ℂ) → (Fin p → ℂ)) (g : (Fin p → ℂ) → ℝ) (Q : Matrix (Fin p) (Fin p) ℂ) (Lf : ℝ) : Prop where
  convex : ConvexOn ℝ Set.univ g
  prox : ∀ x, Spec.IsProx g x (prox x)
  herm : Q.IsHermitian
  lower : ∀ v, 0 ≤ (Spec.inner v (Q.mulVec v)).re
  upper : ∀ v, (Spec.inner v (Q.mulVec v)).re ≤ Lf * Spec.distSq v 0
  affine : ∀ x y, grad (fwd x) - grad (fwd y) = Q.mulVec (x - y)
  nonneg : 0 ≤ Lf
  lmda : 0 < M.par.lmda

variable {M : Sampler n} {fwd : (Fin p → ℂ) → (Fin n → ℂ)} {grad : (Fin n → ℂ) → (Fin p → ℂ)}
  {prox : (Fin p → ℂ) → (Fin p → ℂ)} {pri g : (Fin p → ℂ) → ℝ} {Q : Matrix (Fin p) (Fin p) ℂ} {c Lf : ℝ}

theorem ConvexModel.lipschitz (h : ConvexModel M fwd grad prox g Q Lf) (x y : Fin p → ℂ) :
    enorm2 (gradVec M.par.lmda fwd grad prox x - gradVec M.par.lmda fwd grad prox y) ≤
      (1 / M.par.lmda + Lf) * enorm2 (x - y) :=
  gradVec_lipschitz g h.convex h.prox Q h.herm Lf h.nonneg h.lower h.upper h.affine M.par.lmda h.lmda x y

/-! ## C20 and C113 -/

/-- C20 is violated for every number of stages above one: with zero gradient and zero noise, no two different states are both mapped
to where the published recursion maps them. -/
theorem C20_every_count_refuted (s : ℕ) (hs : 2 ≤ s) (co : SkrockCoefs) (hco : skrockInit s = .ok co) (delta : ℝ) (hd : 0 ≤ delta)
    (X X' : Fin p → ℂ) (hne : X ≠ X') :
    ¬ ∀ Y ∈ [X, X'], skrockStep co s delta (fun x => .ok ((fun _ _ => 0 : (Fin p → ℂ) → (Fin p → ℂ)) x)) Y (fun _ => 0) =
      .ok (Spec.skStage (1 / 20) s delta (fun _ _ => 0) Y (fun _ => 0) s) := by
  intro H
  have h1 := H X (by simp)
  have h2 := H X' (by simp)
  rw [skStage_fixed _ (by norm_num), skrockStep_eq_kVec] at h1 h2
  have h3 := skrock_expands s co hco delta hd (fun _ _ => (0 : ℂ)) 0 (fun x y => by simp [enorm2]) hs
    (by rw [mul_zero]; exact le_max_of_le_left zero_le_one) X X' (fun _ => 0)
  rw [Except.ok.inj h1, Except.ok.inj h2] at h3
  have h4 : enorm2 (X - X') = 0 := le_antisymm (by linarith [enorm2_nonneg (X - X')]) (enorm2_nonneg _)
  refine hne (sub_eq_zero.mp ?_)
  unfold enorm2 at h4
  have h5 := norm_eq_zero.mp h4
  have := congrArg (WithLp.ofLp) h5
  simpa using this

example : (fun _ => 0 : Fin 1 → ℂ) ≠ (fun _ => 1) ∧ ∃ co, skrockInit ((7 : ℕ) : ℤ) = .ok co :=
  ⟨fun h => zero_ne_one (congrFun h 0), _, skrockInit_eq 6⟩

/-- C113 (refuted for every number of stages above one). The distance of two chains of a convex model fed by the same random stream
grows at least by the factor `3/2` in every step. -/
theorem C113_every_count_refuted (R : Rng) (tot : Total M p fwd grad prox pri) (h : ConvexModel M fwd grad prox g Q Lf)
    (hd : 0 ≤ M.par.delta) (hs : 2 ≤ M.par.s)
    (hstep : M.par.delta * (1 / M.par.lmda + Lf) ≤ max 1 ((M.par.s : ℝ) ^ 2 / 9)) (co : SkrockCoefs)
    (hco : skrockInit M.par.s = .ok co) (x0 y0 : Fin p → ℂ) (r : R.σ) (m : ℕ) (T T' : ℕ → Cur R)
    (hT0 : T 0 = ⟨List.ofFn x0, List.ofFn (fwd x0), r⟩) (hT0' : T' 0 = ⟨List.ofFn y0, List.ofFn (fwd y0), r⟩)
    (hT : ∀ k < m, skrockTransition M R co (T k) = .ok (T (k + 1)))
    (hT' : ∀ k < m, skrockTransition M R co (T' k) = .ok (T' (k + 1))) :
    ∃ x y : ℕ → Fin p → ℂ, x 0 = x0 ∧ y 0 = y0 ∧
      (∀ k ≤ m, (T k).X = List.ofFn (x k) ∧ (T' k).X = List.ofFn (y k) ∧ (T k).rng = (T' k).rng) ∧
      ∀ k ≤ m, (9 / 4) ^ k * Spec.distSq x0 y0 ≤ Spec.distSq (x k) (y k) := by
  obtain ⟨x, hx0, hx, hxs⟩ := skrock_chain M R co tot x0 r m T hT0 hT
  obtain ⟨y, hy0, hy, hys⟩ := skrock_chain M R co tot y0 r m T' hT0' hT'
  refine ⟨x, y, hx0, hy0, fun k hk => ?_, fun k hk => ?_⟩
  · rw [hx k hk, hy k hk]
    exact ⟨rfl, rfl, rfl⟩
  · induction k with
    | zero => rw [hx0, hy0]; simp
    | succ k ih =>
      have e1 := hxs k (by omega)
      have e2 := hys k (by omega)
      rw [skrockStep_eq_kVec] at e1 e2
      have h1 := skrock_expands M.par.s co hco M.par.delta hd _ _ h.lipschitz hs hstep (x k) (y k)
        (noiseSeq R M.par.complex p r k)
      rw [Except.ok.inj e1, Except.ok.inj e2] at h1
      have h3 := ih (by omega)
      have h4 := enorm2_nonneg (x k - y k)
      simp only [← enorm2_sub_sq] at h3 ⊢
      calc _ = 9 / 4 * ((9 / 4) ^ k * enorm2 (x0 - y0) ^ 2) := by ring
        _ ≤ 9 / 4 * enorm2 (x k - y k) ^ 2 := by linarith
        _ = (3 / 2 * enorm2 (x k - y k)) ^ 2 := by ring
        _ ≤ _ := pow_le_pow_left₀ (by linarith) h1 2

/-! ## C121 -/

/-- `π` is stationary for SKROCK: a random state of law `π` and an independent noise vector of law `ν` give a next state of law `π`. -/
def SkrockStationary (M : Sampler n) (R : Rng) (co : SkrockCoefs) (ν π : Measure (Fin p → ℂ)) : Prop :=
  ∀ (Ω : Type) (_ : MeasurableSpace Ω) (P : Measure Ω) (x y : Ω → Fin p → ℂ) (r : Ω → R.σ), IsProbabilityMeasure P →
    Measurable x → Measurable (fun ω => (drawVec R R.randn M.par.complex (r ω) p).1) →
    IndepFun x (fun ω => (drawVec R R.randn M.par.complex (r ω) p).1) P → P.map x = π →
    P.map (fun ω => (drawVec R R.randn M.par.complex (r ω) p).1) = ν →
    (∀ ω, ∃ preds next, M.F.forward (List.ofFn (x ω)) = .ok preds ∧
      skrockTransition M R co ⟨List.ofFn (x ω), preds, r ω⟩ = .ok next ∧ next.X = List.ofFn (y ω)) →
    P.map y = π

theorem skrockTransition_kVec (R : Rng) (co : SkrockCoefs) (tot : Total M p fwd grad prox pri) (x : Fin p → ℂ) (l : List ℂ) (r : R.σ) :
    skrockTransition M R co ⟨List.ofFn x, l, r⟩ =
      .ok ⟨List.ofFn (kVec co M.par.delta (gradVec M.par.lmda fwd grad prox) x (drawVec R R.randn M.par.complex r p).1 M.par.s),
        List.ofFn (fwd (kVec co M.par.delta (gradVec M.par.lmda fwd grad prox) x (drawVec R R.randn M.par.complex r p).1 M.par.s)),
        (drawVec R R.randn M.par.complex r p).2⟩ := by
  obtain ⟨y, hy, h2⟩ := skrockTransition_vec M R co tot x l r
  rw [skrockStep_eq_kVec] at hy
  rw [h2, Except.ok.inj hy]

/-- Stationarity in terms of the law of the next state. -/
theorem skrock_stationary_iff (R : Rng) (co : SkrockCoefs) (tot : Total M p fwd grad prox pri)
    {Ω : Type} [MeasurableSpace Ω] (P : Measure Ω) [IsProbabilityMeasure P] (r : Ω → R.σ) (ν : Measure (Fin p → ℂ))
    [IsProbabilityMeasure ν] (hs : NoiseStream R M.par.complex p P r ν)
    (hf : Measurable (Function.uncurry fun x z => kVec co M.par.delta (gradVec M.par.lmda fwd grad prox) x z M.par.s))
    (π : Measure (Fin p → ℂ)) [IsProbabilityMeasure π] :
    SkrockStationary M R co ν π ↔
      stepLaw (fun x z => kVec co M.par.delta (gradVec M.par.lmda fwd grad prox) x z M.par.s) ν π = π := by
  set f := fun x z : Fin p → ℂ => kVec co M.par.delta (gradVec M.par.lmda fwd grad prox) x z M.par.s with hfd
  have hm0 : Measurable fun ω => (drawVec R R.randn M.par.complex (r ω) p).1 := hs.meas 0
  constructor
  · intro hst
    have hn : Measurable fun q : (Fin p → ℂ) × Ω => (drawVec R R.randn M.par.complex (r q.2) p).1 := (hs.meas 0).comp measurable_snd
    have hlaw : (P.map fun ω => (drawVec R R.randn M.par.complex (r ω) p).1) = ν := hs.law 0
    have h2 := hst ((Fin p → ℂ) × Ω) inferInstance (π.prod P) Prod.fst
      (fun q => f q.1 (drawVec R R.randn M.par.complex (r q.2) p).1)
      (fun q => r q.2) inferInstance measurable_fst hn
      (indepFun_prod measurable_id (hs.meas 0)) (by rw [Measure.map_fst_prod]; simp) ?_ ?_
    · have e : (fun q : (Fin p → ℂ) × Ω => f q.1 (drawVec R R.randn M.par.complex (r q.2) p).1) =
          Function.uncurry f ∘ Prod.map id fun ω => (drawVec R R.randn M.par.complex (r ω) p).1 := rfl
      rw [e, ← Measure.map_map hf (measurable_id.prodMap hm0), ← Measure.map_prod_map _ _ measurable_id hm0, hlaw,
        Measure.map_id] at h2
      exact h2
    · rw [show (fun q : (Fin p → ℂ) × Ω => (drawVec R R.randn M.par.complex (r q.2) p).1) =
        (fun ω => (drawVec R R.randn M.par.complex (r ω) p).1) ∘ Prod.snd from rfl,
        ← Measure.map_map hm0 measurable_snd, Measure.map_snd_prod]
      simpa using hlaw
    · intro q
      exact ⟨_, _, tot.forward q.1, skrockTransition_kVec R co tot q.1 _ (r q.2), rfl⟩
  · intro hfix Ω' _ P' x y r' _ hx hn hind hxl hnl hstep
    have hy : y = fun ω => f (x ω) (drawVec R R.randn M.par.complex (r' ω) p).1 := by
      funext ω
      obtain ⟨preds, next, h1, h2, h3⟩ := hstep ω
      rw [skrockTransition_kVec R co tot] at h2
      obtain rfl := Except.ok.inj h2
      exact (List.ofFn_injective h3).symm
    have hj := (indepFun_iff_map_prod_eq_prod_map_map hx.aemeasurable hn.aemeasurable).mp hind
    rw [hxl, hnl] at hj
    have e : y = Function.uncurry f ∘ fun ω => (x ω, (drawVec R R.randn M.par.complex (r' ω) p).1) := hy
    rw [e, ← Measure.map_map hf (hx.prodMk hn), hj]
    exact hfix

theorem enorm2_eq_sqrt (u v : Fin p → ℂ) : enorm2 (u - v) = √(Spec.distSq u v) := by
  rw [← enorm2_sub_sq, Real.sqrt_sq (enorm2_nonneg _)]

theorem enorm2_le_dist (u v : Fin p → ℂ) : enorm2 (u - v) ≤ √p * dist u v := by
  have h3 := sqrt_distSq_add v u 0 0
  simp only [norm_zero, mul_zero, add_zero, zero_mul] at h3
  rw [enorm2_eq_sqrt, dist_eq_norm]
  exact h3

theorem ConvexModel.continuous (h : ConvexModel M fwd grad prox g Q Lf) : Continuous (gradVec M.par.lmda fwd grad prox) := by
  have hL : 0 ≤ (1 / M.par.lmda + Lf) * √p := by have := h.lmda; have := h.nonneg; positivity
  refine (LipschitzWith.of_dist_le_mul (K := NNReal.mk _ hL) fun x y => ?_).continuous
  calc _ ≤ √(Spec.distSq (gradVec M.par.lmda fwd grad prox x) (gradVec M.par.lmda fwd grad prox y)) := sqrt_distSq_le _ _
    _ = _ := (enorm2_eq_sqrt _ _).symm
    _ ≤ _ := h.lipschitz x y
    _ ≤ (1 / M.par.lmda + Lf) * (√p * dist x y) :=
      mul_le_mul_of_nonneg_left (enorm2_le_dist x y) (by have := h.lmda; have := h.nonneg; positivity)
    _ = _ := by rw [← mul_assoc]; rfl

theorem kVec_continuous (co : SkrockCoefs) (delta : ℝ) (G : (Fin p → ℂ) → (Fin p → ℂ)) (hG : Continuous G) (s : ℕ) :
    Continuous (Function.uncurry fun x z => kVec co delta G x z s) := by
  induction s using Nat.strong_induction_on with
  | _ s ih =>
    match s with
    | 0 => exact continuous_fst
    | 1 =>
      unfold Function.uncurry
      refine continuous_pi fun i => ?_
      have h1 : Continuous fun q : (Fin p → ℂ) × (Fin p → ℂ) =>
          G (fun i => q.1 i + ((co.nus.getD 1 0 * √(2 * delta) : ℝ) : ℂ) * q.2 i) i :=
        (continuous_apply i).comp (hG.comp (by fun_prop))
      simp only [kVec]
      fun_prop
    | s + 2 =>
      have a := ih (s + 1) (by omega)
      have b := ih s (by omega)
      unfold Function.uncurry at a b ⊢
      refine continuous_pi fun i => ?_
      have h1 : Continuous fun q : (Fin p → ℂ) × (Fin p → ℂ) => G (kVec co delta G q.1 q.2 (s + 1)) i :=
        (continuous_apply i).comp (hG.comp a)
      have a' := (continuous_apply i).comp a
      have b' := (continuous_apply i).comp b
      simp only [Function.comp_def] at a' b'
      simp only [kVec]
      exact (((continuous_const.mul h1).add (continuous_const.mul a')).add continuous_const).sub b'

/-- The random map of a SKROCK step is expanding. -/
theorem skrock_expansion (h : ConvexModel M fwd grad prox g Q Lf) (hd : 0 < M.par.delta) (hs : 2 ≤ M.par.s)
    (hstep : M.par.delta * (1 / M.par.lmda + Lf) ≤ max 1 ((M.par.s : ℝ) ^ 2 / 9)) (co : SkrockCoefs)
    (hco : skrockInit M.par.s = .ok co) (hp : 0 < p) : ∃ a > 0, ∀ (ν : Measure (Fin p → ℂ)) (C : ℝ), Spread ν C →
    RandomExpansion ν (fun x z => kVec co M.par.delta (gradVec M.par.lmda fwd grad prox) x z M.par.s)
      (fun x y => enorm2 (x - y)) (3 / 2) a √p C := by
  obtain ⟨a, ha, hn⟩ := skrock_noise_expands M.par.s co hco M.par.delta hd.le _ _ h.lipschitz hs hstep hd
  refine ⟨a, ha, fun ν C hC => ⟨(kVec_continuous co _ _ h.continuous _).measurable, by norm_num, fun x y w => ?_, ha,
    fun x w w' => ?_, Real.sqrt_pos.mpr (by exact_mod_cast hp), enorm2_le_dist, hC⟩⟩
  · exact skrock_expands M.par.s co hco M.par.delta hd.le _ _ h.lipschitz hs hstep x y w
  · refine (mul_le_mul_of_nonneg_left ?_ ha.le).trans (hn x w w')
    rw [enorm2_eq_sqrt]
    exact sqrt_distSq_le w w'

section
variable (R : Rng) (tot : Total M p fwd grad prox pri) (h : ConvexModel M fwd grad prox g Q Lf) (hd : 0 < M.par.delta)
  (hs : 2 ≤ M.par.s) (hstep : M.par.delta * (1 / M.par.lmda + Lf) ≤ max 1 ((M.par.s : ℝ) ^ 2 / 9)) (co : SkrockCoefs)
  (hco : skrockInit M.par.s = .ok co) (hp : 0 < p) {Ω : Type} [MeasurableSpace Ω] (P : Measure Ω) [IsProbabilityMeasure P]
  (r : Ω → R.σ) (ν : Measure (Fin p → ℂ)) (hn : NoiseStream R M.par.complex p P r ν) (C : ℝ) (hC : 0 ≤ C) (hsp : Spread ν C)
include tot h hd hs hstep hco hp hn hsp

omit h hd hs hstep hco hp hn hsp [MeasurableSpace Ω] in
theorem skrock_states (x : ℕ → Ω → Fin p → ℂ) (hx0 : ∀ ω ω', x 0 ω = x 0 ω')
    (hx : ∀ k ω, skrockTransition M R co ⟨List.ofFn (x k ω), List.ofFn (fwd (x k ω)), rngSeq R M.par.complex p (r ω) k⟩ =
      .ok ⟨List.ofFn (x (k + 1) ω), List.ofFn (fwd (x (k + 1) ω)), rngSeq R M.par.complex p (r ω) (k + 1)⟩) (ω0 : Ω) (k : ℕ) (ω : Ω) :
    x k ω = fwState (fun x z => kVec co M.par.delta (gradVec M.par.lmda fwd grad prox) x z M.par.s) (x 0 ω0)
      (fun j => noiseSeq R M.par.complex p (r ω) j) k := by
  induction k with
  | zero => exact hx0 ω ω0
  | succ k ih =>
    have h2 := hx k ω
    rw [skrockTransition_kVec R co tot] at h2
    have h3 := List.ofFn_injective (Cur.mk.inj (Except.ok.inj h2)).1
    rw [← h3, ih]
    rfl

include hC in
/-- C121 (refuted). With two or more stages the samples of a convex model grow without bound: almost surely the largest entry of the
`k`-th state exceeds `(4/3)^k` from some step on, whatever the start. -/
theorem C121_diverges_refuted (x : ℕ → Ω → Fin p → ℂ) (hx0 : ∀ ω ω', x 0 ω = x 0 ω')
    (hx : ∀ k ω, skrockTransition M R co ⟨List.ofFn (x k ω), List.ofFn (fwd (x k ω)), rngSeq R M.par.complex p (r ω) k⟩ =
      .ok ⟨List.ofFn (x (k + 1) ω), List.ofFn (fwd (x (k + 1) ω)), rngSeq R M.par.complex p (r ω) (k + 1)⟩) :
    ∀ᵐ ω ∂P, ∀ᶠ k in atTop, (4 / 3) ^ k < ‖x k ω‖ := by
  obtain ⟨ω0⟩ : Nonempty Ω := nonempty_of_isProbabilityMeasure P
  have hν : IsProbabilityMeasure ν := by
    rw [← hn.law 0]
    exact Measure.isProbabilityMeasure_map (hn.meas 0).aemeasurable
  obtain ⟨a, ha, hex⟩ := skrock_expansion h hd hs hstep co hco hp
  have hex := hex ν C hsp
  filter_upwards [hex.diverges P _ hn.meas hn.indep hn.law (x 0 ω0) (4 / 3) (by norm_num) (by norm_num) hC] with ω hω
  filter_upwards [hω] with k hk
  rwa [skrock_states R tot co r x hx0 hx ω0 k ω]

/-- C121 (refuted). The probability that a sample is in a given bounded region decreases at least like `(2/3)^k`, uniformly in the
start. -/
theorem C121_escape_refuted : ∃ A : ℝ, ∀ x : ℕ → Ω → Fin p → ℂ, (∀ ω ω', x 0 ω = x 0 ω') →
    (∀ k ω, skrockTransition M R co ⟨List.ofFn (x k ω), List.ofFn (fwd (x k ω)), rngSeq R M.par.complex p (r ω) k⟩ =
      .ok ⟨List.ofFn (x (k + 1) ω), List.ofFn (fwd (x (k + 1) ω)), rngSeq R M.par.complex p (r ω) (k + 1)⟩) →
    ∀ (k : ℕ) (b : ℝ), 0 ≤ b → P {ω | ∀ i, ‖x (k + 1) ω i‖ ≤ b} ≤ ENNReal.ofReal (A * b * (2 / 3) ^ k) := by
  have hν : IsProbabilityMeasure ν := by
    rw [← hn.law 0]
    exact Measure.isProbabilityMeasure_map (hn.meas 0).aemeasurable
  obtain ⟨ω0⟩ : Nonempty Ω := nonempty_of_isProbabilityMeasure P
  obtain ⟨a, ha, hex⟩ := skrock_expansion h hd hs hstep co hco hp
  have hex := hex ν C hsp
  refine ⟨C * (2 * √p / a), fun x hx0 hx k b hb => ?_⟩
  have h1 := hex.escape' P _ hn.meas hn.indep hn.law (x 0 ω0) k b hb
  have e : {ω | ∀ i, ‖x (k + 1) ω i‖ ≤ b} = {ω | ‖fwState (fun x z => kVec co M.par.delta (gradVec M.par.lmda fwd grad prox) x z
      M.par.s) (x 0 ω0) (fun j => noiseSeq R M.par.complex p (r ω) j) (k + 1)‖ ≤ b} := by
    ext ω
    simp only [Set.mem_ofPred_eq]
    rw [← skrock_states R tot co r x hx0 hx ω0 (k + 1) ω, pi_norm_le_iff_of_nonneg hb]
  rw [e]
  refine h1.trans (ENNReal.ofReal_le_ofReal (le_of_eq ?_))
  rw [div_pow, div_pow]
  field_simp

omit h hd hs hstep hp hn hsp [MeasurableSpace Ω] in
/-- The rows of the `chain` array of a returned SKROCK run started from an array. -/
theorem skrock_chain_rows (A : Arrays) (hA : A.Shaped M.par.nsamples) (b gap : ℕ)
    (hb : M.par.nburn = b) (hg : M.par.ngap = gap) (q : R.σ) (x0 : Fin p → ℂ) (fuel : ℕ) (st : St R)
    (hrun : skrockRun M R A q (.array1 (List.ofFn x0)) fuel = .ok (some st)) (rows : Fin M.par.nsamples → Fin p → ℂ)
    (hrows : (A.applyAll st.ev).chain = some (List.ofFn fun k : Fin M.par.nsamples => List.ofFn (rows k))) (k : Fin M.par.nsamples) :
    rows k = fun i => store M.par.complex (fwState (fun x z => kVec co M.par.delta (gradVec M.par.lmda fwd grad prox) x z M.par.s) x0
      (noiseSeq R M.par.complex p q) (b + k * max gap 1 + 1) i) := by
  obtain ⟨co', X0, P0, r0, T, rws, hco', hx, hT, -, hr, harr, -⟩ := skrockRun_result M R A hA b hb q _ fuel st hrun
  obtain rfl : co = co' := Except.ok.inj (hco.symm.trans hco')
  rw [start_array R tot] at hx
  obtain ⟨rfl, rfl, rfl⟩ : List.ofFn x0 = X0 ∧ List.ofFn (fwd x0) = P0 ∧ q = r0 := by simpa using Except.ok.inj hx
  set f := fun x z : Fin p → ℂ => kVec co M.par.delta (gradVec M.par.lmda fwd grad prox) x z M.par.s with hf
  have hT' : Hist (skrockTransition M R co) ⟨List.ofFn x0, List.ofFn (fwd x0), q⟩ (numIter M.par.nsamples b (spacing M.par))
      (fun j => ⟨List.ofFn (fwState f x0 (noiseSeq R M.par.complex p q) j),
        List.ofFn (fwd (fwState f x0 (noiseSeq R M.par.complex p q) j)),
        rngSeq R M.par.complex p q j⟩) := ⟨rfl, fun j _ => skrockTransition_kVec R co tot _ _ _⟩
  obtain ⟨hle, l, hl, he⟩ := hr k k.2
  have hu := hT.unique hT' _ hle
  rw [hu] at he hl
  rw [mkRow_eq_rowOf M tot _ l hl] at he
  have hra := (ofRows_rowIs A M.par.nsamples rws k k.2).chain
  rw [← harr] at hra
  have h2 := hra _ (by rw [hrows]; rfl)
  rw [he] at h2
  simp only [List.getElem?_ofFn, k.2, dif_pos, rowOf, Option.some.injEq, spacing_nat _ gap hg] at h2
  exact List.ofFn_injective h2

omit tot h hd hs hstep hco hp hn hsp [MeasurableSpace Ω] in
/-- The stages of a step stay real if the gradient does. -/
theorem kVec_real (G : (Fin p → ℂ) → (Fin p → ℂ)) (hG : ∀ x : Fin p → ℂ, (∀ i, (x i).im = 0) → ∀ i, (G x i).im = 0)
    (delta : ℝ) (X Z : Fin p → ℂ) (hX : ∀ i, (X i).im = 0) (hZ : ∀ i, (Z i).im = 0) (s : ℕ) (i : Fin p) :
    (kVec co delta G X Z s i).im = 0 := by
  induction s using Nat.strong_induction_on generalizing i with
  | _ s ih =>
    match s with
    | 0 => exact hX i
    | 1 =>
      have h1 := hG (fun i => X i + ((co.nus.getD 1 0 * √(2 * delta) : ℝ) : ℂ) * Z i)
        (fun i => by rw [Complex.add_im, Complex.im_ofReal_mul, hX, hZ]; simp) i
      simp only [kVec]
      rw [Complex.add_im, Complex.add_im, Complex.im_ofReal_mul, Complex.im_ofReal_mul, h1, hX, hZ]
      simp
    | s + 2 =>
      have h1 := hG _ (fun i => ih (s + 1) (by omega) i) i
      have h2 := ih (s + 1) (by omega) i
      have h3 := ih s (by omega) i
      simp only [kVec]
      rw [Complex.sub_im, Complex.add_im, Complex.add_im, Complex.im_ofReal_mul, Complex.im_ofReal_mul, h1, h2, h3, Complex.ofReal_im]
      simp

/-- C121 (refuted), the saved samples. Take SKROCK runs with two or more stages from a fixed start array; for a real sampler let the
start and the gradient at real points be real. The probability that all entries of row `k` of the `chain` array are of modulus at most
`bd` decreases at least like `(2/3)^(nburn + k * max ngap 1)`: burn-in and thinning make it worse. -/
theorem C121_saved_refuted (x0 : Fin p → ℂ) (hreal : M.par.complex = false → (∀ i, (x0 i).im = 0) ∧
      ∀ x : Fin p → ℂ, (∀ i, (x i).im = 0) → ∀ i, (gradVec M.par.lmda fwd grad prox x i).im = 0)
    (A : Arrays) (hA : A.Shaped M.par.nsamples) (b gap : ℕ)
    (hb : M.par.nburn = b) (hg : M.par.ngap = gap) (fuel : Ω → ℕ) (st : Ω → St R)
    (hrun : ∀ ω, skrockRun M R A (r ω) (.array1 (List.ofFn x0)) (fuel ω) = .ok (some (st ω)))
    (rows : Ω → Fin M.par.nsamples → Fin p → ℂ)
    (hrows : ∀ ω, (A.applyAll (st ω).ev).chain = some (List.ofFn fun k : Fin M.par.nsamples => List.ofFn (rows ω k))) :
    ∃ c : ℝ, ∀ (k : Fin M.par.nsamples) (bd : ℝ), 0 ≤ bd →
      P {ω | ∀ i, ‖rows ω k i‖ ≤ bd} ≤ ENNReal.ofReal (c * bd * (2 / 3) ^ (b + k * max gap 1)) := by
  have hν : IsProbabilityMeasure ν := by
    rw [← hn.law 0]
    exact Measure.isProbabilityMeasure_map (hn.meas 0).aemeasurable
  obtain ⟨a, ha, hex⟩ := skrock_expansion h hd hs hstep co hco hp
  have hex := hex ν C hsp
  refine ⟨C * (2 * √p / a), fun k bd hbd => ?_⟩
  have h1 := hex.escape' P _ hn.meas hn.indep hn.law x0 (b + k * max gap 1) bd hbd
  set f := fun x z : Fin p → ℂ => kVec co M.par.delta (gradVec M.par.lmda fwd grad prox) x z M.par.s with hf
  have hst : ∀ ω j i, store M.par.complex (fwState f x0 (noiseSeq R M.par.complex p (r ω)) j i) =
      fwState f x0 (noiseSeq R M.par.complex p (r ω)) j i := by
    intro ω j i
    cases hc : M.par.complex with
    | true => rfl
    | false =>
      obtain ⟨hx0, hG⟩ := hreal hc
      have him : ∀ j i, (fwState f x0 (noiseSeq R false p (r ω)) j i).im = 0 := by
        intro j
        induction j with
        | zero => exact hx0
        | succ j ih => exact fun i => kVec_real co _ hG _ _ _ ih (fun i => by simp [noiseSeq, drawVec]) _ i
      exact Complex.ext rfl (by simp [store, him j i])
  have e : {ω | ∀ i, ‖rows ω k i‖ ≤ bd} = {ω | ‖fwState f x0 (fun j => noiseSeq R M.par.complex p (r ω) j)
      (b + k * max gap 1 + 1)‖ ≤ bd} := by
    ext ω
    simp only [Set.mem_ofPred_eq]
    rw [pi_norm_le_iff_of_nonneg hbd]
    refine forall_congr' fun i => ?_
    rw [skrock_chain_rows R tot co hco A hA b gap hb hg (r ω) x0 (fuel ω) (st ω) (hrun ω) (rows ω) (hrows ω) k]
    simp only
    rw [hst]
  rw [e]
  refine h1.trans (ENNReal.ofReal_le_ofReal (le_of_eq ?_))
  rw [div_pow, div_pow]
  field_simp

/-- C121 (refuted). With two or more stages no probability law is stationary. -/
theorem C121_no_stationary_refuted (π : Measure (Fin p → ℂ)) [IsProbabilityMeasure π] : ¬ SkrockStationary M R co ν π := by
  have hν : IsProbabilityMeasure ν := by
    rw [← hn.law 0]
    exact Measure.isProbabilityMeasure_map (hn.meas 0).aemeasurable
  obtain ⟨a, ha, hex⟩ := skrock_expansion h hd hs hstep co hco hp
  have hex := hex ν C hsp
  rw [skrock_stationary_iff R co tot P r ν hn hex.meas]
  exact hex.no_stationary π

end

/-- C121, the hypothesis on the noise: the draws of a real sampler qualify if `np.random.randn` delivers independent standard
normals. -/
theorem C121_normal_noise (R : Rng) {Ω : Type} [MeasurableSpace Ω] (P : Measure Ω) (r : Ω → R.σ) (h : NormalStream R p P r)
    (hp : 0 < p) : ∃ ν, NoiseStream R false p P r ν ∧ Spread ν 1 := by
  refine ⟨_, C99_normal_noise R P r h, fun c ε hε => ?_⟩
  have hm : Measurable fun (x : Fin p → ℝ) (i : Fin p) => ((x i : ℝ) : ℂ) := by fun_prop
  rw [Measure.map_apply hm Metric.isClosed_closedBall.measurableSet]
  have hpr := measurePreserving_eval (fun _ : Fin p => gaussianReal 0 1) ⟨0, hp⟩
  refine le_trans ?_ (gaussian_ball (c ⟨0, hp⟩).re ε)
  rw [← hpr.measure_preimage Metric.isClosed_closedBall.measurableSet.nullMeasurableSet]
  refine measure_mono fun x hx => ?_
  have h1 : dist (fun i => ((x i : ℝ) : ℂ)) c ≤ ε := hx
  have h2 := (dist_pi_le_iff hε).mp h1 ⟨0, hp⟩
  have h3 : |(((x ⟨0, hp⟩ : ℝ) : ℂ) - c ⟨0, hp⟩).re| ≤ ε := (Complex.abs_re_le_norm _).trans (by rwa [← dist_eq_norm])
  simpa [Real.dist_eq] using h3

/-! ## One stage -/

/-- The random map of a SKROCK step with one stage is a contraction if the data term determines the parameters. -/
theorem skrock_contraction (h : Identifiable M fwd grad prox g Q c Lf) (hs : M.par.s = 1) (co : SkrockCoefs)
    (hco : skrockInit 1 = .ok co) (ν : Measure (Fin p → ℂ)) [IsProbabilityMeasure ν] (hν : ∫⁻ w, ‖w‖ₑ ∂ν ≠ ⊤) (x0 : Fin p → ℂ) :
    RandomContraction ν (fun x z => kVec co M.par.delta (gradVec M.par.lmda fwd grad prox) x z M.par.s)
      (fun x y => √(Spec.distSq x y)) (1 - M.par.delta * c) x0 := by
  have hu := myula_contraction h ν hν x0
  have hcont := kVec_continuous co M.par.delta _ (gradVec_continuous h) M.par.s
  obtain ⟨b, hb⟩ := skrock_one_stage (p := p) co hco M.par.delta (gradVec M.par.lmda fwd grad prox)
  have hk : ∀ x z, kVec co M.par.delta (gradVec M.par.lmda fwd grad prox) x z M.par.s = fun i =>
      ulaStep M.par.delta (gradVec M.par.lmda fwd grad prox) (fun i => x i + (b : ℂ) * z i) z i - (b : ℂ) * z i := by
    intro x z
    have := hb x z
    rw [skrockStep_eq_kVec] at this
    rw [hs]
    exact Except.ok.inj this
  have hdist : ∀ (x y u : Fin p → ℂ), Spec.distSq (fun i => x i - u i) (fun i => y i - u i) = Spec.distSq x y := by
    intro x y u
    simp [Spec.distSq]
  have hdist' : ∀ (x y u : Fin p → ℂ), Spec.distSq (fun i => x i + u i) (fun i => y i + u i) = Spec.distSq x y := by
    intro x y u
    simp [Spec.distSq]
  refine ⟨hcont.measurable, fun w => hcont.comp (Continuous.prodMk_left w), hu.nonneg, hu.lt_one, sqrt_distSq_le, fun x y w => ?_,
    ?_, ?_⟩
  · have h1 := hu.contract (fun i => x i + (b : ℂ) * w i) (fun i => y i + (b : ℂ) * w i) w
    rw [hdist' x y (fun i => (b : ℂ) * w i)] at h1
    rw [hk, hk, hdist _ _ (fun i => (b : ℂ) * w i)]
    exact h1
  · exact ((continuous_distSq x0).comp (hcont.comp (Continuous.prodMk_right x0))).measurable
  · have hle : ∀ w : Fin p → ℂ, ENNReal.ofReal √(Spec.distSq (kVec co M.par.delta (gradVec M.par.lmda fwd grad prox) x0 w M.par.s) x0) ≤
        ENNReal.ofReal √(Spec.distSq (ulaStep M.par.delta (gradVec M.par.lmda fwd grad prox) x0 w) x0) +
          ENNReal.ofReal (2 * |b| * √p) * ‖w‖ₑ := by
      intro w
      have h1 := hu.contract (fun i => x0 i + (b : ℂ) * w i) x0 w
      simp only [← enorm2_eq_sqrt] at h1 ⊢
      set A := ulaStep M.par.delta (gradVec M.par.lmda fwd grad prox) (fun i => x0 i + (b : ℂ) * w i) w with hA
      set B := ulaStep M.par.delta (gradVec M.par.lmda fwd grad prox) x0 w with hB
      have e1 : (fun i => x0 i + (b : ℂ) * w i) - x0 = fun i => (b : ℂ) * w i := by funext i; simp
      rw [e1, enorm2_smul] at h1
      have e2 : kVec co M.par.delta (gradVec M.par.lmda fwd grad prox) x0 w M.par.s - x0 =
          ((A - B) + (B - x0)) + fun i => ((-b : ℝ) : ℂ) * w i := by
        rw [hk]
        funext i
        simp
        ring
      have h2 := enorm2_add ((A - B) + (B - x0)) (fun i => ((-b : ℝ) : ℂ) * w i)
      rw [← e2, enorm2_smul, abs_neg] at h2
      have h3 := enorm2_add (A - B) (B - x0)
      have h4 : enorm2 w ≤ √p * ‖w‖ := by simpa using enorm2_le_dist w 0
      have h5 : (1 - M.par.delta * c) * (|b| * enorm2 w) ≤ 1 * (|b| * enorm2 w) :=
        mul_le_mul_of_nonneg_right hu.lt_one.le (mul_nonneg (abs_nonneg b) (enorm2_nonneg w))
      have h6 := mul_le_mul_of_nonneg_left h4 (abs_nonneg b)
      rw [← ofReal_norm, ← ENNReal.ofReal_mul (by positivity), ← ENNReal.ofReal_add (enorm2_nonneg _) (by positivity)]
      refine ENNReal.ofReal_le_ofReal ?_
      linarith
    refine ne_top_of_le_ne_top ?_ (lintegral_mono hle)
    rw [lintegral_add_left hu.start_meas.ennreal_ofReal, lintegral_const_mul _ measurable_enorm]
    exact ENNReal.add_ne_top.mpr ⟨hu.start_int, ENNReal.mul_ne_top ENNReal.ofReal_ne_top hν⟩

/-- C121 (part that holds). With one stage, a data term that determines the parameters and independent noise of finite mean norm there
is exactly one stationary law, and from every start point the law of the sample after `k` steps converges to it (weakly). -/
theorem C121_one_stage_partial (R : Rng) (tot : Total M p fwd grad prox pri) (h : Identifiable M fwd grad prox g Q c Lf)
    (hs : M.par.s = 1) (co : SkrockCoefs) (hco : skrockInit 1 = .ok co)
    {Ω : Type} [MeasurableSpace Ω] (P : Measure Ω) [IsProbabilityMeasure P] (r : Ω → R.σ) (ν : Measure (Fin p → ℂ))
    (hn : NoiseStream R M.par.complex p P r ν) :
    ∃ π : Measure (Fin p → ℂ), IsProbabilityMeasure π ∧ SkrockStationary M R co ν π ∧
      (∀ π' : Measure (Fin p → ℂ), IsProbabilityMeasure π' → SkrockStationary M R co ν π' → π' = π) ∧
      ∀ x : ℕ → Ω → Fin p → ℂ, (∀ ω ω', x 0 ω = x 0 ω') →
        (∀ k ω, skrockTransition M R co ⟨List.ofFn (x k ω), List.ofFn (fwd (x k ω)), rngSeq R M.par.complex p (r ω) k⟩ =
          .ok ⟨List.ofFn (x (k + 1) ω), List.ofFn (fwd (x (k + 1) ω)), rngSeq R M.par.complex p (r ω) (k + 1)⟩) →
        ∀ f : BoundedContinuousFunction (Fin p → ℂ) ℝ, Tendsto (fun k => ∫ ω, f (x k ω) ∂P) atTop (𝓝 (∫ z, f z ∂π)) := by
  have hν : IsProbabilityMeasure ν := by
    rw [← hn.law 0]
    exact Measure.isProbabilityMeasure_map (hn.meas 0).aemeasurable
  have hrc := fun x0 => skrock_contraction h hs co hco ν hn.finite x0
  obtain ⟨π, hπ, hfix, hlim⟩ := contraction_limit (hrc 0)
  have hiff := skrock_stationary_iff R co tot P r ν hn (hrc 0).meas
  refine ⟨π, hπ, (hiff π).mpr hfix, fun π' _ hst => ?_, fun x hx0 hx f => ?_⟩
  · exact contraction_unique (hrc 0) π' π ((hiff π').mp hst) hfix
  · obtain ⟨ω0⟩ : Nonempty Ω := nonempty_of_isProbabilityMeasure P
    have hx' := skrock_states R tot co r x hx0 hx ω0
    have hl := hlim (Measure.dirac (x 0 ω0)) inferInstance f
    refine hl.congr fun k => ?_
    simp only [hx' k]
    rw [← fwState_law P _ hn.meas hn.indep ν hn.law _ (hrc 0).meas (x 0 ω0) k]
    rw [integral_map (fwState_measurable _ (hrc 0).meas _ _ hn.meas k).aemeasurable f.continuous.aestronglyMeasurable]

/-- The hypotheses of C113 and C121 are met for every number of stages: soft thresholding with threshold 3, data term `Q = 1`,
`lmda = 1`, `delta = 1/2`, a real sampler and independent standard normals. -/
example (s : ℕ) (hs : 1 ≤ s) : ∃ (M : Sampler 1) (co : SkrockCoefs) (prox : (Fin 1 → ℂ) → (Fin 1 → ℂ)) (pri g : (Fin 1 → ℂ) → ℝ)
    (ν : Measure (Fin 1 → ℂ)), Total M 1 (fun x => x) (fun y => y) prox pri ∧ prox ≠ id ∧ M.par.s = s ∧
    skrockInit s = .ok co ∧ ConvexModel M (fun x : Fin 1 → ℂ => x) (fun y => y) prox g 1 1 ∧
    Identifiable M (fun x : Fin 1 → ℂ => x) (fun y => y) prox g 1 1 1 ∧
    M.par.delta * (1 / M.par.lmda + 1) ≤ max 1 ((s : ℝ) ^ 2 / 9) ∧
    NoiseStream streamRng M.par.complex 1 (Measure.infinitePi fun _ : ℕ => gaussianReal 0 1) (fun ω => ω) ν ∧ Spread ν 1 := by
  have hr : ∀ v : Fin 1 → ℂ, (Spec.inner v ((1 : Matrix (Fin 1) (Fin 1) ℂ).mulVec v)).re = Spec.distSq v 0 := by
    intro v
    rw [Matrix.one_mulVec, ← rip_eq_inner, rip_self]
  obtain ⟨co, hco, -⟩ := C18_total s hs
  obtain ⟨ν, hn, hsp⟩ := C121_normal_noise streamRng _ _ streamRng_normal one_pos
  have h0 := demo_total ⟨1, 1 / 2, 1, s, 4, 3, 2, false, 0, ["chain"]⟩ one_ne_zero
  refine ⟨demoL1 3 ⟨1, 1 / 2, 1, s, 4, 3, 2, false, 0, ["chain"]⟩, co, fun x i => softEntry (x i) 3, fun x => ∑ i, ‖x i‖,
    Spec.wl1 fun _ => 3, ν, ⟨rfl, h0.forward, h0.gradg, fun x => soft_scalar x 3, fun x => ?_, one_ne_zero⟩, ?_, rfl, hco,
    ⟨wl1_convex _ fun _ => by norm_num, fun x => softEntry_isProx x (fun _ => 3) fun _ => by norm_num, Matrix.isHermitian_one,
      fun v => ?_, fun v => ?_, fun x y => (Matrix.one_mulVec _).symm, zero_le_one, one_pos⟩,
    ⟨wl1_convex _ fun _ => by norm_num, fun x => softEntry_isProx x (fun _ => 3) fun _ => by norm_num, Matrix.isHermitian_one,
      fun v => ?_, fun v => ?_, fun x y => (Matrix.one_mulVec _).symm, one_pos, le_rfl, one_pos, ?_, ?_⟩, ?_, hn, hsp⟩
  · show Except.ok _ = _
    rw [L1.prior, norm_sum_ofFn]
  · intro h
    have := congrFun (congrFun h fun _ => 1) 0
    simp [softEntry] at this
  · rw [hr, ← rip_self]
    exact rip_self_nonneg v
  · rw [hr, one_mul]
  · rw [hr, one_mul]
  · rw [hr, one_mul]
  · show (0 : ℝ) < 1 / 2
    norm_num
  · show (1 / 2 : ℝ) * (1 / 1 + 1 + 1) ≤ 2
    norm_num
  · refine le_max_of_le_left ?_
    show (1 / 2 : ℝ) * (1 / 1 + 1) ≤ 1
    norm_num

/-- The hypotheses of `C121_saved_refuted` on the runs are met in the same model: four samples after three steps of burn-in with thinning
2, from the start 5. -/
example (s : ℕ) (hs : 1 ≤ s) (M : Sampler 1) (hM : M = demoL1 3 ⟨1, 1 / 2, 1, s, 4, (3 : ℕ), (2 : ℕ), false, 0, ["chain"]⟩) :
    ((∀ i : Fin 1, ((fun _ => 5 : Fin 1 → ℂ) i).im = 0) ∧ ∀ x : Fin 1 → ℂ, (∀ i, (x i).im = 0) →
      ∀ i, (gradVec M.par.lmda (fun x : Fin 1 → ℂ => x) (fun y => y) (fun x i => softEntry (x i) 3) x i).im = 0) ∧
    (initArrays M).Shaped M.par.nsamples ∧
    ∃ (fuel : (ℕ → ℝ) → ℕ) (st : (ℕ → ℝ) → St streamRng) (rows : (ℕ → ℝ) → Fin M.par.nsamples → Fin 1 → ℂ),
      (∀ ω, skrockRun M streamRng (initArrays M) ω (.array1 (List.ofFn fun _ : Fin 1 => 5)) (fuel ω) = .ok (some (st ω))) ∧
      ∀ ω, ((initArrays M).applyAll (st ω).ev).chain = some (List.ofFn fun k : Fin M.par.nsamples => List.ofFn (rows ω k)) := by
  refine ⟨⟨fun i => by simp, fun x hx i => ?_⟩, initArrays_shaped M, ?_⟩
  · have hsoft : (softEntry (x i) 3).im = 0 := by
      have hxi : x i = ((x i).re : ℂ) := Complex.ext rfl (by simp [hx i])
      rw [hxi]
      unfold softEntry signEntry
      simp only
      split_ifs <;> simp
    simp [gradVec, hx i, hsoft]
  have tot : Total M 1 (fun x => x) (fun y => y) (fun x i => softEntry (x i) 3) fun x => ∑ i, ‖x i‖ := by
    have h0 := demo_total ⟨1, 1 / 2, 1, s, 4, (3 : ℕ), (2 : ℕ), false, 0, ["chain"]⟩ one_ne_zero
    subst hM
    refine ⟨rfl, h0.forward, h0.gradg, fun x => soft_scalar x 3, fun x => ?_, one_ne_zero⟩
    show Except.ok _ = _
    rw [L1.prior, norm_sum_ofFn]
  have hex : ∀ ω : ℕ → ℝ, ∃ (fuel : ℕ) (st : St streamRng) (rows : Fin M.par.nsamples → Fin 1 → ℂ),
      skrockRun M streamRng (initArrays M) ω (.array1 (List.ofFn fun _ : Fin 1 => 5)) fuel = .ok (some st) ∧
      ((initArrays M).applyAll st.ev).chain = some (List.ofFn fun k : Fin M.par.nsamples => List.ofFn (rows k)) := by
    intro ω
    obtain ⟨co, f, -, -, -, st, h1, -, h2⟩ := C42_schedule M streamRng (initArrays M) (initArrays_shaped _) (.inl (by rw [hM]; exact le_rfl))
      (by rw [hM]; exact_mod_cast hs) 3 2 (by rw [hM]; rfl) (by rw [hM]; rfl) tot _ (fun x => gradlogpi_vec _ tot x) ω ω
      (.array1 (List.ofFn fun _ : Fin 1 => 5)) (fun _ => 5) (start_array streamRng tot ω _) _ rfl
    refine ⟨_, st, fun k i => store M.par.complex (iter f (noiseSeq streamRng M.par.complex 1 ω) (fun _ => 5) (3 + k * max 2 1 + 1) i),
      h1 _ le_rfl, ?_⟩
    rw [h2]
    obtain ⟨l, hl⟩ : ∃ l, (initArrays M).chain = some l := by
      rw [hM]
      exact ⟨_, if_pos (e := (none : Option (List (List ℂ)))) (show "chain" ∈ ["chain"] by simp)⟩
    simp only [Arrays.ofRows, hl, Option.map_some, Option.some.injEq]
    refine List.ext_getElem (by simp) fun k hk hk' => ?_
    simp only [List.getElem_map, List.getElem_range, List.getElem_ofFn]
    rfl
  choose fuel st rows h1 h2 using hex
  exact ⟨fuel, st, rows, h1, h2⟩

end Pxmcmc
