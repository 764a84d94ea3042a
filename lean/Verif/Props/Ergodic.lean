import Verif.Props.ChainStable
import Verif.Props.GaussLaw
import Verif.Lemmas.Ergodic

/-! # Property C99: MYULA forgets its start and has exactly one stationary law -/

namespace Pxmcmc
open MeasureTheory ProbabilityTheory Filter
open scoped ENNReal Topology
variable {n p : ℕ}

/-- The data term determines the parameters: `proxf` is the proximal map of a convex function, the gradient of the data term
is affine with Hermitian linear part `Q`, `c ≤ Q ≤ Lf`, `c > 0`, and the step size is small enough. -/
structure Identifiable (M : Sampler n) (fwd : (Fin p → ℂ) → (Fin n → ℂ)) (grad : (Fin n → ℂ) → (Fin p → ℂ))
    (prox : (Fin p → ℂ) → (Fin p → ℂ)) (g : (Fin p → ℂ) → ℝ) (Q : Matrix (Fin p) (Fin p) ℂ) (c Lf : ℝ) : Prop where
  convex : ConvexOn ℝ Set.univ g
  prox : ∀ x, Spec.IsProx g x (prox x)
  herm : Q.IsHermitian
  lower : ∀ v, c * Spec.distSq v 0 ≤ (Spec.inner v (Q.mulVec v)).re
  upper : ∀ v, (Spec.inner v (Q.mulVec v)).re ≤ Lf * Spec.distSq v 0
  affine : ∀ x y, grad (fwd x) - grad (fwd y) = Q.mulVec (x - y)
  pos : 0 < c
  le : c ≤ Lf
  lmda : 0 < M.par.lmda
  delta : 0 < M.par.delta
  step : M.par.delta * (1 / M.par.lmda + Lf + c) ≤ 2

variable {M : Sampler n} {fwd : (Fin p → ℂ) → (Fin n → ℂ)} {grad : (Fin n → ℂ) → (Fin p → ℂ)}
  {prox : (Fin p → ℂ) → (Fin p → ℂ)} {pri g : (Fin p → ℂ) → ℝ} {Q : Matrix (Fin p) (Fin p) ℂ} {c Lf : ℝ}

theorem Identifiable.rate (h : Identifiable M fwd grad prox g Q c Lf) :
    0 < 1 - M.par.delta * c ∧ 1 - M.par.delta * c < 1 := by
  have h1 := mul_pos h.delta h.pos
  have h2 : 0 < M.par.delta * (1 / M.par.lmda) := mul_pos h.delta (one_div_pos.mpr h.lmda)
  have h3 := mul_le_mul_of_nonneg_left h.le h.delta.le
  have h4 := h.step
  constructor <;> nlinarith

/-- One step with common noise brings two points closer by the factor `1 - delta*c`. -/
theorem strong_contract (h : Identifiable M fwd grad prox g Q c Lf) (x y w : Fin p → ℂ) :
    Spec.distSq (ulaStep M.par.delta (gradVec M.par.lmda fwd grad prox) x w)
      (ulaStep M.par.delta (gradVec M.par.lmda fwd grad prox) y w) ≤ (1 - M.par.delta * c) ^ 2 * Spec.distSq x y := by
  obtain ⟨hr0, hr1⟩ := h.rate
  set a := 1 - M.par.delta * c with ha
  rw [← rip_sub, ← rip_sub]
  have hf := prox_firm g h.convex x y _ _ (h.prox x) (h.prox y)
  set P := prox x - prox y with hP
  set d := x - y with hdd
  have he : rip (d - P) (d - P) ≤ rip (d - P) d := by
    have e1 : rip (d - P) d - rip (d - P) (d - P) = rip P d - rip P P := by
      unfold rip
      rw [← Finset.sum_sub_distrib, ← Finset.sum_sub_distrib]
      exact Finset.sum_congr rfl fun i _ => by simp; ring
    linarith
  have hQ' : (Q - (c : ℂ) • (1 : Matrix (Fin p) (Fin p) ℂ)).IsHermitian := by
    have : (c : ℂ) • (1 : Matrix (Fin p) (Fin p) ℂ) = Matrix.diagonal fun _ => (c : ℂ) := by
      rw [Matrix.smul_one_eq_diagonal]
    rw [this]
    refine h.herm.sub ?_
    rw [Matrix.IsHermitian, Matrix.diagonal_conjTranspose]
    congr 1
    funext i
    simp
  have hmv : ∀ v : Fin p → ℂ, (Q - (c : ℂ) • (1 : Matrix (Fin p) (Fin p) ℂ)).mulVec v = fun i => Q.mulVec v i - (c : ℂ) * v i := by
    intro v
    rw [Matrix.sub_mulVec, Matrix.smul_mulVec, Matrix.one_mulVec]
    rfl
  have hform : ∀ v : Fin p → ℂ, (Spec.inner v ((Q - (c : ℂ) • (1 : Matrix (Fin p) (Fin p) ℂ)).mulVec v)).re =
      (Spec.inner v (Q.mulVec v)).re - c * Spec.distSq v 0 := by
    intro v
    rw [hmv, ← rip_eq_inner, ← rip_eq_inner, ← rip_self]
    unfold rip
    rw [Finset.mul_sum, ← Finset.sum_sub_distrib]
    exact Finset.sum_congr rfl fun i _ => by simp; ring
  have hco := cocoercive (Q - (c : ℂ) • (1 : Matrix (Fin p) (Fin p) ℂ)) hQ' (Lf - c) (sub_nonneg.mpr h.le)
    (fun v => by rw [hform]; linarith [h.lower v]) (fun v => by rw [hform]; nlinarith [h.upper v]) d
  have hsum : M.par.delta / M.par.lmda / a + M.par.delta / a * (Lf - c) ≤ 2 := by
    have : M.par.delta / M.par.lmda / a + M.par.delta / a * (Lf - c) =
        (M.par.delta * (1 / M.par.lmda + Lf + c) - 2 * (M.par.delta * c)) / a := by
      have := h.lmda.ne'
      field_simp
      ring
    rw [this, div_le_iff₀ hr0]
    linarith [h.step]
  have hc := step_contract d (d - P) ((Q - (c : ℂ) • (1 : Matrix (Fin p) (Fin p) ℂ)).mulVec d) (M.par.delta / M.par.lmda / a)
    (M.par.delta / a) (Lf - c) (div_nonneg (div_nonneg h.delta.le h.lmda.le) hr0.le) (div_nonneg h.delta.le hr0.le)
    (sub_nonneg.mpr h.le) hsum he hco
  set u := (fun i => ((1 : ℝ) : ℂ) * d i + ((-(M.par.delta / M.par.lmda / a) : ℝ) : ℂ) * (d - P) i +
    ((-(M.par.delta / a) : ℝ) : ℂ) * (Q - (c : ℂ) • (1 : Matrix (Fin p) (Fin p) ℂ)).mulVec d i) with hu
  have heq : ulaStep M.par.delta (gradVec M.par.lmda fwd grad prox) x w -
      ulaStep M.par.delta (gradVec M.par.lmda fwd grad prox) y w = fun i => (a : ℂ) * u i := by
    funext i
    have hli := congrFun (h.affine x y) i
    rw [← hdd] at hli
    have ha0 : (a : ℂ) ≠ 0 := by exact_mod_cast hr0.ne'
    have hl0 : (M.par.lmda : ℂ) ≠ 0 := by exact_mod_cast h.lmda.ne'
    have hac : (a : ℂ) = 1 - (M.par.delta : ℂ) * (c : ℂ) := by rw [ha]; push_cast; ring
    have e1 : (a : ℂ) * u i = (a : ℂ) * d i - (M.par.delta : ℂ) / (M.par.lmda : ℂ) * (d i - P i)
        - (M.par.delta : ℂ) * (Q.mulVec d i - (c : ℂ) * d i) := by
      simp only [hu, hmv, Pi.sub_apply]
      push_cast
      field_simp
      ring
    rw [e1, hac, ← hli]
    simp only [ulaStep, gradVec, Pi.sub_apply, hdd, hP]
    field_simp
    ring
  rw [heq]
  have e2 : rip (fun i => (a : ℂ) * u i) (fun i => (a : ℂ) * u i) = a ^ 2 * rip u u := by
    rw [rip_smul_left, rip_comm, rip_smul_left]
    ring
  rw [e2]
  exact mul_le_mul_of_nonneg_left hc (sq_nonneg a)

/-- C99, forgetting the start: two chains driven by the same random stream approach each other at least geometrically, with
factor `1 - delta*c` per step. -/
theorem C99_contract (R : Rng) (tot : Total M p fwd grad prox pri) (h : Identifiable M fwd grad prox g Q c Lf)
    (x y : ℕ → Fin p → ℂ) (S : ℕ → R.σ)
    (hx : ∀ k, myulaStep M R ⟨List.ofFn (x k), List.ofFn (fwd (x k)), S k⟩ =
      .ok ⟨List.ofFn (x (k + 1)), List.ofFn (fwd (x (k + 1))), S (k + 1)⟩)
    (hy : ∀ k, myulaStep M R ⟨List.ofFn (y k), List.ofFn (fwd (y k)), S k⟩ =
      .ok ⟨List.ofFn (y (k + 1)), List.ofFn (fwd (y (k + 1))), S (k + 1)⟩) (k : ℕ) :
    0 < 1 - M.par.delta * c ∧ 1 - M.par.delta * c < 1 ∧
    √(Spec.distSq (x k) (y k)) ≤ (1 - M.par.delta * c) ^ k * √(Spec.distSq (x 0) (y 0)) := by
  obtain ⟨h0, h1⟩ := h.rate
  refine ⟨h0, h1, ?_⟩
  induction k with
  | zero => simp
  | succ k ih =>
    have e : ∀ z : ℕ → Fin p → ℂ, (∀ k, myulaStep M R ⟨List.ofFn (z k), List.ofFn (fwd (z k)), S k⟩ =
        .ok ⟨List.ofFn (z (k + 1)), List.ofFn (fwd (z (k + 1))), S (k + 1)⟩) → z (k + 1) =
        ulaStep M.par.delta (gradVec M.par.lmda fwd grad prox) (z k) (drawVec R R.randn M.par.complex (S k) p).1 := by
      intro z hz
      have h2 := hz k
      rw [myulaStep_vec M R tot] at h2
      exact (List.ofFn_injective (Cur.mk.inj (Except.ok.inj h2)).1).symm
    rw [e x hx, e y hy]
    have h2 := Real.sqrt_le_sqrt (strong_contract h (x k) (y k) (drawVec R R.randn M.par.complex (S k) p).1)
    rw [Real.sqrt_mul (sq_nonneg _), Real.sqrt_sq h0.le] at h2
    calc _ ≤ _ := h2
      _ ≤ _ := mul_le_mul_of_nonneg_left ih h0.le
      _ = _ := by rw [pow_succ]; ring

/-- The successive noise vectors of the chain are independent with law `ν`, which has a finite mean norm. -/
structure NoiseStream (R : Rng) (cplx : Bool) (p : ℕ) {Ω : Type} [MeasurableSpace Ω] (P : Measure Ω) (r : Ω → R.σ)
    (ν : Measure (Fin p → ℂ)) : Prop where
  meas : ∀ k, Measurable fun ω => noiseSeq R cplx p (r ω) k
  indep : iIndepFun (fun k ω => noiseSeq R cplx p (r ω) k) P
  law : ∀ k, P.map (fun ω => noiseSeq R cplx p (r ω) k) = ν
  finite : ∫⁻ w, ‖w‖ₑ ∂ν ≠ ⊤

/-- `π` is stationary for MYULA: a random state of law `π` and an independent noise vector of law `ν` give a next state of
law `π`. -/
def StationaryLaw (M : Sampler n) (R : Rng) (ν π : Measure (Fin p → ℂ)) : Prop :=
  ∀ (Ω : Type) (_ : MeasurableSpace Ω) (P : Measure Ω) (x y : Ω → Fin p → ℂ) (r : Ω → R.σ), IsProbabilityMeasure P →
    Measurable x → Measurable (fun ω => (drawVec R R.randn M.par.complex (r ω) p).1) →
    IndepFun x (fun ω => (drawVec R R.randn M.par.complex (r ω) p).1) P → P.map x = π →
    P.map (fun ω => (drawVec R R.randn M.par.complex (r ω) p).1) = ν →
    (∀ ω, ∃ preds next, M.F.forward (List.ofFn (x ω)) = .ok preds ∧
      myulaStep M R ⟨List.ofFn (x ω), preds, r ω⟩ = .ok next ∧ next.X = List.ofFn (y ω)) →
    P.map y = π

theorem sqrt_distSq_le (x y : Fin p → ℂ) : dist x y ≤ √(Spec.distSq x y) := by
  refine (dist_pi_le_iff (Real.sqrt_nonneg _)).mpr fun i => ?_
  rw [dist_eq_norm]
  refine Real.le_sqrt_of_sq_le ?_
  exact Finset.single_le_sum (f := fun i => ‖x i - y i‖ ^ 2) (fun i _ => sq_nonneg _) (Finset.mem_univ i)

theorem sqrt_distSq_add (x z w : Fin p → ℂ) (s : ℂ) :
    √(Spec.distSq (fun i => z i + s * w i) x) ≤ √p * (‖z - x‖ + ‖s‖ * ‖w‖) := by
  have h0 : 0 ≤ ‖z - x‖ + ‖s‖ * ‖w‖ := by positivity
  have hle : Spec.distSq (fun i => z i + s * w i) x ≤ p * (‖z - x‖ + ‖s‖ * ‖w‖) ^ 2 := by
    have : ∀ i : Fin p, ‖z i + s * w i - x i‖ ^ 2 ≤ (‖z - x‖ + ‖s‖ * ‖w‖) ^ 2 := by
      intro i
      refine pow_le_pow_left₀ (norm_nonneg _) ?_ 2
      calc ‖z i + s * w i - x i‖ = ‖(z - x) i + s * w i‖ := by rw [Pi.sub_apply]; ring_nf
        _ ≤ ‖(z - x) i‖ + ‖s * w i‖ := norm_add_le _ _
        _ ≤ ‖z - x‖ + ‖s‖ * ‖w‖ := by
          rw [norm_mul]
          exact add_le_add (norm_le_pi_norm _ i) (mul_le_mul_of_nonneg_left (norm_le_pi_norm _ i) (norm_nonneg _))
    calc Spec.distSq (fun i => z i + s * w i) x ≤ ∑ _i : Fin p, (‖z - x‖ + ‖s‖ * ‖w‖) ^ 2 := Finset.sum_le_sum fun i _ => this i
      _ = _ := by simp
  refine (Real.sqrt_le_sqrt hle).trans ?_
  rw [Real.sqrt_mul (by positivity), Real.sqrt_sq h0]

theorem continuous_distSq (x : Fin p → ℂ) : Continuous fun y : Fin p → ℂ => √(Spec.distSq y x) := by
  unfold Spec.distSq
  fun_prop

/-- The drift is continuous. -/
theorem gradVec_continuous (h : Identifiable M fwd grad prox g Q c Lf) :
    Continuous (gradVec M.par.lmda fwd grad prox) := by
  have hp : Continuous prox := by
    refine (LipschitzWith.of_dist_le_mul (K := NNReal.mk (√p) (Real.sqrt_nonneg _)) fun x y => ?_).continuous
    have hf := prox_firm g h.convex x y _ _ (h.prox x) (h.prox y)
    have h1 : rip (prox x - prox y) (prox x - prox y) ≤ rip (x - y) (x - y) := by
      have h2 := rip_self_nonneg ((prox x - prox y) - (x - y))
      have e : rip ((prox x - prox y) - (x - y)) ((prox x - prox y) - (x - y)) =
          rip (prox x - prox y) (prox x - prox y) - 2 * rip (prox x - prox y) (x - y) + rip (x - y) (x - y) := by
        unfold rip
        rw [Finset.mul_sum, ← Finset.sum_sub_distrib, ← Finset.sum_add_distrib]
        exact Finset.sum_congr rfl fun i _ => by simp; ring
      linarith
    rw [rip_sub, rip_sub] at h1
    have h3 := sqrt_distSq_add y x 0 0
    simp only [norm_zero, mul_zero, add_zero, zero_mul] at h3
    calc dist (prox x) (prox y) ≤ √(Spec.distSq (prox x) (prox y)) := sqrt_distSq_le _ _
      _ ≤ √(Spec.distSq x y) := Real.sqrt_le_sqrt h1
      _ ≤ √p * ‖x - y‖ := h3
      _ = _ := by rw [dist_eq_norm]; rfl
  have hg : Continuous fun x => grad (fwd x) := by
    have e : (fun x => grad (fwd x)) = fun x => Q.mulVec x + (grad (fwd 0)) := by
      funext x
      have := h.affine x 0
      rw [sub_zero] at this
      rw [← this]
      simp
    rw [e]
    fun_prop
  unfold gradVec
  refine continuous_pi fun i => ?_
  have h1 : Continuous fun x => prox x i := (continuous_apply i).comp hp
  have h2 : Continuous fun x => grad (fwd x) i := (continuous_apply i).comp hg
  exact ((((continuous_apply i).sub h1).div_const _).neg).sub h2

theorem myula_contraction (h : Identifiable M fwd grad prox g Q c Lf) (ν : Measure (Fin p → ℂ)) [IsProbabilityMeasure ν]
    (hν : ∫⁻ w, ‖w‖ₑ ∂ν ≠ ⊤) (x0 : Fin p → ℂ) :
    RandomContraction ν (ulaStep M.par.delta (gradVec M.par.lmda fwd grad prox)) (fun x y => √(Spec.distSq x y))
      (1 - M.par.delta * c) x0 := by
  have hG := gradVec_continuous h
  have hcont : Continuous (Function.uncurry (ulaStep M.par.delta (gradVec M.par.lmda fwd grad prox))) := by
    unfold ulaStep Function.uncurry
    refine continuous_pi fun i => ?_
    have h1 : Continuous fun q : (Fin p → ℂ) × (Fin p → ℂ) => gradVec M.par.lmda fwd grad prox q.1 i :=
      (continuous_apply i).comp (hG.comp continuous_fst)
    fun_prop
  obtain ⟨h0, h1⟩ := h.rate
  refine ⟨hcont.measurable, fun w => hcont.comp (Continuous.prodMk_left w), h0.le, h1, sqrt_distSq_le, fun x y w => ?_, ?_, ?_⟩
  · have h2 := Real.sqrt_le_sqrt (strong_contract h x y w)
    rwa [Real.sqrt_mul (sq_nonneg _), Real.sqrt_sq h0.le] at h2
  · exact ((continuous_distSq x0).comp (hcont.comp (Continuous.prodMk_right x0))).measurable
  · have hb : ∀ w : Fin p → ℂ, ENNReal.ofReal √(Spec.distSq (ulaStep M.par.delta (gradVec M.par.lmda fwd grad prox) x0 w) x0) ≤
        ENNReal.ofReal (√p * ‖(fun i => x0 i + (M.par.delta : ℂ) * gradVec M.par.lmda fwd grad prox x0 i) - x0‖) +
          ENNReal.ofReal (√p * ‖((√(2 * M.par.delta) : ℝ) : ℂ)‖) * ‖w‖ₑ := by
      intro w
      have h2 := sqrt_distSq_add x0 (fun i => x0 i + (M.par.delta : ℂ) * gradVec M.par.lmda fwd grad prox x0 i) w
        ((√(2 * M.par.delta) : ℝ) : ℂ)
      refine (ENNReal.ofReal_le_ofReal h2).trans ?_
      rw [mul_add, ENNReal.ofReal_add (by positivity) (by positivity)]
      refine add_le_add le_rfl (le_of_eq ?_)
      rw [← mul_assoc, ENNReal.ofReal_mul (by positivity), ofReal_norm]
    refine ne_top_of_le_ne_top ?_ (lintegral_mono hb)
    rw [lintegral_add_left measurable_const, lintegral_const, lintegral_const_mul _ measurable_enorm]
    simp only [measure_univ, mul_one]
    exact ENNReal.add_ne_top.mpr ⟨ENNReal.ofReal_ne_top, ENNReal.mul_ne_top ENNReal.ofReal_ne_top hν⟩

theorem stationary_iff_meas (R : Rng) (tot : Total M p fwd grad prox pri)
    (hf : Measurable (Function.uncurry (ulaStep M.par.delta (gradVec M.par.lmda fwd grad prox))))
    {Ω : Type} [MeasurableSpace Ω] (P : Measure Ω) [IsProbabilityMeasure P] (r : Ω → R.σ) (ν : Measure (Fin p → ℂ))
    [IsProbabilityMeasure ν] (hs : NoiseStream R M.par.complex p P r ν) (π : Measure (Fin p → ℂ)) [IsProbabilityMeasure π] :
    StationaryLaw M R ν π ↔ stepLaw (ulaStep M.par.delta (gradVec M.par.lmda fwd grad prox)) ν π = π := by
  constructor
  · intro hst
    have hn : Measurable fun q : (Fin p → ℂ) × Ω => (drawVec R R.randn M.par.complex (r q.2) p).1 := (hs.meas 0).comp measurable_snd
    have hlaw : (P.map fun ω => (drawVec R R.randn M.par.complex (r ω) p).1) = ν := hs.law 0
    have h2 := hst ((Fin p → ℂ) × Ω) inferInstance (π.prod P) Prod.fst
      (fun q => ulaStep M.par.delta (gradVec M.par.lmda fwd grad prox) q.1 (drawVec R R.randn M.par.complex (r q.2) p).1)
      (fun q => r q.2) inferInstance measurable_fst hn
      (indepFun_prod measurable_id (hs.meas 0)) (by rw [Measure.map_fst_prod]; simp) ?_ ?_
    · have e : (fun q : (Fin p → ℂ) × Ω => ulaStep M.par.delta (gradVec M.par.lmda fwd grad prox) q.1
          (drawVec R R.randn M.par.complex (r q.2) p).1) =
          Function.uncurry (ulaStep M.par.delta (gradVec M.par.lmda fwd grad prox)) ∘
            Prod.map id fun ω => (drawVec R R.randn M.par.complex (r ω) p).1 := rfl
      have hm0 : Measurable fun ω => (drawVec R R.randn M.par.complex (r ω) p).1 := hs.meas 0
      rw [e, ← Measure.map_map hf (measurable_id.prodMap hm0), ← Measure.map_prod_map _ _ measurable_id hm0, hlaw,
        Measure.map_id] at h2
      exact h2
    · rw [show (fun q : (Fin p → ℂ) × Ω => (drawVec R R.randn M.par.complex (r q.2) p).1) =
        (fun ω => (drawVec R R.randn M.par.complex (r ω) p).1) ∘ Prod.snd from rfl,
        ← Measure.map_map (show Measurable fun ω => (drawVec R R.randn M.par.complex (r ω) p).1 from hs.meas 0) measurable_snd,
        Measure.map_snd_prod]
      simpa using hlaw
    · intro q
      exact ⟨_, _, tot.forward q.1, myulaStep_vec M R tot q.1 (r q.2), rfl⟩
  · intro hfix Ω' _ P' x y r' _ hx hn hind hxl hnl hstep
    have hy : y = fun ω => ulaStep M.par.delta (gradVec M.par.lmda fwd grad prox) (x ω)
        (drawVec R R.randn M.par.complex (r' ω) p).1 := by
      funext ω
      obtain ⟨preds, next, h1, h2, h3⟩ := hstep ω
      rw [tot.forward] at h1
      obtain rfl := Except.ok.inj h1
      rw [myulaStep_vec M R tot] at h2
      obtain rfl := Except.ok.inj h2
      exact (List.ofFn_injective h3).symm
    have hj := (indepFun_iff_map_prod_eq_prod_map_map hx.aemeasurable hn.aemeasurable).mp hind
    rw [hxl, hnl] at hj
    have e : y = Function.uncurry (ulaStep M.par.delta (gradVec M.par.lmda fwd grad prox)) ∘
        fun ω => (x ω, (drawVec R R.randn M.par.complex (r' ω) p).1) := hy
    rw [e, ← Measure.map_map hf (hx.prodMk hn), hj]
    exact hfix

theorem stationary_iff (R : Rng) (tot : Total M p fwd grad prox pri) (h : Identifiable M fwd grad prox g Q c Lf)
    {Ω : Type} [MeasurableSpace Ω] (P : Measure Ω) [IsProbabilityMeasure P] (r : Ω → R.σ) (ν : Measure (Fin p → ℂ))
    [IsProbabilityMeasure ν] (hs : NoiseStream R M.par.complex p P r ν) (π : Measure (Fin p → ℂ)) [IsProbabilityMeasure π] :
    StationaryLaw M R ν π ↔ stepLaw (ulaStep M.par.delta (gradVec M.par.lmda fwd grad prox)) ν π = π :=
  stationary_iff_meas R tot (myula_contraction h ν hs.finite 0).meas P r ν hs π

/-- C99, long-run law: with independent noise of finite mean norm there is exactly one stationary law, and from every start
point the law of the sample after `k` steps converges to it (weakly). -/
theorem C99_ergodic (R : Rng) (tot : Total M p fwd grad prox pri) (h : Identifiable M fwd grad prox g Q c Lf)
    {Ω : Type} [MeasurableSpace Ω] (P : Measure Ω) [IsProbabilityMeasure P] (r : Ω → R.σ) (ν : Measure (Fin p → ℂ))
    (hs : NoiseStream R M.par.complex p P r ν) :
    ∃ π : Measure (Fin p → ℂ), IsProbabilityMeasure π ∧ StationaryLaw M R ν π ∧
      (∀ π' : Measure (Fin p → ℂ), IsProbabilityMeasure π' → StationaryLaw M R ν π' → π' = π) ∧
      ∀ x : ℕ → Ω → Fin p → ℂ, (∀ ω ω', x 0 ω = x 0 ω') →
        (∀ k ω, myulaStep M R ⟨List.ofFn (x k ω), List.ofFn (fwd (x k ω)), rngSeq R M.par.complex p (r ω) k⟩ =
          .ok ⟨List.ofFn (x (k + 1) ω), List.ofFn (fwd (x (k + 1) ω)), rngSeq R M.par.complex p (r ω) (k + 1)⟩) →
        ∀ f : BoundedContinuousFunction (Fin p → ℂ) ℝ, Tendsto (fun k => ∫ ω, f (x k ω) ∂P) atTop (𝓝 (∫ z, f z ∂π)) := by
  have hν : IsProbabilityMeasure ν := by
    rw [← hs.law 0]
    exact Measure.isProbabilityMeasure_map (hs.meas 0).aemeasurable
  have hrc := fun x0 => myula_contraction h ν hs.finite x0
  obtain ⟨π, hπ, hfix, hlim⟩ := contraction_limit (hrc 0)
  refine ⟨π, hπ, (stationary_iff R tot h P r ν hs π).mpr hfix, fun π' _ hst => ?_, fun x hx0 hstep f => ?_⟩
  · exact contraction_unique (hrc 0) π' π ((stationary_iff R tot h P r ν hs π').mp hst) hfix
  · obtain ⟨ω0⟩ : Nonempty Ω := nonempty_of_isProbabilityMeasure P
    have hx : ∀ k, x k = fun ω => fwState (ulaStep M.par.delta (gradVec M.par.lmda fwd grad prox)) (x 0 ω0)
        (fun j => noiseSeq R M.par.complex p (r ω) j) k := by
      intro k
      induction k with
      | zero => funext ω; exact hx0 ω ω0
      | succ k ih =>
        funext ω
        have h2 := hstep k ω
        rw [myulaStep_vec M R tot] at h2
        have h3 := List.ofFn_injective (Cur.mk.inj (Except.ok.inj h2)).1
        rw [← h3, congrFun ih ω]
        rfl
    have hl := hlim (Measure.dirac (x 0 ω0)) inferInstance f
    refine hl.congr fun k => ?_
    rw [hx k, ← fwState_law P _ hs.meas hs.indep ν hs.law _ (hrc 0).meas (x 0 ω0) k]
    rw [integral_map (fwState_measurable _ (hrc 0).meas _ _ hs.meas k).aemeasurable f.continuous.aestronglyMeasurable]

/-- C99, the hypothesis on the noise: the draws of a real sampler qualify if `np.random.randn` delivers independent standard
normals. -/
theorem C99_normal_noise (R : Rng) {Ω : Type} [MeasurableSpace Ω] (P : Measure Ω) (r : Ω → R.σ) (h : NormalStream R p P r) :
    NoiseStream R false p P r ((Measure.pi fun _ : Fin p => gaussianReal 0 1).map fun x i => ((x i : ℝ) : ℂ)) := by
  have hm : Measurable fun (x : Fin p → ℝ) (i : Fin p) => ((x i : ℝ) : ℂ) := by fun_prop
  have e : ∀ k, (fun ω => noiseSeq R false p (r ω) k) =
      (fun (x : Fin p → ℝ) (i : Fin p) => ((x i : ℝ) : ℂ)) ∘ fun ω => (R.randn (rngSeq R false p (r ω) k) p).1 := fun k => rfl
  refine ⟨fun k => ?_, ?_, fun k => ?_, ?_⟩
  · rw [e]
    exact hm.comp (h.meas k)
  · exact h.indep.comp (fun _ x i => ((x i : ℝ) : ℂ)) fun _ => hm
  · rw [e, ← Measure.map_map hm (h.meas k), h.law]
  · rw [lintegral_map measurable_enorm hm]
    have hle : ∀ x : Fin p → ℝ, ‖(fun i => ((x i : ℝ) : ℂ))‖ₑ ≤ ∑ i, ‖x i‖ₑ := by
      intro x
      rw [← ofReal_norm]
      have h1 : ‖(fun i => ((x i : ℝ) : ℂ))‖ ≤ ∑ i, ‖x i‖ := by
        refine (pi_norm_le_iff_of_nonneg (Finset.sum_nonneg fun i _ => norm_nonneg _)).mpr fun i => ?_
        rw [Complex.norm_real]
        exact Finset.single_le_sum (f := fun i => ‖x i‖) (fun i _ => norm_nonneg _) (Finset.mem_univ i)
      refine (ENNReal.ofReal_le_ofReal h1).trans ?_
      rw [ENNReal.ofReal_sum_of_nonneg fun i _ => norm_nonneg _]
      simp only [ofReal_norm, le_refl]
    refine ne_top_of_le_ne_top ?_ (lintegral_mono hle)
    rw [lintegral_finsetSum _ fun i _ => (measurable_pi_apply i).enorm]
    refine (ENNReal.sum_lt_top.mpr fun i _ => ?_).ne
    have hp := measurePreserving_eval (fun _ : Fin p => gaussianReal 0 1) i
    have h2 := hp.lintegral_comp (f := fun y : ℝ => ‖y‖ₑ) measurable_enorm
    simp only [Function.eval] at h2
    rw [h2]
    have h3 : Integrable (id : ℝ → ℝ) (gaussianReal 0 1) := memLp_one_iff_integrable.mp (memLp_id_gaussianReal 1)
    exact h3.2

/-- The hypotheses of C99 are met: soft thresholding with threshold 3, data term `Q = 1`, `lmda = 1`, the largest step size
`delta = 2/3`, a real sampler and independent standard normals. -/
example : ∃ (M : Sampler 1) (prox : (Fin 1 → ℂ) → (Fin 1 → ℂ)) (pri g : (Fin 1 → ℂ) → ℝ) (ν : Measure (Fin 1 → ℂ)),
    Total M 1 (fun x => x) (fun y => y) prox pri ∧ prox ≠ id ∧
    Identifiable M (fun x : Fin 1 → ℂ => x) (fun y => y) prox g 1 1 1 ∧
    NoiseStream streamRng M.par.complex 1 (Measure.infinitePi fun _ : ℕ => gaussianReal 0 1) (fun ω => ω) ν := by
  have hr : ∀ v : Fin 1 → ℂ, (Spec.inner v ((1 : Matrix (Fin 1) (Fin 1) ℂ).mulVec v)).re = Spec.distSq v 0 := by
    intro v
    rw [Matrix.one_mulVec, ← rip_eq_inner, rip_self]
  have h0 := demo_total ⟨1, 2 / 3, 1, 1, 4, 3, 2, false, 0, ["chain"]⟩ one_ne_zero
  refine ⟨demoL1 3 ⟨1, 2 / 3, 1, 1, 4, 3, 2, false, 0, ["chain"]⟩, fun x i => softEntry (x i) 3, fun x => ∑ i, ‖x i‖,
    Spec.wl1 fun _ => 3, _, ⟨rfl, h0.forward, h0.gradg, fun x => soft_scalar x 3, fun x => ?_, one_ne_zero⟩, ?_,
    ⟨wl1_convex _ fun _ => by norm_num, fun x => softEntry_isProx x (fun _ => 3) fun _ => by norm_num, Matrix.isHermitian_one,
      fun v => ?_, fun v => ?_, fun x y => (Matrix.one_mulVec _).symm, one_pos, le_rfl, one_pos, ?_, ?_⟩,
    C99_normal_noise streamRng _ _ streamRng_normal⟩
  · show Except.ok _ = _
    rw [L1.prior, norm_sum_ofFn]
  · intro h
    have := congrFun (congrFun h fun _ => 1) 0
    simp [softEntry] at this
  · rw [hr, one_mul]
  · rw [hr, one_mul]
  · show (0 : ℝ) < 2 / 3
    norm_num
  · show (2 / 3 : ℝ) * (1 / 1 + 1 + 1) ≤ 2
    norm_num

end Pxmcmc
