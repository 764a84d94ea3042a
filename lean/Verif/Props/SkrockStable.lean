import Verif.Props.Skrock
import Verif.Props.ChainStable
import Mathlib.Analysis.InnerProductSpace.PiL2

/-! # Property C113: stability of SKROCK -/

namespace Pxmcmc
open Polynomial
variable {n p : ℕ}

/-! ## Euclidean norm of complex vectors -/

/-- Euclidean norm. -/
noncomputable def enorm2 (u : Fin p → ℂ) : ℝ := ‖(WithLp.toLp 2 u : EuclideanSpace ℂ (Fin p))‖

theorem enorm2_sq (u : Fin p → ℂ) : enorm2 u ^ 2 = Spec.distSq u 0 := by
  unfold enorm2 Spec.distSq
  rw [EuclideanSpace.norm_sq_eq]
  simp

theorem enorm2_sub_sq (u v : Fin p → ℂ) : enorm2 (u - v) ^ 2 = Spec.distSq u v := by
  rw [enorm2_sq]
  simp [Spec.distSq]

theorem enorm2_nonneg (u : Fin p → ℂ) : 0 ≤ enorm2 u := norm_nonneg _

theorem enorm2_add (u v : Fin p → ℂ) : enorm2 (u + v) ≤ enorm2 u + enorm2 v := by
  unfold enorm2
  rw [WithLp.toLp_add]
  exact norm_add_le _ _

theorem enorm2_smul (c : ℝ) (u : Fin p → ℂ) : enorm2 (fun i => (c : ℂ) * u i) = |c| * enorm2 u := by
  have : (fun i => (c : ℂ) * u i) = (c : ℂ) • u := rfl
  unfold enorm2
  rw [this, WithLp.toLp_smul, norm_smul, Complex.norm_real, Real.norm_eq_abs]

/-- `‖a u + v + w‖ ≥ |a|‖u‖ - ‖v‖ - ‖w‖`. -/
theorem enorm2_lower (a : ℝ) (u v w : Fin p → ℂ) :
    |a| * enorm2 u - enorm2 v - enorm2 w ≤ enorm2 (fun i => (a : ℂ) * u i + v i + w i) := by
  have h1 := enorm2_add (fun i => (a : ℂ) * u i + v i + w i) (fun i => ((-1 : ℝ) : ℂ) * (v + w) i)
  have e : (fun i => (a : ℂ) * u i + v i + w i) + (fun i => ((-1 : ℝ) : ℂ) * (v + w) i) = fun i => (a : ℂ) * u i := by
    funext i
    simp
  rw [e, enorm2_smul, enorm2_smul] at h1
  have h2 := enorm2_add v w
  norm_num at h1
  linarith

/-- The gradient of a convex model is Lipschitz. -/
theorem gradVec_lipschitz {fwd : (Fin p → ℂ) → (Fin n → ℂ)} {grad : (Fin n → ℂ) → (Fin p → ℂ)}
    {prox : (Fin p → ℂ) → (Fin p → ℂ)} (g : (Fin p → ℂ) → ℝ) (hg : ConvexOn ℝ Set.univ g)
    (hprox : ∀ x, Spec.IsProx g x (prox x))
    (Q : Matrix (Fin p) (Fin p) ℂ) (hQ : Q.IsHermitian) (Lf : ℝ) (hL : 0 ≤ Lf)
    (h0 : ∀ v, 0 ≤ (Spec.inner v (Q.mulVec v)).re) (h1 : ∀ v, (Spec.inner v (Q.mulVec v)).re ≤ Lf * Spec.distSq v 0)
    (hlin : ∀ x y, grad (fwd x) - grad (fwd y) = Q.mulVec (x - y)) (lmda : ℝ) (hl : 0 < lmda) (x y : Fin p → ℂ) :
    enorm2 (gradVec lmda fwd grad prox x - gradVec lmda fwd grad prox y) ≤ (1 / lmda + Lf) * enorm2 (x - y) := by
  have hf := prox_firm g hg x y _ _ (hprox x) (hprox y)
  set P := prox x - prox y with hP
  set d := x - y with hdd
  have hsq : ∀ u : Fin p → ℂ, rip u u = enorm2 u ^ 2 := fun u => by rw [rip_self, enorm2_sq]
  have e1 : rip (d - P) (d - P) = rip d d - 2 * rip P d + rip P P := by
    unfold rip
    rw [Finset.mul_sum, ← Finset.sum_sub_distrib, ← Finset.sum_add_distrib]
    exact Finset.sum_congr rfl fun i _ => by simp; ring
  have hP0 := rip_self_nonneg P
  have a1 : enorm2 (d - P) ≤ enorm2 d := by
    refine abs_le_of_sq_le_sq' ?_ (enorm2_nonneg _) |>.2
    rw [← hsq, ← hsq]
    linarith
  have a2 : enorm2 (Q.mulVec d) ≤ Lf * enorm2 d := by
    refine abs_le_of_sq_le_sq' ?_ (mul_nonneg hL (enorm2_nonneg _)) |>.2
    have h2 := cocoercive Q hQ Lf hL h0 h1 d
    have h3 := rip_comb 1 (-Lf) 0 (Q.mulVec d) d d
    have h4 := rip_self_nonneg (fun i => ((1 : ℝ) : ℂ) * Q.mulVec d i + ((-Lf : ℝ) : ℂ) * d i + ((0 : ℝ) : ℂ) * d i)
    rw [h3] at h4
    rw [mul_pow, ← hsq, ← hsq]
    nlinarith
  have e2 : gradVec lmda fwd grad prox x - gradVec lmda fwd grad prox y =
      (fun i => ((-(1 / lmda) : ℝ) : ℂ) * (d - P) i) + fun i => ((-1 : ℝ) : ℂ) * Q.mulVec d i := by
    funext i
    have hli := congrFun (hlin x y) i
    rw [← hdd] at hli
    simp only [Pi.add_apply]
    rw [← hli]
    simp only [gradVec, Pi.sub_apply, hdd, hP]
    push_cast
    ring
  rw [e2]
  refine (enorm2_add _ _).trans ?_
  rw [enorm2_smul, enorm2_smul, abs_neg, abs_neg, abs_one, abs_of_pos (by positivity), one_mul]
  have := mul_le_mul_of_nonneg_left a1 (by positivity : 0 ≤ 1 / lmda)
  linarith

/-! ## One and two stages -/

/-- One stage: the step of `ulaStep` at a shifted point. -/
theorem skrock_one_stage (co : SkrockCoefs) (hco : skrockInit 1 = .ok co) (delta : ℝ) (G : (Fin p → ℂ) → (Fin p → ℂ)) :
    ∃ c : ℝ, ∀ x z : Fin p → ℂ, skrockStep co 1 delta (fun v => .ok (G v)) x z = .ok fun i =>
      ulaStep delta G (fun i => x i + (c : ℂ) * z i) z i - (c : ℂ) * z i := by
  refine ⟨co.omega0 / 2 * √(2 * delta), fun x z => ?_⟩
  obtain ⟨co', h1, -, h3⟩ := C19_one_stage G delta x z
  obtain rfl := Except.ok.inj (h1.symm.trans hco)
  refine h3.trans (congrArg Except.ok (funext fun i => ?_))
  change x i + (delta : ℂ) * G (fun i => x i + ((co'.omega0 / 2 * √(2 * delta) : ℝ) : ℂ) * z i) i
    + ((√(2 * delta) : ℝ) : ℂ) * z i = _
  unfold ulaStep
  ring

/-- The coefficients for two stages. -/
theorem skrockInit_two : ∃ co, skrockInit 2 = .ok co ∧ co.mus.getD 1 0 = 3361 / 13122 ∧
    co.mus.getD 2 0 = -(44103042 / 72684479) ∧ co.nus.getD 2 0 = -(172186884 / 72684479) := by
  have h0 : codeOmega0 1 = 81 / 80 := by unfold codeOmega0; norm_num
  have h1 : codeOmega1 1 = 3361 / 12960 := by
    unfold codeOmega1
    rw [h0]
    norm_num [Chebyshev.T_two, Chebyshev.U_one]
  have h2 : codeRatio 1 0 = -(13122 * 12960 / 145368958 * (81 / 80) * (12960 / 13122)) := by
    unfold codeRatio
    rw [h0, h1]
    norm_num [Chebyshev.T_two, Chebyshev.T_one]
  refine ⟨_, skrockInit_eq 1, ?_, ?_, ?_⟩
  · simp [h0, h1]; norm_num
  · simp [h1, h2, List.range_succ]; norm_num
  · simp [h0, h2, List.range_succ]; norm_num

/-- Two stages with a gradient that is Lipschitz with constant at most `1/delta` at least double the distance of two points. -/
theorem skrock_two_stage (co : SkrockCoefs) (hco : skrockInit 2 = .ok co) (delta : ℝ) (hd : 0 ≤ delta)
    (G : (Fin p → ℂ) → (Fin p → ℂ)) (Lg : ℝ) (hL : ∀ x y, enorm2 (G x - G y) ≤ Lg * enorm2 (x - y)) (hs : delta * Lg ≤ 1)
    (x y z u v : Fin p → ℂ) (hu : skrockStep co 2 delta (fun v => .ok (G v)) x z = .ok u)
    (hv : skrockStep co 2 delta (fun v => .ok (G v)) y z = .ok v) : 2 * enorm2 (x - y) ≤ enorm2 (u - v) := by
  obtain ⟨co', h1, m1, m2, n2⟩ := skrockInit_two
  obtain rfl := Except.ok.inj (h1.symm.trans hco)
  have hstage : ∀ x : Fin p → ℂ, ∃ (b a : Fin p → ℂ), (b = fun i => x i + ((co'.nus.getD 1 0 * √(2 * delta) : ℝ) : ℂ) * z i) ∧
      a = fun i => x i + ((3361 / 13122 * delta : ℝ) : ℂ) * G b i + ((co'.ks.getD 1 0 * √(2 * delta) : ℝ) : ℂ) * z i :=
    fun x => ⟨_, _, rfl, rfl⟩
  obtain ⟨bx, ax, hbx, hax⟩ := hstage x
  obtain ⟨b', ay, hby, hay⟩ := hstage y
  have hform : ∀ x a b w : Fin p → ℂ, (b = fun i => x i + ((co'.nus.getD 1 0 * √(2 * delta) : ℝ) : ℂ) * z i) →
      (a = fun i => x i + ((3361 / 13122 * delta : ℝ) : ℂ) * G b i + ((co'.ks.getD 1 0 * √(2 * delta) : ℝ) : ℂ) * z i) →
      skrockStep co' 2 delta (fun v => .ok (G v)) x z = .ok w → w = fun i => ((-(44103042 / 72684479) * delta : ℝ) : ℂ) * G a i
        + ((-(172186884 / 72684479) : ℝ) : ℂ) * a i + ((co'.ks.getD 2 0 : ℝ) : ℂ) - x i := by
    intro x a b w hb ha hw
    subst hb ha
    simp only [skrockStep, kRec, bind, Except.bind, m1, m2, n2, Except.ok.injEq] at hw
    exact hw.symm
  replace hu := hform x ax bx u hbx hax hu
  replace hv := hform y ay b' v hby hay hv
  have hb : bx - b' = x - y := by
    rw [hbx, hby]
    funext i
    simp
  have l1 := hL bx b'
  rw [hb] at l1
  have l2 := hL ax ay
  have ha : ax - ay = (x - y) + fun i => ((3361 / 13122 * delta : ℝ) : ℂ) * (G bx - G b') i := by
    rw [hax, hay]
    funext i
    simp only [Pi.sub_apply, Pi.add_apply]
    ring
  have l3 : enorm2 (ax - ay) ≤ enorm2 (x - y) + 3361 / 13122 * delta * enorm2 (G bx - G b') := by
    rw [ha]
    refine (enorm2_add _ _).trans ?_
    rw [enorm2_smul, abs_of_nonneg (by positivity)]
  have huv : u - v = fun i => ((-(172186884 / 72684479) - 1 : ℝ) : ℂ) * (x - y) i +
      ((-(172186884 / 72684479) * (3361 / 13122 * delta) : ℝ) : ℂ) * (G bx - G b') i +
      ((-(44103042 / 72684479) * delta : ℝ) : ℂ) * (G ax - G ay) i := by
    rw [hu, hv]
    funext i
    have := congrFun ha i
    simp only [Pi.sub_apply, Pi.add_apply] at this ⊢
    push_cast at this ⊢
    linear_combination (-(172186884 / 72684479) : ℂ) * this
  have l4 := enorm2_lower (-(172186884 / 72684479) - 1) (x - y)
    (fun i => ((-(172186884 / 72684479) * (3361 / 13122 * delta) : ℝ) : ℂ) * (G bx - G b') i)
    (fun i => ((-(44103042 / 72684479) * delta : ℝ) : ℂ) * (G ax - G ay) i)
  rw [← huv, enorm2_smul, enorm2_smul, abs_of_neg (by norm_num), abs_of_nonpos (by nlinarith), abs_of_nonpos (by nlinarith)] at l4
  have n0 := enorm2_nonneg (x - y)
  have k1 : delta * enorm2 (G bx - G b') ≤ enorm2 (x - y) := by
    calc _ ≤ delta * (Lg * enorm2 (x - y)) := mul_le_mul_of_nonneg_left l1 hd
      _ = delta * Lg * enorm2 (x - y) := by ring
      _ ≤ 1 * enorm2 (x - y) := mul_le_mul_of_nonneg_right hs n0
      _ = _ := one_mul _
  have k2 : delta * enorm2 (G ax - G ay) ≤ enorm2 (ax - ay) := by
    calc _ ≤ delta * (Lg * enorm2 (ax - ay)) := mul_le_mul_of_nonneg_left l2 hd
      _ = delta * Lg * enorm2 (ax - ay) := by ring
      _ ≤ 1 * enorm2 (ax - ay) := mul_le_mul_of_nonneg_right hs (enorm2_nonneg _)
      _ = _ := one_mul _
  linarith

/-- Along a SKROCK chain each state is the step of the previous one with the noise of a stream that the state does not affect. -/
theorem skrock_chain (M : Sampler n) (R : Rng) (co : SkrockCoefs) {fwd : (Fin p → ℂ) → (Fin n → ℂ)}
    {grad : (Fin n → ℂ) → (Fin p → ℂ)} {prox : (Fin p → ℂ) → (Fin p → ℂ)} {pri : (Fin p → ℂ) → ℝ}
    (tot : Total M p fwd grad prox pri) (x0 : Fin p → ℂ) (r : R.σ) (m : ℕ) (T : ℕ → Cur R)
    (hT0 : T 0 = ⟨List.ofFn x0, List.ofFn (fwd x0), r⟩) (hT : ∀ k < m, skrockTransition M R co (T k) = .ok (T (k + 1))) :
    ∃ x : ℕ → Fin p → ℂ, x 0 = x0 ∧
      (∀ k ≤ m, T k = ⟨List.ofFn (x k), List.ofFn (fwd (x k)), rngSeq R M.par.complex p r k⟩) ∧
      ∀ k < m, skrockStep co M.par.s M.par.delta (fun v => .ok (gradVec M.par.lmda fwd grad prox v)) (x k)
        (noiseSeq R M.par.complex p r k) = .ok (x (k + 1)) := by
  choose f hf using fun (x : Fin p → ℂ) (r : R.σ) => skrockTransition_vec M R co tot x (List.ofFn (fwd x)) r
  let x : ℕ → Fin p → ℂ := fun k => Nat.rec x0 (fun k y => f y (rngSeq R M.par.complex p r k)) k
  have hx : ∀ k, x (k + 1) = f (x k) (rngSeq R M.par.complex p r k) := fun _ => rfl
  refine ⟨x, rfl, ?_, ?_⟩
  · intro k
    induction k with
    | zero => intro _; exact hT0
    | succ k ih =>
      intro hk
      have h2 := hT k (by omega)
      rw [ih (by omega), (hf _ _).2] at h2
      exact (Except.ok.inj h2).symm
  · intro k _
    rw [hx]
    exact (hf _ _).1

/-- The chains of C113 exist from every starting point. -/
theorem skrock_chain_exists (M : Sampler n) (R : Rng) (co : SkrockCoefs) {fwd : (Fin p → ℂ) → (Fin n → ℂ)}
    {grad : (Fin n → ℂ) → (Fin p → ℂ)} {prox : (Fin p → ℂ) → (Fin p → ℂ)} {pri : (Fin p → ℂ) → ℝ}
    (tot : Total M p fwd grad prox pri) (x0 : Fin p → ℂ) (r : R.σ) : ∃ T : ℕ → Cur R,
      T 0 = ⟨List.ofFn x0, List.ofFn (fwd x0), r⟩ ∧ ∀ k, skrockTransition M R co (T k) = .ok (T (k + 1)) := by
  choose f hf using fun (x : Fin p → ℂ) (r : R.σ) => skrockTransition_vec M R co tot x (List.ofFn (fwd x)) r
  let x : ℕ → (Fin p → ℂ) × R.σ := fun k =>
    Nat.rec (x0, r) (fun _ y => (f y.1 y.2, (drawVec R R.randn M.par.complex y.2 p).2)) k
  exact ⟨fun k => ⟨List.ofFn (x k).1, List.ofFn (fwd (x k).1), (x k).2⟩, rfl, fun k => (hf _ _).2⟩

/-- C113 (part that holds). With one stage two SKROCK chains of a convex model fed by the same random stream never separate, whatever
their starting points, if `delta (1/lmda + Lf) ≤ 2`. -/
theorem C113_one_stage_partial (M : Sampler n) (R : Rng) {fwd : (Fin p → ℂ) → (Fin n → ℂ)} {grad : (Fin n → ℂ) → (Fin p → ℂ)}
    {prox : (Fin p → ℂ) → (Fin p → ℂ)} {pri : (Fin p → ℂ) → ℝ} (tot : Total M p fwd grad prox pri)
    (g : (Fin p → ℂ) → ℝ) (hg : ConvexOn ℝ Set.univ g) (hprox : ∀ x, Spec.IsProx g x (prox x))
    (Q : Matrix (Fin p) (Fin p) ℂ) (hQ : Q.IsHermitian) (Lf : ℝ) (hL : 0 ≤ Lf)
    (h0 : ∀ v, 0 ≤ (Spec.inner v (Q.mulVec v)).re) (h1 : ∀ v, (Spec.inner v (Q.mulVec v)).re ≤ Lf * Spec.distSq v 0)
    (hlin : ∀ x y, grad (fwd x) - grad (fwd y) = Q.mulVec (x - y)) (hl : 0 < M.par.lmda) (hd : 0 ≤ M.par.delta)
    (hstep : M.par.delta * (1 / M.par.lmda + Lf) ≤ 2) (hs : M.par.s = 1) (co : SkrockCoefs) (hco : skrockInit 1 = .ok co)
    (x0 y0 : Fin p → ℂ) (r : R.σ) (m : ℕ) (T T' : ℕ → Cur R)
    (hT0 : T 0 = ⟨List.ofFn x0, List.ofFn (fwd x0), r⟩) (hT0' : T' 0 = ⟨List.ofFn y0, List.ofFn (fwd y0), r⟩)
    (hT : ∀ k < m, skrockTransition M R co (T k) = .ok (T (k + 1)))
    (hT' : ∀ k < m, skrockTransition M R co (T' k) = .ok (T' (k + 1))) :
    ∃ x y : ℕ → Fin p → ℂ, x 0 = x0 ∧ y 0 = y0 ∧
      (∀ k ≤ m, (T k).X = List.ofFn (x k) ∧ (T' k).X = List.ofFn (y k) ∧ (T k).rng = (T' k).rng) ∧
      ∀ k < m, Spec.distSq (x (k + 1)) (y (k + 1)) ≤ Spec.distSq (x k) (y k) := by
  obtain ⟨x, hx0, hx, hxs⟩ := skrock_chain M R co tot x0 r m T hT0 hT
  obtain ⟨y, hy0, hy, hys⟩ := skrock_chain M R co tot y0 r m T' hT0' hT'
  refine ⟨x, y, hx0, hy0, fun k hk => ?_, fun k hk => ?_⟩
  · rw [hx k hk, hy k hk]
    exact ⟨rfl, rfl, rfl⟩
  · have e1 := hxs k hk
    have e2 := hys k hk
    rw [hs] at e1 e2
    obtain ⟨c, hc⟩ := skrock_one_stage (p := p) co hco M.par.delta (gradVec M.par.lmda fwd grad prox)
    rw [hc] at e1 e2
    rw [← Except.ok.inj e1, ← Except.ok.inj e2]
    have := ula_nonexpansive g hg hprox Q hQ Lf hL h0 h1 hlin M.par.delta M.par.lmda hl hd hstep
      (fun i => x k i + (c : ℂ) * noiseSeq R M.par.complex p r k i)
      (fun i => y k i + (c : ℂ) * noiseSeq R M.par.complex p r k i) (noiseSeq R M.par.complex p r k)
    simpa only [Spec.distSq, sub_sub_sub_cancel_right, add_sub_add_right_eq_sub] using this

/-- C113 (refuted). With two stages and the smaller bound `delta (1/lmda + Lf) ≤ 1` the distance of two such chains at least doubles in
every step, so chains that do not start at the same point separate exponentially. -/
theorem C113_two_stage_refuted (M : Sampler n) (R : Rng) {fwd : (Fin p → ℂ) → (Fin n → ℂ)} {grad : (Fin n → ℂ) → (Fin p → ℂ)}
    {prox : (Fin p → ℂ) → (Fin p → ℂ)} {pri : (Fin p → ℂ) → ℝ} (tot : Total M p fwd grad prox pri)
    (g : (Fin p → ℂ) → ℝ) (hg : ConvexOn ℝ Set.univ g) (hprox : ∀ x, Spec.IsProx g x (prox x))
    (Q : Matrix (Fin p) (Fin p) ℂ) (hQ : Q.IsHermitian) (Lf : ℝ) (hL : 0 ≤ Lf)
    (h0 : ∀ v, 0 ≤ (Spec.inner v (Q.mulVec v)).re) (h1 : ∀ v, (Spec.inner v (Q.mulVec v)).re ≤ Lf * Spec.distSq v 0)
    (hlin : ∀ x y, grad (fwd x) - grad (fwd y) = Q.mulVec (x - y)) (hl : 0 < M.par.lmda) (hd : 0 ≤ M.par.delta)
    (hstep : M.par.delta * (1 / M.par.lmda + Lf) ≤ 1) (hs : M.par.s = 2) (co : SkrockCoefs) (hco : skrockInit 2 = .ok co)
    (x0 y0 : Fin p → ℂ) (r : R.σ) (m : ℕ) (T T' : ℕ → Cur R)
    (hT0 : T 0 = ⟨List.ofFn x0, List.ofFn (fwd x0), r⟩) (hT0' : T' 0 = ⟨List.ofFn y0, List.ofFn (fwd y0), r⟩)
    (hT : ∀ k < m, skrockTransition M R co (T k) = .ok (T (k + 1)))
    (hT' : ∀ k < m, skrockTransition M R co (T' k) = .ok (T' (k + 1))) :
    ∃ x y : ℕ → Fin p → ℂ, x 0 = x0 ∧ y 0 = y0 ∧
      (∀ k ≤ m, (T k).X = List.ofFn (x k) ∧ (T' k).X = List.ofFn (y k) ∧ (T k).rng = (T' k).rng) ∧
      ∀ k ≤ m, 4 ^ k * Spec.distSq x0 y0 ≤ Spec.distSq (x k) (y k) := by
  obtain ⟨x, hx0, hx, hxs⟩ := skrock_chain M R co tot x0 r m T hT0 hT
  obtain ⟨y, hy0, hy, hys⟩ := skrock_chain M R co tot y0 r m T' hT0' hT'
  refine ⟨x, y, hx0, hy0, fun k hk => ?_, fun k hk => ?_⟩
  · rw [hx k hk, hy k hk]
    exact ⟨rfl, rfl, rfl⟩
  · induction k with
    | zero => rw [hx0, hy0]; simp
    | succ k ih =>
      have e1 := hxs k (by omega)
      have e2 := hys k (by omega)
      rw [hs] at e1 e2
      have := skrock_two_stage co hco M.par.delta hd _ _
        (gradVec_lipschitz g hg hprox Q hQ Lf hL h0 h1 hlin M.par.lmda hl) hstep _ _ _ _ _ e1 e2
      have h3 := ih (by omega)
      have h4 := enorm2_nonneg (x k - y k)
      simp only [← enorm2_sub_sq] at h3 ⊢
      calc _ = 4 * (4 ^ k * enorm2 (x0 - y0) ^ 2) := by ring
        _ ≤ 4 * enorm2 (x k - y k) ^ 2 := by linarith
        _ = (2 * enorm2 (x k - y k)) ^ 2 := by ring
        _ ≤ _ := pow_le_pow_left₀ (by linarith) this 2

/-- The hypotheses of both theorems are met: soft thresholding with threshold 3, data term `Q = Lf = 1`, `lmda = 1`, `delta = 1/2`, one
and two stages, chains from 0 and from 1. -/
example (R : Rng) (r : R.σ) (s : ℕ) (hs : s = 1 ∨ s = 2) :
    ∃ (M : Sampler 1) (co : SkrockCoefs) (prox : (Fin 1 → ℂ) → (Fin 1 → ℂ)) (pri g : (Fin 1 → ℂ) → ℝ) (T T' : ℕ → Cur R),
    Total M 1 (fun x => x) (fun y => y) prox pri ∧ prox ≠ id ∧ ConvexOn ℝ Set.univ g ∧ (∀ x, Spec.IsProx g x (prox x)) ∧
    (1 : Matrix (Fin 1) (Fin 1) ℂ).IsHermitian ∧
    (∀ v : Fin 1 → ℂ, 0 ≤ (Spec.inner v ((1 : Matrix (Fin 1) (Fin 1) ℂ).mulVec v)).re) ∧
    (∀ v : Fin 1 → ℂ, (Spec.inner v ((1 : Matrix (Fin 1) (Fin 1) ℂ).mulVec v)).re ≤ 1 * Spec.distSq v 0) ∧
    (∀ x y : Fin 1 → ℂ, x - y = (1 : Matrix (Fin 1) (Fin 1) ℂ).mulVec (x - y)) ∧ 0 < M.par.lmda ∧ 0 < M.par.delta ∧
    M.par.delta * (1 / M.par.lmda + 1) ≤ 1 ∧ M.par.s = s ∧ skrockInit s = .ok co ∧
    T 0 = ⟨[0], [0], r⟩ ∧ T' 0 = ⟨[1], [1], r⟩ ∧ (∀ k, skrockTransition M R co (T k) = .ok (T (k + 1))) ∧
    (∀ k, skrockTransition M R co (T' k) = .ok (T' (k + 1))) := by
  have hr : ∀ v : Fin 1 → ℂ, (Spec.inner v ((1 : Matrix (Fin 1) (Fin 1) ℂ).mulVec v)).re = Spec.distSq v 0 := by
    intro v
    rw [Matrix.one_mulVec, ← rip_eq_inner, rip_self]
  have hd : ∀ par : Params, par.lmda ≠ 0 → Total (demo par) 1 (fun x => x) (fun y => y) (fun x => x) (fun _ => 0) := demo_total
  have h0 := hd ⟨1, 1 / 2, 1, s, 4, 3, 2, true, 0, ["chain"]⟩ one_ne_zero
  obtain ⟨co, hco⟩ : ∃ co, skrockInit s = .ok co := by
    rcases hs with rfl | rfl
    · exact ⟨_, skrockInit_eq 0⟩
    · exact ⟨_, skrockInit_eq 1⟩
  have tot : Total (demoL1 3 ⟨1, 1 / 2, 1, s, 4, 3, 2, true, 0, ["chain"]⟩) 1 (fun x => x) (fun y => y)
      (fun x i => softEntry (x i) 3) (fun x => ∑ i, ‖x i‖) := by
    refine ⟨rfl, h0.forward, h0.gradg, fun x => soft_scalar x 3, fun x => ?_, one_ne_zero⟩
    show Except.ok _ = _
    rw [L1.prior, norm_sum_ofFn]
  obtain ⟨T, hT0, hT⟩ := skrock_chain_exists _ R co tot (fun _ => 0) r
  obtain ⟨T', hT0', hT'⟩ := skrock_chain_exists _ R co tot (fun _ => 1) r
  refine ⟨_, co, _, _, Spec.wl1 fun _ => 3, T, T', tot, ?_,
    wl1_convex _ fun _ => by norm_num, fun x => softEntry_isProx x (fun _ => 3) fun _ => by norm_num, Matrix.isHermitian_one,
    fun v => ?_, fun v => ?_, fun x y => (Matrix.one_mulVec _).symm, one_pos, ?_, ?_, rfl, hco, ?_, ?_, hT, hT'⟩
  · intro h
    have := congrFun (congrFun h fun _ => 1) 0
    simp [softEntry] at this
  · rw [hr, ← rip_self]
    exact rip_self_nonneg v
  · rw [hr, one_mul]
  · show (0 : ℝ) < 1 / 2
    norm_num
  · show (1 / 2 : ℝ) * (1 / 1 + 1) ≤ 1
    norm_num
  · rw [hT0]; simp
  · rw [hT0']; simp

end Pxmcmc
