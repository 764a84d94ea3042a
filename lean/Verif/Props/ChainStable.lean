import Verif.Props.Myula
import Verif.Props.Prior
import Mathlib.Analysis.Convex.Function
import Mathlib.LinearAlgebra.Matrix.Hermitian

/-! # Property C47: stability of MYULA -/

namespace Pxmcmc
variable {n p : ℕ}

/-- Real inner product of two complex vectors. -/
noncomputable def rip (u v : Fin p → ℂ) : ℝ := ∑ i, ((u i).re * (v i).re + (u i).im * (v i).im)

theorem rip_self (u : Fin p → ℂ) : rip u u = Spec.distSq u 0 := by
  unfold rip Spec.distSq
  refine Finset.sum_congr rfl fun i _ => ?_
  rw [Pi.zero_apply, sub_zero, Complex.sq_norm, Complex.normSq_apply]

theorem rip_self_nonneg (u : Fin p → ℂ) : 0 ≤ rip u u := by
  rw [rip_self]
  exact Finset.sum_nonneg fun i _ => sq_nonneg _

theorem rip_sub (u v : Fin p → ℂ) : rip (u - v) (u - v) = Spec.distSq u v := by
  rw [rip_self]
  simp [Spec.distSq]

theorem rip_eq_inner (u v : Fin p → ℂ) : rip u v = (Spec.inner u v).re := by
  unfold rip Spec.inner
  rw [Complex.re_sum]
  refine Finset.sum_congr rfl fun i _ => ?_
  simp

theorem rip_comm (u v : Fin p → ℂ) : rip u v = rip v u := by
  unfold rip
  exact Finset.sum_congr rfl fun i _ => by ring

theorem rip_add_left (u v w : Fin p → ℂ) : rip (u + v) w = rip u w + rip v w := by
  unfold rip
  rw [← Finset.sum_add_distrib]
  exact Finset.sum_congr rfl fun i _ => by simp; ring

theorem rip_smul_left (c : ℝ) (u w : Fin p → ℂ) : rip (fun i => (c : ℂ) * u i) w = c * rip u w := by
  unfold rip
  rw [Finset.mul_sum]
  exact Finset.sum_congr rfl fun i _ => by simp; ring

theorem rip_comb (a b c : ℝ) (u v w : Fin p → ℂ) :
    rip (fun i => (a : ℂ) * u i + b * v i + c * w i) (fun i => (a : ℂ) * u i + b * v i + c * w i) =
      a ^ 2 * rip u u + b ^ 2 * rip v v + c ^ 2 * rip w w + 2 * a * b * rip u v + 2 * a * c * rip u w
        + 2 * b * c * rip v w := by
  unfold rip
  simp only [Finset.mul_sum, ← Finset.sum_add_distrib]
  exact Finset.sum_congr rfl fun i _ => by simp; ring

/-- A Hermitian matrix with `0 ≤ Q ≤ Lf` satisfies `‖Qv‖² ≤ Lf ⟨Qv, v⟩`. -/
theorem cocoercive (Q : Matrix (Fin p) (Fin p) ℂ) (hQ : Q.IsHermitian) (Lf : ℝ) (hL : 0 ≤ Lf)
    (h0 : ∀ v, 0 ≤ (Spec.inner v (Q.mulVec v)).re) (h1 : ∀ v, (Spec.inner v (Q.mulVec v)).re ≤ Lf * Spec.distSq v 0)
    (v : Fin p → ℂ) : rip (Q.mulVec v) (Q.mulVec v) ≤ Lf * rip (Q.mulVec v) v := by
  have hsym : ∀ u w : Fin p → ℂ, rip u (Q.mulVec w) = rip (Q.mulVec u) w := by
    intro u w
    rw [rip_eq_inner, rip_eq_inner]
    congr 1
    have e : ∀ a b : Fin p → ℂ, Spec.inner a b = star a ⬝ᵥ b := fun a b => rfl
    rw [e, e, Matrix.star_mulVec, hQ.eq, Matrix.dotProduct_mulVec]
  set w := Q.mulVec v with hw
  set b := rip w w with hb
  have key : ∀ t : ℝ, 0 ≤ rip w v - 2 * t * b + t ^ 2 * (Lf * b) := by
    intro t
    have hz := h0 (fun i => v i + ((-t : ℝ) : ℂ) * w i)
    rw [← rip_eq_inner] at hz
    have hlin : Q.mulVec (fun i => v i + ((-t : ℝ) : ℂ) * w i) = fun i => w i + ((-t : ℝ) : ℂ) * (Q.mulVec w) i := by
      have : (fun i => v i + ((-t : ℝ) : ℂ) * w i) = v + ((-t : ℝ) : ℂ) • w := rfl
      rw [this, Matrix.mulVec_add, Matrix.mulVec_smul]
      rfl
    rw [hlin] at hz
    have hexp : rip (fun i => v i + ((-t : ℝ) : ℂ) * w i) (fun i => w i + ((-t : ℝ) : ℂ) * (Q.mulVec w) i) =
        rip v w - t * rip v (Q.mulVec w) - t * rip w w + t ^ 2 * rip w (Q.mulVec w) := by
      unfold rip
      simp only [Finset.mul_sum, ← Finset.sum_add_distrib, ← Finset.sum_sub_distrib]
      exact Finset.sum_congr rfl fun i _ => by simp; ring
    rw [hexp, hsym v w, ← hw] at hz
    have h2 := h1 w
    rw [← rip_eq_inner, ← rip_self] at h2
    have : t ^ 2 * rip w (Q.mulVec w) ≤ t ^ 2 * (Lf * b) := mul_le_mul_of_nonneg_left h2 (sq_nonneg t)
    rw [rip_comm v w] at hz
    linarith
  rcases hL.eq_or_lt with rfl | hpos
  · have hb0 : 0 ≤ b := rip_self_nonneg w
    have ha := h1 v
    rw [← rip_eq_inner, ← hw, rip_comm] at ha
    have := key 1
    linarith
  · have h := key (1 / Lf)
    have e : rip w v - 2 * (1 / Lf) * b + (1 / Lf) ^ 2 * (Lf * b) = rip w v - b / Lf := by
      field_simp
      ring
    rw [e] at h
    have : b / Lf ≤ rip w v := by linarith
    rwa [div_le_iff₀ hpos, mul_comm] at this

/-- A proximal point satisfies the variational inequality `g a - g b ≤ ⟨a - x, b - a⟩`. -/
theorem prox_half (g : (Fin p → ℂ) → ℝ) (hg : ConvexOn ℝ Set.univ g) (x a b : Fin p → ℂ) (ha : Spec.IsProx g x a) :
    g a - g b ≤ rip (a - x) (b - a) := by
  have h : ∀ t : ℝ, 0 < t → t ≤ 1 → g a - g b ≤ rip (a - x) (b - a) + t * (rip (b - a) (b - a) / 2) := by
    intro t ht ht1
    have hle : Spec.distSq a x / 2 + g a ≤ Spec.distSq ((1 - t) • a + t • b) x / 2 + g ((1 - t) • a + t • b) := by
      by_cases he : (1 - t) • a + t • b = a
      · rw [he]
      · exact (ha _ he).le
    have hc := hg.2 (Set.mem_univ a) (Set.mem_univ b) (sub_nonneg.mpr ht1) ht.le (by ring)
    simp only [smul_eq_mul] at hc
    have hexp : Spec.distSq ((1 - t) • a + t • b) x = Spec.distSq a x + 2 * t * rip (a - x) (b - a)
        + t ^ 2 * rip (b - a) (b - a) := by
      unfold Spec.distSq rip
      simp only [Finset.mul_sum, ← Finset.sum_add_distrib]
      refine Finset.sum_congr rfl fun i _ => ?_
      rw [Complex.sq_norm, Complex.sq_norm, Complex.normSq_apply, Complex.normSq_apply]
      simp
      ring
    rw [hexp] at hle
    have h3 : t * (g a - g b) ≤ t * (rip (a - x) (b - a) + t * (rip (b - a) (b - a) / 2)) := by nlinarith
    exact le_of_mul_le_mul_left h3 ht
  have hn := rip_self_nonneg (b - a)
  by_contra hcon
  push Not at hcon
  set c := rip (b - a) (b - a) / 2 with hcdef
  set e := g a - g b - rip (a - x) (b - a) with he
  have hepos : 0 < e := by linarith
  have hc0 : 0 ≤ c := by positivity
  have := h (min 1 (e / (2 * (c + 1)))) (lt_min one_pos (by positivity)) (min_le_left _ _)
  have h2 : min 1 (e / (2 * (c + 1))) * c ≤ e / 2 := by
    calc min 1 (e / (2 * (c + 1))) * c ≤ e / (2 * (c + 1)) * c := mul_le_mul_of_nonneg_right (min_le_right _ _) hc0
      _ ≤ e / 2 := by
        rw [div_mul_eq_mul_div, div_le_div_iff₀ (by positivity) (by norm_num)]
        nlinarith
  linarith

/-- The proximal map of a convex function is firmly non-expansive. -/
theorem prox_firm (g : (Fin p → ℂ) → ℝ) (hg : ConvexOn ℝ Set.univ g) (x y a b : Fin p → ℂ) (ha : Spec.IsProx g x a)
    (hb : Spec.IsProx g y b) : rip (a - b) (a - b) ≤ rip (a - b) (x - y) := by
  have h1 := prox_half g hg x a b ha
  have h2 := prox_half g hg y b a hb
  have e : rip (a - x) (b - a) + rip (b - y) (a - b) = rip (a - b) (x - y) - rip (a - b) (a - b) := by
    unfold rip
    rw [← Finset.sum_add_distrib, ← Finset.sum_sub_distrib]
    exact Finset.sum_congr rfl fun i _ => by simp; ring
  linarith

/-- The contraction estimate for one step. -/
theorem step_contract (d e w : Fin p → ℂ) (q delta Lf : ℝ) (hq : 0 ≤ q) (hd : 0 ≤ delta) (hL : 0 ≤ Lf)
    (hsum : q + delta * Lf ≤ 2) (he : rip e e ≤ rip e d) (hw : rip w w ≤ Lf * rip w d) :
    rip (fun i => ((1 : ℝ) : ℂ) * d i + ((-q : ℝ) : ℂ) * e i + ((-delta : ℝ) : ℂ) * w i)
      (fun i => ((1 : ℝ) : ℂ) * d i + ((-q : ℝ) : ℂ) * e i + ((-delta : ℝ) : ℂ) * w i) ≤ rip d d := by
  rw [rip_comb]
  rw [rip_comm d e, rip_comm d w]
  have hA := rip_self_nonneg e
  have hB := rip_self_nonneg w
  rcases hL.eq_or_lt with rfl | hpos
  · have hw0 : rip w w = 0 := by linarith
    have hz : ∀ i, w i = 0 := by
      rw [rip_self] at hw0
      intro i
      have := (Finset.sum_eq_zero_iff_of_nonneg fun i _ => sq_nonneg _).mp hw0 i (Finset.mem_univ i)
      simpa using this
    have r1 : rip w d = 0 := by simp [rip, hz]
    have r2 : rip e w = 0 := by simp [rip, hz]
    rw [r1, r2, hw0]
    nlinarith [mul_nonneg hq hA, mul_nonneg hq (sub_nonneg.mpr he)]
  · have hcross : 2 * Lf * rip e w ≤ Lf ^ 2 * rip e e + rip w w := by
      have := rip_self_nonneg (fun i => ((Lf : ℝ) : ℂ) * e i + ((-1 : ℝ) : ℂ) * w i + ((0 : ℝ) : ℂ) * w i)
      rw [rip_comb] at this
      linarith
    set A := rip e e
    set B := rip w w
    set C := rip e w
    set E := rip e d
    set F := rip w d
    set D := rip d d
    -- multiply by Lf
    have goal : Lf * (q ^ 2 * A + delta ^ 2 * B + 2 * q * delta * C) ≤ Lf * (2 * q * E + 2 * delta * F) := by
      have s1 : q * delta * (2 * Lf * C) ≤ q * delta * (Lf ^ 2 * A + B) :=
        mul_le_mul_of_nonneg_left hcross (mul_nonneg hq hd)
      have s2 : Lf * q * A * (q + delta * Lf) ≤ Lf * q * A * 2 :=
        mul_le_mul_of_nonneg_left hsum (by positivity)
      have s3 : delta * B * (q + delta * Lf) ≤ delta * B * 2 :=
        mul_le_mul_of_nonneg_left hsum (by positivity)
      have s4 : Lf * q * A ≤ Lf * q * E := mul_le_mul_of_nonneg_left he (by positivity)
      have s5 : delta * B ≤ delta * (Lf * F) := mul_le_mul_of_nonneg_left hw hd
      nlinarith
    have := le_of_mul_le_mul_left goal hpos
    nlinarith

/-- One noisy gradient step of a convex model with a small enough step size does not separate two points. -/
theorem ula_nonexpansive {fwd : (Fin p → ℂ) → (Fin n → ℂ)} {grad : (Fin n → ℂ) → (Fin p → ℂ)}
    {prox : (Fin p → ℂ) → (Fin p → ℂ)} (g : (Fin p → ℂ) → ℝ) (hg : ConvexOn ℝ Set.univ g)
    (hprox : ∀ x, Spec.IsProx g x (prox x))
    (Q : Matrix (Fin p) (Fin p) ℂ) (hQ : Q.IsHermitian) (Lf : ℝ) (hL : 0 ≤ Lf)
    (h0 : ∀ v, 0 ≤ (Spec.inner v (Q.mulVec v)).re) (h1 : ∀ v, (Spec.inner v (Q.mulVec v)).re ≤ Lf * Spec.distSq v 0)
    (hlin : ∀ x y, grad (fwd x) - grad (fwd y) = Q.mulVec (x - y)) (delta lmda : ℝ) (hl : 0 < lmda) (hd : 0 ≤ delta)
    (hstep : delta * (1 / lmda + Lf) ≤ 2) (x y w : Fin p → ℂ) :
    Spec.distSq (ulaStep delta (gradVec lmda fwd grad prox) x w) (ulaStep delta (gradVec lmda fwd grad prox) y w) ≤
      Spec.distSq x y := by
  rw [← rip_sub, ← rip_sub]
  have hf := prox_firm g hg x y _ _ (hprox x) (hprox y)
  set P := prox x - prox y with hP
  set d := x - y with hdd
  have he : rip (d - P) (d - P) ≤ rip (d - P) d := by
    have e1 : rip (d - P) d - rip (d - P) (d - P) = rip P d - rip P P := by
      unfold rip
      rw [← Finset.sum_sub_distrib, ← Finset.sum_sub_distrib]
      exact Finset.sum_congr rfl fun i _ => by simp; ring
    linarith
  have hc := step_contract d (d - P) (Q.mulVec d) (delta / lmda) delta Lf (by positivity) hd hL
    (by rw [mul_add, mul_one_div] at hstep; exact hstep) he (cocoercive Q hQ Lf hL h0 h1 d)
  have heq : ulaStep delta (gradVec lmda fwd grad prox) x w -
      ulaStep delta (gradVec lmda fwd grad prox) y w =
      fun i => ((1 : ℝ) : ℂ) * d i + ((-(delta / lmda) : ℝ) : ℂ) * (d - P) i
        + ((-delta : ℝ) : ℂ) * Q.mulVec d i := by
    funext i
    have hli := congrFun (hlin x y) i
    rw [← hdd] at hli
    rw [← hli]
    simp only [ulaStep, gradVec, Pi.sub_apply, hdd, hP]
    push_cast
    ring
  rw [heq]
  exact hc

/-- C47: two MYULA chains driven by the same random stream.  The prior's `proxf` is the proximal map of a convex function,
the data term is linear with Hermitian `0 ≤ Q ≤ Lf` and `0 ≤ delta`, `delta*(1/lmda + Lf) ≤ 2` (twice the step size asked
for in the property; with `Lf = 0`, no data term, this is `delta ≤ 2*lmda`).  Then as long as the chains run their samples
never move apart. -/
theorem C47_never_separate (M : Sampler n) (R : Rng) {fwd : (Fin p → ℂ) → (Fin n → ℂ)} {grad : (Fin n → ℂ) → (Fin p → ℂ)}
    {prox : (Fin p → ℂ) → (Fin p → ℂ)} {pri : (Fin p → ℂ) → ℝ} (tot : Total M p fwd grad prox pri)
    (g : (Fin p → ℂ) → ℝ) (hg : ConvexOn ℝ Set.univ g) (hprox : ∀ x, Spec.IsProx g x (prox x))
    (Q : Matrix (Fin p) (Fin p) ℂ) (hQ : Q.IsHermitian) (Lf : ℝ) (hL : 0 ≤ Lf)
    (h0 : ∀ v, 0 ≤ (Spec.inner v (Q.mulVec v)).re) (h1 : ∀ v, (Spec.inner v (Q.mulVec v)).re ≤ Lf * Spec.distSq v 0)
    (hlin : ∀ x y, grad (fwd x) - grad (fwd y) = Q.mulVec (x - y)) (hl : 0 < M.par.lmda) (hd : 0 ≤ M.par.delta)
    (hstep : M.par.delta * (1 / M.par.lmda + Lf) ≤ 2) (x0 y0 : Fin p → ℂ) (r : R.σ) (m : ℕ) (T T' : ℕ → Cur R)
    (hT0 : T 0 = ⟨List.ofFn x0, List.ofFn (fwd x0), r⟩) (hT0' : T' 0 = ⟨List.ofFn y0, List.ofFn (fwd y0), r⟩)
    (hT : ∀ k < m, myulaStep M R (T k) = .ok (T (k + 1))) (hT' : ∀ k < m, myulaStep M R (T' k) = .ok (T' (k + 1))) :
    ∃ x y : ℕ → Fin p → ℂ, x 0 = x0 ∧ y 0 = y0 ∧
      (∀ k ≤ m, (T k).X = List.ofFn (x k) ∧ (T' k).X = List.ofFn (y k) ∧ (T k).rng = (T' k).rng) ∧
      ∀ k < m, Spec.distSq (x (k + 1)) (y (k + 1)) ≤ Spec.distSq (x k) (y k) := by
  have one := ula_nonexpansive g hg hprox Q hQ Lf hL h0 h1 hlin M.par.delta M.par.lmda hl hd hstep
  set f := ulaStep M.par.delta (gradVec M.par.lmda fwd grad prox) with hf
  have hrep : ∀ (z0 : Fin p → ℂ) (U : ℕ → Cur R), U 0 = ⟨List.ofFn z0, List.ofFn (fwd z0), r⟩ →
      (∀ k < m, myulaStep M R (U k) = .ok (U (k + 1))) → ∀ k ≤ m,
      U k = ⟨List.ofFn (iter f (noiseSeq R M.par.complex p r) z0 k),
        List.ofFn (fwd (iter f (noiseSeq R M.par.complex p r) z0 k)), rngSeq R M.par.complex p r k⟩ := by
    intro z0 U hU0 hU k
    induction k with
    | zero => intro _; rw [hU0]; rfl
    | succ k ih =>
      intro hk
      have h2 := hU k (by omega)
      rw [ih (by omega), myulaStep_vec M R tot] at h2
      exact (Except.ok.inj h2).symm
  refine ⟨iter f (noiseSeq R M.par.complex p r) x0, iter f (noiseSeq R M.par.complex p r) y0, rfl, rfl, ?_, ?_⟩
  · intro k hk
    rw [hrep x0 T hT0 hT k hk, hrep y0 T' hT0' hT' k hk]
    exact ⟨rfl, rfl, rfl⟩
  · intro k _
    exact one _ _ _

/-- The weighted `l1` norm is convex. -/
theorem wl1_convex (w : Fin p → ℝ) (hw : ∀ i, 0 ≤ w i) : ConvexOn ℝ Set.univ (Spec.wl1 w : (Fin p → ℂ) → ℝ) := by
  refine ⟨convex_univ, fun x _ y _ a b ha hb _ => ?_⟩
  unfold Spec.wl1
  rw [smul_eq_mul, smul_eq_mul, Finset.mul_sum, Finset.mul_sum, ← Finset.sum_add_distrib]
  refine Finset.sum_le_sum fun i _ => ?_
  have h1 : ‖(a • x + b • y) i‖ ≤ a * ‖x i‖ + b * ‖y i‖ := by
    refine (norm_add_le _ _).trans (add_le_add ?_ ?_)
    · rw [Pi.smul_apply, norm_smul, Real.norm_of_nonneg ha]
    · rw [Pi.smul_apply, norm_smul, Real.norm_of_nonneg hb]
  nlinarith [mul_le_mul_of_nonneg_left h1 (hw i)]

/-- A sampler with the synthesis `L1` prior of threshold `t` and the one-pixel identity operator. -/
noncomputable def demoL1 (t : ℝ) (par : Params) : Sampler 1 where
  F := idOp false 0 1
  P := ⟨fun X => .ok (L1.prior (⟨.synthesis, fun x => .ok x, fun x => .ok x, .scalar t⟩ : L1 ℂ) X),
    L1.proxf ⟨.synthesis, fun x => .ok x, fun x => .ok x, .scalar t⟩⟩
  par := par
  nparams := 1

/-- The hypotheses of C47 are met: soft thresholding with threshold 3, data term `Q = Lf = 1`, `lmda = 1`, and the largest
step size `delta = 1`. -/
example : ∃ (M : Sampler 1) (prox : (Fin 1 → ℂ) → (Fin 1 → ℂ)) (pri g : (Fin 1 → ℂ) → ℝ),
    Total M 1 (fun x => x) (fun y => y) prox pri ∧ prox ≠ id ∧ ConvexOn ℝ Set.univ g ∧ (∀ x, Spec.IsProx g x (prox x)) ∧
    (1 : Matrix (Fin 1) (Fin 1) ℂ).IsHermitian ∧
    (∀ v : Fin 1 → ℂ, 0 ≤ (Spec.inner v ((1 : Matrix (Fin 1) (Fin 1) ℂ).mulVec v)).re) ∧
    (∀ v : Fin 1 → ℂ, (Spec.inner v ((1 : Matrix (Fin 1) (Fin 1) ℂ).mulVec v)).re ≤ 1 * Spec.distSq v 0) ∧
    (∀ x y : Fin 1 → ℂ, x - y = (1 : Matrix (Fin 1) (Fin 1) ℂ).mulVec (x - y)) ∧ 0 < M.par.lmda ∧ 0 ≤ M.par.delta ∧
    M.par.delta * (1 / M.par.lmda + 1) ≤ 2 := by
  have hr : ∀ v : Fin 1 → ℂ, (Spec.inner v ((1 : Matrix (Fin 1) (Fin 1) ℂ).mulVec v)).re = Spec.distSq v 0 := by
    intro v
    rw [Matrix.one_mulVec, ← rip_eq_inner, rip_self]
  have hd : ∀ par : Params, par.lmda ≠ 0 → Total (demo par) 1 (fun x => x) (fun y => y) (fun x => x) (fun _ => 0) := demo_total
  have h0 := hd ⟨1, 1, 1, 1, 4, 3, 2, true, 0, ["chain"]⟩ one_ne_zero
  refine ⟨demoL1 3 ⟨1, 1, 1, 1, 4, 3, 2, true, 0, ["chain"]⟩, fun x i => softEntry (x i) 3, fun x => ∑ i, ‖x i‖,
    Spec.wl1 fun _ => 3, ⟨rfl, h0.forward, h0.gradg, fun x => soft_scalar x 3, fun x => ?_, one_ne_zero⟩, ?_,
    wl1_convex _ fun _ => by norm_num, fun x => softEntry_isProx x (fun _ => 3) fun _ => by norm_num, Matrix.isHermitian_one,
    fun v => ?_, fun v => ?_, fun x y => (Matrix.one_mulVec _).symm, one_pos, zero_le_one, ?_⟩
  · show Except.ok _ = _
    rw [L1.prior, norm_sum_ofFn]
  · intro h
    have := congrFun (congrFun h fun _ => 1) 0
    simp [softEntry] at this
  · rw [hr, ← rip_self]
    exact rip_self_nonneg v
  · rw [hr, one_mul]
  · show (1 : ℝ) * (1 / 1 + 1) ≤ 2
    norm_num

end Pxmcmc
