import Verif.Model.Rounded
import Verif.Props.Robust
import Verif.Props.Orthonormal

/-! # Property C162: rounding errors of MYULA do not accumulate -/

namespace Pxmcmc
variable {n p : ℕ}

/-- Every operation has relative error at most `u` (for doubles without overflow and underflow `u = 2^-53`). -/
structure RoundsWithin (fl : Rounding) (u : ℝ) : Prop where
  nonneg : 0 ≤ u
  re : ∀ x, |fl.re x - x| ≤ u * |x|
  cx : ∀ z, ‖fl.cx z - z‖ ≤ u * ‖z‖

/-! ## One entry of one step -/

theorem fl_grow {u : ℝ} (hu : 0 ≤ u) {a m x y z : ℝ} {k : ℕ} (hx : x ≤ u * y) (hy : y ≤ a + z) (hz : z ≤ ((1 + u) ^ k - 1) * m) (ha : a ≤ m) :
    x + z ≤ ((1 + u) ^ (k + 1) - 1) * m := by
  have h1 : u * y ≤ u * (m + ((1 + u) ^ k - 1) * m) := mul_le_mul_of_nonneg_left (by linarith) hu
  rw [pow_succ]
  nlinarith

/-- Rounding a number that has already gone through `k` roundings; `m` bounds the exact number. -/
theorem fl_cx {fl : Rounding} {u : ℝ} (h : RoundsWithin fl u) {a b : ℂ} {m : ℝ} {k : ℕ} (hb : ‖b - a‖ ≤ ((1 + u) ^ k - 1) * m) (ha : ‖a‖ ≤ m) :
    ‖fl.cx b - a‖ ≤ ((1 + u) ^ (k + 1) - 1) * m := by
  refine (norm_sub_le_norm_sub_add_norm_sub _ b _).trans (fl_grow h.nonneg (h.cx b) ?_ hb ha)
  have := norm_add_le a (b - a)
  rwa [add_sub_cancel] at this

theorem fl_re {fl : Rounding} {u : ℝ} (h : RoundsWithin fl u) {a b m : ℝ} {k : ℕ} (hb : |b - a| ≤ ((1 + u) ^ k - 1) * m) (ha : |a| ≤ m) :
    |fl.re b - a| ≤ ((1 + u) ^ (k + 1) - 1) * m := by
  refine (abs_sub_le _ b _).trans (fl_grow h.nonneg (h.re b) ?_ hb ha)
  have := abs_add_le a (b - a)
  rwa [add_sub_cancel] at this

theorem err_mono {u : ℝ} (hu : 0 ≤ u) {j k : ℕ} (h : j ≤ k) {m x : ℝ} (hm : 0 ≤ m) (hx : x ≤ ((1 + u) ^ j - 1) * m) :
    x ≤ ((1 + u) ^ k - 1) * m :=
  hx.trans (mul_le_mul_of_nonneg_right (sub_le_sub_right (pow_le_pow_right₀ (by linarith) h) 1) hm)

/-- A rounded factor times an exact number. -/
theorem fl_scale {E s t m : ℝ} (h : |t - s| ≤ E * m) (x : ℂ) : ‖(t : ℂ) * x - (s : ℂ) * x‖ ≤ E * (m * ‖x‖) := by
  rw [← sub_mul, norm_mul, ← Complex.ofReal_sub, Complex.norm_real, Real.norm_eq_abs, ← mul_assoc]
  exact mul_le_mul_of_nonneg_right h (norm_nonneg _)

theorem fl_add {E a b : ℝ} {x y z w : ℂ} (h1 : ‖x - z‖ ≤ E * a) (h2 : ‖y - w‖ ≤ E * b) : ‖x + y - (z + w)‖ ≤ E * (a + b) := by
  rw [add_sub_add_comm, mul_add]
  exact (norm_add_le _ _).trans (add_le_add h1 h2)

theorem fl_sub {E a b : ℝ} {x y z w : ℂ} (h1 : ‖x - z‖ ≤ E * a) (h2 : ‖y - w‖ ≤ E * b) : ‖x - y - (z - w)‖ ≤ E * (a + b) := by
  rw [sub_sub_sub_comm, mul_add]
  exact (norm_sub_le _ _).trans (add_le_add h1 h2)

/-- The entry that `chain_step` computes. -/
noncomputable def flEntry (fl : Rounding) (delta lmda : ℝ) (x px g w : ℂ) : ℂ :=
  fl.cx (fl.cx (fl.cx (fl.cx (((fl.re (1 - fl.re (delta / lmda)) : ℝ) : ℂ) * x) + fl.cx (((fl.re (delta / lmda) : ℝ) : ℂ) * px)) -
    fl.cx ((delta : ℂ) * g)) + fl.cx (((fl.re (√(fl.re (2 * delta))) : ℝ) : ℂ) * w))

theorem sqrt_fl {d e u : ℝ} (hd : 0 ≤ d) (hu : 0 ≤ u) (h : |e - d| ≤ u * d) : |√e - √d| ≤ u * √d := by
  have hs := Real.sqrt_nonneg d
  have hq := Real.mul_self_sqrt hd
  have h1 := (abs_le.mp h).2
  have h2 := (abs_le.mp h).1
  rw [abs_le]
  constructor
  · rcases le_or_gt 1 u with h3 | h3
    · nlinarith [Real.sqrt_nonneg e]
    · have : √d * (1 - u) ≤ √e := by
        refine Real.le_sqrt_of_sq_le ?_
        rw [mul_pow, Real.sq_sqrt hd]
        nlinarith [mul_nonneg (mul_nonneg hu hd) (sub_nonneg.mpr h3.le)]
      nlinarith
  · have : √e ≤ √d * (1 + u) := by
      refine Real.sqrt_le_iff.mpr ⟨by positivity, ?_⟩
      nlinarith [mul_nonneg hu hd, mul_nonneg (mul_nonneg hu hu) hd]
    nlinarith

/-- The error of one entry. -/
theorem flEntry_error {fl : Rounding} {u : ℝ} (h : RoundsWithin fl u) {delta lmda : ℝ} (hd : 0 ≤ delta) (hl : 0 < lmda) (x px g w : ℂ) :
    ‖flEntry fl delta lmda x px g w - (x + (delta : ℂ) * (-((x - px) / (lmda : ℂ)) - g) + ((√(2 * delta) : ℝ) : ℂ) * w)‖ ≤
      ((1 + u) ^ 6 - 1) * ((1 + delta / lmda) * ‖x‖ + delta / lmda * ‖px‖ + delta * ‖g‖ + √(2 * delta) * ‖w‖) := by
  have hq : 0 ≤ delta / lmda := div_nonneg hd hl.le
  have hl' : (lmda : ℂ) ≠ 0 := by exact_mod_cast hl.ne'
  have e : x + (delta : ℂ) * (-((x - px) / (lmda : ℂ)) - g) + ((√(2 * delta) : ℝ) : ℂ) * w =
      ((1 - delta / lmda : ℝ) : ℂ) * x + ((delta / lmda : ℝ) : ℂ) * px - (delta : ℂ) * g + ((√(2 * delta) : ℝ) : ℂ) * w := by
    push_cast
    field_simp
    ring
  rw [e]
  unfold flEntry
  generalize delta / lmda = q at hq ⊢
  have hu := h.nonneg
  have k0 : ∀ m : ℝ, ((1 + u) ^ 0 - 1) * m = 0 := fun m => by simp
  have q1 : |fl.re q - q| ≤ ((1 + u) ^ 1 - 1) * q := fl_re (k := 0) h (by simp) (abs_of_nonneg hq).le
  have s1 : |1 - fl.re q - (1 - q)| ≤ ((1 + u) ^ 1 - 1) * (1 + q) := by
    rw [show 1 - fl.re q - (1 - q) = -(fl.re q - q) by ring, abs_neg]
    refine q1.trans (mul_le_mul_of_nonneg_left (by linarith) (by simp [hu]))
  have a1q : |1 - q| ≤ 1 + q := by
    rw [abs_le]
    constructor <;> linarith
  have s2 := fl_re h s1 a1q
  have nx : ‖((1 - q : ℝ) : ℂ) * x‖ ≤ (1 + q) * ‖x‖ := by
    rw [norm_mul, Complex.norm_real, Real.norm_eq_abs]
    exact mul_le_mul_of_nonneg_right a1q (norm_nonneg _)
  have nr : ∀ (t : ℝ) (z : ℂ), 0 ≤ t → ‖(t : ℂ) * z‖ ≤ t * ‖z‖ := fun t z ht => by
    rw [norm_mul, Complex.norm_real, Real.norm_of_nonneg ht]
  have A1 := fl_cx h (fl_scale s2 x) nx
  have A2 := fl_cx h (fl_scale q1 px) (nr q px hq)
  have A3 := fl_cx h (fl_add A1 (err_mono hu (show 2 ≤ 3 by norm_num) (by positivity) A2)) ((norm_add_le _ _).trans (add_le_add nx (nr q px hq)))
  have A4 : ‖fl.cx ((delta : ℂ) * g) - (delta : ℂ) * g‖ ≤ ((1 + u) ^ 1 - 1) * (delta * ‖g‖) :=
    fl_cx (k := 0) h (by simp) (nr delta g hd)
  have n3 := (norm_add_le _ _).trans (add_le_add nx (nr q px hq))
  have n4 := (norm_sub_le _ _).trans (add_le_add n3 (nr delta g hd))
  have A5 := fl_cx h (fl_sub A3 (err_mono hu (show 1 ≤ 4 by norm_num) (by positivity) A4)) n4
  have t0 : |fl.re (2 * delta) - 2 * delta| ≤ u * (2 * delta) := by
    have := h.re (2 * delta)
    rwa [abs_of_nonneg (by positivity : (0 : ℝ) ≤ 2 * delta)] at this
  have t1 := sqrt_fl (by positivity) hu t0
  have t2 : |fl.re (√(fl.re (2 * delta))) - √(2 * delta)| ≤ ((1 + u) ^ 2 - 1) * √(2 * delta) :=
    fl_re (k := 1) h (by simpa using t1) (abs_of_nonneg (Real.sqrt_nonneg _)).le
  have A6 := fl_cx h (fl_scale t2 w) (nr _ w (Real.sqrt_nonneg _))
  have n5 := (norm_add_le _ _).trans (add_le_add n4 (nr _ w (Real.sqrt_nonneg (2 * delta))))
  exact fl_cx h (fl_add A5 (err_mono hu (show 3 ≤ 5 by norm_num) (by positivity) A6)) n5

/-! ## One step -/

theorem enorm2_entries {u v : Fin p → ℂ} (h : ∀ i, ‖u i‖ ≤ ‖v i‖) : enorm2 u ≤ enorm2 v := by
  refine abs_le_of_sq_le_sq' ?_ (enorm2_nonneg v) |>.2
  rw [enorm2_sq, enorm2_sq]
  exact Finset.sum_le_sum fun i _ => by simpa using pow_le_pow_left₀ (norm_nonneg _) (h i) 2

theorem enorm2_norms (u : Fin p → ℂ) : enorm2 (fun i => ((‖u i‖ : ℝ) : ℂ)) = enorm2 u :=
  le_antisymm (enorm2_entries fun i => by simp) (enorm2_entries fun i => by simp)

/-- The vector that `chain_step` computes. -/
noncomputable def flStep (fl : Rounding) (delta lmda : ℝ) (fwd : (Fin p → ℂ) → (Fin n → ℂ)) (grad : (Fin n → ℂ) → (Fin p → ℂ))
    (prox : (Fin p → ℂ) → (Fin p → ℂ)) (x w : Fin p → ℂ) : Fin p → ℂ :=
  fun i => flEntry fl delta lmda (x i) (prox x i) (grad (fwd x) i) (w i)

theorem myulaStepFl_vec (fl : Rounding) (M : Sampler n) (R : Rng) {fwd : (Fin p → ℂ) → (Fin n → ℂ)} {grad : (Fin n → ℂ) → (Fin p → ℂ)}
    {prox : (Fin p → ℂ) → (Fin p → ℂ)} {pri : (Fin p → ℂ) → ℝ} (h : Total M p fwd grad prox pri) (x : Fin p → ℂ)
    (r : R.σ) : myulaStepFl fl M R ⟨List.ofFn x, List.ofFn (fwd x), r⟩ =
      .ok ⟨List.ofFn (flStep fl M.par.delta M.par.lmda fwd grad prox x (drawVec R R.randn M.par.complex r p).1),
        List.ofFn (fwd (flStep fl M.par.delta M.par.lmda fwd grad prox x (drawVec R R.randn M.par.complex r p).1)),
        (drawVec R R.randn M.par.complex r p).2⟩ := by
  have hn := h.nparams
  subst hn
  unfold myulaStepFl
  have h1 := h.gradg (fwd x)
  have h2 := h.proxf x
  simp only [h1, h2, bind, Except.bind]
  unfold chainStepFl
  rw [noise_eq]
  simp only [pyDiv, if_neg h.lmda, bind, Except.bind, map_ofFn']
  rw [npAdd_ofFn]
  simp only [map_ofFn']
  rw [npSub_ofFn]
  simp only [map_ofFn']
  rw [npAdd_ofFn]
  simp only [map_ofFn']
  have e : (fun i => fl.cx (fl.cx (fl.cx (fl.cx (((fl.re (1 - fl.re (M.par.delta / M.par.lmda)) : ℝ) : ℂ) * x i) +
      fl.cx (((fl.re (M.par.delta / M.par.lmda) : ℝ) : ℂ) * prox x i)) - fl.cx ((M.par.delta : ℂ) * grad (fwd x) i)) +
      fl.cx (((fl.re (√(fl.re (2 * M.par.delta))) : ℝ) : ℂ) * (drawVec R R.randn M.par.complex r M.nparams).1 i))) =
      flStep fl M.par.delta M.par.lmda fwd grad prox x (drawVec R R.randn M.par.complex r M.nparams).1 := rfl
  simp only [e]
  rw [h.forward]

/-- The error of one step. -/
theorem flStep_error {fl : Rounding} {u : ℝ} (h : RoundsWithin fl u) {delta lmda : ℝ} (hd : 0 ≤ delta) (hl : 0 < lmda)
    (fwd : (Fin p → ℂ) → (Fin n → ℂ)) (grad : (Fin n → ℂ) → (Fin p → ℂ)) (prox : (Fin p → ℂ) → (Fin p → ℂ)) (x w : Fin p → ℂ) :
    √(Spec.distSq (ulaStep delta (gradVec lmda fwd grad prox) x w) (flStep fl delta lmda fwd grad prox x w)) ≤
      ((1 + u) ^ 6 - 1) * ((1 + delta / lmda) * √(Spec.distSq x 0) + delta / lmda * √(Spec.distSq (prox x) 0) +
        delta * √(Spec.distSq (grad (fwd x)) 0) + √(2 * delta) * √(Spec.distSq w 0)) := by
  have hE : 0 ≤ (1 + u) ^ 6 - 1 := sub_nonneg.mpr (one_le_pow₀ (by linarith [h.nonneg]))
  have hq : 0 ≤ delta / lmda := div_nonneg hd hl.le
  simp only [← enorm2_eq_sqrt, sub_zero]
  have h1 : enorm2 (ulaStep delta (gradVec lmda fwd grad prox) x w - flStep fl delta lmda fwd grad prox x w) ≤
      enorm2 (fun i => (((1 + u) ^ 6 - 1 : ℝ) : ℂ) * ((fun i => ((1 + delta / lmda : ℝ) : ℂ) * ((‖x i‖ : ℝ) : ℂ)) +
        (fun i => ((delta / lmda : ℝ) : ℂ) * ((‖prox x i‖ : ℝ) : ℂ)) + (fun i => ((delta : ℝ) : ℂ) * ((‖grad (fwd x) i‖ : ℝ) : ℂ)) +
        fun i => ((√(2 * delta) : ℝ) : ℂ) * ((‖w i‖ : ℝ) : ℂ)) i) := by
    refine enorm2_entries fun i => ?_
    have h2 := flEntry_error h hd hl (x i) (prox x i) (grad (fwd x) i) (w i)
    rw [norm_sub_rev] at h2
    refine h2.trans (le_of_eq ?_)
    simp only [Pi.add_apply]
    rw [← Complex.ofReal_mul, ← Complex.ofReal_mul, ← Complex.ofReal_mul, ← Complex.ofReal_mul, ← Complex.ofReal_add, ← Complex.ofReal_add,
      ← Complex.ofReal_add, ← Complex.ofReal_mul, Complex.norm_real, Real.norm_of_nonneg]
    positivity
  refine h1.trans ?_
  rw [enorm2_smul, abs_of_nonneg hE]
  refine mul_le_mul_of_nonneg_left ?_ hE
  refine (enorm2_add _ _).trans (add_le_add ((enorm2_add _ _).trans (add_le_add ((enorm2_add _ _).trans (add_le_add ?_ ?_)) ?_)) ?_)
  · rw [enorm2_smul, enorm2_norms, abs_of_nonneg (by positivity)]
  · rw [enorm2_smul, enorm2_norms, abs_of_nonneg hq]
  · rw [enorm2_smul, enorm2_norms, abs_of_nonneg hd]
  · rw [enorm2_smul, enorm2_norms, abs_of_nonneg (Real.sqrt_nonneg _)]

/-- C162, one step: from the same sample and random state the computed step and the exact step use the same noise vector `w` and the same next
random state, and differ by at most `(1+u)^6 - 1` times the size of the terms that are added. -/
theorem C162_step (fl : Rounding) (u : ℝ) (hfl : RoundsWithin fl u) (M : Sampler n) (R : Rng) {fwd : (Fin p → ℂ) → (Fin n → ℂ)}
    {grad : (Fin n → ℂ) → (Fin p → ℂ)} {prox : (Fin p → ℂ) → (Fin p → ℂ)} {pri : (Fin p → ℂ) → ℝ} (tot : Total M p fwd grad prox pri)
    (hd : 0 ≤ M.par.delta) (hl : 0 < M.par.lmda) (x : Fin p → ℂ) (r : R.σ) :
    ∃ (y y' w : Fin p → ℂ) (r' : R.σ), noise R R.randn M.par.complex r p = (List.ofFn w, r') ∧
      myulaStep M R ⟨List.ofFn x, List.ofFn (fwd x), r⟩ = .ok ⟨List.ofFn y, List.ofFn (fwd y), r'⟩ ∧
      myulaStepFl fl M R ⟨List.ofFn x, List.ofFn (fwd x), r⟩ = .ok ⟨List.ofFn y', List.ofFn (fwd y'), r'⟩ ∧
      √(Spec.distSq y y') ≤ ((1 + u) ^ 6 - 1) * ((1 + M.par.delta / M.par.lmda) * √(Spec.distSq x 0) +
        M.par.delta / M.par.lmda * √(Spec.distSq (prox x) 0) + M.par.delta * √(Spec.distSq (grad (fwd x)) 0) +
        √(2 * M.par.delta) * √(Spec.distSq w 0)) :=
  ⟨_, _, _, _, noise_eq _ _ _ _ _, myulaStep_vec M R tot x r, myulaStepFl_vec fl M R tot x r, flStep_error hfl hd hl fwd grad prox x _⟩

/-! ## Chains -/

/-- A chain and a sequence that follows it up to an error `a` per step. -/
theorem seq_diff {E W : Type*} (f : E → W → E) (φ : E → E → ℝ) (ρ a : ℝ) (hρ : 0 ≤ ρ) (tri : ∀ x y z, φ x z ≤ φ x y + φ y z)
    (hφ : ∀ x y w, φ (f x w) (f y w) ≤ ρ * φ x y) (x0 : E) (w : ℕ → W) (y : ℕ → E) (K : ℕ)
    (ha : ∀ k < K, φ (f (y k) (w k)) (y (k + 1)) ≤ a) :
    φ (fwState f x0 w K) (y K) ≤ ρ ^ K * φ x0 (y 0) + a * ∑ i ∈ Finset.range K, ρ ^ i := by
  induction K with
  | zero => simp [fwState]
  | succ k ih =>
    have h1 := tri (fwState f x0 w (k + 1)) (f (y k) (w k)) (y (k + 1))
    have h2 := hφ (fwState f x0 w k) (y k) (w k)
    have h3 := ha k (Nat.lt_succ_self k)
    have h4 := mul_le_mul_of_nonneg_left (ih fun j hj => ha j (hj.trans (Nat.lt_succ_self k))) hρ
    have e : ∑ i ∈ Finset.range (k + 1), ρ ^ i = ρ * (∑ i ∈ Finset.range k, ρ ^ i) + 1 := by
      rw [Finset.sum_range_succ', Finset.mul_sum]
      simp [pow_succ, mul_comm]
    rw [e, pow_succ]
    simp only [fwState] at h1 ⊢
    nlinarith

theorem dist_tri (x y z : Fin p → ℂ) : √(Spec.distSq x z) ≤ √(Spec.distSq x y) + √(Spec.distSq y z) := by
  rw [← enorm2_eq_sqrt, ← enorm2_eq_sqrt, ← enorm2_eq_sqrt, show x - z = (x - y) + (y - z) by abel]
  exact enorm2_add _ _

variable {M M' : Sampler n} {fwd fwd' : (Fin p → ℂ) → (Fin n → ℂ)} {grad grad' : (Fin n → ℂ) → (Fin p → ℂ)}
  {prox prox' : (Fin p → ℂ) → (Fin p → ℂ)} {pri pri' g : (Fin p → ℂ) → ℝ} {Q : Matrix (Fin p) (Fin p) ℂ} {c Lf : ℝ}

theorem myulaBodyFl_eq (fl : Rounding) (M : Sampler n) (R : Rng) (A0 : Arrays) :
    myulaBodyFl fl M R A0 = genBody M A0 (myulaStepFl fl M R) (myulaProg M A0) := by
  funext st
  unfold myulaBodyFl genBody
  simp only [myulaBook_eq]

/-- The rows of a run with rounding. -/
theorem fl_chain_rows (fl : Rounding) (R : Rng) (tot : Total M p fwd grad prox pri) (A : Arrays) (hA : A.Shaped M.par.nsamples) (b gap : ℕ)
    (hb : M.par.nburn = b) (hg : M.par.ngap = gap) (r : R.σ) (x0 : Fin p → ℂ) (fuel : ℕ) (st : St R)
    (h : myulaRunFl fl M R A r (.array1 (List.ofFn x0)) fuel = .ok (some st)) (rows : Fin M.par.nsamples → Fin p → ℂ)
    (hrows : (A.applyAll st.ev).chain = some (List.ofFn fun k : Fin M.par.nsamples => List.ofFn (rows k))) (k : Fin M.par.nsamples) :
    rows k = fun i => store M.par.complex (fwState (flStep fl M.par.delta M.par.lmda fwd grad prox) x0
      (noiseSeq R M.par.complex p r) (b + k * max gap 1 + 1) i) := by
  unfold myulaRunFl at h
  obtain ⟨⟨X0, P0, r0⟩, hx, h⟩ := bind_ok h
  obtain ⟨res, hres, h⟩ := bind_ok h
  rw [myulaBodyFl_eq] at hres
  cases res with
  | none => cases Except.ok.inj h
  | some s =>
  obtain rfl := Option.some.inj (Except.ok.inj h)
  obtain ⟨T, rws, hT, -, -, hr, h5, -⟩ := gen_result M A _ _ (myulaProg_noWrites M A) _ b hb hA fuel s hres
  have harr : A.applyAll (s.ev ++ [Event.done]) = A.ofRows M.par.nsamples rws := by
    rw [applyAll_append, h5]
    rfl
  rw [start_array R tot] at hx
  obtain ⟨rfl, rfl, rfl⟩ : List.ofFn x0 = X0 ∧ List.ofFn (fwd x0) = P0 ∧ r = r0 := by simpa using Except.ok.inj hx
  have hT' : Hist (myulaStepFl fl M R) ⟨List.ofFn x0, List.ofFn (fwd x0), r⟩ (numIter M.par.nsamples b (spacing M.par))
      (fun j => ⟨List.ofFn (fwState (flStep fl M.par.delta M.par.lmda fwd grad prox) x0 (noiseSeq R M.par.complex p r) j),
        List.ofFn (fwd (fwState (flStep fl M.par.delta M.par.lmda fwd grad prox) x0 (noiseSeq R M.par.complex p r) j)),
        rngSeq R M.par.complex p r j⟩) := ⟨rfl, fun j _ => myulaStepFl_vec fl M R tot _ _⟩
  obtain ⟨hle, l, hl, he⟩ := hr k k.2
  have hu := hT.unique hT' _ hle
  rw [hu] at he hl
  rw [mkRow_eq_rowOf M tot _ l hl] at he
  have hra := (ofRows_rowIs A M.par.nsamples rws k k.2).chain
  rw [← harr] at hra
  have h2 := hra _ (by rw [hrows]; rfl)
  rw [he] at h2
  simp only [List.getElem?_ofFn, k.2, dif_pos, rowOf, Option.some.injEq, spacing_nat _ gap hg] at h2
  exact List.ofFn_injective h2

/-- The states of a run with rounding are those of any sequence of computed steps. -/
theorem fl_states (fl : Rounding) (R : Rng) (tot : Total M p fwd grad prox pri) (r : R.σ) (y : ℕ → Fin p → ℂ)
    (hy : ∀ k, myulaStepFl fl M R ⟨List.ofFn (y k), List.ofFn (fwd (y k)), rngSeq R M.par.complex p r k⟩ =
      .ok ⟨List.ofFn (y (k + 1)), List.ofFn (fwd (y (k + 1))), rngSeq R M.par.complex p r (k + 1)⟩) (k : ℕ) :
    fwState (flStep fl M.par.delta M.par.lmda fwd grad prox) (y 0) (noiseSeq R M.par.complex p r) k = y k := by
  induction k with
  | zero => rfl
  | succ k ih =>
    have h1 := (myulaStepFl_vec fl M R tot (y k) (rngSeq R M.par.complex p r k)).symm.trans (hy k)
    have h2 := congrArg Cur.X (Except.ok.inj h1)
    rw [fwState, ih]
    exact List.ofFn_injective h2

/-- Error of a computed step of an inexact sampler against the exact step of the exact one. -/
theorem fl_step_total {fl : Rounding} {u : ℝ} (hfl : RoundsWithin fl u) {delta lmda : ℝ} (hd : 0 ≤ delta) (hl : 0 < lmda) (η τ m : ℝ)
    (x w : Fin p → ℂ) (hη : √(Spec.distSq (grad (fwd x)) (grad' (fwd' x))) ≤ η) (hτ : √(Spec.distSq (prox x) (prox' x)) ≤ τ)
    (hm : (1 + delta / lmda) * √(Spec.distSq x 0) + delta / lmda * √(Spec.distSq (prox' x) 0) +
        delta * √(Spec.distSq (grad' (fwd' x)) 0) + √(2 * delta) * √(Spec.distSq w 0) ≤ m) :
    √(Spec.distSq (ulaStep delta (gradVec lmda fwd grad prox) x w) (flStep fl delta lmda fwd' grad' prox' x w)) ≤
      delta * (η + τ / lmda) + ((1 + u) ^ 6 - 1) * m := by
  have hE : 0 ≤ (1 + u) ^ 6 - 1 := sub_nonneg.mpr (one_le_pow₀ (by linarith [hfl.nonneg]))
  refine (dist_tri _ (ulaStep delta (gradVec lmda fwd' grad' prox') x w) _).trans (add_le_add (ulaStep_diff _ _ hd hl η τ x w hη hτ) ?_)
  exact (flStep_error hfl hd hl fwd' grad' prox' x w).trans (mul_le_mul_of_nonneg_left hm hE)

/-- C162: rounding errors do not accumulate.  `M` is the exact sampler, whose data determine the parameters; `M'` is the one on the computer,
whose gradients and proximal maps are off by at most `η` and `τ` at the computed samples `y`, and whose steps round with relative error `u`.
`m` bounds the sizes of the terms added in the steps.  Run from the same random state, the saved rows differ by at most `ρ^K` times the
distance of the starts plus `(1-ρ^K)/c * (η + τ/lmda + ((1+u)^6-1)*m/delta)`, however long the runs. -/
theorem C162_rows (fl : Rounding) (u : ℝ) (hfl : RoundsWithin fl u) (R : Rng) (tot : Total M p fwd grad prox pri)
    (tot' : Total M' p fwd' grad' prox' pri') (hpar : M'.par = M.par) (h : Identifiable M fwd grad prox g Q c Lf) (A A' : Arrays)
    (hA : A.Shaped M.par.nsamples) (hA' : A'.Shaped M.par.nsamples) (b gap : ℕ) (hb : M.par.nburn = b) (hg : M.par.ngap = gap) (r : R.σ)
    (x0 : Fin p → ℂ) (y : ℕ → Fin p → ℂ) (fuel fuel' : ℕ) (st st' : St R)
    (hrun : myulaRun M R A r (.array1 (List.ofFn x0)) fuel = .ok (some st))
    (hrun' : myulaRunFl fl M' R A' r (.array1 (List.ofFn (y 0))) fuel' = .ok (some st')) (rows rows' : Fin M.par.nsamples → Fin p → ℂ)
    (hrows : (A.applyAll st.ev).chain = some (List.ofFn fun k => List.ofFn (rows k)))
    (hrows' : (A'.applyAll st'.ev).chain = some (List.ofFn fun k => List.ofFn (rows' k)))
    (hy : ∀ k, myulaStepFl fl M' R ⟨List.ofFn (y k), List.ofFn (fwd' (y k)), rngSeq R M.par.complex p r k⟩ =
      .ok ⟨List.ofFn (y (k + 1)), List.ofFn (fwd' (y (k + 1))), rngSeq R M.par.complex p r (k + 1)⟩) (k : Fin M.par.nsamples) (η τ m : ℝ)
    (hη : ∀ j < b + k * max gap 1 + 1, √(Spec.distSq (grad (fwd (y j))) (grad' (fwd' (y j)))) ≤ η)
    (hτ : ∀ j < b + k * max gap 1 + 1, √(Spec.distSq (prox (y j)) (prox' (y j))) ≤ τ)
    (hm : ∀ j < b + k * max gap 1 + 1, (1 + M.par.delta / M.par.lmda) * √(Spec.distSq (y j) 0) +
      M.par.delta / M.par.lmda * √(Spec.distSq (prox' (y j)) 0) + M.par.delta * √(Spec.distSq (grad' (fwd' (y j))) 0) +
      √(2 * M.par.delta) * √(Spec.distSq (noiseSeq R M.par.complex p r j) 0) ≤ m) :
    √(Spec.distSq (rows k) (rows' k)) ≤ (1 - M.par.delta * c) ^ (b + k * max gap 1 + 1) * √(Spec.distSq x0 (y 0)) +
      (1 - (1 - M.par.delta * c) ^ (b + k * max gap 1 + 1)) / c * (η + τ / M.par.lmda + ((1 + u) ^ 6 - 1) * m / M.par.delta) := by
  obtain ⟨F', P', par', np'⟩ := M'
  obtain rfl : par' = M.par := hpar
  obtain ⟨hr0, hr1⟩ := h.rate
  have hst := fl_states fl R tot' r y hy
  rw [myula_chain_rows R tot A hA b gap hb hg r x0 fuel st hrun rows hrows k,
    fl_chain_rows fl R tot' A' hA' b gap hb hg r (y 0) fuel' st' hrun' rows' hrows' k]
  refine (Real.sqrt_le_sqrt (distSq_store _ _ _)).trans ?_
  simp only [hst]
  have h1 := seq_diff (ulaStep M.par.delta (gradVec M.par.lmda fwd grad prox)) (fun x y => √(Spec.distSq x y)) (1 - M.par.delta * c)
    (M.par.delta * (η + τ / M.par.lmda) + ((1 + u) ^ 6 - 1) * m) hr0.le dist_tri
    (fun x y w => by
      have h2 := Real.sqrt_le_sqrt (strong_contract h x y w)
      rwa [Real.sqrt_mul (sq_nonneg _), Real.sqrt_sq hr0.le] at h2) x0 (noiseSeq R M.par.complex p r) y (b + k * max gap 1 + 1)
    (fun j hj => by
      rw [← hst (j + 1), fwState, hst j]
      exact fl_step_total hfl h.delta.le h.lmda η τ m _ _ (hη j hj) (hτ j hj) (hm j hj))
  refine h1.trans (le_of_eq ?_)
  rw [geom_rate _ hr1]
  have := h.delta.ne'
  have := h.pos.ne'
  have := h.lmda.ne'
  congr 1
  rw [show 1 - (1 - M.par.delta * c) = M.par.delta * c by ring]
  field_simp

/-- C162: a run with rounding makes as many iterations as one without and returns. -/
theorem C162_returns (fl : Rounding) (R : Rng) (tot : Total M p fwd grad prox pri) (A : Arrays) (hA : A.Shaped M.par.nsamples)
    (hv : CanPrint M A) (b gap : ℕ) (hb : M.par.nburn = b) (hg : M.par.ngap = gap) (r : R.σ) (x0 : Fin p → ℂ) (N : ℕ)
    (hN : N = if M.par.nsamples = 0 then 0 else b + (M.par.nsamples - 1) * max gap 1 + 1) :
    (∀ fuel < N, myulaRunFl fl M R A r (.array1 (List.ofFn x0)) fuel = .ok none) ∧
    ∃ st, (∀ fuel ≥ N, myulaRunFl fl M R A r (.array1 (List.ofFn x0)) fuel = .ok (some st)) ∧ st.i = N ∧
      A.applyAll st.ev = A.ofRows M.par.nsamples fun k => rowOf M fwd pri
        (fwState (flStep fl M.par.delta M.par.lmda fwd grad prox) x0 (noiseSeq R M.par.complex p r) (b + k * max gap 1 + 1)) := by
  have hNn : N = numIter M.par.nsamples b (spacing M.par) := by rw [hN, spacing_nat _ gap hg]; rfl
  rw [hNn]
  have hrun := vec_run M A (myulaStepFl fl M R) (myulaProg M A) (myulaProg_noWrites M A) tot b hb hA
    (fwState (flStep fl M.par.delta M.par.lmda fwd grad prox) x0 (noiseSeq R M.par.complex p r))
    (rngSeq R M.par.complex p r) (fun k => myulaStepFl_vec fl M R tot _ _)
    (fun st hj hns => myulaProg_total M A hA hv st hj hns)
  obtain ⟨h1, st, h2, h3, h4⟩ := hrun
  have hstart := start_array R tot r x0
  constructor
  · intro fuel hf
    unfold myulaRunFl
    rw [hstart, myulaBodyFl_eq]
    simp only [bind, Except.bind]
    have := h1 fuel hf
    simp only [fwState, rngSeq] at this
    rw [this]
    rfl
  · refine ⟨{ st with ev := st.ev ++ [Event.done] }, ?_, h3, ?_⟩
    · intro fuel hf
      unfold myulaRunFl
      rw [hstart, myulaBodyFl_eq]
      simp only [bind, Except.bind]
      have := h2 fuel hf
      simp only [fwState, rngSeq] at this
      rw [this]
      rfl
    · rw [applyAll_append, h4, spacing_nat _ gap hg]
      rfl

theorem prox_isProx_lipschitz (g : (Fin p → ℂ) → ℝ) (hg : ConvexOn ℝ Set.univ g) (x y a b : Fin p → ℂ) (ha : Spec.IsProx g x a)
    (hb : Spec.IsProx g y b) : √(Spec.distSq a b) ≤ √(Spec.distSq x y) := by
  have h1 := prox_firm g hg x y a b ha hb
  have h2 := rip_self_nonneg ((x - y) - (a - b))
  have e : rip ((x - y) - (a - b)) ((x - y) - (a - b)) = rip (x - y) (x - y) - 2 * rip (a - b) (x - y) + rip (a - b) (a - b) := by
    unfold rip
    rw [Finset.mul_sum, ← Finset.sum_sub_distrib, ← Finset.sum_add_distrib]
    exact Finset.sum_congr rfl fun i _ => by simp; ring
  refine Real.sqrt_le_sqrt ?_
  rw [← rip_sub, ← rip_sub]
  linarith

theorem grad_lipschitz (h : Identifiable M fwd grad prox g Q c Lf) (x y : Fin p → ℂ) :
    √(Spec.distSq (grad (fwd x)) (grad (fwd y))) ≤ Lf * √(Spec.distSq x y) := by
  have hL : 0 ≤ Lf := h.pos.le.trans h.le
  have h0 : ∀ v : Fin p → ℂ, 0 ≤ Spec.distSq v 0 := fun v => by rw [← rip_self]; exact rip_self_nonneg v
  have h1 := cocoercive Q h.herm Lf hL (fun v => (mul_nonneg h.pos.le (h0 v)).trans (h.lower v)) h.upper (x - y)
  have h2 := h.upper (x - y)
  rw [← rip_eq_inner, ← rip_self] at h2
  have h3 : rip (Q.mulVec (x - y)) (x - y) = rip (x - y) (Q.mulVec (x - y)) := by
    unfold rip
    exact Finset.sum_congr rfl fun i _ => by ring
  rw [← h.affine, rip_sub] at h1
  rw [h.affine] at h1
  rw [h3] at h1
  rw [rip_sub] at h2
  rw [← Real.sqrt_sq hL, ← Real.sqrt_mul (sq_nonneg _)]
  refine Real.sqrt_le_sqrt ?_
  nlinarith

theorem ulaStep_zero {delta lmda : ℝ} (hd : 0 ≤ delta) (hl : 0 < lmda) (w : Fin p → ℂ) :
    √(Spec.distSq (ulaStep delta (gradVec lmda fwd grad prox) 0 w) 0) ≤
      delta / lmda * √(Spec.distSq (prox 0) 0) + delta * √(Spec.distSq (grad (fwd 0)) 0) + √(2 * delta) * √(Spec.distSq w 0) := by
  simp only [← enorm2_eq_sqrt, sub_zero]
  have e : ulaStep delta (gradVec lmda fwd grad prox) 0 w = ((fun i => ((delta / lmda : ℝ) : ℂ) * prox 0 i) +
      fun i => ((-delta : ℝ) : ℂ) * grad (fwd 0) i) + fun i => ((√(2 * delta) : ℝ) : ℂ) * w i := by
    funext i
    have : (lmda : ℂ) ≠ 0 := by exact_mod_cast hl.ne'
    simp only [ulaStep, gradVec, Pi.add_apply, Pi.zero_apply]
    push_cast
    field_simp
    ring
  rw [e]
  refine (enorm2_add _ _).trans ((add_le_add (enorm2_add _ _) le_rfl).trans (le_of_eq ?_))
  rw [enorm2_smul, enorm2_smul, enorm2_smul, abs_of_nonneg (div_nonneg hd hl.le), abs_neg, abs_of_nonneg hd,
    abs_of_nonneg (Real.sqrt_nonneg _)]

/-- C162, a bound known before the run: if the data determine the parameters, the noise vectors drawn up to the `k`-th saved
sample are bounded by `W` and the precision is good enough
(`2 * E * a ≤ delta * c`), the computed samples differ from the exact ones by at most `E * (a*B + β) / (delta*c)`, at the `k`-th row,
however long the run. -/
theorem C162_apriori (fl : Rounding) (u : ℝ) (hfl : RoundsWithin fl u) (R : Rng) (tot : Total M p fwd grad prox pri)
    (h : Identifiable M fwd grad prox g Q c Lf) (A A' : Arrays)
    (hA : A.Shaped M.par.nsamples) (hA' : A'.Shaped M.par.nsamples) (b gap : ℕ) (hb : M.par.nburn = b) (hg : M.par.ngap = gap) (r : R.σ)
    (x0 : Fin p → ℂ) (fuel fuel' : ℕ) (st st' : St R)
    (hrun : myulaRun M R A r (.array1 (List.ofFn x0)) fuel = .ok (some st))
    (hrun' : myulaRunFl fl M R A' r (.array1 (List.ofFn x0)) fuel' = .ok (some st')) (rows rows' : Fin M.par.nsamples → Fin p → ℂ)
    (hrows : (A.applyAll st.ev).chain = some (List.ofFn fun k => List.ofFn (rows k)))
    (hrows' : (A'.applyAll st'.ev).chain = some (List.ofFn fun k => List.ofFn (rows' k))) (k : Fin M.par.nsamples) (W E a β B : ℝ)
    (hW : ∀ j < b + k * max gap 1 + 1, √(Spec.distSq (noiseSeq R M.par.complex p r j) 0) ≤ W) (hE : E = (1 + u) ^ 6 - 1)
    (ha : a = 1 + 2 * (M.par.delta / M.par.lmda) + M.par.delta * Lf)
    (hβ : β = M.par.delta / M.par.lmda * √(Spec.distSq (prox 0) 0) + M.par.delta * √(Spec.distSq (grad (fwd 0)) 0) + √(2 * M.par.delta) * W)
    (hprec : 2 * E * a ≤ M.par.delta * c) (hB0 : √(Spec.distSq x0 0) ≤ B) (hB : 2 * (1 + E) * β ≤ M.par.delta * c * B) :
    √(Spec.distSq (rows k) (rows' k)) ≤ E * (a * B + β) / (M.par.delta * c) := by
  have hd := h.delta
  have hl := h.lmda
  have hc := h.pos
  have hq : 0 ≤ M.par.delta / M.par.lmda := div_nonneg hd.le hl.le
  have hL : 0 ≤ Lf := hc.le.trans h.le
  have hE0 : 0 ≤ E := by
    rw [hE]
    exact sub_nonneg.mpr (one_le_pow₀ (by linarith [hfl.nonneg]))
  obtain ⟨hr0, hr1⟩ := h.rate
  set y := fwState (flStep fl M.par.delta M.par.lmda fwd grad prox) x0 (noiseSeq R M.par.complex p r) with hydef
  have hmag : ∀ (x : Fin p → ℂ) (j : ℕ), j < b + k * max gap 1 + 1 → (1 + M.par.delta / M.par.lmda) * √(Spec.distSq x 0) +
      M.par.delta / M.par.lmda * √(Spec.distSq (prox x) 0) + M.par.delta * √(Spec.distSq (grad (fwd x)) 0) +
      √(2 * M.par.delta) * √(Spec.distSq (noiseSeq R M.par.complex p r j) 0) ≤ a * √(Spec.distSq x 0) + β := by
    intro x j hj
    have h1 := (dist_tri (prox x) (prox 0) 0).trans (add_le_add (prox_isProx_lipschitz g h.convex x 0 _ _ (h.prox x) (h.prox 0)) le_rfl)
    have h2 := (dist_tri (grad (fwd x)) (grad (fwd 0)) 0).trans (add_le_add (grad_lipschitz h x 0) le_rfl)
    have h3 := mul_le_mul_of_nonneg_left h1 hq
    have h4 := mul_le_mul_of_nonneg_left h2 hd.le
    have h5 := mul_le_mul_of_nonneg_left (hW j hj) (Real.sqrt_nonneg (2 * M.par.delta))
    rw [ha, hβ]
    linarith
  have hbd : ∀ j ≤ b + k * max gap 1 + 1, √(Spec.distSq (y j) 0) ≤ B := by
    intro j
    induction j with
    | zero => exact fun _ => hB0
    | succ j ih =>
      intro hj
      have ih := ih (Nat.le_of_succ_le hj)
      have h1 := flStep_error hfl hd.le hl fwd grad prox (y j) (noiseSeq R M.par.complex p r j)
      rw [← hE] at h1
      have h2 := h1.trans (mul_le_mul_of_nonneg_left (hmag (y j) j hj) hE0)
      have h3 := Real.sqrt_le_sqrt (strong_contract h (y j) 0 (noiseSeq R M.par.complex p r j))
      rw [Real.sqrt_mul (sq_nonneg _), Real.sqrt_sq hr0.le] at h3
      have h4 := ulaStep_zero (fwd := fwd) (grad := grad) (prox := prox) hd.le hl (noiseSeq R M.par.complex p r j)
      have h5 := mul_le_mul_of_nonneg_left (hW j hj) (Real.sqrt_nonneg (2 * M.par.delta))
      have h6 := dist_tri (y (j + 1)) (ulaStep M.par.delta (gradVec M.par.lmda fwd grad prox) (y j) (noiseSeq R M.par.complex p r j)) 0
      have h7 := dist_tri (ulaStep M.par.delta (gradVec M.par.lmda fwd grad prox) (y j) (noiseSeq R M.par.complex p r j))
        (ulaStep M.par.delta (gradVec M.par.lmda fwd grad prox) 0 (noiseSeq R M.par.complex p r j)) 0
      have h8 : √(Spec.distSq (y (j + 1)) (ulaStep M.par.delta (gradVec M.par.lmda fwd grad prox) (y j) (noiseSeq R M.par.complex p r j))) ≤
          E * (a * √(Spec.distSq (y j) 0) + β) := by
        rw [← enorm2_eq_sqrt, ← neg_sub]
        have h9 : ∀ v : Fin p → ℂ, enorm2 (-v) = enorm2 v := fun v => le_antisymm (enorm2_entries fun i => by simp)
          (enorm2_entries fun i => by simp)
        rw [h9, enorm2_eq_sqrt]
        exact h2
      have h9 : (1 - M.par.delta * c + E * a) * √(Spec.distSq (y j) 0) ≤ (1 - M.par.delta * c + E * a) * B := by
        have : 0 ≤ E * a := mul_nonneg hE0 (by rw [ha]; positivity)
        exact mul_le_mul_of_nonneg_left ih (by linarith)
      have h10 : 0 ≤ B := (Real.sqrt_nonneg _).trans hB0
      have h11 := mul_le_mul_of_nonneg_right hprec h10
      linarith
  have hfin := C162_rows fl u hfl R tot tot rfl h A A' hA hA' b gap hb hg r x0 y fuel fuel' st st' hrun hrun' rows rows' hrows hrows'
    (fun j => myulaStepFl_vec fl M R tot _ _) k 0 0 (a * B + β) (fun j _ => by simp [Spec.distSq]) (fun j _ => by simp [Spec.distSq])
    (fun j hj => (hmag (y j) j hj).trans (by
      have : 0 ≤ a := by rw [ha]; positivity
      linarith [mul_le_mul_of_nonneg_left (hbd j hj.le) this]))
  rw [← hE] at hfin
  have hm0 : 0 ≤ E * (a * B + β) / M.par.delta := by
    have h1 : 0 ≤ a * B + β := by
      have h2 := hmag (y 0) 0 (Nat.succ_pos _)
      have h3 : 0 ≤ a := by rw [ha]; positivity
      have h4 := mul_le_mul_of_nonneg_left (hbd 0 (Nat.zero_le _)) h3
      have h5 : 0 ≤ (1 + M.par.delta / M.par.lmda) * √(Spec.distSq (y 0) 0) + M.par.delta / M.par.lmda * √(Spec.distSq (prox (y 0)) 0) +
        M.par.delta * √(Spec.distSq (grad (fwd (y 0))) 0) + √(2 * M.par.delta) * √(Spec.distSq (noiseSeq R M.par.complex p r 0) 0) := by
        positivity
      linarith
    positivity
  have hpw : 0 ≤ (1 - M.par.delta * c) ^ (b + k * max gap 1 + 1) := pow_nonneg hr0.le _
  refine hfin.trans ?_
  have e0 : √(Spec.distSq x0 (y 0)) = 0 := by simp [hydef, fwState, Spec.distSq]
  rw [e0, mul_zero, zero_add, zero_div, zero_add, zero_add]
  refine (mul_le_mul_of_nonneg_right (div_le_div_of_nonneg_right (sub_le_self 1 hpw) hc.le) hm0).trans (le_of_eq ?_)
  field_simp

/-- C162 without identifiability: if the model is only convex, the errors of the steps add up at most linearly. -/
theorem C162_linear (fl : Rounding) (u : ℝ) (hfl : RoundsWithin fl u) (R : Rng) (tot : Total M p fwd grad prox pri)
    (hg : ConvexOn ℝ Set.univ g) (hprox : ∀ x, Spec.IsProx g x (prox x)) (hQ : Q.IsHermitian) (hL : 0 ≤ Lf)
    (h0 : ∀ v, 0 ≤ (Spec.inner v (Q.mulVec v)).re) (h1 : ∀ v, (Spec.inner v (Q.mulVec v)).re ≤ Lf * Spec.distSq v 0)
    (hlin : ∀ x y, grad (fwd x) - grad (fwd y) = Q.mulVec (x - y)) (hl : 0 < M.par.lmda) (hd : 0 ≤ M.par.delta)
    (hstep : M.par.delta * (1 / M.par.lmda + Lf) ≤ 2) (A A' : Arrays)
    (hA : A.Shaped M.par.nsamples) (hA' : A'.Shaped M.par.nsamples) (b gap : ℕ) (hb : M.par.nburn = b) (hgap : M.par.ngap = gap) (r : R.σ)
    (x0 : Fin p → ℂ) (y : ℕ → Fin p → ℂ) (fuel fuel' : ℕ) (st st' : St R)
    (hrun : myulaRun M R A r (.array1 (List.ofFn x0)) fuel = .ok (some st))
    (hrun' : myulaRunFl fl M R A' r (.array1 (List.ofFn (y 0))) fuel' = .ok (some st')) (rows rows' : Fin M.par.nsamples → Fin p → ℂ)
    (hrows : (A.applyAll st.ev).chain = some (List.ofFn fun k => List.ofFn (rows k)))
    (hrows' : (A'.applyAll st'.ev).chain = some (List.ofFn fun k => List.ofFn (rows' k)))
    (hy : ∀ k, myulaStepFl fl M R ⟨List.ofFn (y k), List.ofFn (fwd (y k)), rngSeq R M.par.complex p r k⟩ =
      .ok ⟨List.ofFn (y (k + 1)), List.ofFn (fwd (y (k + 1))), rngSeq R M.par.complex p r (k + 1)⟩) (k : Fin M.par.nsamples) (m : ℝ)
    (hm : ∀ j < b + k * max gap 1 + 1, (1 + M.par.delta / M.par.lmda) * √(Spec.distSq (y j) 0) +
      M.par.delta / M.par.lmda * √(Spec.distSq (prox (y j)) 0) + M.par.delta * √(Spec.distSq (grad (fwd (y j))) 0) +
      √(2 * M.par.delta) * √(Spec.distSq (noiseSeq R M.par.complex p r j) 0) ≤ m) :
    √(Spec.distSq (rows k) (rows' k)) ≤ √(Spec.distSq x0 (y 0)) + (b + k * max gap 1 + 1 : ℕ) * (((1 + u) ^ 6 - 1) * m) := by
  have hst := fl_states fl R tot r y hy
  rw [myula_chain_rows R tot A hA b gap hb hgap r x0 fuel st hrun rows hrows k,
    fl_chain_rows fl R tot A' hA' b gap hb hgap r (y 0) fuel' st' hrun' rows' hrows' k]
  refine (Real.sqrt_le_sqrt (distSq_store _ _ _)).trans ?_
  simp only [hst]
  have h2 := seq_diff (ulaStep M.par.delta (gradVec M.par.lmda fwd grad prox)) (fun x y => √(Spec.distSq x y)) 1
    (M.par.delta * (0 + 0 / M.par.lmda) + ((1 + u) ^ 6 - 1) * m) zero_le_one dist_tri
    (fun x y w => by
      rw [one_mul]
      exact Real.sqrt_le_sqrt (ula_nonexpansive g hg hprox Q hQ Lf hL h0 h1 hlin _ _ hl hd hstep x y w)) x0
      (noiseSeq R M.par.complex p r) y (b + k * max gap 1 + 1)
    (fun j hj => by
      rw [← hst (j + 1), fwState, hst j]
      exact fl_step_total hfl hd hl 0 0 m _ _ (by simp [Spec.distSq]) (by simp [Spec.distSq]) (hm j hj))
  refine h2.trans (le_of_eq ?_)
  simp
  ring

/-! ## Why identifiability is needed -/

theorem store_real (x : ℝ) : store false (x : ℂ) = x := by simp [store]

theorem ofRows_chain {A : Arrays} {l : List (List ℂ)} (hA : A.chain = some l) (ns : ℕ) (T : ℕ → Fin p → ℂ) :
    (A.ofRows ns fun k => rowOf M fwd pri (T k)).chain =
      some (List.ofFn fun k : Fin ns => List.ofFn fun i => store M.par.complex (T k i)) := by
  simp only [Arrays.ofRows, hA, Option.map_some, Option.some.injEq]
  refine List.ext_getElem (by simp) fun k hk hk' => ?_
  simp only [List.getElem_map, List.getElem_range, List.getElem_ofFn]
  rfl

/-- One parameter, one datum 0 with unit variance, a measurement that does not see the parameter, flat prior. -/
noncomputable def blind (par : Params) : Sampler 1 where
  F := ⟨⟨false, fun _ => 0⟩, 1, .analysis, none, some ⟨fun X => .ok (X.map fun _ => 0), fun Y => .ok (Y.map fun _ => 0)⟩, some 1⟩
  P := ⟨fun _ => .ok 0, fun X => .ok X⟩
  par := par
  nparams := 1

theorem blind_total (par : Params) (hl : par.lmda ≠ 0) : Total (blind par) 1 (fun _ => 0) (fun _ => 0) (fun x => x) fun _ => 0 := by
  have hm := linModel_analysis (blind par).F rfl (0 : (Fin 1 → ℂ) →ₗ[ℂ] (Fin 1 → ℂ)) (fun _ => 0)
    ⟨⟨_, rfl, fun _ => by simp, fun _ => by simp⟩, fun x y => by simp [Spec.inner]⟩
  exact ⟨rfl, fun x => hm.fwd x, fun y => hm.grad y, fun x => rfl, fun x => rfl, hl⟩

/-- Arithmetic that gets every array entry too large by the factor `1 + u`. -/
noncomputable def enlarge (u : ℝ) : Rounding := ⟨fun x => x, fun z => ((1 + u : ℝ) : ℂ) * z⟩

theorem enlarge_within (u : ℝ) (hu : 0 ≤ u) : RoundsWithin (enlarge u) u where
  nonneg := hu
  re x := by simp [enlarge]; positivity
  cx z := by
    have : ((1 + u : ℝ) : ℂ) * z - z = (u : ℂ) * z := by push_cast; ring
    simp only [enlarge]
    rw [this, norm_mul, Complex.norm_real, Real.norm_of_nonneg hu]

/-- C162: the hypothesis that the data determine the parameters cannot be dropped.  For a measurement that does not see the parameter and every
precision `u > 0` there are runs, without noise, whose only saved sample is off by more than any given bound. -/
theorem C162_blind_grows (u : ℝ) (hu : 0 < u) (B : ℝ) : ∃ (fl : Rounding) (b : ℕ) (M : Sampler 1) (A : Arrays) (st st' : St (constRng 0 0))
    (x x' : Fin 1 → ℂ), RoundsWithin fl u ∧ M = blind ⟨1, 1, 1, 1, 1, (b : ℤ), 1, false, 0, ["chain"]⟩ ∧
    myulaRun M (constRng 0 0) A () (.array1 (List.ofFn fun _ : Fin 1 => (1 : ℂ))) (b + 1) = .ok (some st) ∧
    myulaRunFl fl M (constRng 0 0) A () (.array1 (List.ofFn fun _ : Fin 1 => (1 : ℂ))) (b + 1) = .ok (some st') ∧
    (A.applyAll st.ev).chain = some [List.ofFn x] ∧ (A.applyAll st'.ev).chain = some [List.ofFn x'] ∧ B < √(Spec.distSq x x') := by
  obtain ⟨b, hb⟩ := pow_unbounded_of_one_lt (B + 1) (show (1 : ℝ) < 1 + u by linarith)
  have tot := blind_total ⟨1, 1, 1, 1, 1, (b : ℤ), 1, false, 0, ["chain"]⟩ one_ne_zero
  obtain ⟨-, st, h1, -, h2⟩ := C41_schedule (blind ⟨1, 1, 1, 1, 1, (b : ℤ), 1, false, 0, ["chain"]⟩) (constRng 0 0) (initArrays (blind _))
    (initArrays_shaped _) (.inl le_rfl) b 1 rfl rfl tot _ (fun x => gradlogpi_vec _ tot x) () () (.array1 (List.ofFn fun _ : Fin 1 => (1 : ℂ)))
    (fun _ => 1) (start_array (constRng 0 0) tot () fun _ => 1) _ rfl
  obtain ⟨-, st', h1', -, h2'⟩ := C162_returns (enlarge u) (constRng 0 0) tot (initArrays (blind _)) (initArrays_shaped _) (.inl le_rfl) b 1
    rfl rfl () (fun _ => 1) _ rfl
  have e1 : ∀ k, iter (ulaStep 1 (gradVec 1 (fun _ : Fin 1 → ℂ => (0 : Fin 1 → ℂ)) (fun _ => 0) fun x => x)) (noiseSeq (constRng 0 0) false 1 ())
      (fun _ => 1) k = fun _ => 1 := by
    intro k
    induction k with
    | zero => rfl
    | succ k ih =>
      rw [iter, ih, noiseSeq_zero]
      funext i
      simp [ulaStep, gradVec]
  have e2 : ∀ k, fwState (flStep (enlarge u) 1 1 (fun _ : Fin 1 → ℂ => (0 : Fin 1 → ℂ)) (fun _ => 0) fun x => x)
      (fun _ => 1) (noiseSeq (constRng 0 0) false 1 ()) k = fun _ => (((1 + u) ^ (4 * k) : ℝ) : ℂ) := by
    intro k
    induction k with
    | zero => simp [fwState]
    | succ k ih =>
      rw [fwState, ih, noiseSeq_zero]
      funext i
      simp only [flStep, flEntry, enlarge, Pi.zero_apply]
      push_cast
      ring
  refine ⟨enlarge u, b, _, _, st, st', fun _ => 1, fun _ => (((1 + u) ^ (4 * (b + 1)) : ℝ) : ℂ), enlarge_within u hu.le, rfl,
    h1 _ (by simp [blind]), h1' _ (by simp [blind]), ?_, ?_, ?_⟩
  · rw [h2]
    show some [List.ofFn fun i => store false (iter _ _ _ (b + 0 * max 1 1 + 1) i)] = _
    erw [e1]
    simp [store]
  · rw [h2']
    show some [List.ofFn fun i => store false ((fwState _ _ _ (b + 0 * max 1 1 + 1) : Fin 1 → ℂ) i)] = _
    erw [e2]
    simp only [zero_mul, add_zero, store_real]
  · have h3 : (1 + u) ^ b ≤ (1 + u) ^ (4 * (b + 1)) := pow_le_pow_right₀ (by linarith) (by omega)
    rw [show Spec.distSq (fun _ : Fin 1 => (1 : ℂ)) (fun _ => (((1 + u) ^ (4 * (b + 1)) : ℝ) : ℂ)) = ((1 + u) ^ (4 * (b + 1)) - 1) ^ 2 by
      simp only [Spec.distSq, Finset.univ_unique, Finset.sum_singleton]
      rw [norm_sub_rev, ← Complex.ofReal_one, ← Complex.ofReal_sub, Complex.norm_real, Real.norm_eq_abs, sq_abs]]
    refine lt_of_lt_of_le ?_ (Real.le_sqrt_of_sq_le le_rfl)
    linarith

/-! ## The hypotheses are met -/

/-- Arithmetic whose results are one part in a thousand too large rounds within one part in a hundred, and is not exact. -/
example : RoundsWithin (enlarge (1 / 1000)) (1 / 100) ∧ (enlarge (1 / 1000)).cx 1 ≠ 1 := by
  have h := enlarge_within (1 / 1000) (by norm_num)
  refine ⟨⟨by norm_num, fun x => (h.re x).trans ?_, fun z => (h.cx z).trans ?_⟩, ?_⟩
  · nlinarith [abs_nonneg x]
  · nlinarith [norm_nonneg z]
  · intro h2
    have h3 := congrArg Complex.re h2
    simp [enlarge] at h3

/-- The hypotheses of `C162_apriori` (and so those of `C162_rows`) are met: one pixel, threshold 3, noise of size 1, relative errors of one part in a
thousand in every operation, ten saved samples.  The computed samples stay within 1 of the exact ones. -/
example : ∃ (fl : Rounding) (M : Sampler 1) (prox : (Fin 1 → ℂ) → (Fin 1 → ℂ)) (pri g : (Fin 1 → ℂ) → ℝ) (A : Arrays)
    (st st' : St (constRng 1 0)) (rows rows' : Fin M.par.nsamples → Fin 1 → ℂ) (E a β B : ℝ), RoundsWithin fl (1 / 1000) ∧ fl.cx 1 ≠ 1 ∧
    M.par.nsamples = 10 ∧ Total M 1 (fun x => x) (fun y => y) prox pri ∧ Identifiable M (fun x : Fin 1 → ℂ => x) (fun y => y) prox g 1 1 1 ∧
    A.Shaped M.par.nsamples ∧ (myulaRun M (constRng 1 0) A () (.array1 (List.ofFn fun _ : Fin 1 => (2 : ℂ))) 22 = .ok (some st)) ∧
    (myulaRunFl fl M (constRng 1 0) A () (.array1 (List.ofFn fun _ : Fin 1 => (2 : ℂ))) 22 = .ok (some st')) ∧
    (A.applyAll st.ev).chain = some (List.ofFn fun k => List.ofFn (rows k)) ∧
    (A.applyAll st'.ev).chain = some (List.ofFn fun k => List.ofFn (rows' k)) ∧
    (∀ j, √(Spec.distSq (noiseSeq (constRng 1 0) M.par.complex 1 () j) 0) ≤ 1) ∧ E = (1 + 1 / 1000) ^ 6 - 1 ∧
    a = 1 + 2 * (M.par.delta / M.par.lmda) + M.par.delta * 1 ∧
    β = M.par.delta / M.par.lmda * √(Spec.distSq (prox 0) 0) + M.par.delta * √(Spec.distSq (0 : Fin 1 → ℂ) 0) + √(2 * M.par.delta) * 1 ∧
    2 * E * a ≤ M.par.delta * 1 ∧ √(Spec.distSq (fun _ : Fin 1 => (2 : ℂ)) 0) ≤ B ∧ 2 * (1 + E) * β ≤ M.par.delta * 1 * B ∧
    ∀ k, √(Spec.distSq (rows k) (rows' k)) ≤ 1 := by
  set par : Params := ⟨1, 1 / 2, 1, 1, 10, (3 : ℕ), (2 : ℕ), false, 0, ["chain"]⟩ with hpar
  have tot : Total (demoL1 3 par) 1 (fun x => x) (fun y => y) (fun x i => softEntry (x i) 3) fun x => ∑ i, ‖x i‖ := by
    have h0 := demo_total par one_ne_zero
    refine ⟨rfl, h0.forward, h0.gradg, fun x => soft_scalar x 3, fun x => ?_, one_ne_zero⟩
    show Except.ok _ = _
    rw [L1.prior, norm_sum_ofFn]
  have hr : ∀ v : Fin 1 → ℂ, (Spec.inner v ((1 : Matrix (Fin 1) (Fin 1) ℂ).mulVec v)).re = Spec.distSq v 0 := by
    intro v
    rw [Matrix.one_mulVec, ← rip_eq_inner, rip_self]
  have hid : Identifiable (demoL1 3 par) (fun x : Fin 1 → ℂ => x) (fun y => y) (fun x i => softEntry (x i) 3) (Spec.wl1 fun _ => 3) 1 1 1 := by
    refine ⟨wl1_convex _ fun _ => by norm_num, fun x => softEntry_isProx x (fun _ => 3) fun _ => by norm_num, Matrix.isHermitian_one,
      fun v => ?_, fun v => ?_, fun x y => (Matrix.one_mulVec _).symm, one_pos, le_rfl, one_pos, ?_, ?_⟩
    · rw [hr, one_mul]
    · rw [hr, one_mul]
    · show (0 : ℝ) < 1 / 2
      norm_num
    · show (1 / 2 : ℝ) * (1 / 1 + 1 + 1) ≤ 2
      norm_num
  have hfl := enlarge_within (1 / 1000) (by norm_num)
  obtain ⟨-, st, h1, -, h2⟩ := C41_schedule (demoL1 3 par) (constRng 1 0) (initArrays (demoL1 3 par)) (initArrays_shaped _) (.inl le_rfl) 3 2 rfl rfl
    tot _ (fun x => gradlogpi_vec _ tot x) () () (.array1 (List.ofFn fun _ : Fin 1 => (2 : ℂ))) (fun _ => 2)
    (start_array (constRng 1 0) tot () fun _ => 2) _ rfl
  obtain ⟨-, st', h1', -, h2'⟩ := C162_returns (enlarge (1 / 1000)) (constRng 1 0) tot (initArrays (demoL1 3 par)) (initArrays_shaped _) (.inl le_rfl)
    3 2 rfl rfl () (fun _ => 2) _ rfl
  obtain ⟨l, hl⟩ : ∃ l, (initArrays (demoL1 3 par)).chain = some l := ⟨_, if_pos (e := (none : Option (List (List ℂ))))
    (show "chain" ∈ ["chain"] by simp)⟩
  obtain ⟨rows, hrows⟩ : ∃ rows : Fin (demoL1 3 par).par.nsamples → Fin 1 → ℂ, ((initArrays (demoL1 3 par)).applyAll st.ev).chain =
      some (List.ofFn fun k => List.ofFn (rows k)) := ⟨_, (congrArg Arrays.chain h2).trans (ofRows_chain hl _ _)⟩
  obtain ⟨rows', hrows'⟩ : ∃ rows : Fin (demoL1 3 par).par.nsamples → Fin 1 → ℂ, ((initArrays (demoL1 3 par)).applyAll st'.ev).chain =
      some (List.ofFn fun k => List.ofFn (rows k)) := ⟨_, (congrArg Arrays.chain h2').trans (ofRows_chain hl _ _)⟩
  have hW : ∀ j, √(Spec.distSq (noiseSeq (constRng 1 0) (demoL1 3 par).par.complex 1 () j) 0) ≤ 1 := by
    intro j
    have : noiseSeq (constRng 1 0) (demoL1 3 par).par.complex 1 () j = fun _ => 1 := by
      funext i
      show ((1 : ℝ) : ℂ) = 1
      simp
    rw [this]
    simp [Spec.distSq]
  have hs0 : (fun i => softEntry ((0 : Fin 1 → ℂ) i) 3) = (0 : Fin 1 → ℂ) := by
    funext i
    norm_num [softEntry]
  have hz : √(Spec.distSq (0 : Fin 1 → ℂ) 0) = 0 := by simp [Spec.distSq]
  have hβ : (1 : ℝ) = (demoL1 3 par).par.delta / (demoL1 3 par).par.lmda * √(Spec.distSq (fun i => softEntry ((0 : Fin 1 → ℂ) i) 3) 0) +
      (demoL1 3 par).par.delta * √(Spec.distSq (0 : Fin 1 → ℂ) 0) + √(2 * (demoL1 3 par).par.delta) * 1 := by
    rw [hs0, hz]
    show (1 : ℝ) = 1 / 2 / 1 * 0 + 1 / 2 * 0 + √(2 * (1 / 2)) * 1
    norm_num
  have ha : (5 / 2 : ℝ) = 1 + 2 * ((demoL1 3 par).par.delta / (demoL1 3 par).par.lmda) + (demoL1 3 par).par.delta * 1 := by
    show (5 / 2 : ℝ) = 1 + 2 * (1 / 2 / 1) + 1 / 2 * 1
    norm_num
  have hE : (1 + 1 / 1000 : ℝ) ^ 6 - 1 ≤ 7 / 1000 := by norm_num
  have hp : 2 * ((1 + 1 / 1000 : ℝ) ^ 6 - 1) * (5 / 2) ≤ (demoL1 3 par).par.delta * 1 := by
    show 2 * ((1 + 1 / 1000 : ℝ) ^ 6 - 1) * (5 / 2) ≤ 1 / 2 * 1
    norm_num
  have hB0 : √(Spec.distSq (fun _ : Fin 1 => (2 : ℂ)) 0) ≤ 5 := by
    refine (Real.sqrt_le_left (by norm_num)).mpr ?_
    norm_num [Spec.distSq]
  have hB : 2 * (1 + ((1 + 1 / 1000 : ℝ) ^ 6 - 1)) * 1 ≤ (demoL1 3 par).par.delta * 1 * 5 := by
    show 2 * (1 + ((1 + 1 / 1000 : ℝ) ^ 6 - 1)) * 1 ≤ 1 / 2 * 1 * 5
    norm_num
  refine ⟨_, demoL1 3 par, _, _, _, _, st, st', rows, rows', _, 5 / 2, 1, 5, hfl, ?_, rfl, tot, hid, initArrays_shaped _,
    h1 _ (by simp [demoL1, hpar]), h1' _ (by simp [demoL1, hpar]), hrows, hrows', hW, rfl, ha, hβ, hp, hB0, hB, fun k => ?_⟩
  · intro h3
    have h4 := congrArg Complex.re h3
    simp [enlarge] at h4
  · refine (C162_apriori _ _ hfl (constRng 1 0) tot hid _ _ (initArrays_shaped _) (initArrays_shaped _) 3 2 rfl rfl () (fun _ => 2) 22 22 st st'
      (h1 _ (by simp [demoL1, hpar])) (h1' _ (by simp [demoL1, hpar])) rows rows' hrows hrows' k 1 _ _ 1 5 (fun j _ => hW j) rfl ha hβ hp hB0 hB).trans ?_
    show ((1 + 1 / 1000 : ℝ) ^ 6 - 1) * (5 / 2 * 5 + 1) / (1 / 2 * 1) ≤ 1
    norm_num

/-- The hypotheses of `C162_linear` on the model are met by the measurement that does not see the parameter, where those of `C162_rows` are not. -/
example (b : ℕ) : Total (blind ⟨1, 1, 1, 1, 1, (b : ℤ), 1, false, 0, ["chain"]⟩) 1 (fun _ => 0) (fun _ => 0) (fun x => x) (fun _ => 0) ∧
    ConvexOn ℝ Set.univ (fun _ : Fin 1 → ℂ => (0 : ℝ)) ∧ (∀ x : Fin 1 → ℂ, Spec.IsProx (fun _ => 0) x x) ∧
    (0 : Matrix (Fin 1) (Fin 1) ℂ).IsHermitian ∧ (∀ v : Fin 1 → ℂ, 0 ≤ (Spec.inner v ((0 : Matrix (Fin 1) (Fin 1) ℂ).mulVec v)).re) ∧
    (∀ v : Fin 1 → ℂ, (Spec.inner v ((0 : Matrix (Fin 1) (Fin 1) ℂ).mulVec v)).re ≤ 0 * Spec.distSq v 0) ∧
    (∀ x y : Fin 1 → ℂ, (0 : Fin 1 → ℂ) - 0 = (0 : Matrix (Fin 1) (Fin 1) ℂ).mulVec (x - y)) ∧ (1 : ℝ) * (1 / 1 + 0) ≤ 2 ∧
    ∀ (g : (Fin 1 → ℂ) → ℝ) (Q : Matrix (Fin 1) (Fin 1) ℂ) (c Lf : ℝ),
      ¬ Identifiable (blind ⟨1, 1, 1, 1, 1, (b : ℤ), 1, false, 0, ["chain"]⟩) (fun _ => 0) (fun _ => 0) (fun x => x) g Q c Lf := by
  refine ⟨blind_total _ one_ne_zero, convexOn_const 0 convex_univ, fun x => ?_, Matrix.isHermitian_zero, fun v => by simp [Spec.inner],
    fun v => by simp [Spec.inner], fun x y => by simp, by norm_num, fun g Q c Lf h => ?_⟩
  · intro y hy
    have h1 : Spec.distSq x x = 0 := by simp [Spec.distSq]
    have h2 : 0 < Spec.distSq y x := by
      have h3 : y 0 - x 0 ≠ 0 := fun h => hy (funext fun i => by rw [Subsingleton.elim i 0]; exact sub_eq_zero.mp h)
      simp only [Spec.distSq, Finset.univ_unique, Fin.default_eq_zero, Finset.sum_singleton]
      positivity
    linarith
  · have h1 := h.lower (fun _ => 1)
    have h2 := h.affine (fun _ => 1) 0
    simp only [sub_zero] at h2
    rw [← h2] at h1
    simp [Spec.inner, Spec.distSq] at h1
    linarith [h.pos]

end Pxmcmc
