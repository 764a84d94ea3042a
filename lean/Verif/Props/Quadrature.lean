import Verif.Lemmas.Quadrature
import Verif.Lemmas.Arrays
import Verif.Spec

/-! # Properties C24, C25: exact quadrature on the sphere (`pxmcmc/utils.py`) -/

namespace Pxmcmc
open Complex

/-! ## The ring weights -/

/-- Entry `t` of `mwQ`. -/
noncomputable def qEntry (L t : ℕ) : ℝ :=
  if t < L - 1 then (weightsTheta L).getD t 0 + (weightsTheta L).getD (2 * L - 2 - t) 0
  else (weightsTheta L).getD t 0

theorem mwQ_eq (L : ℕ) : mwQ L = (List.range L).map (qEntry L) := rfl

theorem mwMapWeights_eq (L : ℕ) :
    mwMapWeights L = (List.range L).flatMap fun t => List.replicate (2 * L - 1) (qEntry L t) := by
  rw [mwMapWeights, mwQ_eq, List.flatMap_map]

theorem node_reflect {L t : ℕ} (hL : 1 ≤ L) (ht : t ≤ 2 * L - 2) :
    node (2 * L - 1) (2 * L - 2 - t) = 2 * Real.pi - node (2 * L - 1) t := by
  unfold node
  have hN : (0 : ℝ) < ((2 * L - 1 : ℕ) : ℝ) := by
    have : 0 < 2 * L - 1 := by omega
    exact_mod_cast this
  rw [Nat.cast_sub ht]
  have h2 : ((2 * L - 2 : ℕ) : ℝ) = ((2 * L - 1 : ℕ) : ℝ) - 1 := by
    have : 2 * L - 1 = (2 * L - 2) + 1 := by omega
    rw [this]; push_cast; ring
  rw [h2]
  field_simp
  ring

/-- Folding: for functions symmetric about `π` the ring weights give the full-circle sum. -/
theorem sum_q_even {L : ℕ} (hL : 1 ≤ L) (F : ℝ → ℂ) (hF : ∀ x, F (2 * Real.pi - x) = F x) :
    ∑ t ∈ Finset.range L, (qEntry L t : ℂ) * F (node (2 * L - 1) t) =
      ∑ t ∈ Finset.range (2 * L - 1), (((weightsTheta L).getD t 0 : ℝ) : ℂ) * F (node (2 * L - 1) t) := by
  obtain ⟨k, rfl⟩ := Nat.exists_eq_add_of_le' hL
  have hN : 2 * (k + 1) - 1 = (k + 1) + k := by omega
  set W := fun t => (((weightsTheta (k + 1)).getD t 0 : ℝ) : ℂ) with hW
  set th := fun t => F (node (2 * (k + 1) - 1) t) with hth
  have e1 : ∑ t ∈ Finset.range (k + 1), (qEntry (k + 1) t : ℂ) * th t =
      ∑ t ∈ Finset.range k, (W t * th t + W (2 * k - t) * th t) + W k * th k := by
    rw [Finset.sum_range_succ]
    congr 1
    · apply Finset.sum_congr rfl
      intro t ht
      rw [Finset.mem_range] at ht
      unfold qEntry
      have : 2 * (k + 1) - 2 - t = 2 * k - t := by omega
      rw [if_pos (by omega), this, hW]
      push_cast; ring
    · unfold qEntry
      rw [if_neg (by omega)]
  have e2 : ∑ t ∈ Finset.range (2 * (k + 1) - 1), W t * th t =
      (∑ t ∈ Finset.range k, W t * th t + W k * th k) + ∑ t ∈ Finset.range k, W (2 * k - t) * th t := by
    rw [hN, Finset.sum_range_add, Finset.sum_range_succ]
    congr 1
    rw [← Finset.sum_range_reflect]
    apply Finset.sum_congr rfl
    intro t ht
    rw [Finset.mem_range] at ht
    have : k + 1 + (k - 1 - t) = 2 * k - t := by omega
    rw [this]
    congr 1
    have h3 := node_reflect (L := k + 1) (t := t) hL (by omega)
    have : 2 * (k + 1) - 2 - t = 2 * k - t := by omega
    rw [this] at h3
    show F (node (2 * (k + 1) - 1) (2 * k - t)) = F (node (2 * (k + 1) - 1) t)
    rw [h3, hF]
  show ∑ t ∈ Finset.range (k + 1), (qEntry (k + 1) t : ℂ) * th t =
    ∑ t ∈ Finset.range (2 * (k + 1) - 1), W t * th t
  rw [e1, e2, Finset.sum_add_distrib]
  ring

/-- The circle rule integrates `F·sin` exactly. -/
def CircleExact (L : ℕ) (F : ℝ → ℂ) : Prop :=
  Continuous F ∧
  ((2 * L - 1 : ℕ) : ℂ) * ∑ t ∈ Finset.range (2 * L - 1), (((weightsTheta L).getD t 0 : ℝ) : ℂ) *
    F (node (2 * L - 1) t) = 2 * Real.pi * ∫ x in (0 : ℝ)..Real.pi, F x * (Real.sin x : ℂ)

theorem CircleExact.exp {L : ℕ} (hL : 1 ≤ L) (k : ℤ) (hk : |k| < L) :
    CircleExact L fun x => Complex.exp (I * k * x) := by
  refine ⟨by fun_prop, ?_⟩
  have hN : 0 < 2 * L - 1 := by omega
  have hNc : ((2 * L - 1 : ℕ) : ℂ) ≠ 0 := by exact_mod_cast hN.ne'
  rw [weights_exp hL k hk, integral_exp_sin]
  field_simp

theorem CircleExact.smul {L : ℕ} {F : ℝ → ℂ} (h : CircleExact L F) (c : ℂ) :
    CircleExact L fun x => c * F x := by
  refine ⟨continuous_const.mul h.1, ?_⟩
  have e1 : ∑ t ∈ Finset.range (2 * L - 1), (((weightsTheta L).getD t 0 : ℝ) : ℂ) *
      (c * F (node (2 * L - 1) t)) = c * ∑ t ∈ Finset.range (2 * L - 1),
        (((weightsTheta L).getD t 0 : ℝ) : ℂ) * F (node (2 * L - 1) t) := by
    rw [Finset.mul_sum]; apply Finset.sum_congr rfl; intros; ring
  have e2 : (∫ x in (0 : ℝ)..Real.pi, c * F x * (Real.sin x : ℂ)) =
      c * ∫ x in (0 : ℝ)..Real.pi, F x * (Real.sin x : ℂ) := by
    rw [← intervalIntegral.integral_const_mul]; congr 1; funext x; ring
  rw [e1, e2]
  linear_combination c * h.2

theorem CircleExact.add {L : ℕ} {F G : ℝ → ℂ} (h : CircleExact L F) (h' : CircleExact L G) :
    CircleExact L fun x => F x + G x := by
  refine ⟨h.1.add h'.1, ?_⟩
  have e1 : ∑ t ∈ Finset.range (2 * L - 1), (((weightsTheta L).getD t 0 : ℝ) : ℂ) *
      (F (node (2 * L - 1) t) + G (node (2 * L - 1) t)) =
      ∑ t ∈ Finset.range (2 * L - 1), (((weightsTheta L).getD t 0 : ℝ) : ℂ) * F (node (2 * L - 1) t) +
      ∑ t ∈ Finset.range (2 * L - 1), (((weightsTheta L).getD t 0 : ℝ) : ℂ) * G (node (2 * L - 1) t) := by
    rw [← Finset.sum_add_distrib]; apply Finset.sum_congr rfl; intros; ring
  have hs : Continuous fun x : ℝ => (Real.sin x : ℂ) := by fun_prop
  have e2 : (∫ x in (0 : ℝ)..Real.pi, (F x + G x) * (Real.sin x : ℂ)) =
      (∫ x in (0 : ℝ)..Real.pi, F x * (Real.sin x : ℂ)) + ∫ x in (0 : ℝ)..Real.pi, G x * (Real.sin x : ℂ) := by
    have := intervalIntegral.integral_add (μ := MeasureTheory.volume) (a := 0) (b := Real.pi)
      ((h.1.mul hs).intervalIntegrable 0 Real.pi) ((h'.1.mul hs).intervalIntegrable 0 Real.pi)
    simp only [Pi.mul_apply] at this
    rw [← this]
    congr 1; funext x; ring
  rw [e1, e2]
  linear_combination h.2 + h'.2

theorem CircleExact.sum {L : ℕ} {ι : Type} (s : Finset ι) (F : ι → ℝ → ℂ)
    (h : ∀ i ∈ s, CircleExact L (F i)) : CircleExact L fun x => ∑ i ∈ s, F i x := by
  classical
  induction s using Finset.induction_on with
  | empty =>
    refine ⟨by simp; fun_prop, by simp⟩
  | insert a s ha ih =>
    have := (h a (by simp)).add (ih fun i hi => h i (by simp [hi]))
    simpa [Finset.sum_insert ha] using this

theorem CircleExact.cos_pow {L : ℕ} (hL : 1 ≤ L) (n : ℕ) (hn : n < L) :
    CircleExact L fun x => (Real.cos x : ℂ) ^ n := by
  have e : (fun x : ℝ => (Real.cos x : ℂ) ^ n) = fun x : ℝ => ∑ j ∈ Finset.range (n + 1),
      ((n.choose j : ℂ) / 2 ^ n) * Complex.exp (I * ((2 * (j : ℤ) - n : ℤ) : ℂ) * x) := by
    funext x
    have hc : (Real.cos x : ℂ) = (Complex.exp (x * I) + Complex.exp (-x * I)) / 2 := by
      rw [Complex.ofReal_cos]; rfl
    rw [hc, div_pow, add_pow, Finset.sum_div]
    apply Finset.sum_congr rfl
    intro j hj
    rw [Finset.mem_range] at hj
    rw [← Complex.exp_nat_mul, ← Complex.exp_nat_mul, ← Complex.exp_add]
    have : (j : ℂ) * (x * I) + ((n - j : ℕ) : ℂ) * (-x * I) = I * ((2 * (j : ℤ) - n : ℤ) : ℂ) * x := by
      rw [Nat.cast_sub (by omega)]; push_cast; ring
    rw [this]; ring
  rw [e]
  apply CircleExact.sum
  intro j hj
  rw [Finset.mem_range] at hj
  apply CircleExact.smul
  apply CircleExact.exp hL
  rw [abs_lt]; omega

theorem CircleExact.poly {L : ℕ} (hL : 1 ≤ L) (p : Polynomial ℂ) (hp : p.natDegree < L) :
    CircleExact L fun x => p.eval (Real.cos x : ℂ) := by
  have e : (fun x : ℝ => p.eval (Real.cos x : ℂ)) = fun x => ∑ i ∈ Finset.range (p.natDegree + 1),
      p.coeff i * (Real.cos x : ℂ) ^ i := by
    funext x; rw [Polynomial.eval_eq_sum_range]
  rw [e]
  apply CircleExact.sum
  intro i hi
  rw [Finset.mem_range] at hi
  exact (CircleExact.cos_pow hL i (by omega)).smul _

/-! ## Lists -/

theorem zip_flatMap {α β γ : Type} (l : List γ) (f : γ → List α) (g : γ → List β)
    (h : ∀ c ∈ l, (f c).length = (g c).length) :
    (l.flatMap f).zip (l.flatMap g) = l.flatMap fun c => (f c).zip (g c) := by
  induction l with
  | nil => rfl
  | cons c l ih =>
    rw [List.flatMap_cons, List.flatMap_cons, List.flatMap_cons, List.zip_append (h c (by simp)),
      ih fun c hc => h c (by simp [hc])]

theorem s2Integrate_samples (L : ℕ) (f : ℝ → ℝ → ℂ) :
    s2Integrate (Spec.mwSamples L f) L = .ok (∑ t ∈ Finset.range L, (qEntry L t : ℂ) *
      ∑ p ∈ Finset.range (2 * L - 1),
        f ((2 * (t : ℝ) + 1) * Real.pi / (2 * L - 1)) (2 * Real.pi * (p : ℝ) / (2 * L - 1))) := by
  unfold s2Integrate
  have hl : (mwMapWeights L).length = (Spec.mwSamples L f).length := by
    rw [mwMapWeights_eq, Spec.mwSamples]; simp [List.length_flatMap]
  rw [bcast_eq _ _ hl, mwMapWeights_eq, Spec.mwSamples, zip_flatMap _ _ _ (by intros; simp)]
  show Except.ok _ = _
  congr 1
  rw [List.map_flatMap]
  have hz : ∀ t : ℕ, ((List.replicate (2 * L - 1) (qEntry L t)).zip ((List.range (2 * L - 1)).map
      fun (p : ℕ) => f ((2 * (t : ℝ) + 1) * Real.pi / (2 * L - 1)) (2 * Real.pi * (p : ℝ) / (2 * L - 1)))).map
        (fun p => (p.1 : ℂ) * p.2) = (List.range (2 * L - 1)).map fun (p : ℕ) => (qEntry L t : ℂ) *
          f ((2 * (t : ℝ) + 1) * Real.pi / (2 * L - 1)) (2 * Real.pi * (p : ℝ) / (2 * L - 1)) := by
    intro t
    apply List.ext_getElem <;> simp
  simp only [hz]
  rw [List.flatMap_def, List.sum_flatten, List.map_map, list_sum_range]
  apply Finset.sum_congr rfl
  intro t _
  simp only [Function.comp]
  rw [list_sum_range, Finset.mul_sum]

/-! ## C24 -/

/-- C24: `s2_integrate` of the MW samples of a bandlimited function is its surface integral. -/
theorem C24_exact (L : ℕ) (hL : 1 ≤ L) (f : ℝ → ℝ → ℂ) (hf : Spec.BandLimited L f) :
    s2Integrate (Spec.mwSamples L f) L = .ok (Spec.sphereIntegral f) := by
  obtain ⟨g, p, hp, hg0, hfeq⟩ := hf
  rw [s2Integrate_samples]
  congr 1
  have hN : 0 < 2 * L - 1 := by omega
  have hNc : ((2 * L - 1 : ℕ) : ℂ) ≠ 0 := by exact_mod_cast hN.ne'
  have h0mem : (0 : ℤ) ∈ Finset.Ioo (-(L : ℤ)) L := by simp; omega
  -- the sum over longitude keeps only m = 0
  have hphi : ∀ θ : ℝ, ∑ p ∈ Finset.range (2 * L - 1), f θ (2 * Real.pi * (p : ℝ) / (2 * L - 1)) =
      ((2 * L - 1 : ℕ) : ℂ) * g 0 θ := by
    intro θ
    simp only [hfeq]
    rw [Finset.sum_comm, Finset.sum_eq_single_of_mem 0 h0mem]
    · simp
    · intro m hm hm0
      rw [← Finset.mul_sum]
      have : ∑ i ∈ Finset.range (2 * L - 1),
          Complex.exp (I * m * ((2 * Real.pi * (i : ℝ) / (2 * L - 1) : ℝ) : ℂ)) = 0 := by
        rw [← sum_exp_phi (N := 2 * L - 1) hm0]
        · apply Finset.sum_congr rfl
          intro i _
          rw [← castR_two_L hL]; push_cast; rfl
        · simp at hm; rw [abs_lt]; omega
      rw [this, mul_zero]
  simp only [hphi]
  -- the integral over longitude keeps only m = 0
  have hint : ∀ θ : ℝ, (∫ φ in (0 : ℝ)..(2 * Real.pi), f θ φ) = 2 * Real.pi * g 0 θ := by
    intro θ
    simp only [hfeq]
    rw [intervalIntegral.integral_finsetSum]
    · rw [Finset.sum_eq_single_of_mem 0 h0mem]
      · simp
      · intro m _ hm0
        rw [intervalIntegral.integral_const_mul]
        have hc : (I * m : ℂ) ≠ 0 := by simp [hm0]
        rw [integral_exp_mul_complex hc]
        have : Complex.exp (I * m * ((2 * Real.pi : ℝ) : ℂ)) = 1 := by
          rw [Complex.exp_eq_one_iff]; exact ⟨m, by push_cast; ring⟩
        rw [this]; simp
    · intro m _
      apply Continuous.intervalIntegrable
      fun_prop
  unfold Spec.sphereIntegral
  simp only [hint, hg0]
  have hex := (CircleExact.poly hL p hp).2
  have heven := sum_q_even hL (fun x => p.eval (Real.cos x : ℂ))
    (fun x => by rw [Real.cos_two_pi_sub])
  have hnode : ∀ t : ℕ, (2 * (t : ℝ) + 1) * Real.pi / (2 * L - 1) = node (2 * L - 1) t := by
    intro t; unfold node; rw [castR_two_L hL]
  simp only [hnode]
  calc ∑ t ∈ Finset.range L, (qEntry L t : ℂ) * (((2 * L - 1 : ℕ) : ℂ) *
        p.eval (Real.cos (node (2 * L - 1) t) : ℂ))
      = ((2 * L - 1 : ℕ) : ℂ) * ∑ t ∈ Finset.range L, (qEntry L t : ℂ) *
        p.eval (Real.cos (node (2 * L - 1) t) : ℂ) := by
        rw [Finset.mul_sum]; apply Finset.sum_congr rfl; intros; ring
    _ = 2 * Real.pi * ∫ x in (0 : ℝ)..Real.pi, p.eval (Real.cos x : ℂ) * (Real.sin x : ℂ) := by
        rw [heven, hex]
    _ = _ := by
        rw [← intervalIntegral.integral_const_mul]; congr 1; funext x; ring

theorem legendre_natDegree (l : ℕ) : (Spec.legendre l).natDegree ≤ l := by
  unfold Spec.legendre
  refine (Polynomial.natDegree_C_mul_le _ _).trans ?_
  refine (Polynomial.natDegree_iterate_derivative _ _).trans ?_
  have h : ((Polynomial.X ^ 2 - 1 : Polynomial ℂ) ^ l).natDegree ≤ l * 2 := by
    refine Polynomial.natDegree_pow_le.trans ?_
    apply Nat.mul_le_mul_left
    refine (Polynomial.natDegree_sub_le _ _).trans ?_
    simp
  omega

/-- Spherical-harmonic sums of degree `< L` are bandlimited. -/
theorem sphHarm_bandLimited (L : ℕ) (c : ℕ → ℤ → ℂ) :
    1 ≤ L → Spec.BandLimited L fun θ φ => ∑ l ∈ Finset.range L, ∑ m ∈ Finset.Icc (-(l : ℤ)) l,
      c l m * Spec.sphHarm l m θ φ := by
  intro hL
  refine ⟨fun m θ => ∑ l ∈ Finset.range L, if m ∈ Finset.Icc (-(l : ℤ)) l then
      c l m * ((Real.sin θ : ℂ) ^ m.natAbs *
        (Polynomial.derivative^[m.natAbs] (Spec.legendre l)).eval (Real.cos θ : ℂ)) else 0,
    ∑ l ∈ Finset.range L, Polynomial.C (c l 0) * Spec.legendre l, ?_, ?_, ?_⟩
  · have : (∑ l ∈ Finset.range L, Polynomial.C (c l 0) * Spec.legendre l).natDegree ≤ L - 1 := by
      apply Polynomial.natDegree_sum_le_of_forall_le
      intro l hl
      rw [Finset.mem_range] at hl
      exact (Polynomial.natDegree_C_mul_le _ _).trans ((legendre_natDegree l).trans (by omega))
    omega
  · intro θ
    rw [Polynomial.eval_finsetSum]
    apply Finset.sum_congr rfl
    intro l _
    simp
  · intro θ φ
    simp only [Finset.sum_mul]
    rw [Finset.sum_comm]
    apply Finset.sum_congr rfl
    intro l hl
    rw [Finset.mem_range] at hl
    simp only [ite_mul, zero_mul]
    rw [← Finset.sum_filter]
    have : (Finset.Ioo (-(L : ℤ)) L).filter (fun m => m ∈ Finset.Icc (-(l : ℤ)) l) =
        Finset.Icc (-(l : ℤ)) l := by
      ext m; simp; omega
    rw [this]
    apply Finset.sum_congr rfl
    intro m _
    unfold Spec.sphHarm; ring

/-- C24 for spherical-harmonic expansions with arbitrary coefficients. -/
theorem C24_exact_harmonics (L : ℕ) (hL : 1 ≤ L) (c : ℕ → ℤ → ℂ) :
    let f := fun θ φ => ∑ l ∈ Finset.range L, ∑ m ∈ Finset.Icc (-(l : ℤ)) l, c l m * Spec.sphHarm l m θ φ
    s2Integrate (Spec.mwSamples L f) L = .ok (Spec.sphereIntegral f) :=
  C24_exact L hL _ (sphHarm_bandLimited L c hL)

/-- A non-constant bandlimited function: `cos θ + sin θ e^{iφ}` for `L = 2`. -/
example : Spec.BandLimited 2 fun θ φ => (Real.cos θ : ℂ) + Real.sin θ * Complex.exp (I * φ) := by
  refine ⟨fun m θ => if m = 0 then (Real.cos θ : ℂ) else if m = 1 then (Real.sin θ : ℂ) else 0,
    Polynomial.X, by simp, by simp, ?_⟩
  intro θ φ
  have : Finset.Ioo (-((2 : ℕ) : ℤ)) ((2 : ℕ) : ℤ) = {-1, 0, 1} := by decide
  rw [this]
  simp

/-- C24: maps of the wrong size (and not of size one, which broadcasts) are rejected. -/
theorem C24_wrong_size (L : ℕ) (f : List ℂ) (hL : 2 ≤ L) (h : f.length ≠ L * (2 * L - 1))
    (h1 : f.length ≠ 1) : s2Integrate f L = .error .ValueError := by
  have hl : (mwMapWeights L).length = L * (2 * L - 1) := by
    rw [mwMapWeights_eq]; simp [List.length_flatMap]
  have hl1 : (mwMapWeights L).length ≠ 1 := by
    rw [hl]; have : 2 * 3 ≤ L * (2 * L - 1) := Nat.mul_le_mul hL (by omega)
    omega
  have : bcast (mwMapWeights L) f = .error .ValueError := by
    unfold bcast
    rw [if_neg (by rw [hl]; exact h.symm)]
    generalize mwMapWeights L = w at hl hl1
    match w, f, hl1, h1 with
    | [], [], _, _ => simp at h hl; exact absurd hl (by omega)
    | [], b :: b' :: l, _, _ => rfl
    | a :: a' :: l, [], _, _ => rfl
    | a :: a' :: l, b :: b' :: l', _, _ => rfl
  unfold s2Integrate
  rw [this]; rfl

example : 2 ≤ 2 ∧ ([1, 2, 3] : List ℂ).length ≠ 2 * (2 * 2 - 1) ∧ ([1, 2, 3] : List ℂ).length ≠ 1 := by
  simp

/-! ## C25 -/

/-- `Σ_{|m|<L} w(m) cos(mθ)`. -/
noncomputable def cosSum (L : ℕ) (θ : ℝ) : ℂ :=
  ∑ i ∈ Finset.range (2 * L - 1), mwWeights (freq L i) * (Real.cos (freq L i * θ) : ℂ)

theorem cosSum_succ (L : ℕ) (hL : 1 ≤ L) (θ : ℝ) : cosSum (L + 1) θ =
    cosSum L θ + (mwWeights L + mwWeights (-L)) * (Real.cos (L * θ) : ℂ) := by
  unfold cosSum
  have e : 2 * (L + 1) - 1 = (2 * L - 1) + 1 + 1 := by omega
  rw [e, Finset.sum_range_succ, Finset.sum_range_succ']
  have f1 : ∀ i, freq (L + 1) (i + 1) = freq L i := by intro i; unfold freq; omega
  have f2 : freq (L + 1) 0 = -(L : ℤ) := by unfold freq; omega
  have f3 : freq (L + 1) (2 * L - 1 + 1) = (L : ℤ) := by unfold freq; omega
  rw [f3]
  simp only [f1, f2]
  have : Real.cos (((-(L : ℤ) : ℤ) : ℝ) * θ) = Real.cos (L * θ) := by
    push_cast; rw [neg_mul, Real.cos_neg]
  rw [this, Int.cast_natCast]
  ring

theorem cosSum_lower (n : ℕ) (θ : ℝ) : 2 / (2 * ((n / 2 : ℕ) : ℝ) + 1) ≤ (cosSum (n + 1) θ).re := by
  induction n with
  | zero =>
    simp [cosSum, freq, mwWeights]
  | succ n ih =>
    rw [cosSum_succ (n + 1) (by omega)]
    rcases Nat.even_or_odd' (n + 1) with ⟨j, hj | hj⟩
    · -- n + 1 = 2 j
      have hj1 : 1 ≤ j := by omega
      have hw : mwWeights ((n + 1 : ℕ) : ℤ) + mwWeights (-((n + 1 : ℕ) : ℤ)) =
          ((4 / (1 - 4 * (j : ℝ) ^ 2) : ℝ) : ℂ) := by
        unfold mwWeights
        rw [if_neg (by omega), if_neg (by omega), if_pos (by omega), if_neg (by omega),
          if_neg (by omega), if_pos (by omega), hj]
        push_cast
        have : (1 - (2 * (j : ℂ)) * (2 * j)) = 1 - 4 * (j : ℂ) ^ 2 := by ring
        have h' : (1 - -(2 * (j : ℂ)) * -(2 * j)) = 1 - 4 * (j : ℂ) ^ 2 := by ring
        rw [this, h']
        ring
      rw [hw, ← Complex.ofReal_mul, Complex.add_re, Complex.ofReal_re]
      have hk : n / 2 = j - 1 := by omega
      have hk2 : (n + 1) / 2 = j := by omega
      rw [hk, Nat.cast_sub hj1] at ih
      rw [hk2]
      have hj' : (1 : ℝ) ≤ j := by exact_mod_cast hj1
      have hden : 0 < 4 * (j : ℝ) ^ 2 - 1 := by nlinarith
      have hc := Real.cos_le_one (((n + 1 : ℕ) : ℝ) * θ)
      have hb : -(4 / (4 * (j : ℝ) ^ 2 - 1)) ≤
          4 / (1 - 4 * (j : ℝ) ^ 2) * Real.cos (((n + 1 : ℕ) : ℝ) * θ) := by
        have e : 4 / (1 - 4 * (j : ℝ) ^ 2) = -(4 / (4 * (j : ℝ) ^ 2 - 1)) := by
          rw [← neg_sub, div_neg]
        rw [e, neg_mul, neg_le_neg_iff]
        exact mul_le_of_le_one_right (by positivity) hc
      have e2 : 2 / (2 * (j : ℝ) + 1) = 2 / (2 * ((j : ℝ) - 1) + 1) - 4 / (4 * (j : ℝ) ^ 2 - 1) := by
        have h1 : (2 * (j : ℝ) + 1) ≠ 0 := by positivity
        have h2 : (2 * ((j : ℝ) - 1) + 1) ≠ 0 := by nlinarith
        have h3 : 4 * (j : ℝ) ^ 2 - 1 = (2 * j + 1) * (2 * (j - 1) + 1) := by ring
        rw [h3]
        field_simp
        ring
      push_cast at ih
      rw [e2]; linarith
    · have hw : mwWeights ((n + 1 : ℕ) : ℤ) + mwWeights (-((n + 1 : ℕ) : ℤ)) = 0 := by
        unfold mwWeights
        by_cases h1 : n = 0
        · subst h1; norm_num; ring
        · rw [if_neg (by omega), if_neg (by omega), if_neg (by omega), if_neg (by omega),
            if_neg (by omega), if_neg (by omega)]
          simp
      have : (n + 1) / 2 = n / 2 := by omega
      rw [hw, zero_mul, add_zero, this]
      exact ih

theorem cosSum_pos {L : ℕ} (hL : 1 ≤ L) (θ : ℝ) : 0 < (cosSum L θ).re := by
  obtain ⟨n, rfl⟩ := Nat.exists_eq_add_of_le' hL
  exact lt_of_lt_of_le (by positivity) (cosSum_lower n θ)

theorem specSum_add_reflect {L : ℕ} (θ : ℝ) :
    specSum L θ + specSum L (2 * Real.pi - θ) = 2 * cosSum L θ := by
  unfold specSum cosSum
  rw [← Finset.sum_add_distrib, Finset.mul_sum]
  apply Finset.sum_congr rfl
  intro i _
  set m := freq L i
  have e1 : exp (-(I * m * ((2 * Real.pi - θ : ℝ) : ℂ))) = exp ((m * θ : ℂ) * I) := by
    rw [Complex.exp_eq_exp_iff_exists_int]
    exact ⟨-m, by push_cast; ring⟩
  have e2 : exp (-(I * m * (θ : ℂ))) = exp (-(m * θ : ℂ) * I) := by congr 1; ring
  have e3 : (Real.cos (m * θ) : ℂ) = (exp ((m * θ : ℂ) * I) + exp (-(m * θ : ℂ) * I)) / 2 := by
    rw [Complex.ofReal_cos]; push_cast; rfl
  rw [e1, e2, e3]
  ring

theorem specSum_pi {L : ℕ} : specSum L Real.pi = cosSum L Real.pi := by
  unfold specSum cosSum
  apply Finset.sum_congr rfl
  intro i _
  set m := freq L i
  congr 1
  have e2 : exp (-(I * m * (Real.pi : ℂ))) = Complex.cos (m * Real.pi) + Complex.sin (-(m * Real.pi)) * I := by
    have : (-(I * m * (Real.pi : ℂ))) = (-(m * Real.pi) : ℂ) * I := by ring
    rw [this, Complex.exp_mul_I, Complex.cos_neg]
  have e3 : Complex.sin (-(m * Real.pi)) = 0 := by
    rw [Complex.sin_neg, Complex.sin_int_mul_pi, neg_zero]
  rw [e2, e3, Complex.ofReal_cos]
  push_cast
  ring

theorem qEntry_pos {L t : ℕ} (hL : 1 ≤ L) (ht : t < L) : 0 < qEntry L t := by
  have hN : (0 : ℝ) < ((2 * L - 1 : ℕ) : ℝ) := by
    have : 0 < 2 * L - 1 := by omega
    exact_mod_cast this
  have hc : 0 < 2 * Real.pi / ((2 * L - 1 : ℕ) : ℝ) ^ 2 := by
    have := Real.pi_pos; positivity
  unfold qEntry
  split_ifs with h
  · rw [weightsTheta_getD hL t (by omega), weightsTheta_getD hL (2 * L - 2 - t) (by omega),
      node_reflect hL (by omega), ← mul_add, ← Complex.add_re, specSum_add_reflect]
    apply mul_pos hc
    have := cosSum_pos hL (node (2 * L - 1) t)
    rw [show (2 : ℂ) = ((2 : ℝ) : ℂ) by norm_num, Complex.re_ofReal_mul]
    linarith
  · have htL : t = L - 1 := by omega
    have hnode : node (2 * L - 1) t = Real.pi := by
      unfold node
      rw [castR_two_L hL] at hN ⊢
      rw [htL, Nat.cast_sub hL]
      push_cast
      field_simp
      ring
    rw [weightsTheta_getD hL t (by omega), hnode, specSum_pi]
    exact mul_pos hc (cosSum_pos hL _)

theorem mwMapWeights_length (L : ℕ) : (mwMapWeights L).length = L * (2 * L - 1) := by
  rw [mwMapWeights_eq]; simp [List.length_flatMap]

/-- C25: `mw_map_weights(L)` has length `L(2L-1)`, all weights are positive, and they sum to `4π`. -/
theorem C25_weights (L : ℕ) (hL : 1 ≤ L) :
    (mwMapWeights L).length = L * (2 * L - 1) ∧ (∀ w ∈ mwMapWeights L, 0 < w) ∧
      (mwMapWeights L).sum = 4 * Real.pi := by
  refine ⟨mwMapWeights_length L, ?_, ?_⟩
  · intro w hw
    rw [mwMapWeights_eq, List.mem_flatMap] at hw
    obtain ⟨t, ht, hw⟩ := hw
    rw [List.mem_range] at ht
    rw [List.mem_replicate] at hw
    rw [hw.2]
    exact qEntry_pos hL ht
  · have h := C24_exact L hL (fun _ _ => 1) ⟨fun m _ => if m = 0 then 1 else 0, 1, by simp; omega,
      by simp, by
        intro θ φ
        simp only [ite_mul, zero_mul]
        rw [Finset.sum_ite_eq' _ (0 : ℤ)]
        simp; omega⟩
    rw [s2Integrate_samples] at h
    injection h with h
    have hI : Spec.sphereIntegral (fun _ _ => 1) = ((4 * Real.pi : ℝ) : ℂ) := by
      unfold Spec.sphereIntegral
      simp only [intervalIntegral.integral_const, Complex.real_smul, mul_one, sub_zero]
      rw [intervalIntegral.integral_const_mul, intervalIntegral.integral_ofReal, integral_sin]
      push_cast; norm_num; ring
    rw [hI] at h
    have hs : (((mwMapWeights L).sum : ℝ) : ℂ) = ((4 * Real.pi : ℝ) : ℂ) := by
      rw [← h, mwMapWeights_eq, List.flatMap_def, List.sum_flatten, List.map_map, list_sum_range]
      simp only [Function.comp, List.sum_replicate, nsmul_eq_mul, Finset.sum_const, Finset.card_range]
      push_cast
      apply Finset.sum_congr rfl
      intros; ring
    exact_mod_cast hs

/-- C25 is about non-empty arrays: for `L = 1` there is one weight, `4π`. -/
example : ∃ w, mwMapWeights 1 = [w] ∧ w = 4 * Real.pi := by
  obtain ⟨h1, -, h3⟩ := C25_weights 1 le_rfl
  match hm : mwMapWeights 1, h1 with
  | [w], _ => exact ⟨w, rfl, by rw [hm] at h3; simpa using h3⟩

end Pxmcmc
