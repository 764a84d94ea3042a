import Verif.Lemmas.ReachAverages

/-! # Averages over the accepted states on a grid -/

namespace Pxmcmc
open MeasureTheory ProbabilityTheory Filter
open scoped ENNReal Topology
set_option linter.unusedSectionVars false

/-- Sums over the first `N` hits and over the hits among the first `T` places. -/
theorem hits_sum (Q : ℕ → Prop) [DecidablePred Q] (y r : ℕ → ℝ) (B : ℝ) (hy : ∀ j, |y j| ≤ B) (hr : ∀ k, |r k| ≤ B) (N : ℕ)
    (h : ∀ j, Q j → Nat.count Q j < N → r (Nat.count Q j) = y j) (T : ℕ) :
    |∑ k ∈ Finset.range N, r k - ∑ j ∈ Finset.range T, (if Q j then y j else 0)| ≤ B * |(N : ℝ) - Nat.count Q T| := by
  have hB : 0 ≤ B := (abs_nonneg _).trans (hy 0)
  have c1 : ∀ T, |∑ j ∈ Finset.range T, (if Q j then y j else 0) - ∑ k ∈ Finset.range (min (Nat.count Q T) N), r k| ≤
      B * ((Nat.count Q T - min (Nat.count Q T) N : ℕ) : ℝ) := by
    intro T
    induction T with
    | zero => simp
    | succ T ih =>
      rw [Finset.sum_range_succ, Nat.count_succ]
      by_cases hq : Q T
      · simp only [if_pos hq]
        rcases Nat.lt_or_ge (Nat.count Q T) N with hc | hc
        · rw [min_eq_left (by omega), Finset.sum_range_succ, h T hq hc]
          rw [min_eq_left hc.le] at ih
          simp only [Nat.sub_self, Nat.cast_zero, mul_zero] at ih ⊢
          rw [add_sub_add_right_eq_sub]
          exact ih
        · rw [min_eq_right (by omega)]
          rw [min_eq_right hc] at ih
          have e : ((Nat.count Q T + 1 - N : ℕ) : ℝ) = ((Nat.count Q T - N : ℕ) : ℝ) + 1 := by
            rw [show Nat.count Q T + 1 - N = Nat.count Q T - N + 1 by omega]
            push_cast
            ring
          rw [e, add_sub_right_comm]
          refine (abs_add_le _ _).trans ?_
          rw [mul_add, mul_one]
          exact add_le_add ih (hy T)
      · simp only [if_neg hq, add_zero]
        exact ih
  have c2 : |∑ k ∈ Finset.range N, r k - ∑ k ∈ Finset.range (min (Nat.count Q T) N), r k| ≤ B * ((N - min (Nat.count Q T) N : ℕ) : ℝ) := by
    obtain ⟨m, hm⟩ : ∃ m, N = min (Nat.count Q T) N + m := ⟨N - min (Nat.count Q T) N, by have := min_le_right (Nat.count Q T) N; omega⟩
    have e : ∑ k ∈ Finset.range N, r k = ∑ k ∈ Finset.range (min (Nat.count Q T) N), r k + ∑ k ∈ Finset.range m, r (min (Nat.count Q T) N + k) := by
      conv_lhs => rw [hm]
      rw [Finset.sum_range_add]
    rw [e, add_sub_cancel_left]
    refine (Finset.abs_sum_le_sum_abs _ _).trans ((Finset.sum_le_sum fun k _ => hr _).trans ?_)
    rw [Finset.sum_const, Finset.card_range, nsmul_eq_mul, mul_comm, show N - min (Nat.count Q T) N = m by omega]
  have e : |(N : ℝ) - Nat.count Q T| = ((Nat.count Q T - min (Nat.count Q T) N : ℕ) : ℝ) + ((N - min (Nat.count Q T) N : ℕ) : ℝ) := by
    rcases Nat.le_total (Nat.count Q T) N with hc | hc
    · have hc' : (Nat.count Q T : ℝ) ≤ N := by exact_mod_cast hc
      rw [min_eq_left hc, Nat.sub_self, Nat.cast_zero, zero_add, Nat.cast_sub hc, abs_of_nonneg (by linarith)]
    · have hc' : (N : ℝ) ≤ Nat.count Q T := by exact_mod_cast hc
      rw [min_eq_right hc, Nat.sub_self, Nat.cast_zero, add_zero, Nat.cast_sub hc, abs_of_nonpos (by linarith), neg_sub]
  rw [e, mul_add]
  have e2 : ∑ k ∈ Finset.range N, r k - ∑ j ∈ Finset.range T, (if Q j then y j else 0) =
      -(∑ j ∈ Finset.range T, (if Q j then y j else 0) - ∑ k ∈ Finset.range (min (Nat.count Q T) N), r k) +
      (∑ k ∈ Finset.range N, r k - ∑ k ∈ Finset.range (min (Nat.count Q T) N), r k) := by ring
  rw [e2]
  refine (abs_add_le _ _).trans (add_le_add ?_ c2)
  rw [abs_neg]
  exact c1 T

section
variable {E V : Type} [MeasurableSpace E] [MeasurableSpace V] {κ : Measure V} [IsProbabilityMeasure κ] {ρ : Measure E} [IsProbabilityMeasure ρ]
  {f : E → V → E} {A : Set (E × V)} {S : Set E}

omit [MeasurableSpace E] [MeasurableSpace V] in
open Classical in
theorem hits_count (b h : ℕ) (hh : 0 < h) (s : E) (v : ℕ → V) (j : ℕ) :
    hits f A b h s v (b + h * j) = Nat.count (fun j => (fwState f s v (b + h * j), v (b + h * j)) ∈ A) j := by
  induction j with
  | zero => rw [mul_zero, add_zero, hits_start le_rfl, Nat.count_zero]
  | succ j ih =>
    have e : ∀ m, m ≤ h - 1 → hits f A b h s v (b + h * j + 1 + m) = hits f A b h s v (b + h * j + 1) := by
      intro m
      induction m with
      | zero => intro _; rfl
      | succ m ihm =>
        intro hm
        rw [← add_assoc, hits_free (grid_gap b h j _ (by rw [mul_comm j h]; omega) (by
          rw [add_mul, one_mul, mul_comm j h]; omega)), ihm (by omega)]
    have e2 : b + h * (j + 1) = b + h * j + 1 + (h - 1) := by rw [mul_add, mul_one]; omega
    rw [e2, e (h - 1) le_rfl, hits_grid ⟨Nat.le_add_right b _, by rw [Nat.add_sub_cancel_left]; exact dvd_mul_right h j⟩, ih, Nat.count_succ]

/-- The average over the first `N` accepted states, on one path. -/
theorem saved_close (b h : ℕ) (hh : 0 < h) (s : E) (v : ℕ → V) (φ : E → ℝ) (B : ℝ) (hB : ∀ x, |φ x| ≤ B) (a β ε : ℝ) (hap : 0 < a) (ha1 : a ≤ 1)
    (hε : 0 < ε) (N : ℕ) (hN0 : 0 < N) (hN : B + |β / a| < ε / 2 * N) (r : ℕ → ℝ) (hrB : ∀ k, |r k| ≤ B)
    (hr : ∀ t, b ≤ t → h ∣ t - b → (fwState f s v t, v t) ∈ A → hits f A b h s v t < N → r (hits f A b h s v t) = φ (fwState f s v (t + 1)))
    (g1 : |gridSum f (fun q => A.indicator 1 q - a) h ⌊(N : ℝ) / a⌋₊ (fwState f s v b) (fun i => v (b + i))| < ε * a / (2 * (B + 1)) * ⌊(N : ℝ) / a⌋₊)
    (g2 : |gridSum f (fun q => A.indicator (fun q => φ (f q.1 q.2)) q - β) h ⌊(N : ℝ) / a⌋₊ (fwState f s v b) (fun i => v (b + i))| <
      ε * a / (2 * (B + 1)) * ⌊(N : ℝ) / a⌋₊) :
    |(∑ k ∈ Finset.range N, r k) / N - β / a| < ε := by
  classical
  have hB0 : 0 ≤ B := (abs_nonneg _).trans (hB s)
  by_contra hbad
  rw [not_lt] at hbad
  set C := |β / a| with hC
  set θ := ε * a / (2 * (B + 1)) with hθ
  have hθp : 0 < θ := by positivity
  set T := ⌊(N : ℝ) / a⌋₊ with hT
  set Q : ℕ → Prop := fun j => (fwState f s v (b + h * j), v (b + h * j)) ∈ A with hQ
  set y : ℕ → ℝ := fun j => φ (fwState f s v (b + h * j + 1)) with hy
  have hcount : ∀ j, hits f A b h s v (b + h * j) = Nat.count Q j := fun j => by
    have := hits_count (f := f) (A := A) b h hh s v j
    convert this
  have key := hits_sum Q y (r) B (fun j => hB _) hrB N (fun j hj hlt => by
    rw [← hcount] at hlt ⊢
    exact hr (b + h * j) (Nat.le_add_right b _) (by rw [Nat.add_sub_cancel_left]; exact dvd_mul_right h j) hj hlt) T
  have hst : ∀ j, fwState f (fwState f s v b) (fun i => v (b + i)) (h * j) = fwState f s v (b + h * j) := fun j => (fwState_add f _ _ b _).symm
  have s1 : gridSum f (fun q => A.indicator 1 q - a) h T (fwState f s v b) (fun i => v (b + i)) = Nat.count Q T - a * T := by
    unfold gridSum
    simp only [hst]
    rw [Finset.sum_sub_distrib, Finset.sum_const, Finset.card_range, nsmul_eq_mul, mul_comm a]
    congr 1
    rw [Nat.count_eq_card_filter_range, Finset.card_filter]
    push_cast
    refine Finset.sum_congr rfl fun j _ => ?_
    by_cases hj : Q j
    · rw [if_pos hj, Set.indicator_of_mem (show (fwState f s v (b + h * j), v (b + h * j)) ∈ A from hj)]
      rfl
    · rw [if_neg hj, Set.indicator_of_notMem (show (fwState f s v (b + h * j), v (b + h * j)) ∉ A from hj)]
  have s2 : gridSum f (fun q => A.indicator (fun q => φ (f q.1 q.2)) q - β) h T (fwState f s v b) (fun i => v (b + i)) = ∑ j ∈ Finset.range T, (if Q j then y j else 0) - β * T := by
    unfold gridSum
    simp only [hst]
    rw [Finset.sum_sub_distrib, Finset.sum_const, Finset.card_range, nsmul_eq_mul, mul_comm β]
    congr 1
  rw [s1] at g1
  rw [s2] at g2
  have hNp : (0 : ℝ) < N := by exact_mod_cast hN0
  have t1 : (T : ℝ) ≤ N / a := Nat.floor_le (by positivity)
  have t2 : (N : ℝ) / a < T + 1 := Nat.lt_floor_add_one _
  have t3 : a * T ≤ N := by rw [mul_comm]; exact (le_div_iff₀ hap).mp t1
  have t4 : (N : ℝ) - a * T ≤ a := by
    rw [div_lt_iff₀ hap] at t2
    nlinarith
  set R := ∑ k ∈ Finset.range N, r k with hRd
  set num := ∑ j ∈ Finset.range T, (if Q j then y j else 0) with hnum
  set c : ℝ := ((Nat.count Q T : ℕ) : ℝ) with hc
  have u1 : |(N : ℝ) - c| ≤ 1 + θ * T := by
    have e : (N : ℝ) - c = ((N : ℝ) - a * T) - (c - a * T) := by ring
    rw [e]
    refine (abs_sub _ _).trans (add_le_add ?_ g1.le)
    rw [abs_of_nonneg (by linarith)]
    linarith
  have u2 : |β * T - β / a * N| ≤ C := by
    have e : β * T - β / a * N = -(β / a * (N - a * T)) := by
      field_simp
      ring
    rw [e, abs_neg, abs_mul]
    refine mul_le_of_le_one_right (abs_nonneg _) ?_
    rw [abs_of_nonneg (by linarith)]
    linarith
  have u3 : |R - β / a * N| ≤ B * (1 + θ * T) + θ * T + C := by
    have e : R - β / a * N = (R - num) + (num - β * T) + (β * T - β / a * N) := by ring
    rw [e]
    refine (abs_add_le _ _).trans (add_le_add ((abs_add_le _ _).trans (add_le_add ?_ g2.le)) u2)
    exact key.trans (mul_le_mul_of_nonneg_left u1 hB0)
  have u4 : (B + 1) * (θ * T) ≤ ε / 2 * N := by
    have e : (B + 1) * (θ * (N / a)) = ε / 2 * N := by
      rw [hθ]
      field_simp
    rw [← e]
    exact mul_le_mul_of_nonneg_left (mul_le_mul_of_nonneg_left t1 hθp.le) (by linarith)
  have u5 : |R - β / a * N| < ε * N := by nlinarith
  have u6 : R / N - β / a = (R - β / a * N) / N := by field_simp
  rw [u6, abs_div, abs_of_pos hNp, le_div_iff₀ hNp] at hbad
  linarith

variable {Ω : Type} [MeasurableSpace Ω] {P : Measure Ω} [IsProbabilityMeasure P] {x0 : Ω → E} {w : ℕ → Ω → V}

/-- The averages over the first `N` accepted states on the grid `b, b + h, …` converge in probability. -/
theorem saved_average (hf : Measurable (Function.uncurry f)) (hA : MeasurableSet A) (hrej : ∀ s v, (s, v) ∉ A → f s v = s)
    (hpos : ∀ s, κ {v | (s, v) ∈ A} ≠ 0) (hinv : stepLaw f κ ρ = ρ) (hR : Reaches κ f A ρ S) (b h : ℕ) (hh : 0 < h)
    (hs : SeqIndep P x0 w κ) (hx0 : ∀ᵐ ω ∂P, x0 ω ∈ S) (φ : E → ℝ) (hφ : Measurable φ) (B : ℝ) (hB : ∀ x, |φ x| ≤ B)
    (rows : ℕ → Ω → ℕ → ℝ) (hrB : ∀ N ω k, |rows N ω k| ≤ B)
    (hr : ∀ N, ∀ᵐ ω ∂P, ∀ t, b ≤ t → h ∣ t - b → (stAt f x0 w t ω, w t ω) ∈ A → hitsAt f A b h x0 w t ω < N →
      rows N ω (hitsAt f A b h x0 w t ω) = φ (stAt f x0 w (t + 1) ω)) (ε : ℝ) (hε : 0 < ε) :
    Tendsto (fun N : ℕ => P {ω | ε ≤ |(∑ k ∈ Finset.range N, rows N ω k) / N -
      (∫ q in A, φ (f q.1 q.2) ∂(ρ.prod κ)) / (ρ.prod κ).real A|}) atTop (𝓝 0) := by
  classical
  have hB0 : 0 ≤ B := by
    obtain ⟨ω⟩ : Nonempty Ω := P.nonempty_of_neZero
    exact (abs_nonneg _).trans (hB (x0 ω))
  set a := (ρ.prod κ).real A with ha
  set β := ∫ q in A, φ (f q.1 q.2) ∂(ρ.prod κ) with hβ
  have ha1 : a ≤ 1 := measureReal_le_one
  have hap : 0 < a := by
    refine lt_of_le_of_ne measureReal_nonneg (Ne.symm ?_)
    rw [ha, measureReal_def, ne_eq, ENNReal.toReal_eq_zero_iff, not_or]
    refine ⟨fun h0 => ?_, measure_ne_top _ _⟩
    have h1 := (Measure.measure_prod_null hA).mp h0
    obtain ⟨x, hx⟩ := h1.exists
    exact hpos x hx
  set F1 : E × V → ℝ := fun q => A.indicator 1 q - a with hF1
  set F2 : E × V → ℝ := fun q => A.indicator (fun q => φ (f q.1 q.2)) q - β with hF2
  have hφf : Measurable fun q : E × V => φ (f q.1 q.2) := hφ.comp hf
  have m1 : Measurable F1 := (measurable_one.indicator hA).sub_const a
  have m2 : Measurable F2 := (hφf.indicator hA).sub_const β
  have i1 : Integrable (A.indicator (1 : E × V → ℝ)) (ρ.prod κ) := (integrable_const (1 : ℝ)).indicator hA
  have hib : Integrable (fun q : E × V => φ (f q.1 q.2)) (ρ.prod κ) :=
    (integrable_const B).mono' hφf.aestronglyMeasurable (Eventually.of_forall fun q => hB _)
  have i2 : Integrable (A.indicator (fun q : E × V => φ (f q.1 q.2))) (ρ.prod κ) := hib.indicator hA
  have z1 : ∫ q, F1 q ∂(ρ.prod κ) = 0 := by
    rw [hF1, integral_sub i1 (integrable_const a), integral_const, integral_indicator_one hA]
    simp [ha]
  have z2 : ∫ q, F2 q ∂(ρ.prod κ) = 0 := by
    rw [hF2, integral_sub i2 (integrable_const β), integral_const, integral_indicator hA]
    simp [hβ]
  have b1 : ∀ q, |F1 q| ≤ 1 + |a| := fun q => by
    refine (abs_sub _ _).trans (add_le_add ?_ le_rfl)
    by_cases hq : q ∈ A <;> simp [hq]
  have b2 : ∀ q, |F2 q| ≤ B + |β| := fun q => by
    refine (abs_sub _ _).trans (add_le_add ?_ le_rfl)
    by_cases hq : q ∈ A
    · rw [Set.indicator_of_mem hq]
      exact hB _
    · rw [Set.indicator_of_notMem hq, abs_zero]
      exact hB0
  have hs' := hs.shift hf b
  have hx0' := (stays_in hf hA hrej hR hs hx0 b).1
  set C := |β / a| with hC
  set θ := ε * a / (2 * (B + 1)) with hθ
  have hθp : 0 < θ := by positivity
  have l1 := average_limit hf hA hrej hpos hinv hR h hh hs' hx0' F1 m1 _ b1 z1 θ hθp
  have l2 := average_limit hf hA hrej hpos hinv hR h hh hs' hx0' F2 m2 _ b2 z2 θ hθp
  set T : ℕ → ℕ := fun N => ⌊(N : ℝ) / a⌋₊ with hT
  have hTlim : Tendsto T atTop atTop := by
    refine tendsto_nat_floor_atTop.comp ?_
    exact (tendsto_natCast_atTop_atTop (R := ℝ)).atTop_div_const hap
  have l3 := (l1.comp hTlim).add (l2.comp hTlim)
  rw [add_zero] at l3
  have hlarge : ∀ᶠ N : ℕ in atTop, (B + C) < ε / 2 * N := by
    have h1 : Tendsto (fun n : ℕ => ε / 2 * (n : ℝ)) atTop atTop := tendsto_natCast_atTop_atTop.const_mul_atTop (by linarith)
    exact h1.eventually_gt_atTop _
  refine tendsto_of_tendsto_of_tendsto_of_le_of_le' tendsto_const_nhds l3 (Eventually.of_forall fun _ => zero_le) ?_
  filter_upwards [hlarge, eventually_gt_atTop 0] with N hN hN0
  refine le_trans ?_ (measure_union_le _ _)
  refine measure_mono_ae ?_
  filter_upwards [hr N] with ω hω hbad
  have hbad : ε ≤ |(∑ k ∈ Finset.range N, rows N ω k) / N - β / a| := hbad
  by_contra hgood
  have hgood : ¬ (θ * (T N : ℕ) ≤ |gridSum f F1 h (T N) (stAt f x0 w b ω) (fun i => w (b + i) ω)| ∨
      θ * (T N : ℕ) ≤ |gridSum f F2 h (T N) (stAt f x0 w b ω) (fun i => w (b + i) ω)|) := hgood
  push Not at hgood
  obtain ⟨g1, g2⟩ := hgood
  have hbound := saved_close b h hh (x0 ω) (fun i => w i ω) φ B hB a β ε hap ha1 hε N hN0 hN (rows N ω) (hrB N ω) hω g1 g2
  linarith

/-- Two laws that are kept are equal, if the chain reaches everything that one of them charges. -/
theorem kept_unique (hf : Measurable (Function.uncurry f)) (hA : MeasurableSet A) (hrej : ∀ s v, (s, v) ∉ A → f s v = s)
    (hpos : ∀ s, κ {v | (s, v) ∈ A} ≠ 0) (hinv : stepLaw f κ ρ = ρ) (hR : Reaches κ f A ρ S) (ρ' : Measure E) [IsProbabilityMeasure ρ']
    (hinv' : stepLaw f κ ρ' = ρ') (hS' : ρ' Sᶜ = 0) : ρ' = ρ := by
  refine Measure.ext fun D hD => ?_
  have hd : Driven (seqLaw κ) (fun k (ω : ℕ → V) => ω k) κ := by
    refine ⟨fun k => measurable_pi_apply k, ?_, fun k => Measure.infinitePi_map_eval (fun _ : ℕ => κ) k⟩
    exact iIndepFun_infinitePi (P := fun _ : ℕ => κ) (X := fun _ => id) (fun _ => measurable_id)
  have hs := hd.seqIndep_prod ρ'
  set P := ρ'.prod (seqLaw κ) with hP
  have hfst : P.map Prod.fst = ρ' := measurePreserving_fst.map_eq
  have hx0 : ∀ᵐ q ∂P, q.1 ∈ S := (Measure.quasiMeasurePreserving_fst (μ := ρ') (ν := seqLaw κ)).ae (show ∀ᵐ x ∂ρ', x ∈ S from hS')
  set F : E × V → ℝ := fun q => D.indicator 1 q.1 - ρ.real D with hF
  have hm : Measurable F := ((measurable_one.indicator hD).comp measurable_fst).sub_const _
  have hB : ∀ q, |F q| ≤ 2 := fun q => by
    have h1 : ρ.real D ≤ 1 := measureReal_le_one
    have h0 : 0 ≤ ρ.real D := measureReal_nonneg
    rw [hF, abs_le]
    by_cases hq : q.1 ∈ D <;> simp [hq] <;> constructor <;> linarith
  have mean : ∀ (μ : Measure E) [IsProbabilityMeasure μ], ∫ q, F q ∂(μ.prod κ) = μ.real D - ρ.real D := by
    intro μ _
    have i1 : Integrable (fun q : E × V => D.indicator (1 : E → ℝ) q.1) (μ.prod κ) :=
      ((integrable_const (1 : ℝ)).indicator hD).comp_fst κ
    rw [hF, integral_sub i1 (integrable_const _), integral_const]
    have e : ∫ q : E × V, D.indicator (1 : E → ℝ) q.1 ∂(μ.prod κ) = μ.real D := by
      have h1 := integral_map (μ := μ.prod κ) (φ := Prod.fst) measurable_fst.aemeasurable (f := D.indicator (1 : E → ℝ))
        (measurable_one.indicator hD).aestronglyMeasurable
      have h2 : (μ.prod κ).map Prod.fst = μ := measurePreserving_fst.map_eq
      rw [h2, integral_indicator_one hD] at h1
      exact h1.symm
    rw [e]
    simp
  have h0 : ∫ q, F q ∂(ρ.prod κ) = 0 := by rw [mean ρ, sub_self]
  have hreal : ∀ ε > 0, |ρ'.real D - ρ.real D| ≤ 2 * ε := by
    intro ε hε
    have hlim := average_limit hf hA hrej hpos hinv hR 1 one_pos hs hx0 F hm 2 hB h0 ε hε
    obtain ⟨n, hn, hn0⟩ := (((tendsto_order.1 hlim).2 (ENNReal.ofReal (ε / 2)) (by simpa using hε)).and (eventually_gt_atTop 0)).exists
    have hnp : (0 : ℝ) < n := by exact_mod_cast hn0
    set G : E × (ℕ → V) → ℝ := fun q => gridSum f F 1 n q.1 (fun i => q.2 i) with hG
    have hZ : ∀ k, P.map (fun q => (stAt f Prod.fst (fun k (q : E × (ℕ → V)) => q.2 k) k q, q.2 k)) = ρ'.prod κ :=
      stationary_pair hf hinv' hs hfst
    have hZm : ∀ k, Measurable fun q : E × (ℕ → V) => (stAt f Prod.fst (fun k (q : E × (ℕ → V)) => q.2 k) k q, q.2 k) :=
      fun k => (hs.state_meas hf k).prodMk (hs.meas k)
    have hGm : Measurable G := by
      refine Finset.measurable_sum _ fun j _ => ?_
      exact hm.comp (hZm (1 * j))
    have hGi : Integrable G P := by
      refine integrable_finsetSum _ fun j _ => ?_
      exact (integrable_const (2 : ℝ)).mono' (hm.comp (hZm (1 * j))).aestronglyMeasurable (Eventually.of_forall fun q => hB _)
    have hmean : ∫ q, G q ∂P = n * (ρ'.real D - ρ.real D) := by
      have hsum : ∫ q, G q ∂P = ∑ j ∈ Finset.range n,
          ∫ q : E × (ℕ → V), F (fwState f q.1 (fun i => q.2 i) (1 * j), q.2 (1 * j)) ∂P := by
        refine integral_finsetSum _ fun j _ => ?_
        exact (integrable_const (2 : ℝ)).mono' (hm.comp (hZm (1 * j))).aestronglyMeasurable (Eventually.of_forall fun q => hB _)
      rw [hsum]
      have e : ∀ j ∈ Finset.range n, ∫ q : E × (ℕ → V), F (fwState f q.1 (fun i => q.2 i) (1 * j), q.2 (1 * j)) ∂P = ρ'.real D - ρ.real D := by
        intro j _
        have h1 := integral_map (μ := P) (hZm (1 * j)).aemeasurable (f := F) hm.aestronglyMeasurable
        rw [hZ, mean ρ'] at h1
        exact h1.symm
      rw [Finset.sum_congr rfl e, Finset.sum_const, Finset.card_range, nsmul_eq_mul]
    have hGb : ∀ q, |G q| ≤ ε * n + 2 * n * Set.indicator {q | ε * n ≤ |G q|} 1 q := by
      intro q
      have h1 : |G q| ≤ 2 * n := by
        refine (Finset.abs_sum_le_sum_abs _ _).trans ((Finset.sum_le_sum fun j _ => hB _).trans ?_)
        simp [mul_comm]
      by_cases hq : ε * n ≤ |G q|
      · rw [Set.indicator_of_mem (show q ∈ {q | ε * n ≤ |G q|} from hq), Pi.one_apply, mul_one]
        have : 0 ≤ ε * n := by positivity
        linarith
      · rw [Set.indicator_of_notMem (show q ∉ {q | ε * n ≤ |G q|} from hq), mul_zero, add_zero]
        exact (not_le.mp hq).le
    have hset : MeasurableSet {q | ε * n ≤ |G q|} := measurableSet_le measurable_const (continuous_abs.measurable.comp hGm)
    have hi : Integrable (Set.indicator {q | ε * n ≤ |G q|} (1 : E × (ℕ → V) → ℝ)) P := (integrable_const (1 : ℝ)).indicator hset
    have h2 : |∫ q, G q ∂P| ≤ ε * n + 2 * n * P.real {q | ε * n ≤ |G q|} := by
      refine (abs_integral_le_integral_abs).trans ?_
      refine (integral_mono hGi.abs ((integrable_const (ε * n)).add (hi.const_mul (2 * n))) hGb).trans (le_of_eq ?_)
      rw [integral_add' (integrable_const _) (hi.const_mul _), integral_const, integral_const_mul (2 * (n : ℝ)),
        integral_indicator_one hset]
      simp
    have h3 : P.real {q | ε * n ≤ |G q|} ≤ ε / 2 := by
      rw [measureReal_def]
      exact ENNReal.toReal_le_of_le_ofReal (by linarith) hn.le
    rw [hmean, abs_mul, abs_of_pos hnp] at h2
    have h4 : n * |ρ'.real D - ρ.real D| ≤ n * (2 * ε) := by nlinarith
    exact le_of_mul_le_mul_left h4 hnp
  have heq : |ρ'.real D - ρ.real D| ≤ 0 := by
    refine le_of_forall_pos_le_add fun ε hε => ?_
    have := hreal (ε / 2) (by linarith)
    linarith
  have h5 : ρ'.real D = ρ.real D := sub_eq_zero.mp (abs_nonpos_iff.mp heq)
  exact (ENNReal.toReal_eq_toReal_iff' (measure_ne_top _ _) (measure_ne_top _ _)).mp h5

end
end Pxmcmc
