import Verif.Props.RoundedOps

/-! # What is read off a chain computed in floating-point arithmetic -/

namespace Pxmcmc
open MeasureTheory ProbabilityTheory

variable {n p : ℕ}

theorem avg_shift {N : ℕ} (hN : 0 < N) (rows rows' : Fin N → Fin n → ℂ) (D : ℝ) (h : ∀ k, √(Spec.distSq (rows k) (rows' k)) ≤ D)
    (q : (Fin n → ℂ) → ℝ) (L : ℝ) (hL : 0 ≤ L) (hq : ∀ x y, |q x - q y| ≤ L * √(Spec.distSq x y)) :
    |(∑ k, q (rows k)) / N - (∑ k, q (rows' k)) / N| ≤ L * D := by
  have hN' : (0 : ℝ) < N := by exact_mod_cast hN
  rw [← sub_div, ← Finset.sum_sub_distrib, abs_div, abs_of_pos hN', div_le_iff₀ hN']
  refine (Finset.abs_sum_le_sum_abs _ _).trans ((Finset.sum_le_sum fun k _ =>
    (hq _ _).trans (mul_le_mul_of_nonneg_left (h k) hL)).trans (le_of_eq ?_))
  rw [Finset.sum_const, Finset.card_univ, Fintype.card_fin, nsmul_eq_mul]
  ring

theorem re_shift (x y : Fin n → ℂ) (D : ℝ) (h : √(Spec.distSq x y) ≤ D) (j : Fin n) : |(x j).re - (y j).re| ≤ D := by
  refine le_trans ?_ h
  refine Real.le_sqrt_of_sq_le ?_
  rw [sq_abs]
  have h1 : ‖x j - y j‖ ^ 2 ≤ Spec.distSq x y :=
    Finset.single_le_sum (f := fun i => ‖x i - y i‖ ^ 2) (fun i _ => sq_nonneg _) (Finset.mem_univ j)
  refine le_trans ?_ h1
  rw [← Complex.sub_re, ← sq_abs]
  exact pow_le_pow_left₀ (abs_nonneg _) (Complex.abs_re_le_norm _) 2

/-- C163, summaries: the denoising set-up with standard normal noise and every operation rounded with relative error `u`.  There is an event whose
probability is at least `1 - K * 2^(n/2) * exp(-W²/4)`, `K` the number of iterations up to the last saved sample, on which at once all saved
samples of the rounded run are within `D = E * (a*B + β) / (delta*c)` of those of the exact run, the averages of all quantities with
Lipschitz constant `L` differ by at most `L * D`, and at every accepted level all widths of `credible_interval_range` differ by at most `2 * D`. -/
theorem C163_summaries (data : DataVec n) (hd : data.cplx = false) (sig : SigD) (σ : Fin n → ℝ) (hσ : IsSigma n sig σ)
    (s : String) (hs : s = "analysis" ∨ s = "synthesis") (t : ℝ) (ht : 0 ≤ t) (par : Params) (b gap : ℕ) (hb : par.nburn = b)
    (hg : par.ngap = gap) (hN : 0 < par.nsamples) (hreal : par.complex = false) (hl : 0 < par.lmda) (hdel : 0 < par.delta) (c Lf : ℝ)
    (hc : 0 < c) (hcL : c ≤ Lf) (h1 : ∀ i, c ≤ 1 / σ i ^ 2) (h2 : ∀ i, 1 / σ i ^ 2 ≤ Lf) (hstep : par.delta * (1 / par.lmda + Lf + c) ≤ 2)
    (hv : par.verbosity ≤ 0 ∨ ("logposterior" ∈ par.track ∧ "L2" ∈ par.track ∧ "prior" ∈ par.track)) (htr : "chain" ∈ par.track)
    (fl : Rounding) (u : ℝ) (hfl : RoundsWithin fl u) (R : Rng) {Ω : Type} [MeasurableSpace Ω] (μ : Measure Ω) [IsProbabilityMeasure μ]
    (r : Ω → R.σ) (hr : NormalStream R n μ r) (x0 : Fin n → ℂ) :
    ∃ (F : ForwardOp n) (P : L1 ℂ) (M : Sampler n) (A : Arrays) (N : Ω → ℕ) (st st' : Ω → St R)
      (rows rows' : Ω → Fin par.nsamples → Fin n → ℂ),
      ForwardOp.init data sig s (some identityTransform) (some (identityMeasurement n n)) (some n) = .ok F ∧
      L1.init s identityTransform.op identityTransform.adj (.scalar t) = .ok P ∧
      samplerInit F P.toPrior par = .ok (M, A) ∧
      (∀ ω, ∀ fuel ≥ N ω, myulaRun M R A (r ω) (.array1 (List.ofFn x0)) fuel = .ok (some (st ω))) ∧
      (∀ ω, ∀ fuel ≥ N ω, myulaRunOps fl M R (F.calcGradgFl fl) (P.proxfFl fl) A (r ω) (.array1 (List.ofFn x0)) fuel = .ok (some (st' ω))) ∧
      (∀ ω, (A.applyAll (st ω).ev).chain = some (List.ofFn fun k => List.ofFn (rows ω k))) ∧
      (∀ ω, (A.applyAll (st' ω).ev).chain = some (List.ofFn fun k => List.ofFn (rows' ω k))) ∧
      ∀ W E a β B D : ℝ, 0 ≤ W → E = (1 + u) ^ 13 - 1 → a = 1 + 2 * (par.delta / par.lmda) + par.delta * Lf →
        β = par.delta * √(∑ i, (‖data.vals i‖ / σ i ^ 2) ^ 2) + √(2 * par.delta) * W →
        2 * E * a ≤ par.delta * c → √(∑ i, ‖x0 i‖ ^ 2) ≤ B → 2 * (1 + E) * β ≤ par.delta * c * B →
        D = E * (a * B + β) / (par.delta * c) →
        ∃ good : Set Ω, MeasurableSet good ∧
          1 - (b + (par.nsamples - 1) * max gap 1 + 1 : ℕ) * (√2 ^ n * Real.exp (-(W ^ 2) / 4)) ≤ μ.real good ∧
          ∀ ω ∈ good, (∀ k, √(Spec.distSq (rows ω k) (rows' ω k)) ≤ D) ∧
            (∀ (q : (Fin n → ℂ) → ℝ) (L : ℝ), 0 ≤ L → (∀ x y, |q x - q y| ≤ L * √(Spec.distSq x y)) →
              |(∑ k, q (rows ω k)) / par.nsamples - (∑ k, q (rows' ω k)) / par.nsamples| ≤ L * D) ∧
            ∀ alpha : ℝ, 0 ≤ alpha → alpha ≤ 2 → ∃ w w' : Fin n → ℝ,
              credibleIntervalRange (· ≤ ·) (⟨par.nsamples, List.ofFn fun j => List.ofFn fun k => (rows ω k j).re⟩ : SampleArr ℝ) alpha =
                .ok (List.ofFn w) ∧
              credibleIntervalRange (· ≤ ·) (⟨par.nsamples, List.ofFn fun j => List.ofFn fun k => (rows' ω k j).re⟩ : SampleArr ℝ) alpha =
                .ok (List.ofFn w') ∧ ∀ j, |w j - w' j| ≤ 2 * D := by
  have hall := fun ω => C163_denoising data hd sig σ hσ s hs t ht par b gap hb hg hl hdel c Lf hc hcL h1 h2 hstep hv htr fl u hfl R (r ω) x0
  obtain ⟨ω0⟩ : Nonempty Ω := μ.nonempty_of_neZero
  obtain ⟨F, P, M, A, -, -, -, -, -, hF, hP, hM, -⟩ := hall ω0
  have hall' : ∀ ω, ∃ (N : ℕ) (st st' : St R) (rows rows' : Fin par.nsamples → Fin n → ℂ),
      (∀ fuel ≥ N, myulaRun M R A (r ω) (.array1 (List.ofFn x0)) fuel = .ok (some st)) ∧
      (∀ fuel ≥ N, myulaRunOps fl M R (F.calcGradgFl fl) (P.proxfFl fl) A (r ω) (.array1 (List.ofFn x0)) fuel = .ok (some st')) ∧
      (A.applyAll st.ev).chain = some (List.ofFn fun k => List.ofFn (rows k)) ∧
      (A.applyAll st'.ev).chain = some (List.ofFn fun k => List.ofFn (rows' k)) ∧
      ∀ (k : Fin par.nsamples) (W E a β B : ℝ),
        (∀ j < b + k * max gap 1 + 1, √(Spec.distSq (noiseSeq R par.complex n (r ω) j) 0) ≤ W) → E = (1 + u) ^ 13 - 1 →
        a = 1 + 2 * (par.delta / par.lmda) + par.delta * Lf →
        β = par.delta * √(∑ i, (‖data.vals i‖ / σ i ^ 2) ^ 2) + √(2 * par.delta) * W →
        2 * E * a ≤ par.delta * c → √(∑ i, ‖x0 i‖ ^ 2) ≤ B → 2 * (1 + E) * β ≤ par.delta * c * B →
        √(Spec.distSq (rows k) (rows' k)) ≤ E * (a * B + β) / (par.delta * c) := by
    intro ω
    obtain ⟨F', P', M', A', N, st, st', rows, rows', hF', hP', hM', h⟩ := hall ω
    obtain rfl := Except.ok.inj (hF.symm.trans hF')
    obtain rfl := Except.ok.inj (hP.symm.trans hP')
    obtain ⟨rfl, rfl⟩ := Prod.mk.inj (Except.ok.inj (hM.symm.trans hM'))
    exact ⟨N, st, st', rows, rows', h⟩
  choose N st st' rows rows' hrun hrun' hrows hrows' hbound using hall'
  refine ⟨F, P, M, A, N, st, st', rows, rows', hF, hP, hM, hrun, hrun', hrows, hrows', ?_⟩
  intro W E a β B D hW hE ha hβ hprec hB0 hB hD
  set K := b + (par.nsamples - 1) * max gap 1 + 1 with hK
  set bad : ℕ → Set Ω := fun j => {ω | W < √(∑ i, ((R.randn (rngSeq R false n (r ω) j) n).1 i) ^ 2)} with hbad
  have hmeas : MeasurableSet {x : Fin n → ℝ | W < √(∑ i, x i ^ 2)} := measurableSet_lt measurable_const (by fun_prop)
  have hbm : ∀ j, MeasurableSet (bad j) := fun j => hr.meas j hmeas
  have hone : ∀ j, μ.real (bad j) ≤ √2 ^ n * Real.exp (-(W ^ 2) / 4) := by
    intro j
    refine le_trans (le_of_eq ?_) (gauss_tail (n := n) W hW)
    rw [← hr.law j, map_measureReal_apply (hr.meas j) hmeas]
    rfl
  have hum : MeasurableSet (⋃ j ∈ Finset.range K, bad j) := Finset.measurableSet_biUnion _ fun j _ => hbm j
  refine ⟨(⋃ j ∈ Finset.range K, bad j)ᶜ, hum.compl, ?_, fun ω hω => ?_⟩
  · rw [probReal_compl_eq_one_sub hum]
    have h3 := (measureReal_biUnion_finset_le (μ := μ) (Finset.range K) bad).trans (Finset.sum_le_sum fun j _ => hone j)
    rw [Finset.sum_const, Finset.card_range, nsmul_eq_mul] at h3
    linarith
  · have hrow : ∀ k, √(Spec.distSq (rows ω k) (rows' ω k)) ≤ D := by
      intro k
      rw [hD]
      refine hbound ω k W E a β B (fun j hj => ?_) hE ha hβ hprec hB0 hB
      by_contra hgt
      have hjK : j < K := by
        refine hj.trans_le ?_
        have hk : (k : ℕ) ≤ par.nsamples - 1 := by have := k.2; omega
        have := Nat.mul_le_mul_right (max gap 1) hk
        omega
      refine hω (Set.mem_biUnion (Finset.mem_range.mpr hjK) ?_)
      show W < _
      rw [not_le, hreal] at hgt
      have e : Spec.distSq (noiseSeq R false n (r ω) j) 0 = ∑ i, ((R.randn (rngSeq R false n (r ω) j) n).1 i) ^ 2 := by
        unfold Spec.distSq
        refine Finset.sum_congr rfl fun i _ => ?_
        show ‖(((R.randn (rngSeq R false n (r ω) j) n).1 i : ℝ) : ℂ) - 0‖ ^ 2 = _
        rw [sub_zero, Complex.norm_real, Real.norm_eq_abs, sq_abs]
      rwa [e] at hgt
    exact ⟨hrow, fun q L hL hq => avg_shift hN _ _ D hrow q L hL hq, fun alpha ha0 ha2 =>
      C161_interval hN (fun k j => (rows ω k j).re) (fun k j => (rows' ω k j).re) (fun _ => D) (fun k j => re_shift _ _ D (hrow k) j)
        alpha ha0 ha2⟩

/-- Two pixels with data 3 and 4, double precision, ten saved samples after a burn-in of 3 with a gap of 2: with probability at least
`1 - 44 * exp(-100)` all widths of the 95% intervals of the rounded chain agree with those of the exact chain within `2 * 10^-12`. -/
example (s : String) (hs : s = "analysis" ∨ s = "synthesis") (fl : Rounding) (hfl : RoundsWithin fl (1 / 2 ^ 53)) :
    ∃ (F : ForwardOp 2) (P : L1 ℂ) (M : Sampler 2) (A : Arrays) (N : (ℕ → Fin 2 → ℝ) → ℕ) (st st' : (ℕ → Fin 2 → ℝ) → St (vecRng 2))
      (rows rows' : (ℕ → Fin 2 → ℝ) → Fin 10 → Fin 2 → ℂ) (good : Set (ℕ → Fin 2 → ℝ)),
      (∀ ω, myulaRun M (vecRng 2) A ω (.array1 (List.ofFn fun _ : Fin 2 => (2 : ℂ))) (N ω) = .ok (some (st ω))) ∧
      (∀ ω, myulaRunOps fl M (vecRng 2) (F.calcGradgFl fl) (P.proxfFl fl) A ω (.array1 (List.ofFn fun _ : Fin 2 => (2 : ℂ))) (N ω) =
        .ok (some (st' ω))) ∧
      (∀ ω, (A.applyAll (st ω).ev).chain = some (List.ofFn fun k => List.ofFn (rows ω k))) ∧
      (∀ ω, (A.applyAll (st' ω).ev).chain = some (List.ofFn fun k => List.ofFn (rows' ω k))) ∧
      1 - 44 * Real.exp (-100) ≤ (Measure.infinitePi fun _ : ℕ => Measure.pi fun _ : Fin 2 => gaussianReal 0 1).real good ∧
      ∀ ω ∈ good, ∃ w w' : Fin 2 → ℝ,
        credibleIntervalRange (· ≤ ·) (⟨10, List.ofFn fun j => List.ofFn fun k => (rows ω k j).re⟩ : SampleArr ℝ) (1 / 20) = .ok (List.ofFn w) ∧
        credibleIntervalRange (· ≤ ·) (⟨10, List.ofFn fun j => List.ofFn fun k => (rows' ω k j).re⟩ : SampleArr ℝ) (1 / 20) =
          .ok (List.ofFn w') ∧ ∀ j, |w j - w' j| ≤ 2 * (1 / 10 ^ 12) := by
  obtain ⟨F, P, M, A, N, st, st', rows, rows', -, -, -, h4, h5, h6, h7, h8⟩ := C163_summaries (n := 2) ⟨false, ![3, 4]⟩ rfl
    (.num ((1 : ℝ) : ℂ) false) (fun _ => 1) (.scalar 1 one_pos) s hs 2 (by norm_num)
    ⟨1, 1 / 2, 1, 1, 10, (3 : ℕ), (2 : ℕ), false, 0, ["chain"]⟩ 3 2 rfl rfl (by norm_num) rfl one_pos (by norm_num) 1 1 one_pos le_rfl
    (fun _ => by norm_num) (fun _ => by norm_num) (by norm_num) (.inl le_rfl) (by simp) fl (1 / 2 ^ 53) hfl (vecRng 2)
    (Measure.infinitePi fun _ : ℕ => Measure.pi fun _ : Fin 2 => gaussianReal 0 1) (fun ω => ω) vecRng_normal (fun _ => 2)
  obtain ⟨good, -, hp, hgood⟩ := h8 20 ((1 + 1 / 2 ^ 53) ^ 13 - 1) (5 / 2) (45 / 2) 91 _ (by norm_num) rfl (by norm_num) (by
      have : ∑ i : Fin 2, (‖(![3, 4] : Fin 2 → ℂ) i‖ / (1 : ℝ) ^ 2) ^ 2 = 5 ^ 2 := by
        simp [Fin.sum_univ_two]
        norm_num
      simp only [this]
      rw [Real.sqrt_sq (by norm_num)]
      norm_num) (by norm_num) (by
      refine (Real.sqrt_le_left (by norm_num)).mpr ?_
      norm_num) (by norm_num) rfl
  refine ⟨F, P, M, A, N, st, st', rows, rows', good, fun ω => h4 ω _ le_rfl, fun ω => h5 ω _ le_rfl, h6, h7, ?_, fun ω hω => ?_⟩
  · refine le_trans ?_ hp
    have h10 : √2 ^ 2 = (2 : ℝ) := Real.sq_sqrt (by norm_num)
    rw [h10, show (-(20 : ℝ) ^ 2) / 4 = -100 by norm_num]
    norm_num
    nlinarith [Real.exp_pos (-100)]
  · obtain ⟨w, w', hw, hw', hd⟩ := (hgood ω hω).2.2 (1 / 20) (by norm_num) (by norm_num)
    refine ⟨w, w', hw, hw', fun j => (hd j).trans ?_⟩
    norm_num

end Pxmcmc
