import Verif.Props.RoundedSummaries
import Verif.Props.Accuracy

/-! # Property C164: denoising in floating-point arithmetic estimates the posterior -/

namespace Pxmcmc
open MeasureTheory ProbabilityTheory Filter
open scoped Topology

variable {n : ℕ}

theorem exists_tail (C η : ℝ) (hC : 0 < C) (hη : 0 < η) : ∃ W : ℝ, 0 ≤ W ∧ C * Real.exp (-(W ^ 2) / 4) ≤ η := by
  refine ⟨2 * √(max 0 (Real.log (C / η))), by positivity, ?_⟩
  have e : -((2 * √(max 0 (Real.log (C / η)))) ^ 2) / 4 = -max 0 (Real.log (C / η)) := by
    rw [mul_pow, Real.sq_sqrt (le_max_left _ _)]
    ring
  rw [e]
  have h1 : Real.exp (-max 0 (Real.log (C / η))) ≤ Real.exp (-Real.log (C / η)) := Real.exp_le_exp.mpr (neg_le_neg (le_max_right _ _))
  rw [Real.exp_neg (Real.log _), Real.exp_log (div_pos hC hη), inv_div] at h1
  refine (mul_le_mul_of_nonneg_left h1 hC.le).trans (le_of_eq ?_)
  field_simp

theorem exists_precision (e0 : ℝ) (h : 0 < e0) : ∃ u0 : ℝ, 0 < u0 ∧ ∀ u, 0 ≤ u → u ≤ u0 → (1 + u) ^ 13 - 1 ≤ e0 := by
  have hc : Tendsto (fun u : ℝ => (1 + u) ^ 13 - 1) (𝓝 0) (𝓝 ((1 + 0) ^ 13 - 1)) := Continuous.tendsto (by fun_prop) 0
  have h1 := hc.eventually (gt_mem_nhds (show ((1 : ℝ) + 0) ^ 13 - 1 < e0 by simpa using h))
  obtain ⟨ρ, hρ, hb⟩ := Metric.eventually_nhds_iff.mp h1
  refine ⟨ρ / 2, half_pos hρ, fun u hu0 hu => (hb ?_).le⟩
  rw [dist_zero_right, Real.norm_of_nonneg hu0]
  linarith

/-- C164: the denoising set-up (identity transform and measurement, `L1` prior, either setting) with every operation of the data gradient, the
thresholding and the step rounded.  For all `ε` and `η` there are a `lmda0`, for each `lmda < lmda0` a `delta0`, for each
`delta < delta0` a number of samples `N0`, and for each choice of the other parameters with `nsamples ≥ N0` a precision `u0 > 0`, such that
in every arithmetic with relative errors at most `u0` every run returns and

* for every quantity with Lipschitz constant 1, its average over the rows of the `chain` array is within `ε` of its posterior
  expectation with probability at least `1 - η`;
* with probability at least `1 - η` every pixel of the mean of the rows is within `ε` of the pixel of the posterior mean. -/
theorem C164_denoising (hn : 0 < n) (data : DataVec n) (hd : data.cplx = false) (hdr : ∀ i, (data.vals i).im = 0) (sig : SigD)
    (σ : Fin n → ℝ) (hσ : IsSigma n sig σ) (s : String) (hs : s = "analysis" ∨ s = "synthesis") (mu : ℝ) (hmu : 0 ≤ mu)
    (R : Rng) {Ω : Type} [MeasurableSpace Ω] (P : Measure Ω) [IsProbabilityMeasure P] (r : Ω → R.σ) (hr : NormalStream R n P r)
    (x0 : Fin n → ℂ) (ε η : ℝ) (hε : 0 < ε) (hη : 0 < η) :
    ∃ lmda0, 0 < lmda0 ∧ ∀ lmda, 0 < lmda → lmda < lmda0 → ∃ delta0, 0 < delta0 ∧ ∀ delta, 0 < delta → delta < delta0 →
      ∃ N0 : ℕ, ∀ (par : Params) (b g : ℕ), N0 ≤ par.nsamples → par.nburn = b → par.ngap = g → par.complex = false → par.lmda = lmda →
      par.delta = delta → par.mu = mu →
      (par.verbosity ≤ 0 ∨ ("logposterior" ∈ par.track ∧ "L2" ∈ par.track ∧ "prior" ∈ par.track)) → "chain" ∈ par.track →
      ∃ u0 : ℝ, 0 < u0 ∧ ∀ (fl : Rounding) (u : ℝ), RoundsWithin fl u → u ≤ u0 →
      ∃ (F : ForwardOp n) (Pr : L1 ℂ) (M : Sampler n) (A : Arrays) (rows : Ω → Fin par.nsamples → Fin n → ℂ),
      ForwardOp.init data sig s (some identityTransform) (some (identityMeasurement n n)) (some n) = .ok F ∧
      L1.init s identityTransform.op identityTransform.adj (.scalar (lmda * mu)) = .ok Pr ∧
      samplerInit F Pr.toPrior par = .ok (M, A) ∧
      (∀ ω, ∃ fuel0 st,
        (∀ fuel ≥ fuel0, myulaRunOps fl M R (F.calcGradgFl fl) (Pr.proxfFl fl) A (r ω) (.array1 (List.ofFn x0)) fuel = .ok (some st)) ∧
        (A.applyAll st.ev).chain = some (List.ofFn fun k => List.ofFn (rows ω k))) ∧
      (∀ q : (Fin n → ℂ) → ℝ, (∀ x y, |q x - q y| ≤ √(Spec.distSq x y)) →
        P.real {ω | ε < |(∑ k, q (rows ω k)) / par.nsamples -
          postMean realVec (fun x => (∑ i, ‖data.vals i - x i‖ ^ 2 / σ i ^ 2) / 2 + mu * ∑ i, ‖x i‖) q|} ≤ η) ∧
      P.real {ω | ∃ i, ε < |(∑ k, (rows ω k i).re) / par.nsamples -
        postMean realVec (fun x => (∑ i, ‖data.vals i - x i‖ ^ 2 / σ i ^ 2) / 2 + mu * ∑ i, ‖x i‖) fun x => (x i).re|} ≤ η := by
  have hpos : ∀ i, 0 < σ i := by
    cases hσ with
    | scalar s hs => intro _; exact hs
    | vector s hs => exact hs
  obtain ⟨i0⟩ : Nonempty (Fin n) := ⟨⟨0, hn⟩⟩
  set Lf := ∑ i, 1 / σ i ^ 2 with hLf
  set c := 1 / ∑ i, σ i ^ 2 with hcdef
  have hsum : ∀ i, σ i ^ 2 ≤ ∑ i, σ i ^ 2 := fun i =>
    Finset.single_le_sum (f := fun i => σ i ^ 2) (fun _ _ => sq_nonneg _) (Finset.mem_univ i)
  have hspos : 0 < ∑ i, σ i ^ 2 := (pow_pos (hpos i0) 2).trans_le (hsum i0)
  have hc : 0 < c := one_div_pos.mpr hspos
  have h1 : ∀ i, c ≤ 1 / σ i ^ 2 := fun i => one_div_le_one_div_of_le (pow_pos (hpos i) 2) (hsum i)
  have h2 : ∀ i, 1 / σ i ^ 2 ≤ Lf := fun i =>
    Finset.single_le_sum (f := fun i => 1 / σ i ^ 2) (fun _ _ => by positivity) (Finset.mem_univ i)
  have hcL : c ≤ Lf := (h1 i0).trans (h2 i0)
  obtain ⟨lmda0, hl0, H⟩ := C125_denoising hn data hd hdr sig σ hσ s hs mu hmu R P r hr x0 (ε / 2) (η / 2) (half_pos hε) (half_pos hη)
  refine ⟨lmda0, hl0, fun lmda hl hlt => ?_⟩
  obtain ⟨delta0, hd0, H⟩ := H lmda hl hlt
  have hden : 0 < 1 / lmda + Lf + c := by
    have := one_div_pos.mpr hl
    linarith
  refine ⟨min delta0 (2 / (1 / lmda + Lf + c)), lt_min hd0 (div_pos two_pos hden), fun delta hdel hdlt => ?_⟩
  have hstep : delta * (1 / lmda + Lf + c) ≤ 2 := by
    have := (lt_of_lt_of_le hdlt (min_le_right _ _)).le
    rwa [le_div_iff₀ hden] at this
  obtain ⟨N0, H⟩ := H delta hdel (hdlt.trans_le (min_le_left _ _))
  refine ⟨max N0 1, fun par b g hN hb hg hcx hpl hpd hpm hv htr => ?_⟩
  have hNpos : 0 < par.nsamples := lt_of_lt_of_le one_pos ((le_max_right _ _).trans hN)
  obtain ⟨F, Pr, M, A, rows, hF, hPr, hM, hrun, hq, hpix⟩ := H par b g ((le_max_left _ _).trans hN) hb hg hcx hpl hpd hpm hv htr
  obtain ⟨W, hW, htail⟩ := exists_tail ((b + (par.nsamples - 1) * max g 1 + 1 : ℕ) * √2 ^ n) (η / 2) (by positivity) (half_pos hη)
  have hdc : 0 < delta * c := mul_pos hdel hc
  set a := 1 + 2 * (delta / lmda) + delta * Lf with ha
  set β := delta * √(∑ i, (‖data.vals i‖ / σ i ^ 2) ^ 2) + √(2 * delta) * W with hβ
  have hLf0 : 0 < Lf := hc.trans_le hcL
  have ha0 : 0 < a := by positivity
  have hβ0 : 0 ≤ β := by positivity
  set B := max (√(∑ i, ‖x0 i‖ ^ 2)) (4 * β / (delta * c)) with hB
  have hB0 : 0 ≤ B := le_max_of_le_left (Real.sqrt_nonneg _)
  have hBβ : 4 * β ≤ delta * c * B := by
    have := le_max_right (√(∑ i, ‖x0 i‖ ^ 2)) (4 * β / (delta * c))
    rw [← hB, div_le_iff₀ hdc] at this
    linarith
  obtain ⟨u0, hu0, hprec⟩ := exists_precision (min 1 (min (delta * c / (2 * a)) (delta * c * (ε / 2) / (a * B + β + 1)))) (by positivity)
  refine ⟨u0, hu0, fun fl u hfl huu => ?_⟩
  have hE0 : 0 ≤ (1 + u) ^ 13 - 1 := by
    have := one_le_pow₀ (show 1 ≤ 1 + u by linarith [hfl.nonneg]) (n := 13)
    linarith
  have hE := hprec u hfl.nonneg huu
  set E := (1 + u) ^ 13 - 1 with hEdef
  have hE1 : E ≤ 1 := hE.trans (min_le_left _ _)
  have hE2 : E ≤ delta * c / (2 * a) := hE.trans ((min_le_right _ _).trans (min_le_left _ _))
  have hE3 : E ≤ delta * c * (ε / 2) / (a * B + β + 1) := hE.trans ((min_le_right _ _).trans (min_le_right _ _))
  rw [le_div_iff₀ (by positivity)] at hE2 hE3
  obtain ⟨F', Pr', M', A', N, st, st', rws, rws', hF', hPr', hM', hrun1, hrun2, hrows1, hrows2, hgood⟩ :=
    C163_summaries data hd sig σ hσ s hs (lmda * mu) (by positivity) par b g hb hg hNpos hcx (hpl ▸ hl) (hpd ▸ hdel) c Lf hc hcL h1 h2
      (by rw [hpl, hpd]; exact hstep) hv htr fl u hfl R P r hr x0
  obtain rfl := Except.ok.inj (hF.symm.trans hF')
  obtain rfl := Except.ok.inj (hPr.symm.trans hPr')
  obtain ⟨rfl, rfl⟩ := Prod.mk.inj (Except.ok.inj (hM.symm.trans hM'))
  have hsame : ∀ ω, rows ω = rws ω := by
    intro ω
    obtain ⟨f0, st0, hst0, hch⟩ := hrun ω
    have e := (hst0 (max f0 (N ω)) (le_max_left _ _)).symm.trans (hrun1 ω (max f0 (N ω)) (le_max_right _ _))
    obtain rfl : st0 = st ω := by simpa using Except.ok.inj e
    have e2 := Option.some.inj (hch.symm.trans (hrows1 ω))
    funext k
    exact List.ofFn_injective (congrFun (List.ofFn_injective e2) k)
  obtain ⟨good, hgm, hgp, hg'⟩ := hgood W E a β B _ hW rfl (by rw [hpl, hpd]) (by rw [hpd]) (by rw [hpd]; linarith) (le_max_left _ _)
    (by
      rw [hpd]
      refine le_trans ?_ hBβ
      have := mul_le_mul_of_nonneg_right hE1 hβ0
      linarith) rfl
  rw [hpd] at hg'
  have hD : E * (a * B + β) / (delta * c) ≤ ε / 2 := by
    rw [div_le_iff₀ hdc]
    have : E * (a * B + β) ≤ E * (a * B + β + 1) := mul_le_mul_of_nonneg_left (by linarith) hE0
    linarith
  have hbad : P.real goodᶜ ≤ η / 2 := by
    rw [probReal_compl_eq_one_sub hgm]
    linarith
  have havg : ∀ q : (Fin n → ℂ) → ℝ, (∀ x y, |q x - q y| ≤ √(Spec.distSq x y)) → ∀ ω ∈ good,
      |(∑ k, q (rows ω k)) / par.nsamples - (∑ k, q (rws' ω k)) / par.nsamples| ≤ ε / 2 := by
    intro q hqL ω hω
    have := (hg' ω hω).2.1 q 1 zero_le_one fun x y => by rw [one_mul]; exact hqL x y
    rw [one_mul, ← hsame] at this
    exact this.trans hD
  refine ⟨F, Pr, M, A, rws', hF, hPr, hM, fun ω => ⟨N ω, st' ω, hrun2 ω, hrows2 ω⟩, fun q hqL => ?_, ?_⟩
  · refine (measureReal_mono (s₂ := {ω | ε / 2 < |(∑ k, q (rows ω k)) / par.nsamples -
        postMean realVec (fun x => (∑ i, ‖data.vals i - x i‖ ^ 2 / σ i ^ 2) / 2 + mu * ∑ i, ‖x i‖) q|} ∪ goodᶜ) (fun ω hω => ?_)
      (measure_ne_top P _)).trans ((measureReal_union_le _ _).trans ?_)
    · by_cases hωg : ω ∈ good
      · left
        have h3 := havg q hqL ω hωg
        have h4 : ε < |(∑ k, q (rws' ω k)) / par.nsamples - _| := hω
        show ε / 2 < |_ - _|
        rw [abs_sub_comm] at h3
        have h5 := abs_sub_le ((∑ k, q (rws' ω k)) / (par.nsamples : ℝ)) ((∑ k, q (rows ω k)) / (par.nsamples : ℝ))
          (postMean realVec (fun x => (∑ i, ‖data.vals i - x i‖ ^ 2 / σ i ^ 2) / 2 + mu * ∑ i, ‖x i‖) q)
        linarith
      · exact .inr hωg
    · linarith [hq q hqL]
  · refine (measureReal_mono (s₂ := {ω | ∃ i, ε / 2 < |(∑ k, (rows ω k i).re) / par.nsamples -
        postMean realVec (fun x => (∑ i, ‖data.vals i - x i‖ ^ 2 / σ i ^ 2) / 2 + mu * ∑ i, ‖x i‖) fun x => (x i).re|} ∪ goodᶜ)
      (fun ω hω => ?_) (measure_ne_top P _)).trans ((measureReal_union_le _ _).trans ?_)
    · by_cases hωg : ω ∈ good
      · left
        obtain ⟨i, hi⟩ := hω
        refine ⟨i, ?_⟩
        have h3 := havg (fun x => (x i).re) (fun x y => re_shift x y _ le_rfl i) ω hωg
        have h5 := abs_sub_le ((∑ k, (rws' ω k i).re) / (par.nsamples : ℝ)) ((∑ k, (rows ω k i).re) / (par.nsamples : ℝ))
          (postMean realVec (fun x => (∑ i, ‖data.vals i - x i‖ ^ 2 / σ i ^ 2) / 2 + mu * ∑ i, ‖x i‖) fun x => (x i).re)
        rw [abs_sub_comm] at h3
        linarith
      · exact .inr hωg
    · linarith

/-- The hypotheses of C164 are met: data of the size of the fixtures of tests/test_mcmc.py, standard deviations 0.1, `mu = 1`, independent
standard normals, and for every precision an arithmetic that does round. -/
example : ∃ (data : DataVec 190) (sig : SigD) (σ : Fin 190 → ℝ), data.cplx = false ∧ (∀ i, (data.vals i).im = 0) ∧ IsSigma 190 sig σ ∧
    NormalStream (vecRng 190) 190 (Measure.infinitePi fun _ : ℕ => Measure.pi fun _ : Fin 190 => gaussianReal 0 1) (fun ω => ω) ∧
    ∀ u0 : ℝ, 0 < u0 → ∃ fl : Rounding, RoundsWithin fl u0 ∧ fl.cx 1 ≠ 1 :=
  ⟨⟨false, fun _ => 1⟩, .num ((1 / 10 : ℝ) : ℂ) false, fun _ => 1 / 10, rfl, fun _ => by simp, .scalar _ (by norm_num), vecRng_normal,
    fun u0 h => ⟨enlarge u0, enlarge_within u0 h.le, by
      show ((1 + u0 : ℝ) : ℂ) * 1 ≠ 1
      rw [mul_one]
      norm_cast
      linarith [show (0 : ℝ) ≠ u0 from h.ne]⟩⟩

end Pxmcmc
