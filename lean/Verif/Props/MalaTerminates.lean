import Verif.Lemmas.MalaRecur
import Verif.Props.DenoiseLimit

/-! # Property C119: PxMALA returns with probability one -/

namespace Pxmcmc
open MeasureTheory ProbabilityTheory
open scoped ENNReal

variable {n p : ℕ} {M : Sampler n} {fwd : (Fin p → ℂ) → (Fin n → ℂ)} {grad : (Fin n → ℂ) → (Fin p → ℂ)}
    {prox : (Fin p → ℂ) → (Fin p → ℂ)} {pri : (Fin p → ℂ) → ℝ}

/-- The law of `np.random.rand()`. -/
noncomputable abbrev uniformLaw : Measure ℝ := volume.restrict (Set.Ico (0 : ℝ) 1)

instance : IsProbabilityMeasure uniformLaw := ⟨by simp [uniformLaw]⟩

/-- In every iteration the noise vector has the law `ν`, the uniform number is uniform on `[0, 1)` and independent of it, and both are
independent of the start vector and of all earlier iterations. -/
structure MalaStream (R : Rng) (cplx : Bool) (p : ℕ) {Ω : Type} [MeasurableSpace Ω] (P : Measure Ω) (x0 : Ω → Fin p → ℂ) (r : Ω → R.σ)
    (ν : Measure (Fin p → ℂ)) : Prop where
  start : Measurable x0
  meas : ∀ k, Measurable fun ω => malaDraws R cplx p (r ω) k
  law : ∀ k, P.map (fun ω => malaDraws R cplx p (r ω) k) = ν.prod uniformLaw
  indep : ∀ k, IndepFun (fun ω => (x0 ω, fun i : Fin k => malaDraws R cplx p (r ω) i)) (fun ω => malaDraws R cplx p (r ω) k) P

/-- Whatever the law of the noise, a set of proposals is accepted with positive probability. -/
theorem accept_pos (ν : Measure (Fin p → ℂ)) [IsProbabilityMeasure ν] (a : (Fin p → ℂ) → ℂ) (ha : Measurable a) :
    (ν.prod uniformLaw) {v | acceptTest v.2 (a v.1)} ≠ 0 := by
  have hm : MeasurableSet {v : (Fin p → ℂ) × ℝ | acceptTest v.2 (a v.1)} :=
    acceptTest_measurable measurable_snd (ha.comp measurable_fst)
  intro h
  rw [Measure.measure_prod_null hm] at h
  have h1 : ∀ᵐ w ∂ν, False := by
    filter_upwards [h] with w hw
    have h2 := C52_probability (a w)
    have h3 : uniformLaw (Prod.mk w ⁻¹' {v : (Fin p → ℂ) × ℝ | acceptTest v.2 (a v.1)}) =
        volume {u : ℝ | u ∈ Set.Ico (0 : ℝ) 1 ∧ acceptTest u (a w)} := by
      rw [Measure.restrict_apply (measurable_prodMk_left hm), Set.inter_comm]
      rfl
    have hw' : uniformLaw (Prod.mk w ⁻¹' {v : (Fin p → ℂ) × ℝ | acceptTest v.2 (a v.1)}) = 0 := hw
    rw [h3, h2, ENNReal.ofReal_eq_zero] at hw'
    exact absurd hw' (not_le.mpr (lt_min one_pos (Real.exp_pos _)))
  rw [ae_iff] at h1
  simp at h1

/-- Without tuning the step size stays and the iteration number counts. -/
theorem untuned_state (delta : ℝ) (x0 : Fin p → ℂ) (w : ℕ → (Fin p → ℂ) × ℝ) (k : ℕ) :
    fwState (malaNext M fwd grad prox pri false) (x0, delta, 0) w k =
      (fwState (fun x v => (malaNext M fwd grad prox pri false (x, delta, 0) v).1) x0 w k, delta, k) := by
  induction k with
  | zero => rfl
  | succ k ih =>
    show malaNext M fwd grad prox pri false (fwState _ _ w k) (w k) = _
    rw [ih]
    show _ = ((malaNext M fwd grad prox pri false (fwState _ x0 w k, delta, 0) (w k)).1, delta, k + 1)
    unfold malaNext
    have e : ((fwState (fun x v => (malaNext M fwd grad prox pri false (x, delta, 0) v).1) x0 w k, delta, k), w k) ∈
        malaAccepts M fwd grad prox pri ↔
        ((fwState (fun x v => (malaNext M fwd grad prox pri false (x, delta, 0) v).1) x0 w k, delta, 0), w k) ∈
        malaAccepts M fwd grad prox pri := Iff.rfl
    simp only [malaNext] at e ⊢
    by_cases h : ((fwState (fun x v => (malaNext M fwd grad prox pri false (x, delta, 0) v).1) x0 w k, delta, k), w k) ∈
        malaAccepts M fwd grad prox pri
    · simp only [malaNext] at h
      simp only [if_pos h, if_pos (e.mp h)]
      rfl
    · simp only [malaNext] at h
      simp only [if_neg h, if_neg (fun hh => h (e.mpr hh))]
      rfl

/-- C119 without tuning: for operators that accept every vector and act measurably, any burn-in, thinning and number of samples, any start
(fixed or drawn from the prior), any law of the noise: `run` returns with probability one. -/
theorem C119_untuned (R : Rng) (tot : Total M p fwd grad prox pri) (hf : Measurable fwd) (hgr : Measurable grad) (hp : Measurable prox)
    (hq : Measurable pri) (A0 : Arrays) (hA : A0.Shaped M.par.nsamples) (b g : ℕ) (hb : M.par.nburn = b) (hg : M.par.ngap = g)
    (delta : ℝ) {Ω : Type} [MeasurableSpace Ω] (P : Measure Ω) [IsProbabilityMeasure P] (r r1 : Ω → R.σ) (sp : StartPoint)
    (x0 : Ω → Fin p → ℂ) (hstart : ∀ ω, initialSample M R (r ω) sp = .ok (List.ofFn (x0 ω), List.ofFn (fwd (x0 ω)), r1 ω))
    (ν : Measure (Fin p → ℂ)) [IsProbabilityMeasure ν] (hs : MalaStream R M.par.complex p P x0 r1 ν) :
    ∀ᵐ ω ∂P, ∃ fuel st, malaRun M R false delta A0 (r ω) sp fuel = .ok (some st) := by
  classical
  have hα := propAlpha_measurable (M := M) hf hgr hp hq
  have hG : Measurable fun q : (Fin p → ℂ) × ((Fin p → ℂ) × ℝ) => propAlpha M fwd grad prox pri (q.1, delta, q.2.1) :=
    hα.comp (measurable_fst.prodMk (measurable_const.prodMk (measurable_fst.comp measurable_snd)))
  set A : Set ((Fin p → ℂ) × ((Fin p → ℂ) × ℝ)) := {q | ((q.1, delta, 0), q.2) ∈ malaAccepts M fwd grad prox pri} with hAdef
  have hAm : MeasurableSet A := acceptTest_measurable (measurable_snd.comp measurable_snd) hG
  set f : (Fin p → ℂ) → (Fin p → ℂ) × ℝ → (Fin p → ℂ) := fun x v => (malaNext M fwd grad prox pri false (x, delta, 0) v).1 with hfdef
  have hfe : ∀ x v, f x v = if (x, v) ∈ A then ulaStep delta (gradVec M.par.lmda fwd grad prox) x v.1 else x := by
    intro x v
    simp only [hfdef, malaNext]
    by_cases h : ((x, delta, 0), v) ∈ malaAccepts M fwd grad prox pri
    · rw [if_pos h, if_pos (show (x, v) ∈ A from h)]
    · rw [if_neg h, if_neg (show (x, v) ∉ A from h)]
  have hyv : Measurable fun q : (Fin p → ℂ) × ((Fin p → ℂ) × ℝ) => ulaStep delta (gradVec M.par.lmda fwd grad prox) q.1 q.2.1 := by
    unfold ulaStep gradVec
    refine measurable_pi_lambda _ fun i => ?_
    have h1 : Measurable fun x => prox x i := (measurable_pi_apply i).comp hp
    have h2 : Measurable fun x => grad (fwd x) i := (measurable_pi_apply i).comp (hgr.comp hf)
    fun_prop
  have hfm : Measurable fun q : (Fin p → ℂ) × ((Fin p → ℂ) × ℝ) => f q.1 q.2 := by
    simp only [hfe]
    exact Measurable.ite hAm hyv measurable_fst
  have hseq : SeqIndep P x0 (fun k ω => malaDraws R M.par.complex p (r1 ω) k) (ν.prod uniformLaw) :=
    ⟨hs.start, hs.meas, hs.law, hs.indep⟩
  have hio := hseq.grid_infinitely_often (f := f) (A := A) hfm hAm (fun x v h => by rw [hfe, if_neg h])
    (fun x => accept_pos ν (fun w => propAlpha M fwd grad prox pri (x, delta, w))
      (hα.comp (measurable_const.prodMk (measurable_const.prodMk measurable_id)))) b (max g 1) (le_max_right _ _)
  filter_upwards [hio] with ω hω
  refine mala_returns R tot false A0 hA b g hb hg delta (r ω) (r1 ω) sp (x0 ω) (hstart ω) fun N => ?_
  obtain ⟨k, h1, h2, h3, h4⟩ := hω N
  refine ⟨k, h1, h2, h3, ?_⟩
  rw [untuned_state]
  exact h4

theorem tuneVec_mem (hl : 0 < M.par.lmda) (δ : ℝ) (i a : ℕ) :
    tuneVec M δ i a ∈ Set.Icc (M.par.lmda * 1e-8) (M.par.lmda / 2) := by
  unfold tuneVec
  refine ⟨le_min (le_max_right _ _) ?_, min_le_right _ _⟩
  norm_num
  linarith

/-- With a continuous log ratio, acceptance has a probability bounded below for all step sizes in a compact set. -/
theorem accept_lower (ν : Measure (Fin p → ℂ)) [IsProbabilityMeasure ν] (a : ℝ × (Fin p → ℂ) → ℂ) (ha : Continuous a) (K : Set ℝ)
    (hK : IsCompact K) : ∃ c, c ≠ 0 ∧ ∀ δ ∈ K, c ≤ (ν.prod uniformLaw) {v | acceptTest v.2 (a (δ, v.1))} := by
  obtain ⟨m, hm⟩ : ∃ m : ℕ, ν (Metric.closedBall 0 m) ≠ 0 := by
    by_contra h
    push Not at h
    have h1 : ν (⋃ m : ℕ, Metric.closedBall (0 : Fin p → ℂ) m) = 0 := measure_iUnion_null h
    rw [Metric.iUnion_closedBall_nat, measure_univ] at h1
    exact one_ne_zero h1
  set W : Set (Fin p → ℂ) := Metric.closedBall 0 m with hW
  have hWc : IsCompact W := isCompact_closedBall _ _
  obtain ⟨C, hC⟩ := (hK.prod hWc).exists_bound_of_continuousOn ha.continuousOn
  set J : Set ℝ := Set.Ico 0 (min 1 (Real.exp (-C))) with hJ
  have hpos : 0 < min 1 (Real.exp (-C)) := lt_min one_pos (Real.exp_pos _)
  refine ⟨ν W * uniformLaw J, mul_ne_zero hm ?_, fun δ hδ => ?_⟩
  · rw [Measure.restrict_apply measurableSet_Ico, Set.inter_eq_left.mpr (show J ⊆ Set.Ico 0 1 from fun u hu => ⟨hu.1, lt_of_lt_of_le hu.2 (min_le_left _ _)⟩),
      Real.volume_Ico, sub_zero]
    exact (ENNReal.ofReal_pos.mpr hpos).ne'
  · rw [← Measure.prod_prod]
    refine measure_mono ?_
    rintro ⟨w, u⟩ ⟨hw, hu⟩
    have h1 : ‖a (δ, w)‖ ≤ C := hC (δ, w) ⟨hδ, hw⟩
    have h2 : -C ≤ (a (δ, w)).re := by
      have := (abs_le.mp (Complex.abs_re_le_norm (a (δ, w)))).1
      linarith
    show acceptTest u (a (δ, w))
    rcases eq_or_lt_of_le hu.1 with h | h
    · exact .inl h.symm
    · exact .inr (.inl (lt_of_lt_of_le ((Real.log_lt_iff_lt_exp h).mpr (lt_of_lt_of_le hu.2 (min_le_right _ _))) h2))

/-- C119 with tuning: operators that accept every vector and act continuously, a positive `lmda`, any burn-in, number of samples, initial
step size and start, `ngap` 0 or 1 (every iteration may be saved): `run` returns with probability one. -/
theorem C119_tuned (R : Rng) (tot : Total M p fwd grad prox pri) (hf : Continuous fwd) (hgr : Continuous grad) (hp : Continuous prox)
    (hq : Continuous pri) (hl : 0 < M.par.lmda) (A0 : Arrays) (hA : A0.Shaped M.par.nsamples) (b g : ℕ) (hb : M.par.nburn = b)
    (hg : M.par.ngap = g) (hg1 : g ≤ 1) (delta : ℝ) {Ω : Type} [MeasurableSpace Ω] (P : Measure Ω) [IsProbabilityMeasure P]
    (r r1 : Ω → R.σ) (sp : StartPoint) (x0 : Ω → Fin p → ℂ)
    (hstart : ∀ ω, initialSample M R (r ω) sp = .ok (List.ofFn (x0 ω), List.ofFn (fwd (x0 ω)), r1 ω))
    (ν : Measure (Fin p → ℂ)) [IsProbabilityMeasure ν] (hs : MalaStream R M.par.complex p P x0 r1 ν) :
    ∀ᵐ ω ∂P, ∃ fuel st, malaRun M R true delta A0 (r ω) sp fuel = .ok (some st) := by
  classical
  have hα := propAlpha_continuous (M := M) hf hgr hp hq
  set A := malaAccepts M fwd grad prox pri with hAdef
  have hAm : MeasurableSet A := by
    refine acceptTest_measurable (measurable_snd.comp measurable_snd) (hα.measurable.comp ?_)
    exact (measurable_fst.comp measurable_fst).prodMk ((measurable_fst.comp (measurable_snd.comp measurable_fst)).prodMk
      (measurable_fst.comp measurable_snd))
  have htm : ∀ a : ℕ, Measurable fun q : ((Fin p → ℂ) × ℝ × ℕ) × ((Fin p → ℂ) × ℝ) => tuneVec M q.1.2.1 q.1.2.2 a := by
    intro a
    unfold tuneVec
    have h1 : Measurable fun i : ℕ => 1 + ((a : ℝ) - 1 / 2) / ((i : ℝ) + 1) ^ (3 / 4 : ℝ) := measurable_of_countable _
    have h2 : Measurable fun q : ((Fin p → ℂ) × ℝ × ℕ) × ((Fin p → ℂ) × ℝ) => q.1.2.2 :=
      measurable_snd.comp (measurable_snd.comp measurable_fst)
    have h3 : Measurable fun q : ((Fin p → ℂ) × ℝ × ℕ) × ((Fin p → ℂ) × ℝ) => q.1.2.1 :=
      measurable_fst.comp (measurable_snd.comp measurable_fst)
    exact ((h3.mul (h1.comp h2)).max measurable_const).min measurable_const
  have him : Measurable fun q : ((Fin p → ℂ) × ℝ × ℕ) × ((Fin p → ℂ) × ℝ) => q.1.2.2 + 1 :=
    (measurable_of_countable fun i : ℕ => i + 1).comp (measurable_snd.comp (measurable_snd.comp measurable_fst))
  have hym : Measurable fun q : ((Fin p → ℂ) × ℝ × ℕ) × ((Fin p → ℂ) × ℝ) =>
      ulaStep q.1.2.1 (gradVec M.par.lmda fwd grad prox) q.1.1 q.2.1 := by
    unfold ulaStep gradVec
    refine measurable_pi_lambda _ fun i => ?_
    have h1 : Measurable fun x => prox x i := (measurable_pi_apply i).comp hp.measurable
    have h2 : Measurable fun x => grad (fwd x) i := (measurable_pi_apply i).comp (hgr.comp hf).measurable
    fun_prop
  have hfm : Measurable fun q : ((Fin p → ℂ) × ℝ × ℕ) × ((Fin p → ℂ) × ℝ) => malaNext M fwd grad prox pri true q.1 q.2 :=
    Measurable.ite hAm (hym.prodMk ((htm 1).prodMk him)) ((measurable_fst.comp measurable_fst).prodMk ((htm 0).prodMk him))
  set ρ : (Fin p → ℂ) × ℝ × ℕ → (Fin p → ℂ) × ℝ × ℕ := fun s => (s.1, tuneVec M s.2.1 s.2.2 0, s.2.2 + 1) with hρ
  have hrej : ∀ s v, (s, v) ∉ A → malaNext M fwd grad prox pri true s v = ρ s := by
    intro s v h
    unfold malaNext
    rw [if_neg h]
    rfl
  have hseq : SeqIndep P (fun ω => (x0 ω, delta, 0)) (fun k ω => malaDraws R M.par.complex p (r1 ω) k) (ν.prod uniformLaw) := by
    refine ⟨hs.start.prodMk measurable_const, hs.meas, hs.law, fun k => ?_⟩
    have h1 : Measurable fun q : (Fin p → ℂ) × (Fin k → (Fin p → ℂ) × ℝ) => ((q.1, delta, 0), q.2) :=
      (measurable_fst.prodMk measurable_const).prodMk measurable_snd
    exact (hs.indep k).comp (φ := fun q : (Fin p → ℂ) × (Fin k → (Fin p → ℂ) × ℝ) => (((q.1, delta, 0), q.2) : ((Fin p → ℂ) × ℝ × ℕ) × (Fin k → (Fin p → ℂ) × ℝ)))
      (ψ := id) h1 measurable_id
  have horb : ∀ (s : (Fin p → ℂ) × ℝ × ℕ) j, (ρ^[j] s).1 = s.1 ∧
      (ρ^[j] s).2.1 ∈ insert s.2.1 (Set.Icc (M.par.lmda * 1e-8) (M.par.lmda / 2)) := by
    intro s j
    induction j with
    | zero => exact ⟨rfl, Set.mem_insert _ _⟩
    | succ j ih =>
      rw [Function.iterate_succ_apply']
      exact ⟨ih.1, Set.mem_insert_of_mem _ (tuneVec_mem hl _ _ _)⟩
  have hio := hseq.orbit_infinitely_often (f := malaNext M fwd grad prox pri true) (A := A) hfm hAm ρ hrej (fun s => by
    obtain ⟨c, hc, h⟩ := accept_lower ν (fun q => propAlpha M fwd grad prox pri (s.1, q.1, q.2))
      (hα.comp (continuous_const.prodMk (continuous_fst.prodMk continuous_snd)))
      (insert s.2.1 (Set.Icc (M.par.lmda * 1e-8) (M.par.lmda / 2))) (isCompact_Icc.insert _)
    refine ⟨c, hc, fun j => ?_⟩
    obtain ⟨h1, h2⟩ := horb s j
    refine (h _ h2).trans (le_of_eq ?_)
    congr 1
    ext v
    show acceptTest v.2 (propAlpha M fwd grad prox pri (s.1, (ρ^[j] s).2.1, v.1)) ↔
      acceptTest v.2 (propAlpha M fwd grad prox pri ((ρ^[j] s).1, (ρ^[j] s).2.1, v.1))
    rw [h1])
  filter_upwards [hio] with ω hω
  refine mala_returns R tot true A0 hA b g hb hg delta (r ω) (r1 ω) sp (x0 ω) (hstart ω) fun N => ?_
  obtain ⟨k, h1, h2⟩ := hω (max N b)
  refine ⟨k, le_trans (le_max_left _ _) h1, le_trans (le_max_right _ _) h1, ?_, h2⟩
  rw [max_eq_right hg1]
  exact one_dvd _

/-- A fixed start and independent iterations meet the hypothesis on the random numbers. -/
theorem MalaStream.of_iIndep (R : Rng) (cplx : Bool) (p : ℕ) {Ω : Type} [MeasurableSpace Ω] (P : Measure Ω) [IsProbabilityMeasure P]
    (x0 : Fin p → ℂ) (r : Ω → R.σ) (ν : Measure (Fin p → ℂ)) (hm : ∀ k, Measurable fun ω => malaDraws R cplx p (r ω) k)
    (hi : iIndepFun (fun k ω => malaDraws R cplx p (r ω) k) P)
    (hl : ∀ k, P.map (fun ω => malaDraws R cplx p (r ω) k) = ν.prod uniformLaw) : MalaStream R cplx p P (fun _ => x0) r ν := by
  refine ⟨measurable_const, hm, hl, fun k => ?_⟩
  have h := hi.indepFun_finset (Finset.range k) {k} (by simp) hm
  refine h.comp (φ := fun u : (Finset.range k → (Fin p → ℂ) × ℝ) => (x0, fun i : Fin k => u ⟨i, Finset.mem_range.mpr i.2⟩))
    (ψ := fun u : (({k} : Finset ℕ) → (Fin p → ℂ) × ℝ) => u ⟨k, Finset.mem_singleton_self k⟩) ?_ (measurable_pi_apply _)
  exact measurable_const.prodMk (measurable_pi_lambda _ fun i => measurable_pi_apply _)

theorem softEntry_continuous (t : ℝ) (ht : 0 ≤ t) : Continuous fun z : ℂ => softEntry z t := by
  refine LipschitzWith.continuous (K := 1) (LipschitzWith.of_dist_le_mul fun x y => ?_)
  have h := softEntry_firm x y ht
  have h2 := re_inner_le_norm (𝕜 := ℂ) (softEntry x t - softEntry y t) (x - y)
  rw [dist_eq_norm, dist_eq_norm, NNReal.coe_one, one_mul]
  by_contra hc
  push Not at hc
  nlinarith [norm_nonneg (x - y), norm_nonneg (softEntry x t - softEntry y t)]

/-- C119 for the denoising set-up (identity transform and measurement, `L1` prior, either setting), from the constructor arguments: all
constructors succeed, and with independent iterations the run returns with probability one, without tuning for every thinning and with
tuning for `ngap` 0 or 1. -/
theorem C119_denoising (data : DataVec n) (hd : data.cplx = false) (sig : SigD) (σ : Fin n → ℝ) (hσ : IsSigma n sig σ)
    (s : String) (hs : s = "analysis" ∨ s = "synthesis") (t : ℝ) (ht : 0 ≤ t) (par : Params) (b g : ℕ) (hb : par.nburn = b)
    (hg : par.ngap = g) (hl : 0 < par.lmda) (R : Rng) {Ω : Type} [MeasurableSpace Ω] (P : Measure Ω) [IsProbabilityMeasure P]
    (x0 : Fin n → ℂ) (r : Ω → R.σ) (ν : Measure (Fin n → ℂ)) [IsProbabilityMeasure ν]
    (hr : MalaStream R par.complex n P (fun _ => x0) r ν) :
    ∃ (F : ForwardOp n) (Pr : L1 ℂ) (M : Sampler n) (A0 : Arrays),
      ForwardOp.init data sig s (some identityTransform) (some (identityMeasurement n n)) (some n) = .ok F ∧
      L1.init s identityTransform.op identityTransform.adj (.scalar t) = .ok Pr ∧
      samplerInit F Pr.toPrior par = .ok (M, A0) ∧
      (∀ᵐ ω ∂P, ∃ fuel st, malaRun M R false par.delta A0 (r ω) (.array1 (List.ofFn x0)) fuel = .ok (some st)) ∧
      (g ≤ 1 → ∀ᵐ ω ∂P, ∃ fuel st, malaRun M R true par.delta A0 (r ω) (.array1 (List.ofFn x0)) fuel = .ok (some st)) := by
  obtain ⟨F, Pr, hF, hP, -, -, hnp, tot⟩ := denoise_total data hd sig σ hσ s hs t
  have tot := tot par hl.ne'
  have c1 : Continuous fun x : Fin n → ℂ => x := continuous_id
  have c2 : Continuous fun (y : Fin n → ℂ) i => (y i - data.vals i) / ((σ i ^ 2 : ℝ) : ℂ) := by fun_prop
  have c3 : Continuous fun (x : Fin n → ℂ) i => softEntry (x i) t :=
    continuous_pi fun i => (softEntry_continuous t ht).comp (continuous_apply i)
  have c4 : Continuous fun x : Fin n → ℂ => ∑ i, ‖x i‖ := by fun_prop
  refine ⟨F, Pr, ⟨F, Pr.toPrior, par, n⟩, initArrays ⟨F, Pr.toPrior, par, n⟩, hF, hP, by simp [samplerInit, hnp], ?_, fun hg1 => ?_⟩
  · exact C119_untuned R tot c1.measurable c2.measurable c3.measurable c4.measurable _ (initArrays_shaped _) b g hb hg _ P r r _ _
      (fun ω => start_array R tot (r ω) x0) ν hr
  · exact C119_tuned R tot c1 c2 c3 c4 hl _ (initArrays_shaped _) b g hb hg hg1 _ P r r _ _
      (fun ω => start_array R tot (r ω) x0) ν hr

/-- A generator that delivers a given sequence of (normal vector, uniform number): `randn` reads the vector (cut or filled up with zeros if
another length is asked for), `rand` the number and moves on. -/
def iterRng (p : ℕ) : Rng :=
  ⟨ℕ → (Fin p → ℝ) × ℝ, fun s k => (fun i : Fin k => if h : (i : ℕ) < p then (s 0).1 ⟨i, h⟩ else 0, s),
    fun s k => (fun i : Fin k => if h : (i : ℕ) < p then (s 0).1 ⟨i, h⟩ else 0, s), fun s => ((s 0).2, fun j => s (j + 1))⟩

theorem iterRng_seq (s : ℕ → (Fin p → ℝ) × ℝ) (k : ℕ) : malaRngSeq (iterRng p) false p s k = fun j => s (j + k) := by
  induction k with
  | zero => rfl
  | succ k ih =>
    show (fun j => malaRngSeq (iterRng p) false p s k (j + 1)) = _
    rw [ih]
    funext j
    show s (j + 1 + k) = s (j + (k + 1))
    congr 1
    omega

theorem iterRng_draws (s : ℕ → (Fin p → ℝ) × ℝ) (k : ℕ) :
    malaDraws (iterRng p) false p s k = (fun i => (((s k).1 i : ℝ) : ℂ), (s k).2) := by
  unfold malaDraws
  rw [iterRng_seq]
  refine Prod.ext (funext fun i => ?_) ?_
  · show (((if h : (i : ℕ) < p then (s (0 + k)).1 ⟨i, h⟩ else 0 : ℝ)) : ℂ) = _
    rw [dif_pos i.2, zero_add]
  · show (s (0 + k)).2 = _
    rw [zero_add]

/-- Fed with independent pairs of a standard normal vector and a uniform number it meets the hypothesis on the random numbers, for every
fixed start. -/
theorem iterRng_stream (x0 : Fin p → ℂ) : MalaStream (iterRng p) false p
    (Measure.infinitePi fun _ : ℕ => (Measure.pi fun _ : Fin p => gaussianReal 0 1).prod uniformLaw) (fun _ => x0) (fun ω => ω)
    (normalLaw p) := by
  set κ : (Fin p → ℝ) × ℝ → (Fin p → ℂ) × ℝ := Prod.map (fun x i => ((x i : ℝ) : ℂ)) id with hκ
  have h1 : Measurable fun (x : Fin p → ℝ) (i : Fin p) => ((x i : ℝ) : ℂ) := by fun_prop
  have hκm : Measurable κ := h1.prodMap measurable_id
  have e : ∀ (k : ℕ) (ω : ℕ → (Fin p → ℝ) × ℝ), malaDraws (iterRng p) false p ω k = κ (ω k) := fun k ω => iterRng_draws ω k
  refine MalaStream.of_iIndep _ _ _ _ _ _ _ (fun k => ?_) ?_ fun k => ?_
  · simp only [e]
    exact hκm.comp (measurable_pi_apply k)
  · simp only [e]
    exact iIndepFun_infinitePi (P := fun _ : ℕ => (Measure.pi fun _ : Fin p => gaussianReal 0 1).prod uniformLaw) (X := fun _ => κ)
      (fun _ => hκm)
  · simp only [e]
    have h2 := Measure.infinitePi_map_eval (fun _ : ℕ => (Measure.pi fun _ : Fin p => gaussianReal 0 1).prod uniformLaw) k
    have h3 : (fun ω : ℕ → (Fin p → ℝ) × ℝ => κ (ω k)) = κ ∘ (Function.eval k) := rfl
    rw [h3, ← Measure.map_map hκm (measurable_pi_apply k), h2, hκ, normalLaw]
    have h4 := Measure.map_prod_map (Measure.pi fun _ : Fin p => gaussianReal 0 1) uniformLaw h1 measurable_id
    rw [Measure.map_id] at h4
    exact h4.symm

/-- The hypotheses of C119 are met by the parameters of tests/test_mcmc.py:27-29 with data of its fixtures' size, standard deviations 0.1,
and independent normal and uniform numbers. -/
example : ∃ (data : DataVec 190) (sig : SigD) (σ : Fin 190 → ℝ) (par : Params), data.cplx = false ∧ IsSigma 190 sig σ ∧
    par.nburn = (10 : ℕ) ∧ par.ngap = (5 : ℕ) ∧ 0 < par.lmda ∧ par.nsamples = 100 ∧
    MalaStream (iterRng 190) par.complex 190
      (Measure.infinitePi fun _ : ℕ => (Measure.pi fun _ : Fin 190 => gaussianReal 0 1).prod uniformLaw) (fun _ => fun _ => 1) (fun ω => ω)
      (normalLaw 190) :=
  ⟨⟨false, fun _ => 1⟩, .num ((1 / 10 : ℝ) : ℂ) false, fun _ => 1 / 10,
    ⟨3 / 100000, 1 / 100000, 1, 5, 100, 10, 5, false, 0, ["logposterior", "L2", "prior", "chain"]⟩, rfl,
    .scalar _ (by norm_num), rfl, rfl, by norm_num, rfl, iterRng_stream _⟩

end Pxmcmc
