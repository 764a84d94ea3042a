import Verif.Props.RoundedPosterior
import Verif.Props.DenoiseLimit
import Mathlib.MeasureTheory.OuterMeasure.BorelCantelli

/-! # Property C164, limits: averages and interval widths of longer and longer chains computed in finer and finer arithmetic -/

namespace Pxmcmc
open MeasureTheory ProbabilityTheory Filter
open scoped Topology

variable {n : ℕ}

/-- For a fixed chain length there is a precision at which, except on an event of a given small probability, all saved samples of the rounded
run are within `ε` of those of the exact run. -/
theorem rounded_close (hn : 0 < n) (data : DataVec n) (hd : data.cplx = false) (sig : SigD) (σ : Fin n → ℝ) (hσ : IsSigma n sig σ)
    (s : String) (hs : s = "analysis" ∨ s = "synthesis") (t : ℝ) (ht : 0 ≤ t) (par : Params) (b g : ℕ) (hb : par.nburn = b)
    (hg : par.ngap = g) (hN : 0 < par.nsamples) (hreal : par.complex = false) (hl : 0 < par.lmda) (hdel : 0 < par.delta)
    (hstep : ∀ i j, par.delta * (1 / par.lmda + 1 / σ i ^ 2 + 1 / σ j ^ 2) ≤ 2)
    (hv : par.verbosity ≤ 0 ∨ ("logposterior" ∈ par.track ∧ "L2" ∈ par.track ∧ "prior" ∈ par.track)) (hc : "chain" ∈ par.track)
    (R : Rng) {Ω : Type} [MeasurableSpace Ω] (P : Measure Ω) [IsProbabilityMeasure P] (r : Ω → R.σ) (hr : NormalStream R n P r)
    (x0 : Fin n → ℂ) (F : ForwardOp n) (Pr : L1 ℂ) (M : Sampler n) (A : Arrays) (rows : Ω → Fin par.nsamples → Fin n → ℂ)
    (hF : ForwardOp.init data sig s (some identityTransform) (some (identityMeasurement n n)) (some n) = .ok F)
    (hPr : L1.init s identityTransform.op identityTransform.adj (.scalar t) = .ok Pr)
    (hM : samplerInit F Pr.toPrior par = .ok (M, A))
    (hrun : ∀ ω, ∃ fuel0 st, (∀ fuel ≥ fuel0, myulaRun M R A (r ω) (.array1 (List.ofFn x0)) fuel = .ok (some st)) ∧
        (A.applyAll st.ev).chain = some (List.ofFn fun k => List.ofFn (rows ω k))) (ε η : ℝ) (hε : 0 < ε) (hη : 0 < η) :
    ∃ u0 : ℝ, 0 < u0 ∧ ∀ (fl : Rounding) (u : ℝ), RoundsWithin fl u → u ≤ u0 →
      ∃ (rows' : Ω → Fin par.nsamples → Fin n → ℂ) (good : Set Ω),
      (∀ ω, ∃ fuel0 st,
        (∀ fuel ≥ fuel0, myulaRunOps fl M R (F.calcGradgFl fl) (Pr.proxfFl fl) A (r ω) (.array1 (List.ofFn x0)) fuel = .ok (some st)) ∧
        (A.applyAll st.ev).chain = some (List.ofFn fun k => List.ofFn (rows' ω k))) ∧
      P.real goodᶜ ≤ η ∧ ∀ ω ∈ good, ∀ k, √(Spec.distSq (rows ω k) (rows' ω k)) ≤ ε := by
  have hpos : ∀ i, 0 < σ i := by
    cases hσ with
    | scalar s hs => intro _; exact hs
    | vector s hs => exact hs
  have : Nonempty (Fin n) := ⟨⟨0, hn⟩⟩
  obtain ⟨i1, h2⟩ := Finite.exists_max fun i => 1 / σ i ^ 2
  obtain ⟨i2, h1⟩ := Finite.exists_min fun i => 1 / σ i ^ 2
  have hst := hstep i1 i2
  have hc0 : 0 < 1 / σ i2 ^ 2 := one_div_pos.mpr (pow_pos (hpos i2) 2)
  have hcL : 1 / σ i2 ^ 2 ≤ 1 / σ i1 ^ 2 := h1 i1
  generalize 1 / σ i1 ^ 2 = Lf at *
  generalize 1 / σ i2 ^ 2 = c at *
  obtain ⟨W, hW, htail⟩ := exists_tail ((b + (par.nsamples - 1) * max g 1 + 1 : ℕ) * √2 ^ n) η (by positivity) hη
  have hdc : 0 < par.delta * c := mul_pos hdel hc0
  set a := 1 + 2 * (par.delta / par.lmda) + par.delta * Lf with ha
  set β := par.delta * √(∑ i, (‖data.vals i‖ / σ i ^ 2) ^ 2) + √(2 * par.delta) * W with hβ
  have hLf0 : 0 < Lf := hc0.trans_le hcL
  have ha0 : 0 < a := by positivity
  have hβ0 : 0 ≤ β := by positivity
  set B := max (√(∑ i, ‖x0 i‖ ^ 2)) (4 * β / (par.delta * c)) with hB
  have hB0 : 0 ≤ B := le_max_of_le_left (Real.sqrt_nonneg _)
  have hBβ : 4 * β ≤ par.delta * c * B := by
    have := le_max_right (√(∑ i, ‖x0 i‖ ^ 2)) (4 * β / (par.delta * c))
    rw [← hB, div_le_iff₀ hdc] at this
    linarith
  obtain ⟨u0, hu0, hprec⟩ := exists_precision (min 1 (min (par.delta * c / (2 * a)) (par.delta * c * ε / (a * B + β + 1)))) (by positivity)
  refine ⟨u0, hu0, fun fl u hfl huu => ?_⟩
  have hE0 : 0 ≤ (1 + u) ^ 13 - 1 := by
    have := one_le_pow₀ (show 1 ≤ 1 + u by linarith [hfl.nonneg]) (n := 13)
    linarith
  have hE := hprec u hfl.nonneg huu
  set E := (1 + u) ^ 13 - 1 with hEdef
  have hE1 : E ≤ 1 := hE.trans (min_le_left _ _)
  have hE2 : E ≤ par.delta * c / (2 * a) := hE.trans ((min_le_right _ _).trans (min_le_left _ _))
  have hE3 : E ≤ par.delta * c * ε / (a * B + β + 1) := hE.trans ((min_le_right _ _).trans (min_le_right _ _))
  rw [le_div_iff₀ (by positivity)] at hE2 hE3
  obtain ⟨F', Pr', M', A', N, st, st', rws, rws', hF', hPr', hM', hrun1, hrun2, hrows1, hrows2, hgood⟩ :=
    C163_summaries data hd sig σ hσ s hs t ht par b g hb hg hN hreal hl hdel c Lf hc0 hcL h1 h2 hst hv hc fl u hfl R P r hr x0
  obtain rfl := Except.ok.inj (hF.symm.trans hF')
  obtain rfl := Except.ok.inj (hPr.symm.trans hPr')
  obtain ⟨rfl, rfl⟩ := Prod.mk.inj (Except.ok.inj (hM.symm.trans hM'))
  have hsame : ∀ ω, rows ω = rws ω := by
    intro ω
    obtain ⟨f0, st0, hst0, hch⟩ := hrun ω
    have e := (hst0 (max f0 (N ω)) (le_max_left _ _)).symm.trans (hrun1 ω (max f0 (N ω)) (le_max_right _ _))
    obtain rfl : st0 = st ω := by simpa using Except.ok.inj e
    have e2 := Option.some.inj (hch.symm.trans (hrows1 ω))
    funext k
    exact List.ofFn_injective (congrFun (List.ofFn_injective e2) k)
  obtain ⟨good, hgm, hgp, hg'⟩ := hgood W E a β B _ hW rfl rfl rfl (by linarith) (le_max_left _ _)
    (by
      refine le_trans ?_ hBβ
      have := mul_le_mul_of_nonneg_right hE1 hβ0
      linarith) rfl
  refine ⟨rws', good, fun ω => ⟨N ω, st' ω, hrun2 ω, hrows2 ω⟩, ?_, fun ω hω k => ?_⟩
  · rw [probReal_compl_eq_one_sub hgm]
    linarith
  · rw [hsame]
    refine ((hg' ω hω).1 k).trans ?_
    rw [div_le_iff₀ hdc]
    have : E * (a * B + β) ≤ E * (a * B + β + 1) := mul_le_mul_of_nonneg_left (by linarith) hE0
    linarith

/-- C164, limits: the denoising set-up of C116 computed in floating-point arithmetic.  Constructors succeed, and there is exactly one stationary
law `π` of exact MYULA.  For each chain length `N` there is a precision `u0 N` such that, for every sequence of arithmetics with relative errors
`u N ≤ u0 N`, the rounded runs return full chains; as `N` grows, almost surely the averages of every Lipschitz quantity over the rounded chain
converge to the stationary value, and for every pixel and level `alpha` the width reported by `credible_interval_range` for the rounded chain
converges to the distance of the `alpha/2` and `1 - alpha/2` quantiles of `π`. -/
theorem C164_limits (hn : 0 < n) (data : DataVec n) (hd : data.cplx = false) (sig : SigD) (σ : Fin n → ℝ) (hσ : IsSigma n sig σ)
    (s : String) (hs : s = "analysis" ∨ s = "synthesis") (t : ℝ) (ht : 0 ≤ t) (par : Params) (b g : ℕ) (hb : par.nburn = b)
    (hg : par.ngap = g) (hreal : par.complex = false) (hl : 0 < par.lmda) (hdel : 0 < par.delta)
    (hstep : ∀ i j, par.delta * (1 / par.lmda + 1 / σ i ^ 2 + 1 / σ j ^ 2) ≤ 2)
    (hv : par.verbosity ≤ 0 ∨ ("logposterior" ∈ par.track ∧ "L2" ∈ par.track ∧ "prior" ∈ par.track)) (hc : "chain" ∈ par.track)
    (R : Rng) {Ω : Type} [MeasurableSpace Ω] (P : Measure Ω) [IsProbabilityMeasure P] (r : Ω → R.σ) (hr : NormalStream R n P r)
    (x0 : Fin n → ℂ) :
    ∃ (F : ForwardOp n) (Pr : L1 ℂ) (M : ℕ → Sampler n) (A : ℕ → Arrays) (π : Measure (Fin n → ℂ)) (u0 : ℕ → ℝ),
      ForwardOp.init data sig s (some identityTransform) (some (identityMeasurement n n)) (some n) = .ok F ∧
      L1.init s identityTransform.op identityTransform.adj (.scalar t) = .ok Pr ∧
      (∀ N, samplerInit F Pr.toPrior { par with nsamples := N } = .ok (M N, A N)) ∧
      IsProbabilityMeasure π ∧
      (∀ N, StationaryLaw (M N) R (normalLaw n) π ∧
        ∀ π' : Measure (Fin n → ℂ), IsProbabilityMeasure π' → StationaryLaw (M N) R (normalLaw n) π' → π' = π) ∧
      (∀ N, 0 < u0 N) ∧
      ∀ (fl : ℕ → Rounding) (u : ℕ → ℝ), (∀ N, RoundsWithin (fl N) (u N)) → (∀ N, u N ≤ u0 N) →
      ∃ rows : (N : ℕ) → Ω → Fin N → Fin n → ℂ,
      (∀ N ω, 0 < N → ∃ fuel0 st, (∀ fuel ≥ fuel0,
          myulaRunOps (fl N) (M N) R (F.calcGradgFl (fl N)) (Pr.proxfFl (fl N)) (A N) (r ω) (.array1 (List.ofFn x0)) fuel = .ok (some st)) ∧
        ((A N).applyAll st.ev).chain = some (List.ofFn fun k : Fin N => List.ofFn (rows N ω k))) ∧
      (∀ (q : (Fin n → ℂ) → ℝ) (L : ℝ), (∀ x y, |q x - q y| ≤ L * √(Spec.distSq x y)) →
        ∀ᵐ ω ∂P, Tendsto (fun N : ℕ => (∑ k, q (rows N ω k)) / N) atTop (𝓝 (∫ z, q (fun i => ((z i).re : ℂ)) ∂π))) ∧
      ∀ (i : Fin n) (alpha : ℝ), 0 < alpha → alpha < 2 → ∃ lo hi : ℝ,
        π.real {z | (z i).re ≤ lo} = alpha / 2 ∧ π.real {z | (z i).re ≤ hi} = 1 - alpha / 2 ∧
        ∀ᵐ ω ∂P, ∃ w : ℕ → ℝ, (∀ N : ℕ, 0 < N → ∃ ws, credibleIntervalRange (· ≤ ·)
          (⟨N, List.ofFn fun j : Fin n => List.ofFn fun k : Fin N => (rows N ω k j).re⟩ : SampleArr ℝ) alpha = .ok ws ∧
          ws[(i : ℕ)]? = some (w N)) ∧ Tendsto w atTop (𝓝 (hi - lo)) := by
  obtain ⟨F, Pr, M, A, rows, π, hF, hPr, hM, hrun, hπ, hstat, havg, hint⟩ := C116_denoising hn data hd sig σ hσ s hs t ht par b g hb hg hreal hl
    hdel hstep hv hc R P r hr x0
  have hex : ∀ N : ℕ, ∃ u0 : ℝ, 0 < u0 ∧ ∀ (fl : Rounding) (u : ℝ), RoundsWithin fl u → u ≤ u0 →
      ∃ (rows' : Ω → Fin N → Fin n → ℂ) (good : Set Ω),
      (0 < N → ∀ ω, ∃ fuel0 st,
        (∀ fuel ≥ fuel0, myulaRunOps fl (M N) R (F.calcGradgFl fl) (Pr.proxfFl fl) (A N) (r ω) (.array1 (List.ofFn x0)) fuel = .ok (some st)) ∧
        ((A N).applyAll st.ev).chain = some (List.ofFn fun k => List.ofFn (rows' ω k))) ∧
      P.real goodᶜ ≤ (1 / 2) ^ N ∧ ∀ ω ∈ good, ∀ k, √(Spec.distSq (rows N ω k) (rows' ω k)) ≤ 1 / ((N : ℝ) + 1) := by
    intro N
    rcases Nat.eq_zero_or_pos N with rfl | hN
    · exact ⟨1, one_pos, fun fl u _ _ => ⟨fun _ k => k.elim0, Set.univ, fun h => absurd h (lt_irrefl _), by simp, fun _ _ k => k.elim0⟩⟩
    · obtain ⟨u0, h0, h⟩ := rounded_close hn data hd sig σ hσ s hs t ht { par with nsamples := N } b g hb hg hN hreal hl hdel hstep hv hc R P r
        hr x0 F Pr (M N) (A N) (rows N) hF hPr (hM N) (hrun N) (1 / ((N : ℝ) + 1)) ((1 / 2) ^ N) (by positivity) (by positivity)
      refine ⟨u0, h0, fun fl u hfl hu => ?_⟩
      obtain ⟨rows', good, h1, h2, h3⟩ := h fl u hfl hu
      exact ⟨rows', good, fun _ => h1, h2, h3⟩
  choose u0 hu0 H using hex
  refine ⟨F, Pr, M, A, π, u0, hF, hPr, hM, hπ, hstat, hu0, fun fl u hfl hu => ?_⟩
  choose rows' good hrun' hbad hclose using fun N => H N (fl N) (u N) (hfl N) (hu N)
  have hev : ∀ᵐ ω ∂P, ∀ᶠ N in atTop, ω ∈ good N := by
    have hs : (∑' N, P (good N)ᶜ) ≠ ⊤ := by
      refine ne_top_of_le_ne_top (Summable.tsum_ofReal_ne_top (summable_geometric_of_lt_one (by norm_num) (by norm_num : (1 / 2 : ℝ) < 1)))
        (ENNReal.tsum_le_tsum fun N => ?_)
      rw [← ofReal_measureReal (measure_ne_top P _)]
      exact ENNReal.ofReal_le_ofReal (hbad N)
    filter_upwards [ae_eventually_notMem hs] with ω hω
    filter_upwards [hω] with N hN
    simpa using hN
  refine ⟨rows', fun N ω hN => hrun' N hN ω, fun q L hq => ?_, fun i alpha ha0 ha2 => ?_⟩
  · filter_upwards [hev, (havg q L hq).2] with ω hω hlim
    have h0 : Tendsto (fun N : ℕ => (∑ k, q (rows' N ω k)) / N - (∑ k, q (rows N ω k)) / N) atTop (𝓝 0) := by
      refine squeeze_zero_norm' (a := fun N : ℕ => |L| * (1 / ((N : ℝ) + 1))) ?_ ?_
      · filter_upwards [hω, eventually_gt_atTop 0] with N hN hN0
        rw [Real.norm_eq_abs, abs_sub_comm]
        exact avg_shift hN0 _ _ _ (hclose N ω hN) q |L| (abs_nonneg _) fun x y =>
          (hq x y).trans (mul_le_mul_of_nonneg_right (le_abs_self L) (Real.sqrt_nonneg _))
      · simpa using tendsto_one_div_add_atTop_nhds_zero_nat.const_mul |L|
    simpa using h0.add hlim
  · obtain ⟨lo, hi, hlo, hhi, hw⟩ := hint i alpha ha0 ha2
    refine ⟨lo, hi, hlo, hhi, ?_⟩
    filter_upwards [hev, hw] with ω hω hwω
    obtain ⟨w, hw1, hlim⟩ := hwω
    have hex' : ∀ N : ℕ, ∃ x : ℝ, 0 < N → ∃ ws, credibleIntervalRange (· ≤ ·)
        (⟨N, List.ofFn fun j : Fin n => List.ofFn fun k : Fin N => (rows' N ω k j).re⟩ : SampleArr ℝ) alpha = .ok ws ∧
        ws[(i : ℕ)]? = some x := by
      intro N
      rcases Nat.eq_zero_or_pos N with rfl | hN
      · exact ⟨0, fun h => absurd h (lt_irrefl _)⟩
      · obtain ⟨v, -, hv1, -, -⟩ := C161_interval hN (fun k j => (rows' N ω k j).re) (fun k j => (rows' N ω k j).re) (fun _ => 0)
          (fun k j => by simp) alpha ha0.le ha2.le
        exact ⟨v i, fun _ => ⟨_, hv1, by simp⟩⟩
    choose w' hw' using hex'
    refine ⟨w', hw', ?_⟩
    have h0 : Tendsto (fun N : ℕ => w' N - w N) atTop (𝓝 0) := by
      refine squeeze_zero_norm' (a := fun N : ℕ => 2 * (1 / ((N : ℝ) + 1))) ?_ ?_
      · filter_upwards [hω, eventually_gt_atTop 0] with N hN hN0
        obtain ⟨v, v', hv1, hv2, hv3⟩ := C161_interval hN0 (fun k j => (rows N ω k j).re) (fun k j => (rows' N ω k j).re)
          (fun _ => 1 / ((N : ℝ) + 1)) (fun k j => re_shift _ _ _ (hclose N ω hN k) j) alpha ha0.le ha2.le
        obtain ⟨ws, e1, e2⟩ := hw1 N hN0
        obtain ⟨ws', e1', e2'⟩ := hw' N hN0
        obtain rfl := Except.ok.inj (hv1.symm.trans e1)
        obtain rfl := Except.ok.inj (hv2.symm.trans e1')
        have hwi : v i = w N := by simpa using e2
        have hwi' : v' i = w' N := by simpa using e2'
        rw [Real.norm_eq_abs, abs_sub_comm, ← hwi, ← hwi']
        exact hv3 i
      · simpa using tendsto_one_div_add_atTop_nhds_zero_nat.const_mul (2 : ℝ)
    simpa using h0.add hlim

/-- Two pixels with data 3 and 4, standard deviations 1, 95% intervals, and arithmetics that do round: there are precisions for which the widths
reported for the rounded chains converge almost surely. -/
example : ∃ (F : ForwardOp 2) (Pr : L1 ℂ) (M : ℕ → Sampler 2) (A : ℕ → Arrays) (fl : ℕ → Rounding)
    (rows : (N : ℕ) → (ℕ → Fin 2 → ℝ) → Fin N → Fin 2 → ℂ) (width : ℝ),
    (∀ N, (fl N).cx 1 ≠ 1) ∧
    (∀ N ω, 0 < N → ∃ fuel st, myulaRunOps (fl N) (M N) (vecRng 2) (F.calcGradgFl (fl N)) (Pr.proxfFl (fl N)) (A N) ω
      (.array1 (List.ofFn fun _ : Fin 2 => (2 : ℂ))) fuel = .ok (some st) ∧
      ((A N).applyAll st.ev).chain = some (List.ofFn fun k : Fin N => List.ofFn (rows N ω k))) ∧
    ∀ᵐ ω ∂(Measure.infinitePi fun _ : ℕ => Measure.pi fun _ : Fin 2 => gaussianReal 0 1), ∃ w : ℕ → ℝ,
      (∀ N : ℕ, 0 < N → ∃ ws, credibleIntervalRange (· ≤ ·)
        (⟨N, List.ofFn fun j : Fin 2 => List.ofFn fun k : Fin N => (rows N ω k j).re⟩ : SampleArr ℝ) (1 / 20) = .ok ws ∧
        ws[1]? = some (w N)) ∧ Tendsto w atTop (𝓝 width) := by
  obtain ⟨F, Pr, M, A, π, u0, -, -, -, -, -, hu0, H⟩ := C164_limits (n := 2) two_pos ⟨false, ![3, 4]⟩ rfl
    (.num ((1 : ℝ) : ℂ) false) (fun _ => 1) (.scalar 1 one_pos) "synthesis" (.inr rfl) 2 (by norm_num)
    ⟨1, 1 / 2, 1, 1, 10, (3 : ℕ), (2 : ℕ), false, 0, ["chain"]⟩ 3 2 rfl rfl rfl one_pos (by norm_num)
    (fun _ _ => by norm_num) (.inl le_rfl) (by simp) (vecRng 2)
    (Measure.infinitePi fun _ : ℕ => Measure.pi fun _ : Fin 2 => gaussianReal 0 1) (fun ω => ω) vecRng_normal (fun _ => 2)
  obtain ⟨rows, hrun, -, hint⟩ := H (fun N => enlarge (u0 N)) u0 (fun N => enlarge_within _ (hu0 N).le) fun _ => le_rfl
  obtain ⟨lo, hi, -, -, hw⟩ := hint 1 (1 / 20) (by norm_num) (by norm_num)
  refine ⟨F, Pr, M, A, fun N => enlarge (u0 N), rows, hi - lo, fun N => ?_, fun N ω hN => ?_, hw⟩
  · show ((1 + u0 N : ℝ) : ℂ) * 1 ≠ 1
    rw [mul_one]
    norm_cast
    linarith [(hu0 N).ne, hu0 N]
  · obtain ⟨f0, st, h1, h2⟩ := hrun N ω hN
    exact ⟨f0, st, h1 f0 le_rfl, h2⟩

end Pxmcmc
