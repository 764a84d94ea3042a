import Verif.Lemmas.FlatLevels
import Verif.Props.MyulaFlat

/-! # Property C154: with an l1 prior, the threshold of the credible region converges for every linear forward operator -/

namespace Pxmcmc
open MeasureTheory ProbabilityTheory Filter
open scoped ENNReal NNReal Topology
variable {n m p : ℕ} {M : Sampler n} {σ : Fin n → ℝ} {A : (Fin p → ℂ) →ₗ[ℂ] (Fin n → ℂ)} {At : (Fin n → ℂ) → (Fin p → ℂ)}
  {B : (Fin p → ℂ) →ₗ[ℂ] (Fin m → ℂ)} {Bt : (Fin m → ℂ) → (Fin p → ℂ)} {T : Fin m → ℝ} {d : Fin n → ℂ} {mu : ℝ}
  {l : ℕ} {C : (Fin p → ℂ) →ₗ[ℂ] (Fin l → ℂ)} {w : Fin l → ℝ}

/-- The law of the log-posterior under a stationary law on the real vectors: its quantiles are unique and lie below the log-posterior of every
maximiser. -/
theorem linPost_quantile (hp : 0 < p) (hmu : 0 < mu) (hw : ∀ j, 0 < w j) (hσ : ∀ i, 0 < σ i) (hinj : ∀ v, C v = 0 → v = 0)
    (delta : ℝ) (hdel : 0 < delta) (G : (Fin p → ℂ) → (Fin p → ℂ)) (hf : Measurable (Function.uncurry (ulaStep delta G)))
    (hG : ∀ z, (∀ i, (z i).im = 0) → ∀ i, (z i + (delta : ℂ) * G z i).im = 0)
    (π : Measure (Fin p → ℂ)) [IsProbabilityMeasure π] (hπ : stepLaw (ulaStep delta G) (normalLaw p) π = π)
    (hre : ∀ᵐ z ∂π, ∀ i, (z i).im = 0) (q : ℝ) (hq0 : 0 < q) (hq1 : q < 1) :
    ∃ a, (π.map (linPost mu w σ d A C)).real (Set.Iic a) = q ∧
      (∀ x, (∀ y, linPost mu w σ d A C y ≤ linPost mu w σ d A C x) → a < linPost mu w σ d A C x) ∧
      (∀ u < a, (π.map (linPost mu w σ d A C)).real (Set.Iic u) < q) ∧ ∀ u > a, q < (π.map (linPost mu w σ d A C)).real (Set.Iic u) := by
  have hs : 0 < √(2 * delta) := Real.sqrt_pos.mpr (by linarith)
  have hs' : ((√(2 * delta) : ℝ) : ℂ) ≠ 0 := by exact_mod_cast hs.ne'
  have hpm : Measurable (linPost mu w σ d A C) := linPost_continuous.measurable
  have := Measure.isProbabilityMeasure_map (μ := π) hpm.aemeasurable
  set S : Set ℝ := Set.range fun x : Fin p → ℝ => linPost mu w σ d A C (fun i => ((x i : ℝ) : ℂ)) with hS
  have hbdd : BddAbove S := ⟨0, by rintro _ ⟨x, rfl⟩; exact linPost_nonpos hmu.le (fun j => (hw j).le) _⟩
  have hle : ∀ᵐ z ∂π, linPost mu w σ d A C z ≤ sSup S := by
    filter_upwards [hre] with z hz
    refine le_csSup hbdd ⟨fun i => (z i).re, ?_⟩
    show linPost mu w σ d A C _ = _
    congr 1
    funext i
    exact Complex.ext (by simp) (by simp [hz i])
  have hat : ∀ c, (π.map (linPost mu w σ d A C)) {c} = 0 := by
    intro c
    rw [Measure.map_apply hpm (measurableSet_singleton c), stationary_apply _ _ hf π hπ _ (hpm (measurableSet_singleton c))]
    rw [lintegral_eq_zero_of_ae_eq_zero]
    filter_upwards [hre] with z hz
    have h1 := level_null_convex _ (linPost_convex (σ := σ) (d := d) (A := A) (B := C) hmu.le (fun j => (hw j).le)
      (fun i => z i + (delta : ℂ) * G z i) (√(2 * delta))) (linPost_vary hp hmu hw hσ hinj _ (hG z hz) _ hs) (-c)
    refine (measure_mono_null (fun x hx => ?_) h1)
    have hx' : linPost mu w σ d A C (ulaStep delta G z fun i => ((x i : ℝ) : ℂ)) = c := hx
    show -linPost mu w σ d A C _ = -c
    rw [← hx']
    rfl
  have hm : (π.map (linPost mu w σ d A C)).real (Set.Iic (sSup S)) = 1 := by
    rw [map_measureReal_apply hpm measurableSet_Iic, measureReal_def]
    have h1 : π (linPost mu w σ d A C ⁻¹' Set.Iic (sSup S)) = 1 := by
      rw [prob_compl_eq_zero_iff (hpm measurableSet_Iic) |>.symm]
      exact hle
    rw [h1, ENNReal.toReal_one]
  have hopen : ∀ u v, u < v → v ≤ sSup S → (π.map (linPost mu w σ d A C)) (Set.Ioo u v) ≠ 0 := by
    intro u v huv hv h0
    rw [Measure.map_apply hpm measurableSet_Ioo, stationary_apply _ _ hf π hπ _ (hpm measurableSet_Ioo)] at h0
    have hmeas : Measurable fun z : Fin p → ℂ => gaussVec p {x | ulaStep delta G z (fun i => ((x i : ℝ) : ℂ)) ∈
        linPost mu w σ d A C ⁻¹' Set.Ioo u v} := by
      have hj : Measurable fun w : (Fin p → ℂ) × (Fin p → ℝ) => ulaStep delta G w.1 (fun i => ((w.2 i : ℝ) : ℂ)) := by
        refine hf.comp (measurable_fst.prodMk (measurable_pi_lambda _ fun i => Complex.measurable_ofReal.comp ?_))
        exact (measurable_pi_apply i).comp measurable_snd
      exact measurable_measure_prodMk_left (hj (hpm measurableSet_Ioo))
    rw [lintegral_eq_zero_iff hmeas] at h0
    obtain ⟨z, hz0, hz⟩ := (h0.and hre).exists
    obtain ⟨_, ⟨y, rfl⟩, hy⟩ := exists_lt_of_lt_csSup (Set.range_nonempty _) (lt_of_lt_of_le huv hv)
    obtain ⟨x, hx1, hx2⟩ := linPost_between hp hmu hw hinj y u v huv hy
    refine gaussVec_open p {x | ulaStep delta G z (fun i => ((x i : ℝ) : ℂ)) ∈ linPost mu w σ d A C ⁻¹' Set.Ioo u v}
      ?_ ⟨fun i => (x i - (z i + (delta : ℂ) * G z i).re) / √(2 * delta), ?_⟩ hz0
    · have hc : Continuous fun x : Fin p → ℝ => linPost mu w σ d A C (ulaStep delta G z (fun i => ((x i : ℝ) : ℂ))) := by
        refine linPost_continuous.comp ?_
        unfold ulaStep
        fun_prop
      exact isOpen_Ioo.preimage hc
    · have e : ulaStep delta G z (fun i => (((x i - (z i + (delta : ℂ) * G z i).re) / √(2 * delta) : ℝ) : ℂ)) =
          fun i => ((x i : ℝ) : ℂ) := by
        funext i
        have h2 : ((((z i + (delta : ℂ) * G z i).re : ℝ)) : ℂ) = z i + (delta : ℂ) * G z i :=
          Complex.ext (by simp) (by rw [Complex.ofReal_im, hG z hz i])
        simp only [ulaStep]
        rw [Complex.ofReal_div, Complex.ofReal_sub, h2, mul_div_cancel₀ _ hs']
        ring
      simp only [Set.mem_ofPred_eq, Set.mem_preimage, e]
      exact ⟨hx1, hx2⟩
  obtain ⟨a, h1, h2, h3, h4⟩ := quantile_exists_below _ hat (sSup S) hm hopen q hq0 hq1
  refine ⟨a, h1, fun x hx => lt_of_lt_of_le h2 (csSup_le (Set.range_nonempty _) ?_), h3, h4⟩
  rintro _ ⟨y, rfl⟩
  exact hx _

/-- For every level `alpha` there is exactly one threshold that `in_credible_region` meets with probability `1 - alpha` under `π`;
`credible_region_threshold` of the log-posteriors saved by MYULA runs converges to it almost surely; and no point of largest posterior is
accepted at this threshold. -/
def ThresholdConverges (M : Sampler n) (R : Rng) {Ω : Type} [MeasurableSpace Ω] (P : Measure Ω) (r : Ω → R.σ)
    (post : (Fin p → ℂ) → ℝ) (π : Measure (Fin p → ℂ)) : Prop :=
  ∀ alpha : ℝ, 0 < alpha → alpha < 1 → ∃ h : ℝ, (∀ h', π.real {z | inCredibleRegion (post z) h' = true} = 1 - alpha ↔ h' = h) ∧
    (∀ x, (∀ y, post y ≤ post x) → inCredibleRegion (post x) h = false) ∧
    ∀ x0 : Fin p → ℂ, (∀ i, (x0 i).im = 0) → ∀ (b gap : ℕ) (v : ℤ), v ≤ 0 → ∀ (track : List String), "logposterior" ∈ track →
      ∃ logpis : ℕ → Ω → List ℝ, (∀ N ω, (logpis N ω).length = N ∧ ∃ (fuel : ℕ) (st : St R),
        myulaRun (M.resched N b gap v track) R (initArrays (M.resched N b gap v track)) (r ω) (.array1 (List.ofFn x0)) fuel = .ok (some st) ∧
        ((initArrays (M.resched N b gap v track)).applyAll st.ev).logPi = some (logpis N ω)) ∧
      ∀ᵐ ω ∂P, ∃ thr : ℕ → ℝ, (∀ N : ℕ, 0 < N → credibleRegionThreshold (logpis N ω) alpha = .ok (thr N)) ∧ Tendsto thr atTop (𝓝 h)

/-- C154 for real samplers: under the conditions of C126 (a `proxf` that thresholds the coefficients `B x` of `x` in a frame with positive
thresholds; a linear operator that may be far from injective; `delta*(1/lmda + Lf) < 2`), with `mu > 0` and a prior that is a weighted
l1 norm of an injective linear map `C` (the parameters themselves for `L1`), the threshold of the credible region converges. -/
theorem C154_real (hp : 0 < p) (h : ThresholdModel M.F M.P σ A At B Bt T) 
    (hpri : ∀ x : Fin p → ℂ, M.P.prior (List.ofFn x) = .ok (∑ j, w j * ‖C x j‖)) (hinj : ∀ v, C v = 0 → v = 0)
    (hw : ∀ j, 0 < w j) (hσ : ∀ i, 0 < σ i) (hmu : 0 < M.par.mu) (hAr : ∀ x, (∀ i, (x i).im = 0) → ∀ i, (A x i).im = 0)
    (hBr : ∀ x, (∀ i, (x i).im = 0) → ∀ i, (B x i).im = 0) (hdr : ∀ i, (M.F.data.vals i).im = 0) (hn : M.nparams = p)
    (hreal : M.par.complex = false) (hl : 0 < M.par.lmda) (hδ : 0 < M.par.delta) (Lf : ℝ) (hL : 0 < Lf)
    (hup : ∀ v, misfit σ 0 (A v) ≤ Lf * Spec.distSq v 0) (hs : M.par.delta * (1 / M.par.lmda + Lf) < 2)
    (R : Rng) {Ω : Type} [MeasurableSpace Ω] (P : Measure Ω) [IsProbabilityMeasure P] (r : Ω → R.σ) (hr : NormalStream R p P r) :
    ∃ π : Measure (Fin p → ℂ), IsProbabilityMeasure π ∧ (∀ᵐ z ∂π, ∀ i, (z i).im = 0) ∧ StationaryLaw M R (normalLaw p) π ∧
      ThresholdConverges M R P r (fun x => -M.par.mu * ∑ j, w j * ‖C x j‖ - misfit σ M.F.data.vals (A x)) π := by
  have := normalLaw_prob (p := p)
  obtain ⟨π, hπ, hS, hst, -, -, hav⟩ := C126_real h hAr hBr hdr hn hreal hl hδ Lf hL hup hs R P r hr
  refine ⟨π, hπ, hS, hst, fun alpha ha0 ha1 => ?_⟩
  show ∃ hh : ℝ, (∀ h', π.real {z | inCredibleRegion (linPost M.par.mu w σ M.F.data.vals A C z) h' = true} = 1 - alpha ↔ h' = hh) ∧
    (∀ x, (∀ y, linPost M.par.mu w σ M.F.data.vals A C y ≤ linPost M.par.mu w σ M.F.data.vals A C x) →
      inCredibleRegion (linPost M.par.mu w σ M.F.data.vals A C x) hh = false) ∧ _
  set post := linPost M.par.mu w σ M.F.data.vals A C with hpost
  set grad : (Fin n → ℂ) → (Fin p → ℂ) := fun y => At (M.F.invcov.mulVec (y - M.F.data.vals)) with hgrad
  set prox : (Fin p → ℂ) → (Fin p → ℂ) := fun x => x + Bt ((fun j => softEntry (B x j) (T j)) - B x) with hprox
  set G := gradVec M.par.lmda A grad prox with hG
  have tot : Total M p A grad prox fun x => ∑ j, w j * ‖C x j‖ := ⟨hn, h.lin.fwd, h.lin.grad, h.proxf, hpri, hl.ne'⟩
  have hf := ulaStep_measurable M.par.delta (threshold_drift_continuous h.lin h.adj (fun j => (h.pos j).le) M.par.lmda)
  have hns : NoiseStream R M.par.complex p P r (normalLaw p) := by rw [hreal]; exact C99_normal_noise R P r hr
  have hfix := (stationary_iff_meas R tot hf P r _ hns π).mp hst
  have hGr : ∀ z, (∀ i, (z i).im = 0) → ∀ i, (z i + (M.par.delta : ℂ) * G z i).im = 0 := by
    intro z hz i
    have h1 : (grad (A z) i).im = 0 := by
      refine adjoint_real A At h.lin.adj hAr _ (fun j => ?_) i
      rw [h.invcov, Matrix.mulVec_diagonal, Complex.im_ofReal_mul, Pi.sub_apply, Complex.sub_im, hAr _ hz, hdr]
      simp
    have h2 : (prox z i).im = 0 := by
      simp only [hprox, Pi.add_apply, Complex.add_im, hz i, zero_add]
      refine adjoint_real B Bt h.adj hBr _ (fun j => ?_) i
      rw [Pi.sub_apply, Complex.sub_im, hBr _ hz j, softEntry_im _ _ (hBr _ hz j), sub_zero]
    simp only [hG, gradVec, Complex.add_im, Complex.im_ofReal_mul, Complex.sub_im, Complex.neg_im, Complex.div_ofReal_im, hz i, h1, h2]
    simp
  have hpm : Measurable post := linPost_continuous.measurable
  have := Measure.isProbabilityMeasure_map (μ := π) hpm.aemeasurable
  obtain ⟨hh, hq, hmax, hlow, hup'⟩ := linPost_quantile hp hmu hw hσ hinj M.par.delta hδ G hf hGr π hfix hS (d := M.F.data.vals) (A := A) (1 - alpha)
    (by linarith) (by linarith)
  have e : ∀ a, (π.map post).real (Set.Iic a) = π.real {z | inCredibleRegion (post z) a = true} := by
    intro a
    rw [map_measureReal_apply hpm measurableSet_Iic]
    congr 1
    ext z
    simp [inCredibleRegion]
  refine ⟨hh, fun h' => ⟨fun hh' => ?_, fun hh' => hh' ▸ (e hh).symm.trans hq⟩, fun x hx => ?_, ?_⟩
  · have h3 := (e h').trans hh'
    rcases lt_trichotomy h' hh with hlt | heq | hgt
    · exact absurd h3 (hlow h' hlt).ne
    · exact heq
    · exact absurd h3 (hup' h' hgt).ne'
  · have := hmax x hx
    simp [inCredibleRegion, hpost, this]
  intro x0 hx0 b gap v hv track hc
  set X : ℕ → Ω → Fin p → ℂ := fun k ω => iter (ulaStep M.par.delta G) (noiseSeq R M.par.complex p (r ω)) x0 k with hX
  have hXr : ∀ k ω i, (X k ω i).im = 0 := by
    intro k ω
    induction k with
    | zero => exact hx0
    | succ k ih =>
      intro i
      show (ulaStep M.par.delta G (X k ω) (noiseSeq R M.par.complex p (r ω) k) i).im = 0
      have h1 := hGr _ ih i
      have h2 : (noiseSeq R M.par.complex p (r ω) k i).im = 0 := by
        rw [hreal]
        exact Complex.ofReal_im _
      rw [ulaStep, Complex.add_im, h1, Complex.im_ofReal_mul, h2]
      simp
  have totN : ∀ N, ∀ tr : List String, Total (M.resched N b gap v tr) p A grad prox fun x => ∑ j, w j * ‖C x j‖ := fun N tr => ⟨hn, h.lin.fwd, h.lin.grad, h.proxf, hpri, hl.ne'⟩
  have hrun : ∀ (tr : List String) (N : ℕ) (ω : Ω), ∃ (fuel : ℕ) (st : St R),
      myulaRun (M.resched N b gap v tr) R (initArrays (M.resched N b gap v tr)) (r ω) (.array1 (List.ofFn x0)) fuel = .ok (some st) ∧
      (initArrays (M.resched N b gap v tr)).applyAll st.ev = (initArrays (M.resched N b gap v tr)).ofRows N fun k =>
        rowOf (M.resched N b gap v tr) A (fun x => ∑ j, w j * ‖C x j‖) (X (b + k * max gap 1 + 1) ω) := by
    intro tr N ω
    obtain ⟨-, st, h1, -, h2⟩ := C41_schedule (M.resched N b gap v tr) R (initArrays _) (initArrays_shaped _) (.inl hv) b gap rfl rfl
      (totN N tr) _ (fun x => gradlogpi_vec _ (totN N tr) x) (r ω) (r ω) (.array1 (List.ofFn x0)) x0 (start_array R (totN N tr) (r ω) x0) _ rfl
    exact ⟨_, st, h1 _ le_rfl, h2⟩
  refine ⟨fun N ω => List.ofFn fun k : Fin N => post (X (b + k * max gap 1 + 1) ω), fun N ω => ⟨List.length_ofFn, ?_⟩, ?_⟩
  · obtain ⟨fuel, st, h1, h2⟩ := hrun track N ω
    refine ⟨fuel, st, h1, ?_⟩
    rw [h2]
    obtain ⟨l, hl'⟩ : ∃ l, (initArrays (M.resched N b gap v track)).logPi = some l :=
      ⟨_, if_pos (e := (none : Option (List ℝ))) (show "logposterior" ∈ track from hc)⟩
    simp only [Arrays.ofRows, hl', Option.map_some, Option.some.injEq]
    refine List.ext_getElem (by simp) fun k hk hk' => ?_
    simp only [List.getElem_map, List.getElem_range, List.getElem_ofFn]
    show -M.par.mu * _ - (Spec.inner _ (M.F.invcov.mulVec _)).re = _
    rw [h.invcov, sum_diag]
    rfl
  · choose fuel st h1 h2 using hrun ["chain"]
    have hrows : ∀ N ω, ((initArrays (M.resched N b gap v ["chain"])).applyAll (st N ω).ev).chain =
        some (List.ofFn fun k : Fin N => List.ofFn (X (b + k * max gap 1 + 1) ω)) := by
      intro N ω
      rw [h2]
      obtain ⟨l, hl'⟩ : ∃ l, (initArrays (M.resched N b gap v ["chain"])).chain = some l :=
        ⟨_, if_pos (e := (none : Option (List (List ℂ)))) (show "chain" ∈ ["chain"] by simp)⟩
      simp only [Arrays.ofRows, hl', Option.map_some, Option.some.injEq]
      refine List.ext_getElem (by simp) fun k hk hk' => ?_
      simp only [List.getElem_map, List.getElem_range, List.getElem_ofFn]
      show (List.ofFn fun i => store M.par.complex (X (b + k * max gap 1 + 1) ω i)) = _
      congr 1
      funext i
      rw [hreal]
      exact Complex.ext (by simp [store]) (by simp [store, hXr])
    have hav' : ∀ u v : ℝ, u < v → ∀ᵐ ω ∂P, Tendsto (fun N : ℕ =>
        ((List.ofFn fun k : Fin N => post (X (b + k * max gap 1 + 1) ω)).map (ramp u v)).sum / N) atTop
        (𝓝 (∫ y, ramp u v y ∂(π.map post))) := by
      intro u v' huv
      obtain ⟨K, hK⟩ := ramp_linPost_lipschitz (d := M.F.data.vals) (A := A) (B := C) hmu.le (fun j => (hw j).le) hσ u v' huv
      have h3 := (hav x0 hx0 b gap v ["chain"] (fun N => initArrays (M.resched N b gap v ["chain"])) (fun N => initArrays_shaped _) fuel st h1
        (fun N ω k => X (b + k * max gap 1 + 1) ω) hrows (fun z => ramp u v' (post z)) K hK).1
      have e2 : ∫ z, ramp u v' (post fun i => store M.par.complex (z i)) ∂π = ∫ y, ramp u v' y ∂(π.map post) := by
        rw [integral_map hpm.aemeasurable (ramp_continuous u v').aestronglyMeasurable]
        refine integral_congr_ae ?_
        filter_upwards [hS] with z hz
        congr 2
        funext i
        rw [hreal]
        exact Complex.ext (by simp [store]) (by simp [store, hz i])
      rw [e2] at h3
      filter_upwards [h3] with ω hω
      simp only [List.map_ofFn, List.sum_ofFn]
      exact hω
    have hlt : ∀ m : ℕ, (1 : ℝ) / (m + 2) < 1 / (m + 1) := fun m => by
      have : (0 : ℝ) ≤ m := Nat.cast_nonneg m
      exact one_div_lt_one_div_of_lt (by linarith) (by linarith)
    have h6 := ae_all_iff.mpr fun m : ℕ => hav' (hh - 1 / ((m : ℝ) + 1)) (hh - 1 / ((m : ℝ) + 2)) (by linarith [hlt m])
    have h7 := ae_all_iff.mpr fun m : ℕ => hav' (hh + 1 / ((m : ℝ) + 2)) (hh + 1 / ((m : ℝ) + 1)) (by linarith [hlt m])
    filter_upwards [h6, h7] with ω h8 h9
    have h10 := quantile_tendsto (fun N => List.ofFn fun k : Fin N => post (X (b + k * max gap 1 + 1) ω)) (fun N => List.length_ofFn) _ hh
      (1 - alpha) (by linarith) (by linarith) hlow hup' h8 h9
    refine ⟨fun N => tele (ostat (List.ofFn fun k : Fin N => post (X (b + k * max gap 1 + 1) ω))) (N - 1) ((N - 1 : ℕ) * (1 - alpha)),
      fun N hN => ?_, ?_⟩
    · obtain ⟨m, rfl⟩ := Nat.exists_eq_succ_of_ne_zero hN.ne'
      exact npQuantile_real _ m (by simp) _ (by linarith) (by linarith)
    · rw [← tendsto_add_atTop_iff_nat 1]
      simpa using h10

/-- C154 from the constructors on, for path integrals: for every real path matrix `W` (there may be far fewer paths than pixels), every real
data vector, every threshold `t > 0`, every `mu > 0` and every `lmda > 0` there is a `delta0` such that with every step size below it all
constructors succeed and the threshold of the credible region converges. -/
theorem C154_path_integrals (hp : 0 < p) (W : Matrix (Fin n) (Fin p) ℂ) (hW : ∀ i j, (W i j).im = 0) (data : DataVec n) (hd : data.cplx = false)
    (hdr : ∀ i, (data.vals i).im = 0) (sig : SigD) (σ : Fin n → ℝ) (hσ : IsSigma n sig σ) (t : ℝ) (ht : 0 < t) (par : Params)
    (hl : 0 < par.lmda) (hmu : 0 < par.mu) (hreal : par.complex = false) :
    ∃ delta0, 0 < delta0 ∧ ∀ delta, 0 < delta → delta < delta0 → ∃ (F : ForwardOp n) (L : L1 ℂ) (M : Sampler n) (A : Arrays),
      ForwardOp.init data sig "synthesis" (some identityTransform) (some ⟨pathForward W, pathAdjoint W⟩) (some p) = .ok F ∧
      L1.init "synthesis" identityTransform.op identityTransform.adj (.scalar t) = .ok L ∧
      samplerInit F L.toPrior { par with delta := delta } = .ok (M, A) ∧
      ∀ (R : Rng) {Ω : Type} [MeasurableSpace Ω] (P : Measure Ω) [IsProbabilityMeasure P] (r : Ω → R.σ), NormalStream R p P r →
        ∃ π : Measure (Fin p → ℂ), IsProbabilityMeasure π ∧ (∀ᵐ z ∂π, ∀ i, (z i).im = 0) ∧ StationaryLaw M R (normalLaw p) π ∧
          ThresholdConverges M R P r (fun x => -par.mu * ∑ j, ‖x j‖ - misfit σ data.vals (W.mulVec x)) π := by
  have hpos : ∀ i, 0 < σ i := by
    cases hσ with
    | scalar s hs => intro _; exact hs
    | vector s hs => exact hs
  obtain ⟨V, hV, -, rfl⟩ := C35_diagonal data hd sig σ hσ
  set F : ForwardOp n := ⟨data, Matrix.diagonal fun i => ((1 / σ i ^ 2 : ℝ) : ℂ), .synthesis, some identityTransform,
    some ⟨pathForward W, pathAdjoint W⟩, some p⟩ with hFdef
  have hF : ForwardOp.init data sig "synthesis" (some identityTransform) (some ⟨pathForward W, pathAdjoint W⟩) (some p) = .ok F := by
    unfold ForwardOp.init
    rw [hV]
    rfl
  have hA : LinModel F ((Matrix.mulVecLin W).comp LinearMap.id) fun y => (fun z => z) (Matrix.mulVec W.conjTranspose y) :=
    linModel_synthesis F rfl (Matrix.mulVecLin W) (Matrix.mulVec W.conjTranspose) (pathIntegral_linearOps F W rfl)
      (LinearMap.id : (Fin p → ℂ) →ₗ[ℂ] (Fin p → ℂ)) (fun y => y) ⟨⟨identityTransform, rfl, fun x => rfl, fun x => rfl⟩, fun x y => rfl⟩
  obtain ⟨Lf, hL, hup⟩ := misfit_bounded σ ((Matrix.mulVecLin W).comp LinearMap.id)
  have hsum : 0 < 1 / par.lmda + Lf := by positivity
  refine ⟨2 / (1 / par.lmda + Lf), by positivity, fun delta hδ hδlt => ?_⟩
  have hmod := C126_l1_synthesis data hd sig hσ "synthesis" _ _ _ hF hA identityTransform.op identityTransform.adj t ht
    ⟨.synthesis, identityTransform.op, identityTransform.adj, .scalar t⟩ rfl
  refine ⟨F, _, ⟨F, _, { par with delta := delta }, p⟩, _, hF, rfl, rfl, fun R Ω _ P _ r hr => ?_⟩
  have hWr : ∀ x : Fin p → ℂ, (∀ i, (x i).im = 0) → ∀ i, (((Matrix.mulVecLin W).comp LinearMap.id) x i).im = 0 := by
    intro x hx i
    show (∑ j, W i j * x j).im = 0
    rw [Complex.im_sum]
    refine Finset.sum_eq_zero fun j _ => ?_
    rw [Complex.mul_im, hW, hx]
    simp
  have hstep : delta * (1 / par.lmda + Lf) < 2 := by rwa [lt_div_iff₀ hsum] at hδlt
  have hprior : ∀ x : Fin p → ℂ, (L1.toPrior ⟨.synthesis, identityTransform.op, identityTransform.adj, .scalar t⟩).prior (List.ofFn x) =
      .ok (∑ j, (fun _ => (1 : ℝ)) j * ‖(LinearMap.id : (Fin p → ℂ) →ₗ[ℂ] (Fin p → ℂ)) x j‖) := by
    intro x
    show Except.ok (((List.ofFn x).map fun x => ‖x‖).sum) = _
    rw [List.map_ofFn, List.sum_ofFn]
    simp
  obtain ⟨π, h1, h2, h3, h4⟩ := C154_real (M := ⟨F, _, { par with delta := delta }, p⟩) hp hmod hprior
    (fun v hv => hv) (fun _ => one_pos) hpos hmu hWr (fun x hx => hx) hdr rfl hreal hl hδ Lf hL hup hstep R P r hr
  refine ⟨π, h1, h2, h3, ?_⟩
  have e : (fun x : Fin p → ℂ => -par.mu * ∑ j, ‖x j‖ - misfit σ data.vals (W.mulVec x)) =
      fun x => -par.mu * ∑ j, 1 * ‖(LinearMap.id : (Fin p → ℂ) →ₗ[ℂ] (Fin p → ℂ)) x j‖ -
        misfit σ data.vals (((Matrix.mulVecLin W).comp LinearMap.id) x) := by
    funext x
    simp
  rw [e]
  exact h4

/-- The hypotheses of C154 are met by two paths through four pixels: two directions are not seen by the data. -/
example : ∃ (W : Matrix (Fin 2) (Fin 4) ℂ) (data : DataVec 2) (sig : SigD) (σ : Fin 2 → ℝ) (par : Params), (∀ i j, (W i j).im = 0) ∧
    data.cplx = false ∧ (∀ i, (data.vals i).im = 0) ∧ IsSigma 2 sig σ ∧ 0 < par.lmda ∧ 0 < par.mu ∧ par.complex = false ∧
    (∃ v, v ≠ 0 ∧ W.mulVec v = 0) ∧
    NormalStream (vecRng 4) 4 (Measure.infinitePi fun _ : ℕ => Measure.pi fun _ : Fin 4 => gaussianReal 0 1) fun ω => ω := by
  refine ⟨!![1, 1, 0, 0; 0, 1, 1, 0], ⟨false, fun _ => 4⟩, .num ((1 / 10 : ℝ) : ℂ) false, fun _ => 1 / 10,
    ⟨3 / 100000, 1 / 100000, 1, 5, 100, 10, 5, false, 0, ["logposterior"]⟩, fun i j => ?_, rfl, fun _ => by simp, .scalar _ (by norm_num),
    by norm_num, by norm_num, rfl, ⟨![0, 0, 0, 1], ?_, ?_⟩, vecRng_normal⟩
  · fin_cases i <;> fin_cases j <;> simp
  · intro h
    have := congrFun h 3
    simp at this
  · funext i
    fin_cases i <;> simp [Matrix.mulVec, dotProduct, Fin.sum_univ_four]

end Pxmcmc
