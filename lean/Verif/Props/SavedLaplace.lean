import Verif.Props.SavedBias
import Verif.Props.MalaInvariance
import Verif.Lemmas.LaplaceWalk

/-! # Property C135, refutation: PxMALA's saved samples do not have the law its iterations keep -/

namespace Pxmcmc
open MeasureTheory ProbabilityTheory Filter
open scoped ENNReal Topology

section General
variable {n p : ℕ} {M : Sampler n} {fwd : (Fin p → ℂ) → (Fin n → ℂ)} {grad : (Fin n → ℂ) → (Fin p → ℂ)}
    {prox : (Fin p → ℂ) → (Fin p → ℂ)} {pri : (Fin p → ℂ) → ℝ}

/-- Means over the accepted proposals. -/
theorem acc_mean (hf : Measurable fwd) (hgr : Measurable grad) (hp : Measurable prox) (hq : Measurable pri) (delta : ℝ)
    (ν : Measure (Fin p → ℂ)) [IsProbabilityMeasure ν] (φ : (Fin p → ℂ) → ℝ≥0∞) (hφ : Measurable φ) (x : Fin p → ℂ) :
    accF (ν.prod uniformLaw) (iterMap M fwd grad prox pri delta) (accSet M fwd grad prox pri delta) φ x =
      ∫⁻ w, ENNReal.ofReal (min 1 (Real.exp
        (logAlphaVec M fwd grad prox pri delta x (ulaStep delta (gradVec M.par.lmda fwd grad prox) x w)).re)) *
        φ (ulaStep delta (gradVec M.par.lmda fwd grad prox) x w) ∂ν := by
  classical
  have hfm := iterMap_meas (M := M) hf hgr hp hq delta
  have hAm := accSet_meas (M := M) hf hgr hp hq delta
  unfold accF
  have hm : Measurable fun v => (accSet M fwd grad prox pri delta).indicator
      (fun q => φ (iterMap M fwd grad prox pri delta q.1 q.2)) (x, v) :=
    ((hφ.comp hfm).indicator hAm).comp measurable_prodMk_left
  rw [lintegral_prod _ hm.aemeasurable]
  refine lintegral_congr fun w => ?_
  have hS : MeasurableSet {u : ℝ | (x, (w, u)) ∈ accSet M fwd grad prox pri delta} := measurable_prodMk_left (measurable_prodMk_left hAm)
  have e : ∀ u, (accSet M fwd grad prox pri delta).indicator (fun q => φ (iterMap M fwd grad prox pri delta q.1 q.2)) (x, (w, u)) =
      Set.indicator {u : ℝ | (x, (w, u)) ∈ accSet M fwd grad prox pri delta}
        (fun _ => φ (ulaStep delta (gradVec M.par.lmda fwd grad prox) x w)) u := by
    intro u
    by_cases hu : (x, (w, u)) ∈ accSet M fwd grad prox pri delta
    · rw [Set.indicator_of_mem hu, Set.indicator_of_mem (show u ∈ {u : ℝ | (x, (w, u)) ∈ accSet M fwd grad prox pri delta} from hu), iterMap_eq,
        if_pos hu]
    · rw [Set.indicator_of_notMem hu, Set.indicator_of_notMem (show u ∉ {u : ℝ | (x, (w, u)) ∈ accSet M fwd grad prox pri delta} from hu)]
  rw [lintegral_congr e, lintegral_indicator_const hS, mul_comm, ← C52_probability, uniformLaw, Measure.restrict_apply hS, Set.inter_comm]
  rfl

/-- A chain keeps a law if its accepted steps balance. -/
theorem keeps_of_balance {E V : Type} [MeasurableSpace E] [MeasurableSpace V] {κ : Measure V} [IsProbabilityMeasure κ] {f : E → V → E}
    {A : Set (E × V)} {ρ : Measure E} [IsProbabilityMeasure ρ] (hf : Measurable (Function.uncurry f)) (hA : MeasurableSet A)
    (hrej : ∀ s v, (s, v) ∉ A → f s v = s)
    (h : ∀ φ : E → ℝ≥0∞, Measurable φ → ∫⁻ x, accF κ f A φ x ∂ρ = ∫⁻ x, φ x * accW κ A x ∂ρ) : stepLaw f κ ρ = ρ := by
  ext S hS
  have hφ : Measurable (S.indicator (1 : E → ℝ≥0∞)) := measurable_one.indicator hS
  rw [← lintegral_indicator_one hS, ← lintegral_indicator_one hS, stepLaw_integral hf ρ hφ]
  have e : ∀ x, ∫⁻ v, S.indicator 1 (f x v) ∂κ = accF κ f A (S.indicator 1) x + S.indicator 1 x * κ {v | (x, v) ∉ A} := by
    intro x
    rw [← rej_eq hA hrej, accF_add hf hA hφ]
    rfl
  have hmc : Measurable fun x => κ {v | (x, v) ∉ A} := measurable_measure_prodMk_left hA.compl
  rw [lintegral_congr e, lintegral_add_left (accF_meas hf hA hφ), h _ hφ, ← lintegral_add_left (show Measurable fun x => S.indicator 1 x * accW κ A x from hφ.mul (accW_meas hA))]
  refine lintegral_congr fun x => ?_
  rw [← mul_add]
  have : accW κ A x + κ {v | (x, v) ∉ A} = 1 := prob_add_prob_compl (measurable_prodMk_left hA)
  rw [this, mul_one]

theorem cast_meas : Measurable fun (x : Fin p → ℝ) (i : Fin p) => ((x i : ℝ) : ℂ) := by fun_prop

/-- An untuned iteration from an array, as the code runs it. -/
theorem iter_run (R : Rng) (tot : Total M p fwd grad prox pri) (hns : 0 < M.par.nsamples) (delta : ℝ) (A0 : Arrays)
    (hA : A0.Shaped M.par.nsamples) (r : R.σ) (x : Fin p → ℂ) (st st' : MalaSt R)
    (h0 : malaInit M R delta r (.array1 (List.ofFn x)) = .ok st) (h1 : malaBody M R false A0 st = .ok st') :
    st'.cur.X = List.ofFn (iterMap M fwd grad prox pri delta x ((drawVec R R.randn M.par.complex r p).1,
      (R.rand (drawVec R R.randn M.par.complex r p).2).1)) := by
  classical
  rw [init_vec M R tot delta r r _ x (start_array R tot r x)] at h0
  obtain rfl := Except.ok.inj h0
  have hcore := coreStep_vec M R tot (⟨0, cacheOf M fwd grad prox pri x, r, delta, [], [delta]⟩ : Core R) x rfl _ rfl _ rfl
    ((x, ((drawVec R R.randn M.par.complex r p).1, (R.rand (drawVec R R.randn M.par.complex r p).2).1)) ∈ accSet M fwd grad prox pri delta) Iff.rfl
  obtain ⟨st2, h2, h3⟩ := malaBody_total M R false A0 hA (⟨0, 0, cacheOf M fwd grad prox pri x, r, delta, [], [delta], []⟩ : MalaSt R) _ hcore hns
    (by simp only; split <;> simp [cacheOf, tot.nparams]) (by simp only; split <;> simp [cacheOf])
  rw [h2] at h1
  obtain rfl := Except.ok.inj h1
  have h4 : st2.cur = (st2.core).cur := rfl
  rw [h4, h3, iterMap_eq]
  by_cases h : (x, ((drawVec R R.randn M.par.complex r p).1, (R.rand (drawVec R R.randn M.par.complex r p).2).1)) ∈
      accSet M fwd grad prox pri delta
  · simp only [if_pos h]
    rfl
  · simp only [if_neg h]
    rfl

/-- What `KeepsLaw` says about the code: PxMALA leaves the law invariant. -/
theorem KeepsLaw.invariant (tot : Total M p fwd grad prox pri) (hf : Measurable fwd) (hgr : Measurable grad) (hp : Measurable prox)
    (hq : Measurable pri) (hns : 0 < M.par.nsamples) (hc : M.par.complex = false) (delta : ℝ) (π : Measure (Fin p → ℝ)) [IsProbabilityMeasure π]
    (hk : KeepsLaw M fwd grad prox pri delta (normalLaw p) (π.map fun x i => ((x i : ℝ) : ℂ))) : MalaInvariant M delta π := by
  intro R A0 Ω _ P x y r hA hm hlaw hrun
  set T : (Fin p → ℝ) × ((Fin p → ℝ) × ℝ) → (Fin p → ℂ) × ((Fin p → ℂ) × ℝ) :=
    Prod.map (fun x i => ((x i : ℝ) : ℂ)) (Prod.map (fun x i => ((x i : ℝ) : ℂ)) id) with hT
  have hTm : Measurable T := cast_meas.prodMap (cast_meas.prodMap measurable_id)
  have hfm := iterMap_meas (M := M) hf hgr hp hq delta
  have hre : Measurable fun (z : Fin p → ℂ) (i : Fin p) => (z i).re := by fun_prop
  set Q : Ω → (Fin p → ℝ) × ((Fin p → ℝ) × ℝ) := fun ω => (x ω, (R.randn (r ω) p).1, (R.rand (R.randn (r ω) p).2).1) with hQ
  have hy : y = fun ω => (fun z : Fin p → ℂ => fun i => (z i).re) (Function.uncurry (iterMap M fwd grad prox pri delta) (T (Q ω))) := by
    funext ω
    obtain ⟨st, st', h0, h1, h2⟩ := hrun ω
    have h3 := iter_run R tot hns delta A0 hA (r ω) (fun i => ((x ω i : ℝ) : ℂ)) st st' h0 h1
    rw [h2] at h3
    have h4 := List.ofFn_injective h3
    have h5 : Function.uncurry (iterMap M fwd grad prox pri delta) (T (Q ω)) = fun i => ((y ω i : ℝ) : ℂ) := by
      rw [h4, hc]
      rfl
    rw [h5]
    simp
  have e1 : (P.map Q).map T = (π.map fun x i => ((x i : ℝ) : ℂ)).prod ((normalLaw p).prod uniformLaw) := by
    rw [hlaw, hT]
    have h6 : ((Measure.pi fun _ : Fin p => gaussianReal 0 1).prod (volume.restrict (Set.Ico (0 : ℝ) 1))).map
        (Prod.map (fun (x : Fin p → ℝ) i => ((x i : ℝ) : ℂ)) id) = (normalLaw p).prod uniformLaw := by
      have h4 := Measure.map_prod_map (Measure.pi fun _ : Fin p => gaussianReal 0 1) uniformLaw cast_meas measurable_id
      rw [Measure.map_id] at h4
      exact h4.symm
    rw [← h6]
    have : IsProbabilityMeasure (volume.restrict (Set.Ico (0 : ℝ) 1)) := inferInstanceAs (IsProbabilityMeasure uniformLaw)
    exact (Measure.map_prod_map π _ cast_meas (cast_meas.prodMap measurable_id)).symm
  have e2 : P.map y = ((((P.map Q).map T).map (Function.uncurry (iterMap M fwd grad prox pri delta))).map fun z i => (z i).re) := by
    rw [Measure.map_map hTm hm, Measure.map_map hfm (hTm.comp hm), Measure.map_map hre (hfm.comp (hTm.comp hm)), hy]
    rfl
  have e3 : ((π.map fun x i => ((x i : ℝ) : ℂ)).prod ((normalLaw p).prod uniformLaw)).map (Function.uncurry (iterMap M fwd grad prox pri delta)) =
      π.map fun x i => ((x i : ℝ) : ℂ) := hk
  rw [e2, e1, e3, Measure.map_map hre cast_meas]
  have : ((fun (z : Fin p → ℂ) i => (z i).re) ∘ fun (x : Fin p → ℝ) i => ((x i : ℝ) : ℂ)) = id := by
    funext x i
    simp
  rw [this, Measure.map_id]

/-- The rows of a returned run. -/
theorem mala_rows_exist (R : Rng) (tot : Total M p fwd grad prox pri) (delta : ℝ) (A0 : Arrays) (hA : A0.Shaped M.par.nsamples)
    (l : List (List ℂ)) (hl : A0.chain = some l) (b g : ℕ)
    (hb : M.par.nburn = b) (hg : M.par.ngap = g) (r r1 : R.σ) (sp : StartPoint) (x0 : Fin p → ℂ)
    (hstart : initialSample M R r sp = .ok (List.ofFn x0, List.ofFn (fwd x0), r1)) (fuel : ℕ) (st : MalaSt R)
    (hrun : malaRun M R false delta A0 r sp fuel = .ok (some st)) :
    ∃ rows : Fin M.par.nsamples → Fin p → ℂ,
      (A0.applyAll st.ev).chain = some (List.ofFn fun k : Fin M.par.nsamples => List.ofFn (rows k)) := by
  have hinit := init_vec M R tot delta r r1 sp x0 hstart
  obtain ⟨s0, T, h0, -, -, -, -, -, harr, -⟩ := malaRun_result M R false delta A0 hA b hb r sp fuel st hrun
  have hch : ∃ l', (A0.applyAll st.ev).chain = some l' ∧ l'.length = M.par.nsamples := by
    rw [harr]
    simp only [Arrays.ofRows, hl, Option.map_some]
    exact ⟨_, rfl, by simp⟩
  obtain ⟨l', hl', hlen⟩ := hch
  have hrow : ∀ k : Fin M.par.nsamples, ∃ z : Fin p → ℂ, l'[(k : ℕ)]? = some (List.ofFn z) := by
    intro k
    obtain ⟨t, ht, s, hs, -, hr⟩ := C49_accepted_states_partial M R false delta A0 hA b g hb hg r sp fuel st _ hinit hrun k k.2
    obtain ⟨hcur, -⟩ := mala_follows_cur R tot false A0 delta x0 r1 _ rfl (t + 1) s hs
    have hch := hr.chain _ (by rw [hl']; rfl)
    rw [hcur] at hch
    simp only [cacheOf] at hch
    rw [mkRow_vec M tot.nparams] at hch
    exact ⟨_, hch⟩
  choose z hz using hrow
  refine ⟨z, ?_⟩
  rw [hl']
  congr 1
  refine List.ext_getElem (by simp [hlen]) fun k hk hk' => ?_
  have hk2 : k < M.par.nsamples := by rwa [hlen] at hk
  have := hz ⟨k, hk2⟩
  rw [List.getElem?_eq_getElem hk] at this
  rw [List.getElem_ofFn]
  exact Option.some.inj this

/-- Independent draws give runs that return with probability one, with their rows. -/
theorem MalaRuns.exist (R : Rng) (tot : Total M p fwd grad prox pri) (hf : Measurable fwd) (hgr : Measurable grad) (hp : Measurable prox)
    (hq : Measurable pri) (hc : "chain" ∈ M.par.track) (b g : ℕ) (hb : M.par.nburn = b) (hg : M.par.ngap = g)
    (delta : ℝ) {Ω : Type} [MeasurableSpace Ω] (P : Measure Ω) [IsProbabilityMeasure P] (r r1 : Ω → R.σ) (sp : StartPoint)
    (x0 : Ω → Fin p → ℂ) (hstart : ∀ ω, initialSample M R (r ω) sp = .ok (List.ofFn (x0 ω), List.ofFn (fwd (x0 ω)), r1 ω))
    (ν : Measure (Fin p → ℂ)) [IsProbabilityMeasure ν] (hs : MalaStream R M.par.complex p P x0 r1 ν) :
    ∃ (fuel : Ω → ℕ) (st : Ω → MalaSt R) (rows : Ω → Fin M.par.nsamples → Fin p → ℂ),
      MalaRuns M R fwd delta (initArrays M) b g P r r1 (fun _ => sp) x0 ν fuel st rows := by
  classical
  have h := C119_untuned R tot hf hgr hp hq _ (initArrays_shaped M) b g hb hg delta P r r1 sp x0 hstart ν hs
  obtain ⟨l, hl⟩ : ∃ l, (initArrays M).chain = some l := ⟨_, if_pos (e := (none : Option (List (List ℂ)))) hc⟩
  have hne : Nonempty (MalaSt R) := by
    obtain ⟨ω, fuel, st, -⟩ := h.exists
    exact ⟨st⟩
  have hex : ∀ ω, ∃ (fuel : ℕ) (st : MalaSt R) (rows : Fin M.par.nsamples → Fin p → ℂ),
      (∃ fuel st, malaRun M R false delta (initArrays M) (r ω) sp fuel = .ok (some st)) →
      malaRun M R false delta (initArrays M) (r ω) sp fuel = .ok (some st) ∧
      ((initArrays M).applyAll st.ev).chain = some (List.ofFn fun k : Fin M.par.nsamples => List.ofFn (rows k)) := by
    intro ω
    by_cases hω : ∃ fuel st, malaRun M R false delta (initArrays M) (r ω) sp fuel = .ok (some st)
    · obtain ⟨fuel, st, hrun⟩ := hω
      obtain ⟨rows, hrows⟩ := mala_rows_exist R tot delta _ (initArrays_shaped M) l hl b g hb hg (r ω) (r1 ω) sp (x0 ω) (hstart ω) fuel st hrun
      exact ⟨fuel, st, rows, fun _ => ⟨hrun, hrows⟩⟩
    · exact ⟨0, Classical.choice hne, fun _ _ => 0, fun h => absurd h hω⟩
  choose fuel st rows hrr using hex
  refine ⟨fuel, st, rows, initArrays_shaped M, hb, hg, hstart, hs, ?_, ?_⟩
  · filter_upwards [h] with ω hω
    exact (hrr ω hω).1
  · filter_upwards [h] with ω hω
    exact (hrr ω hω).2

end General

/-! ## A parameter that no path crosses -/

theorem soft_zero (z : ℂ) : softEntry z 0 = z := by
  by_cases hz : z = 0
  · subst hz
    simp [softEntry]
  · have : ‖z‖ ≠ 0 := norm_ne_zero_iff.mpr hz
    have h0 : ¬ ‖z‖ ≤ 0 := by rw [norm_le_zero_iff]; exact hz
    simp only [softEntry, signEntry, h0, if_false, this, sub_zero]
    field_simp
    exact div_self (RCLike.ofReal_ne_zero.mpr this)

variable {n : ℕ}

theorem walk_total (data : DataVec n) (hd : data.cplx = false) (sig : SigD) (σ : Fin n → ℝ) (hσ : IsSigma n sig σ) :
    ∃ (F : ForwardOp n) (L : L1 ℂ),
      ForwardOp.init data sig "synthesis" (some identityTransform) (some ⟨pathForward (0 : Matrix (Fin n) (Fin 1) ℂ), pathAdjoint (0 : Matrix (Fin n) (Fin 1) ℂ)⟩) (some 1) =
        .ok F ∧
      L1.init "synthesis" identityTransform.op identityTransform.adj (.scalar 0) = .ok L ∧ F.nparams = some 1 ∧
      ∀ par : Params, par.lmda ≠ 0 → Total ⟨F, L.toPrior, par, 1⟩ 1 (fun _ => 0) (fun _ => 0) (fun x => x) (fun x => ∑ i, ‖x i‖) := by
  obtain ⟨V, hV, -, rfl⟩ := C35_diagonal data hd sig σ hσ
  set F : ForwardOp n := ⟨data, Matrix.diagonal fun i => ((1 / σ i ^ 2 : ℝ) : ℂ), .synthesis, some identityTransform,
    some ⟨pathForward (0 : Matrix (Fin n) (Fin 1) ℂ), pathAdjoint (0 : Matrix (Fin n) (Fin 1) ℂ)⟩, some 1⟩ with hFdef
  have hF : ForwardOp.init data sig "synthesis" (some identityTransform)
      (some ⟨pathForward (0 : Matrix (Fin n) (Fin 1) ℂ), pathAdjoint (0 : Matrix (Fin n) (Fin 1) ℂ)⟩) (some 1) = .ok F := by
    unfold ForwardOp.init
    rw [hV]
    rfl
  have hA : LinModel F ((Matrix.mulVecLin 0).comp LinearMap.id)
      fun y => (fun z => z) (Matrix.mulVec (0 : Matrix (Fin n) (Fin 1) ℂ).conjTranspose y) :=
    linModel_synthesis F rfl (Matrix.mulVecLin 0) (Matrix.mulVec (0 : Matrix (Fin n) (Fin 1) ℂ).conjTranspose)
      (pathIntegral_linearOps F 0 rfl) (LinearMap.id : (Fin 1 → ℂ) →ₗ[ℂ] (Fin 1 → ℂ)) (fun y => y)
      ⟨⟨identityTransform, rfl, fun x => rfl, fun x => rfl⟩, fun x y => rfl⟩
  refine ⟨F, ⟨.synthesis, identityTransform.op, identityTransform.adj, .scalar 0⟩, hF, rfl, rfl,
    fun par hl => ⟨rfl, fun x => ?_, fun y => ?_, fun x => ?_, fun x => ?_, hl⟩⟩
  · have := hA.fwd x
    simpa using this
  · have := hA.grad y
    simpa using this
  · refine (soft_scalar x 0).trans ?_
    simp only [soft_zero]
  · show Except.ok _ = _
    rw [L1.prior, norm_sum_ofFn]

section Walk
variable {M : Sampler n}

theorem walk_grad : gradVec (n := n) M.par.lmda (fun _ : Fin 1 → ℂ => 0) (fun _ => 0) (fun x => x) = fun _ _ => 0 := by
  funext x i
  simp [gradVec]

theorem walk_alpha (delta : ℝ) (x y : Fin 1 → ℂ) :
    logAlphaVec M (fun _ : Fin 1 → ℂ => 0) (fun _ => 0) (fun x => x) (fun x => ∑ i, ‖x i‖) delta x y =
      ((M.par.mu * (‖x 0‖ - ‖y 0‖) : ℝ) : ℂ) := by
  have hm : misfitOf M (fun _ : Fin 1 → ℂ => 0) y = misfitOf M (fun _ : Fin 1 → ℂ => 0) x := rfl
  simp only [logAlphaVec, walk_grad, logtransVec, cacheOf, hm, Finset.univ_unique, Finset.sum_singleton, Fin.default_eq_zero]
  push_cast
  ring

theorem walk_step (delta : ℝ) (x w : ℝ) : ulaStep delta (gradVec (n := n) M.par.lmda (fun _ : Fin 1 → ℂ => 0) (fun _ => 0) (fun x => x))
    (fun _ => (x : ℂ)) (fun _ => (w : ℂ)) = fun _ => ((x + √(2 * delta) * w : ℝ) : ℂ) := by
  rw [walk_grad]
  funext i
  simp [ulaStep]

theorem normal_one : normalLaw 1 = (gaussianReal 0 1).map fun (x : ℝ) (_ : Fin 1) => (x : ℂ) := by
  have h := (measurePreserving_eval (fun _ : Fin 1 => gaussianReal 0 1) 0).map_eq
  have hm : Measurable fun (x : ℝ) (_ : Fin 1) => (x : ℂ) := by fun_prop
  rw [← h, Measure.map_map hm (measurable_pi_apply 0), normalLaw]
  congr 1
  funext x i
  rw [Subsingleton.elim i 0]
  rfl

theorem single_meas : Measurable fun (x : ℝ) (_ : Fin 1) => (x : ℂ) := by fun_prop

theorem pri_meas : Measurable fun x : Fin 1 → ℂ => ∑ i, ‖x i‖ := by fun_prop

instance : IsProbabilityMeasure (normalLaw 1) := by
  rw [normal_one]
  exact Measure.isProbabilityMeasure_map single_meas.aemeasurable

/-- The acceptance probability at a real number. -/
theorem walk_prob (delta x : ℝ) :
    acceptProb M (fun _ : Fin 1 → ℂ => 0) (fun _ => 0) (fun x => x) (fun x => ∑ i, ‖x i‖) delta (normalLaw 1) (fun _ => (x : ℂ)) =
      ∫⁻ w, walkAcc M.par.mu √(2 * delta) x w ∂(gaussianReal 0 1) := by
  have hm : Measurable fun w : Fin 1 → ℂ => ENNReal.ofReal (min 1 (Real.exp (logAlphaVec M (fun _ : Fin 1 → ℂ => 0) (fun _ => 0) (fun x => x)
      (fun x => ∑ i, ‖x i‖) delta (fun _ => (x : ℂ)) (ulaStep delta (gradVec (n := n) M.par.lmda (fun _ : Fin 1 → ℂ => 0) (fun _ => 0) (fun x => x))
        (fun _ => (x : ℂ)) w)).re)) := by
    simp only [walk_alpha, walk_grad, ulaStep]
    fun_prop
  unfold acceptProb
  rw [normal_one, lintegral_map hm single_meas]
  refine lintegral_congr fun w => ?_
  rw [walk_step, walk_alpha]
  unfold walkAcc
  simp only [Complex.ofReal_re, Complex.norm_real, Real.norm_eq_abs]

/-- The Laplace law as a law of arrays of length one. -/
noncomputable def laplaceRow (m : ℝ) : Measure (Fin 1 → ℂ) := (laplaceLaw m).map fun (x : ℝ) _ => (x : ℂ)

theorem laplace_pi {m : ℝ} (hm : 0 < m) : (Measure.pi fun _ : Fin 1 => laplaceLaw m).map (fun x i => ((x i : ℝ) : ℂ)) = laplaceRow m := by
  have hprob := laplaceLaw_prob hm
  have h := (measurePreserving_eval (fun _ : Fin 1 => laplaceLaw m) 0).map_eq
  have h2 : laplaceRow m = ((Measure.pi fun _ : Fin 1 => laplaceLaw m).map (Function.eval 0)).map fun (x : ℝ) _ => (x : ℂ) := by
    rw [h]
    rfl
  rw [h2, Measure.map_map single_meas (measurable_pi_apply 0)]
  congr 1
  funext x i
  rw [Subsingleton.elim i 0]
  rfl

/-- An iteration keeps the Laplace law. -/
theorem walk_keeps (hmu : 0 < M.par.mu) (delta : ℝ) :
    KeepsLaw M (fun _ : Fin 1 → ℂ => 0) (fun _ => 0) (fun x => x) (fun x => ∑ i, ‖x i‖) delta (normalLaw 1) (laplaceRow M.par.mu) := by
  have hL := laplaceLaw_prob hmu
  have hR : IsProbabilityMeasure (laplaceRow M.par.mu) := Measure.isProbabilityMeasure_map single_meas.aemeasurable
  have c1 : Measurable fun _ : Fin 1 → ℂ => (0 : Fin n → ℂ) := measurable_const
  have c2 : Measurable fun _ : Fin n → ℂ => (0 : Fin 1 → ℂ) := measurable_const
  have c3 : Measurable fun x : Fin 1 → ℂ => x := measurable_id
  have c4 := pri_meas
  have hfm := iterMap_meas (M := M) c1 c2 c3 c4 delta
  have hAm := accSet_meas (M := M) c1 c2 c3 c4 delta
  refine keeps_of_balance hfm hAm (iterMap_rej delta) fun φ hφ => ?_
  have hW : ∀ x, accW ((normalLaw 1).prod uniformLaw) (accSet M (fun _ : Fin 1 → ℂ => 0) (fun _ => 0) (fun x => x) (fun x => ∑ i, ‖x i‖) delta) x =
      acceptProb M (fun _ : Fin 1 → ℂ => 0) (fun _ => 0) (fun x => x) (fun x => ∑ i, ‖x i‖) delta (normalLaw 1) x :=
    fun x => acceptProb_eq c1 c2 c3 c4 delta (normalLaw 1) x
  have hψ : Measurable fun x : ℝ => φ fun _ => (x : ℂ) := hφ.comp single_meas
  rw [laplaceRow, lintegral_map (accF_meas hfm hAm hφ) single_meas, lintegral_map
    (f := fun x => φ x * accW ((normalLaw 1).prod uniformLaw)
      (accSet M (fun _ : Fin 1 → ℂ => 0) (fun _ => 0) (fun x => x) (fun x => ∑ i, ‖x i‖) delta) x) (hφ.mul (accW_meas hAm)) single_meas]
  have h := walk_reversible M.par.mu √(2 * delta) (fun x => φ fun _ => (x : ℂ)) hψ
  refine Eq.trans (lintegral_congr fun x => ?_) (h.trans (lintegral_congr fun x => ?_))
  · rw [acc_mean c1 c2 c3 c4 delta _ φ hφ]
    have hm : Measurable fun w : Fin 1 → ℂ => ENNReal.ofReal (min 1 (Real.exp (logAlphaVec M (fun _ : Fin 1 → ℂ => 0) (fun _ => 0) (fun x => x)
      (fun x => ∑ i, ‖x i‖) delta (fun _ => (x : ℂ)) (ulaStep delta (gradVec (n := n) M.par.lmda (fun _ : Fin 1 → ℂ => 0) (fun _ => 0) (fun x => x))
        (fun _ => (x : ℂ)) w)).re)) * φ (ulaStep delta (gradVec (n := n) M.par.lmda (fun _ : Fin 1 → ℂ => 0) (fun _ => 0) (fun x => x))
        (fun _ => (x : ℂ)) w) := by
      simp only [walk_alpha, walk_grad, ulaStep]
      refine Measurable.mul (by fun_prop) (hφ.comp (measurable_pi_iff.mpr fun i => ?_))
      simp only [ulaStep]
      fun_prop
    rw [normal_one, lintegral_map hm single_meas]
    refine lintegral_congr fun w => ?_
    rw [walk_step, walk_alpha]
    unfold walkAcc
    simp only [Complex.ofReal_re, Complex.norm_real, Real.norm_eq_abs]
  · rw [hW, walk_prob]
    refine (lintegral_mul_const _ ?_).trans (mul_comm _ _)
    exact (walkAcc_meas M.par.mu √(2 * delta)).comp (measurable_prodMk_left (x := x))

/-- Accepted iterations change the acceptance probability. -/
theorem walk_changes (hmu : 0 < M.par.mu) (delta : ℝ) (hδ : 0 < delta) :
    ¬ ∀ᵐ q ∂((laplaceRow M.par.mu).prod ((normalLaw 1).prod uniformLaw)),
      acceptProb M (fun _ : Fin 1 → ℂ => 0) (fun _ => 0) (fun x => x) (fun x => ∑ i, ‖x i‖) delta (normalLaw 1)
        (iterMap M (fun _ : Fin 1 → ℂ => 0) (fun _ => 0) (fun x => x) (fun x => ∑ i, ‖x i‖) delta q.1 q.2) =
      acceptProb M (fun _ : Fin 1 → ℂ => 0) (fun _ => 0) (fun x => x) (fun x => ∑ i, ‖x i‖) delta (normalLaw 1) q.1 := by
  classical
  intro h
  have hL := laplaceLaw_prob hmu
  have hR : IsProbabilityMeasure (laplaceRow M.par.mu) := Measure.isProbabilityMeasure_map single_meas.aemeasurable
  have c1 : Measurable fun _ : Fin 1 → ℂ => (0 : Fin n → ℂ) := measurable_const
  have c2 : Measurable fun _ : Fin n → ℂ => (0 : Fin 1 → ℂ) := measurable_const
  have c3 : Measurable fun x : Fin 1 → ℂ => x := measurable_id
  have c4 := pri_meas
  have hs : 0 < √(2 * delta) := Real.sqrt_pos.mpr (by linarith)
  obtain ⟨x, hx⟩ := (ae_of_ae_map single_meas.aemeasurable (Measure.ae_ae_of_ae_prod h)).exists
  have hpos := acceptProb_ne_zero (M := M) c1 c2 c3 c4 delta (normalLaw 1) fun _ => (x : ℂ)
  rw [← acceptProb_eq c1 c2 c3 c4] at hpos
  -- proposals of the same modulus have probability zero
  have hnull : ∀ᵐ v ∂((normalLaw 1).prod uniformLaw), ∃ w : ℝ, v.1 = (fun _ => (w : ℂ)) ∧ |x + √(2 * delta) * w| ≠ |x| := by
    have h1 : ∀ᵐ w ∂(gaussianReal 0 1), |x + √(2 * delta) * w| ≠ |x| := by
      have hfin : (gaussianReal 0 1) ({0, -2 * x / √(2 * delta)} : Set ℝ) = 0 := by
        have : NullMeasurableSet ({0, -2 * x / √(2 * delta)} : Set ℝ) (gaussianReal 0 1) := (Set.toFinite _).measurableSet.nullMeasurableSet
        exact gaussianReal_absolutelyContinuous (0 : ℝ) (v := 1) one_ne_zero ((Set.toFinite _).measure_zero volume)
      rw [ae_iff]
      refine measure_mono_null (fun w hw => ?_) hfin
      simp only [ne_eq, not_not, Set.mem_ofPred_eq] at hw
      rcases abs_eq_abs.mp hw with h2 | h2
      · left
        have : √(2 * delta) * w = 0 := by linarith
        rcases mul_eq_zero.mp this with h3 | h3
        · exact absurd h3 hs.ne'
        · exact h3
      · right
        rw [Set.mem_singleton_iff, eq_div_iff hs.ne']
        linarith
    have h2 : ∀ᵐ z ∂(normalLaw 1), ∃ w : ℝ, z = (fun _ => (w : ℂ)) ∧ |x + √(2 * delta) * w| ≠ |x| := by
      rw [normal_one]
      have hms : MeasurableSet {z : Fin 1 → ℂ | ∃ w : ℝ, z = (fun _ => (w : ℂ)) ∧ |x + √(2 * delta) * w| ≠ |x|} := by
        have e : {z : Fin 1 → ℂ | ∃ w : ℝ, z = (fun _ => (w : ℂ)) ∧ |x + √(2 * delta) * w| ≠ |x|} =
            {z | (z 0).im = 0 ∧ |x + √(2 * delta) * (z 0).re| ≠ |x|} := by
          ext z
          constructor
          · rintro ⟨w, rfl, hw⟩
            exact ⟨Complex.ofReal_im w, by simpa using hw⟩
          · rintro ⟨h3, h4⟩
            refine ⟨(z 0).re, ?_, h4⟩
            funext i
            rw [Subsingleton.elim i 0]
            exact Complex.ext rfl (by rw [h3]; exact (Complex.ofReal_im _).symm)
        rw [e]
        refine MeasurableSet.inter ?_ ?_
        · exact measurableSet_eq_fun (by fun_prop) measurable_const
        · exact (measurableSet_eq_fun (by fun_prop) measurable_const).compl
      rw [ae_map_iff single_meas.aemeasurable hms]
      filter_upwards [h1] with w hw
      exact ⟨w, rfl, hw⟩
    exact (Measure.quasiMeasurePreserving_fst (μ := normalLaw 1) (ν := uniformLaw)).ae h2
  have hfreq : ∃ᵐ v ∂((normalLaw 1).prod uniformLaw),
      ((fun _ => (x : ℂ)), v) ∈ accSet M (fun _ : Fin 1 → ℂ => 0) (fun _ => 0) (fun x => x) (fun x => ∑ i, ‖x i‖) delta :=
    frequently_ae_iff.mpr hpos
  obtain ⟨v, hv, h1, w, hw, hne⟩ := (hfreq.and_eventually (hx.and hnull)).exists
  simp only at h1
  rw [iterMap_eq, if_pos hv, hw, walk_step, walk_prob, walk_prob] at h1
  rcases lt_or_gt_of_ne hne with h2 | h2
  · exact (walk_strict hmu hs h2).ne h1
  · exact (walk_strict hmu hs h2).ne' h1

end Walk

/-- C135 is violated: for one parameter that no path crosses (the posterior is the prior) with the `L1` prior and `T = 0`, so that the
proposals are a random walk, every `mu > 0` and every step size, PxMALA without tuning leaves the Laplace law with density `mu/2*exp(-mu|x|)`
invariant, but in a run from that law, without thinning, the samples saved do not have it.  For `mu = 1` it is the law of the default start. -/
theorem C135_refuted (data : DataVec n) (hd : data.cplx = false) (sig : SigD) (σ : Fin n → ℝ) (hσ : IsSigma n sig σ) (par : Params)
    (hl : par.lmda ≠ 0) (hmu : 0 < par.mu) (hδ : 0 < par.delta) (hc : par.complex = false) (hns : 0 < par.nsamples) (b g : ℕ) (hg : g ≤ 1) :
    ∃ (F : ForwardOp n) (L : L1 ℂ) (M : Sampler n) (A : Arrays),
      ForwardOp.init data sig "synthesis" (some identityTransform) (some ⟨pathForward (0 : Matrix (Fin n) (Fin 1) ℂ), pathAdjoint (0 : Matrix (Fin n) (Fin 1) ℂ)⟩) (some 1) =
        .ok F ∧
      L1.init "synthesis" identityTransform.op identityTransform.adj (.scalar 0) = .ok L ∧
      samplerInit F L.toPrior par = .ok (M, A) ∧
      MalaInvariant M par.delta (Measure.pi fun _ : Fin 1 => laplaceLaw par.mu) ∧
      ∀ (R : Rng) (Ω : Type) (_ : MeasurableSpace Ω) (P : Measure Ω) (_ : IsProbabilityMeasure P) (r r1 : Ω → R.σ) (sp : Ω → StartPoint)
        (x0 : Ω → Fin 1 → ℂ) (fuel : Ω → ℕ) (st : Ω → MalaSt R) (rows : Ω → Fin M.par.nsamples → Fin 1 → ℂ),
        MalaRuns M R (fun _ => 0) par.delta A b g P r r1 sp x0 (normalLaw 1) fuel st rows → P.map x0 = laplaceRow par.mu →
        ∃ (k : Fin M.par.nsamples) (S : Set (Fin 1 → ℂ)), MeasurableSet S ∧ P {ω | rows ω k ∈ S} ≠ laplaceRow par.mu S := by
  obtain ⟨F, L, hF, hL, hnp, tot⟩ := walk_total data hd sig σ hσ
  have tot := tot par hl
  have c1 : Measurable fun _ : Fin 1 → ℂ => (0 : Fin n → ℂ) := measurable_const
  have c2 : Measurable fun _ : Fin n → ℂ => (0 : Fin 1 → ℂ) := measurable_const
  have c3 : Measurable fun x : Fin 1 → ℂ => x := measurable_id
  have c4 := pri_meas
  have hprob := laplaceLaw_prob hmu
  have hk := walk_keeps (M := (⟨F, L.toPrior, par, 1⟩ : Sampler n)) hmu par.delta
  refine ⟨F, L, ⟨F, L.toPrior, par, 1⟩, initArrays ⟨F, L.toPrior, par, 1⟩, hF, hL, by simp [samplerInit, hnp], ?_, ?_⟩
  · refine KeepsLaw.invariant tot c1 c2 c3 c4 hns hc par.delta _ ?_
    rw [laplace_pi hmu]
    exact hk
  · intro R Ω _ P _ r r1 sp x0 fuel st rows h hx0
    by_contra hno
    push Not at hno
    have hR : IsProbabilityMeasure (laplaceRow par.mu) := Measure.isProbabilityMeasure_map single_meas.aemeasurable
    have hst : ∀ᵐ z ∂(laplaceRow par.mu), (fun i => store par.complex (z i)) = z := by
      have hms : MeasurableSet {z : Fin 1 → ℂ | (fun i => store par.complex (z i)) = z} :=
        measurableSet_eq_fun (store_meas par.complex) measurable_id
      rw [laplaceRow, ae_map_iff single_meas.aemeasurable hms]
      refine Eventually.of_forall fun x => ?_
      rw [hc]
      funext i
      simp [store]
    exact walk_changes (M := (⟨F, L.toPrior, par, 1⟩ : Sampler n)) hmu par.delta hδ
      ((C135_iff_partial tot c1 c2 c3 c4 hk h hg hx0 hns hst).mp hno)

/-! ## Runs from the default start -/

/-- A generator that delivers a given start and a given sequence of (normal vector, uniform number): `laplace` reads the start, `randn` and
`rand` the sequence. -/
def startRng (p : ℕ) : Rng :=
  ⟨(Fin p → ℝ) × (ℕ → (Fin p → ℝ) × ℝ),
    fun s k => (fun i : Fin k => if h : (i : ℕ) < p then (s.2 0).1 ⟨i, h⟩ else 0, s),
    fun s k => (fun i : Fin k => if h : (i : ℕ) < p then s.1 ⟨i, h⟩ else 0, s), fun s => ((s.2 0).2, (s.1, fun j => s.2 (j + 1)))⟩

section Start
variable {p : ℕ}

theorem startRng_seq (s : (Fin p → ℝ) × (ℕ → (Fin p → ℝ) × ℝ)) (k : ℕ) :
    malaRngSeq (startRng p) false p s k = (s.1, fun j => s.2 (j + k)) := by
  induction k with
  | zero => rfl
  | succ k ih =>
    show ((malaRngSeq (startRng p) false p s k).1, fun j => (malaRngSeq (startRng p) false p s k).2 (j + 1)) = _
    rw [ih]
    exact Prod.ext rfl (funext fun j => congrArg s.2 (show j + 1 + k = j + (k + 1) by omega))

theorem startRng_draws (s : (Fin p → ℝ) × (ℕ → (Fin p → ℝ) × ℝ)) (k : ℕ) :
    malaDraws (startRng p) false p s k = (fun i => (((s.2 k).1 i : ℝ) : ℂ), (s.2 k).2) := by
  unfold malaDraws
  rw [startRng_seq]
  refine Prod.ext (funext fun i => ?_) ?_
  · show (((if h : (i : ℕ) < p then (s.2 (0 + k)).1 ⟨i, h⟩ else 0 : ℝ)) : ℂ) = _
    rw [dif_pos i.2, zero_add]
  · show (s.2 (0 + k)).2 = _
    rw [zero_add]

/-- The law of a start `μ` and independent pairs of a standard normal vector and a uniform number. -/
noncomputable def startLaw (μ : Measure (Fin p → ℝ)) : Measure ((Fin p → ℝ) × (ℕ → (Fin p → ℝ) × ℝ)) :=
  μ.prod (Measure.infinitePi fun _ : ℕ => (Measure.pi fun _ : Fin p => gaussianReal 0 1).prod uniformLaw)

instance (μ : Measure (Fin p → ℝ)) [IsProbabilityMeasure μ] : IsProbabilityMeasure (startLaw μ) := by
  unfold startLaw
  infer_instance

theorem startRng_stream (μ : Measure (Fin p → ℝ)) [IsProbabilityMeasure μ] : MalaStream (startRng p) false p
    (startLaw μ) (fun ω i => ((ω.1 i : ℝ) : ℂ)) (fun ω => ω) (normalLaw p) := by
  set κ : (Fin p → ℝ) × ℝ → (Fin p → ℂ) × ℝ := Prod.map (fun x i => ((x i : ℝ) : ℂ)) id with hκ
  have h1 : Measurable fun (x : Fin p → ℝ) (i : Fin p) => ((x i : ℝ) : ℂ) := by fun_prop
  have hκm : Measurable κ := h1.prodMap measurable_id
  have e : ∀ (k : ℕ) (ω : (Fin p → ℝ) × (ℕ → (Fin p → ℝ) × ℝ)), malaDraws (startRng p) false p ω k = κ (ω.2 k) :=
    fun k ω => startRng_draws ω k
  have hd : Driven (Measure.infinitePi fun _ : ℕ => (Measure.pi fun _ : Fin p => gaussianReal 0 1).prod uniformLaw)
      (fun k (ω : ℕ → (Fin p → ℝ) × ℝ) => κ (ω k)) ((normalLaw p).prod uniformLaw) := by
    refine ⟨fun k => hκm.comp (measurable_pi_apply k), ?_, fun k => ?_⟩
    · exact iIndepFun_infinitePi (P := fun _ : ℕ => (Measure.pi fun _ : Fin p => gaussianReal 0 1).prod uniformLaw) (X := fun _ => κ)
        (fun _ => hκm)
    · have h2 := Measure.infinitePi_map_eval (fun _ : ℕ => (Measure.pi fun _ : Fin p => gaussianReal 0 1).prod uniformLaw) k
      have h3 : (fun ω : ℕ → (Fin p → ℝ) × ℝ => κ (ω k)) = κ ∘ (Function.eval k) := rfl
      rw [h3, ← Measure.map_map hκm (measurable_pi_apply k), h2, hκ, normalLaw]
      have h4 := Measure.map_prod_map (Measure.pi fun _ : Fin p => gaussianReal 0 1) uniformLaw h1 measurable_id
      rw [Measure.map_id] at h4
      exact h4.symm
  have hs := hd.seqIndep_prod μ
  refine ⟨h1.comp measurable_fst, fun k => ?_, fun k => ?_, fun k => ?_⟩
  · simp only [e]
    exact hs.meas k
  · simp only [e]
    exact hs.law k
  · simp only [e]
    exact (hs.indep k).comp (φ := Prod.map (fun (x : Fin p → ℝ) i => ((x i : ℝ) : ℂ)) id) (ψ := id)
      (h1.prodMap measurable_id) measurable_id

theorem start_default {M : Sampler n} {fwd : (Fin p → ℂ) → (Fin n → ℂ)} {grad : (Fin n → ℂ) → (Fin p → ℂ)}
    {prox : (Fin p → ℂ) → (Fin p → ℂ)} {pri : (Fin p → ℂ) → ℝ} (tot : Total M p fwd grad prox pri) (hc : M.par.complex = false)
    (ω : (Fin p → ℝ) × (ℕ → (Fin p → ℝ) × ℝ)) : initialSample M (startRng p) ω .none =
      .ok (List.ofFn fun i => ((ω.1 i : ℝ) : ℂ), List.ofFn (fwd fun i => ((ω.1 i : ℝ) : ℂ)), ω) := by
  have h : startVector M (startRng p) ω .none = .ok (List.ofFn fun i => ((ω.1 i : ℝ) : ℂ), ω) := by
    unfold startVector
    simp only [hc, tot.nparams]
    refine congrArg Except.ok (Prod.ext (congrArg List.ofFn (funext fun i => ?_)) rfl)
    show (((if h : (i : ℕ) < p then ω.1 ⟨i, h⟩ else 0 : ℝ)) : ℂ) = _
    rw [dif_pos i.2]
  unfold initialSample
  rw [h]
  show (Except.bind (M.F.forward (List.ofFn fun i => ((ω.1 i : ℝ) : ℂ))) fun preds => Except.ok (_, preds, ω)) = _
  rw [tot.forward]
  rfl

end Start

/-- Runs of the sampler of `C135_refuted` from a random real start: whatever the law of the default start. -/
theorem walk_runs {M : Sampler n} (tot : Total M 1 (fun _ => 0) (fun _ => 0) (fun x => x) (fun x => ∑ i, ‖x i‖)) (hc : M.par.complex = false)
    (ht : "chain" ∈ M.par.track) (b g : ℕ) (hb : M.par.nburn = b) (hg : M.par.ngap = g) (delta : ℝ) (μ : Measure (Fin 1 → ℝ))
    [IsProbabilityMeasure μ] :
    ∃ fuel st rows, MalaRuns M (startRng 1) (fun _ : Fin 1 → ℂ => 0) delta (initArrays M) b g (startLaw μ) (fun ω => ω) (fun ω => ω) (fun _ => .none)
      (fun ω i => ((ω.1 i : ℝ) : ℂ)) (normalLaw 1) fuel st rows :=
  MalaRuns.exist (startRng 1) tot measurable_const measurable_const measurable_id pri_meas ht b g hb hg delta _ _ _ _ _
    (start_default tot hc) _ (by rw [hc]; exact startRng_stream μ)

theorem startLaw_start {p : ℕ} (μ : Measure (Fin p → ℝ)) [IsProbabilityMeasure μ] :
    (startLaw μ).map (fun ω i => ((ω.1 i : ℝ) : ℂ)) = μ.map fun x i => ((x i : ℝ) : ℂ) := by
  have h1 : Measurable fun (x : Fin p → ℝ) (i : Fin p) => ((x i : ℝ) : ℂ) := by fun_prop
  have h2 : MeasurePreserving Prod.fst (startLaw μ) μ := measurePreserving_fst
  have h3 := Measure.map_map (μ := startLaw μ) h1 (measurable_fst (α := Fin p → ℝ) (β := ℕ → (Fin p → ℝ) × ℝ))
  rw [h2.map_eq] at h3
  exact h3.symm

/-- A law of arrays that are real is the law of a real default start. -/
theorem real_start {p : ℕ} (ρ : Measure (Fin p → ℂ)) [IsProbabilityMeasure ρ] (h : ∀ᵐ z ∂ρ, (fun i => store false (z i)) = z) :
    ∃ μ : Measure (Fin p → ℝ), IsProbabilityMeasure μ ∧ (startLaw μ).map (fun ω i => ((ω.1 i : ℝ) : ℂ)) = ρ := by
  have h0 : Measurable fun (z : Fin p → ℂ) i => (z i).re := by fun_prop
  have h1 : Measurable fun (x : Fin p → ℝ) (i : Fin p) => ((x i : ℝ) : ℂ) := by fun_prop
  have hp : IsProbabilityMeasure (ρ.map fun z i => (z i).re) := Measure.isProbabilityMeasure_map h0.aemeasurable
  refine ⟨ρ.map fun z i => (z i).re, hp, ?_⟩
  rw [startLaw_start, Measure.map_map h1 h0]
  exact (Measure.map_congr (g := id) h).trans Measure.map_id

theorem laplaceRow_real {m : ℝ} : ∀ᵐ z ∂(laplaceRow m), (fun i => store false (z i)) = z := by
  have hms : MeasurableSet {z : Fin 1 → ℂ | (fun i => store false (z i)) = z} := measurableSet_eq_fun (store_meas false) measurable_id
  rw [laplaceRow, ae_map_iff single_meas.aemeasurable hms]
  refine Eventually.of_forall fun x => ?_
  funext i
  simp [store]

/-- The hypotheses of C135 are met, and the runs of `C135_refuted` exist: three data, standard deviations 0.1, the sampler parameters of
tests/test_mcmc.py:27-29 except for the thinning, the default start. -/
example : ∃ (M : Sampler 3) (fuel : _) (st : _) (rows : _),
    Total M 1 (fun _ => 0) (fun _ => 0) (fun x => x) (fun x => ∑ i, ‖x i‖) ∧
    KeepsLaw M (fun _ : Fin 1 → ℂ => 0) (fun _ => 0) (fun x => x) (fun x => ∑ i, ‖x i‖) M.par.delta (normalLaw 1) (laplaceRow 1) ∧
    MalaRuns M (startRng 1) (fun _ => 0) M.par.delta (initArrays M) 10 1 (startLaw (Measure.pi fun _ => laplaceLaw 1)) (fun ω => ω) (fun ω => ω)
      (fun _ => .none) (fun ω i => ((ω.1 i : ℝ) : ℂ)) (normalLaw 1) fuel st rows ∧
    (startLaw (Measure.pi fun _ : Fin 1 => laplaceLaw 1)).map (fun ω i => ((ω.1 i : ℝ) : ℂ)) = laplaceRow 1 ∧ M.par.nsamples = 100 ∧
    ∀ᵐ z ∂(laplaceRow 1), (fun i => store M.par.complex (z i)) = z := by
  obtain ⟨F, L, -, -, -, tot⟩ := walk_total (n := 3) ⟨false, fun _ => 1⟩ rfl (.num ((1 / 10 : ℝ) : ℂ) false) (fun _ => 1 / 10) (.scalar _ (by norm_num))
  have tot := tot ⟨3 / 100000, 1 / 100000, 1, 5, 100, 10, 1, false, 0, ["logposterior", "L2", "prior", "chain"]⟩ (by norm_num)
  have hp := laplaceLaw_prob one_pos
  obtain ⟨fuel, st, rows, h⟩ := walk_runs tot rfl (by simp) 10 1 rfl rfl (1 / 100000) (Measure.pi fun _ => laplaceLaw 1)
  refine ⟨_, fuel, st, rows, tot, ?_, ?_, ?_, rfl, laplaceRow_real⟩
  · exact walk_keeps (M := ⟨F, L.toPrior, _, 1⟩) one_pos _
  · exact h
  · rw [startLaw_start, laplace_pi one_pos]

/-- The hypotheses of `C135_rows_partial` are met by the same sampler, every fifth iteration being thinned out, from a start with the
reweighted law. -/
example : ∃ (M : Sampler 3) (μ : Measure (Fin 1 → ℝ)) (fuel : _) (st : _) (rows : _), IsProbabilityMeasure μ ∧
    Total M 1 (fun _ => 0) (fun _ => 0) (fun x => x) (fun x => ∑ i, ‖x i‖) ∧
    KeepsLaw M (fun _ : Fin 1 → ℂ => 0) (fun _ => 0) (fun x => x) (fun x => ∑ i, ‖x i‖) M.par.delta (normalLaw 1) (laplaceRow 1) ∧
    MalaRuns M (startRng 1) (fun _ => 0) M.par.delta (initArrays M) 4 5 (startLaw μ) (fun ω => ω) (fun ω => ω)
      (fun _ => .none) (fun ω i => ((ω.1 i : ℝ) : ℂ)) (normalLaw 1) fuel st rows ∧ 4 = max 5 1 - 1 ∧
    (startLaw μ).map (fun ω i => ((ω.1 i : ℝ) : ℂ)) =
      acceptedLaw M (fun _ : Fin 1 → ℂ => 0) (fun _ => 0) (fun x => x) (fun x => ∑ i, ‖x i‖) M.par.delta (normalLaw 1) (laplaceRow 1) ∧
    M.par.nsamples = 100 := by
  obtain ⟨F, L, -, -, -, tot⟩ := walk_total (n := 3) ⟨false, fun _ => 1⟩ rfl (.num ((1 / 10 : ℝ) : ℂ) false) (fun _ => 1 / 10) (.scalar _ (by norm_num))
  have tot := tot ⟨3 / 100000, 1 / 100000, 1, 5, 100, 4, 5, false, 0, ["logposterior", "L2", "prior", "chain"]⟩ (by norm_num)
  have hL := laplaceLaw_prob one_pos
  have hR : IsProbabilityMeasure (laplaceRow 1) := Measure.isProbabilityMeasure_map single_meas.aemeasurable
  set M : Sampler 3 := ⟨F, L.toPrior, ⟨3 / 100000, 1 / 100000, 1, 5, 100, 4, 5, false, 0, ["logposterior", "L2", "prior", "chain"]⟩, 1⟩ with hM
  have c1 : Measurable fun _ : Fin 1 → ℂ => (0 : Fin 3 → ℂ) := measurable_const
  have c2 : Measurable fun _ : Fin 3 → ℂ => (0 : Fin 1 → ℂ) := measurable_const
  have c3 : Measurable fun x : Fin 1 → ℂ => x := measurable_id
  have hA := acceptedLaw_prob (M := M) (delta := M.par.delta) (ν := normalLaw 1) (ρ := laplaceRow 1) c1 c2 c3 pri_meas
  have hac : ∀ᵐ z ∂(acceptedLaw M (fun _ : Fin 1 → ℂ => 0) (fun _ => 0) (fun x => x) (fun x => ∑ i, ‖x i‖) M.par.delta (normalLaw 1) (laplaceRow 1)),
      (fun i => store false (z i)) = z :=
    ((withDensity_absolutelyContinuous _ _).smul_left _).ae_le laplaceRow_real
  obtain ⟨μ, hμ, hs⟩ := real_start _ hac
  obtain ⟨fuel, st, rows, h⟩ := walk_runs tot rfl (by simp [hM]) 4 5 rfl rfl M.par.delta μ
  exact ⟨M, μ, fuel, st, rows, hμ, tot, walk_keeps (M := M) one_pos _, h, rfl, hs, rfl⟩

/-- The hypotheses of `C135_preserved_partial` are met by the step size zero: every proposal is the current sample, every law is kept and
every proposal is accepted. -/
example : ∃ (M : Sampler 3) (fuel : _) (st : _) (rows : _),
    Total M 1 (fun _ => 0) (fun _ => 0) (fun x => x) (fun x => ∑ i, ‖x i‖) ∧
    KeepsLaw M (fun _ : Fin 1 → ℂ => 0) (fun _ => 0) (fun x => x) (fun x => ∑ i, ‖x i‖) 0 (normalLaw 1) (laplaceRow 1) ∧
    MalaRuns M (startRng 1) (fun _ => 0) 0 (initArrays M) 10 5 (startLaw (Measure.pi fun _ => laplaceLaw 1)) (fun ω => ω) (fun ω => ω)
      (fun _ => .none) (fun ω i => ((ω.1 i : ℝ) : ℂ)) (normalLaw 1) fuel st rows ∧
    (startLaw (Measure.pi fun _ : Fin 1 => laplaceLaw 1)).map (fun ω i => ((ω.1 i : ℝ) : ℂ)) = laplaceRow 1 ∧
    (∀ q : (Fin 1 → ℂ) × ((Fin 1 → ℂ) × ℝ),
      acceptProb M (fun _ : Fin 1 → ℂ => 0) (fun _ => 0) (fun x => x) (fun x => ∑ i, ‖x i‖) 0 (normalLaw 1)
        (iterMap M (fun _ : Fin 1 → ℂ => 0) (fun _ => 0) (fun x => x) (fun x => ∑ i, ‖x i‖) 0 q.1 q.2) =
      acceptProb M (fun _ : Fin 1 → ℂ => 0) (fun _ => 0) (fun x => x) (fun x => ∑ i, ‖x i‖) 0 (normalLaw 1) q.1) ∧ M.par.nsamples = 100 := by
  obtain ⟨F, L, -, -, -, tot⟩ := walk_total (n := 3) ⟨false, fun _ => 1⟩ rfl (.num ((1 / 10 : ℝ) : ℂ) false) (fun _ => 1 / 10) (.scalar _ (by norm_num))
  have tot := tot ⟨3 / 100000, 0, 1, 5, 100, 10, 5, false, 0, ["logposterior", "L2", "prior", "chain"]⟩ (by norm_num)
  have hp := laplaceLaw_prob one_pos
  set M : Sampler 3 := ⟨F, L.toPrior, ⟨3 / 100000, 0, 1, 5, 100, 10, 5, false, 0, ["logposterior", "L2", "prior", "chain"]⟩, 1⟩ with hM
  obtain ⟨fuel, st, rows, h⟩ := walk_runs tot rfl (by simp [hM]) 10 5 rfl rfl 0 (Measure.pi fun _ => laplaceLaw 1)
  have hid : ∀ x v, iterMap M (fun _ : Fin 1 → ℂ => 0) (fun _ => 0) (fun x => x) (fun x => ∑ i, ‖x i‖) 0 x v = x := by
    classical
    intro x v
    rw [iterMap_eq]
    split_ifs
    · funext i
      simp [ulaStep]
    · rfl
  refine ⟨M, fuel, st, rows, tot, walk_keeps (M := M) one_pos _, h, ?_, fun q => ?_, rfl⟩
  · rw [startLaw_start, laplace_pi one_pos]
  · rw [hid]

end Pxmcmc
