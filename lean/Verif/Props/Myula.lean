import Verif.Lemmas.Chain
import Verif.Props.Skrock

/-! # Properties C41–C45, C55–C57, C59: MYULA and SKROCK runs -/

namespace Pxmcmc
variable {n p : ℕ}

/-! ## The result of a run in vector form -/

/-- The values that row `k` must hold for the sample `x`: what `logpi` returns for it, its predictions and itself, as
stored (predictions in a float array; the chain in a complex array if the sampler is complex). -/
noncomputable def rowOf (M : Sampler n) (fwd : (Fin p → ℂ) → (Fin n → ℂ)) (pri : (Fin p → ℂ) → ℝ) (x : Fin p → ℂ) :
    Row where
  logPi := -M.par.mu * pri x -
    (Spec.inner (M.F.data.vals - fwd x) (M.F.invcov.mulVec (M.F.data.vals - fwd x))).re
  L2 := (Spec.inner (M.F.data.vals - fwd x) (M.F.invcov.mulVec (M.F.data.vals - fwd x))).re
  prior := pri x
  preds := List.ofFn fun i => store false (fwd x i)
  chain := List.ofFn fun i => store M.par.complex (x i)

theorem mkRow_eq_rowOf (M : Sampler n) {fwd : (Fin p → ℂ) → (Fin n → ℂ)} {grad : (Fin n → ℂ) → (Fin p → ℂ)}
    {prox : (Fin p → ℂ) → (Fin p → ℂ)} {pri : (Fin p → ℂ) → ℝ} (h : Total M p fwd grad prox pri) (x : Fin p → ℂ)
    (l : ℂ × ℂ × ℝ) (hl : logpi M.F M.P M.par.mu (List.ofFn x) (List.ofFn (fwd x)) = .ok l) :
    mkRow M (List.ofFn x) (List.ofFn (fwd x)) l = rowOf M fwd pri x := by
  rw [logpi_ofFn _ _ _ _ _ _ (h.prior x)] at hl
  rw [mkRow_vec M h.nparams, ← Except.ok.inj hl]
  simp [rowOf]

theorem progressArrays_total (M : Sampler n) {R : Rng} (A0 : Arrays) (hA : A0.Shaped M.par.nsamples)
    (h : A0.logPi.isSome ∧ A0.L2s.isSome ∧ A0.priors.isSome) (st : St R) (hj : st.j ≤ M.par.nsamples)
    (hns : 0 < M.par.nsamples) : ∃ evs, progressArrays M A0 st = .ok evs := by
  have hsh := A0.applyAll_shape st.ev
  have hs := Arrays.Shaped.of_same hsh hA
  have h1 := isSome_of_map_eq hsh.logPi
  have h2 := isSome_of_map_eq hsh.L2s
  have h3 := isSome_of_map_eq hsh.priors
  rw [h.1] at h1
  rw [h.2.1] at h2
  rw [h.2.2] at h3
  obtain ⟨a, ha⟩ := Option.isSome_iff_exists.mp h1
  obtain ⟨b, hb⟩ := Option.isSome_iff_exists.mp h2
  obtain ⟨c, hc⟩ := Option.isSome_iff_exists.mp h3
  have key : ∀ l : List ℝ, l.length = M.par.nsamples → ∃ v, pyGet l ((st.j : ℤ) - 1) = .ok v := by
    intro l hl
    unfold pyGet
    by_cases hneg : (st.j : ℤ) - 1 < 0
    · simp only [hneg, if_true]
      rw [if_pos (by omega)]
      have : (((l.length : ℤ) + ((st.j : ℤ) - 1)).toNat) < l.length := by omega
      rw [List.getElem?_eq_getElem this]
      exact ⟨_, rfl⟩
    · simp only [hneg, if_false]
      rw [if_pos (by omega)]
      have : (((st.j : ℤ) - 1).toNat) < l.length := by omega
      rw [List.getElem?_eq_getElem this]
      exact ⟨_, rfl⟩
  obtain ⟨va, hva⟩ := key a (hs.logPi a ha)
  obtain ⟨vb, hvb⟩ := key b (hs.L2s b hb)
  obtain ⟨vc, hvc⟩ := key c (hs.priors c hc)
  unfold progressArrays
  simp only [ha, hb, hc, attrArr, bind, Except.bind, hva, hvb, hvc]
  exact ⟨_, rfl⟩

/-- A loop whose transitions are `T k ↦ T (k+1)` returns after exactly the documented number of iterations with the rows
of the documented states. -/
theorem vec_run (M : Sampler n) {R : Rng} (A0 : Arrays) (step : Cur R → Py (Cur R)) (prog : St R → Py (List Event))
    (hprog : NoWrites prog) {fwd : (Fin p → ℂ) → (Fin n → ℂ)} {grad : (Fin n → ℂ) → (Fin p → ℂ)}
    {prox : (Fin p → ℂ) → (Fin p → ℂ)} {pri : (Fin p → ℂ) → ℝ} (tot : Total M p fwd grad prox pri) (b : ℕ)
    (hb : M.par.nburn = b) (hA : A0.Shaped M.par.nsamples) (T : ℕ → Fin p → ℂ) (S : ℕ → R.σ)
    (hstep : ∀ k, step ⟨List.ofFn (T k), List.ofFn (fwd (T k)), S k⟩ =
      .ok ⟨List.ofFn (T (k + 1)), List.ofFn (fwd (T (k + 1))), S (k + 1)⟩)
    (hpt : ∀ st : St R, st.j ≤ M.par.nsamples → 0 < M.par.nsamples → ∃ evs, prog st = .ok evs) :
    (∀ fuel < numIter M.par.nsamples b (spacing M.par), whileFuel (loopCond M) (genBody M A0 step prog) fuel
      ⟨0, 0, ⟨List.ofFn (T 0), List.ofFn (fwd (T 0)), S 0⟩, []⟩ = .ok none) ∧
    ∃ st, (∀ fuel ≥ numIter M.par.nsamples b (spacing M.par), whileFuel (loopCond M) (genBody M A0 step prog) fuel
      ⟨0, 0, ⟨List.ofFn (T 0), List.ofFn (fwd (T 0)), S 0⟩, []⟩ = .ok (some st)) ∧
      st.i = numIter M.par.nsamples b (spacing M.par) ∧
      A0.applyAll st.ev = A0.ofRows M.par.nsamples fun k => rowOf M fwd pri (T (b + k * spacing M.par + 1)) := by
  set c0 : Cur R := ⟨List.ofFn (T 0), List.ofFn (fwd (T 0)), S 0⟩ with hc0
  have hg := spacing_pos M.par
  obtain ⟨r, hr, hj⟩ := gen_total M A0 step prog hprog c0 b hb
    (fun c => ∃ k, c = ⟨List.ofFn (T k), List.ofFn (fwd (T k)), S k⟩) ⟨0, rfl⟩
    (by rintro c ⟨k, rfl⟩; exact ⟨_, hstep k, k + 1, rfl⟩)
    (by rintro c ⟨k, rfl⟩; obtain ⟨l, hl, -⟩ := logpi_total M tot (T k) (fwd (T k)); exact ⟨l, hl⟩)
    (by rintro c ⟨k, rfl⟩; simp [tot.nparams])
    hA.logPi hA.L2s hA.priors hA.preds hA.chain hpt
  constructor
  · intro fuel hf
    obtain ⟨s, hs⟩ := hr.prefix fuel hf.le
    refine hs.running ?_
    have hi := sinv_reach M A0 step prog hprog c0 b hb _ s hs
    have := cnt_lt_of_lt _ b _ fuel hg hf
    rw [← hi.2.1] at this
    simp [loopCond, this]
  · have hret : ∀ fuel ≥ numIter M.par.nsamples b (spacing M.par),
        whileFuel (loopCond M) (genBody M A0 step prog) fuel ⟨0, 0, c0, []⟩ = .ok (some r) := by
      intro fuel hf
      have := hr.returns (by simp [loopCond, hj]) (fuel - numIter M.par.nsamples b (spacing M.par))
      rwa [Nat.add_sub_cancel' hf] at this
    refine ⟨r, hret, ?_⟩
    obtain ⟨U, rows, hU, hi, -, hrows, harr, -⟩ := gen_result M A0 step prog hprog c0 b hb hA _ r (hret _ le_rfl)
    refine ⟨hi, ?_⟩
    rw [harr]
    have hT : Hist step c0 (numIter M.par.nsamples b (spacing M.par))
        (fun k => ⟨List.ofFn (T k), List.ofFn (fwd (T k)), S k⟩) := ⟨rfl, fun k _ => hstep k⟩
    have hrow : ∀ k < M.par.nsamples, rows k = rowOf M fwd pri (T (b + k * spacing M.par + 1)) := by
      intro k hk
      obtain ⟨hle, l, hl, he⟩ := hrows k hk
      have hu := hU.unique hT _ hle
      rw [hu] at hl he
      rw [he, mkRow_eq_rowOf M tot _ l hl]
    have : ∀ {α : Type} (f : Row → α), (List.range M.par.nsamples).map (fun k => f (rows k)) =
        (List.range M.par.nsamples).map fun k => f (rowOf M fwd pri (T (b + k * spacing M.par + 1))) := by
      intro α f
      apply List.map_congr_left
      intro k hk
      rw [hrow k (List.mem_range.mp hk)]
    simp only [Arrays.ofRows, this]

theorem spacing_nat (par : Params) (g : ℕ) (hg : par.ngap = g) : spacing par = max g 1 := by
  unfold spacing
  rw [hg]
  simp

/-- Progress lines read the arrays `logPi`, `L2s`, `priors`. -/
def CanPrint (M : Sampler n) (A0 : Arrays) : Prop :=
  M.par.verbosity ≤ 0 ∨ (A0.logPi.isSome ∧ A0.L2s.isSome ∧ A0.priors.isSome)

theorem not_verbose {par : Params} (h : par.verbosity ≤ 0) (i : ℕ) : ¬ verbose par i := by
  rintro ⟨h1, -⟩
  omega

theorem myulaProg_total (M : Sampler n) {R : Rng} (A0 : Arrays) (hA : A0.Shaped M.par.nsamples) (h : CanPrint M A0)
    (st : St R) (hj : st.j ≤ M.par.nsamples) (hns : 0 < M.par.nsamples) : ∃ evs, myulaProg M A0 st = .ok evs := by
  unfold myulaProg
  split
  · split
    · rename_i hv
      rcases h with h | h
      · exact absurd hv (not_verbose h _)
      · exact progressArrays_total M A0 hA h st hj hns
    · exact ⟨_, rfl⟩
  · exact ⟨_, rfl⟩

theorem skrockProg_total (M : Sampler n) {R : Rng} (A0 : Arrays) (hA : A0.Shaped M.par.nsamples) (h : CanPrint M A0)
    (st : St R) (hj : st.j ≤ M.par.nsamples) (hns : 0 < M.par.nsamples) : ∃ evs, skrockProg M A0 st = .ok evs := by
  unfold skrockProg
  split
  · rename_i hv
    rcases h with h | h
    · exact absurd hv (not_verbose h _)
    · exact progressArrays_total M A0 hA h st hj hns
  · exact ⟨_, rfl⟩

/-! ## C41, C42 -/

/-- C41: for operators that accept every vector, `MYULA.run` returns after exactly `N = nburn+(nsamples-1)*max(ngap,1)+1`
iterations (0 if `nsamples = 0`), and the arrays then hold, at row `k`, the state after `nburn+k*max(ngap,1)+1` steps of
`x ↦ x + delta*∇logπ(x) + sqrt(2 delta)*w`, where `∇logπ` is the sampler's own `_gradlogpi` and the `w`s are the
successive draws. -/
theorem C41_schedule (M : Sampler n) (R : Rng) (A0 : Arrays) (hA : A0.Shaped M.par.nsamples) (hv : CanPrint M A0)
    (b g : ℕ) (hb : M.par.nburn = b) (hg : M.par.ngap = g) {fwd : (Fin p → ℂ) → (Fin n → ℂ)}
    {grad : (Fin n → ℂ) → (Fin p → ℂ)} {prox : (Fin p → ℂ) → (Fin p → ℂ)} {pri : (Fin p → ℂ) → ℝ}
    (tot : Total M p fwd grad prox pri) (G : (Fin p → ℂ) → (Fin p → ℂ))
    (hG : ActsAs (fun X => gradlogpi M.F M.P M.par.lmda X none) G) (r r1 : R.σ) (sp : StartPoint) (x0 : Fin p → ℂ)
    (hstart : initialSample M R r sp = .ok (List.ofFn x0, List.ofFn (fwd x0), r1)) (N : ℕ)
    (hN : N = if M.par.nsamples = 0 then 0 else b + (M.par.nsamples - 1) * max g 1 + 1) :
    (∀ fuel < N, myulaRun M R A0 r sp fuel = .ok none) ∧
    ∃ st, (∀ fuel ≥ N, myulaRun M R A0 r sp fuel = .ok (some st)) ∧ st.i = N ∧
      A0.applyAll st.ev = A0.ofRows M.par.nsamples fun k => rowOf M fwd pri
        (iter (ulaStep M.par.delta G) (noiseSeq R M.par.complex p r1) x0 (b + k * max g 1 + 1)) := by
  have hGe : G = gradVec M.par.lmda fwd grad prox := by
    funext x
    have h1 := hG x
    have h2 := gradlogpi_vec M tot x
    simp only [h2] at h1
    exact (List.ofFn_injective (Except.ok.inj h1)).symm
  subst hGe
  have hNn : N = numIter M.par.nsamples b (spacing M.par) := by rw [hN, spacing_nat _ g hg]; rfl
  rw [hNn]
  have hrun := vec_run M A0 (myulaStep M R) (myulaProg M A0) (myulaProg_noWrites M A0) tot b hb hA
    (iter (ulaStep M.par.delta (gradVec M.par.lmda fwd grad prox)) (noiseSeq R M.par.complex p r1) x0)
    (rngSeq R M.par.complex p r1) (fun k => myulaStep_vec M R tot _ _)
    (fun st hj hns => myulaProg_total M A0 hA hv st hj hns)
  obtain ⟨h1, st, h2, h3, h4⟩ := hrun
  constructor
  · intro fuel hf
    unfold myulaRun
    rw [hstart, myulaBody_eq]
    simp only [bind, Except.bind]
    have := h1 fuel hf
    simp only [iter, rngSeq] at this
    rw [this]
    rfl
  · refine ⟨{ st with ev := st.ev ++ [Event.done] }, ?_, h3, ?_⟩
    · intro fuel hf
      unfold myulaRun
      rw [hstart, myulaBody_eq]
      simp only [bind, Except.bind]
      have := h2 fuel hf
      simp only [iter, rngSeq] at this
      rw [this]
      rfl
    · rw [applyAll_append, h4, spacing_nat _ g hg]
      rfl

/-- C41: for arbitrary operators (which may raise), `MYULA.run` never loops for longer than the documented number of
iterations, and never runs fewer unless an exception is raised. -/
theorem C41_terminates (M : Sampler n) (R : Rng) (A0 : Arrays) (b g : ℕ) (hb : M.par.nburn = b) (hg : M.par.ngap = g)
    (r : R.σ) (sp : StartPoint) (N : ℕ)
    (hN : N = if M.par.nsamples = 0 then 0 else b + (M.par.nsamples - 1) * max g 1 + 1) :
    myulaRun M R A0 r sp N ≠ .ok none ∧
    ∀ fuel st, myulaRun M R A0 r sp fuel = .ok (some st) → N ≤ fuel ∧ st.i = N ∧ st.j = M.par.nsamples := by
  have hNn : N = numIter M.par.nsamples b (spacing M.par) := by rw [hN, spacing_nat _ g hg]; rfl
  rw [hNn]
  constructor
  · intro h
    unfold myulaRun at h
    obtain ⟨x, -, h⟩ := bind_ok h
    obtain ⟨res, hres, h⟩ := bind_ok h
    rw [myulaBody_eq] at hres
    cases res with
    | none => exact gen_terminates M A0 _ _ (myulaProg_noWrites M A0) _ b hb hres
    | some s => cases Except.ok.inj h
  · intro fuel st h
    unfold myulaRun at h
    obtain ⟨x, -, h⟩ := bind_ok h
    obtain ⟨res, hres, h⟩ := bind_ok h
    rw [myulaBody_eq] at hres
    cases res with
    | none => cases Except.ok.inj h
    | some s =>
      obtain rfl := Option.some.inj (Except.ok.inj h)
      obtain ⟨hr, h1, h2⟩ := gen_returns M A0 _ _ (myulaProg_noWrites M A0) _ b hb fuel s hres
      exact ⟨h1, (sinv_reach M A0 _ _ (myulaProg_noWrites M A0) _ b hb _ s hr).1, h2⟩

/-- C42: the same for SKROCK, with its own step. -/
theorem C42_schedule (M : Sampler n) (R : Rng) (A0 : Arrays) (hA : A0.Shaped M.par.nsamples) (hv : CanPrint M A0)
    (hs : 1 ≤ M.par.s) (b g : ℕ) (hb : M.par.nburn = b) (hg : M.par.ngap = g) {fwd : (Fin p → ℂ) → (Fin n → ℂ)}
    {grad : (Fin n → ℂ) → (Fin p → ℂ)} {prox : (Fin p → ℂ) → (Fin p → ℂ)} {pri : (Fin p → ℂ) → ℝ}
    (tot : Total M p fwd grad prox pri) (G : (Fin p → ℂ) → (Fin p → ℂ))
    (hG : ActsAs (fun X => gradlogpi M.F M.P M.par.lmda X none) G) (r r1 : R.σ) (sp : StartPoint) (x0 : Fin p → ℂ)
    (hstart : initialSample M R r sp = .ok (List.ofFn x0, List.ofFn (fwd x0), r1)) (N : ℕ)
    (hN : N = if M.par.nsamples = 0 then 0 else b + (M.par.nsamples - 1) * max g 1 + 1) :
    ∃ (co : SkrockCoefs) (f : (Fin p → ℂ) → (Fin p → ℂ) → (Fin p → ℂ)), skrockInit M.par.s = .ok co ∧
    (∀ x z, skrockStep co M.par.s M.par.delta (fun v => .ok (G v)) x z = .ok (f x z)) ∧
    (∀ fuel < N, skrockRun M R A0 r sp fuel = .ok none) ∧
    ∃ st, (∀ fuel ≥ N, skrockRun M R A0 r sp fuel = .ok (some st)) ∧ st.i = N ∧
      A0.applyAll st.ev = A0.ofRows M.par.nsamples fun k => rowOf M fwd pri
        (iter f (noiseSeq R M.par.complex p r1) x0 (b + k * max g 1 + 1)) := by
  have hGe : G = gradVec M.par.lmda fwd grad prox := by
    funext x
    have h1 := hG x
    have h2 := gradlogpi_vec M tot x
    simp only [h2] at h1
    exact (List.ofFn_injective (Except.ok.inj h1)).symm
  subst hGe
  have hNn : N = numIter M.par.nsamples b (spacing M.par) := by rw [hN, spacing_nat _ g hg]; rfl
  rw [hNn]
  obtain ⟨co, hco, -⟩ := C18_total M.par.s hs
  have hex : ∀ x z, ∃ y, skrockStep co M.par.s M.par.delta
      (fun v => .ok (gradVec M.par.lmda fwd grad prox v)) x z = .ok y := by
    intro x z
    obtain ⟨k, hk⟩ := kRec_total co M.par.delta (gradVec M.par.lmda fwd grad prox) x z M.par.s
    exact ⟨k.1, by unfold skrockStep; rw [hk]; rfl⟩
  choose f hf using hex
  refine ⟨co, f, hco, hf, ?_⟩
  have hstep : ∀ k, skrockTransition M R co ⟨List.ofFn (iter f (noiseSeq R M.par.complex p r1) x0 k),
      List.ofFn (fwd (iter f (noiseSeq R M.par.complex p r1) x0 k)), rngSeq R M.par.complex p r1 k⟩ =
      .ok ⟨List.ofFn (iter f (noiseSeq R M.par.complex p r1) x0 (k + 1)),
        List.ofFn (fwd (iter f (noiseSeq R M.par.complex p r1) x0 (k + 1))), rngSeq R M.par.complex p r1 (k + 1)⟩ := by
    intro k
    obtain ⟨y, hy, h2⟩ := skrockTransition_vec M R co tot (iter f (noiseSeq R M.par.complex p r1) x0 k)
      (List.ofFn (fwd (iter f (noiseSeq R M.par.complex p r1) x0 k))) (rngSeq R M.par.complex p r1 k)
    rw [hf] at hy
    obtain rfl := Except.ok.inj hy
    exact h2
  obtain ⟨h1, st, h2, h3, h4⟩ := vec_run M A0 (skrockTransition M R co) (skrockProg M A0) (skrockProg_noWrites M A0) tot
    b hb hA _ _ hstep (fun st hj hns => skrockProg_total M A0 hA hv st hj hns)
  constructor
  · intro fuel hf'
    unfold skrockRun
    rw [hco, hstart]
    simp only [bind, Except.bind]
    rw [skrockBody_eq]
    have := h1 fuel hf'
    simp only [iter, rngSeq] at this
    rw [this]
    rfl
  · refine ⟨{ st with ev := st.ev ++ [Event.done] }, ?_, h3, ?_⟩
    · intro fuel hf'
      unfold skrockRun
      rw [hco, hstart]
      simp only [bind, Except.bind]
      rw [skrockBody_eq]
      have := h2 fuel hf'
      simp only [iter, rngSeq] at this
      rw [this]
      rfl
    · rw [applyAll_append, h4, spacing_nat _ g hg]
      rfl

/-- C42: for arbitrary operators `SKROCK.run` never loops longer than documented. -/
theorem C42_terminates (M : Sampler n) (R : Rng) (A0 : Arrays) (b g : ℕ) (hb : M.par.nburn = b) (hg : M.par.ngap = g)
    (r : R.σ) (sp : StartPoint) (N : ℕ)
    (hN : N = if M.par.nsamples = 0 then 0 else b + (M.par.nsamples - 1) * max g 1 + 1) :
    skrockRun M R A0 r sp N ≠ .ok none ∧
    ∀ fuel st, skrockRun M R A0 r sp fuel = .ok (some st) → N ≤ fuel ∧ st.i = N ∧ st.j = M.par.nsamples := by
  have hNn : N = numIter M.par.nsamples b (spacing M.par) := by rw [hN, spacing_nat _ g hg]; rfl
  rw [hNn]
  constructor
  · intro h
    unfold skrockRun at h
    obtain ⟨co, -, h⟩ := bind_ok h
    obtain ⟨x, -, h⟩ := bind_ok h
    obtain ⟨res, hres, h⟩ := bind_ok h
    rw [skrockBody_eq] at hres
    cases res with
    | none => exact gen_terminates M A0 _ _ (skrockProg_noWrites M A0) _ b hb hres
    | some s => cases Except.ok.inj h
  · intro fuel st h
    unfold skrockRun at h
    obtain ⟨co, -, h⟩ := bind_ok h
    obtain ⟨x, -, h⟩ := bind_ok h
    obtain ⟨res, hres, h⟩ := bind_ok h
    rw [skrockBody_eq] at hres
    cases res with
    | none => cases Except.ok.inj h
    | some s =>
      obtain rfl := Option.some.inj (Except.ok.inj h)
      obtain ⟨hr, h1, h2⟩ := gen_returns M A0 _ _ (skrockProg_noWrites M A0) _ b hb fuel s hres
      exact ⟨h1, (sinv_reach M A0 _ _ (skrockProg_noWrites M A0) _ b hb _ s hr).1, h2⟩

/-! ### A concrete sampler -/

/-- One parameter, one datum 0 with unit variance, identity measurement, flat prior. -/
noncomputable def demo (par : Params) : Sampler 1 where
  F := idOp false 0 1
  P := ⟨fun _ => .ok 0, fun X => .ok X⟩
  par := par
  nparams := 1

theorem demo_total (par : Params) (hl : par.lmda ≠ 0) :
    Total (demo par) 1 (fun x => x) (fun y => y) (fun x => x) (fun _ => 0) := by
  have hm := linModel_analysis (idOp false 0 1) rfl _ _ (idOp_linear false 0 1)
  refine ⟨rfl, fun x => hm.fwd x, fun y => ?_, fun x => rfl, fun x => rfl, hl⟩
  have := hm.grad y
  show (idOp false 0 1).calcGradg _ = _
  rw [this]
  congr 2
  show (1 : Matrix (Fin 1) (Fin 1) ℂ).mulVec (y - fun _ => 0) = y
  rw [Matrix.one_mulVec]
  funext i
  simp

/-- A generator that always returns the given values. -/
noncomputable def constRng (w u : ℝ) : Rng := ⟨Unit, fun _ _ => (fun _ => w, ()), fun _ _ => (fun _ => w, ()), fun _ => (u, ())⟩

theorem demo_start (par : Params) (R : Rng) (r : R.σ) (x0 : Fin 1 → ℂ) (hl : par.lmda ≠ 0) :
    initialSample (demo par) R r (.array1 (List.ofFn x0)) = .ok (List.ofFn x0, List.ofFn x0, r) := by
  have h1 : startVector (demo par) R r (.array1 (List.ofFn x0)) = .ok (List.ofFn x0, r) := by
    simp [startVector, demo]
  unfold initialSample
  rw [h1]
  simp only [bind, Except.bind]
  rw [(demo_total par hl).forward x0]

/-- The hypotheses of C41 are met: the demo sampler with burn-in 3, thinning 2 and 4 samples. -/
example : ∃ (M : Sampler 1) (R : Rng) (r r1 : R.σ) (sp : StartPoint) (x0 : Fin 1 → ℂ), M.par.nburn = (3 : ℕ) ∧
    M.par.ngap = (2 : ℕ) ∧ M.par.nsamples = 4 ∧ (initArrays M).Shaped M.par.nsamples ∧ CanPrint M (initArrays M) ∧
    Total M 1 (fun x => x) (fun y => y) (fun x => x) (fun _ => 0) ∧
    initialSample M R r sp = .ok (List.ofFn x0, List.ofFn x0, r1) :=
  ⟨demo ⟨1, 1 / 2, 1, 1, 4, 3, 2, true, 0, ["chain"]⟩, constRng 1 0, (), (), .array1 (List.ofFn fun _ => 5), fun _ => 5,
    rfl, rfl, rfl, initArrays_shaped _, .inl le_rfl, demo_total _ one_ne_zero, demo_start _ _ _ _ one_ne_zero⟩

end Pxmcmc
