import Verif.Lemmas.Resume
import Verif.Props.Denoising
import Verif.Props.Averages
import Verif.Props.SavedLaplace
import Verif.Props.MalaExamples

/-! # C144: a run can be continued from its last sample

The sampler that continues a run has the settings of the first one except that its burn-in is `max(ngap,1)-1` — one thinning gap minus the
iteration that saves — and that it may record another number of samples and other arrays.  It is started from the last saved sample with
the random numbers that follow. -/

namespace Pxmcmc
variable {n : ℕ}

theorem initialSample_array1 (M : Sampler n) (R : Rng) (r : R.σ) (x : List ℂ) (y : List ℂ × List ℂ × R.σ)
    (h : initialSample M R r (.array1 x) = .ok y) : ∃ P, M.F.forward x = .ok P ∧ y = (x, P, r) := by
  unfold initialSample at h
  obtain ⟨xr, y1, h⟩ := bind_ok h
  obtain ⟨P, y2, h⟩ := bind_ok h
  simp only [startVector] at y1
  split at y1
  · obtain rfl := Except.ok.inj y1
    exact ⟨P, y2, (Except.ok.inj h).symm⟩
  · cases y1

theorem applyAll_done (A : Arrays) (ev : List Event) : A.applyAll (ev ++ [Event.done]) = A.applyAll ev := by
  rw [applyAll_append]
  rfl

/-- C144 for MYULA. -/
theorem C144_myula (M : Sampler n) (hM : KeepsDtype M) (R : Rng) (A1 A2 A : Arrays) (ns2 b g : ℕ) (v2 v : ℤ) (tr2 tr : List String)
    (hb : M.par.nburn = b) (hg : M.par.ngap = g) (hA1 : A1.Shaped M.par.nsamples) (hA2 : A2.Shaped ns2) (hA : A.Shaped (M.par.nsamples + ns2))
    (hp : CanPrint (M.resched (M.par.nsamples + ns2) b g v tr) A)
    (r : R.σ) (sp : StartPoint) (hsp : ∀ v, sp = .array1 v → FitsDtype M.par.complex v) (fuel1 fuel2 : ℕ) (s1 s2 : St R)
    (h1 : myulaRun M R A1 r sp fuel1 = .ok (some s1))
    (cs : List (List ℂ)) (x : List ℂ) (hcs : (A1.applyAll s1.ev).chain = some cs) (hx : cs.getLast? = some x)
    (h2 : myulaRun (M.resched ns2 ((max g 1 - 1 : ℕ) : ℤ) g v2 tr2) R A2 s1.cur.rng (.array1 x) fuel2 = .ok (some s2)) :
    x = s1.cur.X ∧ ∃ s, (∀ fuel ≥ s1.i + s2.i, myulaRun (M.resched (M.par.nsamples + ns2) b g v tr) R A r sp fuel = .ok (some s)) ∧
      s.i = s1.i + s2.i ∧ s.cur = s2.cur ∧
      (∀ k < M.par.nsamples, SameRow (A.applyAll s.ev) (A1.applyAll s1.ev) k k) ∧
      ∀ k < ns2, SameRow (A.applyAll s.ev) (A2.applyAll s2.ev) (M.par.nsamples + k) k := by
  unfold myulaRun at h1 h2
  obtain ⟨x0, e1, q1⟩ := bind_ok h1
  obtain ⟨o1, e2, p1⟩ := bind_ok q1
  obtain ⟨x2, e3, q2⟩ := bind_ok h2
  obtain ⟨o2, e4, p2⟩ := bind_ok q2
  clear h1 h2 q1 q2
  obtain ⟨t1, rfl, rfl⟩ := Option.map_eq_some_iff.mp (Except.ok.inj p1)
  obtain ⟨t2, rfl, rfl⟩ := Option.map_eq_some_iff.mp (Except.ok.inj p2)
  obtain ⟨P, hP, rfl⟩ := initialSample_array1 _ R _ x _ e3
  rw [myulaBody_eq] at e2 e4
  simp only [applyAll_done] at hcs ⊢
  obtain ⟨k1, s, k2, k3, k4, k5, k6⟩ := gen_resume M A1 A2 A ns2 b g v2 v tr2 tr hb hg hA1 hA2 hA (myulaStep M R) _ _
    (myulaProg (M.resched (M.par.nsamples + ns2) b g v tr) A) (myulaProg_noWrites M A1) (myulaProg_noWrites _ A2) (myulaProg_noWrites _ A)
    (fun st => myulaProg_total _ A hA hp st) (myulaStep_forward M R) (myulaStep_holds M hM R) _
    (initialSample_holds M hM R r sp hsp _ e1) fuel1 fuel2 t1 t2 e2 cs x hcs hx P hP e4
  refine ⟨k1, { s with ev := s.ev ++ [Event.done] }, fun fuel hf => ?_, k3, k4, ?_, ?_⟩
  · have e5 : initialSample (M.resched (M.par.nsamples + ns2) b g v tr) R r sp = .ok x0 := e1
    unfold myulaRun
    rw [e5, myulaBody_eq]
    simp only [bind, Except.bind]
    erw [k2 fuel hf]
    rfl
  · simp only [applyAll_done]; exact k5
  · simp only [applyAll_done]; exact k6

/-- C144 for SKROCK. -/
theorem C144_skrock (M : Sampler n) (hM : KeepsDtype M) (R : Rng) (A1 A2 A : Arrays) (ns2 b g : ℕ) (v2 v : ℤ) (tr2 tr : List String)
    (hb : M.par.nburn = b) (hg : M.par.ngap = g) (hA1 : A1.Shaped M.par.nsamples) (hA2 : A2.Shaped ns2) (hA : A.Shaped (M.par.nsamples + ns2))
    (hp : CanPrint (M.resched (M.par.nsamples + ns2) b g v tr) A)
    (r : R.σ) (sp : StartPoint) (hsp : ∀ v, sp = .array1 v → FitsDtype M.par.complex v) (fuel1 fuel2 : ℕ) (s1 s2 : St R)
    (h1 : skrockRun M R A1 r sp fuel1 = .ok (some s1))
    (cs : List (List ℂ)) (x : List ℂ) (hcs : (A1.applyAll s1.ev).chain = some cs) (hx : cs.getLast? = some x)
    (h2 : skrockRun (M.resched ns2 ((max g 1 - 1 : ℕ) : ℤ) g v2 tr2) R A2 s1.cur.rng (.array1 x) fuel2 = .ok (some s2)) :
    x = s1.cur.X ∧ ∃ s, (∀ fuel ≥ s1.i + s2.i, skrockRun (M.resched (M.par.nsamples + ns2) b g v tr) R A r sp fuel = .ok (some s)) ∧
      s.i = s1.i + s2.i ∧ s.cur = s2.cur ∧
      (∀ k < M.par.nsamples, SameRow (A.applyAll s.ev) (A1.applyAll s1.ev) k k) ∧
      ∀ k < ns2, SameRow (A.applyAll s.ev) (A2.applyAll s2.ev) (M.par.nsamples + k) k := by
  unfold skrockRun at h1 h2
  obtain ⟨co, e0, g1⟩ := bind_ok h1
  obtain ⟨x0, e1, q1⟩ := bind_ok g1
  obtain ⟨o1, e2, p1⟩ := bind_ok q1
  obtain ⟨co', e0', g2⟩ := bind_ok h2
  obtain rfl := Except.ok.inj (e0.symm.trans e0')
  obtain ⟨x2, e3, q2⟩ := bind_ok g2
  obtain ⟨o2, e4, p2⟩ := bind_ok q2
  clear h1 h2 q1 q2 g1 g2
  obtain ⟨t1, rfl, rfl⟩ := Option.map_eq_some_iff.mp (Except.ok.inj p1)
  obtain ⟨t2, rfl, rfl⟩ := Option.map_eq_some_iff.mp (Except.ok.inj p2)
  obtain ⟨P, hP, rfl⟩ := initialSample_array1 _ R _ x _ e3
  rw [skrockBody_eq] at e2 e4
  simp only [applyAll_done] at hcs ⊢
  obtain ⟨k1, s, k2, k3, k4, k5, k6⟩ := gen_resume M A1 A2 A ns2 b g v2 v tr2 tr hb hg hA1 hA2 hA (skrockTransition M R co) _ _
    (skrockProg (M.resched (M.par.nsamples + ns2) b g v tr) A) (skrockProg_noWrites M A1) (skrockProg_noWrites _ A2) (skrockProg_noWrites _ A)
    (fun st => skrockProg_total _ A hA hp st) (skrockTransition_forward M R co) (skrockTransition_holds M hM R co) _
    (initialSample_holds M hM R r sp hsp _ e1) fuel1 fuel2 t1 t2 e2 cs x hcs hx P hP e4
  refine ⟨k1, { s with ev := s.ev ++ [Event.done] }, fun fuel hf => ?_, k3, k4, ?_, ?_⟩
  · have e5 : initialSample (M.resched (M.par.nsamples + ns2) b g v tr) R r sp = .ok x0 := e1
    have e6 : skrockInit (M.resched (M.par.nsamples + ns2) b g v tr).par.s = .ok co := e0
    unfold skrockRun
    rw [e6, e5]
    simp only [bind, Except.bind, skrockBody_eq]
    erw [k2 fuel hf]
    rfl
  · simp only [applyAll_done]; exact k5
  · simp only [applyAll_done]; exact k6

/-- C144 for PxMALA with `tune_delta=False`.  Missing: `tune_delta=True`, for which the claim is false (`C144_tuned_refuted`). -/
theorem C144_pxmala_partial (M : Sampler n) (hM : KeepsDtype M) (R : Rng) (A1 A2 A : Arrays) (ns2 b g : ℕ) (v2 v : ℤ) (tr2 tr : List String)
    (hb : M.par.nburn = b) (hg : M.par.ngap = g) (hA1 : A1.Shaped M.par.nsamples) (hA2 : A2.Shaped ns2) (hA : A.Shaped (M.par.nsamples + ns2))
    (delta : ℝ) (r : R.σ) (sp : StartPoint) (hsp : ∀ v, sp = .array1 v → FitsDtype M.par.complex v) (fuel1 fuel2 : ℕ) (s1 s2 : MalaSt R)
    (h1 : malaRun M R false delta A1 r sp fuel1 = .ok (some s1))
    (cs : List (List ℂ)) (x : List ℂ) (hcs : (A1.applyAll s1.ev).chain = some cs) (hx : cs.getLast? = some x)
    (h2 : malaRun (M.resched ns2 ((max g 1 - 1 : ℕ) : ℤ) g v2 tr2) R false delta A2 s1.rng (.array1 x) fuel2 = .ok (some s2)) :
    x = s1.cur.X ∧ ∃ s, (∀ fuel ≥ s1.i + s2.i, malaRun (M.resched (M.par.nsamples + ns2) b g v tr) R false delta A r sp fuel = .ok (some s)) ∧
      s.i = s1.i + s2.i ∧ s.cur = s2.cur ∧ s.rng = s2.rng ∧ s.acc = s1.acc ++ s2.acc ∧ s.delta = s2.delta ∧ s.deltas = s2.deltas ∧
      (∀ k < M.par.nsamples, SameRow (A.applyAll s.ev) (A1.applyAll s1.ev) k k) ∧
      ∀ k < ns2, SameRow (A.applyAll s.ev) (A2.applyAll s2.ev) (M.par.nsamples + k) k := by
  obtain ⟨s0, T, h0, hT, hcore, -⟩ := malaRun_result M R false delta A1 hA1 b hb r sp fuel1 s1 h1
  have hd : s1.delta = delta := by
    have w : s1.delta = (T s1.i).delta := congrArg Core.delta hcore
    rw [w, (untuned_const M s0.core _ T hT s1.i le_rfl).1]
    exact (malaInit_ok M R delta r sp s0 h0).2.2.2.2.1
  rw [← hd] at h2
  exact mala_resume M hM A1 A2 A ns2 b g v2 v tr2 tr hb hg hA1 hA2 hA delta r sp hsp fuel1 fuel2 s1 s2 h1 cs x hcs hx h2

/-! ## Tuned PxMALA -/

/-- A generator whose Gaussian numbers are 0, 0, 1, 1, … and whose uniform numbers are 0, so that every proposal is accepted. -/
def lateRng : Rng := ⟨ℕ, fun s _ => (fun _ => if s < 2 then 0 else 1, s + 1), fun s _ => (fun _ => 0, s + 1), fun s => (0, s)⟩

/-- The tuned step size after iteration `i` has accepted. -/
noncomputable def tunedUp (lmda delta : ℝ) (i : ℕ) : ℝ :=
  min (max (delta * (1 + (1 - 1 / 2) / ((i : ℝ) + 1) ^ (3 / 4 : ℝ))) (lmda * 1e-8)) (lmda / 2)

/-- The step sizes when every proposal is accepted. -/
noncomputable def tunedSeq (lmda delta : ℝ) : ℕ → ℝ
  | 0 => delta
  | k + 1 => tunedUp lmda (tunedSeq lmda delta k) k

/-- One tuned iteration in vector form when the uniform number is 0. -/
theorem coreStep_accepts {p : ℕ} (M : Sampler n) (R : Rng) {fwd : (Fin p → ℂ) → (Fin n → ℂ)} {grad : (Fin n → ℂ) → (Fin p → ℂ)}
    {prox : (Fin p → ℂ) → (Fin p → ℂ)} {pri : (Fin p → ℂ) → ℝ} (tot : Total M p fwd grad prox pri) (c : Core R) (x : Fin p → ℂ)
    (hx : c.cur = cacheOf M fwd grad prox pri x) (y : Fin p → ℂ) (hy : ulaStep c.delta (gradVec M.par.lmda fwd grad prox) x
      (drawVec R R.randn M.par.complex c.rng p).1 = y) (r1 : R.σ) (hr : (drawVec R R.randn M.par.complex c.rng p).2 = r1)
    (hu : (R.rand r1).1 = 0) (ha : c.acc.length = c.i) :
    coreStep M R true c = .ok ⟨c.i + 1, cacheOf M fwd grad prox pri y, (R.rand r1).2, tunedUp M.par.lmda c.delta c.i, c.acc ++ [1],
      c.deltas ++ [tunedUp M.par.lmda c.delta c.i]⟩ := by
  unfold coreStep
  rw [hx, propose_vec M R tot]
  simp only [bind, Except.bind]
  rw [hy, hr, logAlpha_vec]
  have hac : ∀ a, acceptTest (R.rand r1).1 a := fun a => .inl hu
  have hget : pyGet (c.acc ++ [1]) (c.i : ℤ) = .ok 1 := by
    apply pyGet_nat
    rw [← ha, List.getElem?_concat_length]
  simp only [hac, if_true, tuneDelta, hget, bind, Except.bind, tunedUp, Nat.cast_one]

theorem late_step (M : Sampler n) {fwd : (Fin 1 → ℂ) → (Fin n → ℂ)} {grad : (Fin n → ℂ) → (Fin 1 → ℂ)} {prox : (Fin 1 → ℂ) → (Fin 1 → ℂ)}
    {pri : (Fin 1 → ℂ) → ℝ} (tot : Total M 1 fwd grad prox pri) (hG : gradVec M.par.lmda fwd grad prox (fun _ => 0) = fun _ => 0)
    (hc : M.par.complex = false) (k r : ℕ) (d : ℝ) (acc : List ℕ) (ds : List ℝ) (ha : acc.length = k) :
    coreStep M lateRng true ⟨k, cacheOf M fwd grad prox pri fun _ => 0, (r : ℕ), d, acc, ds⟩ =
      .ok ⟨k + 1, cacheOf M fwd grad prox pri fun _ => if r < 2 then 0 else ((√(2 * d) : ℝ) : ℂ), (r + 1 : ℕ), tunedUp M.par.lmda d k,
        acc ++ [1], ds ++ [tunedUp M.par.lmda d k]⟩ := by
  have hdraw : drawVec lateRng lateRng.randn M.par.complex (r : ℕ) 1 = (fun _ => if r < 2 then 0 else 1, (r + 1 : ℕ)) := by
    rw [hc]
    have e : drawVec lateRng lateRng.randn false (r : ℕ) 1 = (fun i : Fin 1 => (((if r < 2 then 0 else 1 : ℝ)) : ℂ), (r + 1 : ℕ)) := rfl
    rw [e]
    refine Prod.ext ?_ rfl
    funext i
    simp only
    split <;> simp
  have hy : ulaStep d (gradVec M.par.lmda fwd grad prox) (fun _ => (0 : ℂ)) (drawVec lateRng lateRng.randn M.par.complex (r : ℕ) 1).1 =
      fun _ => if r < 2 then 0 else ((√(2 * d) : ℝ) : ℂ) := by
    rw [hdraw]
    funext i
    simp only [ulaStep, hG]
    split <;> simp
  exact coreStep_accepts M lateRng tot ⟨k, cacheOf M fwd grad prox pri fun _ => 0, (r : ℕ), d, acc, ds⟩ _ rfl _ hy (r + 1 : ℕ)
    (by rw [hdraw]) rfl ha

/-- A tuned run with this generator. -/
theorem late_run (M : Sampler n) {fwd : (Fin 1 → ℂ) → (Fin n → ℂ)} {grad : (Fin n → ℂ) → (Fin 1 → ℂ)} {prox : (Fin 1 → ℂ) → (Fin 1 → ℂ)}
    {pri : (Fin 1 → ℂ) → ℝ} (tot : Total M 1 fwd grad prox pri) (hG : gradVec M.par.lmda fwd grad prox (fun _ => 0) = fun _ => 0)
    (hc : M.par.complex = false) (hb : M.par.nburn = 0) (hg : M.par.ngap = 1) (hch : "chain" ∈ M.par.track) (r : ℕ) (d : ℝ)
    (hns : 0 < M.par.nsamples) (hr : r + M.par.nsamples ≤ 3) :
    ∃ s cs, malaRun M lateRng true d (initArrays M) (r : ℕ) (.array1 [0]) M.par.nsamples = .ok (some s) ∧ s.rng = (r + M.par.nsamples : ℕ) ∧
      s.delta = tunedSeq M.par.lmda d M.par.nsamples ∧ ((initArrays M).applyAll s.ev).chain = some cs ∧
      cs.getLast? = some [if r + M.par.nsamples < 3 then 0 else ((√(2 * tunedSeq M.par.lmda d (M.par.nsamples - 1)) : ℝ) : ℂ)] := by
  have hA := initArrays_shaped M
  have hstart := start_array lateRng tot (r : ℕ) fun _ => (0 : ℂ)
  have hinit := init_vec M lateRng tot d (r : ℕ) (r : ℕ) _ _ hstart
  rw [show (List.ofFn fun _ : Fin 1 => (0 : ℂ)) = [0] by simp] at hinit
  set ns := M.par.nsamples with hnsd
  set val : ℕ → ℂ := fun k => if r + k < 3 then 0 else ((√(2 * tunedSeq M.par.lmda d (k - 1)) : ℝ) : ℂ) with hval
  set T : ℕ → Core lateRng := fun k => ⟨k, cacheOf M fwd grad prox pri fun _ => val k, (r + k : ℕ), tunedSeq M.par.lmda d k, List.replicate k 1,
    (List.range (k + 1)).map (tunedSeq M.par.lmda d)⟩ with hT
  have hv : ∀ k < ns, val k = 0 := fun k hk => if_pos (by omega)
  have hH : CoreHist M lateRng true (T 0) ns T := by
    refine ⟨rfl, fun k hk => ?_⟩
    have := late_step M tot hG hc k (r + k) (tunedSeq M.par.lmda d k) (List.replicate k 1) ((List.range (k + 1)).map (tunedSeq M.par.lmda d)) (by simp)
    simp only [hT, hv k hk]
    rw [this]
    congr 1
    have e1 : (fun _ : Fin 1 => if r + k < 2 then (0 : ℂ) else ((√(2 * tunedSeq M.par.lmda d k) : ℝ) : ℂ)) = fun _ => val (k + 1) := by
      funext _
      simp only [hval, Nat.add_sub_cancel, show r + k < 2 ↔ r + (k + 1) < 3 by omega]
    rw [e1, List.range_succ (n := k + 1), List.map_append]
    rw [show List.replicate (k + 1) 1 = List.replicate k 1 ++ [1] by simp [List.replicate_succ']]
    rfl
  have hsp : spacing M.par = 1 := by simp [spacing, hg]
  have hsi : ∀ k, savedIters (List.replicate k 1) 0 1 = List.range k := by
    intro k
    induction k with
    | zero => rfl
    | succ k ih =>
      rw [show List.replicate (k + 1) 1 = List.replicate k 1 ++ [1] by simp [List.replicate_succ'], savedIters_concat, ih, List.range_succ]
      simp
  have hT0 : (⟨0, 0, cacheOf M fwd grad prox pri fun _ => 0, (r : ℕ), d, [], [d], []⟩ : MalaSt lateRng).core = T 0 := by
    simp only [MalaSt.core, hT, hv 0 hns]
    rfl
  obtain ⟨s, hreach, hsc, hsj⟩ := mala_of_hist M true (initArrays M) 0 (by rw [hb]; rfl) hA
    ⟨0, 0, cacheOf M fwd grad prox pri fun _ => 0, (r : ℕ), d, [], [d], []⟩ rfl rfl rfl rfl ns T (by rw [hT0]; exact hH)
    (fun k _ => ⟨by simp [hT, cacheOf, tot.nparams], by simp [hT, cacheOf]⟩)
    (fun k hk => by rw [hsp]; simp only [hT]; rw [hsi]; simpa using hk)
  have hjn : s.j = ns := by rw [hsj, hsp]; simp only [hT]; rw [hsi]; simp
  have hrun : malaRun M lateRng true d (initArrays M) (r : ℕ) (.array1 [0]) ns = .ok (some { s with ev := s.ev ++ [Event.done] }) := by
    have := hreach.returns (by simp [malaCond, hjn, hnsd]) 0
    rw [Nat.add_zero] at this
    unfold malaRun
    rw [hinit]
    simp only [bind, Except.bind, this, Option.map_some]
  obtain ⟨s0', W, h0', hW, hcore3, -, -, hlen3, harr3, -⟩ := malaRun_result M lateRng true d (initArrays M) hA 0 (by rw [hb]; rfl) _ _ _ _ hrun
  obtain rfl := Except.ok.inj (hinit.symm.trans h0')
  have hacc : s.acc = List.replicate ns 1 := congrArg Core.acc hsc
  have hsI : s.i = ns := congrArg Core.i hsc
  have hWT : ∀ k ≤ ns, W k = T k := by
    rw [hT0] at hW
    simp only [hsI] at hW
    exact hW.unique hH
  rw [hsp] at harr3
  simp only [hacc, hsi] at harr3
  have hcs : ((initArrays M).applyAll (s.ev ++ [Event.done])).chain = some ((List.range ns).map fun k => (histRow M W (List.range ns) k).chain) := by
    rw [harr3, ← hnsd]
    simp [Arrays.ofRows, initArrays, hch]
  refine ⟨_, _, hrun, congrArg Core.rng hsc, congrArg Core.delta hsc, hcs, ?_⟩
  rw [List.getLast?_map, List.getLast?_range, if_neg (by omega), Option.map_some]
  congr 1
  simp only [histRow, List.getElem?_range (show ns - 1 < ns by omega), Option.getD_some, show ns - 1 + 1 = ns by omega, hWT ns le_rfl, hT, cacheRow]
  rw [mkRow_chain M _ _ _ (by simp [cacheOf, tot.nparams])]
  · simp [cacheOf, hval]
  · refine .inr fun z hz => ?_
    simp only [cacheOf, List.mem_ofFn, hval] at hz
    obtain ⟨_, rfl⟩ := hz
    split <;> simp

/-- C144 is violated by PxMALA with `tune_delta=True`: the step size is adapted with the number of the iteration, which starts again from 0.  A
denoising problem with one parameter is sampled from 0: 3 samples at once, or 1 and then 2 from the last one, also with the last step size
and the random numbers that follow.  The last samples differ. -/
theorem C144_tuned_refuted (st : String) (hst : st = "analysis" ∨ st = "synthesis") (t : ℝ) (par : Params) (hl : par.lmda = 2) (hd : par.delta = 1 / 10)
    (hc : par.complex = false) (hb : par.nburn = 0) (hg : par.ngap = 1) (hch : "chain" ∈ par.track) :
    ∃ (F : ForwardOp 1) (L : L1 ℂ), ForwardOp.init (⟨false, fun _ => 0⟩ : DataVec 1) (.num ((1 : ℝ) : ℂ) false) st (some identityTransform)
        (some (identityMeasurement 1 1)) (some 1) = .ok F ∧ L1.init st identityTransform.op identityTransform.adj (.scalar t) = .ok L ∧
      let M : ℕ → Sampler 1 := fun k => ⟨F, L.toPrior, { par with nsamples := k }, 1⟩
      ∃ (s1 s2 s : MalaSt lateRng) (cs1 cs2 cs : List (List ℂ)) (x : List ℂ),
        malaRun (M 1) lateRng true par.delta (initArrays (M 1)) (0 : ℕ) (.array1 [0]) 1 = .ok (some s1) ∧
        ((initArrays (M 1)).applyAll s1.ev).chain = some cs1 ∧ cs1.getLast? = some x ∧
        malaRun (M 2) lateRng true s1.delta (initArrays (M 2)) s1.rng (.array1 x) 2 = .ok (some s2) ∧
        ((initArrays (M 2)).applyAll s2.ev).chain = some cs2 ∧
        malaRun (M 3) lateRng true par.delta (initArrays (M 3)) (0 : ℕ) (.array1 [0]) 3 = .ok (some s) ∧
        ((initArrays (M 3)).applyAll s.ev).chain = some cs ∧ cs.getLast? ≠ cs2.getLast? := by
  obtain ⟨F, L, hF, hL, hdat, hcov, hnp, tot⟩ := denoise_total (⟨false, fun _ => 0⟩ : DataVec 1) rfl (.num ((1 : ℝ) : ℂ) false)
    (fun _ => 1) (.scalar 1 one_pos) st hst t
  refine ⟨F, L, hF, hL, ?_⟩
  intro M
  have tk : ∀ k, Total (M k) 1 _ _ _ _ := fun k => tot { par with nsamples := k } (by simp [hl])
  have hG : ∀ k, gradVec (M k).par.lmda (fun x : Fin 1 → ℂ => x) (fun y i => (y i - (fun _ => 0 : Fin 1 → ℂ) i) / (((1 : ℝ) ^ 2 : ℝ) : ℂ))
      (fun x i => softEntry (x i) t) (fun _ => 0) = fun _ => 0 := by
    intro k
    funext i
    simp [gradVec, softEntry, signEntry]
  obtain ⟨s1, cs1, a1, a2, a3, a4, a5⟩ := late_run (M 1) (tk 1) (hG 1) hc hb hg hch 0 par.delta (by simp [M]) (by simp [M])
  obtain ⟨s2, cs2, b1, b2, b3, b4, b5⟩ := late_run (M 2) (tk 2) (hG 2) hc hb hg hch 1 s1.delta (by simp [M]) (by simp [M])
  obtain ⟨s, cs, c1, c2, c3, c4, c5⟩ := late_run (M 3) (tk 3) (hG 3) hc hb hg hch 0 par.delta (by simp [M]) (by simp [M])
  refine ⟨s1, s2, s, cs1, cs2, cs, [0], a1, a4, by rw [a5]; simp [M], by rw [a2]; exact b1, b4, c1, c4, ?_⟩
  rw [b5, c5, a3]
  simp only [M, hl, hd]
  simp only [show ¬ (1 + 2 < 3) by omega, if_false, ne_eq, Option.some.injEq, List.cons.injEq, and_true, Complex.ofReal_inj]
  refine ne_of_lt (Real.sqrt_lt_sqrt ?_ ?_)
  all_goals simp only [Nat.add_one_sub_one, tunedSeq]
  · have : 0 ≤ tunedUp 2 (tunedUp 2 (1 / 10) 0) 1 := le_min (le_max_of_le_right (by norm_num)) (by norm_num)
    positivity
  · have e1 : tunedUp 2 (1 / 10) 0 = 3 / 20 := by norm_num [tunedUp]
    have e2 : tunedUp 2 (3 / 20) 0 = 9 / 40 := by norm_num [tunedUp]
    rw [e1, e2]
    have h2 : (1 : ℝ) < (((1 : ℕ) : ℝ) + 1) ^ (3 / 4 : ℝ) := Real.one_lt_rpow (by norm_num) (by norm_num)
    have h3 : (1 - 1 / 2) / (((1 : ℕ) : ℝ) + 1) ^ (3 / 4 : ℝ) < 1 / 2 := by
      rw [div_lt_iff₀ (by linarith)]
      linarith
    have : tunedUp 2 (3 / 20) 1 < 9 / 40 := min_lt_of_left_lt (max_lt (by linarith) (by norm_num))
    linarith

example : ∃ par : Params, par.lmda = 2 ∧ par.delta = 1 / 10 ∧ par.complex = false ∧ par.nburn = 0 ∧ par.ngap = 1 ∧ "chain" ∈ par.track :=
  ⟨⟨2, 1 / 10, 1, 1, 3, 0, 1, false, 0, ["chain"]⟩, rfl, rfl, rfl, rfl, rfl, by simp⟩

/-! ## Examples -/

theorem demo_keeps (par : Params) (hl : par.lmda ≠ 0) : KeepsDtype (demo par) :=
  keepsDtype_of_total _ (demo_total par hl) (.inr ⟨fun _ h => h, fun _ h => h, fun _ h => h⟩)

theorem resched_shaped (M : Sampler n) (ns : ℕ) (b g v : ℤ) (tr : List String) : (initArrays (M.resched ns b g v tr)).Shaped ns :=
  initArrays_shaped (M.resched ns b g v tr)

/-- Parameters of the examples: real, no printing, thinning 2. -/
noncomputable def resPar (ns : ℕ) (b : ℕ) : Params := ⟨1, 1 / 2, 1, 2, ns, b, (2 : ℕ), false, 0, ["chain"]⟩

/-- The hypotheses for MYULA are met: 3 samples and then 2 with burn-in 4 and thinning 2. -/
example : ∃ (s1 s2 : St (constRng 1 0)) (cs : List (List ℂ)) (x : List ℂ) (f1 f2 : ℕ),
    KeepsDtype (demo (resPar 3 4)) ∧ (initArrays (demo (resPar 3 4))).Shaped 3 ∧
    CanPrint ((demo (resPar 3 4)).resched (3 + 2) (4 : ℕ) (2 : ℕ) 0 ["chain"]) (initArrays (demo (resPar 5 4))) ∧ FitsDtype false [1] ∧
    myulaRun (demo (resPar 3 4)) (constRng 1 0) (initArrays (demo (resPar 3 4))) () (.array1 [1]) f1 = .ok (some s1) ∧
    ((initArrays (demo (resPar 3 4))).applyAll s1.ev).chain = some cs ∧ cs.getLast? = some x ∧
    myulaRun ((demo (resPar 3 4)).resched 2 ((max 2 1 - 1 : ℕ) : ℤ) (2 : ℕ) 0 ["chain"]) (constRng 1 0) (initArrays (demo (resPar 2 1)))
      s1.cur.rng (.array1 x) f2 = .ok (some s2) := by
  have key : ∀ (ns b : ℕ) (x0 : Fin 1 → ℂ), ∃ st f, myulaRun (demo (resPar ns b)) (constRng 1 0) (initArrays (demo (resPar ns b))) ()
      (.array1 (List.ofFn x0)) f = .ok (some st) ∧ ∃ y : ℕ → Fin 1 → ℂ, (initArrays (demo (resPar ns b))).applyAll st.ev =
        (initArrays (demo (resPar ns b))).ofRows ns fun k => rowOf (demo (resPar ns b)) (fun x => x) (fun _ => 0) (y k) := by
    intro ns b x0
    obtain ⟨-, st, h, -, h'⟩ := C41_schedule (demo (resPar ns b)) (constRng 1 0) _ (initArrays_shaped _) (.inl le_rfl) b 2 rfl rfl
      (demo_total _ one_ne_zero) _ (fun x => gradlogpi_vec _ (demo_total _ one_ne_zero) x) () () (.array1 (List.ofFn x0)) x0
      (demo_start _ _ _ _ one_ne_zero) _ rfl
    exact ⟨st, _, h _ le_rfl, _, h'⟩
  obtain ⟨s1, f1, h1, y, hy⟩ := key 3 4 fun _ => 1
  obtain ⟨s2, f2, h2, -⟩ := key 2 1 fun i => store false (y 2 i)
  refine ⟨s1, s2, _, _, f1, f2, demo_keeps _ one_ne_zero, initArrays_shaped _, .inl le_rfl, .inr (by simp), by simpa using h1, by rw [hy]; rfl, ?_, h2⟩
  rfl

/-- The hypotheses for SKROCK with two stages are met. -/
example : ∃ (s1 s2 : St (constRng 1 0)) (cs : List (List ℂ)) (x : List ℂ) (f1 f2 : ℕ),
    KeepsDtype (demo (resPar 3 4)) ∧ (initArrays (demo (resPar 3 4))).Shaped 3 ∧
    CanPrint ((demo (resPar 3 4)).resched (3 + 2) (4 : ℕ) (2 : ℕ) 0 ["chain"]) (initArrays (demo (resPar 5 4))) ∧ FitsDtype false [1] ∧
    skrockRun (demo (resPar 3 4)) (constRng 1 0) (initArrays (demo (resPar 3 4))) () (.array1 [1]) f1 = .ok (some s1) ∧
    ((initArrays (demo (resPar 3 4))).applyAll s1.ev).chain = some cs ∧ cs.getLast? = some x ∧
    skrockRun ((demo (resPar 3 4)).resched 2 ((max 2 1 - 1 : ℕ) : ℤ) (2 : ℕ) 0 ["chain"]) (constRng 1 0) (initArrays (demo (resPar 2 1)))
      s1.cur.rng (.array1 x) f2 = .ok (some s2) := by
  have key : ∀ (ns b : ℕ) (x0 : Fin 1 → ℂ), ∃ st f, skrockRun (demo (resPar ns b)) (constRng 1 0) (initArrays (demo (resPar ns b))) ()
      (.array1 (List.ofFn x0)) f = .ok (some st) ∧ ∃ y : ℕ → Fin 1 → ℂ, (initArrays (demo (resPar ns b))).applyAll st.ev =
        (initArrays (demo (resPar ns b))).ofRows ns fun k => rowOf (demo (resPar ns b)) (fun x => x) (fun _ => 0) (y k) := by
    intro ns b x0
    obtain ⟨_, _, -, -, -, st, h, -, h'⟩ := C42_schedule (demo (resPar ns b)) (constRng 1 0) _ (initArrays_shaped _) (.inl le_rfl)
      (by show 1 ≤ 2; omega) b 2 rfl rfl
      (demo_total _ one_ne_zero) _ (fun x => gradlogpi_vec _ (demo_total _ one_ne_zero) x) () () (.array1 (List.ofFn x0)) x0
      (demo_start _ _ _ _ one_ne_zero) _ rfl
    exact ⟨st, _, h _ le_rfl, _, h'⟩
  obtain ⟨s1, f1, h1, y, hy⟩ := key 3 4 fun _ => 1
  obtain ⟨s2, f2, h2, -⟩ := key 2 1 fun i => store false (y 2 i)
  refine ⟨s1, s2, _, _, f1, f2, demo_keeps _ one_ne_zero, initArrays_shaped _, .inl le_rfl, .inr (by simp), by simpa using h1, by rw [hy]; rfl, ?_, h2⟩
  rfl

/-- A run that accepts everything returns. -/
theorem accepting_returns (par : Params) (hl : par.lmda ≠ 0) (R : Rng) (hu : ∀ r, (R.rand r).1 = 0) (delta : ℝ) (r : R.σ) (x0 : Fin 1 → ℂ)
    (fuel b g : ℕ) (hb : par.nburn = b) (hg : par.ngap = g) (hd : ¬ acceptedThinned (List.replicate fuel 1) b g < par.nsamples) :
    ∃ st, malaRun (demo par) R false delta (initArrays (demo par)) r (.array1 (List.ofFn x0)) fuel = .ok (some st) := by
  have tot := demo_total par hl
  have hstart := demo_start par R r x0 hl
  obtain ⟨o, ho⟩ := mala_no_error (demo par) R tot false _ (initArrays_shaped _) delta r r _ x0 hstart fuel
  cases o with
  | some st => exact ⟨st, ho⟩
  | none =>
    exfalso
    have hi := init_vec (demo par) R tot delta r r _ x0 hstart
    obtain ⟨s, hr, hlen, hlt⟩ := (C54_stops_partial (demo par) R false delta _ (initArrays_shaped _) b g hb hg r _).2.1 fuel _ hi ho
    obtain ⟨-, -, -, T, hT, hcore, -⟩ := minv_reach (demo par) R false _ b hb delta r _ _ hi fuel s hr
    have hT' : ∀ k ≤ fuel, (T k).acc = List.replicate k 1 := by
      intro k
      induction k with
      | zero => intro _; rw [hT.1]; rfl
      | succ k ih =>
        intro hk
        obtain ⟨pr, a, v, -, -, -, h1, -, h2, -⟩ := coreStep_ok _ R false _ _ (hT.2 k (by omega))
        rcases h2 with ⟨-, h2, -⟩ | ⟨h2, -⟩
        · rw [h1, h2, ih (by omega), List.replicate_succ']
        · exact absurd (.inl (hu _)) h2
    have hacc : s.acc = (T fuel).acc := congrArg Core.acc hcore
    rw [hacc, hT' fuel le_rfl] at hlt
    exact hd hlt

/-- The hypotheses for PxMALA are met: 3 samples and then 2 with burn-in 4 and thinning 2. -/
example : ∃ (s1 s2 : MalaSt (constRng 1 0)) (cs : List (List ℂ)) (x : List ℂ) (f1 f2 : ℕ),
    KeepsDtype (demo (resPar 3 4)) ∧ (initArrays (demo (resPar 3 4))).Shaped 3 ∧ FitsDtype false [1] ∧
    malaRun (demo (resPar 3 4)) (constRng 1 0) false (1 / 2) (initArrays (demo (resPar 3 4))) () (.array1 [1]) f1 = .ok (some s1) ∧
    ((initArrays (demo (resPar 3 4))).applyAll s1.ev).chain = some cs ∧ cs.getLast? = some x ∧
    malaRun ((demo (resPar 3 4)).resched 2 ((max 2 1 - 1 : ℕ) : ℤ) (2 : ℕ) 0 ["chain"]) (constRng 1 0) false (1 / 2) (initArrays (demo (resPar 2 1)))
      s1.rng (.array1 x) f2 = .ok (some s2) := by
  obtain ⟨s1, h1⟩ := accepting_returns (resPar 3 4) one_ne_zero (constRng 1 0) (fun _ => rfl) (1 / 2) () (fun _ => 1) 9 4 2 rfl rfl (by
    show ¬ _ < 3; decide)
  obtain ⟨s0, T, h0, hT, hcore, hacc, -, hlen, harr, -⟩ := malaRun_result _ _ false _ _ (initArrays_shaped _) 4 rfl _ _ _ _ h1
  have hX := mala_holds _ (demo_keeps _ one_ne_zero) false s0.core _ T hT (malaInit_synced _ _ _ _ _ _ h0) (by
    obtain ⟨-, -, -, -, -, -, X0, P0, r0, l0, j1, j2, j3, -⟩ := malaInit_ok _ _ _ _ _ _ h0
    rw [show s0.core.cur = s0.cur from rfl, j2, j3]
    exact initialSample_holds _ (demo_keeps _ one_ne_zero) _ _ _ (by rintro _ ⟨⟩; exact .inr (by simp)) _ j1)
  obtain ⟨-, hq⟩ := malaRun_last _ false _ _ 4 rfl _ _ _ _ h1 s0 h0 T hT
  obtain ⟨q, hq1, hq2⟩ := hq (by show 0 < 3; omega)
  obtain ⟨e1, e2, -⟩ := hX s1.i le_rfl
  obtain ⟨x, hx⟩ := exists_ofFn (n := 1) (T s1.i).cur.X e1
  obtain ⟨s2, h2⟩ := accepting_returns (resPar 2 1) one_ne_zero (constRng 1 0) (fun _ => rfl) (1 / 2) s1.rng x 5 1 2 rfl rfl (by
    show ¬ _ < 2; decide)
  refine ⟨s1, s2, _, _, 9, 5, demo_keeps _ one_ne_zero, initArrays_shaped _, .inr (by simp), by simpa using h1, by rw [harr]; rfl, ?_, h2⟩
  rw [List.getLast?_map, List.getLast?_range, if_neg (by show ¬ 3 = 0; omega), Option.map_some, ← hx, histRow]
  congr 1
  rw [← hlen, ← List.getLast?_eq_getElem?, hq2, Option.getD_some, ← hq1]
  exact mkRow_chain _ _ _ _ e1 e2

end Pxmcmc
