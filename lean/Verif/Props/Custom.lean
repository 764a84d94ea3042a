import Verif.Model.Construct
import Verif.Model.Custom
import Verif.Props.MalaExamples

/-!
# C156: which methods a user-written operator needs, and what happens if one is missing
-/

namespace Pxmcmc

/-! ## The three runs as one -/

/-- The three samplers. -/
inductive Method where
  | myula
  | mala (tune : Bool) (delta : ℝ)
  | skrock

/-- The arrays that a run leaves behind. -/
noncomputable def Method.run {n : ℕ} (a : Method) (R : Rng) (r : R.σ) (sp : StartPoint) (fuel : ℕ) (M : Sampler n) : Py (Option Arrays) :=
  match a with
  | .myula => do
    let res ← myulaRun M R (initArrays M) r sp fuel
    .ok (res.map fun st => (initArrays M).applyAll st.ev)
  | .mala tune delta => do
    let res ← malaRun M R tune delta (initArrays M) r sp fuel
    .ok (res.map fun st => (initArrays M).applyAll st.ev)
  | .skrock => do
    let res ← skrockRun M R (initArrays M) r sp fuel
    .ok (res.map fun st => (initArrays M).applyAll st.ev)

/-- What the operators need: in the synthesis setting a transform, too. -/
def Needed (setting : String) (t : Option UserTransform) (m : Option UserMeasurement) (np : Option ℕ) : Prop :=
  np.isSome ∧ (∃ m', m = some m' ∧ m'.forward.isSome ∧ m'.adjoint.isSome) ∧
    (setting = "synthesis" → ∃ t', t = some t' ∧ t'.inverse.isSome ∧ t'.inverseAdjoint.isSome)

/-! ## What the calls need -/

theorem measurementCall_some {f : Option (List ℂ → Py (List ℂ))} {X Y : List ℂ} (h : measurementCall f X = .ok Y) : f.isSome := by
  cases f with
  | none => cases h
  | some f => rfl

theorem transformCall_some {f : Option (List ℂ → Py (List ℂ))} {X Y : List ℂ} (h : transformCall f X = .ok Y) : f.isSome := by
  cases f with
  | none => cases h
  | some f => rfl

theorem forward_needs {n : ℕ} {data : DataVec n} {sig : SigD} {setting : String} {t : Option UserTransform} {m : Option UserMeasurement}
    {np : Option ℕ} {F : ForwardOp n} (hF : customOp data sig setting t m np = .ok F) {X Y : List ℂ} (h : F.forward X = .ok Y) :
    (∃ m', m = some m' ∧ m'.forward.isSome) ∧ (setting = "synthesis" → ∃ t', t = some t' ∧ t'.inverse.isSome) := by
  unfold customOp ForwardOp.init at hF
  obtain ⟨W, -, hF⟩ := bind_ok hF
  unfold Setting.parse at hF
  by_cases ha : setting = "analysis"
  · subst ha
    simp only [if_true] at hF
    cases hF
    refine ⟨?_, fun hs => absurd hs (by decide)⟩
    simp only [ForwardOp.forward, ForwardOp.forwardAnalysis] at h
    obtain ⟨mm, h1, h5⟩ := bind_ok h
    cases m with
    | none => cases h1
    | some m' =>
      cases h1
      exact ⟨m', rfl, measurementCall_some h5⟩
  · simp only [ha, if_false] at hF
    by_cases hs : setting = "synthesis"
    · simp only [hs, if_true] at hF
      cases hF
      simp only [ForwardOp.forward, ForwardOp.forwardSynthesis] at h
      obtain ⟨mm, h1, h⟩ := bind_ok h
      obtain ⟨tt, h2, h⟩ := bind_ok h
      obtain ⟨y, h3, h5⟩ := bind_ok h
      cases m with
      | none => cases h1
      | some m' =>
        cases t with
        | none => cases h2
        | some t' =>
          cases h1
          cases h2
          exact ⟨⟨m', rfl, measurementCall_some h5⟩, fun _ => ⟨t', rfl, transformCall_some h3⟩⟩
    · simp only [hs, if_false] at hF
      cases hF

theorem gradg_needs {n : ℕ} {data : DataVec n} {sig : SigD} {setting : String} {t : Option UserTransform} {m : Option UserMeasurement}
    {np : Option ℕ} {F : ForwardOp n} (hF : customOp data sig setting t m np = .ok F) {X Y : List ℂ} (h : F.calcGradg X = .ok Y) :
    (∃ m', m = some m' ∧ m'.adjoint.isSome) ∧ (setting = "synthesis" → ∃ t', t = some t' ∧ t'.inverseAdjoint.isSome) := by
  unfold customOp ForwardOp.init at hF
  obtain ⟨W, -, hF⟩ := bind_ok hF
  unfold Setting.parse at hF
  have key : ∀ (s : Setting) (tt : Option OpPair) (g : List ℂ),
      (⟨data, W, s, tt, m.map UserMeasurement.handles, np⟩ : ForwardOp n).gradgAnalysis X = .ok g → ∃ m', m = some m' ∧ m'.adjoint.isSome := by
    intro s tt g h
    unfold ForwardOp.gradgAnalysis at h
    obtain ⟨mm, h1, h⟩ := bind_ok h
    obtain ⟨d, -, h⟩ := bind_ok h
    obtain ⟨w, -, h5⟩ := bind_ok h
    cases m with
    | none => cases h1
    | some m' =>
      cases h1
      exact ⟨m', rfl, measurementCall_some h5⟩
  by_cases ha : setting = "analysis"
  · subst ha
    simp only [if_true] at hF
    cases hF
    exact ⟨key _ _ Y h, fun hs => absurd hs (by decide)⟩
  · simp only [ha, if_false] at hF
    by_cases hs : setting = "synthesis"
    · simp only [hs, if_true] at hF
      cases hF
      simp only [ForwardOp.calcGradg] at h
      obtain ⟨tt, h2, h⟩ := bind_ok h
      obtain ⟨g, h3, h5⟩ := bind_ok h
      refine ⟨key _ _ g h3, fun _ => ?_⟩
      cases t with
      | none => cases h2
      | some t' =>
        cases h2
        exact ⟨t', rfl, transformCall_some h5⟩
    · simp only [hs, if_false] at hF
      cases hF

/-! ## What the runs call -/

theorem whileFuel_first {σ : Type} {cond : σ → Bool} {body : σ → Py σ} {fuel : ℕ} {s r : σ} (hc : cond s = true)
    (h : whileFuel cond body fuel s = .ok (some r)) : ∃ s', body s = .ok s' := by
  cases fuel with
  | zero => simp [whileFuel, hc] at h
  | succ fuel =>
    unfold whileFuel at h
    rw [hc] at h
    cases hb : body s with
    | ok s' => exact ⟨s', rfl⟩
    | error e => simp [hb] at h

theorem kRec_calls {k : ℕ} (c : SkrockCoefs) (delta : ℝ) (grad : (Fin k → ℂ) → Py (Fin k → ℂ)) (X Z : Fin k → ℂ) (s : ℕ) (r : (Fin k → ℂ) × ℕ)
    (h : kRec c delta grad X Z (s + 1) = .ok r) : ∃ x g, grad x = .ok g := by
  cases s with
  | zero =>
    unfold kRec at h
    obtain ⟨g, hg, -⟩ := bind_ok h
    exact ⟨_, g, hg⟩
  | succ s =>
    unfold kRec at h
    obtain ⟨a, -, h⟩ := bind_ok h
    obtain ⟨g, hg, -⟩ := bind_ok h
    exact ⟨_, g, hg⟩

theorem run_calls {n : ℕ} (a : Method) (R : Rng) (r : R.σ) (sp : StartPoint) (fuel : ℕ) (M : Sampler n) (A : Arrays)
    (hn : 0 < M.par.nsamples) (h : a.run R r sp fuel M = .ok (some A)) :
    (∃ X Y, M.F.forward X = .ok Y) ∧ ∃ X Y, M.F.calcGradg X = .ok Y := by
  have hini : ∀ x, initialSample M R r sp = .ok x → ∃ X Y, M.F.forward X = .ok Y := by
    intro x hx
    obtain ⟨xr, -, hx⟩ := bind_ok hx
    obtain ⟨p, hp, -⟩ := bind_ok hx
    exact ⟨_, p, hp⟩
  cases a with
  | myula =>
    obtain ⟨res, hres, h⟩ := bind_ok h
    obtain ⟨x, hx, hres⟩ := bind_ok hres
    obtain ⟨w, hw, hres⟩ := bind_ok hres
    cases w with
    | none => cases hres; cases h
    | some w =>
      refine ⟨hini x hx, ?_⟩
      obtain ⟨s', hs'⟩ := whileFuel_first (by simpa [loopCond] using hn) hw
      obtain ⟨c, hc, -⟩ := bind_ok hs'
      obtain ⟨g, hg, -⟩ := bind_ok hc
      exact ⟨_, g, hg⟩
  | mala tune delta =>
    obtain ⟨res, hres, h⟩ := bind_ok h
    obtain ⟨s0, hs0, hres⟩ := bind_ok hres
    obtain ⟨x, hx, hs0⟩ := bind_ok hs0
    obtain ⟨g, hg, -⟩ := bind_ok hs0
    exact ⟨hini x hx, _, g, hg⟩
  | skrock =>
    obtain ⟨res, hres, h⟩ := bind_ok h
    obtain ⟨co, hco, hres⟩ := bind_ok hres
    obtain ⟨x, hx, hres⟩ := bind_ok hres
    obtain ⟨w, hw, hres⟩ := bind_ok hres
    cases w with
    | none => cases hres; cases h
    | some w =>
      refine ⟨hini x hx, ?_⟩
      obtain ⟨s', hs'⟩ := whileFuel_first (by simpa [loopCond] using hn) hw
      obtain ⟨c, hc, -⟩ := bind_ok hs'
      unfold skrockTransition at hc
      obtain ⟨xv, -, hc⟩ := bind_ok hc
      obtain ⟨zv, -, hc⟩ := bind_ok hc
      obtain ⟨y, hy, -⟩ := bind_ok hc
      obtain ⟨kr, hkr, -⟩ := bind_ok hy
      have hs : M.par.s ≠ 0 := by
        intro h0
        rw [h0] at hco
        have := C18_zero
        simp_all
      obtain ⟨s, hs⟩ := Nat.exists_eq_succ_of_ne_zero hs
      rw [hs] at hkr
      obtain ⟨v, g, hg⟩ := kRec_calls _ _ _ _ _ s _ hkr
      obtain ⟨g', hg', -⟩ := bind_ok hg
      obtain ⟨gf, -, hg'⟩ := bind_ok hg'
      obtain ⟨p, -, hg'⟩ := bind_ok hg'
      obtain ⟨gg, hgg, -⟩ := bind_ok hg'
      exact ⟨_, gg, hgg⟩

/-- C156: a run that returns samples had `nparams`, a measurement with `forward` and `adjoint` and, in the synthesis setting, a transform with
`inverse` and `inverse_adjoint`. -/
theorem C156_returns_partial {n : ℕ} (a : Method) (R : Rng) (r : R.σ) (sp : StartPoint) (fuel : ℕ) (data : DataVec n) (sig : SigD) (setting : String)
    (t : Option UserTransform) (m : Option UserMeasurement) (np : Option ℕ) (P : PriorObj) (par : Params) (hn : 0 < par.nsamples) (A : Arrays)
    (h : (customOp data sig setting t m np >>= fun F => createAndRun (a.run R r sp fuel) F P par sp) = .ok (some A)) :
    Needed setting t m np := by
  obtain ⟨F, hF, h⟩ := bind_ok h
  have hnp : F.nparams = np := by
    unfold customOp ForwardOp.init at hF
    obtain ⟨W, -, hF⟩ := bind_ok hF
    split at hF <;> cases hF
    rfl
  unfold createAndRun at h
  rw [hnp] at h
  cases np with
  | none =>
    simp only at h
    split at h
    · cases h
    · split at h <;> cases h
  | some k =>
    obtain ⟨⟨X, Y, hf⟩, X', Y', hg⟩ := run_calls a R r sp fuel _ A hn h
    obtain ⟨⟨m1, h1, h1'⟩, h2⟩ := forward_needs hF hf
    obtain ⟨⟨m2, h3, h3'⟩, h4⟩ := gradg_needs hF hg
    obtain rfl : m1 = m2 := Option.some.inj (h1 ▸ h3)
    refine ⟨rfl, ⟨m1, h1, h1', h3'⟩, fun hs => ?_⟩
    obtain ⟨t1, e1, e1'⟩ := h2 hs
    obtain ⟨t2, e2, e2'⟩ := h4 hs
    obtain rfl : t1 = t2 := Option.some.inj (e1 ▸ e2)
    exact ⟨t1, e1, e1', e2'⟩

/-! ## Nothing else is used -/

/-- The runs see of the forward operator only `forward`, `calc_gradg`, `data` and `invcov`. -/
theorem run_congr {n : ℕ} (a : Method) (R : Rng) (r : R.σ) (sp : StartPoint) (fuel : ℕ) (F F' : ForwardOp n) (P : PriorObj) (par : Params) (k : ℕ)
    (hf : F.forward = F'.forward) (hg : F.calcGradg = F'.calcGradg) (hd : F.data = F'.data) (hW : F.invcov = F'.invcov) :
    a.run R r sp fuel ⟨F, P, par, k⟩ = a.run R r sp fuel ⟨F', P, par, k⟩ := by
  have hA : initArrays (⟨F, P, par, k⟩ : Sampler n) = initArrays (⟨F', P, par, k⟩ : Sampler n) := rfl
  have hl : logpi F P par.mu = logpi F' P par.mu := by
    funext X preds
    unfold logpi
    rw [hd, hW]
  have hgl : gradlogpi F P par.lmda = gradlogpi F' P par.lmda := by
    funext X preds
    unfold gradlogpi
    rw [hf, hg]
  have hi : initialSample (⟨F, P, par, k⟩ : Sampler n) R r sp = initialSample (⟨F', P, par, k⟩ : Sampler n) R r sp := by
    unfold initialSample
    simp only [hf]
    rfl
  have hrec : ∀ A0, recordRow (R := R) (⟨F, P, par, k⟩ : Sampler n) A0 = recordRow (⟨F', P, par, k⟩ : Sampler n) A0 := by
    intro A0
    funext st
    unfold recordRow
    simp only [hl]
    rfl
  cases a with
  | myula =>
    have hb : ∀ A0, myulaBody (⟨F, P, par, k⟩ : Sampler n) R A0 = myulaBody (⟨F', P, par, k⟩ : Sampler n) R A0 := by
      intro A0
      funext st
      unfold myulaBody myulaStep myulaBook
      simp only [hf, hg, hrec]
      rfl
    simp only [Method.run, myulaRun, hi, hb, hA]
    rfl
  | mala tune delta =>
    have hb : ∀ A0, malaBody (⟨F, P, par, k⟩ : Sampler n) R tune A0 = malaBody (⟨F', P, par, k⟩ : Sampler n) R tune A0 := by
      intro A0
      funext st
      unfold malaBody malaPropose
      simp only [hf, hg, hl]
      rfl
    have hi' : malaInit (⟨F, P, par, k⟩ : Sampler n) R delta r sp = malaInit (⟨F', P, par, k⟩ : Sampler n) R delta r sp := by
      unfold malaInit
      simp only [hi, hg, hl]
    simp only [Method.run, malaRun, hi', hb, hA]
    rfl
  | skrock =>
    have hb : ∀ co A0, skrockBody (⟨F, P, par, k⟩ : Sampler n) R co A0 = skrockBody (⟨F', P, par, k⟩ : Sampler n) R co A0 := by
      intro co A0
      funext st
      unfold skrockBody skrockTransition skrockBook
      simp only [hf, hgl, hrec]
      rfl
    simp only [Method.run, skrockRun, hi, hb, hA]
    rfl

/-- C156: without `nparams` no run begins: with a tracked chain the constructor raises AttributeError, otherwise the run does (TypeError if the
start point is not a 1-D array). -/
theorem C156_nparams_partial {n : ℕ} {α : Type} (run : Sampler n → Py α) (data : DataVec n) (sig : SigD) (setting : String)
    (t : Option UserTransform) (m : Option UserMeasurement) (F : ForwardOp n) (hF : customOp data sig setting t m none = .ok F) (P : PriorObj)
    (par : Params) (sp : StartPoint) :
    ("chain" ∈ par.track → samplerInit F P par = .error .AttributeError ∧ createAndRun run F P par sp = .error .AttributeError) ∧
    ("chain" ∉ par.track → createAndRun run F P par sp =
      .error (match sp with | .none => .AttributeError | .array1 _ => .AttributeError | _ => .TypeError)) := by
  have hnp : F.nparams = none := by
    unfold customOp ForwardOp.init at hF
    obtain ⟨W, -, hF⟩ := bind_ok hF
    split at hF <;> cases hF
    rfl
  unfold samplerInit createAndRun
  rw [hnp]
  refine ⟨fun h => by simp [h], fun h => ?_⟩
  simp only [h, if_false]
  cases sp <;> rfl

/-- C156: nothing else of the operators is used.  In the analysis setting the transform can be left out; in the synthesis setting only `inverse` and
`inverse_adjoint` matter. -/
theorem C156_unused_partial {n : ℕ} (a : Method) (R : Rng) (r : R.σ) (sp : StartPoint) (fuel : ℕ) (data : DataVec n) (sig : SigD) (setting : String)
    (t t' : Option UserTransform) (m : Option UserMeasurement) (np : Option ℕ) (P : PriorObj) (par : Params)
    (ht : setting = "synthesis" → t.map (fun t => (t.inverse, t.inverseAdjoint)) = t'.map fun t => (t.inverse, t.inverseAdjoint)) :
    (customOp data sig setting t m np >>= fun F => createAndRun (a.run R r sp fuel) F P par sp) =
      (customOp data sig setting t' m np >>= fun F => createAndRun (a.run R r sp fuel) F P par sp) := by
  have key : ∀ F F' : ForwardOp n, F.forward = F'.forward → F.calcGradg = F'.calcGradg → F.data = F'.data → F.invcov = F'.invcov →
      F.nparams = F'.nparams → createAndRun (a.run R r sp fuel) F P par sp = createAndRun (a.run R r sp fuel) F' P par sp := by
    intro F F' h1 h2 h3 h4 h5
    unfold createAndRun
    rw [h5]
    split
    · exact run_congr a R r sp fuel F F' P par _ h1 h2 h3 h4
    · rfl
  unfold customOp ForwardOp.init
  cases buildInvCov data sig with
  | error e => rfl
  | ok W =>
    simp only [bind, Except.bind, Setting.parse]
    by_cases ha : setting = "analysis"
    · simp only [ha, if_true]
      exact key _ _ rfl rfl rfl rfl rfl
    · simp only [ha, if_false]
      by_cases hs : setting = "synthesis"
      · have e : t.map UserTransform.handles = t'.map UserTransform.handles := by
          have h := ht hs
          cases t with
          | none => cases t' with
            | none => rfl
            | some t' => cases h
          | some t => cases t' with
            | none => cases h
            | some t' =>
              simp only [Option.map_some, Option.some.injEq, Prod.mk.injEq] at h
              simp [UserTransform.handles, h.1, h.2]
        rw [e]
      · simp only [hs, if_false]

/-! ## Missing methods -/

/-- If the start is valid and `forward` raises for every array of `k` parameters, the run raises this exception. -/
theorem run_forward_raises {n : ℕ} (a : Method) (R : Rng) (r : R.σ) (sp : StartPoint) (fuel : ℕ) (M : Sampler n) (e : PyErr)
    (hs : 1 ≤ M.par.s) (x : List ℂ × R.σ) (hx : startVector M R r sp = .ok x) (hf : M.F.forward x.1 = .error e) :
    a.run R r sp fuel M = .error e := by
  have hi : initialSample M R r sp = .error e := by
    unfold initialSample
    rw [hx]
    simp only [bind, Except.bind, hf]
  cases a with
  | myula => simp only [Method.run, myulaRun, hi, bind, Except.bind]
  | mala tune delta => simp only [Method.run, malaRun, malaInit, hi, bind, Except.bind]
  | skrock =>
    obtain ⟨co, hco, -⟩ := C18_total M.par.s hs
    simp only [Method.run, skrockRun, hco, hi, bind, Except.bind]

theorem kRec_raises {k : ℕ} (c : SkrockCoefs) (delta : ℝ) (grad : (Fin k → ℂ) → Py (Fin k → ℂ)) (X Z : Fin k → ℂ) (e : PyErr)
    (hg : ∀ x, grad x = .error e) (s : ℕ) : kRec c delta grad X Z (s + 1) = .error e := by
  induction s with
  | zero =>
    unfold kRec
    rw [hg]
    rfl
  | succ s ih =>
    rw [kRec, ih]
    rfl

/-- If `forward` and `proxf` return but `calc_gradg` raises, a run that is to save samples raises this exception. -/
theorem run_gradg_raises {n k : ℕ} (a : Method) (R : Rng) (r : R.σ) (sp : StartPoint) (fuel : ℕ) (M : Sampler n) (e : PyErr)
    (hs : 1 ≤ M.par.s) (hn : 0 < M.par.nsamples) (x : Fin k → ℂ) (r1 : R.σ) (hx : startVector M R r sp = .ok (List.ofFn x, r1))
    (fwd : (Fin k → ℂ) → (Fin n → ℂ)) (hf : ActsAs M.F.forward fwd) (prox : (Fin k → ℂ) → (Fin k → ℂ)) (hp : ActsAs M.P.proxf prox)
    (hg : ∀ y : Fin n → ℂ, M.F.calcGradg (List.ofFn y) = .error e) : a.run R r sp (fuel + 1) M = .error e := by
  have hi : initialSample M R r sp = .ok (List.ofFn x, List.ofFn (fwd x), r1) := by
    unfold initialSample
    rw [hx]
    simp only [bind, Except.bind, hf x]
  cases a with
  | myula =>
    simp only [Method.run, myulaRun, hi, bind, Except.bind, whileFuel, myulaBody, myulaStep, hg, loopCond, hn, decide_true, if_true]
  | mala tune delta =>
    simp only [Method.run, malaRun, malaInit, hi, bind, Except.bind, hg]
  | skrock =>
    obtain ⟨co, hco, -⟩ := C18_total M.par.s hs
    obtain ⟨s, hs'⟩ : ∃ s, M.par.s = s + 1 := ⟨M.par.s - 1, by omega⟩
    have hstep : ∀ c : Cur R, c.X = List.ofFn x → skrockTransition M R co c = .error e := by
      rintro ⟨X, pr, rr⟩ rfl
      unfold skrockTransition
      have h1 : ∃ x', asVec (List.ofFn x).length (List.ofFn x) = .ok x' := ⟨_, by unfold asVec; rw [dif_pos rfl]⟩
      obtain ⟨x', h1⟩ := h1
      have h2 : ∃ z', asVec (List.ofFn x).length (noise R R.randn M.par.complex rr (List.ofFn x).length).1 = .ok z' := by
        unfold asVec
        rw [dif_pos (by unfold noise; cases M.par.complex <;> simp)]
        exact ⟨_, rfl⟩
      obtain ⟨z', h2⟩ := h2
      have hlen : (List.ofFn x).length = k := List.length_ofFn
      have h3 : ∀ v : Fin (List.ofFn x).length → ℂ, (do
          let g ← gradlogpi M.F M.P M.par.lmda (List.ofFn v) none
          asVec (List.ofFn x).length g) = .error e := by
        rw [hlen]
        intro v
        simp only [gradlogpi, gradf, hp v, bind, Except.bind, npSub_ofFn, hf v, hg]
      simp only [h1, h2, bind, Except.bind, skrockStep]
      simp only [bind, Except.bind] at h3
      rw [hs', kRec_raises _ _ _ _ _ e h3]
    simp only [Method.run, skrockRun, hco, hi, bind, Except.bind, whileFuel, skrockBody, hstep ⟨List.ofFn x, List.ofFn (fwd x), r1⟩ rfl, loopCond, hn, decide_true, if_true]

theorem customOp_ok {n : ℕ} {data : DataVec n} {sig : SigD} {setting : String} {t : Option UserTransform} {m : Option UserMeasurement}
    {np : Option ℕ} {F : ForwardOp n} (hF : customOp data sig setting t m np = .ok F) :
    ∃ W s, (s = Setting.analysis ∧ setting = "analysis" ∨ s = Setting.synthesis ∧ setting = "synthesis") ∧
      F = ⟨data, W, s, t.map UserTransform.handles, m.map UserMeasurement.handles, np⟩ := by
  unfold customOp ForwardOp.init at hF
  obtain ⟨W, -, hF⟩ := bind_ok hF
  unfold Setting.parse at hF
  by_cases ha : setting = "analysis"
  · simp only [ha, if_true] at hF
    cases hF
    exact ⟨W, _, .inl ⟨rfl, ha⟩, rfl⟩
  · simp only [ha, if_false] at hF
    by_cases hs : setting = "synthesis"
    · simp only [hs, if_true] at hF
      cases hF
      exact ⟨W, _, .inr ⟨rfl, hs⟩, rfl⟩
    · simp only [hs, if_false] at hF
      cases hF

theorem weighted_residual {n : ℕ} (data : DataVec n) (W : Matrix (Fin n) (Fin n) ℂ) (s : Setting) (t : Option OpPair) (m : OpPair) (np : Option ℕ)
    (y : Fin n → ℂ) : (⟨data, W, s, t, some m, np⟩ : ForwardOp n).gradgAnalysis (List.ofFn y) =
      m.adj (List.ofFn (W.mulVec fun i => y i - data.vals i)) := by
  unfold ForwardOp.gradgAnalysis
  simp only [attr, bind, Except.bind, npSub_ofFn, matDot_ofFn]

/-- C156: a run with a measurement that lacks `forward` or `adjoint` raises `NotImplementedError`, as the base class says. -/
theorem C156_measurement_partial {n k : ℕ} (a : Method) (R : Rng) (r r1 : R.σ) (sp : StartPoint) (fuel : ℕ) (data : DataVec n) (sig : SigD)
    (setting : String) (t : Option UserTransform) (m : UserMeasurement) (P : PriorObj) (par : Params) (hs : 1 ≤ par.s) (hn : 0 < par.nsamples)
    (F : ForwardOp n) (hF : customOp data sig setting t (some m) (some k) = .ok F) (x0 : Fin k → ℂ)
    (hx : startVector (⟨F, P, par, k⟩ : Sampler n) R r sp = .ok (List.ofFn x0, r1)) :
    (m.forward = none → (setting = "synthesis" → ∃ t' f y, t = some t' ∧ t'.inverse = some f ∧ f (List.ofFn x0) = .ok y) →
      createAndRun (a.run R r sp fuel) F P par sp = .error .NotImplementedError) ∧
    (m.adjoint = none → ∀ (fwd : (Fin k → ℂ) → (Fin n → ℂ)) (prox : (Fin k → ℂ) → (Fin k → ℂ)), ActsAs F.forward fwd → ActsAs P.proxf prox →
      createAndRun (a.run R r sp (fuel + 1)) F P par sp = .error .NotImplementedError) := by
  have hF' := hF
  obtain ⟨W, s, hset, rfl⟩ := customOp_ok hF
  constructor
  · intro hm ht
    refine run_forward_raises a R r sp fuel _ _ hs (List.ofFn x0, r1) hx ?_
    rcases hset with ⟨rfl, -⟩ | ⟨rfl, hset⟩
    · simp [ForwardOp.forward, ForwardOp.forwardAnalysis, attr, bind, Except.bind, UserMeasurement.handles, hm, measurementCall]
    · obtain ⟨t', f, y, rfl, hf, hy⟩ := ht hset
      simp [ForwardOp.forward, ForwardOp.forwardSynthesis, attr, bind, Except.bind, UserMeasurement.handles, hm, measurementCall,
        UserTransform.handles, hf, transformCall, hy]
  · intro hm fwd prox hf hp
    refine run_gradg_raises a R r sp fuel ⟨_, P, par, k⟩ .NotImplementedError hs hn x0 r1 hx fwd hf prox hp fun y => ?_
    have hgr := weighted_residual data W s (t.map UserTransform.handles) m.handles (some k) y
    have hm' : ∀ v, m.handles.adj v = .error .NotImplementedError := fun v => by simp [UserMeasurement.handles, hm, measurementCall]
    rw [hm'] at hgr
    rcases hset with ⟨rfl, -⟩ | ⟨rfl, hset⟩
    · exact hgr
    · obtain ⟨t', rfl, -⟩ := (forward_needs hF' (hf x0)).2 hset
      simp only [ForwardOp.calcGradg]
      erw [hgr]
      rfl

/-- C156 is violated: a run in the synthesis setting with a transform that lacks `inverse` or `inverse_adjoint` raises `TypeError` and not the
`NotImplementedError` of the base class, whatever else is given. -/
theorem C156_transform_refuted {n k : ℕ} (a : Method) (R : Rng) (r r1 : R.σ) (sp : StartPoint) (fuel : ℕ) (data : DataVec n) (sig : SigD)
    (t : UserTransform) (m : UserMeasurement) (P : PriorObj) (par : Params) (hs : 1 ≤ par.s) (hn : 0 < par.nsamples)
    (F : ForwardOp n) (hF : customOp data sig "synthesis" (some t) (some m) (some k) = .ok F) (x0 : Fin k → ℂ)
    (hx : startVector (⟨F, P, par, k⟩ : Sampler n) R r sp = .ok (List.ofFn x0, r1)) :
    (t.inverse = none → createAndRun (a.run R r sp fuel) F P par sp = .error .TypeError) ∧
    (t.inverseAdjoint = none → ∀ (fwd : (Fin k → ℂ) → (Fin n → ℂ)) (prox : (Fin k → ℂ) → (Fin k → ℂ)) (q : ℕ) (At : (Fin n → ℂ) → (Fin q → ℂ))
      (ad : List ℂ → Py (List ℂ)), ActsAs F.forward fwd → ActsAs P.proxf prox → m.adjoint = some ad → ActsAs ad At →
      createAndRun (a.run R r sp (fuel + 1)) F P par sp = .error .TypeError) := by
  obtain ⟨W, s, hset, rfl⟩ := customOp_ok hF
  have hsyn : s = .synthesis := by
    rcases hset with ⟨-, h⟩ | ⟨h, -⟩
    · exact absurd h (by decide)
    · exact h
  subst hsyn
  constructor
  · intro ht
    refine run_forward_raises a R r sp fuel _ _ hs (List.ofFn x0, r1) hx ?_
    simp [ForwardOp.forward, ForwardOp.forwardSynthesis, attr, bind, Except.bind, UserTransform.handles, ht, transformCall]
  · intro ht fwd prox q At ad hf hp had hAt
    refine run_gradg_raises a R r sp fuel ⟨_, P, par, k⟩ .TypeError hs hn x0 r1 hx fwd hf prox hp fun y => ?_
    have hgr := weighted_residual data W .synthesis ((some t).map UserTransform.handles) m.handles (some k) y
    have hm' : ∀ v, m.handles.adj (List.ofFn v) = .ok (List.ofFn (At v)) := fun v => by
      simp [UserMeasurement.handles, had, measurementCall, hAt v]
    rw [hm'] at hgr
    simp only [ForwardOp.calcGradg]
    erw [hgr]
    simp [bind, Except.bind, attr, UserTransform.handles, ht, transformCall]

/-! ### Concrete cases -/

/-- A measurement that copies the parameters and cannot be transposed. -/
def copyForward : UserMeasurement := ⟨some fun X => .ok X, none⟩

/-- A transform of which only the adjoint of the inverse is written. -/
def halfTransform : UserTransform := ⟨none, none, none, some fun X => .ok X⟩

/-- The operator with one datum for them. -/
theorem custom_builds (setting : String) (hset : setting = "analysis" ∨ setting = "synthesis") (t : Option UserTransform) (m : UserMeasurement) :
    ∃ F, customOp ⟨false, fun _ : Fin 1 => 0⟩ (.num 1 false) setting t (some m) (some 1) = .ok F := by
  have h : buildInvCov (⟨false, fun _ : Fin 1 => 0⟩ : DataVec 1) (.num 1 false) = .ok (Matrix.diagonal fun _ => 1 / (1 ^ 2 : ℂ)) := by
    simp [buildInvCov, complexVar]
  rcases hset with rfl | rfl
  · exact ⟨_, by unfold customOp ForwardOp.init; rw [h]; rfl⟩
  · exact ⟨_, by unfold customOp ForwardOp.init; rw [h]; rfl⟩

/-- Hypotheses of `C156_measurement_partial`: SKROCK with two stages and the measurement above. -/
example : ∃ F : ForwardOp 1, customOp ⟨false, fun _ => 0⟩ (.num 1 false) "analysis" none (some copyForward) (some 1) = .ok F ∧
    createAndRun (Method.skrock.run (constRng 1 0) () (.array1 [5]) 1) F ⟨fun _ => .ok 0, fun X => .ok X⟩
      ⟨1, 1 / 2, 1, 2, 4, (3 : ℕ), (2 : ℕ), false, 0, ["chain"]⟩ (.array1 [5]) = .error .NotImplementedError := by
  obtain ⟨F, hF⟩ := custom_builds "analysis" (.inl rfl) none copyForward
  refine ⟨F, hF, ?_⟩
  refine (C156_measurement_partial .skrock (constRng 1 0) () () (.array1 [5]) 0 _ _ _ _ _ ⟨fun _ => .ok 0, fun X => .ok X⟩
    ⟨1, 1 / 2, 1, 2, 4, (3 : ℕ), (2 : ℕ), false, 0, ["chain"]⟩ (by norm_num) (by norm_num) F hF (fun _ => 5) ?_).2 rfl (fun x => x) (fun x => x) ?_
    fun x => rfl
  · simp [startVector]
  · intro x
    obtain ⟨W, s, hset, rfl⟩ := customOp_ok hF
    rcases hset with ⟨rfl, -⟩ | ⟨-, h⟩
    · rfl
    · exact absurd h (by decide)

/-- A complete measurement: MYULA returns, so the hypotheses of `C156_returns_partial` can be met; and by `C156_unused_partial` the unfinished
transform above does not matter in the analysis setting. -/
example : ∃ A, (customOp ⟨false, fun _ : Fin 1 => 0⟩ (.num 1 false) "analysis" (some halfTransform) (some ⟨some fun X => .ok X, some fun X => .ok X⟩)
    (some 1) >>= fun F => createAndRun (Method.myula.run (constRng 1 0) () (.array1 (List.ofFn fun _ : Fin 1 => 5)) 10) F
      ⟨fun _ => .ok 0, fun X => .ok X⟩ ⟨1, 1 / 2, 1, 1, 4, (3 : ℕ), (2 : ℕ), false, 0, ["chain"]⟩ (.array1 (List.ofFn fun _ : Fin 1 => 5))) =
        .ok (some A) := by
  obtain ⟨F, hF⟩ := custom_builds "analysis" (.inl rfl) none ⟨some fun X => .ok X, some fun X => .ok X⟩
  obtain ⟨W, s, hset, rfl⟩ := customOp_ok hF
  obtain rfl : s = .analysis := by
    rcases hset with ⟨h, -⟩ | ⟨-, h⟩
    · exact h
    · exact absurd h (by decide)
  set M : Sampler 1 := ⟨⟨⟨false, fun _ => 0⟩, W, .analysis, none, some ⟨fun X => .ok X, fun X => .ok X⟩, some 1⟩, ⟨fun _ => .ok 0, fun X => .ok X⟩,
    ⟨1, 1 / 2, 1, 1, 4, (3 : ℕ), (2 : ℕ), false, 0, ["chain"]⟩, 1⟩ with hM
  have tot : Total M 1 (fun x => x) (fun y => W.mulVec fun i => y i - 0) (fun x => x) (fun _ => 0) :=
    ⟨rfl, fun x => rfl, fun y => weighted_residual _ W .analysis none ⟨fun X => .ok X, fun X => .ok X⟩ (some 1) y, fun x => rfl, fun x => rfl,
      one_ne_zero⟩
  have hst : initialSample M (constRng 1 0) () (.array1 (List.ofFn fun _ : Fin 1 => 5)) = .ok (List.ofFn fun _ : Fin 1 => (5 : ℂ), List.ofFn fun _ : Fin 1 => (5 : ℂ), ()) := by
    simp [initialSample, startVector, hM, bind, Except.bind, ForwardOp.forward, ForwardOp.forwardAnalysis, attr]
  obtain ⟨-, st, h, -, -⟩ := C41_schedule M (constRng 1 0) (initArrays M) (initArrays_shaped _) (.inl le_rfl) 3 2 rfl rfl tot _
    (fun x => gradlogpi_vec M tot x) () () _ (fun _ => 5) hst 10 rfl
  refine ⟨(initArrays M).applyAll st.ev, (C156_unused_partial Method.myula (constRng 1 0) () (.array1 (List.ofFn fun _ : Fin 1 => 5)) 10 _ _ "analysis"
    (some halfTransform) none _ _ _ _ (fun h => absurd h (by decide))).trans ?_⟩
  rw [hF]
  show Method.myula.run (constRng 1 0) () (.array1 (List.ofFn fun _ : Fin 1 => 5)) 10 M = _
  simp only [Method.run, h 10 le_rfl, bind, Except.bind, Option.map_some]

/-- C156 is violated for PxMALA with the transform above. -/
theorem C156_refuted : ¬ ∀ (F : ForwardOp 1) (t : UserTransform) (m : UserMeasurement) (P : PriorObj) (par : Params) (x0 : Fin 1 → ℂ),
    customOp ⟨false, fun _ => 0⟩ (.num 1 false) "synthesis" (some t) (some m) (some 1) = .ok F → 0 < par.nsamples → t.inverse = none →
    createAndRun (Method.run (.mala false 1) (constRng 1 0) () (.array1 (List.ofFn x0)) 1) F P par (.array1 (List.ofFn x0)) =
      .error .NotImplementedError := by
  intro H
  obtain ⟨F, hF⟩ := custom_builds "synthesis" (.inr rfl) (some halfTransform) copyForward
  have h1 := H F halfTransform copyForward ⟨fun _ => .ok 0, fun X => .ok X⟩ ⟨1, 1 / 2, 1, 2, 4, (3 : ℕ), (2 : ℕ), false, 0, ["chain"]⟩ (fun _ => 5)
    hF (by norm_num) rfl
  have h2 := (C156_transform_refuted (.mala false 1) (constRng 1 0) () () (.array1 (List.ofFn fun _ : Fin 1 => 5)) 1 _ _ _ _
    ⟨fun _ => .ok 0, fun X => .ok X⟩ ⟨1, 1 / 2, 1, 2, 4, (3 : ℕ), (2 : ℕ), false, 0, ["chain"]⟩ (by norm_num) (by norm_num) F hF (fun _ => 5)
    (by simp [startVector])).1 rfl
  rw [h1] at h2
  simp at h2

/-- The hypothesis of `C156_nparams_partial` is met: a forward operator of one datum without `nparams`. -/
example : ∃ F, customOp (n := 1) ⟨false, fun _ => 3⟩ (.num ((2 : ℝ) : ℂ) false) "analysis" none (some ⟨some fun X => .ok X, some fun X => .ok X⟩) none =
    .ok F := by
  obtain ⟨W, hW, -⟩ := C35_diagonal (n := 1) ⟨false, fun _ => 3⟩ rfl _ _ (.scalar 2 (by norm_num))
  unfold customOp ForwardOp.init
  rw [hW]
  exact ⟨_, rfl⟩

end Pxmcmc
