import Verif.Lemmas.Mirror
import Verif.Props.UnitsRefuted

/-! # Property C142: results do not depend on the sign convention -/

namespace Pxmcmc
variable {n p : ℕ}

/-! ## The constructors -/

/-- A forward operator for the data with the opposite sign. -/
structure ForwardMirror (F F' : ForwardOp n) : Prop where
  fwd : ∀ X, F'.forward (flip X) = (F.forward X).map flip
  grad : ∀ Y, F'.calcGradg (flip Y) = (F.calcGradg Y).map flip
  data : F'.data.vals = fun i => -F.data.vals i
  invcov : F'.invcov = F.invcov
  nparams : F'.nparams = F.nparams

/-- A prior that does not distinguish the signs. -/
structure PriorEven (P : PriorObj) : Prop where
  prox : OddMap P.proxf
  prior : ∀ X, P.prior (flip X) = P.prior X

theorem buildInvCov_mirror (data : DataVec n) (sig : SigD) : buildInvCov data.mirror sig = buildInvCov data sig := by
  cases sig <;> rfl

/-- C142: `ForwardOperator` for every data vector, every form of `sig_d`, both settings and all handles that map opposite arrays to opposite
arrays: with opposite data the predictions and the gradient at the opposite point are the opposite ones. -/
theorem C142_forward (data : DataVec n) (sig : SigD) (s : String) (tr me : Option OpPair) (np : Option ℕ)
    (htr : ∀ o ∈ tr, OddMap o.op ∧ OddMap o.adj) (hme : ∀ o ∈ me, OddMap o.op ∧ OddMap o.adj) (F : ForwardOp n)
    (hF : ForwardOp.init data sig s tr me np = .ok F) :
    ∃ F', ForwardOp.init data.mirror sig s tr me np = .ok F' ∧ ForwardMirror F F' := by
  unfold ForwardOp.init at hF ⊢
  rw [buildInvCov_mirror]
  cases hW : buildInvCov data sig with
  | error e => rw [hW] at hF; cases hF
  | ok W =>
    rw [hW] at hF
    simp only [bind, Except.bind] at hF ⊢
    cases hS : Setting.parse s with
    | none => rw [hS] at hF; cases hF
    | some S =>
      rw [hS] at hF
      simp only at hF ⊢
      cases hF
      refine ⟨_, rfl, ?_⟩
      have hop : ∀ X : List ℂ, (attr me).bind (fun m => m.op (flip X)) = ((attr me).bind fun m => m.op X).map flip := by
        intro X
        cases me with
        | none => rfl
        | some o => exact (hme o rfl).1 X
      have hga : ∀ Y : List ℂ, ForwardOp.gradgAnalysis ⟨data.mirror, W, S, tr, me, np⟩ (flip Y) =
          (ForwardOp.gradgAnalysis ⟨data, W, S, tr, me, np⟩ Y).map flip := by
        intro Y
        unfold ForwardOp.gradgAnalysis
        cases me with
        | none => rfl
        | some o =>
          have h1 : List.ofFn data.mirror.vals = flip (List.ofFn data.vals) := by rw [flip_ofFn]; rfl
          simp only [attr, bind, Except.bind]
          rw [h1, npSub_flip]
          cases npSub Y (List.ofFn data.vals) with
          | error e => rfl
          | ok diff =>
            simp only [Except.map]
            rw [matDot_flip]
            cases matDot W diff with
            | error e => rfl
            | ok wd => exact (hme o rfl).2 wd
      refine ⟨fun X => ?_, fun Y => ?_, rfl, rfl, rfl⟩
      · cases S with
        | analysis => exact hop X
        | synthesis =>
          show ((attr me).bind fun m => (attr tr).bind fun t => (t.op (flip X)).bind m.op) =
            ((attr me).bind fun m => (attr tr).bind fun t => (t.op X).bind m.op).map flip
          cases tr with
          | none => cases me <;> rfl
          | some t =>
            simp only [attr, Except.bind]
            rw [(htr t rfl).1 X]
            cases h : t.op X with
            | error e => cases me <;> rfl
            | ok y =>
              have := hop y
              cases me with
              | none => rfl
              | some o => exact this
      · cases S with
        | analysis => exact hga Y
        | synthesis =>
          show ((attr tr).bind fun t => (ForwardOp.gradgAnalysis _ (flip Y)).bind t.adj) =
            ((attr tr).bind fun t => (ForwardOp.gradgAnalysis _ Y).bind t.adj).map flip
          rw [hga]
          cases tr with
          | none => rfl
          | some t =>
            simp only [attr, Except.bind]
            cases ForwardOp.gradgAnalysis (⟨data, W, .synthesis, some t, me, np⟩ : ForwardOp n) Y with
            | error e => rfl
            | ok g => exact (htr t rfl).2 g

/-- C142: the l1 prior in both settings, for scalar and vector thresholds. -/
theorem C142_l1 (s : String) (fw ad : List ℂ → Py (List ℂ)) (hfw : OddMap fw) (had : OddMap ad) (T : Thresh) (L : L1 ℂ)
    (hL : L1.init s fw ad T = .ok L) : PriorEven L.toPrior := by
  unfold L1.init at hL
  cases hS : Setting.parse s with
  | none => rw [hS] at hL; cases hL
  | some S =>
    rw [hS] at hL
    simp only at hL
    cases hL
    refine ⟨fun X => ?_, fun X => ?_⟩
    · cases S with
      | synthesis => exact soft_flip X T
      | analysis =>
        show L1.proxfAnalysis _ (flip X) = (L1.proxfAnalysis _ X).map flip
        unfold L1.proxfAnalysis
        simp only [had X]
        cases ad X with
        | error e => rfl
        | ok a =>
          simp only [Except.map, bind, Except.bind]
          rw [soft_flip]
          cases soft a T with
          | error e => rfl
          | ok t =>
            simp only [Except.map]
            rw [npSub_flip]
            cases npSub t a with
            | error e => rfl
            | ok u =>
              simp only [Except.map]
              rw [hfw u]
              cases fw u with
              | error e => rfl
              | ok v =>
                simp only [Except.map]
                exact npAdd_flip X v
    · show Except.ok (((flip X).map fun x => ‖x‖).sum) = Except.ok ((X.map fun x => ‖x‖).sum)
      simp [flip, sc, Function.comp_def]

/-- C142: the priors with map weights and with power weights, whatever their weights and thresholds are. -/
theorem C142_wavelets (P : S2L1) (h : Heap ℝ) : PriorEven (P.toPrior h) ∧ PriorEven (P.toPriorPower h) := by
  have hp : OddMap (P.proxf h : List ℂ → Py (List ℂ)) := by
    intro X
    unfold S2L1.proxf
    cases P.T.value h with
    | none => rfl
    | some T => exact soft_flip X T
  have hw : ∀ X : List ℂ, wmul P.mapWeights (flip X) = (wmul P.mapWeights X).map flip := by
    intro X
    simp only [wmul, flip, sc]
    rw [show P.mapWeights = P.mapWeights.map id by simp, bcast_map]
    simp only [List.map_id]
    cases bcast P.mapWeights X with
    | error e => rfl
    | ok l =>
      simp only [Except.map, bind, Except.bind, flip, sc, List.map_map, Function.comp_def, Prod.map, id]
      refine congrArg _ (List.map_congr_left fun z _ => ?_)
      ring
  have hn : ∀ l : List ℂ, ((flip l).map fun z => ‖z‖).sum = (l.map fun z => ‖z‖).sum := by
    intro l
    simp [flip, sc, Function.comp_def]
  refine ⟨⟨hp, fun X => ?_⟩, ⟨hp, fun X => ?_⟩⟩
  · show P.prior (flip X) = P.prior X
    unfold S2L1.prior
    rw [hw]
    cases wmul P.mapWeights X with
    | error e => rfl
    | ok l => simp only [Except.map, bind, Except.bind, hn]
  · show P.priorPower (flip X) = P.priorPower X
    unfold S2L1.priorPower S2L1.prior
    simp only [hw]
    cases wmul P.mapWeights X with
    | error e => rfl
    | ok l =>
      simp only [Except.map, bind, Except.bind, hw]
      cases wmul P.mapWeights l with
      | error e => rfl
      | ok l' => simp only [hn]

/-! ## Runs -/

section
variable {M M' : Sampler n}

/-- The two samplers are constructed alike. -/
theorem sampler_mirror {F F' : ForwardOp n} {P : PriorObj} (hF : ForwardMirror F F') (hP : PriorEven P) (par : Params)
    (A : Arrays) (hM : samplerInit F P par = .ok (M, A)) :
    ∃ M' A', samplerInit F' P par = .ok (M', A') ∧ Mirrored M M' ∧ A' = A.mirror ∧ M.par = par := by
  unfold samplerInit at hM ⊢
  rw [hF.nparams]
  cases hk : F.nparams with
  | none => rw [hk] at hM; simp only at hM; split at hM <;> cases hM
  | some k =>
    rw [hk] at hM
    simp only at hM ⊢
    cases hM
    have U : Mirrored (⟨F, P, par, k⟩ : Sampler n) ⟨F', P, par, k⟩ := ⟨hF.fwd, hF.grad, hP.prox, hP.prior, hF.data, hF.invcov, rfl, rfl⟩
    exact ⟨_, _, rfl, U, U.initArrays, rfl⟩

theorem Mirrored.myulaRun (U : Mirrored M M') (R : Rng) (A : Arrays) (r : R.σ) (sp : StartPoint) (fuel : ℕ) :
    Pxmcmc.myulaRun M' R.mirror A.mirror r sp.mirror fuel = (Pxmcmc.myulaRun M R A r sp fuel).map (Option.map St.mirror) := by
  unfold Pxmcmc.myulaRun
  have hi := U.initialSample R r sp
  rw [hi]
  cases Pxmcmc.initialSample M R r sp with
  | error e => rfl
  | ok x =>
    simp only [Except.map, bind, Except.bind]
    have h := whileFuel_sim St.mirror (loopCond M) (loopCond M') (Pxmcmc.myulaBody M R A) (Pxmcmc.myulaBody M' R.mirror A.mirror)
      (fun st => by simp only [loopCond, U.par]; rfl) (fun st => by
        unfold Pxmcmc.myulaBody
        rw [show st.mirror.cur = st.cur.mirror from rfl, U.myulaStep]
        cases Pxmcmc.myulaStep M R st.cur with
        | error e => rfl
        | ok y => exact U.myulaBook A { st with cur := y }) fuel ⟨0, 0, ⟨x.1, x.2.1, x.2.2⟩, []⟩
    have h' : whileFuel (loopCond M') (Pxmcmc.myulaBody M' R.mirror A.mirror) fuel ⟨0, 0, ⟨flip x.1, flip x.2.1, x.2.2⟩, []⟩ = _ := h
    rw [h']
    cases whileFuel (loopCond M) (Pxmcmc.myulaBody M R A) fuel ⟨0, 0, ⟨x.1, x.2.1, x.2.2⟩, []⟩ with
    | error e => rfl
    | ok o =>
      cases o with
      | none => rfl
      | some st => simp [Except.map, St.mirror, Event.mirror]

theorem Mirrored.malaRun (U : Mirrored M M') (R : Rng) (tune : Bool) (δ : ℝ) (A : Arrays) (r : R.σ) (sp : StartPoint) (fuel : ℕ) :
    Pxmcmc.malaRun M' R.mirror tune δ A.mirror r sp.mirror fuel =
      (Pxmcmc.malaRun M R tune δ A r sp fuel).map (Option.map MalaSt.mirror) := by
  have h0 : Pxmcmc.malaInit M' R.mirror δ r sp.mirror = (Pxmcmc.malaInit M R δ r sp).map MalaSt.mirror := by
    unfold malaInit
    have hi := U.initialSample R r sp
    rw [hi]
    cases Pxmcmc.initialSample M R r sp with
    | error e => rfl
    | ok x =>
      simp only [Except.map, bind, Except.bind]
      rw [U.grad, U.prox, U.logpi]
      cases M.F.calcGradg x.2.1 with
      | error e => rfl
      | ok g =>
        simp only [Except.map]
        cases M.P.proxf x.1 with
        | error e => rfl
        | ok q =>
          simp only []
          cases Pxmcmc.logpi M.F M.P M.par.mu x.1 x.2.1 <;> rfl
  unfold Pxmcmc.malaRun
  rw [h0]
  cases Pxmcmc.malaInit M R δ r sp with
  | error e => rfl
  | ok s0 =>
    simp only [Except.map, bind, Except.bind]
    rw [whileFuel_sim MalaSt.mirror (malaCond M) (malaCond M') (Pxmcmc.malaBody M R tune A) (Pxmcmc.malaBody M' R.mirror tune A.mirror)
      (fun st => by simp only [malaCond, U.par]; rfl) (fun st => U.malaBody R tune A st)]
    cases whileFuel (malaCond M) (Pxmcmc.malaBody M R tune A) fuel s0 with
    | error e => rfl
    | ok o =>
      cases o with
      | none => rfl
      | some st => simp [Except.map, MalaSt.mirror, Event.mirror]

/-- C142 for MYULA and PxMALA, from the constructors on: for every forward operator whose handles map opposite arrays to opposite arrays,
every even prior, every parameter object, every generator, every start argument and every number of iterations, the run on the opposite
data from the opposite start with the opposite normal and Laplace numbers does the same as the original one (it raises, returns or is
still running alike); the recorded samples and predictions are the opposite ones, and log-posteriors, misfits, priors, printed numbers,
acceptances and step sizes are equal. -/
theorem C142_runs (data : DataVec n) (sig : SigD) (s : String) (tr me : Option OpPair) (np : Option ℕ)
    (htr : ∀ o ∈ tr, OddMap o.op ∧ OddMap o.adj) (hme : ∀ o ∈ me, OddMap o.op ∧ OddMap o.adj) (F : ForwardOp n)
    (hF : ForwardOp.init data sig s tr me np = .ok F) (P : PriorObj) (hP : PriorEven P) (par : Params) (A : Arrays)
    (hM : samplerInit F P par = .ok (M, A)) :
    ∃ (F' : ForwardOp n) (M' : Sampler n) (A' : Arrays),
      ForwardOp.init data.mirror sig s tr me np = .ok F' ∧ samplerInit F' P par = .ok (M', A') ∧
      ∀ (R : Rng) (r : R.σ) (sp : StartPoint) (fuel : ℕ),
        (myulaRun M' R.mirror A' r sp.mirror fuel = (myulaRun M R A r sp fuel).map (Option.map St.mirror) ∧
          ∀ st, myulaRun M R A r sp fuel = .ok (some st) →
            ∃ st', myulaRun M' R.mirror A' r sp.mirror fuel = .ok (some st') ∧ A'.applyAll st'.ev = (A.applyAll st.ev).mirror) ∧
        ∀ (tune : Bool) (δ : ℝ),
          malaRun M' R.mirror tune δ A' r sp.mirror fuel = (malaRun M R tune δ A r sp fuel).map (Option.map MalaSt.mirror) ∧
          ∀ st, malaRun M R tune δ A r sp fuel = .ok (some st) →
            ∃ st', malaRun M' R.mirror tune δ A' r sp.mirror fuel = .ok (some st') ∧ st'.acc = st.acc ∧ st'.deltas = st.deltas ∧
              A'.applyAll st'.ev = (A.applyAll st.ev).mirror := by
  obtain ⟨F', hF', hU⟩ := C142_forward data sig s tr me np htr hme F hF
  obtain ⟨M', A', hM', U, rfl, -⟩ := sampler_mirror hU hP par A hM
  refine ⟨F', M', _, hF', hM', fun R r sp fuel => ⟨⟨U.myulaRun R A r sp fuel, fun st hst => ?_⟩, fun tune δ =>
    ⟨U.malaRun R tune δ A r sp fuel, fun st hst => ?_⟩⟩⟩
  · refine ⟨st.mirror, ?_, Arrays.applyAll_mirror A st.ev⟩
    rw [U.myulaRun, hst]
    rfl
  · refine ⟨st.mirror, ?_, rfl, rfl, Arrays.applyAll_mirror A st.ev⟩
    rw [U.malaRun, hst]
    rfl

/-! ### SKROCK -/

theorem asVec_flip (k : ℕ) (l : List ℂ) : asVec k (flip l) = (asVec k l).map fun v i => -v i := by
  unfold flip
  rw [asVec_sc]
  simp

theorem Mirrored.gradlogpi (U : Mirrored M M') (X : List ℂ) :
    Pxmcmc.gradlogpi M'.F M'.P M'.par.lmda (flip X) none = (Pxmcmc.gradlogpi M.F M.P M.par.lmda X none).map flip := by
  unfold Pxmcmc.gradlogpi gradf
  rw [U.prox, U.fwd, U.par]
  cases M.P.proxf X with
  | error e => rfl
  | ok q =>
    simp only [Except.map, bind, Except.bind]
    rw [npSub_flip]
    cases npSub X q with
    | error e => rfl
    | ok t =>
      simp only [Except.map]
      have e1 : (((flip t).map fun z => z / (M.par.lmda : ℂ)).map fun z => -z) = flip ((t.map fun z => z / (M.par.lmda : ℂ)).map fun z => -z) := by
        simp only [flip, sc, List.map_map, Function.comp_def]
        exact List.map_congr_left fun z _ => by push_cast; ring
      cases M.F.forward X with
      | error e => rfl
      | ok y =>
        simp only []
        rw [U.grad]
        cases M.F.calcGradg y with
        | error e => rfl
        | ok g =>
          simp only [Except.map]
          rw [e1]
          exact npSub_flip _ g

theorem skrockStep_one_mirror {k : ℕ} (co : SkrockCoefs) (δ : ℝ) (g g' : (Fin k → ℂ) → Py (Fin k → ℂ))
    (hg : ∀ v : Fin k → ℂ, g' (fun i => -v i) = (g v).map fun w i => -w i) (X Z : Fin k → ℂ) (s : ℕ) (hs : s ≤ 1) :
    skrockStep co s δ g' (fun i => -X i) (fun i => -Z i) = (skrockStep co s δ g X Z).map fun w i => -w i := by
  rcases Nat.le_one_iff_eq_zero_or_eq_one.mp hs with rfl | rfl
  · rfl
  · unfold skrockStep
    simp only [kRec]
    have e : (fun i => -X i + ((co.nus.getD 1 0 * √(2 * δ) : ℝ) : ℂ) * -Z i) =
        fun i => -(fun i => X i + ((co.nus.getD 1 0 * √(2 * δ) : ℝ) : ℂ) * Z i) i := by
      funext i
      ring
    have e' := hg fun i => X i + ((co.nus.getD 1 0 * √(2 * δ) : ℝ) : ℂ) * Z i
    rw [← e] at e'
    show ((g' fun i => -X i + ((co.nus.getD 1 0 * √(2 * δ) : ℝ) : ℂ) * -Z i).bind _).bind _ =
      (((g fun i => X i + ((co.nus.getD 1 0 * √(2 * δ) : ℝ) : ℂ) * Z i).bind _).bind _).map _
    rw [e']
    cases g fun i => X i + ((co.nus.getD 1 0 * √(2 * δ) : ℝ) : ℂ) * Z i with
    | error e => rfl
    | ok w =>
      simp only [Except.map, Except.bind]
      congr 1
      funext i
      ring

theorem Mirrored.skrockTransition (U : Mirrored M M') (hs : M.par.s ≤ 1) (R : Rng) (co : SkrockCoefs) (x : Cur R) :
    Pxmcmc.skrockTransition M' R.mirror co x.mirror = (Pxmcmc.skrockTransition M R co x).map Cur.mirror := by
  unfold Pxmcmc.skrockTransition
  simp only [Cur.mirror]
  rw [U.par]
  generalize hk : (flip x.X).length = k'
  generalize hk0 : x.X.length = k
  rw [flip_length, hk0] at hk
  subst hk
  rw [asVec_flip]
  have hn := (noise_mirror R M.par.complex x.rng k).1
  rw [hn]
  cases hx : asVec k x.X with
  | error e => rfl
  | ok v =>
    simp only [Except.map, bind, Except.bind]
    rw [asVec_flip]
    cases asVec k (noise R R.randn M.par.complex x.rng k).1 with
    | error e => rfl
    | ok z =>
      simp only [Except.map]
      have hg : ∀ w : Fin k → ℂ, (fun v => (Pxmcmc.gradlogpi M'.F M'.P M.par.lmda (List.ofFn v) none).bind fun g => asVec k g)
          (fun i => -w i) = ((fun v => (Pxmcmc.gradlogpi M.F M.P M.par.lmda (List.ofFn v) none).bind fun g => asVec k g) w).map
            fun w i => -w i := by
        intro w
        have hl := U.gradlogpi (List.ofFn w)
        rw [U.par] at hl
        simp only
        rw [← flip_ofFn, hl, exMap_bind, exBind_map]
        congr 1
        funext g
        exact asVec_flip k g
      have hst := skrockStep_one_mirror co M.par.delta
        (fun v => (Pxmcmc.gradlogpi M.F M.P M.par.lmda (List.ofFn v) none).bind fun g => asVec k g)
        (fun v => (Pxmcmc.gradlogpi M'.F M'.P M.par.lmda (List.ofFn v) none).bind fun g => asVec k g) hg v z M.par.s hs
      simp only [Except.bind] at hst
      rw [hst]
      generalize skrockStep co M.par.s M.par.delta _ v z = st
      cases st with
      | error e => rfl
      | ok y =>
        simp only [Except.map]
        rw [← flip_ofFn, U.fwd]
        cases M.F.forward (List.ofFn y) <;> rfl

/-- C142 for SKROCK with one stage, from the constructors on. -/
theorem C142_skrock_partial (data : DataVec n) (sig : SigD) (s : String) (tr me : Option OpPair) (np : Option ℕ)
    (htr : ∀ o ∈ tr, OddMap o.op ∧ OddMap o.adj) (hme : ∀ o ∈ me, OddMap o.op ∧ OddMap o.adj) (F : ForwardOp n)
    (hF : ForwardOp.init data sig s tr me np = .ok F) (P : PriorObj) (hP : PriorEven P) (par : Params) (hs : par.s ≤ 1) (A : Arrays)
    (hM : samplerInit F P par = .ok (M, A)) :
    ∃ (F' : ForwardOp n) (M' : Sampler n) (A' : Arrays),
      ForwardOp.init data.mirror sig s tr me np = .ok F' ∧ samplerInit F' P par = .ok (M', A') ∧
      ∀ (R : Rng) (r : R.σ) (sp : StartPoint) (fuel : ℕ),
        skrockRun M' R.mirror A' r sp.mirror fuel = (skrockRun M R A r sp fuel).map (Option.map St.mirror) ∧
        ∀ st, skrockRun M R A r sp fuel = .ok (some st) →
          ∃ st', skrockRun M' R.mirror A' r sp.mirror fuel = .ok (some st') ∧ A'.applyAll st'.ev = (A.applyAll st.ev).mirror := by
  obtain ⟨F', hF', hU⟩ := C142_forward data sig s tr me np htr hme F hF
  obtain ⟨M', A', hM', U, rfl, hpar⟩ := sampler_mirror hU hP par A hM
  have key : ∀ (R : Rng) (r : R.σ) (sp : StartPoint) (fuel : ℕ),
      skrockRun M' R.mirror A.mirror r sp.mirror fuel = (skrockRun M R A r sp fuel).map (Option.map St.mirror) := by
    intro R r sp fuel
    unfold skrockRun
    have hi := U.initialSample R r sp
    rw [U.par, hi]
    cases skrockInit (M.par.s : ℤ) with
    | error e => rfl
    | ok co =>
    simp only [bind, Except.bind]
    cases initialSample M R r sp with
    | error e => rfl
    | ok x =>
      simp only [Except.map]
      have h := whileFuel_sim St.mirror (loopCond M) (loopCond M') (skrockBody M R co A) (skrockBody M' R.mirror co A.mirror)
        (fun st => by simp only [loopCond, U.par]; rfl) (fun st => by
          unfold skrockBody
          rw [show st.mirror.cur = st.cur.mirror from rfl, U.skrockTransition (by rw [hpar]; exact hs)]
          cases skrockTransition M R co st.cur with
          | error e => rfl
          | ok y => exact U.skrockBook A { st with cur := y }) fuel ⟨0, 0, ⟨x.1, x.2.1, x.2.2⟩, []⟩
      have h' : whileFuel (loopCond M') (skrockBody M' R.mirror co A.mirror) fuel ⟨0, 0, ⟨flip x.1, flip x.2.1, x.2.2⟩, []⟩ = _ := h
      rw [h']
      cases whileFuel (loopCond M) (skrockBody M R co A) fuel ⟨0, 0, ⟨x.1, x.2.1, x.2.2⟩, []⟩ with
      | error e => rfl
      | ok o =>
        cases o with
        | none => rfl
        | some st => simp [Except.map, St.mirror, Event.mirror]
  refine ⟨F', M', _, hF', hM', fun R r sp fuel => ⟨key R r sp fuel, fun st hst => ?_⟩⟩
  refine ⟨st.mirror, ?_, Arrays.applyAll_mirror A st.ev⟩
  rw [key, hst]
  rfl

end

theorem kVec_mirror (co : SkrockCoefs) (δ : ℝ) (G G' : (Fin p → ℂ) → (Fin p → ℂ)) (j : Fin p) (hG : ∀ x, G x j = 0) (hG' : ∀ x, G' x j = 0)
    (x z : Fin p → ℂ) (s : ℕ) :
    kVec co δ G' (fun i => -x i) (fun i => -z i) s j = -kVec co δ G x z s j + 2 * ((kConst co s : ℝ) : ℂ) := by
  induction s using Nat.strong_induction_on with
  | _ s ih =>
    match s with
    | 0 => simp [kVec, kConst]
    | 1 =>
      simp only [kVec, kConst, hG, hG']
      push_cast; ring
    | s + 2 =>
      simp only [kVec, kConst, hG, hG', ih (s + 1) (by omega), ih s (by omega)]
      push_cast; ring

theorem drawVec_mirror (R : Rng) (cplx : Bool) (r : R.σ) (k : ℕ) :
    drawVec R.mirror R.mirror.randn cplx r k = (fun i => -(drawVec R R.randn cplx r k).1 i, (drawVec R R.randn cplx r k).2) := by
  unfold drawVec
  cases cplx
  · simp [Rng.mirror]
  · simp only [Rng.mirror, if_true, Prod.mk.injEq, and_true]
    funext i
    push_cast; ring

/-- C142 is violated by SKROCK with two or more stages, for every path matrix with a pixel that no path crosses, every data vector and a flat
prior: from opposite points, with opposite random numbers, one transition never leads to opposite points (in every later stage the number 1
is added to every parameter). -/
theorem C142_skrock_refuted (W : Matrix (Fin n) (Fin p) ℂ) (j : Fin p) (hj : ∀ i, W i j = 0) (data : DataVec n) (hdc : data.cplx = false)
    (sig : SigD) (σ : Fin n → ℝ) (hσ : IsSigma n sig σ) (par : Params) (hl : par.lmda ≠ 0) (hs : 2 ≤ par.s) :
    ∃ (F F' : ForwardOp n) (L : L1 ℂ) (M M' : Sampler n) (A A' : Arrays) (co : SkrockCoefs),
      ForwardOp.init data sig "synthesis" (some identityTransform) (some ⟨pathForward W, pathAdjoint W⟩) (some p) = .ok F ∧
      ForwardOp.init data.mirror sig "synthesis" (some identityTransform) (some ⟨pathForward W, pathAdjoint W⟩) (some p) = .ok F' ∧
      L1.init "synthesis" identityTransform.op identityTransform.adj (.scalar 0) = .ok L ∧
      samplerInit F L.toPrior par = .ok (M, A) ∧ samplerInit F' L.toPrior par = .ok (M', A') ∧ skrockInit par.s = .ok co ∧
      ∀ (R : Rng) (r : R.σ) (x : Fin p → ℂ) (preds : List ℂ), ∃ (y : Cur R) (y' : Cur R.mirror),
        skrockTransition M R co ⟨List.ofFn x, preds, r⟩ = .ok y ∧
        skrockTransition M' R.mirror co ⟨flip (List.ofFn x), flip preds, r⟩ = .ok y' ∧ y'.X ≠ flip y.X := by
  obtain ⟨V, hV, -, hVd⟩ := C35_diagonal data hdc sig σ hσ
  have hV' := buildInvCov_mirror data sig
  rw [hV] at hV'
  obtain ⟨k, hk⟩ : ∃ k, par.s = k + 1 := ⟨par.s - 1, by omega⟩
  have hco := skrockInit_eq k
  set co : SkrockCoefs := _ with hcodef
  have hco' : skrockInit (par.s : ℤ) = .ok co := by rw [hk]; exact hco
  refine ⟨⟨data, V, .synthesis, some identityTransform, some ⟨pathForward W, pathAdjoint W⟩, some p⟩,
    ⟨data.mirror, V, .synthesis, some identityTransform, some ⟨pathForward W, pathAdjoint W⟩, some p⟩,
    ⟨.synthesis, identityTransform.op, identityTransform.adj, .scalar 0⟩, ⟨_, _, par, p⟩, ⟨_, _, par, p⟩, _, _, co,
    ?_, ?_, rfl, rfl, rfl, hco', fun R r x preds => ?_⟩
  · unfold ForwardOp.init
    rw [hV]
    rfl
  · unfold ForwardOp.init
    rw [hV']
    rfl
  · have t1 := pathTotal W data V 0 par hl
    have t2 := pathTotal W data.mirror V 0 par hl
    rw [flip_ofFn]
    refine ⟨_, _, skrockTransition_kVec R co t1 x preds r, skrockTransition_kVec R.mirror co t2 _ (flip preds) r, ?_⟩
    simp only
    intro heq
    rw [flip_ofFn] at heq
    have h1 := congrFun (List.ofFn_injective heq) j
    rw [drawVec_mirror] at h1
    have h2 := kVec_mirror co par.delta _ _ j (gradVec_uncrossed W j hj data V par.lmda) (gradVec_uncrossed W j hj data.mirror V par.lmda) x
      (drawVec R R.randn par.complex r p).1 par.s
    have h3 := h2.symm.trans h1
    have h4 : (2 : ℂ) * ((kConst co par.s : ℝ) : ℂ) = 0 := add_eq_left.mp h3
    have h5 : kConst co par.s = 0 := by simpa using h4
    rw [hk] at h5
    exact kConst_ne_zero k (by omega) co hco h5

/-! ## Concrete cases -/

theorem path_odd (W : Matrix (Fin n) (Fin p) ℂ) : OddMap (pathForward W) ∧ OddMap (pathAdjoint W) := by
  constructor
  · intro X
    unfold pathForward
    rw [flip_length]
    split
    · exact matDot_flip W X
    · rfl
  · intro X
    unfold pathAdjoint
    rw [flip_length]
    split
    · exact matDot_flip W.conjTranspose X
    · rfl

theorem identity_odd : OddMap identityTransform.op ∧ OddMap identityTransform.adj := ⟨fun _ => rfl, fun _ => rfl⟩

/-- Two paths over three pixels in the analysis setting with an l1 prior: all hypotheses of `C142_runs` hold, and the opposite data are other
data. -/
example : ∃ (F : ForwardOp 2) (L : L1 ℂ) (M : Sampler 2) (A : Arrays),
    ForwardOp.init ⟨false, ![3, 5]⟩ (.num 2 false) "analysis" none
      (some ⟨pathForward !![1, 2, 0; 0, 2, 5], pathAdjoint !![1, 2, 0; 0, 2, 5]⟩) (some 3) = .ok F ∧
    L1.init "analysis" identityTransform.op identityTransform.adj (.vector [1, 2, 3]) = .ok L ∧ PriorEven L.toPrior ∧
    samplerInit F L.toPrior ⟨1, 1 / 2, 1, 1, 4, 3, 2, true, 0, ["chain", "predictions"]⟩ = .ok (M, A) ∧
    OddMap (pathForward !![1, 2, 0; 0, 2, 5]) ∧ OddMap (pathAdjoint !![1, 2, 0; 0, 2, 5]) ∧
    (⟨false, ![3, 5]⟩ : DataVec 2).mirror.vals = ![-3, -5] := by
  obtain ⟨W, hW, -⟩ := C35_diagonal (⟨false, ![3, 5]⟩ : DataVec 2) rfl (.num ((2 : ℝ) : ℂ) false) _ (IsSigma.scalar 2 (by norm_num))
  refine ⟨⟨⟨false, ![3, 5]⟩, W, .analysis, none, some ⟨pathForward !![1, 2, 0; 0, 2, 5], pathAdjoint !![1, 2, 0; 0, 2, 5]⟩, some 3⟩,
    ⟨.analysis, identityTransform.op, identityTransform.adj, .vector [1, 2, 3]⟩, _, _, ?_, rfl,
    C142_l1 "analysis" _ _ identity_odd.1 identity_odd.2 (.vector [1, 2, 3]) _ rfl, rfl, (path_odd _).1, (path_odd _).2, ?_⟩
  · unfold ForwardOp.init
    rw [show (2 : ℂ) = ((2 : ℝ) : ℂ) by norm_num, hW]
    rfl
  · funext i
    fin_cases i <;> rfl

/-- One path over the first of two pixels, two stages: a case of `C142_skrock_refuted`. -/
example : (∀ i, (!![1, 0] : Matrix (Fin 1) (Fin 2) ℂ) i 1 = 0) ∧ IsSigma 1 (.num ((2 : ℝ) : ℂ) false) (fun _ => 2) ∧
    (⟨1, 1 / 2, 1, 2, 4, 3, 2, false, 0, []⟩ : Params).lmda ≠ 0 ∧ 2 ≤ (⟨1, 1 / 2, 1, 2, 4, 3, 2, false, 0, []⟩ : Params).s :=
  ⟨by intro i; fin_cases i; simp, IsSigma.scalar 2 (by norm_num), by norm_num, by norm_num⟩

end Pxmcmc
