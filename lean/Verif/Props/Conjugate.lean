import Verif.Lemmas.Conjugate
import Verif.Props.ComplexDenoise
import Verif.Props.Reorder

/-! # Property C148: results do not depend on the sign convention of the imaginary parts -/

namespace Pxmcmc
variable {n p : ℕ}

/-! ## The constructors -/

/-- A forward operator for the conjugate parameters and data. -/
structure ForwardConj (F F' : ForwardOp n) : Prop where
  fwd : ConjMap F.forward F'.forward
  grad : ConjMap F.calcGradg F'.calcGradg
  data : F'.data.vals = fun i => starRingEnd ℂ (F.data.vals i)
  invcov : F'.invcov = F.invcov.map (starRingEnd ℂ)
  nparams : F'.nparams = F.nparams

/-- A prior for the conjugate parameters. -/
structure PriorConj (P P' : PriorObj) : Prop where
  prox : ConjMap P.proxf P'.proxf
  prior : ∀ X, P'.prior (cj X) = P.prior X

/-- A pair of handles and the same pair for conjugate arrays; both may be absent. -/
def ConjPair : Option OpPair → Option OpPair → Prop
  | none, none => True
  | some o, some o' => ConjMap o.op o'.op ∧ ConjMap o.adj o'.adj
  | _, _ => False

theorem buildInvCov_data_conjug (data : DataVec n) (sig : SigD) : buildInvCov data.conjug sig = buildInvCov data sig := by
  cases sig <;> rfl

theorem complexVar_conj (c d : Bool) (h : ¬(c = true ∧ (!d) = true)) (v : ℂ) :
    complexVar c d (starRingEnd ℂ v) = starRingEnd ℂ (complexVar c d v) := by
  unfold complexVar
  cases c <;> cases d <;> simp_all

theorem diagonal_conj (d : Fin n → ℂ) :
    (Matrix.diagonal fun i => starRingEnd ℂ (d i)) = (Matrix.diagonal d).map (starRingEnd ℂ) := by
  ext i j
  simp only [Matrix.map_apply, Matrix.diagonal_apply]
  split <;> simp

/-- C148: the inverse covariance for conjugate `sig_d` is the conjugate one (and the exceptions are the same), unless the data are complex and
`sig_d` is real. -/
theorem C148_covariance_partial (data : DataVec n) (sig : SigD) (h : ¬(data.cplx = true ∧ sig.isReal = true)) :
    buildInvCov data.conjug sig.conjug = (buildInvCov data sig).map fun W => W.map (starRingEnd ℂ) := by
  rw [buildInvCov_data_conjug]
  cases sig with
  | num x c =>
    simp only [SigD.conjug, buildInvCov, ← map_pow]
    rw [complexVar_conj data.cplx c h]
    by_cases h0 : complexVar data.cplx c (x ^ 2) = 0
    · rw [if_pos h0, if_pos (by rw [h0, map_zero])]
      split <;> rfl
    · rw [if_neg h0, if_neg (by simpa using h0)]
      simp only [Except.map]
      rw [← diagonal_conj]
      simp
  | npScalar x =>
    simp only [SigD.conjug, buildInvCov]
    have hd : ¬data.cplx = true := fun hd => h ⟨hd, rfl⟩
    rw [if_neg hd]
    rfl
  | vec xs c =>
    simp only [SigD.conjug, buildInvCov, cj_length]
    split
    · rename_i hx
      simp only [Fin.getElem_fin, cj, List.getElem_map, ← map_pow, complexVar_conj data.cplx c h, map_eq_zero]
      split
      · rfl
      · simp only [Except.map]
        rw [← diagonal_conj]
        simp
    · rfl
  | mat r c M =>
    simp only [SigD.conjug, buildInvCov]
    split <;> rfl
  | nd s => rfl

/-- C148: `ForwardOperator`, for all handles and the corresponding ones for conjugate arrays, unless the data are complex and `sig_d` is real:
predictions and gradient are the conjugate ones. -/
theorem C148_forward_partial (data : DataVec n) (sig : SigD) (hc : ¬(data.cplx = true ∧ sig.isReal = true)) (s : String)
    (tr me tr' me' : Option OpPair) (np : Option ℕ) (htr : ConjPair tr tr') (hme : ConjPair me me') (F : ForwardOp n)
    (hF : ForwardOp.init data sig s tr me np = .ok F) :
    ∃ F', ForwardOp.init data.conjug sig.conjug s tr' me' np = .ok F' ∧ ForwardConj F F' := by
  unfold ForwardOp.init at hF ⊢
  rw [C148_covariance_partial data sig hc]
  cases hW : buildInvCov data sig with
  | error e => rw [hW] at hF; cases hF
  | ok W =>
    rw [hW] at hF
    simp only [bind, Except.bind, Except.map] at hF ⊢
    cases hS : Setting.parse s with
    | none => rw [hS] at hF; cases hF
    | some S =>
      rw [hS] at hF
      simp only at hF ⊢
      cases hF
      refine ⟨_, rfl, ?_⟩
      have hop : ∀ X : List ℂ, (attr me').bind (fun m => m.op (cj X)) = ((attr me).bind fun m => m.op X).map (cj) := by
        intro X
        cases me with
        | none => cases me' with
          | none => rfl
          | some o => exact hme.elim
        | some o => cases me' with
          | none => exact hme.elim
          | some o' => exact hme.1 X
      have hga : ∀ Y : List ℂ, ForwardOp.gradgAnalysis ⟨data.conjug, W.map (starRingEnd ℂ), S, tr', me', np⟩ (cj Y) =
          (ForwardOp.gradgAnalysis ⟨data, W, S, tr, me, np⟩ Y).map (cj) := by
        intro Y
        unfold ForwardOp.gradgAnalysis
        cases me with
        | none => cases me' with
          | none => rfl
          | some o => exact hme.elim
        | some o => cases me' with
          | none => exact hme.elim
          | some o' =>
            have h1 : List.ofFn (data.conjug).vals = cj (List.ofFn data.vals) := by rw [cj_ofFn]; rfl
            simp only [attr, bind, Except.bind]
            rw [h1, npSub_cj]
            cases npSub Y (List.ofFn data.vals) with
            | error e => rfl
            | ok diff =>
              simp only [Except.map]
              rw [matDot_cj]
              cases matDot W diff with
              | error e => rfl
              | ok wd => exact hme.2 wd
      refine ⟨fun X => ?_, fun Y => ?_, rfl, rfl, rfl⟩
      · cases S with
        | analysis =>
          exact hop X
        | synthesis =>
          show ((attr me').bind fun m => (attr tr').bind fun t => (t.op (cj X)).bind m.op) =
            ((attr me).bind fun m => (attr tr).bind fun t => (t.op X).bind m.op).map (cj)
          cases me with
          | none => cases me' with
            | none => rfl
            | some o => exact hme.elim
          | some o => cases me' with
            | none => exact hme.elim
            | some o' =>
              cases tr with
              | none => cases tr' with
                | none => rfl
                | some t => exact htr.elim
              | some t => cases tr' with
                | none => exact htr.elim
                | some t' =>
                  simp only [attr, Except.bind]
                  rw [htr.1 X]
                  cases h : t.op X with
                  | error e => rfl
                  | ok y => exact hop y
      · cases S with
        | analysis =>
          exact hga Y
        | synthesis =>
          show ((attr tr').bind fun t => (ForwardOp.gradgAnalysis _ (cj Y)).bind t.adj) =
            ((attr tr).bind fun t => (ForwardOp.gradgAnalysis _ Y).bind t.adj).map (cj)
          rw [hga]
          cases tr with
          | none => cases tr' with
            | none => rfl
            | some t => exact htr.elim
          | some t => cases tr' with
            | none => exact htr.elim
            | some t' =>
              simp only [attr, Except.bind]
              cases ForwardOp.gradgAnalysis (⟨data, W, .synthesis, some t, me, np⟩ : ForwardOp n) Y with
              | error e => rfl
              | ok g => exact htr.2 g

/-- C148: the l1 prior in both settings, for scalar and vector thresholds. -/
theorem C148_l1 (s : String) (fw ad fw' ad' : List ℂ → Py (List ℂ)) (hfw : ConjMap fw fw') (had : ConjMap ad ad') (T : Thresh) (L : L1 ℂ)
    (hL : L1.init s fw ad T = .ok L) : ∃ L', L1.init s fw' ad' T = .ok L' ∧ PriorConj L.toPrior L'.toPrior := by
  unfold L1.init at hL ⊢
  cases hS : Setting.parse s with
  | none => rw [hS] at hL; cases hL
  | some S =>
    rw [hS] at hL
    simp only at hL ⊢
    cases hL
    refine ⟨_, rfl, fun X => ?_, fun X => ?_⟩
    · cases S with
      | synthesis =>
        exact soft_cj X T
      | analysis =>
        show L1.proxfAnalysis _ (cj X) = (L1.proxfAnalysis _ X).map (cj)
        unfold L1.proxfAnalysis
        simp only [had X]
        cases ad X with
        | error e => rfl
        | ok a =>
          simp only [Except.map, bind, Except.bind]
          rw [soft_cj]
          cases soft a T with
          | error e => rfl
          | ok t =>
            simp only [Except.map]
            rw [npSub_cj]
            cases npSub t a with
            | error e => rfl
            | ok u =>
              simp only [Except.map]
              rw [hfw u]
              cases fw u with
              | error e => rfl
              | ok v =>
                simp only [Except.map]
                exact npAdd_cj X v
    · show Except.ok (((cj X).map fun x => ‖x‖).sum) = Except.ok ((X.map fun x => ‖x‖).sum)
      simp [cj, Function.comp_def]

/-- C148: the priors with map weights and with power weights, whatever their weights and thresholds are. -/
theorem C148_wavelets (P : S2L1) (h : Heap ℝ) : PriorConj (P.toPrior h) (P.toPrior h) ∧ PriorConj (P.toPriorPower h) (P.toPriorPower h) := by
  have hp : ConjMap (P.proxf h) (P.proxf h) := by
    intro X
    unfold S2L1.proxf
    cases P.T.value h with
    | none => rfl
    | some T => exact soft_cj X T
  have hw : ∀ X : List ℂ, wmul P.mapWeights (cj X) = (wmul P.mapWeights X).map cj := by
    intro X
    simp only [wmul, cj]
    rw [show P.mapWeights = P.mapWeights.map id by simp, bcast_map]
    simp only [List.map_id]
    cases bcast P.mapWeights X with
    | error e => rfl
    | ok l =>
      simp [Except.map, bind, Except.bind, cj, Function.comp_def, Prod.map]
  have hn : ∀ l : List ℂ, ((cj l).map fun z => ‖z‖).sum = (l.map fun z => ‖z‖).sum := by
    intro l
    simp [cj, Function.comp_def]
  refine ⟨⟨hp, fun X => ?_⟩, ⟨hp, fun X => ?_⟩⟩
  · show P.prior (cj X) = P.prior X
    unfold S2L1.prior
    rw [hw]
    cases wmul P.mapWeights X with
    | error e => rfl
    | ok l => simp only [Except.map, bind, Except.bind, hn]
  · show P.priorPower (cj X) = P.priorPower X
    unfold S2L1.priorPower S2L1.prior
    simp only [hw]
    cases wmul P.mapWeights X with
    | error e => rfl
    | ok l =>
      simp only [Except.map, bind, Except.bind, hw]
      cases wmul P.mapWeights l with
      | error e => rfl
      | ok l' => simp only [hn]

/-! ## Runs -/

section
variable {M M' : Sampler n}

/-- The two samplers are constructed alike. -/
theorem sampler_conjug {F F' : ForwardOp n} {P P' : PriorObj} (hF : ForwardConj F F') (hP : PriorConj P P') (par : Params)
    (A : Arrays) (hM : samplerInit F P par = .ok (M, A)) :
    ∃ M' A', samplerInit F' P' par = .ok (M', A') ∧ Conjugated M M' ∧ A' = A.conjug ∧ M.par = par := by
  unfold samplerInit at hM ⊢
  rw [hF.nparams]
  cases hk : F.nparams with
  | none => rw [hk] at hM; simp only at hM; split at hM <;> cases hM
  | some k =>
    rw [hk] at hM
    simp only at hM ⊢
    cases hM
    have U : Conjugated (⟨F, P, par, k⟩ : Sampler n) ⟨F', P', par, k⟩ :=
      ⟨hF.fwd, hF.grad, hP.prox, hP.prior, hF.data, hF.invcov, rfl, rfl⟩
    exact ⟨_, _, rfl, U, U.initArrays, rfl⟩

theorem Conjugated.myulaRun (U : Conjugated M M') (R : Rng) (A : Arrays) (r : R.σ) (sp : StartPoint) (fuel : ℕ) :
    Pxmcmc.myulaRun M' (R.conjug M.par.complex) A.conjug (r, false) sp.conjug fuel = (Pxmcmc.myulaRun M R A r sp fuel).map (Option.map (St.conjug M.par.complex)) := by
  unfold Pxmcmc.myulaRun
  have hi := U.initialSample R r sp
  rw [hi]
  cases Pxmcmc.initialSample M R r sp with
  | error e => rfl
  | ok x =>
    simp only [Except.map, bind, Except.bind]
    have h := whileFuel_sim (St.conjug M.par.complex) (loopCond M) (loopCond M') (Pxmcmc.myulaBody M R A) (Pxmcmc.myulaBody M' (R.conjug M.par.complex) A.conjug)
      (fun st => by simp only [loopCond, U.par]; rfl) (fun st => by
        unfold Pxmcmc.myulaBody
        rw [show (st.conjug M.par.complex).cur = (st.cur.conjug M.par.complex) from rfl, U.myulaStep]
        cases Pxmcmc.myulaStep M R st.cur with
        | error e => rfl
        | ok y => exact U.myulaBook A { st with cur := y }) fuel ⟨0, 0, ⟨x.1, x.2.1, x.2.2⟩, []⟩
    have h' : whileFuel (loopCond M') (Pxmcmc.myulaBody M' (R.conjug M.par.complex) A.conjug) fuel ⟨0, 0, ⟨cj x.1, cj x.2.1, (x.2.2, false)⟩, []⟩ = _ := h
    rw [h']
    cases whileFuel (loopCond M) (Pxmcmc.myulaBody M R A) fuel ⟨0, 0, ⟨x.1, x.2.1, x.2.2⟩, []⟩ with
    | error e => rfl
    | ok o =>
      cases o with
      | none => rfl
      | some st => simp [Except.map, St.conjug, Event.conjug]

/-- The states that the loop of `PxMALA.run` passes through from `s0`. -/
inductive MalaReach (M : Sampler n) (R : Rng) (tune : Bool) (A : Arrays) (s0 : MalaSt R) : MalaSt R → Prop
  | start : MalaReach M R tune A s0 s0
  | step (st st' : MalaSt R) : MalaReach M R tune A s0 st → malaCond M st = true → malaBody M R tune A st = .ok st' →
      MalaReach M R tune A s0 st'

/-- In no iteration of the run does log u equal the real part of a log acceptance ratio that has an imaginary part. -/
def NoTies (M : Sampler n) (R : Rng) (tune : Bool) (δ : ℝ) (A : Arrays) (r : R.σ) (sp : StartPoint) : Prop :=
  ∀ s0 st, malaInit M R δ r sp = .ok s0 → MalaReach M R tune A s0 st → malaCond M st = true → NoTie M R st

theorem Conjugated.malaRun (U : Conjugated M M') (R : Rng) (tune : Bool) (δ : ℝ) (A : Arrays) (r : R.σ) (sp : StartPoint) (fuel : ℕ)
    (ht : NoTies M R tune δ A r sp) :
    Pxmcmc.malaRun M' (R.conjug M.par.complex) tune δ A.conjug (r, false) sp.conjug fuel =
      (Pxmcmc.malaRun M R tune δ A r sp fuel).map (Option.map (MalaSt.conjug M.par.complex)) := by
  have h0 : Pxmcmc.malaInit M' (R.conjug M.par.complex) δ (r, false) sp.conjug = (Pxmcmc.malaInit M R δ r sp).map (MalaSt.conjug M.par.complex) := by
    unfold malaInit
    have hi := U.initialSample R r sp
    rw [hi]
    cases Pxmcmc.initialSample M R r sp with
    | error e => rfl
    | ok x =>
      simp only [Except.map, bind, Except.bind]
      rw [U.grad, U.prox, U.logpi]
      cases M.F.calcGradg x.2.1 with
      | error e => rfl
      | ok g =>
        simp only [Except.map]
        cases M.P.proxf x.1 with
        | error e => rfl
        | ok q =>
          simp only []
          cases Pxmcmc.logpi M.F M.P M.par.mu x.1 x.2.1 <;> rfl
  unfold Pxmcmc.malaRun
  rw [h0]
  cases hs0 : Pxmcmc.malaInit M R δ r sp with
  | error e => rfl
  | ok s0 =>
    simp only [Except.map, bind, Except.bind]
    rw [whileFuel_sim_on (MalaSt.conjug M.par.complex) (malaCond M) (malaCond M') (Pxmcmc.malaBody M R tune A) (Pxmcmc.malaBody M' (R.conjug M.par.complex) tune A.conjug)
      (fun st => by simp only [malaCond, U.par]; rfl) (MalaReach M R tune A s0) (fun s s' h1 h2 h3 => .step s s' h1 h2 h3)
      (fun st h1 h2 => U.malaBody R tune A st (ht s0 st hs0 h1 h2)) fuel s0 .start]
    cases whileFuel (malaCond M) (Pxmcmc.malaBody M R tune A) fuel s0 with
    | error e => rfl
    | ok o =>
      cases o with
      | none => rfl
      | some st => simp [Except.map, MalaSt.conjug, Event.conjug]

/-! ### SKROCK -/

theorem asVec_cj (k : ℕ) (l : List ℂ) : asVec k (cj l) = (asVec k l).map fun v i => starRingEnd ℂ (v i) := by
  unfold asVec
  simp only [cj_length]
  split
  · rename_i h
    simp only [Except.map]
    congr 1
    funext i
    simp [cj]
  · rfl

theorem Conjugated.gradlogpi (U : Conjugated M M') (X : List ℂ) :
    Pxmcmc.gradlogpi M'.F M'.P M'.par.lmda (cj X) none = (Pxmcmc.gradlogpi M.F M.P M.par.lmda X none).map (cj) := by
  unfold Pxmcmc.gradlogpi gradf
  rw [U.prox, U.fwd, U.par]
  cases M.P.proxf X with
  | error e => rfl
  | ok q =>
    simp only [Except.map, bind, Except.bind]
    rw [npSub_cj]
    cases npSub X q with
    | error e => rfl
    | ok t =>
      simp only [Except.map]
      cases M.F.forward X with
      | error e => rfl
      | ok y =>
        simp only []
        rw [U.grad]
        cases M.F.calcGradg y with
        | error e => rfl
        | ok g =>
          simp only [Except.map]
          rw [show ((cj t).map fun z => z / (M.par.lmda : ℂ)).map (fun z => -z) = cj ((t.map fun z => z / (M.par.lmda : ℂ)).map fun z => -z) by
            simp [cj, Function.comp_def]]
          exact npSub_cj _ g

theorem kRec_cj {k : ℕ} (co : SkrockCoefs) (δ : ℝ) (g g' : (Fin k → ℂ) → Py (Fin k → ℂ))
    (hg : ∀ v : Fin k → ℂ, g' (fun i => starRingEnd ℂ (v i)) = (g v).map fun w i => starRingEnd ℂ (w i)) (X Z : Fin k → ℂ) (s : ℕ) :
    kRec co δ g' (fun i => starRingEnd ℂ (X i)) (fun i => starRingEnd ℂ (Z i)) s = (kRec co δ g X Z s).map fun w => (fun i => starRingEnd ℂ (w.1 i), w.2) := by
  induction s using Nat.strong_induction_on with
  | _ s ih =>
    match s with
    | 0 => rfl
    | 1 =>
      simp only [kRec]
      have e := hg fun i => X i + ((co.nus.getD 1 0 * √(2 * δ) : ℝ) : ℂ) * Z i
      simp only [map_add, map_mul, Complex.conj_ofReal] at e
      simp only [bind]
      erw [e]
      generalize g _ = q
      cases q with
      | error e => rfl
      | ok w => simp [Except.bind, Except.map]
    | s + 2 =>
      simp only [kRec]
      rw [ih (s + 1) (by omega), ih s (by omega)]
      cases kRec co δ g X Z (s + 1) with
      | error e => rfl
      | ok a =>
        simp only [Except.map, bind, Except.bind]
        rw [hg a.1]
        cases g a.1 with
        | error e => rfl
        | ok w =>
          simp only [Except.map]
          cases kRec co δ g X Z s with
          | error e => rfl
          | ok b => simp

theorem Conjugated.skrockTransition (U : Conjugated M M') (R : Rng) (co : SkrockCoefs) (x : Cur R) :
    Pxmcmc.skrockTransition M' (R.conjug M.par.complex) co (x.conjug M.par.complex) = (Pxmcmc.skrockTransition M R co x).map (Cur.conjug M.par.complex) := by
  unfold Pxmcmc.skrockTransition
  simp only [Cur.conjug]
  rw [U.par]
  generalize hk : (cj x.X).length = k'
  generalize hk0 : x.X.length = k
  rw [cj_length, hk0] at hk
  subst hk
  rw [asVec_cj]
  have hn := (noise_conjug R M.par.complex x.rng k).1
  rw [hn]
  cases hx : asVec k x.X with
  | error e => rfl
  | ok v =>
    simp only [Except.map, bind, Except.bind]
    rw [asVec_cj]
    cases asVec k (noise R R.randn M.par.complex x.rng k).1 with
    | error e => rfl
    | ok z =>
      simp only [Except.map]
      have hg : ∀ w : Fin k → ℂ, (fun v => (Pxmcmc.gradlogpi M'.F M'.P M.par.lmda (List.ofFn v) none).bind fun g => asVec k g)
          (fun i => starRingEnd ℂ (w i)) = ((fun v => (Pxmcmc.gradlogpi M.F M.P M.par.lmda (List.ofFn v) none).bind fun g => asVec k g) w).map
            fun w i => starRingEnd ℂ (w i) := by
        intro w
        have hl := U.gradlogpi (List.ofFn w)
        rw [U.par] at hl
        simp only
        rw [← cj_ofFn, hl, exMap_bind, exBind_map]
        congr 1
        funext g
        exact asVec_cj k g
      have hst := kRec_cj co M.par.delta
        (fun v => (Pxmcmc.gradlogpi M.F M.P M.par.lmda (List.ofFn v) none).bind fun g => asVec k g)
        (fun v => (Pxmcmc.gradlogpi M'.F M'.P M.par.lmda (List.ofFn v) none).bind fun g => asVec k g) hg v z M.par.s
      simp only [Except.bind] at hst
      simp only [skrockStep, bind, Except.bind]
      rw [hst]
      generalize kRec co M.par.delta _ v z M.par.s = st
      cases st with
      | error e => rfl
      | ok y =>
        simp only [Except.map]
        rw [← cj_ofFn, U.fwd]
        cases M.F.forward (List.ofFn y.1) <;> rfl

theorem Conjugated.skrockRun (U : Conjugated M M') (R : Rng) (A : Arrays) (r : R.σ) (sp : StartPoint) (fuel : ℕ) :
      Pxmcmc.skrockRun M' (R.conjug M.par.complex) A.conjug (r, false) sp.conjug fuel = (Pxmcmc.skrockRun M R A r sp fuel).map (Option.map (St.conjug M.par.complex)) := by
  unfold Pxmcmc.skrockRun
  have hi := U.initialSample R r sp
  rw [U.par, hi]
  cases skrockInit (M.par.s : ℤ) with
  | error e => rfl
  | ok co =>
  simp only [bind, Except.bind]
  cases Pxmcmc.initialSample M R r sp with
  | error e => rfl
  | ok x =>
    simp only [Except.map]
    have h := whileFuel_sim (St.conjug M.par.complex) (loopCond M) (loopCond M') (Pxmcmc.skrockBody M R co A) (Pxmcmc.skrockBody M' (R.conjug M.par.complex) co A.conjug)
      (fun st => by simp only [loopCond, U.par]; rfl) (fun st => by
        unfold Pxmcmc.skrockBody
        rw [show (st.conjug M.par.complex).cur = (st.cur.conjug M.par.complex) from rfl, U.skrockTransition]
        cases Pxmcmc.skrockTransition M R co st.cur with
        | error e => rfl
        | ok y => exact U.skrockBook A { st with cur := y }) fuel ⟨0, 0, ⟨x.1, x.2.1, x.2.2⟩, []⟩
    have h' : whileFuel (loopCond M') (Pxmcmc.skrockBody M' (R.conjug M.par.complex) co A.conjug) fuel ⟨0, 0, ⟨cj x.1, cj x.2.1, (x.2.2, false)⟩, []⟩ = _ := h
    rw [h']
    cases whileFuel (loopCond M) (Pxmcmc.skrockBody M R co A) fuel ⟨0, 0, ⟨x.1, x.2.1, x.2.2⟩, []⟩ with
    | error e => rfl
    | ok o =>
      cases o with
      | none => rfl
      | some st => simp [Except.map, St.conjug, Event.conjug]

/-- C148 for the three samplers, from the constructors on: for every pair of forward operators and priors for conjugate arrays
(`C148_forward_partial`, `C148_l1`, `C148_wavelets`), every parameter object, every generator, every start argument and every number of
iterations (and of stages), the run with conjugate start and conjugate noise does the same as the original one (it raises, returns or is still
running alike); the recorded samples and predictions are the conjugate ones, and the recorded log-posteriors, misfits and priors, the
acceptances and the step sizes are equal.  For PxMALA this holds unless log u equals the real part of a log acceptance ratio with an imaginary
part: then mcmc.py:245 decides by the sign of the imaginary part. -/
theorem C148_runs_partial {F F' : ForwardOp n} {P P' : PriorObj} (hF : ForwardConj F F') (hP : PriorConj P P') (par : Params)
    (A : Arrays) (hM : samplerInit F P par = .ok (M, A)) :
    ∃ (M' : Sampler n) (A' : Arrays), samplerInit F' P' par = .ok (M', A') ∧
      ∀ (R : Rng) (r : R.σ) (sp : StartPoint) (fuel : ℕ),
        (myulaRun M' (R.conjug par.complex) A' (r, false) sp.conjug fuel =
            (myulaRun M R A r sp fuel).map (Option.map (St.conjug par.complex)) ∧
          ∀ st, myulaRun M R A r sp fuel = .ok (some st) →
            ∃ st', myulaRun M' (R.conjug par.complex) A' (r, false) sp.conjug fuel = .ok (some st') ∧
              A'.applyAll st'.ev = (A.applyAll st.ev).conjug) ∧
        (skrockRun M' (R.conjug par.complex) A' (r, false) sp.conjug fuel =
            (skrockRun M R A r sp fuel).map (Option.map (St.conjug par.complex)) ∧
          ∀ st, skrockRun M R A r sp fuel = .ok (some st) →
            ∃ st', skrockRun M' (R.conjug par.complex) A' (r, false) sp.conjug fuel = .ok (some st') ∧
              A'.applyAll st'.ev = (A.applyAll st.ev).conjug) ∧
        ∀ (tune : Bool) (δ : ℝ), NoTies M R tune δ A r sp →
          malaRun M' (R.conjug par.complex) tune δ A' (r, false) sp.conjug fuel =
            (malaRun M R tune δ A r sp fuel).map (Option.map (MalaSt.conjug par.complex)) ∧
          ∀ st, malaRun M R tune δ A r sp fuel = .ok (some st) →
            ∃ st', malaRun M' (R.conjug par.complex) tune δ A' (r, false) sp.conjug fuel = .ok (some st') ∧ st'.acc = st.acc ∧
              st'.deltas = st.deltas ∧ A'.applyAll st'.ev = (A.applyAll st.ev).conjug := by
  obtain ⟨M', A', hM', U, rfl, rfl⟩ := sampler_conjug hF hP par A hM
  refine ⟨M', _, hM', fun R r sp fuel => ⟨⟨U.myulaRun R A r sp fuel, fun st hst => ?_⟩, ⟨U.skrockRun R A r sp fuel, fun st hst => ?_⟩,
    fun tune δ ht => ⟨U.malaRun R tune δ A r sp fuel ht, fun st hst => ?_⟩⟩⟩
  · refine ⟨st.conjug M.par.complex, ?_, Arrays.applyAll_conjug A st.ev⟩
    rw [U.myulaRun, hst]
    rfl
  · refine ⟨st.conjug M.par.complex, ?_, Arrays.applyAll_conjug A st.ev⟩
    rw [U.skrockRun, hst]
    rfl
  · refine ⟨st.conjug M.par.complex, ?_, rfl, rfl, Arrays.applyAll_conjug A st.ev⟩
    rw [U.malaRun R tune δ A r sp fuel ht, hst]
    rfl

end

/-! ## Complex data with real standard deviations -/

theorem drawVec_conjug (R : Rng) (cplx : Bool) (r : R.σ) (k : ℕ) :
    (drawVec (R.conjug cplx) (R.conjug cplx).randn cplx (r, false) k).1 = fun i => starRingEnd ℂ ((drawVec R R.randn cplx r k).1 i) := by
  have h := (noise_conjug R cplx r k).1
  erw [noise_eq] at h
  rw [noise_eq, cj_ofFn] at h
  exact List.ofFn_injective (congrArg Prod.fst h)

theorem IsSigma.conjug {sig : SigD} {σ : Fin n → ℝ} (h : IsSigma n sig σ) : sig.conjug = sig := by
  cases h with
  | scalar s hs => simp [SigD.conjug]
  | vector s hs => simp [SigD.conjug, cj_ofFn]

/-- C148 is violated when the data are complex and `sig_d` is real, as in weak lensing (forward.py:81-82): denoising, in both settings, for all
data, standard deviations, thresholds, parameters with non-zero step size, generators and points that differ from the data somewhere: one
step of MYULA from the conjugate point, for the conjugate data and with the conjugate noise, does not lead to the conjugate of the point that the
step from the original point leads to. -/
theorem C148_refuted (data : DataVec n) (hd : data.cplx = true) (sig : SigD) (σ : Fin n → ℝ) (hσ : IsSigma n sig σ) (s : String)
    (hs : s = "analysis" ∨ s = "synthesis") (t : ℝ) :
    ∃ (F F' : ForwardOp n) (P : L1 ℂ),
      ForwardOp.init data sig s (some identityTransform) (some (identityMeasurement n n)) (some n) = .ok F ∧
      ForwardOp.init data.conjug sig.conjug s (some identityTransform) (some (identityMeasurement n n)) (some n) = .ok F' ∧
      L1.init s identityTransform.op identityTransform.adj (.scalar t) = .ok P ∧
      ∀ par : Params, par.lmda ≠ 0 → par.delta ≠ 0 → ∀ (R : Rng) (r : R.σ) (x : Fin n → ℂ), (∃ i, x i ≠ data.vals i) →
        ∃ (y : Cur R) (y' : Cur (R.conjug par.complex)),
          myulaStep ⟨F, P.toPrior, par, n⟩ R ⟨List.ofFn x, List.ofFn x, r⟩ = .ok y ∧
          myulaStep ⟨F', P.toPrior, par, n⟩ (R.conjug par.complex) ((⟨List.ofFn x, List.ofFn x, r⟩ : Cur R).conjug par.complex) = .ok y' ∧
          y'.X ≠ cj y.X := by
  obtain ⟨F, P, hF, hP, hk, hT⟩ := denoise_total_diag data sig _ (buildInvCov_complex data hd sig σ hσ) s hs t
  obtain ⟨F', P', hF', hP', hk', hT'⟩ := denoise_total_diag data.conjug sig.conjug _
    (by rw [hσ.conjug]; exact buildInvCov_complex data.conjug hd sig σ hσ) s hs t
  rw [hP] at hP'
  cases hP'
  refine ⟨F, F', P, hF, hF', hP, fun par hl hδ R r x hx => ?_⟩
  have h1 := myulaStep_vec _ R (hT par hl) x r
  have h2 := myulaStep_vec _ (R.conjug par.complex) (hT' par hl) (fun i => starRingEnd ℂ (x i)) (r, false)
  have e2 : (⟨List.ofFn x, List.ofFn x, r⟩ : Cur R).conjug par.complex =
      ⟨List.ofFn fun i => starRingEnd ℂ (x i), List.ofFn fun i => starRingEnd ℂ (x i), (r, false)⟩ := by
    simp only [Cur.conjug, cj_ofFn]
  rw [e2]
  refine ⟨_, _, h1, h2, ?_⟩
  · simp only [cj_ofFn]
    intro e
    obtain ⟨i, hi⟩ := hx
    have ei := congrFun (List.ofFn_injective e) i
    simp only [ulaStep, gradVec, drawVec_conjug, softEntry_conj, DataVec.conjug, map_add, map_mul, map_sub, map_neg, map_div₀,
      Complex.conj_ofReal, map_one, Complex.conj_I] at ei
    have hs0 : σ i ≠ 0 := by
      cases hσ with
      | scalar s hs => exact hs.ne'
      | vector s hs => exact (hs i).ne'
    have hw : ((1 / σ i ^ 2 / √2 : ℝ) : ℂ) ≠ 0 := by
      rw [Complex.ofReal_ne_zero]
      positivity
    have hδ' : (par.delta : ℂ) ≠ 0 := by simpa using hδ
    have hz : starRingEnd ℂ (x i) - starRingEnd ℂ (data.vals i) ≠ 0 := by
      rw [← map_sub]
      exact (map_ne_zero _).2 (sub_ne_zero.2 hi)
    have h0 : (par.delta : ℂ) * (((1 / σ i ^ 2 / √2 : ℝ) : ℂ) * (2 * Complex.I)
        * (starRingEnd ℂ (x i) - starRingEnd ℂ (data.vals i))) = 0 := by
      linear_combination ei
    simp [hδ', hz, hs0] at h0

/-! ## Operators -/

/-- C148: the path integrals; the path matrix is real, so the same operator serves. -/
theorem C148_path (A : Matrix (Fin n) (Fin p) ℝ) :
    ConjPair (some ⟨pathForward (A.map Complex.ofReal), pathAdjoint (A.map Complex.ofReal)⟩)
      (some ⟨pathForward (A.map Complex.ofReal), pathAdjoint (A.map Complex.ofReal)⟩) := by
  have e : (A.map Complex.ofReal).map (starRingEnd ℂ) = A.map Complex.ofReal := by
    ext i j
    simp
  have e' : (A.map Complex.ofReal).conjTranspose.map (starRingEnd ℂ) = (A.map Complex.ofReal).conjTranspose := by
    ext i j
    simp
  constructor
  · intro X
    show pathForward _ _ = (pathForward _ X).map _
    unfold pathForward
    rw [cj_length]
    split
    · have h := matDot_cj (A.map Complex.ofReal) X
      rw [e] at h
      exact h
    · rfl
  · intro X
    show pathAdjoint _ _ = (pathAdjoint _ X).map _
    unfold pathAdjoint
    rw [cj_length]
    split
    · have h := matDot_cj (A.map Complex.ofReal).conjTranspose X
      rw [e'] at h
      exact h
    · rfl

/-! ## Concrete cases -/

/-- The generator whose numbers are all zero. -/
def zeroRng : Rng := ⟨Unit, fun _ _ => (fun _ => 0, ()), fun _ _ => (fun _ => 0, ()), fun _ => (0, ())⟩

/-- Path integrals with complex data and complex standard deviations: the hypotheses of `C148_covariance_partial`, `C148_forward_partial`,
`C148_l1` and `C148_runs_partial`, with conjugate data that are different. -/
example : ∃ (F F' : ForwardOp 2) (L L' : L1 ℂ) (M : Sampler 2) (A : Arrays),
    ForwardOp.init ⟨true, ![3 + Complex.I, 5]⟩ (.num 2 true) "analysis" none
      (some ⟨pathForward ((!![1, 2, 0; 0, 2, 5] : Matrix (Fin 2) (Fin 3) ℝ).map Complex.ofReal),
        pathAdjoint ((!![1, 2, 0; 0, 2, 5] : Matrix (Fin 2) (Fin 3) ℝ).map Complex.ofReal)⟩) (some 3) = .ok F ∧
    ForwardOp.init (⟨true, ![3 + Complex.I, 5]⟩ : DataVec 2).conjug (SigD.conjug (.num 2 true)) "analysis" none
      (some ⟨pathForward ((!![1, 2, 0; 0, 2, 5] : Matrix (Fin 2) (Fin 3) ℝ).map Complex.ofReal),
        pathAdjoint ((!![1, 2, 0; 0, 2, 5] : Matrix (Fin 2) (Fin 3) ℝ).map Complex.ofReal)⟩) (some 3) = .ok F' ∧
    ForwardConj F F' ∧
    L1.init "analysis" identityTransform.op identityTransform.adj (.vector [1, 2, 3]) = .ok L ∧
    L1.init "analysis" identityTransform.op identityTransform.adj (.vector [1, 2, 3]) = .ok L' ∧ PriorConj L.toPrior L'.toPrior ∧
    samplerInit F L.toPrior ⟨1, 1 / 2, 1, 1, 4, 3, 2, true, 0, ["chain", "predictions"]⟩ = .ok (M, A) ∧
    (∀ r sp, NoTies M zeroRng true 1 A r sp) ∧
    (⟨true, ![3 + Complex.I, 5]⟩ : DataVec 2).conjug.vals ≠ ![3 + Complex.I, 5] := by
  have hc : ¬((⟨true, ![3 + Complex.I, 5]⟩ : DataVec 2).cplx = true ∧ (SigD.num 2 true).isReal = true) := fun h => Bool.noConfusion h.2
  have hF : ∃ F, ForwardOp.init (⟨true, ![3 + Complex.I, 5]⟩ : DataVec 2) (.num 2 true) "analysis" none
      (some ⟨pathForward ((!![1, 2, 0; 0, 2, 5] : Matrix (Fin 2) (Fin 3) ℝ).map Complex.ofReal),
        pathAdjoint ((!![1, 2, 0; 0, 2, 5] : Matrix (Fin 2) (Fin 3) ℝ).map Complex.ofReal)⟩) (some 3) = .ok F ∧ F.nparams = some 3 := by
    unfold ForwardOp.init
    have hW : buildInvCov (⟨true, ![3 + Complex.I, 5]⟩ : DataVec 2) (.num 2 true) = .ok (Matrix.diagonal fun _ => 1 / (2 : ℂ) ^ 2) := by
      simp [buildInvCov, complexVar]
    rw [hW]
    exact ⟨_, rfl, rfl⟩
  obtain ⟨F, hF, hk⟩ := hF
  obtain ⟨F', hF', hR⟩ := C148_forward_partial _ _ hc "analysis" none _ none _ _ trivial (C148_path !![1, 2, 0; 0, 2, 5]) _ hF
  obtain ⟨L', hL', hP⟩ := C148_l1 "analysis" identityTransform.op identityTransform.adj identityTransform.op identityTransform.adj
    (fun _ => rfl) (fun _ => rfl) (.vector [1, 2, 3]) _ rfl
  refine ⟨F, F', _, L', _, _, hF, hF', hR, rfl, hL', hP, by unfold samplerInit; rw [hk], ?_, ?_⟩
  · intro r sp s0 st _ _ _
    simp [NoTie, zeroRng]
  · intro h
    have := congrArg Complex.im (congrFun h 0)
    simp [DataVec.conjug] at this
    norm_num at this

/-- The hypotheses of `C148_refuted`: two complex data with standard deviation 1, and the point 0. -/
example : (⟨true, ![1 + Complex.I, 2]⟩ : DataVec 2).cplx = true ∧ IsSigma 2 (.num ((1 : ℝ) : ℂ) false) (fun _ => 1) ∧
    ∃ i, (fun _ => 0 : Fin 2 → ℂ) i ≠ ![1 + Complex.I, 2] i :=
  ⟨rfl, .scalar 1 one_pos, 1, by simp⟩

end Pxmcmc
