import Verif.Lemmas.Reorder
import Verif.Props.Units

/-! # Property C145: results do not depend on the order of the parameters, of the pixels and of the data -/

namespace Pxmcmc
variable {n p : ℕ}

/-! ## The constructors -/

/-- A forward operator for the parameters numbered by `τ` and the data numbered by `ρ`. -/
structure ForwardReorder (τ ρ : Order) (F F' : ForwardOp n) : Prop where
  fwd : SameMap τ ρ F.forward F'.forward
  grad : SameMap ρ τ F.calcGradg F'.calcGradg
  data : F'.data.vals = fun i => F.data.vals (ρ n i)
  invcov : F'.invcov = F.invcov.submatrix (ρ n) (ρ n)
  nparams : F'.nparams = F.nparams

/-- A prior for the parameters numbered by `τ`. -/
structure PriorReorder (τ : Order) (P P' : PriorObj) : Prop where
  prox : SameMap τ τ P.proxf P'.proxf
  prior : ∀ X, P'.prior (reord τ X) = P.prior X

/-- A pair of handles between two spaces and the same pair for the other numbering of both spaces; both may be absent. -/
def SamePair (τ κ : Order) : Option OpPair → Option OpPair → Prop
  | none, none => True
  | some o, some o' => SameMap τ κ o.op o'.op ∧ SameMap κ τ o.adj o'.adj
  | _, _ => False

theorem diagonal_reord (ρ : Order) (d : Fin n → ℂ) :
    (Matrix.diagonal fun i => d (ρ n i)) = (Matrix.diagonal d).submatrix (ρ n) (ρ n) := by
  ext i j
  simp only [Matrix.submatrix_apply, Matrix.diagonal_apply]
  by_cases h : i = j
  · simp [h]
  · rw [if_neg h, if_neg fun h' => h ((ρ n).injective h')]

theorem buildInvCov_reord (ρ : Order) (data : DataVec n) (sig : SigD) : buildInvCov (data.reord ρ) sig = buildInvCov data sig := by
  cases sig <;> rfl

/-- C145: the inverse covariance of the data in the other order, for every form of `sig_d` (and the same exceptions). -/
theorem C145_covariance (ρ : Order) (data : DataVec n) (sig : SigD) :
    buildInvCov (data.reord ρ) (sig.reord ρ) = (buildInvCov data sig).map fun W => W.submatrix (ρ n) (ρ n) := by
  rw [buildInvCov_reord]
  cases sig with
  | num x c =>
    simp only [SigD.reord, buildInvCov]
    by_cases h : complexVar data.cplx c (x ^ 2) = 0
    · rw [if_pos h]
      cases data.cplx <;> cases c <;> rfl
    · rw [if_neg h]
      simp only [Except.map]
      rw [← diagonal_reord]
  | npScalar x =>
    simp only [SigD.reord, buildInvCov]
    by_cases hc : data.cplx = true
    · rw [if_pos hc]
      by_cases h : complexVar true false ((x : ℂ) ^ 2) = 0
      · rw [if_pos h]
        rfl
      · rw [if_neg h]
        simp only [Except.map]
        rw [← diagonal_reord]
    · rw [if_neg hc]
      rfl
  | vec xs c =>
    simp only [SigD.reord, buildInvCov, reord_length]
    split
    · rename_i h
      have e : ∀ i : Fin n, (reord ρ xs)[(i : ℕ)]'(by rw [reord_length]; omega) = xs[(ρ n i : ℕ)]'(by omega) := by
        intro i
        simp only [reord_eq ρ xs h, List.getElem_ofFn]
      simp only [Fin.getElem_fin, e]
      have hz : (∃ i : Fin n, complexVar data.cplx c (xs[(ρ n i : ℕ)]'(by omega) ^ 2) = 0) ↔
          ∃ i : Fin n, complexVar data.cplx c (xs[(i : ℕ)]'(by omega) ^ 2) = 0 :=
        (ρ n).exists_congr_left.trans (by simp)
      simp only [hz]
      split
      · rfl
      · simp only [Except.map]
        rw [← diagonal_reord ρ fun i : Fin n => 1 / complexVar data.cplx c (xs[(i : ℕ)]'(by omega) ^ 2)]
    · rfl
  | mat r c M =>
    simp only [SigD.reord, buildInvCov]
    split <;> rfl
  | nd s => rfl

/-- C145: `ForwardOperator`, for every numbering `τ` of the parameters, `π` of the pixels and `ρ` of the data (in the analysis setting the
parameters are the pixels): with the handles, the data and the standard deviations numbered accordingly, predictions and gradient are the
same up to the numbering. -/
theorem C145_forward (τ π ρ : Order) (data : DataVec n) (sig : SigD) (s : String) (hs : s = "analysis" → π = τ)
    (tr me tr' me' : Option OpPair) (np : Option ℕ) (htr : SamePair τ π tr tr') (hme : SamePair π ρ me me') (F : ForwardOp n)
    (hF : ForwardOp.init data sig s tr me np = .ok F) :
    ∃ F', ForwardOp.init (data.reord ρ) (sig.reord ρ) s tr' me' np = .ok F' ∧ ForwardReorder τ ρ F F' := by
  unfold ForwardOp.init at hF ⊢
  rw [C145_covariance]
  cases hW : buildInvCov data sig with
  | error e => rw [hW] at hF; cases hF
  | ok W =>
    rw [hW] at hF
    simp only [bind, Except.bind, Except.map] at hF ⊢
    cases hS : Setting.parse s with
    | none => rw [hS] at hF; cases hF
    | some S =>
      rw [hS] at hF
      simp only at hF ⊢
      cases hF
      refine ⟨_, rfl, ?_⟩
      have hτ : S = .analysis → π = τ := by
        rintro rfl
        apply hs
        unfold Setting.parse at hS
        by_contra h
        rw [if_neg h] at hS
        split at hS <;> cases hS
      have hop : ∀ X : List ℂ, (attr me').bind (fun m => m.op (reord π X)) = ((attr me).bind fun m => m.op X).map (reord ρ) := by
        intro X
        cases me with
        | none => cases me' with
          | none => rfl
          | some o => exact hme.elim
        | some o => cases me' with
          | none => exact hme.elim
          | some o' => exact hme.1 X
      have hga : ∀ Y : List ℂ, ForwardOp.gradgAnalysis ⟨data.reord ρ, W.submatrix (ρ n) (ρ n), S, tr', me', np⟩ (reord ρ Y) =
          (ForwardOp.gradgAnalysis ⟨data, W, S, tr, me, np⟩ Y).map (reord π) := by
        intro Y
        unfold ForwardOp.gradgAnalysis
        cases me with
        | none => cases me' with
          | none => rfl
          | some o => exact hme.elim
        | some o => cases me' with
          | none => exact hme.elim
          | some o' =>
            have h1 : List.ofFn (data.reord ρ).vals = reord ρ (List.ofFn data.vals) := by rw [reord_ofFn]; rfl
            simp only [attr, bind, Except.bind]
            rw [h1, npSub_reord]
            cases npSub Y (List.ofFn data.vals) with
            | error e => rfl
            | ok diff =>
              simp only [Except.map]
              rw [matDot_reord]
              cases matDot W diff with
              | error e => rfl
              | ok wd => exact hme.2 wd
      refine ⟨fun X => ?_, fun Y => ?_, rfl, rfl, rfl⟩
      · cases S with
        | analysis =>
          have := hop X
          rw [hτ rfl] at this
          exact this
        | synthesis =>
          show ((attr me').bind fun m => (attr tr').bind fun t => (t.op (reord τ X)).bind m.op) =
            ((attr me).bind fun m => (attr tr).bind fun t => (t.op X).bind m.op).map (reord ρ)
          cases me with
          | none => cases me' with
            | none => rfl
            | some o => exact hme.elim
          | some o => cases me' with
            | none => exact hme.elim
            | some o' =>
              cases tr with
              | none => cases tr' with
                | none => rfl
                | some t => exact htr.elim
              | some t => cases tr' with
                | none => exact htr.elim
                | some t' =>
                  simp only [attr, Except.bind]
                  rw [htr.1 X]
                  cases h : t.op X with
                  | error e => rfl
                  | ok y => exact hop y
      · cases S with
        | analysis =>
          have := hga Y
          rw [hτ rfl] at this
          exact this
        | synthesis =>
          show ((attr tr').bind fun t => (ForwardOp.gradgAnalysis _ (reord ρ Y)).bind t.adj) =
            ((attr tr).bind fun t => (ForwardOp.gradgAnalysis _ Y).bind t.adj).map (reord τ)
          rw [hga]
          cases tr with
          | none => cases tr' with
            | none => rfl
            | some t => exact htr.elim
          | some t => cases tr' with
            | none => exact htr.elim
            | some t' =>
              simp only [attr, Except.bind]
              cases ForwardOp.gradgAnalysis (⟨data, W, .synthesis, some t, me, np⟩ : ForwardOp n) Y with
              | error e => rfl
              | ok g => exact htr.2 g

/-- C145: the l1 prior in both settings, for scalar and vector thresholds, for every numbering `τ` of the parameters and `κ` of the
coefficients (in the synthesis setting the parameters are the coefficients). -/
theorem C145_l1 (τ κ : Order) (s : String) (hs : s = "synthesis" → κ = τ) (fw ad fw' ad' : List ℂ → Py (List ℂ)) (hfw : SameMap κ τ fw fw')
    (had : SameMap τ κ ad ad') (T : Thresh) (L : L1 ℂ) (hL : L1.init s fw ad T = .ok L) :
    ∃ L', L1.init s fw' ad' (T.reord κ) = .ok L' ∧ PriorReorder τ L.toPrior L'.toPrior := by
  unfold L1.init at hL ⊢
  cases hS : Setting.parse s with
  | none => rw [hS] at hL; cases hL
  | some S =>
    rw [hS] at hL
    simp only at hL ⊢
    cases hL
    refine ⟨_, rfl, fun X => ?_, fun X => ?_⟩
    · cases S with
      | synthesis =>
        have hτ : κ = τ := by
          apply hs
          unfold Setting.parse at hS
          split at hS
          · cases hS
          · split at hS
            · assumption
            · cases hS
        rw [hτ]
        exact soft_reord τ X T
      | analysis =>
        show L1.proxfAnalysis _ (reord τ X) = (L1.proxfAnalysis _ X).map (reord τ)
        unfold L1.proxfAnalysis
        simp only [had X]
        cases ad X with
        | error e => rfl
        | ok a =>
          simp only [Except.map, bind, Except.bind]
          rw [soft_reord]
          cases soft a T with
          | error e => rfl
          | ok t =>
            simp only [Except.map]
            rw [npSub_reord]
            cases npSub t a with
            | error e => rfl
            | ok u =>
              simp only [Except.map]
              rw [hfw u]
              cases fw u with
              | error e => rfl
              | ok v =>
                simp only [Except.map]
                exact npAdd_reord τ X v
    · show Except.ok (((reord τ X).map fun x => ‖x‖).sum) = Except.ok ((X.map fun x => ‖x‖).sum)
      rw [← reord_map, (reord_perm τ _).sum_eq]

/-- C145: the priors with map weights and with power weights, when weights and thresholds are numbered like the coefficients. -/
theorem C145_wavelets (τ : Order) (P P' : S2L1) (h h' : Heap ℝ) (hw : P'.mapWeights = reord τ P.mapWeights)
    (hT : P'.T.value h' = (P.T.value h).map (Thresh.reord τ)) :
    PriorReorder τ (P.toPrior h) (P'.toPrior h') ∧ PriorReorder τ (P.toPriorPower h) (P'.toPriorPower h') := by
  have hp : SameMap τ τ (P.proxf h : List ℂ → Py (List ℂ)) (P'.proxf h') := by
    intro X
    unfold S2L1.proxf
    rw [hT]
    cases P.T.value h with
    | none => rfl
    | some T => exact soft_reord τ X T
  have hm : ∀ X : List ℂ, wmul P'.mapWeights (reord τ X) = (wmul P.mapWeights X).map (reord τ) := by
    intro X
    simp only [wmul]
    rw [hw, bcast_reord]
    cases bcast P.mapWeights X with
    | error e => rfl
    | ok l => simp only [Except.map, bind, Except.bind, reord_map]
  have hn : ∀ l : List ℂ, ((reord τ l).map fun z => ‖z‖).sum = (l.map fun z => ‖z‖).sum := by
    intro l
    rw [← reord_map, (reord_perm τ _).sum_eq]
  refine ⟨⟨hp, fun X => ?_⟩, ⟨hp, fun X => ?_⟩⟩
  · show P'.prior (reord τ X) = P.prior X
    unfold S2L1.prior
    rw [hm]
    cases wmul P.mapWeights X with
    | error e => rfl
    | ok l => simp only [Except.map, bind, Except.bind, hn]
  · show P'.priorPower (reord τ X) = P.priorPower X
    unfold S2L1.priorPower S2L1.prior
    simp only [hm]
    cases wmul P.mapWeights X with
    | error e => rfl
    | ok l =>
      simp only [Except.map, bind, Except.bind, hm]
      cases wmul P.mapWeights l with
      | error e => rfl
      | ok l' => simp only [hn]

/-! ## Runs -/

section
variable {τ ρ : Order} {M M' : Sampler n}

/-- The two samplers are constructed alike. -/
theorem sampler_reord {F F' : ForwardOp n} {P P' : PriorObj} (hF : ForwardReorder τ ρ F F') (hP : PriorReorder τ P P') (par : Params)
    (A : Arrays) (hM : samplerInit F P par = .ok (M, A)) :
    ∃ M' A', samplerInit F' P' par = .ok (M', A') ∧ Reordered τ ρ M M' ∧ A' = A.reord τ ρ := by
  unfold samplerInit at hM ⊢
  rw [hF.nparams]
  cases hk : F.nparams with
  | none => rw [hk] at hM; simp only at hM; split at hM <;> cases hM
  | some k =>
    rw [hk] at hM
    simp only at hM ⊢
    cases hM
    have U : Reordered τ ρ (⟨F, P, par, k⟩ : Sampler n) ⟨F', P', par, k⟩ :=
      ⟨hF.fwd, hF.grad, hP.prox, hP.prior, hF.data, hF.invcov, rfl, rfl⟩
    exact ⟨_, _, rfl, U, U.initArrays⟩

theorem Reordered.myulaRun (U : Reordered τ ρ M M') (R : Rng) (A : Arrays) (r : R.σ) (sp : StartPoint) (fuel : ℕ) :
    Pxmcmc.myulaRun M' (R.reord τ) (A.reord τ ρ) r (sp.reord τ) fuel = (Pxmcmc.myulaRun M R A r sp fuel).map (Option.map (St.reord τ ρ)) := by
  unfold Pxmcmc.myulaRun
  have hi := U.initialSample R r sp
  rw [hi]
  cases Pxmcmc.initialSample M R r sp with
  | error e => rfl
  | ok x =>
    simp only [Except.map, bind, Except.bind]
    have h := whileFuel_sim (St.reord τ ρ) (loopCond M) (loopCond M') (Pxmcmc.myulaBody M R A) (Pxmcmc.myulaBody M' (R.reord τ) (A.reord τ ρ))
      (fun st => by simp only [loopCond, U.par]; rfl) (fun st => by
        unfold Pxmcmc.myulaBody
        rw [show (st.reord τ ρ).cur = (st.cur.reord τ ρ) from rfl, U.myulaStep]
        cases Pxmcmc.myulaStep M R st.cur with
        | error e => rfl
        | ok y => exact U.myulaBook A { st with cur := y }) fuel ⟨0, 0, ⟨x.1, x.2.1, x.2.2⟩, []⟩
    have h' : whileFuel (loopCond M') (Pxmcmc.myulaBody M' (R.reord τ) (A.reord τ ρ)) fuel ⟨0, 0, ⟨reord τ x.1, reord ρ x.2.1, x.2.2⟩, []⟩ = _ := h
    rw [h']
    cases whileFuel (loopCond M) (Pxmcmc.myulaBody M R A) fuel ⟨0, 0, ⟨x.1, x.2.1, x.2.2⟩, []⟩ with
    | error e => rfl
    | ok o =>
      cases o with
      | none => rfl
      | some st => simp [Except.map, St.reord, Event.reord]

theorem Reordered.malaRun (U : Reordered τ ρ M M') (R : Rng) (tune : Bool) (δ : ℝ) (A : Arrays) (r : R.σ) (sp : StartPoint) (fuel : ℕ) :
    Pxmcmc.malaRun M' (R.reord τ) tune δ (A.reord τ ρ) r (sp.reord τ) fuel =
      (Pxmcmc.malaRun M R tune δ A r sp fuel).map (Option.map (MalaSt.reord τ ρ)) := by
  have h0 : Pxmcmc.malaInit M' (R.reord τ) δ r (sp.reord τ) = (Pxmcmc.malaInit M R δ r sp).map (MalaSt.reord τ ρ) := by
    unfold malaInit
    have hi := U.initialSample R r sp
    rw [hi]
    cases Pxmcmc.initialSample M R r sp with
    | error e => rfl
    | ok x =>
      simp only [Except.map, bind, Except.bind]
      rw [U.grad, U.prox, U.logpi]
      cases M.F.calcGradg x.2.1 with
      | error e => rfl
      | ok g =>
        simp only [Except.map]
        cases M.P.proxf x.1 with
        | error e => rfl
        | ok q =>
          simp only []
          cases Pxmcmc.logpi M.F M.P M.par.mu x.1 x.2.1 <;> rfl
  unfold Pxmcmc.malaRun
  rw [h0]
  cases Pxmcmc.malaInit M R δ r sp with
  | error e => rfl
  | ok s0 =>
    simp only [Except.map, bind, Except.bind]
    rw [whileFuel_sim (MalaSt.reord τ ρ) (malaCond M) (malaCond M') (Pxmcmc.malaBody M R tune A) (Pxmcmc.malaBody M' (R.reord τ) tune (A.reord τ ρ))
      (fun st => by simp only [malaCond, U.par]; rfl) (fun st => U.malaBody R tune A st)]
    cases whileFuel (malaCond M) (Pxmcmc.malaBody M R tune A) fuel s0 with
    | error e => rfl
    | ok o =>
      cases o with
      | none => rfl
      | some st => simp [Except.map, MalaSt.reord, Event.reord]

/-! ### SKROCK -/

theorem asVec_reord (k : ℕ) (l : List ℂ) : asVec k (reord τ l) = (asVec k l).map fun v i => v (τ k i) := by
  unfold asVec
  simp only [reord_length]
  split
  · rename_i h
    simp only [Except.map]
    congr 1
    funext i
    simp only [Fin.getElem_fin, reord_eq τ l h, List.getElem_ofFn]
  · rfl

theorem Reordered.gradlogpi (U : Reordered τ ρ M M') (X : List ℂ) :
    Pxmcmc.gradlogpi M'.F M'.P M'.par.lmda (reord τ X) none = (Pxmcmc.gradlogpi M.F M.P M.par.lmda X none).map (reord τ) := by
  unfold Pxmcmc.gradlogpi gradf
  rw [U.prox, U.fwd, U.par]
  cases M.P.proxf X with
  | error e => rfl
  | ok q =>
    simp only [Except.map, bind, Except.bind]
    rw [npSub_reord]
    cases npSub X q with
    | error e => rfl
    | ok t =>
      simp only [Except.map]
      cases M.F.forward X with
      | error e => rfl
      | ok y =>
        simp only []
        rw [U.grad]
        cases M.F.calcGradg y with
        | error e => rfl
        | ok g =>
          simp only [Except.map, ← reord_map]
          exact npSub_reord τ _ g

theorem kRec_reord {k : ℕ} (τ : Order) (co : SkrockCoefs) (δ : ℝ) (g g' : (Fin k → ℂ) → Py (Fin k → ℂ))
    (hg : ∀ v : Fin k → ℂ, g' (fun i => v (τ k i)) = (g v).map fun w i => w (τ k i)) (X Z : Fin k → ℂ) (s : ℕ) :
    kRec co δ g' (fun i => X (τ k i)) (fun i => Z (τ k i)) s = (kRec co δ g X Z s).map fun w => (fun i => w.1 (τ k i), w.2) := by
  induction s using Nat.strong_induction_on with
  | _ s ih =>
    match s with
    | 0 => rfl
    | 1 =>
      simp only [kRec]
      have e := hg fun i => X i + ((co.nus.getD 1 0 * √(2 * δ) : ℝ) : ℂ) * Z i
      simp only [bind]
      erw [e]
      generalize g _ = q
      cases q <;> rfl
    | s + 2 =>
      simp only [kRec]
      rw [ih (s + 1) (by omega), ih s (by omega)]
      cases kRec co δ g X Z (s + 1) with
      | error e => rfl
      | ok a =>
        simp only [Except.map, bind, Except.bind]
        rw [hg a.1]
        cases g a.1 with
        | error e => rfl
        | ok w =>
          simp only [Except.map]
          cases kRec co δ g X Z s <;> rfl

theorem Reordered.skrockTransition (U : Reordered τ ρ M M') (R : Rng) (co : SkrockCoefs) (x : Cur R) :
    Pxmcmc.skrockTransition M' (R.reord τ) co (x.reord τ ρ) = (Pxmcmc.skrockTransition M R co x).map (Cur.reord τ ρ) := by
  unfold Pxmcmc.skrockTransition
  simp only [Cur.reord]
  rw [U.par]
  generalize hk : (reord τ x.X).length = k'
  generalize hk0 : x.X.length = k
  rw [reord_length, hk0] at hk
  subst hk
  rw [asVec_reord]
  have hn := (noise_reord τ R M.par.complex x.rng k).1
  rw [hn]
  cases hx : asVec k x.X with
  | error e => rfl
  | ok v =>
    simp only [Except.map, bind, Except.bind]
    rw [asVec_reord]
    cases asVec k (noise R R.randn M.par.complex x.rng k).1 with
    | error e => rfl
    | ok z =>
      simp only [Except.map]
      have hg : ∀ w : Fin k → ℂ, (fun v => (Pxmcmc.gradlogpi M'.F M'.P M.par.lmda (List.ofFn v) none).bind fun g => asVec k g)
          (fun i => w (τ k i)) = ((fun v => (Pxmcmc.gradlogpi M.F M.P M.par.lmda (List.ofFn v) none).bind fun g => asVec k g) w).map
            fun w i => w (τ k i) := by
        intro w
        have hl := U.gradlogpi (List.ofFn w)
        rw [U.par] at hl
        simp only
        rw [← reord_ofFn, hl, exMap_bind, exBind_map]
        congr 1
        funext g
        exact asVec_reord k g
      have hst := kRec_reord τ co M.par.delta
        (fun v => (Pxmcmc.gradlogpi M.F M.P M.par.lmda (List.ofFn v) none).bind fun g => asVec k g)
        (fun v => (Pxmcmc.gradlogpi M'.F M'.P M.par.lmda (List.ofFn v) none).bind fun g => asVec k g) hg v z M.par.s
      simp only [Except.bind] at hst
      simp only [skrockStep, bind, Except.bind]
      rw [hst]
      generalize kRec co M.par.delta _ v z M.par.s = st
      cases st with
      | error e => rfl
      | ok y =>
        simp only [Except.map]
        rw [← reord_ofFn, U.fwd]
        cases M.F.forward (List.ofFn y.1) <;> rfl

theorem Reordered.skrockRun (U : Reordered τ ρ M M') (R : Rng) (A : Arrays) (r : R.σ) (sp : StartPoint) (fuel : ℕ) :
      Pxmcmc.skrockRun M' (R.reord τ) (A.reord τ ρ) r (sp.reord τ) fuel = (Pxmcmc.skrockRun M R A r sp fuel).map (Option.map (St.reord τ ρ)) := by
  unfold Pxmcmc.skrockRun
  have hi := U.initialSample R r sp
  rw [U.par, hi]
  cases skrockInit (M.par.s : ℤ) with
  | error e => rfl
  | ok co =>
  simp only [bind, Except.bind]
  cases Pxmcmc.initialSample M R r sp with
  | error e => rfl
  | ok x =>
    simp only [Except.map]
    have h := whileFuel_sim (St.reord τ ρ) (loopCond M) (loopCond M') (Pxmcmc.skrockBody M R co A) (Pxmcmc.skrockBody M' (R.reord τ) co (A.reord τ ρ))
      (fun st => by simp only [loopCond, U.par]; rfl) (fun st => by
        unfold Pxmcmc.skrockBody
        rw [show (st.reord τ ρ).cur = (st.cur.reord τ ρ) from rfl, U.skrockTransition]
        cases Pxmcmc.skrockTransition M R co st.cur with
        | error e => rfl
        | ok y => exact U.skrockBook A { st with cur := y }) fuel ⟨0, 0, ⟨x.1, x.2.1, x.2.2⟩, []⟩
    have h' : whileFuel (loopCond M') (Pxmcmc.skrockBody M' (R.reord τ) co (A.reord τ ρ)) fuel ⟨0, 0, ⟨reord τ x.1, reord ρ x.2.1, x.2.2⟩, []⟩ = _ := h
    rw [h']
    cases whileFuel (loopCond M) (Pxmcmc.skrockBody M R co A) fuel ⟨0, 0, ⟨x.1, x.2.1, x.2.2⟩, []⟩ with
    | error e => rfl
    | ok o =>
      cases o with
      | none => rfl
      | some st => simp [Except.map, St.reord, Event.reord]

/-- C145 for the three samplers, from the constructors on: for every numbering of the parameters and of the data, every pair of forward
operators and priors that do the same up to the numbering (`C145_forward`, `C145_l1`, `C145_wavelets`), every parameter object, every
generator, every start argument and every number of iterations (and of stages), the run with start and random numbers in the other order
does the same as the original one (it raises, returns or is still running alike); the recorded samples and predictions are the same in the
other order, and log-posteriors, misfits, priors, printed numbers, acceptances and step sizes are equal. -/
theorem C145_runs {F F' : ForwardOp n} {P P' : PriorObj} (hF : ForwardReorder τ ρ F F') (hP : PriorReorder τ P P') (par : Params)
    (A : Arrays) (hM : samplerInit F P par = .ok (M, A)) :
    ∃ (M' : Sampler n) (A' : Arrays), samplerInit F' P' par = .ok (M', A') ∧
      ∀ (R : Rng) (r : R.σ) (sp : StartPoint) (fuel : ℕ),
        (myulaRun M' (R.reord τ) A' r (sp.reord τ) fuel = (myulaRun M R A r sp fuel).map (Option.map (St.reord τ ρ)) ∧
          ∀ st, myulaRun M R A r sp fuel = .ok (some st) →
            ∃ st', myulaRun M' (R.reord τ) A' r (sp.reord τ) fuel = .ok (some st') ∧ A'.applyAll st'.ev = (A.applyAll st.ev).reord τ ρ) ∧
        (skrockRun M' (R.reord τ) A' r (sp.reord τ) fuel = (skrockRun M R A r sp fuel).map (Option.map (St.reord τ ρ)) ∧
          ∀ st, skrockRun M R A r sp fuel = .ok (some st) →
            ∃ st', skrockRun M' (R.reord τ) A' r (sp.reord τ) fuel = .ok (some st') ∧ A'.applyAll st'.ev = (A.applyAll st.ev).reord τ ρ) ∧
        ∀ (tune : Bool) (δ : ℝ),
          malaRun M' (R.reord τ) tune δ A' r (sp.reord τ) fuel = (malaRun M R tune δ A r sp fuel).map (Option.map (MalaSt.reord τ ρ)) ∧
          ∀ st, malaRun M R tune δ A r sp fuel = .ok (some st) →
            ∃ st', malaRun M' (R.reord τ) tune δ A' r (sp.reord τ) fuel = .ok (some st') ∧ st'.acc = st.acc ∧ st'.deltas = st.deltas ∧
              A'.applyAll st'.ev = (A.applyAll st.ev).reord τ ρ := by
  obtain ⟨M', A', hM', U, rfl⟩ := sampler_reord hF hP par A hM
  refine ⟨M', _, hM', fun R r sp fuel => ⟨⟨U.myulaRun R A r sp fuel, fun st hst => ?_⟩, ⟨U.skrockRun R A r sp fuel, fun st hst => ?_⟩,
    fun tune δ => ⟨U.malaRun R tune δ A r sp fuel, fun st hst => ?_⟩⟩⟩
  · refine ⟨st.reord τ ρ, ?_, Arrays.applyAll_reord A st.ev⟩
    rw [U.myulaRun, hst]
    rfl
  · refine ⟨st.reord τ ρ, ?_, Arrays.applyAll_reord A st.ev⟩
    rw [U.skrockRun, hst]
    rfl
  · refine ⟨st.reord τ ρ, ?_, rfl, rfl, Arrays.applyAll_reord A st.ev⟩
    rw [U.malaRun, hst]
    rfl

end

/-- C145 for the path integrals: with the rows of the path matrix numbered like the data and its columns like the parameters, both handles
do the same up to the numbering. -/
theorem C145_path (τ ρ : Order) (W : Matrix (Fin n) (Fin p) ℂ) :
    SamePair τ ρ (some ⟨pathForward W, pathAdjoint W⟩)
      (some ⟨pathForward (W.submatrix (ρ n) (τ p)), pathAdjoint (W.submatrix (ρ n) (τ p))⟩) := by
  constructor
  · intro X
    show pathForward _ _ = (pathForward W X).map _
    unfold pathForward
    rw [reord_length]
    split
    · exact matDot_reord ρ τ W X
    · rfl
  · intro X
    show pathAdjoint _ _ = (pathAdjoint W X).map _
    unfold pathAdjoint
    rw [reord_length]
    split
    · exact matDot_reord τ ρ W.conjTranspose X
    · rfl

/-! ## Concrete cases -/

/-- The order that exchanges the first two positions and leaves the others. -/
def swap01 : Order := fun k => if h : 1 < k then Equiv.swap ⟨0, by omega⟩ ⟨1, h⟩ else Equiv.refl _

theorem swap01_three (a b c : ℂ) : reord swap01 [a, b, c] = [b, a, c] := by
  simp [reord, swap01, List.ofFn_succ, Equiv.swap_apply_def]

/-- Two paths over three pixels in the analysis setting with an l1 prior with different thresholds; the first two pixels and the two data are
exchanged: the hypotheses of `C145_runs` hold, and data, standard deviations and path matrix of the second problem are other ones. -/
example : ∃ (F F' : ForwardOp 2) (L L' : L1 ℂ) (M : Sampler 2) (A : Arrays),
    ForwardOp.init ⟨false, ![3, 5]⟩ (.num 2 false) "analysis" none
      (some ⟨pathForward !![1, 2, 0; 0, 2, 5], pathAdjoint !![1, 2, 0; 0, 2, 5]⟩) (some 3) = .ok F ∧
    ForwardOp.init ((⟨false, ![3, 5]⟩ : DataVec 2).reord swap01) (SigD.reord swap01 (.num 2 false)) "analysis" none
      (some ⟨pathForward (Matrix.submatrix !![1, 2, 0; 0, 2, 5] (swap01 2) (swap01 3)),
        pathAdjoint (Matrix.submatrix !![1, 2, 0; 0, 2, 5] (swap01 2) (swap01 3))⟩) (some 3) = .ok F' ∧
    ForwardReorder swap01 swap01 F F' ∧
    L1.init "analysis" identityTransform.op identityTransform.adj (.vector [1, 2, 3]) = .ok L ∧
    L1.init "analysis" identityTransform.op identityTransform.adj (Thresh.reord swap01 (.vector [1, 2, 3])) = .ok L' ∧
    PriorReorder swap01 L.toPrior L'.toPrior ∧
    samplerInit F L.toPrior ⟨1, 1 / 2, 1, 1, 4, 3, 2, true, 0, ["chain", "predictions"]⟩ = .ok (M, A) ∧
    ((⟨false, ![3, 5]⟩ : DataVec 2).reord swap01).vals = ![5, 3] ∧
    Matrix.submatrix (!![1, 2, 0; 0, 2, 5] : Matrix (Fin 2) (Fin 3) ℂ) (swap01 2) (swap01 3) = !![2, 0, 5; 2, 1, 0] := by
  obtain ⟨W, hW, -⟩ := C35_diagonal (⟨false, ![3, 5]⟩ : DataVec 2) rfl (.num ((2 : ℝ) : ℂ) false) _ (IsSigma.scalar 2 (by norm_num))
  have hF : ForwardOp.init (⟨false, ![3, 5]⟩ : DataVec 2) (.num 2 false) "analysis" none
      (some ⟨pathForward !![1, 2, 0; 0, 2, 5], pathAdjoint !![1, 2, 0; 0, 2, 5]⟩) (some 3) = .ok ⟨⟨false, ![3, 5]⟩, W, .analysis, none,
        some ⟨pathForward !![1, 2, 0; 0, 2, 5], pathAdjoint !![1, 2, 0; 0, 2, 5]⟩, some 3⟩ := by
    unfold ForwardOp.init
    rw [show (2 : ℂ) = ((2 : ℝ) : ℂ) by norm_num, hW]
    rfl
  obtain ⟨F', hF', hR⟩ := C145_forward swap01 swap01 swap01 _ _ "analysis" (fun _ => rfl) none _ none _ _ trivial
    (C145_path swap01 swap01 !![1, 2, 0; 0, 2, 5]) _ hF
  obtain ⟨L', hL', hP⟩ := C145_l1 swap01 swap01 "analysis" (fun _ => rfl) identityTransform.op identityTransform.adj identityTransform.op
    identityTransform.adj (fun _ => rfl) (fun _ => rfl) (.vector [1, 2, 3]) _ rfl
  refine ⟨_, F', _, L', _, _, hF, hF', hR, rfl, hL', hP, rfl, ?_, ?_⟩
  · funext i
    fin_cases i <;> simp [DataVec.reord, swap01]
  · ext i j
    fin_cases i <;> fin_cases j <;> simp [swap01, Equiv.swap_apply_def]

/-- Weights and thresholds of three coefficients with the first two exchanged: the hypotheses of `C145_wavelets`. -/
example : (⟨.arr 0, [1, 2, 3]⟩ : S2L1).mapWeights ≠ (⟨.arr 0, reord swap01 [1, 2, 3]⟩ : S2L1).mapWeights ∧
    (TObj.arr 0).value (fun _ => some (reord swap01 [4, 5, 6])) = ((TObj.arr 0).value (fun _ => some [4, 5, 6])).map (Thresh.reord swap01) := by
  refine ⟨?_, rfl⟩
  simp [reord, swap01, List.ofFn_succ, Equiv.swap_apply_def]

end Pxmcmc
