import Verif.Lemmas.Units

/-! # Property C139: results do not depend on the units -/

namespace Pxmcmc
variable {n p : ℕ}

/-! ## The constructors -/

theorem buildInvCov_units {d : ℝ} (hd : 0 < d) (data : DataVec n) (sig : SigD) :
    buildInvCov (data.units d) (sig.units d) = (buildInvCov data sig).map fun W => (((d ^ 2)⁻¹ : ℝ) : ℂ) • W := by
  have hd2 : ((d ^ 2 : ℝ) : ℂ) ≠ 0 := by exact_mod_cast (by positivity : d ^ 2 ≠ 0)
  have hv : ∀ (a b : Bool) (x : ℂ), complexVar a b (((d : ℂ) * x) ^ 2) = ((d ^ 2 : ℝ) : ℂ) * complexVar a b (x ^ 2) := by
    intro a b x
    unfold complexVar
    split <;> (push_cast; ring)
  have hi : ∀ v : ℂ, 1 / (((d ^ 2 : ℝ) : ℂ) * v) = (((d ^ 2)⁻¹ : ℝ) : ℂ) * (1 / v) := by
    intro v
    rw [Complex.ofReal_inv]
    simp only [one_div, mul_inv]
  have hdiag : ∀ v : Fin n → ℂ, (Matrix.diagonal fun i => 1 / (((d ^ 2 : ℝ) : ℂ) * v i)) =
      (((d ^ 2)⁻¹ : ℝ) : ℂ) • Matrix.diagonal fun i => 1 / v i := by
    intro v
    rw [← Matrix.diagonal_smul]
    congr 1
    funext i
    exact hi (v i)
  cases sig with
  | num x cplx =>
    simp only [SigD.units, buildInvCov, DataVec.units, hv, mul_eq_zero, hd2, false_or]
    split
    · by_cases h : (data.cplx && !cplx) = true
      · simp only [h, if_true]; rfl
      · simp only [h]; rfl
    · simp only [Except.map]
      rw [hdiag]
  | npScalar x =>
    simp only [SigD.units, buildInvCov, DataVec.units]
    have := hv true false (x : ℂ)
    rw [← Complex.ofReal_mul] at this
    rw [this]
    simp only [mul_eq_zero, hd2, false_or]
    split
    · split
      · rfl
      · simp only [Except.map]
        rw [hdiag]
    · rfl
  | vec xs cplx =>
    simp only [SigD.units, buildInvCov, DataVec.units, sc_length]
    split
    · rename_i h
      have e : ∀ i : Fin n, complexVar data.cplx cplx ((sc d xs)[i]'(by simp [sc_length, h]) ^ 2) =
          ((d ^ 2 : ℝ) : ℂ) * complexVar data.cplx cplx (xs[i] ^ 2) := by
        intro i
        rw [← hv]
        simp [sc]
      simp only [e, mul_eq_zero, hd2, false_or]
      split
      · rfl
      · simp only [Except.map]
        rw [hdiag]
    · rfl
  | mat r k M =>
    simp only [SigD.units, buildInvCov]
    split <;> rfl
  | nd shape => rfl

/-- A prior in the new units of the parameters. -/
structure PriorUnits (c : ℝ) (P P' : PriorObj) : Prop where
  prox : ∀ X, P'.proxf (sc c X) = (P.proxf X).map (sc c)
  prior : ∀ X, P'.prior (sc c X) = (P.prior X).map fun v => c * v

/-- A forward operator in the new units. -/
structure ForwardUnits (c d : ℝ) (F F' : ForwardOp n) : Prop where
  fwd : ∀ X, F'.forward (sc c X) = (F.forward X).map (sc d)
  grad : ∀ Y, F'.calcGradg (sc d Y) = (F.calcGradg Y).map (sc c⁻¹)
  data : F'.data.vals = fun i => (d : ℂ) * F.data.vals i
  invcov : F'.invcov = (((d ^ 2)⁻¹ : ℝ) : ℂ) • F.invcov
  nparams : F'.nparams = F.nparams

/-- C139: `ForwardOperator` for every data vector, every form of `sig_d`, both settings and all handles that are homogeneous: with the data
and `sig_d` in the new units and the measurement operator multiplied by `d/c`, the predictions are in the new units of the data and the
gradient in the inverse units of the parameters. -/
theorem C139_forward {c d : ℝ} (hc : 0 < c) (hd : 0 < d) (data : DataVec n) (sig : SigD) (s : String) (tr me : Option OpPair) (np : Option ℕ)
    (htr : ∀ o ∈ tr, Homogeneous o.op ∧ Homogeneous o.adj) (hme : ∀ o ∈ me, Homogeneous o.op ∧ Homogeneous o.adj) (F : ForwardOp n)
    (hF : ForwardOp.init data sig s tr me np = .ok F) :
    ∃ F', ForwardOp.init (data.units d) (sig.units d) s tr (me.map (OpPair.scaled (d / c))) np = .ok F' ∧ ForwardUnits c d F F' := by
  unfold ForwardOp.init at hF ⊢
  rw [buildInvCov_units hd]
  cases hW : buildInvCov data sig with
  | error e => rw [hW] at hF; cases hF
  | ok W =>
    rw [hW] at hF
    simp only [bind, Except.bind, Except.map] at hF ⊢
    cases hS : Setting.parse s with
    | none => rw [hS] at hF; cases hF
    | some S =>
      rw [hS] at hF
      simp only at hF ⊢
      cases hF
      refine ⟨_, rfl, ?_⟩
      have hcd : d / c * c = d := by field_simp
      have hop : ∀ X : List ℂ, (attr (me.map (OpPair.scaled (d / c)))).bind (fun m => m.op (sc c X)) =
          ((attr me).bind fun m => m.op X).map (sc d) := by
        intro X
        cases me with
        | none => rfl
        | some o =>
          simp only [Option.map_some, attr, Except.bind, OpPair.scaled]
          rw [(hme o rfl).1 c hc, exMap_map]
          simp only [sc_sc, hcd]
      have hga : ∀ Y : List ℂ, ForwardOp.gradgAnalysis ⟨data.units d, (((d ^ 2)⁻¹ : ℝ) : ℂ) • W, S, tr, me.map (OpPair.scaled (d / c)), np⟩
          (sc d Y) = (ForwardOp.gradgAnalysis ⟨data, W, S, tr, me, np⟩ Y).map (sc c⁻¹) := by
        intro Y
        unfold ForwardOp.gradgAnalysis
        cases me with
        | none => rfl
        | some o =>
          have h1 : List.ofFn (data.units d).vals = sc d (List.ofFn data.vals) := by rw [sc_ofFn]; rfl
          simp only [Option.map_some, attr, bind, Except.bind, OpPair.scaled]
          rw [h1, npSub_sc]
          cases npSub Y (List.ofFn data.vals) with
          | error e => rfl
          | ok diff =>
            simp only [Except.map]
            rw [matDot_sc]
            cases matDot W diff with
            | error e => rfl
            | ok wd =>
              have e1 : (d ^ 2)⁻¹ * d = d⁻¹ := by field_simp
              simp only [Except.map, e1]
              rw [(hme o rfl).2 d⁻¹ (inv_pos.mpr hd)]
              cases o.adj wd with
              | error e => rfl
              | ok g =>
                simp only [Except.map, sc_sc]
                congr 2
                field_simp
      refine ⟨fun X => ?_, fun Y => ?_, rfl, rfl, rfl⟩
      · cases S with
        | analysis => exact hop X
        | synthesis =>
          show ((attr _).bind fun m => (attr tr).bind fun t => (t.op (sc c X)).bind m.op) =
            ((attr me).bind fun m => (attr tr).bind fun t => (t.op X).bind m.op).map (sc d)
          cases tr with
          | none => cases me <;> rfl
          | some t =>
            simp only [attr, Except.bind]
            rw [(htr t rfl).1 c hc]
            cases h : t.op X with
            | error e => cases me <;> rfl
            | ok y =>
              have := hop y
              cases me with
              | none => rfl
              | some o => exact this
      · cases S with
        | analysis => exact hga Y
        | synthesis =>
          show ((attr tr).bind fun t => (ForwardOp.gradgAnalysis _ (sc d Y)).bind t.adj) =
            ((attr tr).bind fun t => (ForwardOp.gradgAnalysis _ Y).bind t.adj).map (sc c⁻¹)
          rw [hga]
          cases tr with
          | none => rfl
          | some t =>
            simp only [attr, Except.bind]
            cases ForwardOp.gradgAnalysis (⟨data, W, .synthesis, some t, me, np⟩ : ForwardOp n) Y with
            | error e => rfl
            | ok g => exact (htr t rfl).2 c⁻¹ (inv_pos.mpr hc) g

/-- C139: the l1 prior in both settings, for scalar and vector thresholds. -/
theorem C139_l1 {c : ℝ} (hc : 0 < c) (s : String) (fw ad : List ℂ → Py (List ℂ)) (hfw : Homogeneous fw) (had : Homogeneous ad) (T : Thresh)
    (L : L1 ℂ) (hL : L1.init s fw ad T = .ok L) :
    ∃ L', L1.init s fw ad (T.units c) = .ok L' ∧ PriorUnits c L.toPrior L'.toPrior := by
  unfold L1.init at hL ⊢
  cases hS : Setting.parse s with
  | none => rw [hS] at hL; cases hL
  | some S =>
    rw [hS] at hL
    simp only at hL ⊢
    cases hL
    refine ⟨_, rfl, fun X => ?_, fun X => ?_⟩
    · cases S with
      | synthesis => exact soft_units hc X T
      | analysis =>
        show L1.proxfAnalysis _ (sc c X) = (L1.proxfAnalysis _ X).map (sc c)
        unfold L1.proxfAnalysis
        simp only [had c hc]
        cases ad X with
        | error e => rfl
        | ok a =>
          simp only [Except.map, bind, Except.bind]
          rw [soft_units hc]
          cases soft a T with
          | error e => rfl
          | ok t =>
            simp only [Except.map]
            rw [npSub_sc]
            cases npSub t a with
            | error e => rfl
            | ok u =>
              simp only [Except.map]
              rw [hfw c hc]
              cases fw u with
              | error e => rfl
              | ok v =>
                simp only [Except.map]
                exact npAdd_sc c X v
    · show Except.ok (((sc c X).map fun x => ‖x‖).sum) = Except.ok (c * (X.map fun x => ‖x‖).sum)
      simp only [sc, List.map_map, Function.comp_def, norm_mul, Complex.norm_real, Real.norm_eq_abs, abs_of_pos hc, List.sum_map_mul_left]

/-- C139: the prior with map weights, constructed with a number as threshold. -/
theorem C139_wavelets {c : ℝ} (hc : 0 < c) (h : Heap ℝ) (s : String) (t : ℝ) (bls : List ℕ) (fresh : ℕ) (h1 : Heap ℝ) (P : S2L1)
    (hP : S2L1.init h s (.float t) bls fresh = .ok (h1, P)) :
    ∃ h1' P', S2L1.init h s (.float (c * t)) bls fresh = .ok (h1', P') ∧ PriorUnits c (P.toPrior h1) (P'.toPrior h1') := by
  unfold S2L1.init at hP ⊢
  cases hS : Setting.parse s with
  | none => rw [hS] at hP; cases hP
  | some S =>
    cases S with
    | analysis => rw [hS] at hP; cases hP
    | synthesis =>
      rw [hS] at hP
      simp only [imul, bind, Except.bind] at hP ⊢
      cases hP
      refine ⟨_, _, rfl, fun X => ?_, fun X => ?_⟩
      · simp only [S2L1.toPrior, S2L1.proxf, TObj.value, Heap.write, if_true, Option.map_some]
        have := soft_units hc X (.vector ((bls.flatMap mwMapWeights).map fun x => t * x))
        simp only [Thresh.units, List.map_map, Function.comp_def, ← mul_assoc] at this
        exact this
      · simp only [S2L1.toPrior, S2L1.prior, wmul, sc]
        rw [show bls.flatMap mwMapWeights = (bls.flatMap mwMapWeights).map id by simp, bcast_map]
        simp only [List.map_id]
        cases bcast (bls.flatMap mwMapWeights) X with
        | error e => rfl
        | ok l =>
          simp only [Except.map, bind, Except.bind, List.map_map, Function.comp_def, Prod.map, id]
          congr 1
          rw [← List.sum_map_mul_left]
          congr 1
          refine List.map_congr_left fun q _ => ?_
          rw [norm_mul, norm_mul, norm_mul, Complex.norm_real c, Real.norm_eq_abs, abs_of_pos hc]
          ring

/-! ## Runs -/

section
variable {c d : ℝ} {M M' : Sampler n}

/-- The two samplers are constructed alike. -/
theorem sampler_units {F F' : ForwardOp n} {P P' : PriorObj} (hF : ForwardUnits c d F F') (hP : PriorUnits c P P') (par : Params)
    (A : Arrays) (hM : samplerInit F P par = .ok (M, A)) :
    ∃ M' A', samplerInit F' P' (par.units c) = .ok (M', A') ∧ UnitChange c d M M' ∧ A = initArrays M ∧ A' = A.units c d := by
  unfold samplerInit at hM ⊢
  rw [hF.nparams]
  cases hk : F.nparams with
  | none => rw [hk] at hM; simp only at hM; split at hM <;> cases hM
  | some k =>
    rw [hk] at hM
    simp only at hM ⊢
    cases hM
    exact ⟨_, _, rfl, ⟨hF.fwd, hF.grad, hP.prox, hP.prior, hF.data, hF.invcov, rfl, rfl⟩, rfl, initArrays_units c d _ _ rfl rfl⟩

theorem myulaRun_units (hc : 0 < c) (hd : 0 < d) (U : UnitChange c d M M') (R : Rng) (A : Arrays) (r : R.σ) (v : List ℂ) (fuel : ℕ) :
    myulaRun M' R (A.units c d) r (.array1 (sc c v)) fuel = (myulaRun M R A r (.array1 v) fuel).map (Option.map (St.units c d)) := by
  have hns : M'.par.nsamples = M.par.nsamples := by rw [U.par]; rfl
  unfold myulaRun
  rw [UnitChange.initialSample U]
  cases initialSample M R r (.array1 v) with
  | error e => rfl
  | ok x =>
    simp only [Except.map, bind, Except.bind]
    have h := whileFuel_sim (St.units c d) (loopCond M) (loopCond M') (myulaBody M R A) (myulaBody M' R (A.units c d))
      (fun st => by simp only [loopCond, hns]; rfl) (fun st => by
        unfold myulaBody
        rw [show (st.units c d).cur = st.cur.units c d from rfl, UnitChange.myulaStep hc U]
        cases myulaStep M R st.cur with
        | error e => rfl
        | ok y => exact UnitChange.myulaBook hc hd U A { st with cur := y }) fuel ⟨0, 0, ⟨x.1, x.2.1, x.2.2⟩, []⟩
    have h' : whileFuel (loopCond M') (myulaBody M' R (A.units c d)) fuel ⟨0, 0, ⟨sc c x.1, sc d x.2.1, x.2.2⟩, []⟩ = _ := h
    rw [h']
    cases whileFuel (loopCond M) (myulaBody M R A) fuel ⟨0, 0, ⟨x.1, x.2.1, x.2.2⟩, []⟩ with
    | error e => rfl
    | ok o =>
      cases o with
      | none => rfl
      | some st => simp [Except.map, St.units, Event.units]

/-- C139 for MYULA, from the constructors on: for every forward operator with homogeneous handles, every l1-type prior, every parameter
object, every generator, every start point and every number of iterations, the run in the new units, started at the corresponding
point, does the same as the original one (it raises, returns or is still running alike) and the values it records are the original
ones expressed in the new units: the log-posteriors and misfits are equal, the samples and priors are multiplied by `c`, the predictions
by `d`. -/
theorem C139_myula (hc : 0 < c) (hd : 0 < d) (data : DataVec n) (sig : SigD) (s : String) (tr me : Option OpPair) (np : Option ℕ)
    (htr : ∀ o ∈ tr, Homogeneous o.op ∧ Homogeneous o.adj) (hme : ∀ o ∈ me, Homogeneous o.op ∧ Homogeneous o.adj) (F : ForwardOp n)
    (hF : ForwardOp.init data sig s tr me np = .ok F) (P P' : PriorObj) (hP : PriorUnits c P P') (par : Params) (A : Arrays)
    (hM : samplerInit F P par = .ok (M, A)) :
    ∃ (F' : ForwardOp n) (M' : Sampler n) (A' : Arrays),
      ForwardOp.init (data.units d) (sig.units d) s tr (me.map (OpPair.scaled (d / c))) np = .ok F' ∧
      samplerInit F' P' (par.units c) = .ok (M', A') ∧
      ∀ (R : Rng) (r : R.σ) (v : List ℂ) (fuel : ℕ),
        myulaRun M' R A' r (.array1 (sc c v)) fuel = (myulaRun M R A r (.array1 v) fuel).map (Option.map (St.units c d)) ∧
        ∀ st, myulaRun M R A r (.array1 v) fuel = .ok (some st) →
          ∃ st', myulaRun M' R A' r (.array1 (sc c v)) fuel = .ok (some st') ∧
            A'.applyAll st'.ev = (A.applyAll st.ev).units c d := by
  obtain ⟨F', hF', hU⟩ := C139_forward hc hd data sig s tr me np htr hme F hF
  obtain ⟨M', A', hM', U, -, rfl⟩ := sampler_units hU hP par A hM
  refine ⟨F', M', _, hF', hM', fun R r v fuel => ⟨myulaRun_units hc hd U R A r v fuel, fun st hst => ?_⟩⟩
  refine ⟨st.units c d, ?_, Arrays.applyAll_units c d A st.ev⟩
  rw [myulaRun_units hc hd U, hst]
  rfl

/-! ### SKROCK -/

theorem asVec_sc (c : ℝ) (k : ℕ) (l : List ℂ) : asVec k (sc c l) = (asVec k l).map fun v i => (c : ℂ) * v i := by
  unfold asVec
  simp only [sc_length]
  split
  · simp only [Except.map]
    congr 1
    funext i
    simp [sc]
  · rfl

theorem gradlogpi_units (hc : 0 < c) (U : UnitChange c d M M') (X : List ℂ) :
    gradlogpi M'.F M'.P M'.par.lmda (sc c X) none = (gradlogpi M.F M.P M.par.lmda X none).map (sc c⁻¹) := by
  have hl : M'.par.lmda = c ^ 2 * M.par.lmda := by rw [U.par]; rfl
  unfold gradlogpi gradf
  rw [U.prox, U.fwd, hl]
  cases M.P.proxf X with
  | error e => rfl
  | ok q =>
    simp only [Except.map, bind, Except.bind]
    rw [npSub_sc]
    cases npSub X q with
    | error e => rfl
    | ok t =>
      simp only [Except.map]
      have e1 : (((sc c t).map fun z => z / ((c ^ 2 * M.par.lmda : ℝ) : ℂ)).map fun z => -z) =
          sc c⁻¹ ((t.map fun z => z / (M.par.lmda : ℂ)).map fun z => -z) := by
        have h3 : (c : ℂ) ≠ 0 := by exact_mod_cast hc.ne'
        simp only [sc, List.map_map, Function.comp_def]
        refine List.map_congr_left fun z _ => ?_
        push_cast
        rw [sq, mul_assoc, mul_div_mul_left _ _ h3, div_mul_eq_div_div_swap, div_eq_mul_inv _ (c : ℂ)]
        ring
      cases M.F.forward X with
      | error e => rfl
      | ok y =>
        simp only []
        rw [U.grad]
        cases M.F.calcGradg y with
        | error e => rfl
        | ok g =>
          simp only [Except.map]
          rw [e1]
          exact npSub_sc c⁻¹ _ g

theorem kRec_one_units (hc : 0 < c) {k : ℕ} (co : SkrockCoefs) (δ : ℝ) (g g' : (Fin k → ℂ) → Py (Fin k → ℂ))
    (hg : ∀ v : Fin k → ℂ, g' (fun i => (c : ℂ) * v i) = (g v).map fun w i => ((c⁻¹ : ℝ) : ℂ) * w i) (X Z : Fin k → ℂ) (s : ℕ) (hs : s ≤ 1) :
    skrockStep co s (c ^ 2 * δ) g' (fun i => (c : ℂ) * X i) Z = (skrockStep co s δ g X Z).map fun w i => (c : ℂ) * w i := by
  have hsq : √(2 * (c ^ 2 * δ)) = c * √(2 * δ) := by
    rw [show 2 * (c ^ 2 * δ) = c ^ 2 * (2 * δ) by ring, Real.sqrt_mul (sq_nonneg c), Real.sqrt_sq hc.le]
  have h3 : (c : ℂ) ≠ 0 := by exact_mod_cast hc.ne'
  rcases Nat.le_one_iff_eq_zero_or_eq_one.mp hs with rfl | rfl
  · rfl
  · unfold skrockStep
    simp only [kRec]
    have e : (fun i => (c : ℂ) * X i + ((co.nus.getD 1 0 * √(2 * (c ^ 2 * δ)) : ℝ) : ℂ) * Z i) =
        fun i => (c : ℂ) * (fun i => X i + ((co.nus.getD 1 0 * √(2 * δ) : ℝ) : ℂ) * Z i) i := by
      funext i
      rw [hsq]
      push_cast; ring
    have e' := hg fun i => X i + ((co.nus.getD 1 0 * √(2 * δ) : ℝ) : ℂ) * Z i
    rw [← e] at e'
    show ((g' fun i => (c : ℂ) * X i + ((co.nus.getD 1 0 * √(2 * (c ^ 2 * δ)) : ℝ) : ℂ) * Z i).bind _).bind _ =
      (((g fun i => X i + ((co.nus.getD 1 0 * √(2 * δ) : ℝ) : ℂ) * Z i).bind _).bind _).map _
    rw [e']
    cases g fun i => X i + ((co.nus.getD 1 0 * √(2 * δ) : ℝ) : ℂ) * Z i with
    | error e => rfl
    | ok w =>
      simp only [Except.map, Except.bind]
      congr 1
      funext i
      rw [hsq]
      have hr : ∀ t : ℝ, (RCLike.ofReal t : ℂ) = (t : ℂ) := fun _ => rfl
      simp only [hr]
      push_cast
      field_simp

theorem skrockTransition_units (hc : 0 < c) (U : UnitChange c d M M') (hs : M.par.s ≤ 1) (R : Rng) (co : SkrockCoefs) (x : Cur R) :
    skrockTransition M' R co (x.units c d) = (skrockTransition M R co x).map (Cur.units c d) := by
  have hcc : M'.par.complex = M.par.complex := by rw [U.par]; rfl
  have hδ : M'.par.delta = c ^ 2 * M.par.delta := by rw [U.par]; rfl
  have hss : M'.par.s = M.par.s := by rw [U.par]; rfl
  unfold skrockTransition
  simp only [Cur.units]
  rw [hcc, hδ, hss]
  generalize hk : (sc c x.X).length = k'
  generalize hk0 : x.X.length = k
  rw [sc_length, hk0] at hk
  subst hk
  rw [asVec_sc]
  cases hx : asVec k x.X with
  | error e => rfl
  | ok v =>
    simp only [Except.map, bind, Except.bind]
    cases asVec k (noise R R.randn M.par.complex x.rng k).1 with
    | error e => rfl
    | ok z =>
      simp only []
      have hg : ∀ w : Fin k → ℂ, (fun v => (gradlogpi M'.F M'.P M'.par.lmda (List.ofFn v) none).bind fun g => asVec k g)
          (fun i => (c : ℂ) * w i) = ((fun v => (gradlogpi M.F M.P M.par.lmda (List.ofFn v) none).bind fun g => asVec k g) w).map
            fun w i => ((c⁻¹ : ℝ) : ℂ) * w i := by
        intro w
        simp only
        rw [← sc_ofFn, gradlogpi_units hc U, exMap_bind, exBind_map]
        congr 1
        funext g
        exact asVec_sc c⁻¹ k g
      have hst := kRec_one_units hc co M.par.delta
        (fun v => (gradlogpi M.F M.P M.par.lmda (List.ofFn v) none).bind fun g => asVec k g)
        (fun v => (gradlogpi M'.F M'.P M'.par.lmda (List.ofFn v) none).bind fun g => asVec k g) hg v z M.par.s hs
      simp only [Except.bind] at hst
      rw [hst]
      generalize skrockStep co M.par.s M.par.delta _ v z = st
      cases st with
      | error e => rfl
      | ok y =>
        simp only [Except.map]
        rw [← sc_ofFn, U.fwd]
        cases M.F.forward (List.ofFn y) <;> rfl

/-- C139 for SKROCK with one stage, from the constructors on. -/
theorem C139_skrock_partial (hc : 0 < c) (hd : 0 < d) (data : DataVec n) (sig : SigD) (s : String) (tr me : Option OpPair) (np : Option ℕ)
    (htr : ∀ o ∈ tr, Homogeneous o.op ∧ Homogeneous o.adj) (hme : ∀ o ∈ me, Homogeneous o.op ∧ Homogeneous o.adj) (F : ForwardOp n)
    (hF : ForwardOp.init data sig s tr me np = .ok F) (P P' : PriorObj) (hP : PriorUnits c P P') (par : Params) (hs : par.s ≤ 1) (A : Arrays)
    (hM : samplerInit F P par = .ok (M, A)) :
    ∃ (F' : ForwardOp n) (M' : Sampler n) (A' : Arrays),
      ForwardOp.init (data.units d) (sig.units d) s tr (me.map (OpPair.scaled (d / c))) np = .ok F' ∧
      samplerInit F' P' (par.units c) = .ok (M', A') ∧
      ∀ (R : Rng) (r : R.σ) (v : List ℂ) (fuel : ℕ),
        skrockRun M' R A' r (.array1 (sc c v)) fuel = (skrockRun M R A r (.array1 v) fuel).map (Option.map (St.units c d)) ∧
        ∀ st, skrockRun M R A r (.array1 v) fuel = .ok (some st) →
          ∃ st', skrockRun M' R A' r (.array1 (sc c v)) fuel = .ok (some st') ∧
            A'.applyAll st'.ev = (A.applyAll st.ev).units c d := by
  obtain ⟨F', hF', hU⟩ := C139_forward hc hd data sig s tr me np htr hme F hF
  have hpar : M.par = par := by
    unfold samplerInit at hM
    cases hk : F.nparams with
    | none => rw [hk] at hM; simp only at hM; split at hM <;> cases hM
    | some k => rw [hk] at hM; cases hM; rfl
  obtain ⟨M', A', hM', U, -, rfl⟩ := sampler_units hU hP par A hM
  have key : ∀ (R : Rng) (r : R.σ) (v : List ℂ) (fuel : ℕ),
      skrockRun M' R (A.units c d) r (.array1 (sc c v)) fuel = (skrockRun M R A r (.array1 v) fuel).map (Option.map (St.units c d)) := by
    intro R r v fuel
    have hns : M'.par.nsamples = M.par.nsamples := by rw [U.par]; rfl
    have hss : M'.par.s = M.par.s := by rw [U.par]; rfl
    unfold skrockRun
    rw [hss, UnitChange.initialSample U]
    cases skrockInit (M.par.s : ℤ) with
    | error e => rfl
    | ok co =>
    simp only [bind, Except.bind]
    cases initialSample M R r (.array1 v) with
    | error e => rfl
    | ok x =>
      simp only [Except.map]
      have h := whileFuel_sim (St.units c d) (loopCond M) (loopCond M') (skrockBody M R co A) (skrockBody M' R co (A.units c d))
        (fun st => by simp only [loopCond, hns]; rfl) (fun st => by
          unfold skrockBody
          rw [show (st.units c d).cur = st.cur.units c d from rfl, skrockTransition_units hc U (by rw [hpar]; exact hs)]
          cases skrockTransition M R co st.cur with
          | error e => rfl
          | ok y => exact UnitChange.skrockBook hc hd U A { st with cur := y }) fuel ⟨0, 0, ⟨x.1, x.2.1, x.2.2⟩, []⟩
      have h' : whileFuel (loopCond M') (skrockBody M' R co (A.units c d)) fuel ⟨0, 0, ⟨sc c x.1, sc d x.2.1, x.2.2⟩, []⟩ = _ := h
      rw [h']
      cases whileFuel (loopCond M) (skrockBody M R co A) fuel ⟨0, 0, ⟨x.1, x.2.1, x.2.2⟩, []⟩ with
      | error e => rfl
      | ok o =>
        cases o with
        | none => rfl
        | some st => simp [Except.map, St.units, Event.units]
  refine ⟨F', M', _, hF', hM', fun R r v fuel => ⟨key R r v fuel, fun st hst => ?_⟩⟩
  refine ⟨st.units c d, ?_, Arrays.applyAll_units c d A st.ev⟩
  rw [key, hst]
  rfl

end

end Pxmcmc
