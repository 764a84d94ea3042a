import Verif.Model.Conjugate
import Verif.Lemmas.Units

/-! # The other sign of the imaginary parts: the steps of the samplers -/

namespace Pxmcmc
variable {n : ℕ}

/-! ## Arrays -/

theorem cj_length (l : List ℂ) : (cj l).length = l.length := by simp [cj]

theorem cj_cj (l : List ℂ) : cj (cj l) = l := by simp [cj, Function.comp_def]

theorem cj_ofFn {k : ℕ} (v : Fin k → ℂ) : cj (List.ofFn v) = List.ofFn fun i => starRingEnd ℂ (v i) := by
  simp [cj, List.map_ofFn, Function.comp_def]

theorem cj_smul (k : ℝ) (l : List ℂ) : (cj l).map (fun z => (k : ℂ) * z) = cj (l.map fun z => (k : ℂ) * z) := by
  simp [cj, Function.comp_def]

theorem npAdd_cj (x y : List ℂ) : npAdd (cj x) (cj y) = (npAdd x y).map cj := by
  unfold npAdd cj
  rw [bcast_map]
  cases bcast x y with
  | error e => rfl
  | ok l => simp [Except.map, bind, Except.bind, Function.comp_def, Prod.map]

theorem npSub_cj (x y : List ℂ) : npSub (cj x) (cj y) = (npSub x y).map cj := by
  unfold npSub cj
  rw [bcast_map]
  cases bcast x y with
  | error e => rfl
  | ok l => simp [Except.map, bind, Except.bind, Function.comp_def, Prod.map]

theorem matDot_cj {r k : ℕ} (A : Matrix (Fin r) (Fin k) ℂ) (X : List ℂ) :
    matDot (A.map (starRingEnd ℂ)) (cj X) = (matDot A X).map cj := by
  unfold matDot
  simp only [cj_length]
  split
  · rename_i h
    simp only [Except.map, cj_ofFn]
    congr 2
    funext i
    simp only [Matrix.mulVec, dotProduct, Matrix.map_apply, map_sum, map_mul]
    refine Finset.sum_congr rfl fun j _ => ?_
    simp only [cj, Fin.getElem_fin, List.getElem_map]
  · rfl

theorem npVdot_cj (x y : List ℂ) : npVdot (cj x) (cj y) = (npVdot x y).map (starRingEnd ℂ) := by
  unfold npVdot
  simp only [cj_length]
  split
  · simp only [Except.map, cj, List.zip_map, List.map_map, Function.comp_def, Prod.map]
    rw [map_list_sum, List.map_map]
    simp [Function.comp_def]
  · rfl

theorem softEntry_conj (z : ℂ) (t : ℝ) : softEntry (starRingEnd ℂ z) t = starRingEnd ℂ (softEntry z t) := by
  unfold softEntry signEntry
  simp only [RCLike.norm_conj]
  split
  · simp
  · split
    · simp
    · simp

theorem soft_cj (X : List ℂ) (T : Thresh) : soft (cj X) T = (soft X T).map cj := by
  unfold soft cj
  rw [show T.arr = T.arr.map id by simp, bcast_map]
  simp only [List.map_id]
  cases bcast X T.arr with
  | error e => rfl
  | ok l =>
    simp only [Except.map, bind, Except.bind, List.map_map, Function.comp_def, Prod.map, id]
    refine congrArg _ (List.map_congr_left fun z _ => ?_)
    exact softEntry_conj z.1 z.2

theorem noise_conjug (R : Rng) (cplx : Bool) (r : R.σ) (k : ℕ) :
    noise (R.conjug cplx) (R.conjug cplx).randn cplx (r, false) k =
      (cj (noise R R.randn cplx r k).1, ((noise R R.randn cplx r k).2, false)) ∧
    noise (R.conjug cplx) (R.conjug cplx).laplace cplx (r, false) k =
      (cj (noise R R.laplace cplx r k).1, ((noise R R.laplace cplx r k).2, false)) := by
  constructor
  · unfold noise
    cases cplx
    · simp [Rng.conjug, cj_ofFn]
    · simp [Rng.conjug, cj_ofFn]
  · unfold noise
    cases cplx
    · simp [Rng.conjug, cj_ofFn]
    · simp [Rng.conjug, cj_ofFn]

/-! ## The relation between the two samplers -/

/-- The sampler `M'` is `M` with the other sign of the imaginary parts. -/
structure Conjugated (M M' : Sampler n) : Prop where
  fwd : ∀ X, M'.F.forward (cj X) = (M.F.forward X).map cj
  grad : ∀ Y, M'.F.calcGradg (cj Y) = (M.F.calcGradg Y).map cj
  prox : ∀ X, M'.P.proxf (cj X) = (M.P.proxf X).map cj
  prior : ∀ X, M'.P.prior (cj X) = M.P.prior X
  data : M'.F.data.vals = fun i => starRingEnd ℂ (M.F.data.vals i)
  invcov : M'.F.invcov = M.F.invcov.map (starRingEnd ℂ)
  par : M'.par = M.par
  nparams : M'.nparams = M.nparams

/-- The conjugate results of `logpi`. -/
noncomputable def conjLogpi (l : ℂ × ℂ × ℝ) : ℂ × ℂ × ℝ := (starRingEnd ℂ l.1, starRingEnd ℂ l.2.1, l.2.2)

section
variable {M M' : Sampler n} (U : Conjugated M M')
include U

theorem Conjugated.logpi (X Y : List ℂ) :
    Pxmcmc.logpi M'.F M'.P M'.par.mu (cj X) (cj Y) = (Pxmcmc.logpi M.F M.P M.par.mu X Y).map conjLogpi := by
  unfold Pxmcmc.logpi
  have h1 : (List.ofFn M'.F.data.vals) = cj (List.ofFn M.F.data.vals) := by rw [cj_ofFn, U.data]
  rw [h1, npSub_cj, U.invcov]
  cases npSub (List.ofFn M.F.data.vals) Y with
  | error e => rfl
  | ok diff =>
    simp only [Except.map, bind, Except.bind]
    rw [matDot_cj]
    cases matDot M.F.invcov diff with
    | error e => rfl
    | ok wd =>
      simp only [Except.map]
      rw [npVdot_cj, U.prior, U.par]
      cases npVdot diff wd with
      | error e => rfl
      | ok z =>
        simp only [Except.map]
        cases M.P.prior X with
        | error e => rfl
        | ok v => simp [conjLogpi]

theorem Conjugated.chainStep (R : Rng) (δ : ℝ) (r : R.σ) (X pf gg : List ℂ) :
    Pxmcmc.chainStep M' (R.conjug M.par.complex) δ (r, false) (cj X) (cj pf) (cj gg) = (Pxmcmc.chainStep M R δ r X pf gg).map fun xr => (cj xr.1, (xr.2, false)) := by
  unfold Pxmcmc.chainStep
  rw [U.par, U.nparams]
  have hw := (noise_conjug R M.par.complex r M.nparams).1
  generalize noise R R.randn M.par.complex r M.nparams = w at hw
  rw [hw]
  simp only [bind, Except.bind]
  cases pyDiv δ M.par.lmda with
  | error e => rfl
  | ok q =>
    simp only [cj_smul]
    rw [npAdd_cj]
    cases npAdd (X.map fun z => ((1 - q : ℝ) : ℂ) * z) (pf.map fun z => ((q : ℝ) : ℂ) * z) with
    | error e => rfl
    | ok a =>
      simp only [Except.map]
      rw [npSub_cj]
      cases npSub a (gg.map fun z => (δ : ℂ) * z) with
      | error e => rfl
      | ok b =>
        simp only [Except.map]
        rw [npAdd_cj]
        cases npAdd b (w.1.map fun z => ((√(2 * δ) : ℝ) : ℂ) * z) <;> rfl

theorem Conjugated.myulaStep (R : Rng) (x : Cur R) :
    Pxmcmc.myulaStep M' (R.conjug M.par.complex) (x.conjug M.par.complex) = (Pxmcmc.myulaStep M R x).map (Cur.conjug M.par.complex) := by
  unfold Pxmcmc.myulaStep
  simp only [Cur.conjug]
  rw [U.grad, U.prox, U.par]
  cases M.F.calcGradg x.preds with
  | error e => rfl
  | ok gg =>
    simp only [Except.map, bind, Except.bind]
    cases M.P.proxf x.X with
    | error e => rfl
    | ok pf =>
      simp only []
      have h := U.chainStep R M.par.delta x.rng x.X pf gg
      rw [h]
      cases Pxmcmc.chainStep M R M.par.delta x.rng x.X pf gg with
      | error e => rfl
      | ok xr =>
        simp only [Except.map]
        rw [U.fwd]
        cases M.F.forward xr.1 <;> rfl

theorem Conjugated.initialSample (R : Rng) (r : R.σ) (sp : StartPoint) :
    Pxmcmc.initialSample M' (R.conjug M.par.complex) (r, false) sp.conjug = (Pxmcmc.initialSample M R r sp).map fun x => (cj x.1, cj x.2.1, (x.2.2, false)) := by
  unfold Pxmcmc.initialSample startVector
  cases sp with
  | none =>
    simp only [StartPoint.conjug, bind, Except.bind]
    rw [U.par, U.nparams, (noise_conjug R M.par.complex r M.nparams).2]
    simp only [U.fwd]
    cases M.F.forward (noise R R.laplace M.par.complex r M.nparams).1 <;> rfl
  | array1 v =>
    simp only [StartPoint.conjug, cj_length, U.nparams]
    split
    · simp only [bind, Except.bind]
      rw [U.fwd]
      cases M.F.forward v <;> rfl
    · rfl
  | arrayNd k h => rfl
  | other => rfl

end

/-! ## Bookkeeping -/

theorem Arrays.apply_conjug (A : Arrays) (e : Event) : A.conjug.apply e.conjug = (A.apply e).conjug := by
  cases e <;> simp [Arrays.apply, Arrays.conjug, Event.conjug, Option.map_map, Function.comp_def, List.map_set]

theorem Arrays.applyAll_conjug (A : Arrays) (ev : List Event) : A.conjug.applyAll (ev.map Event.conjug) = (A.applyAll ev).conjug := by
  unfold Arrays.applyAll
  induction ev generalizing A with
  | nil => rfl
  | cons e ev ih => rw [List.map_cons, List.foldl_cons, List.foldl_cons, Arrays.apply_conjug, ih]

theorem store_conj (cplx : Bool) (z : ℂ) : store cplx (starRingEnd ℂ z) = starRingEnd ℂ (store cplx z) := by
  unfold store
  split
  · rfl
  · simp

theorem rowAssign_cj (w : ℕ) (v : List ℂ) : rowAssign w (cj v) = (rowAssign w v).map cj := by
  unfold rowAssign
  rw [cj_length]
  split
  · rfl
  · rcases v with _ | ⟨a, _ | ⟨b, v⟩⟩ <;> simp [cj, Except.map]

theorem writeRow_cj (o : Option (List (List ℂ))) (w : ℕ) (cplx : Bool) (j : ℕ) (v : List ℂ) (e : List ℂ → Event)
    (he : ∀ r, (e r).conjug = e (cj r)) :
    writeRow (o.map fun l => l.map cj) w cplx j (cj v) e = (writeRow o w cplx j v e).map (List.map Event.conjug) := by
  cases o with
  | none => rfl
  | some l =>
    simp only [writeRow, Option.map_some, List.length_map]
    split
    · rw [rowAssign_cj]
      cases rowAssign w v with
      | error e => rfl
      | ok r =>
        simp only [Except.map, bind, Except.bind, List.map_cons, List.map_nil, he]
        simp only [cj, List.map_map, Function.comp_def, store_conj]
    · rfl

theorem writeScalar_conjug (o : Option (List ℝ)) (j : ℕ) (e : Event) (he : e.conjug = e) :
    writeScalar o j e = (writeScalar o j e).map (List.map Event.conjug) := by
  cases o with
  | none => rfl
  | some l =>
    simp only [writeScalar]
    split
    · simp [Except.map, he]
    · rfl

section
variable {M M' : Sampler n} (U : Conjugated M M')
include U

theorem Conjugated.initArrays : Pxmcmc.initArrays M' = (Pxmcmc.initArrays M).conjug := by
  unfold Pxmcmc.initArrays Arrays.conjug
  simp only [U.par, U.nparams]
  congr 1 <;> split <;> simp [cj]

theorem Conjugated.tracking (A : Arrays) (j : ℕ) (X Y : List ℂ) (l l2 : ℂ) (v : ℝ) :
    Pxmcmc.tracking M' A.conjug j (cj X) (cj Y) (starRingEnd ℂ l) (starRingEnd ℂ l2) v = (Pxmcmc.tracking M A j X Y l l2 v).map (List.map Event.conjug) := by
  unfold Pxmcmc.tracking
  have h1 := writeScalar_conjug A.logPi j (.logPi j l.re) rfl
  have h2 := writeScalar_conjug A.L2s j (.L2 j l2.re) rfl
  have h3 := writeScalar_conjug A.priors j (.prior j v) rfl
  have h4 := writeRow_cj A.preds n false j Y (.preds j) fun r => rfl
  have h5 := writeRow_cj A.chain M.nparams M.par.complex j X (.chain j) fun r => rfl
  rw [show A.conjug.logPi = A.logPi from rfl, show A.conjug.L2s = A.L2s from rfl, show A.conjug.priors = A.priors from rfl,
    show A.conjug.preds = A.preds.map fun l => l.map cj from rfl, show A.conjug.chain = A.chain.map fun l => l.map cj from rfl,
    U.par, U.nparams, h4, h5, Complex.conj_re, Complex.conj_re]
  cases hw1 : writeScalar A.logPi j (.logPi j l.re) with
  | error e => rfl
  | ok a =>
    rw [hw1] at h1
    simp only [bind, Except.bind]
    cases hw2 : writeScalar A.L2s j (.L2 j l2.re) with
    | error e => rfl
    | ok b =>
      rw [hw2] at h2
      simp only []
      cases hw3 : writeScalar A.priors j (.prior j v) with
      | error e => rfl
      | ok p =>
        rw [hw3] at h3
        simp only []
        cases writeRow A.preds n false j Y (.preds j) with
        | error e => rfl
        | ok q =>
          simp only [Except.map]
          cases writeRow A.chain M.nparams M.par.complex j X (.chain j) with
          | error e => rfl
          | ok s =>
            have g1 := Except.ok.inj h1
            have g2 := Except.ok.inj h2
            have g3 := Except.ok.inj h3
            simp only [List.map_append, ← g1, ← g2, ← g3]

theorem Conjugated.recordRow {R : Rng} (A0 : Arrays) (st : St R) :
    Pxmcmc.recordRow M' A0.conjug (st.conjug M.par.complex) = (Pxmcmc.recordRow M A0 st).map (St.conjug M.par.complex) := by
  unfold Pxmcmc.recordRow
  simp only [St.conjug, Cur.conjug]
  rw [U.logpi, Arrays.applyAll_conjug]
  cases Pxmcmc.logpi M.F M.P M.par.mu st.cur.X st.cur.preds with
  | error e => rfl
  | ok l =>
    simp only [bind, Except.bind, Except.map, conjLogpi]
    rw [U.tracking]
    cases Pxmcmc.tracking M (A0.applyAll st.ev) st.j st.cur.X st.cur.preds l.1 l.2.1 l.2.2 with
    | error e => rfl
    | ok evs => simp [Except.map, St.conjug, Cur.conjug]

theorem Conjugated.progressArrays {R : Rng} (A0 : Arrays) (st : St R) :
    Pxmcmc.progressArrays M' A0.conjug (st.conjug M.par.complex) = (Pxmcmc.progressArrays M A0 st).map (List.map Event.conjug) := by
  unfold Pxmcmc.progressArrays
  simp only [St.conjug]
  rw [Arrays.applyAll_conjug, U.par]
  set A := A0.applyAll st.ev
  rw [show A.conjug.logPi = A.logPi from rfl, show A.conjug.L2s = A.L2s from rfl, show A.conjug.priors = A.priors from rfl]
  cases attrArr A.logPi with
  | error e => rfl
  | ok lp =>
    simp only [bind, Except.bind]
    cases pyGet lp ((st.j : ℤ) - 1) with
    | error e => rfl
    | ok a =>
      simp only []
      cases attrArr A.L2s with
      | error e => rfl
      | ok l2 =>
        simp only []
        cases pyGet l2 ((st.j : ℤ) - 1) with
        | error e => rfl
        | ok b =>
          simp only []
          cases attrArr A.priors with
          | error e => rfl
          | ok ps =>
            simp only []
            cases pyGet ps ((st.j : ℤ) - 1) with
            | error e => rfl
            | ok c => simp [Except.map, Event.conjug]

theorem Conjugated.myulaBook {R : Rng} (A0 : Arrays) (st : St R) :
    Pxmcmc.myulaBook M' A0.conjug (st.conjug M.par.complex) = (Pxmcmc.myulaBook M A0 st).map (St.conjug M.par.complex) := by
  unfold Pxmcmc.myulaBook
  have hi : (st.conjug M.par.complex).i = st.i := rfl
  simp only [hi, U.par]
  split
  · have h1 : (if Pxmcmc.thinned M.par st.i then Pxmcmc.recordRow M' A0.conjug (st.conjug M.par.complex) else .ok (st.conjug M.par.complex) : Py (St (R.conjug M.par.complex))) =
        (if Pxmcmc.thinned M.par st.i then Pxmcmc.recordRow M A0 st else .ok st : Py (St R)).map (St.conjug M.par.complex) := by
      split
      · exact U.recordRow A0 st
      · rfl
    rw [h1]
    cases (if Pxmcmc.thinned M.par st.i then Pxmcmc.recordRow M A0 st else .ok st : Py (St R)) with
    | error e => rfl
    | ok s =>
      simp only [Except.map, bind, Except.bind]
      have hi : (s.conjug M.par.complex).i = s.i := rfl
      rw [hi]
      have h2 : (if Pxmcmc.verbose M.par s.i then Pxmcmc.progressArrays M' A0.conjug (s.conjug M.par.complex) else .ok [] : Py (List Event)) =
          (if Pxmcmc.verbose M.par s.i then Pxmcmc.progressArrays M A0 s else .ok [] : Py (List Event)).map (List.map Event.conjug) := by
        split
        · exact U.progressArrays A0 s
        · rfl
      rw [h2]
      cases (if Pxmcmc.verbose M.par s.i then Pxmcmc.progressArrays M A0 s else .ok [] : Py (List Event)) with
      | error e => rfl
      | ok evs => simp [Except.map, St.conjug]
  · simp only [Except.map, St.conjug, List.map_append]
    congr 3
    split <;> rfl

theorem Conjugated.skrockBook {R : Rng} (A0 : Arrays) (st : St R) :
    Pxmcmc.skrockBook M' A0.conjug (st.conjug M.par.complex) = (Pxmcmc.skrockBook M A0 st).map (St.conjug M.par.complex) := by
  unfold Pxmcmc.skrockBook
  have hi : (st.conjug M.par.complex).i = st.i := rfl
  simp only [hi, U.par]
  have h1 : (if (st.i : ℤ) ≥ M.par.nburn then
        (if Pxmcmc.thinned M.par st.i then Pxmcmc.recordRow M' A0.conjug (st.conjug M.par.complex) else .ok (st.conjug M.par.complex))
      else .ok (st.conjug M.par.complex) : Py (St (R.conjug M.par.complex))) =
      (if (st.i : ℤ) ≥ M.par.nburn then (if Pxmcmc.thinned M.par st.i then Pxmcmc.recordRow M A0 st else .ok st)
      else .ok st : Py (St R)).map (St.conjug M.par.complex) := by
    split
    · split
      · exact U.recordRow A0 st
      · rfl
    · rfl
  rw [h1]
  cases (if (st.i : ℤ) ≥ M.par.nburn then (if Pxmcmc.thinned M.par st.i then Pxmcmc.recordRow M A0 st else .ok st)
      else .ok st : Py (St R)) with
  | error e => rfl
  | ok s =>
    simp only [Except.map, bind, Except.bind]
    have hi : (s.conjug M.par.complex).i = s.i := rfl
    rw [hi]
    have h2 : (if Pxmcmc.verbose M.par s.i then Pxmcmc.progressArrays M' A0.conjug (s.conjug M.par.complex) else .ok [] : Py (List Event)) =
        (if Pxmcmc.verbose M.par s.i then Pxmcmc.progressArrays M A0 s else .ok [] : Py (List Event)).map (List.map Event.conjug) := by
      split
      · exact U.progressArrays A0 s
      · rfl
    rw [h2]
    cases (if Pxmcmc.verbose M.par s.i then Pxmcmc.progressArrays M A0 s else .ok [] : Py (List Event)) with
    | error e => rfl
    | ok evs => simp [Except.map, St.conjug]

/-! ## PxMALA -/

theorem Conjugated.malaPropose (R : Rng) (δ : ℝ) (r : R.σ) (x : Cache) :
    Pxmcmc.malaPropose M' (R.conjug M.par.complex) δ (r, false) x.conjug = (Pxmcmc.malaPropose M R δ r x).map fun q => (q.1.conjug, (q.2, false)) := by
  unfold Pxmcmc.malaPropose
  simp only [Cache.conjug]
  have h := U.chainStep R δ r x.X x.proxf x.gradg
  rw [h]
  cases Pxmcmc.chainStep M R δ r x.X x.proxf x.gradg with
  | error e => rfl
  | ok xr =>
    simp only [Except.map, bind, Except.bind]
    rw [U.fwd]
    cases M.F.forward xr.1 with
    | error e => rfl
    | ok y =>
      simp only [Except.map]
      rw [U.grad, U.prox, U.logpi]
      cases M.F.calcGradg y with
      | error e => rfl
      | ok g =>
        simp only [Except.map]
        cases M.P.proxf xr.1 with
        | error e => rfl
        | ok q =>
          simp only []
          cases Pxmcmc.logpi M.F M.P M.par.mu xr.1 y <;> rfl

theorem Conjugated.calcLogtransition (δ : ℝ) (X1 X2 pf gg : List ℂ) :
    Pxmcmc.calcLogtransition M' δ (cj X1) (cj X2) (cj pf) (cj gg) =
      (Pxmcmc.calcLogtransition M δ X1 X2 pf gg).map (starRingEnd ℂ) := by
  unfold Pxmcmc.calcLogtransition
  rw [npSub_cj, npSub_cj, U.par]
  cases npSub X1 pf with
  | error e => rfl
  | ok d =>
    simp only [Except.map, bind, Except.bind]
    have e1 : ((cj d).map fun z => -(z / (M.par.lmda : ℂ))) = cj (d.map fun z => -(z / (M.par.lmda : ℂ))) := by
      simp [cj, Function.comp_def]
    rw [e1, npSub_cj]
    cases npSub (d.map fun z => -(z / (M.par.lmda : ℂ))) gg with
    | error e => rfl
    | ok g =>
      simp only [Except.map]
      cases npSub X2 X1 with
      | error e => rfl
      | ok e =>
        simp only [cj_smul]
        rw [npSub_cj]
        cases npSub e (g.map fun z => ((δ / 2 : ℝ) : ℂ) * z) with
        | error e => rfl
        | ok f =>
          simp only [Except.map]
          have e2 : ((cj f).map fun z => z ^ 2).sum = starRingEnd ℂ (f.map fun z => z ^ 2).sum := by
            rw [map_list_sum]
            simp [cj, Function.comp_def]
          rw [e2]
          simp only [map_mul, map_neg, map_pow, Complex.conj_ofReal]

theorem Conjugated.malaLogAlpha (δ : ℝ) (x p : Cache) :
    Pxmcmc.malaLogAlpha M' δ x.conjug p.conjug = (Pxmcmc.malaLogAlpha M δ x p).map (starRingEnd ℂ) := by
  unfold Pxmcmc.malaLogAlpha
  simp only [Cache.conjug, U.calcLogtransition]
  cases Pxmcmc.calcLogtransition M δ x.X p.X x.proxf x.gradg with
  | error e => rfl
  | ok a =>
    simp only [Except.map, bind, Except.bind]
    cases Pxmcmc.calcLogtransition M δ p.X x.X p.proxf p.gradg with
    | error e => rfl
    | ok b => simp only [map_sub, map_add]

theorem Conjugated.malaTune {R : Rng} (tune : Bool) (st : MalaSt R) :
    Pxmcmc.malaTune M' tune (st.conjug M.par.complex) = (Pxmcmc.malaTune M tune st).map (MalaSt.conjug M.par.complex) := by
  unfold Pxmcmc.malaTune tuneDelta
  rw [U.par]
  cases tune
  · rfl
  · simp only [if_true, MalaSt.conjug, bind, Except.bind]
    cases pyGet st.acc st.i <;> rfl

theorem Conjugated.malaSave {R : Rng} (A0 : Arrays) (accept : Prop) [Decidable accept] (st : MalaSt R) :
    Pxmcmc.malaSave M' A0.conjug accept (st.conjug M.par.complex) = (Pxmcmc.malaSave M A0 accept st).map (MalaSt.conjug M.par.complex) := by
  unfold Pxmcmc.malaSave
  rw [U.par]
  by_cases hb : (st.i : ℤ) ≥ M.par.nburn
  · rw [if_pos (show ((st.conjug M.par.complex).i : ℤ) ≥ M.par.nburn from hb), if_pos hb]
    by_cases ha : thinned M.par st.i ∧ accept
    · rw [if_pos (show thinned M.par (st.conjug M.par.complex).i ∧ accept from ha), if_pos ha]
      have ht := U.tracking (A0.applyAll st.ev) st.j st.cur.X st.cur.preds st.cur.logpi st.cur.L2 st.cur.prior
      rw [← Arrays.applyAll_conjug] at ht
      change (Pxmcmc.tracking M' (A0.conjug.applyAll (st.ev.map Event.conjug)) st.j (cj st.cur.X) (cj st.cur.preds) (starRingEnd ℂ st.cur.logpi)
        (starRingEnd ℂ st.cur.L2) st.cur.prior >>= _) = _
      rw [ht]
      cases Pxmcmc.tracking M (A0.applyAll st.ev) st.j st.cur.X st.cur.preds st.cur.logpi st.cur.L2 st.cur.prior with
      | error e => rfl
      | ok evs => simp [Except.map, bind, Except.bind, MalaSt.conjug, Cache.conjug]
    · rw [if_neg (show ¬(thinned M.par (st.conjug M.par.complex).i ∧ accept) from ha), if_neg ha]
      rfl
  · rw [if_neg (show ¬((st.conjug M.par.complex).i : ℤ) ≥ M.par.nburn from hb), if_neg hb]
    rfl

theorem Conjugated.malaFinish {R : Rng} (st : MalaSt R) : Pxmcmc.malaFinish M' (st.conjug M.par.complex) =
    (Pxmcmc.malaFinish M st).conjug M.par.complex := by
  unfold Pxmcmc.malaFinish
  rw [U.par]
  by_cases hv : Pxmcmc.verbose M.par st.i
  · rw [if_pos (show Pxmcmc.verbose M.par (st.conjug M.par.complex).i from hv), if_pos hv]
    simp [MalaSt.conjug, Cache.conjug, Event.conjug]
  · rw [if_neg (show ¬Pxmcmc.verbose M.par (st.conjug M.par.complex).i from hv), if_neg hv]
    simp [MalaSt.conjug, Cache.conjug]

/-- In the state `st`, log u does not equal the real part of a log acceptance ratio that has an imaginary part (mcmc.py:245). -/
def NoTie (M : Sampler n) (R : Rng) (st : MalaSt R) : Prop :=
  ∀ pr a, Pxmcmc.malaPropose M R st.delta st.rng st.cur = .ok pr → Pxmcmc.malaLogAlpha M st.delta st.cur pr.1 = .ok a →
    (R.rand pr.2).1 = 0 ∨ Real.log (R.rand pr.2).1 ≠ a.re ∨ a.im = 0

omit U in
theorem acceptTest_conj (u : ℝ) (a : ℂ) (h : u = 0 ∨ Real.log u ≠ a.re ∨ a.im = 0) :
    acceptTest u (starRingEnd ℂ a) ↔ acceptTest u a := by
  unfold acceptTest
  rw [Complex.conj_re, Complex.conj_im]
  rcases h with h | h | h
  · simp [h]
  · simp [h]
  · simp [h]

theorem Conjugated.malaBody (R : Rng) (tune : Bool) (A0 : Arrays) (st : MalaSt R) (hst : NoTie M R st) :
    Pxmcmc.malaBody M' (R.conjug M.par.complex) tune A0.conjug (st.conjug M.par.complex) =
      (Pxmcmc.malaBody M R tune A0 st).map (MalaSt.conjug M.par.complex) := by
  classical
  unfold Pxmcmc.malaBody
  have h := U.malaPropose R st.delta st.rng st.cur
  rw [show (st.conjug M.par.complex).delta = st.delta from rfl, show (st.conjug M.par.complex).rng = (st.rng, false) from rfl,
    show (st.conjug M.par.complex).cur = st.cur.conjug from rfl, h]
  cases hpr : Pxmcmc.malaPropose M R st.delta st.rng st.cur with
  | error e => rfl
  | ok pr =>
    simp only [Except.map, bind, Except.bind]
    rw [U.malaLogAlpha]
    cases ha : Pxmcmc.malaLogAlpha M st.delta st.cur pr.1 with
    | error e => rfl
    | ok a =>
      simp only [Except.map]
      have hacc := acceptTest_conj (R.rand pr.2).1 a (hst pr a hpr ha)
      by_cases hA : acceptTest (R.rand pr.2).1 a
      · have hA' : acceptTest ((R.conjug M.par.complex).rand (pr.2, false)).1 (starRingEnd ℂ a) := hacc.mpr hA
        simp only [if_pos hA, if_pos hA']
        have ht := U.malaTune tune ({ st with rng := (R.rand pr.2).2, cur := pr.1, acc := st.acc ++ [1] } : MalaSt R)
        have ht' : Pxmcmc.malaTune M' tune (⟨st.i, st.j, pr.1.conjug, ((R.rand pr.2).2, false), st.delta, st.acc ++ [1], st.deltas,
          st.ev.map Event.conjug⟩ : MalaSt (R.conjug M.par.complex)) = _ := ht
        erw [ht']
        cases Pxmcmc.malaTune M tune ({ st with rng := (R.rand pr.2).2, cur := pr.1, acc := st.acc ++ [1] } : MalaSt R) with
        | error e => rfl
        | ok s2 =>
          simp only [Except.map]
          have hs := U.malaSave A0 (acceptTest (R.rand pr.2).1 a) s2
          have hs' : Pxmcmc.malaSave M' A0.conjug (acceptTest ((R.conjug M.par.complex).rand (pr.2, false)).1 (starRingEnd ℂ a))
              (s2.conjug M.par.complex) = Pxmcmc.malaSave M' A0.conjug (acceptTest (R.rand pr.2).1 a) (s2.conjug M.par.complex) := by
            unfold Pxmcmc.malaSave
            simp only [iff_true_intro hA, iff_true_intro hA']
          rw [hs', hs]
          cases Pxmcmc.malaSave M A0 (acceptTest (R.rand pr.2).1 a) s2 with
          | error e => rfl
          | ok s3 =>
            simp only [Except.map]
            rw [U.malaFinish]
      · have hA' : ¬acceptTest ((R.conjug M.par.complex).rand (pr.2, false)).1 (starRingEnd ℂ a) := fun h => hA (hacc.mp h)
        simp only [if_neg hA, if_neg hA']
        have ht := U.malaTune tune ({ st with rng := (R.rand pr.2).2, acc := st.acc ++ [0] } : MalaSt R)
        have ht' : Pxmcmc.malaTune M' tune (⟨st.i, st.j, st.cur.conjug, ((R.rand pr.2).2, false), st.delta, st.acc ++ [0], st.deltas,
          st.ev.map Event.conjug⟩ : MalaSt (R.conjug M.par.complex)) = _ := ht
        erw [ht']
        cases Pxmcmc.malaTune M tune ({ st with rng := (R.rand pr.2).2, acc := st.acc ++ [0] } : MalaSt R) with
        | error e => rfl
        | ok s2 =>
          simp only [Except.map]
          have hs := U.malaSave A0 (acceptTest (R.rand pr.2).1 a) s2
          have hs' : Pxmcmc.malaSave M' A0.conjug (acceptTest ((R.conjug M.par.complex).rand (pr.2, false)).1 (starRingEnd ℂ a))
              (s2.conjug M.par.complex) = Pxmcmc.malaSave M' A0.conjug (acceptTest (R.rand pr.2).1 a) (s2.conjug M.par.complex) := by
            unfold Pxmcmc.malaSave
            simp only [iff_false_intro hA, iff_false_intro hA']
          rw [hs', hs]
          cases Pxmcmc.malaSave M A0 (acceptTest (R.rand pr.2).1 a) s2 with
          | error e => rfl
          | ok s3 =>
            simp only [Except.map]
            rw [U.malaFinish]

end

/-- `whileFuel_sim` when the bodies agree on the states that are reached. -/
theorem whileFuel_sim_on {σ τ : Type _} (f : σ → τ) (cond : σ → Bool) (cond' : τ → Bool) (body : σ → Py σ) (body' : τ → Py τ)
    (hcond : ∀ s, cond' (f s) = cond s) (I : σ → Prop) (hI : ∀ s s', I s → cond s = true → body s = .ok s' → I s')
    (hbody : ∀ s, I s → cond s = true → body' (f s) = (body s).map f) (fuel : ℕ) (s : σ) (hs : I s) :
    whileFuel cond' body' fuel (f s) = (whileFuel cond body fuel s).map (Option.map f) := by
  induction fuel generalizing s with
  | zero =>
    simp only [whileFuel, hcond]
    split <;> rfl
  | succ k ih =>
    simp only [whileFuel, hcond]
    split
    · rename_i hc
      rw [hbody s hs hc]
      cases hb : body s with
      | error e => rfl
      | ok s' => exact ih s' (hI s s' hs hc hb)
    · rfl

end Pxmcmc
