import Verif.Model.Mirror
import Verif.Lemmas.Units

/-! # Change of sign: the steps of the samplers -/

namespace Pxmcmc
variable {n : ℕ}

/-! ## Arrays -/

theorem flip_length (l : List ℂ) : (flip l).length = l.length := sc_length _ l

theorem flip_flip (l : List ℂ) : flip (flip l) = l := by
  unfold flip
  rw [sc_sc]
  norm_num
  exact sc_one l

theorem flip_ofFn {k : ℕ} (v : Fin k → ℂ) : flip (List.ofFn v) = List.ofFn fun i => -v i := by
  unfold flip
  rw [sc_ofFn]
  simp

theorem flip_smul (k : ℂ) (l : List ℂ) : (flip l).map (fun z => k * z) = flip (l.map fun z => k * z) := by
  simp only [flip, sc, List.map_map, Function.comp_def]
  exact List.map_congr_left fun z _ => by ring

theorem npAdd_flip (x y : List ℂ) : npAdd (flip x) (flip y) = (npAdd x y).map flip := npAdd_sc (-1) x y

theorem npSub_flip (x y : List ℂ) : npSub (flip x) (flip y) = (npSub x y).map flip := npSub_sc (-1) x y

theorem matDot_flip {r k : ℕ} (A : Matrix (Fin r) (Fin k) ℂ) (X : List ℂ) : matDot A (flip X) = (matDot A X).map flip := by
  have := matDot_sc 1 (-1) A X
  rw [Complex.ofReal_one, one_smul, one_mul] at this
  exact this

theorem npVdot_flip (x y : List ℂ) : npVdot (flip x) (flip y) = npVdot x y := by
  unfold flip
  rw [npVdot_sc]
  cases npVdot x y <;> simp [Except.map]

theorem softEntry_neg (z : ℂ) (t : ℝ) : softEntry (-z) t = -softEntry z t := by
  unfold softEntry signEntry
  simp only [norm_neg]
  split
  · simp
  · split
    · simp
    · rw [neg_div, neg_mul]

theorem soft_flip (X : List ℂ) (T : Thresh) : soft (flip X) T = (soft X T).map flip := by
  unfold soft flip sc
  rw [show T.arr = T.arr.map id by simp, bcast_map]
  simp only [List.map_id]
  cases bcast X T.arr with
  | error e => rfl
  | ok l =>
    simp only [Except.map, bind, Except.bind, List.map_map, Function.comp_def, Prod.map, id]
    refine congrArg _ (List.map_congr_left fun z _ => ?_)
    have := softEntry_neg z.1 z.2
    simpa using this

theorem noise_mirror (R : Rng) (cplx : Bool) (r : R.σ) (k : ℕ) :
    noise R.mirror R.mirror.randn cplx r k = (flip (noise R R.randn cplx r k).1, (noise R R.randn cplx r k).2) ∧
    noise R.mirror R.mirror.laplace cplx r k = (flip (noise R R.laplace cplx r k).1, (noise R R.laplace cplx r k).2) := by
  constructor
  · unfold noise
    cases cplx
    · simp [Rng.mirror, flip_ofFn]
    · simp only [Rng.mirror, flip_ofFn, if_true, Prod.mk.injEq, and_true]
      congr 1
      funext i
      push_cast; ring
  · unfold noise
    cases cplx
    · simp [Rng.mirror, flip_ofFn]
    · simp only [Rng.mirror, flip_ofFn, if_true, Prod.mk.injEq, and_true]
      congr 1
      funext i
      push_cast; ring

/-! ## The relation between the two samplers -/

/-- The sampler `M'` is `M` with the opposite sign. -/
structure Mirrored (M M' : Sampler n) : Prop where
  fwd : ∀ X, M'.F.forward (flip X) = (M.F.forward X).map flip
  grad : ∀ Y, M'.F.calcGradg (flip Y) = (M.F.calcGradg Y).map flip
  prox : ∀ X, M'.P.proxf (flip X) = (M.P.proxf X).map flip
  prior : ∀ X, M'.P.prior (flip X) = M.P.prior X
  data : M'.F.data.vals = fun i => -M.F.data.vals i
  invcov : M'.F.invcov = M.F.invcov
  par : M'.par = M.par
  nparams : M'.nparams = M.nparams

section
variable {M M' : Sampler n} (U : Mirrored M M')
include U

theorem Mirrored.logpi (X Y : List ℂ) : Pxmcmc.logpi M'.F M'.P M'.par.mu (flip X) (flip Y) = Pxmcmc.logpi M.F M.P M.par.mu X Y := by
  unfold Pxmcmc.logpi
  have h1 : (List.ofFn M'.F.data.vals) = flip (List.ofFn M.F.data.vals) := by rw [flip_ofFn, U.data]
  rw [h1, npSub_flip, U.invcov]
  cases npSub (List.ofFn M.F.data.vals) Y with
  | error e => rfl
  | ok diff =>
    simp only [Except.map, bind, Except.bind]
    rw [matDot_flip]
    cases matDot M.F.invcov diff with
    | error e => rfl
    | ok wd =>
      simp only [Except.map]
      rw [npVdot_flip, U.prior, U.par]

theorem Mirrored.chainStep (R : Rng) (δ : ℝ) (r : R.σ) (X pf gg : List ℂ) :
    Pxmcmc.chainStep M' R.mirror δ r (flip X) (flip pf) (flip gg) = (Pxmcmc.chainStep M R δ r X pf gg).map fun xr => (flip xr.1, xr.2) := by
  unfold Pxmcmc.chainStep
  rw [U.par, U.nparams]
  have hw := (noise_mirror R M.par.complex r M.nparams).1
  generalize noise R R.randn M.par.complex r M.nparams = w at hw
  rw [hw]
  simp only [bind, Except.bind]
  cases pyDiv δ M.par.lmda with
  | error e => rfl
  | ok q =>
    simp only [flip_smul]
    rw [npAdd_flip]
    cases npAdd (X.map fun z => ((1 - q : ℝ) : ℂ) * z) (pf.map fun z => ((q : ℝ) : ℂ) * z) with
    | error e => rfl
    | ok a =>
      simp only [Except.map]
      rw [npSub_flip]
      cases npSub a (gg.map fun z => (δ : ℂ) * z) with
      | error e => rfl
      | ok b =>
        simp only [Except.map]
        rw [npAdd_flip]
        cases npAdd b (w.1.map fun z => ((√(2 * δ) : ℝ) : ℂ) * z) <;> rfl

theorem Mirrored.myulaStep (R : Rng) (x : Cur R) : Pxmcmc.myulaStep M' R.mirror x.mirror = (Pxmcmc.myulaStep M R x).map Cur.mirror := by
  unfold Pxmcmc.myulaStep
  simp only [Cur.mirror]
  rw [U.grad, U.prox, U.par]
  cases M.F.calcGradg x.preds with
  | error e => rfl
  | ok gg =>
    simp only [Except.map, bind, Except.bind]
    cases M.P.proxf x.X with
    | error e => rfl
    | ok pf =>
      simp only []
      have h := U.chainStep R M.par.delta x.rng x.X pf gg
      rw [h]
      cases Pxmcmc.chainStep M R M.par.delta x.rng x.X pf gg with
      | error e => rfl
      | ok xr =>
        simp only [Except.map]
        rw [U.fwd]
        cases M.F.forward xr.1 <;> rfl

theorem Mirrored.initialSample (R : Rng) (r : R.σ) (sp : StartPoint) :
    Pxmcmc.initialSample M' R.mirror r sp.mirror = (Pxmcmc.initialSample M R r sp).map fun x => (flip x.1, flip x.2.1, x.2.2) := by
  unfold Pxmcmc.initialSample startVector
  cases sp with
  | none =>
    simp only [StartPoint.mirror, bind, Except.bind]
    rw [U.par, U.nparams, (noise_mirror R M.par.complex r M.nparams).2]
    simp only [U.fwd]
    cases M.F.forward (noise R R.laplace M.par.complex r M.nparams).1 <;> rfl
  | array1 v =>
    simp only [StartPoint.mirror, flip_length, U.nparams]
    split
    · simp only [bind, Except.bind]
      rw [U.fwd]
      cases M.F.forward v <;> rfl
    · rfl
  | arrayNd k h => rfl
  | other => rfl

end

/-! ## Bookkeeping -/

theorem Arrays.apply_mirror (A : Arrays) (e : Event) : A.mirror.apply e.mirror = (A.apply e).mirror := by
  cases e <;> simp [Arrays.apply, Arrays.mirror, Event.mirror, Option.map_map, Function.comp_def, List.map_set]

theorem Arrays.applyAll_mirror (A : Arrays) (ev : List Event) : A.mirror.applyAll (ev.map Event.mirror) = (A.applyAll ev).mirror := by
  unfold Arrays.applyAll
  induction ev generalizing A with
  | nil => rfl
  | cons e ev ih => rw [List.map_cons, List.foldl_cons, List.foldl_cons, Arrays.apply_mirror, ih]

theorem writeRow_flip (o : Option (List (List ℂ))) (w : ℕ) (cplx : Bool) (j : ℕ) (v : List ℂ) (e : List ℂ → Event)
    (he : ∀ r, (e r).mirror = e (flip r)) :
    writeRow (o.map fun l => l.map flip) w cplx j (flip v) e = (writeRow o w cplx j v e).map (List.map Event.mirror) := by
  cases o with
  | none => rfl
  | some l =>
    simp only [writeRow, Option.map_some, List.length_map]
    split
    · unfold flip at he ⊢
      rw [rowAssign_sc]
      cases rowAssign w v with
      | error e => rfl
      | ok r =>
        simp only [Except.map, bind, Except.bind, List.map_cons, List.map_nil, he]
        simp only [sc, List.map_map, Function.comp_def, store_scale]
    · rfl

theorem writeScalar_mirror (o : Option (List ℝ)) (j : ℕ) (e : Event) (he : e.mirror = e) :
    writeScalar o j e = (writeScalar o j e).map (List.map Event.mirror) := by
  cases o with
  | none => rfl
  | some l =>
    simp only [writeScalar]
    split
    · simp [Except.map, he]
    · rfl

section
variable {M M' : Sampler n} (U : Mirrored M M')
include U

theorem Mirrored.initArrays : Pxmcmc.initArrays M' = (Pxmcmc.initArrays M).mirror := by
  unfold Pxmcmc.initArrays Arrays.mirror
  simp only [U.par, U.nparams]
  congr 1 <;> split <;> simp [flip, sc]

theorem Mirrored.tracking (A : Arrays) (j : ℕ) (X Y : List ℂ) (l l2 : ℂ) (v : ℝ) :
    Pxmcmc.tracking M' A.mirror j (flip X) (flip Y) l l2 v = (Pxmcmc.tracking M A j X Y l l2 v).map (List.map Event.mirror) := by
  unfold Pxmcmc.tracking
  have h1 := writeScalar_mirror A.logPi j (.logPi j l.re) rfl
  have h2 := writeScalar_mirror A.L2s j (.L2 j l2.re) rfl
  have h3 := writeScalar_mirror A.priors j (.prior j v) rfl
  have h4 := writeRow_flip A.preds n false j Y (.preds j) fun r => rfl
  have h5 := writeRow_flip A.chain M.nparams M.par.complex j X (.chain j) fun r => rfl
  rw [show A.mirror.logPi = A.logPi from rfl, show A.mirror.L2s = A.L2s from rfl, show A.mirror.priors = A.priors from rfl,
    show A.mirror.preds = A.preds.map fun l => l.map flip from rfl, show A.mirror.chain = A.chain.map fun l => l.map flip from rfl,
    U.par, U.nparams, h4, h5]
  cases hw1 : writeScalar A.logPi j (.logPi j l.re) with
  | error e => rfl
  | ok a =>
    rw [hw1] at h1
    simp only [bind, Except.bind]
    cases hw2 : writeScalar A.L2s j (.L2 j l2.re) with
    | error e => rfl
    | ok b =>
      rw [hw2] at h2
      simp only []
      cases hw3 : writeScalar A.priors j (.prior j v) with
      | error e => rfl
      | ok p =>
        rw [hw3] at h3
        simp only []
        cases writeRow A.preds n false j Y (.preds j) with
        | error e => rfl
        | ok q =>
          simp only [Except.map]
          cases writeRow A.chain M.nparams M.par.complex j X (.chain j) with
          | error e => rfl
          | ok s =>
            have g1 := Except.ok.inj h1
            have g2 := Except.ok.inj h2
            have g3 := Except.ok.inj h3
            simp only [List.map_append, ← g1, ← g2, ← g3]

theorem Mirrored.recordRow {R : Rng} (A0 : Arrays) (st : St R) :
    Pxmcmc.recordRow M' A0.mirror st.mirror = (Pxmcmc.recordRow M A0 st).map St.mirror := by
  unfold Pxmcmc.recordRow
  simp only [St.mirror, Cur.mirror]
  rw [U.logpi, Arrays.applyAll_mirror]
  cases Pxmcmc.logpi M.F M.P M.par.mu st.cur.X st.cur.preds with
  | error e => rfl
  | ok l =>
    simp only [bind, Except.bind]
    rw [U.tracking]
    cases Pxmcmc.tracking M (A0.applyAll st.ev) st.j st.cur.X st.cur.preds l.1 l.2.1 l.2.2 with
    | error e => rfl
    | ok evs => simp [Except.map, St.mirror, Cur.mirror]

theorem Mirrored.progressArrays {R : Rng} (A0 : Arrays) (st : St R) :
    Pxmcmc.progressArrays M' A0.mirror st.mirror = (Pxmcmc.progressArrays M A0 st).map (List.map Event.mirror) := by
  unfold Pxmcmc.progressArrays
  simp only [St.mirror]
  rw [Arrays.applyAll_mirror, U.par]
  set A := A0.applyAll st.ev
  rw [show A.mirror.logPi = A.logPi from rfl, show A.mirror.L2s = A.L2s from rfl, show A.mirror.priors = A.priors from rfl]
  cases attrArr A.logPi with
  | error e => rfl
  | ok lp =>
    simp only [bind, Except.bind]
    cases pyGet lp ((st.j : ℤ) - 1) with
    | error e => rfl
    | ok a =>
      simp only []
      cases attrArr A.L2s with
      | error e => rfl
      | ok l2 =>
        simp only []
        cases pyGet l2 ((st.j : ℤ) - 1) with
        | error e => rfl
        | ok b =>
          simp only []
          cases attrArr A.priors with
          | error e => rfl
          | ok ps =>
            simp only []
            cases pyGet ps ((st.j : ℤ) - 1) <;> rfl

theorem Mirrored.myulaBook {R : Rng} (A0 : Arrays) (st : St R) :
    Pxmcmc.myulaBook M' A0.mirror st.mirror = (Pxmcmc.myulaBook M A0 st).map St.mirror := by
  unfold Pxmcmc.myulaBook
  have hi : st.mirror.i = st.i := rfl
  simp only [hi, U.par]
  split
  · have h1 : (if Pxmcmc.thinned M.par st.i then Pxmcmc.recordRow M' A0.mirror st.mirror else .ok st.mirror : Py (St R.mirror)) =
        (if Pxmcmc.thinned M.par st.i then Pxmcmc.recordRow M A0 st else .ok st : Py (St R)).map St.mirror := by
      split
      · exact U.recordRow A0 st
      · rfl
    rw [h1]
    cases (if Pxmcmc.thinned M.par st.i then Pxmcmc.recordRow M A0 st else .ok st : Py (St R)) with
    | error e => rfl
    | ok s =>
      simp only [Except.map, bind, Except.bind]
      have hi : s.mirror.i = s.i := rfl
      rw [hi]
      have h2 : (if Pxmcmc.verbose M.par s.i then Pxmcmc.progressArrays M' A0.mirror s.mirror else .ok [] : Py (List Event)) =
          (if Pxmcmc.verbose M.par s.i then Pxmcmc.progressArrays M A0 s else .ok [] : Py (List Event)).map (List.map Event.mirror) := by
        split
        · exact U.progressArrays A0 s
        · rfl
      rw [h2]
      cases (if Pxmcmc.verbose M.par s.i then Pxmcmc.progressArrays M A0 s else .ok [] : Py (List Event)) with
      | error e => rfl
      | ok evs => simp [Except.map, St.mirror]
  · simp only [Except.map, St.mirror, List.map_append]
    congr 3
    split <;> rfl

theorem Mirrored.skrockBook {R : Rng} (A0 : Arrays) (st : St R) :
    Pxmcmc.skrockBook M' A0.mirror st.mirror = (Pxmcmc.skrockBook M A0 st).map St.mirror := by
  unfold Pxmcmc.skrockBook
  have hi : st.mirror.i = st.i := rfl
  simp only [hi, U.par]
  have h1 : (if (st.i : ℤ) ≥ M.par.nburn then
        (if Pxmcmc.thinned M.par st.i then Pxmcmc.recordRow M' A0.mirror st.mirror else .ok st.mirror)
      else .ok st.mirror : Py (St R.mirror)) =
      (if (st.i : ℤ) ≥ M.par.nburn then (if Pxmcmc.thinned M.par st.i then Pxmcmc.recordRow M A0 st else .ok st)
      else .ok st : Py (St R)).map St.mirror := by
    split
    · split
      · exact U.recordRow A0 st
      · rfl
    · rfl
  rw [h1]
  cases (if (st.i : ℤ) ≥ M.par.nburn then (if Pxmcmc.thinned M.par st.i then Pxmcmc.recordRow M A0 st else .ok st)
      else .ok st : Py (St R)) with
  | error e => rfl
  | ok s =>
    simp only [Except.map, bind, Except.bind]
    have hi : s.mirror.i = s.i := rfl
    rw [hi]
    have h2 : (if Pxmcmc.verbose M.par s.i then Pxmcmc.progressArrays M' A0.mirror s.mirror else .ok [] : Py (List Event)) =
        (if Pxmcmc.verbose M.par s.i then Pxmcmc.progressArrays M A0 s else .ok [] : Py (List Event)).map (List.map Event.mirror) := by
      split
      · exact U.progressArrays A0 s
      · rfl
    rw [h2]
    cases (if Pxmcmc.verbose M.par s.i then Pxmcmc.progressArrays M A0 s else .ok [] : Py (List Event)) with
    | error e => rfl
    | ok evs => simp [Except.map, St.mirror]

/-! ## PxMALA -/

theorem Mirrored.malaPropose (R : Rng) (δ : ℝ) (r : R.σ) (x : Cache) :
    Pxmcmc.malaPropose M' R.mirror δ r x.mirror = (Pxmcmc.malaPropose M R δ r x).map fun q => (q.1.mirror, q.2) := by
  unfold Pxmcmc.malaPropose
  simp only [Cache.mirror]
  have h := U.chainStep R δ r x.X x.proxf x.gradg
  rw [h]
  cases Pxmcmc.chainStep M R δ r x.X x.proxf x.gradg with
  | error e => rfl
  | ok xr =>
    simp only [Except.map, bind, Except.bind]
    rw [U.fwd]
    cases M.F.forward xr.1 with
    | error e => rfl
    | ok y =>
      simp only [Except.map]
      rw [U.grad, U.prox, U.logpi]
      cases M.F.calcGradg y with
      | error e => rfl
      | ok g =>
        simp only [Except.map]
        cases M.P.proxf xr.1 with
        | error e => rfl
        | ok q =>
          simp only []
          cases Pxmcmc.logpi M.F M.P M.par.mu xr.1 y <;> rfl

theorem Mirrored.calcLogtransition (δ : ℝ) (X1 X2 pf gg : List ℂ) :
    Pxmcmc.calcLogtransition M' δ (flip X1) (flip X2) (flip pf) (flip gg) = Pxmcmc.calcLogtransition M δ X1 X2 pf gg := by
  unfold Pxmcmc.calcLogtransition
  rw [npSub_flip, npSub_flip, U.par]
  cases npSub X1 pf with
  | error e => rfl
  | ok d =>
    simp only [Except.map, bind, Except.bind]
    have e1 : ((flip d).map fun z => -(z / (M.par.lmda : ℂ))) = flip (d.map fun z => -(z / (M.par.lmda : ℂ))) := by
      simp only [flip, sc, List.map_map, Function.comp_def]
      exact List.map_congr_left fun z _ => by push_cast; ring
    rw [e1, npSub_flip]
    cases npSub (d.map fun z => -(z / (M.par.lmda : ℂ))) gg with
    | error e => rfl
    | ok g =>
      simp only [Except.map]
      cases npSub X2 X1 with
      | error e => rfl
      | ok e =>
        simp only [flip_smul]
        rw [npSub_flip]
        cases npSub e (g.map fun z => ((δ / 2 : ℝ) : ℂ) * z) with
        | error e => rfl
        | ok f =>
          simp only [Except.map]
          have e2 : ((flip f).map fun z => z ^ 2) = f.map fun z => z ^ 2 := by
            simp only [flip, sc, List.map_map, Function.comp_def]
            exact List.map_congr_left fun z _ => by push_cast; ring
          rw [e2]

theorem Mirrored.malaLogAlpha (δ : ℝ) (x p : Cache) : Pxmcmc.malaLogAlpha M' δ x.mirror p.mirror = Pxmcmc.malaLogAlpha M δ x p := by
  unfold Pxmcmc.malaLogAlpha
  simp only [Cache.mirror, U.calcLogtransition]

theorem Mirrored.malaTune {R : Rng} (tune : Bool) (st : MalaSt R) :
    Pxmcmc.malaTune M' tune st.mirror = (Pxmcmc.malaTune M tune st).map MalaSt.mirror := by
  unfold Pxmcmc.malaTune tuneDelta
  rw [U.par]
  cases tune
  · rfl
  · simp only [if_true, MalaSt.mirror, bind, Except.bind]
    cases pyGet st.acc st.i <;> rfl

theorem Mirrored.malaSave {R : Rng} (A0 : Arrays) (accept : Prop) [Decidable accept] (st : MalaSt R) :
    Pxmcmc.malaSave M' A0.mirror accept st.mirror = (Pxmcmc.malaSave M A0 accept st).map MalaSt.mirror := by
  unfold Pxmcmc.malaSave
  rw [U.par]
  by_cases hb : (st.i : ℤ) ≥ M.par.nburn
  · rw [if_pos (show (st.mirror.i : ℤ) ≥ M.par.nburn from hb), if_pos hb]
    by_cases ha : thinned M.par st.i ∧ accept
    · rw [if_pos (show thinned M.par st.mirror.i ∧ accept from ha), if_pos ha]
      have ht := U.tracking (A0.applyAll st.ev) st.j st.cur.X st.cur.preds st.cur.logpi st.cur.L2 st.cur.prior
      rw [← Arrays.applyAll_mirror] at ht
      change (Pxmcmc.tracking M' (A0.mirror.applyAll (st.ev.map Event.mirror)) st.j (flip st.cur.X) (flip st.cur.preds) st.cur.logpi
        st.cur.L2 st.cur.prior >>= _) = _
      rw [ht]
      cases Pxmcmc.tracking M (A0.applyAll st.ev) st.j st.cur.X st.cur.preds st.cur.logpi st.cur.L2 st.cur.prior with
      | error e => rfl
      | ok evs => simp [Except.map, bind, Except.bind, MalaSt.mirror, Cache.mirror]
    · rw [if_neg (show ¬(thinned M.par st.mirror.i ∧ accept) from ha), if_neg ha]
      rfl
  · rw [if_neg (show ¬(st.mirror.i : ℤ) ≥ M.par.nburn from hb), if_neg hb]
    rfl

theorem Mirrored.malaFinish {R : Rng} (st : MalaSt R) : Pxmcmc.malaFinish M' st.mirror = (Pxmcmc.malaFinish M st).mirror := by
  unfold Pxmcmc.malaFinish
  rw [U.par]
  by_cases hv : Pxmcmc.verbose M.par st.i
  · rw [if_pos (show Pxmcmc.verbose M.par st.mirror.i from hv), if_pos hv]
    simp [MalaSt.mirror, Cache.mirror, Event.mirror]
  · rw [if_neg (show ¬Pxmcmc.verbose M.par st.mirror.i from hv), if_neg hv]
    simp [MalaSt.mirror, Cache.mirror]

theorem Mirrored.malaBody (R : Rng) (tune : Bool) (A0 : Arrays) (st : MalaSt R) :
    Pxmcmc.malaBody M' R.mirror tune A0.mirror st.mirror = (Pxmcmc.malaBody M R tune A0 st).map MalaSt.mirror := by
  classical
  unfold Pxmcmc.malaBody
  have h := U.malaPropose R st.delta st.rng st.cur
  rw [show st.mirror.delta = st.delta from rfl, show st.mirror.rng = st.rng from rfl, show st.mirror.cur = st.cur.mirror from rfl, h]
  cases Pxmcmc.malaPropose M R st.delta st.rng st.cur with
  | error e => rfl
  | ok pr =>
    simp only [Except.map, bind, Except.bind]
    rw [U.malaLogAlpha]
    cases Pxmcmc.malaLogAlpha M st.delta st.cur pr.1 with
    | error e => rfl
    | ok a =>
      simp only []
      have ht := U.malaTune tune ({ st with
        rng := (R.rand pr.2).2
        cur := if acceptTest (R.rand pr.2).1 a then pr.1 else st.cur
        acc := st.acc ++ [if acceptTest (R.rand pr.2).1 a then 1 else 0] } : MalaSt R)
      have hc : (if acceptTest (R.rand pr.2).1 a then pr.1.mirror else st.cur.mirror) =
          (if acceptTest (R.rand pr.2).1 a then pr.1 else st.cur).mirror := by split <;> rfl
      change (Except.bind (Pxmcmc.malaTune M' tune (⟨st.i, st.j, (if acceptTest (R.rand pr.2).1 a then pr.1.mirror else st.cur.mirror),
        (R.rand pr.2).2, st.delta, st.acc ++ [if acceptTest (R.rand pr.2).1 a then 1 else 0], st.deltas, st.ev.map Event.mirror⟩ :
        MalaSt R.mirror)) fun st2 => Except.bind (Pxmcmc.malaSave M' A0.mirror (acceptTest (R.rand pr.2).1 a) st2) fun st3 =>
        .ok (Pxmcmc.malaFinish M' st3)) = Except.map _ (Except.bind (Pxmcmc.malaTune M tune ({ st with
        rng := (R.rand pr.2).2
        cur := if acceptTest (R.rand pr.2).1 a then pr.1 else st.cur
        acc := st.acc ++ [if acceptTest (R.rand pr.2).1 a then 1 else 0] } : MalaSt R)) fun st2 =>
        Except.bind (Pxmcmc.malaSave M A0 (acceptTest (R.rand pr.2).1 a) st2) fun st3 => .ok (Pxmcmc.malaFinish M st3))
      rw [hc]
      change Except.bind (Pxmcmc.malaTune M' tune (MalaSt.mirror ({ st with
        rng := (R.rand pr.2).2
        cur := if acceptTest (R.rand pr.2).1 a then pr.1 else st.cur
        acc := st.acc ++ [if acceptTest (R.rand pr.2).1 a then 1 else 0] } : MalaSt R))) _ = _
      rw [ht]
      cases Pxmcmc.malaTune M tune ({ st with
        rng := (R.rand pr.2).2
        cur := if acceptTest (R.rand pr.2).1 a then pr.1 else st.cur
        acc := st.acc ++ [if acceptTest (R.rand pr.2).1 a then 1 else 0] } : MalaSt R) with
      | error e => rfl
      | ok s2 =>
        simp only [Except.map, Except.bind]
        rw [U.malaSave]
        cases Pxmcmc.malaSave M A0 (acceptTest (R.rand pr.2).1 a) s2 with
        | error e => rfl
        | ok s3 =>
          simp only [Except.map]
          rw [U.malaFinish]

end

end Pxmcmc
