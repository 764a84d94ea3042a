import Verif.Model.Reorder
import Verif.Lemmas.Units

/-! # Another order of the parameters and of the data: the steps of the samplers -/

namespace Pxmcmc
variable {n : ℕ}

/-! ## Arrays -/

section
variable {α β : Type _} (τ : Order)

theorem reord_eq {m : ℕ} (l : List α) (h : l.length = m) : reord τ l = List.ofFn fun i : Fin m => l[(τ m i : ℕ)]'(by omega) := by
  subst h
  rfl

theorem reord_length (l : List α) : (reord τ l).length = l.length := by simp [reord]

theorem reord_ofFn {k : ℕ} (v : Fin k → α) : reord τ (List.ofFn v) = List.ofFn fun i => v (τ k i) := by
  rw [reord_eq τ _ (List.length_ofFn (f := v))]
  simp

theorem exists_ofFn' (l : List α) : ∃ v : Fin l.length → α, l = List.ofFn v := ⟨l.get, (List.ofFn_get l).symm⟩

theorem reord_map (f : α → β) (l : List α) : reord τ (l.map f) = (reord τ l).map f := by
  rw [reord_eq τ (l.map f) (List.length_map f), reord_eq τ l rfl, List.map_ofFn]
  simp [Function.comp_def]

theorem reord_single (a : α) : reord τ [a] = [a] := by
  simp [reord]

theorem reord_nil : reord τ ([] : List α) = [] := rfl

theorem reord_replicate (k : ℕ) (a : α) : reord τ (List.replicate k a) = List.replicate k a := by
  unfold reord
  simp [List.ofFn_const]

theorem reord_zip (x : List α) (y : List β) (h : x.length = y.length) : reord τ (x.zip y) = (reord τ x).zip (reord τ y) := by
  rw [reord_eq τ (x.zip y) (m := x.length) (by simp [h]), reord_eq τ x rfl, reord_eq τ y h.symm]
  apply List.ext_getElem
  · simp
  · intro i h1 h2
    simp

theorem reord_perm (l : List α) : (reord τ l).Perm l := by
  have h := (τ l.length).ofFn_comp_perm l.get
  rw [List.ofFn_get] at h
  exact h

theorem reord_inj {x y : List α} (h : reord τ x = reord τ y) : x = y := by
  have hl : x.length = y.length := by rw [← reord_length τ x, h, reord_length]
  obtain ⟨v, hv⟩ := exists_ofFn' x
  obtain ⟨w, hw⟩ : ∃ w : Fin x.length → α, y = List.ofFn w := by
    rw [hl]
    exact exists_ofFn' y
  rw [hv, hw, reord_ofFn, reord_ofFn] at h
  have h' := List.ofFn_injective h
  rw [hv, hw]
  congr 1
  funext i
  have := congrFun h' ((τ x.length).symm i)
  simpa using this

theorem bcast_reord (x : List α) (y : List β) : bcast (reord τ x) (reord τ y) = (bcast x y).map (reord τ) := by
  unfold bcast
  rw [reord_length, reord_length]
  split
  · rename_i h
    rw [← reord_zip τ x y h]
    rfl
  · rename_i h
    have hx := reord_length τ x
    have hy := reord_length τ y
    rcases y with _ | ⟨b, _ | ⟨b', y⟩⟩
    · rcases x with _ | ⟨a, _ | ⟨a', x⟩⟩
      · exact absurd rfl h
      · rw [reord_single, reord_nil]; rfl
      · rw [reord_nil]
        obtain ⟨c, d, t, hc⟩ : ∃ c d t, reord τ (a :: a' :: x) = c :: d :: t := by
          match reord τ (a :: a' :: x), hx with
          | c :: d :: t, _ => exact ⟨c, d, t, rfl⟩
        rw [hc]; rfl
    · rw [reord_single]
      simp only [Except.map, ← reord_map]
    · obtain ⟨c, d, t, hc⟩ : ∃ c d t, reord τ (b :: b' :: y) = c :: d :: t := by
        match reord τ (b :: b' :: y), hy with
        | c :: d :: t, _ => exact ⟨c, d, t, rfl⟩
      rcases x with _ | ⟨a, _ | ⟨a', x⟩⟩
      · rw [hc, reord_nil]; rfl
      · rw [reord_single, hc]
        simp only [Except.map, reord_map, ← hc]
      · obtain ⟨c', d', t', hc'⟩ : ∃ c d t, reord τ (a :: a' :: x) = c :: d :: t := by
          match reord τ (a :: a' :: x), hx with
          | c :: d :: t, _ => exact ⟨c, d, t, rfl⟩
        rw [hc, hc']; rfl

end

theorem reord_smul (τ : Order) (k : ℂ) (l : List ℂ) : (reord τ l).map (fun z => k * z) = reord τ (l.map fun z => k * z) := (reord_map τ _ l).symm

theorem npAdd_reord (τ : Order) (x y : List ℂ) : npAdd (reord τ x) (reord τ y) = (npAdd x y).map (reord τ) := by
  unfold npAdd
  rw [bcast_reord]
  cases bcast x y with
  | error e => rfl
  | ok l => simp only [Except.map, bind, Except.bind, reord_map]

theorem npSub_reord (τ : Order) (x y : List ℂ) : npSub (reord τ x) (reord τ y) = (npSub x y).map (reord τ) := by
  unfold npSub
  rw [bcast_reord]
  cases bcast x y with
  | error e => rfl
  | ok l => simp only [Except.map, bind, Except.bind, reord_map]

theorem Thresh.arr_reord (τ : Order) (T : Thresh) : (T.reord τ).arr = Pxmcmc.reord τ T.arr := by
  cases T
  · exact (reord_single τ _).symm
  · rfl

theorem soft_reord (τ : Order) (X : List ℂ) (T : Thresh) : soft (reord τ X) (T.reord τ) = (soft X T).map (reord τ) := by
  unfold soft
  rw [Thresh.arr_reord, bcast_reord]
  cases bcast X T.arr with
  | error e => rfl
  | ok l => simp only [Except.map, bind, Except.bind, reord_map]

theorem matDot_reord {r k : ℕ} (ρ τ : Order) (A : Matrix (Fin r) (Fin k) ℂ) (X : List ℂ) :
    matDot (A.submatrix (ρ r) (τ k)) (reord τ X) = (matDot A X).map (reord ρ) := by
  unfold matDot
  simp only [reord_length]
  split
  · rename_i h
    simp only [Except.map, reord_ofFn]
    congr 2
    funext i
    simp only [Matrix.mulVec, dotProduct, Matrix.submatrix_apply]
    have e : ∀ j : Fin k, (reord τ X)[(j : ℕ)]'(by rw [reord_length]; omega) = X[(τ k j : ℕ)]'(by omega) := by
      intro j
      simp only [reord_eq τ X h, List.getElem_ofFn]
    simp only [Fin.getElem_fin, e]
    exact Equiv.sum_comp (τ k) fun j => A (ρ r i) j * X[(j : ℕ)]'(by omega)
  · rfl

theorem npVdot_reord (τ : Order) (x y : List ℂ) : npVdot (reord τ x) (reord τ y) = npVdot x y := by
  unfold npVdot
  rw [reord_length, reord_length]
  split
  · rename_i h
    rw [← reord_zip τ x y h, ← reord_map]
    rw [(reord_perm τ _).sum_eq]
  · rfl

theorem sum_reord {α : Type _} (τ : Order) (f : α → ℂ) (l : List α) : ((reord τ l).map f).sum = (l.map f).sum := by
  rw [← reord_map]
  exact (reord_perm τ _).sum_eq

theorem noise_reord (τ : Order) (R : Rng) (cplx : Bool) (r : R.σ) (k : ℕ) :
    noise (R.reord τ) (R.reord τ).randn cplx r k = (reord τ (noise R R.randn cplx r k).1, (noise R R.randn cplx r k).2) ∧
    noise (R.reord τ) (R.reord τ).laplace cplx r k = (reord τ (noise R R.laplace cplx r k).1, (noise R R.laplace cplx r k).2) := by
  constructor
  · unfold noise
    cases cplx
    · simp [Rng.reord, reord_ofFn]
    · simp [Rng.reord, reord_ofFn]
  · unfold noise
    cases cplx
    · simp [Rng.reord, reord_ofFn]
    · simp [Rng.reord, reord_ofFn]

/-! ## The relation between the two samplers -/

/-- The sampler `M'` is `M` with the parameters numbered by `τ` and the data numbered by `ρ`. -/
structure Reordered (τ ρ : Order) (M M' : Sampler n) : Prop where
  fwd : ∀ X, M'.F.forward (reord τ X) = (M.F.forward X).map (reord ρ)
  grad : ∀ Y, M'.F.calcGradg (reord ρ Y) = (M.F.calcGradg Y).map (reord τ)
  prox : ∀ X, M'.P.proxf (reord τ X) = (M.P.proxf X).map (reord τ)
  prior : ∀ X, M'.P.prior (reord τ X) = M.P.prior X
  data : M'.F.data.vals = fun i => M.F.data.vals (ρ n i)
  invcov : M'.F.invcov = M.F.invcov.submatrix (ρ n) (ρ n)
  par : M'.par = M.par
  nparams : M'.nparams = M.nparams

section
variable {τ ρ : Order} {M M' : Sampler n} (U : Reordered τ ρ M M')
include U

theorem Reordered.logpi (X Y : List ℂ) : Pxmcmc.logpi M'.F M'.P M'.par.mu (reord τ X) (reord ρ Y) = Pxmcmc.logpi M.F M.P M.par.mu X Y := by
  unfold Pxmcmc.logpi
  have h1 : (List.ofFn M'.F.data.vals) = reord ρ (List.ofFn M.F.data.vals) := by rw [reord_ofFn, U.data]
  rw [h1, npSub_reord, U.invcov]
  cases npSub (List.ofFn M.F.data.vals) Y with
  | error e => rfl
  | ok diff =>
    simp only [Except.map, bind, Except.bind]
    rw [matDot_reord]
    cases matDot M.F.invcov diff with
    | error e => rfl
    | ok wd =>
      simp only [Except.map]
      rw [npVdot_reord, U.prior, U.par]

theorem Reordered.chainStep (R : Rng) (δ : ℝ) (r : R.σ) (X pf gg : List ℂ) :
    Pxmcmc.chainStep M' (R.reord τ) δ r (reord τ X) (reord τ pf) (reord τ gg) = (Pxmcmc.chainStep M R δ r X pf gg).map fun xr => (reord τ xr.1, xr.2) := by
  unfold Pxmcmc.chainStep
  rw [U.par, U.nparams]
  have hw := (noise_reord τ R M.par.complex r M.nparams).1
  generalize noise R R.randn M.par.complex r M.nparams = w at hw
  rw [hw]
  simp only [bind, Except.bind]
  cases pyDiv δ M.par.lmda with
  | error e => rfl
  | ok q =>
    simp only [reord_smul]
    rw [npAdd_reord]
    cases npAdd (X.map fun z => ((1 - q : ℝ) : ℂ) * z) (pf.map fun z => ((q : ℝ) : ℂ) * z) with
    | error e => rfl
    | ok a =>
      simp only [Except.map]
      rw [npSub_reord]
      cases npSub a (gg.map fun z => (δ : ℂ) * z) with
      | error e => rfl
      | ok b =>
        simp only [Except.map]
        rw [npAdd_reord]
        cases npAdd b (w.1.map fun z => ((√(2 * δ) : ℝ) : ℂ) * z) <;> rfl

theorem Reordered.myulaStep (R : Rng) (x : Cur R) : Pxmcmc.myulaStep M' (R.reord τ) (x.reord τ ρ) = (Pxmcmc.myulaStep M R x).map (Cur.reord τ ρ) := by
  unfold Pxmcmc.myulaStep
  simp only [Cur.reord]
  rw [U.grad, U.prox, U.par]
  cases M.F.calcGradg x.preds with
  | error e => rfl
  | ok gg =>
    simp only [Except.map, bind, Except.bind]
    cases M.P.proxf x.X with
    | error e => rfl
    | ok pf =>
      simp only []
      have h := U.chainStep R M.par.delta x.rng x.X pf gg
      rw [h]
      cases Pxmcmc.chainStep M R M.par.delta x.rng x.X pf gg with
      | error e => rfl
      | ok xr =>
        simp only [Except.map]
        rw [U.fwd]
        cases M.F.forward xr.1 <;> rfl

theorem Reordered.initialSample (R : Rng) (r : R.σ) (sp : StartPoint) :
    Pxmcmc.initialSample M' (R.reord τ) r (sp.reord τ) = (Pxmcmc.initialSample M R r sp).map fun x => (reord τ x.1, reord ρ x.2.1, x.2.2) := by
  unfold Pxmcmc.initialSample startVector
  cases sp with
  | none =>
    simp only [StartPoint.reord, bind, Except.bind]
    rw [U.par, U.nparams, (noise_reord τ R M.par.complex r M.nparams).2]
    simp only [U.fwd]
    cases M.F.forward (noise R R.laplace M.par.complex r M.nparams).1 <;> rfl
  | array1 v =>
    simp only [StartPoint.reord, reord_length, U.nparams]
    split
    · simp only [bind, Except.bind]
      rw [U.fwd]
      cases M.F.forward v <;> rfl
    · rfl
  | arrayNd k h => rfl
  | other => rfl

end

/-! ## Bookkeeping -/

theorem Arrays.apply_reord (A : Arrays) (e : Event) : (A.reord τ ρ).apply (e.reord τ ρ) = (A.apply e).reord τ ρ := by
  cases e <;> simp [Arrays.apply, Arrays.reord, Event.reord, Option.map_map, Function.comp_def, List.map_set]

theorem Arrays.applyAll_reord (A : Arrays) (ev : List Event) : (A.reord τ ρ).applyAll (ev.map (Event.reord τ ρ)) = (A.applyAll ev).reord τ ρ := by
  unfold Arrays.applyAll
  induction ev generalizing A with
  | nil => rfl
  | cons e ev ih => rw [List.map_cons, List.foldl_cons, List.foldl_cons, Arrays.apply_reord, ih]

theorem rowAssign_reord (κ : Order) (w : ℕ) (v : List ℂ) : rowAssign w (reord κ v) = (rowAssign w v).map (reord κ) := by
  unfold rowAssign
  rw [reord_length]
  split
  · rfl
  · have hl := reord_length κ v
    rcases v with _ | ⟨a, _ | ⟨b, v⟩⟩
    · rfl
    · rw [reord_single]
      simp only [Except.map, reord_replicate]
    · obtain ⟨c, d, t, hc⟩ : ∃ c d t, reord κ (a :: b :: v) = c :: d :: t := by
        match reord κ (a :: b :: v), hl with
        | c :: d :: t, _ => exact ⟨c, d, t, rfl⟩
      rw [hc]; rfl

theorem writeRow_reord (κ : Order) (o : Option (List (List ℂ))) (w : ℕ) (cplx : Bool) (j : ℕ) (v : List ℂ) (e : List ℂ → Event)
    (he : ∀ r, (e r).reord τ ρ = e (reord κ r)) :
    writeRow (o.map fun l => l.map (reord κ)) w cplx j (reord κ v) e = (writeRow o w cplx j v e).map (List.map (Event.reord τ ρ)) := by
  cases o with
  | none => rfl
  | some l =>
    simp only [writeRow, Option.map_some, List.length_map]
    split
    · rw [rowAssign_reord]
      cases rowAssign w v with
      | error e => rfl
      | ok r => simp only [Except.map, bind, Except.bind, List.map_cons, List.map_nil, he, reord_map]
    · rfl

theorem writeScalar_reord (o : Option (List ℝ)) (j : ℕ) (e : Event) (he : (e.reord τ ρ) = e) :
    writeScalar o j e = (writeScalar o j e).map (List.map (Event.reord τ ρ)) := by
  cases o with
  | none => rfl
  | some l =>
    simp only [writeScalar]
    split
    · simp [Except.map, he]
    · rfl

section
variable {τ ρ : Order} {M M' : Sampler n} (U : Reordered τ ρ M M')
include U

theorem Reordered.initArrays : Pxmcmc.initArrays M' = (Pxmcmc.initArrays M).reord τ ρ := by
  unfold Pxmcmc.initArrays Arrays.reord
  simp only [U.par, U.nparams]
  congr 1 <;> split <;> simp [reord_replicate]

theorem Reordered.tracking (A : Arrays) (j : ℕ) (X Y : List ℂ) (l l2 : ℂ) (v : ℝ) :
    Pxmcmc.tracking M' (A.reord τ ρ) j (reord τ X) (reord ρ Y) l l2 v = (Pxmcmc.tracking M A j X Y l l2 v).map (List.map (Event.reord τ ρ)) := by
  unfold Pxmcmc.tracking
  have h1 := writeScalar_reord (τ := τ) (ρ := ρ) A.logPi j (.logPi j l.re) rfl
  have h2 := writeScalar_reord (τ := τ) (ρ := ρ) A.L2s j (.L2 j l2.re) rfl
  have h3 := writeScalar_reord (τ := τ) (ρ := ρ) A.priors j (.prior j v) rfl
  have h4 := writeRow_reord (τ := τ) (ρ := ρ) ρ A.preds n false j Y (.preds j) fun r => rfl
  have h5 := writeRow_reord (τ := τ) (ρ := ρ) τ A.chain M.nparams M.par.complex j X (.chain j) fun r => rfl
  rw [show (A.reord τ ρ).logPi = A.logPi from rfl, show (A.reord τ ρ).L2s = A.L2s from rfl, show (A.reord τ ρ).priors = A.priors from rfl,
    show (A.reord τ ρ).preds = A.preds.map fun l => l.map (reord ρ) from rfl, show (A.reord τ ρ).chain = A.chain.map fun l => l.map (reord τ) from rfl,
    U.par, U.nparams, h4, h5]
  cases hw1 : writeScalar A.logPi j (.logPi j l.re) with
  | error e => rfl
  | ok a =>
    rw [hw1] at h1
    simp only [bind, Except.bind]
    cases hw2 : writeScalar A.L2s j (.L2 j l2.re) with
    | error e => rfl
    | ok b =>
      rw [hw2] at h2
      simp only []
      cases hw3 : writeScalar A.priors j (.prior j v) with
      | error e => rfl
      | ok p =>
        rw [hw3] at h3
        simp only []
        cases writeRow A.preds n false j Y (.preds j) with
        | error e => rfl
        | ok q =>
          simp only [Except.map]
          cases writeRow A.chain M.nparams M.par.complex j X (.chain j) with
          | error e => rfl
          | ok s =>
            have g1 := Except.ok.inj h1
            have g2 := Except.ok.inj h2
            have g3 := Except.ok.inj h3
            simp only [List.map_append, ← g1, ← g2, ← g3]

theorem Reordered.recordRow {R : Rng} (A0 : Arrays) (st : St R) :
    Pxmcmc.recordRow M' (A0.reord τ ρ) (st.reord τ ρ) = (Pxmcmc.recordRow M A0 st).map (St.reord τ ρ) := by
  unfold Pxmcmc.recordRow
  simp only [St.reord, Cur.reord]
  rw [U.logpi, Arrays.applyAll_reord]
  cases Pxmcmc.logpi M.F M.P M.par.mu st.cur.X st.cur.preds with
  | error e => rfl
  | ok l =>
    simp only [bind, Except.bind]
    rw [U.tracking]
    cases Pxmcmc.tracking M (A0.applyAll st.ev) st.j st.cur.X st.cur.preds l.1 l.2.1 l.2.2 with
    | error e => rfl
    | ok evs => simp [Except.map, St.reord, Cur.reord]

theorem Reordered.progressArrays {R : Rng} (A0 : Arrays) (st : St R) :
    Pxmcmc.progressArrays M' (A0.reord τ ρ) (st.reord τ ρ) = (Pxmcmc.progressArrays M A0 st).map (List.map (Event.reord τ ρ)) := by
  unfold Pxmcmc.progressArrays
  simp only [St.reord]
  rw [Arrays.applyAll_reord, U.par]
  set A := A0.applyAll st.ev
  rw [show (A.reord τ ρ).logPi = A.logPi from rfl, show (A.reord τ ρ).L2s = A.L2s from rfl, show (A.reord τ ρ).priors = A.priors from rfl]
  cases attrArr A.logPi with
  | error e => rfl
  | ok lp =>
    simp only [bind, Except.bind]
    cases pyGet lp ((st.j : ℤ) - 1) with
    | error e => rfl
    | ok a =>
      simp only []
      cases attrArr A.L2s with
      | error e => rfl
      | ok l2 =>
        simp only []
        cases pyGet l2 ((st.j : ℤ) - 1) with
        | error e => rfl
        | ok b =>
          simp only []
          cases attrArr A.priors with
          | error e => rfl
          | ok ps =>
            simp only []
            cases pyGet ps ((st.j : ℤ) - 1) <;> rfl

theorem Reordered.myulaBook {R : Rng} (A0 : Arrays) (st : St R) :
    Pxmcmc.myulaBook M' (A0.reord τ ρ) (st.reord τ ρ) = (Pxmcmc.myulaBook M A0 st).map (St.reord τ ρ) := by
  unfold Pxmcmc.myulaBook
  have hi : (st.reord τ ρ).i = st.i := rfl
  simp only [hi, U.par]
  split
  · have h1 : (if Pxmcmc.thinned M.par st.i then Pxmcmc.recordRow M' (A0.reord τ ρ) (st.reord τ ρ) else .ok (st.reord τ ρ) : Py (St (R.reord τ))) =
        (if Pxmcmc.thinned M.par st.i then Pxmcmc.recordRow M A0 st else .ok st : Py (St R)).map (St.reord τ ρ) := by
      split
      · exact U.recordRow A0 st
      · rfl
    rw [h1]
    cases (if Pxmcmc.thinned M.par st.i then Pxmcmc.recordRow M A0 st else .ok st : Py (St R)) with
    | error e => rfl
    | ok s =>
      simp only [Except.map, bind, Except.bind]
      have hi : (s.reord τ ρ).i = s.i := rfl
      rw [hi]
      have h2 : (if Pxmcmc.verbose M.par s.i then Pxmcmc.progressArrays M' (A0.reord τ ρ) (s.reord τ ρ) else .ok [] : Py (List Event)) =
          (if Pxmcmc.verbose M.par s.i then Pxmcmc.progressArrays M A0 s else .ok [] : Py (List Event)).map (List.map (Event.reord τ ρ)) := by
        split
        · exact U.progressArrays A0 s
        · rfl
      rw [h2]
      cases (if Pxmcmc.verbose M.par s.i then Pxmcmc.progressArrays M A0 s else .ok [] : Py (List Event)) with
      | error e => rfl
      | ok evs => simp [Except.map, St.reord]
  · simp only [Except.map, St.reord, List.map_append]
    congr 3
    split <;> rfl

theorem Reordered.skrockBook {R : Rng} (A0 : Arrays) (st : St R) :
    Pxmcmc.skrockBook M' (A0.reord τ ρ) (st.reord τ ρ) = (Pxmcmc.skrockBook M A0 st).map (St.reord τ ρ) := by
  unfold Pxmcmc.skrockBook
  have hi : (st.reord τ ρ).i = st.i := rfl
  simp only [hi, U.par]
  have h1 : (if (st.i : ℤ) ≥ M.par.nburn then
        (if Pxmcmc.thinned M.par st.i then Pxmcmc.recordRow M' (A0.reord τ ρ) (st.reord τ ρ) else .ok (st.reord τ ρ))
      else .ok (st.reord τ ρ) : Py (St (R.reord τ))) =
      (if (st.i : ℤ) ≥ M.par.nburn then (if Pxmcmc.thinned M.par st.i then Pxmcmc.recordRow M A0 st else .ok st)
      else .ok st : Py (St R)).map (St.reord τ ρ) := by
    split
    · split
      · exact U.recordRow A0 st
      · rfl
    · rfl
  rw [h1]
  cases (if (st.i : ℤ) ≥ M.par.nburn then (if Pxmcmc.thinned M.par st.i then Pxmcmc.recordRow M A0 st else .ok st)
      else .ok st : Py (St R)) with
  | error e => rfl
  | ok s =>
    simp only [Except.map, bind, Except.bind]
    have hi : (s.reord τ ρ).i = s.i := rfl
    rw [hi]
    have h2 : (if Pxmcmc.verbose M.par s.i then Pxmcmc.progressArrays M' (A0.reord τ ρ) (s.reord τ ρ) else .ok [] : Py (List Event)) =
        (if Pxmcmc.verbose M.par s.i then Pxmcmc.progressArrays M A0 s else .ok [] : Py (List Event)).map (List.map (Event.reord τ ρ)) := by
      split
      · exact U.progressArrays A0 s
      · rfl
    rw [h2]
    cases (if Pxmcmc.verbose M.par s.i then Pxmcmc.progressArrays M A0 s else .ok [] : Py (List Event)) with
    | error e => rfl
    | ok evs => simp [Except.map, St.reord]

/-! ## PxMALA -/

theorem Reordered.malaPropose (R : Rng) (δ : ℝ) (r : R.σ) (x : Cache) :
    Pxmcmc.malaPropose M' (R.reord τ) δ r (x.reord τ ρ) = (Pxmcmc.malaPropose M R δ r x).map fun q => (q.1.reord τ ρ, q.2) := by
  unfold Pxmcmc.malaPropose
  simp only [Cache.reord]
  have h := U.chainStep R δ r x.X x.proxf x.gradg
  rw [h]
  cases Pxmcmc.chainStep M R δ r x.X x.proxf x.gradg with
  | error e => rfl
  | ok xr =>
    simp only [Except.map, bind, Except.bind]
    rw [U.fwd]
    cases M.F.forward xr.1 with
    | error e => rfl
    | ok y =>
      simp only [Except.map]
      rw [U.grad, U.prox, U.logpi]
      cases M.F.calcGradg y with
      | error e => rfl
      | ok g =>
        simp only [Except.map]
        cases M.P.proxf xr.1 with
        | error e => rfl
        | ok q =>
          simp only []
          cases Pxmcmc.logpi M.F M.P M.par.mu xr.1 y <;> rfl

theorem Reordered.calcLogtransition (δ : ℝ) (X1 X2 pf gg : List ℂ) :
    Pxmcmc.calcLogtransition M' δ (reord τ X1) (reord τ X2) (reord τ pf) (reord τ gg) = Pxmcmc.calcLogtransition M δ X1 X2 pf gg := by
  unfold Pxmcmc.calcLogtransition
  rw [npSub_reord, npSub_reord, U.par]
  cases npSub X1 pf with
  | error e => rfl
  | ok d =>
    simp only [Except.map, bind, Except.bind]
    have e1 : ((reord τ d).map fun z => -(z / (M.par.lmda : ℂ))) = reord τ (d.map fun z => -(z / (M.par.lmda : ℂ))) := by
      exact (reord_map τ _ d).symm
    rw [e1, npSub_reord]
    cases npSub (d.map fun z => -(z / (M.par.lmda : ℂ))) gg with
    | error e => rfl
    | ok g =>
      simp only [Except.map]
      cases npSub X2 X1 with
      | error e => rfl
      | ok e =>
        simp only [reord_smul]
        rw [npSub_reord]
        cases npSub e (g.map fun z => ((δ / 2 : ℝ) : ℂ) * z) with
        | error e => rfl
        | ok f =>
          simp only [Except.map]
          rw [sum_reord]

theorem Reordered.malaLogAlpha (δ : ℝ) (x p : Cache) : Pxmcmc.malaLogAlpha M' δ (x.reord τ ρ) (p.reord τ ρ) = Pxmcmc.malaLogAlpha M δ x p := by
  unfold Pxmcmc.malaLogAlpha
  simp only [Cache.reord, U.calcLogtransition]

theorem Reordered.malaTune {R : Rng} (tune : Bool) (st : MalaSt R) :
    Pxmcmc.malaTune M' tune (st.reord τ ρ) = (Pxmcmc.malaTune M tune st).map (MalaSt.reord τ ρ) := by
  unfold Pxmcmc.malaTune tuneDelta
  rw [U.par]
  cases tune
  · rfl
  · simp only [if_true, MalaSt.reord, bind, Except.bind]
    cases pyGet st.acc st.i <;> rfl

theorem Reordered.malaSave {R : Rng} (A0 : Arrays) (accept : Prop) [Decidable accept] (st : MalaSt R) :
    Pxmcmc.malaSave M' (A0.reord τ ρ) accept (st.reord τ ρ) = (Pxmcmc.malaSave M A0 accept st).map (MalaSt.reord τ ρ) := by
  unfold Pxmcmc.malaSave
  rw [U.par]
  by_cases hb : (st.i : ℤ) ≥ M.par.nburn
  · rw [if_pos (show ((st.reord τ ρ).i : ℤ) ≥ M.par.nburn from hb), if_pos hb]
    by_cases ha : thinned M.par st.i ∧ accept
    · rw [if_pos (show thinned M.par (st.reord τ ρ).i ∧ accept from ha), if_pos ha]
      have ht := U.tracking (A0.applyAll st.ev) st.j st.cur.X st.cur.preds st.cur.logpi st.cur.L2 st.cur.prior
      rw [← Arrays.applyAll_reord] at ht
      change (Pxmcmc.tracking M' ((A0.reord τ ρ).applyAll (st.ev.map (Event.reord τ ρ))) st.j (reord τ st.cur.X) (reord ρ st.cur.preds) st.cur.logpi
        st.cur.L2 st.cur.prior >>= _) = _
      rw [ht]
      cases Pxmcmc.tracking M (A0.applyAll st.ev) st.j st.cur.X st.cur.preds st.cur.logpi st.cur.L2 st.cur.prior with
      | error e => rfl
      | ok evs => simp [Except.map, bind, Except.bind, MalaSt.reord, Cache.reord]
    · rw [if_neg (show ¬(thinned M.par (st.reord τ ρ).i ∧ accept) from ha), if_neg ha]
      rfl
  · rw [if_neg (show ¬((st.reord τ ρ).i : ℤ) ≥ M.par.nburn from hb), if_neg hb]
    rfl

theorem Reordered.malaFinish {R : Rng} (st : MalaSt R) : Pxmcmc.malaFinish M' (st.reord τ ρ) = (Pxmcmc.malaFinish M st).reord τ ρ := by
  unfold Pxmcmc.malaFinish
  rw [U.par]
  by_cases hv : Pxmcmc.verbose M.par st.i
  · rw [if_pos (show Pxmcmc.verbose M.par (st.reord τ ρ).i from hv), if_pos hv]
    simp [MalaSt.reord, Cache.reord, Event.reord]
  · rw [if_neg (show ¬Pxmcmc.verbose M.par (st.reord τ ρ).i from hv), if_neg hv]
    simp [MalaSt.reord, Cache.reord]

theorem Reordered.malaBody (R : Rng) (tune : Bool) (A0 : Arrays) (st : MalaSt R) :
    Pxmcmc.malaBody M' (R.reord τ) tune (A0.reord τ ρ) (st.reord τ ρ) = (Pxmcmc.malaBody M R tune A0 st).map (MalaSt.reord τ ρ) := by
  classical
  unfold Pxmcmc.malaBody
  have h := U.malaPropose R st.delta st.rng st.cur
  rw [show (st.reord τ ρ).delta = st.delta from rfl, show (st.reord τ ρ).rng = st.rng from rfl, show (st.reord τ ρ).cur = (st.cur.reord τ ρ) from rfl, h]
  cases Pxmcmc.malaPropose M R st.delta st.rng st.cur with
  | error e => rfl
  | ok pr =>
    simp only [Except.map, bind, Except.bind]
    rw [U.malaLogAlpha]
    cases Pxmcmc.malaLogAlpha M st.delta st.cur pr.1 with
    | error e => rfl
    | ok a =>
      simp only []
      have ht := U.malaTune tune ({ st with
        rng := (R.rand pr.2).2
        cur := if acceptTest (R.rand pr.2).1 a then pr.1 else st.cur
        acc := st.acc ++ [if acceptTest (R.rand pr.2).1 a then 1 else 0] } : MalaSt R)
      have hc : (if acceptTest (R.rand pr.2).1 a then (pr.1.reord τ ρ) else (st.cur.reord τ ρ)) =
          (if acceptTest (R.rand pr.2).1 a then pr.1 else st.cur).reord τ ρ := by split <;> rfl
      change (Except.bind (Pxmcmc.malaTune M' tune (⟨st.i, st.j, (if acceptTest (R.rand pr.2).1 a then (pr.1.reord τ ρ) else (st.cur.reord τ ρ)),
        (R.rand pr.2).2, st.delta, st.acc ++ [if acceptTest (R.rand pr.2).1 a then 1 else 0], st.deltas, st.ev.map (Event.reord τ ρ)⟩ :
        MalaSt (R.reord τ))) fun st2 => Except.bind (Pxmcmc.malaSave M' (A0.reord τ ρ) (acceptTest (R.rand pr.2).1 a) st2) fun st3 =>
        .ok (Pxmcmc.malaFinish M' st3)) = Except.map _ (Except.bind (Pxmcmc.malaTune M tune ({ st with
        rng := (R.rand pr.2).2
        cur := if acceptTest (R.rand pr.2).1 a then pr.1 else st.cur
        acc := st.acc ++ [if acceptTest (R.rand pr.2).1 a then 1 else 0] } : MalaSt R)) fun st2 =>
        Except.bind (Pxmcmc.malaSave M A0 (acceptTest (R.rand pr.2).1 a) st2) fun st3 => .ok (Pxmcmc.malaFinish M st3))
      rw [hc]
      change Except.bind (Pxmcmc.malaTune M' tune ((MalaSt.reord τ ρ) ({ st with
        rng := (R.rand pr.2).2
        cur := if acceptTest (R.rand pr.2).1 a then pr.1 else st.cur
        acc := st.acc ++ [if acceptTest (R.rand pr.2).1 a then 1 else 0] } : MalaSt R))) _ = _
      rw [ht]
      cases Pxmcmc.malaTune M tune ({ st with
        rng := (R.rand pr.2).2
        cur := if acceptTest (R.rand pr.2).1 a then pr.1 else st.cur
        acc := st.acc ++ [if acceptTest (R.rand pr.2).1 a then 1 else 0] } : MalaSt R) with
      | error e => rfl
      | ok s2 =>
        simp only [Except.map, Except.bind]
        rw [U.malaSave]
        cases Pxmcmc.malaSave M A0 (acceptTest (R.rand pr.2).1 a) s2 with
        | error e => rfl
        | ok s3 =>
          simp only [Except.map]
          rw [U.malaFinish]

end

end Pxmcmc
