import Verif.Model.Units
import Verif.Props.Forward

/-! # Change of units: the steps of the samplers -/

namespace Pxmcmc
variable {n : ℕ}

/-! ## Arrays -/

theorem exMap_bind {α β γ : Type _} (f : α → β) (x : Py α) (g : β → Py γ) : (x.map f).bind g = x.bind fun a => g (f a) := by
  cases x <;> rfl

theorem exBind_map {α β γ : Type _} (x : Py α) (g : α → Py β) (f : β → γ) : (x.bind g).map f = x.bind fun a => (g a).map f := by
  cases x <;> rfl

theorem exMap_map {α β γ : Type _} (x : Py α) (f : α → β) (g : β → γ) : (x.map f).map g = x.map fun a => g (f a) := by
  cases x <;> rfl

theorem bcast_map {α β α' β' : Type _} (f : α → α') (g : β → β') (x : List α) (y : List β) :
    bcast (x.map f) (y.map g) = (bcast x y).map (List.map (Prod.map f g)) := by
  unfold bcast
  simp only [List.length_map]
  split
  · simp [Except.map, List.zip_map]
  · rcases x with _ | ⟨a, _ | ⟨a', x⟩⟩ <;> rcases y with _ | ⟨b, _ | ⟨b', y⟩⟩ <;> simp_all [Except.map, Prod.map]

theorem sc_length (c : ℝ) (l : List ℂ) : (sc c l).length = l.length := by simp [sc]

theorem sc_sc (a b : ℝ) (l : List ℂ) : sc a (sc b l) = sc (a * b) l := by
  simp only [sc, List.map_map, Function.comp_def]
  refine List.map_congr_left fun z _ => ?_
  push_cast; ring

theorem sc_one (l : List ℂ) : sc 1 l = l := by simp [sc]

theorem sc_ofFn (c : ℝ) {k : ℕ} (v : Fin k → ℂ) : sc c (List.ofFn v) = List.ofFn fun i => (c : ℂ) * v i := by
  simp [sc, List.map_ofFn, Function.comp_def]

theorem npAdd_sc (c : ℝ) (x y : List ℂ) : npAdd (sc c x) (sc c y) = (npAdd x y).map (sc c) := by
  unfold npAdd sc
  rw [bcast_map]
  cases bcast x y with
  | error e => rfl
  | ok l =>
    simp only [Except.map, bind, Except.bind, List.map_map, Function.comp_def, Prod.map]
    refine congrArg _ (List.map_congr_left fun z _ => ?_)
    ring

theorem npSub_sc (c : ℝ) (x y : List ℂ) : npSub (sc c x) (sc c y) = (npSub x y).map (sc c) := by
  unfold npSub sc
  rw [bcast_map]
  cases bcast x y with
  | error e => rfl
  | ok l =>
    simp only [Except.map, bind, Except.bind, List.map_map, Function.comp_def, Prod.map]
    refine congrArg _ (List.map_congr_left fun z _ => ?_)
    ring

theorem matDot_sc {r k : ℕ} (a b : ℝ) (A : Matrix (Fin r) (Fin k) ℂ) (X : List ℂ) :
    matDot ((a : ℂ) • A) (sc b X) = (matDot A X).map (sc (a * b)) := by
  unfold matDot
  simp only [sc_length]
  split
  · rename_i h
    simp only [Except.map, sc_ofFn]
    congr 2
    funext i
    simp only [Matrix.mulVec, dotProduct, Matrix.smul_apply, smul_eq_mul, Finset.mul_sum]
    refine Finset.sum_congr rfl fun j _ => ?_
    simp only [sc, Fin.getElem_fin, List.getElem_map]
    push_cast; ring
  · rfl

theorem npVdot_sc (a b : ℝ) (x y : List ℂ) : npVdot (sc a x) (sc b y) = (npVdot x y).map fun z => ((a * b : ℝ) : ℂ) * z := by
  unfold npVdot
  simp only [sc_length]
  split
  · simp only [Except.map, sc, List.zip_map, List.map_map, Function.comp_def, Prod.map, ← List.sum_map_mul_left]
    congr 2
    refine List.map_congr_left fun z _ => ?_
    rw [map_mul, Complex.conj_ofReal]
    push_cast; ring
  · rfl

theorem softEntry_units {c : ℝ} (hc : 0 < c) (z : ℂ) (t : ℝ) : softEntry ((c : ℂ) * z) (c * t) = (c : ℂ) * softEntry z t := by
  have hn : ‖(c : ℂ) * z‖ = c * ‖z‖ := by rw [norm_mul, Complex.norm_real, Real.norm_eq_abs, abs_of_pos hc]
  unfold softEntry signEntry
  simp only [hn]
  by_cases h0 : ‖z‖ = 0
  · have hz : z = 0 := norm_eq_zero.mp h0
    subst hz
    simp
  · have h1 : c * ‖z‖ ≠ 0 := mul_ne_zero hc.ne' h0
    simp only [h0, h1, if_false, mul_le_mul_iff_right₀ hc]
    split
    · simp
    · have h2 : (‖z‖ : ℂ) ≠ 0 := by exact_mod_cast h0
      have h3 : (c : ℂ) ≠ 0 := by exact_mod_cast hc.ne'
      have : (RCLike.ofReal (c * ‖z‖) : ℂ) = (c : ℂ) * (‖z‖ : ℂ) := by rw [← Complex.ofReal_mul]; rfl
      rw [this]
      have e1 : (RCLike.ofReal ‖z‖ : ℂ) = (‖z‖ : ℂ) := rfl
      have e2 : (RCLike.ofReal (c * ‖z‖ - c * t) : ℂ) = (c : ℂ) * ((‖z‖ - t : ℝ) : ℂ) := by
        rw [← Complex.ofReal_mul, ← mul_sub]; rfl
      have e3 : (RCLike.ofReal (‖z‖ - t) : ℂ) = ((‖z‖ - t : ℝ) : ℂ) := rfl
      rw [e1, e2, e3]
      field_simp

theorem soft_units {c : ℝ} (hc : 0 < c) (X : List ℂ) (T : Thresh) : soft (sc c X) (T.units c) = (soft X T).map (sc c) := by
  have hT : (T.units c).arr = T.arr.map fun t => c * t := by cases T <;> rfl
  unfold soft
  rw [hT]
  unfold sc
  rw [bcast_map]
  cases bcast X T.arr with
  | error e => rfl
  | ok l =>
    simp only [Except.map, bind, Except.bind, List.map_map, Function.comp_def, Prod.map]
    refine congrArg _ (List.map_congr_left fun z _ => ?_)
    exact softEntry_units hc _ _

/-! ## The relation between the two samplers -/

/-- The sampler `M'` is `M` in other units: `c` times smaller for the parameters, `d` times smaller for the data. -/
structure UnitChange (c d : ℝ) (M M' : Sampler n) : Prop where
  fwd : ∀ X, M'.F.forward (sc c X) = (M.F.forward X).map (sc d)
  grad : ∀ Y, M'.F.calcGradg (sc d Y) = (M.F.calcGradg Y).map (sc c⁻¹)
  prox : ∀ X, M'.P.proxf (sc c X) = (M.P.proxf X).map (sc c)
  prior : ∀ X, M'.P.prior (sc c X) = (M.P.prior X).map fun v => c * v
  data : M'.F.data.vals = fun i => (d : ℂ) * M.F.data.vals i
  invcov : M'.F.invcov = (((d ^ 2)⁻¹ : ℝ) : ℂ) • M.F.invcov
  par : M'.par = M.par.units c
  nparams : M'.nparams = M.nparams

section
variable {c d : ℝ} {M M' : Sampler n} (hc : 0 < c) (hd : 0 < d) (U : UnitChange c d M M')
include hc hd U

theorem UnitChange.logpi (X Y : List ℂ) : Pxmcmc.logpi M'.F M'.P M'.par.mu (sc c X) (sc d Y) =
    (Pxmcmc.logpi M.F M.P M.par.mu X Y).map fun l => (l.1, l.2.1, c * l.2.2) := by
  unfold Pxmcmc.logpi
  have h1 : (List.ofFn M'.F.data.vals) = sc d (List.ofFn M.F.data.vals) := by rw [sc_ofFn, U.data]
  rw [h1, npSub_sc, U.invcov]
  cases npSub (List.ofFn M.F.data.vals) Y with
  | error e => rfl
  | ok diff =>
    simp only [Except.map, bind, Except.bind]
    rw [matDot_sc]
    cases matDot M.F.invcov diff with
    | error e => rfl
    | ok wd =>
      simp only [Except.map]
      rw [npVdot_sc]
      cases npVdot diff wd with
      | error e => rfl
      | ok L2 =>
        simp only [Except.map]
        rw [U.prior]
        cases M.P.prior X with
        | error e => rfl
        | ok v =>
          have e1 : d * ((d ^ 2)⁻¹ * d) = 1 := by field_simp
          have e2 : -M'.par.mu * (c * v) = -M.par.mu * v := by
            rw [U.par]; simp only [Params.units]; field_simp
          simp only [Except.map, e1, e2, Complex.ofReal_one, one_mul]

omit hd in
theorem UnitChange.chainStep (R : Rng) (δ : ℝ) (r : R.σ) (X pf gg : List ℂ) :
    Pxmcmc.chainStep M' R (c ^ 2 * δ) r (sc c X) (sc c pf) (sc c⁻¹ gg) =
      (Pxmcmc.chainStep M R δ r X pf gg).map fun xr => (sc c xr.1, xr.2) := by
  have hcc : M'.par.complex = M.par.complex := by rw [U.par]; rfl
  have hl : M'.par.lmda = c ^ 2 * M.par.lmda := by rw [U.par]; rfl
  have hc2 : c ^ 2 ≠ 0 := by positivity
  have hq : pyDiv (c ^ 2 * δ) (c ^ 2 * M.par.lmda) = pyDiv δ M.par.lmda := by
    unfold pyDiv
    simp only [mul_eq_zero, hc2, false_or]
    split
    · rfl
    · rw [mul_div_mul_left _ _ hc2]
  have hsq : √(2 * (c ^ 2 * δ)) = c * √(2 * δ) := by
    rw [show 2 * (c ^ 2 * δ) = c ^ 2 * (2 * δ) by ring, Real.sqrt_mul (sq_nonneg c), Real.sqrt_sq hc.le]
  have hk : ∀ (k : ℂ) (l : List ℂ), (sc c l).map (fun z => k * z) = sc c (l.map fun z => k * z) := by
    intro k l
    simp only [sc, List.map_map, Function.comp_def]
    exact List.map_congr_left fun z _ => by ring
  have hg : ∀ l : List ℂ, (sc c⁻¹ l).map (fun z => ((c ^ 2 * δ : ℝ) : ℂ) * z) = sc c (l.map fun z => (δ : ℂ) * z) := by
    intro l
    have h3 : (c : ℂ) ≠ 0 := by exact_mod_cast hc.ne'
    simp only [sc, List.map_map, Function.comp_def]
    refine List.map_congr_left fun z _ => ?_
    push_cast; field_simp
  have hw : ∀ l : List ℂ, (l.map fun z => ((c * √(2 * δ) : ℝ) : ℂ) * z) = sc c (l.map fun z => ((√(2 * δ) : ℝ) : ℂ) * z) := by
    intro l
    simp only [sc, List.map_map, Function.comp_def]
    refine List.map_congr_left fun z _ => ?_
    push_cast; ring
  unfold Pxmcmc.chainStep
  rw [hcc, U.nparams, hl, hq, hsq]
  cases noise R R.randn M.par.complex r M.nparams with
  | mk w r1 =>
  simp only [bind, Except.bind]
  cases pyDiv δ M.par.lmda with
  | error e => rfl
  | ok q =>
    simp only [hk, hg, hw]
    rw [npAdd_sc]
    cases npAdd (X.map fun z => ((1 - q : ℝ) : ℂ) * z) (pf.map fun z => ((q : ℝ) : ℂ) * z) with
    | error e => rfl
    | ok a =>
      simp only [Except.map]
      rw [npSub_sc]
      cases npSub a (gg.map fun z => (δ : ℂ) * z) with
      | error e => rfl
      | ok b =>
        simp only [Except.map]
        rw [npAdd_sc]
        cases npAdd b (w.map fun z => ((√(2 * δ) : ℝ) : ℂ) * z) <;> rfl

omit hd in
theorem UnitChange.myulaStep (R : Rng) (x : Cur R) : Pxmcmc.myulaStep M' R (x.units c d) = (Pxmcmc.myulaStep M R x).map (Cur.units c d) := by
  have hδ : M'.par.delta = c ^ 2 * M.par.delta := by rw [U.par]; rfl
  unfold Pxmcmc.myulaStep
  simp only [Cur.units]
  rw [U.grad, U.prox, hδ]
  cases M.F.calcGradg x.preds with
  | error e => rfl
  | ok gg =>
    simp only [Except.map, bind, Except.bind]
    cases M.P.proxf x.X with
    | error e => rfl
    | ok pf =>
      simp only []
      rw [UnitChange.chainStep hc U]
      cases Pxmcmc.chainStep M R M.par.delta x.rng x.X pf gg with
      | error e => rfl
      | ok xr =>
        simp only [Except.map]
        rw [U.fwd]
        cases M.F.forward xr.1 <;> rfl

omit hc hd in
theorem UnitChange.initialSample (R : Rng) (r : R.σ) (v : List ℂ) :
    Pxmcmc.initialSample M' R r (.array1 (sc c v)) =
      (Pxmcmc.initialSample M R r (.array1 v)).map fun x => (sc c x.1, sc d x.2.1, x.2.2) := by
  unfold Pxmcmc.initialSample startVector
  simp only [sc_length, U.nparams]
  split
  · simp only [bind, Except.bind]
    rw [U.fwd]
    cases M.F.forward v <;> rfl
  · rfl

end

/-! ## Bookkeeping -/

theorem Arrays.apply_units (c d : ℝ) (A : Arrays) (e : Event) : (A.units c d).apply (e.units c d) = (A.apply e).units c d := by
  cases e <;> simp [Arrays.apply, Arrays.units, Event.units, Option.map_map, Function.comp_def, List.map_set]

theorem Arrays.applyAll_units (c d : ℝ) (A : Arrays) (ev : List Event) :
    (A.units c d).applyAll (ev.map (Event.units c d)) = (A.applyAll ev).units c d := by
  unfold Arrays.applyAll
  induction ev generalizing A with
  | nil => rfl
  | cons e ev ih => rw [List.map_cons, List.foldl_cons, List.foldl_cons, Arrays.apply_units, ih]

theorem initArrays_units (c d : ℝ) (M M' : Sampler n) (hp : M'.par = M.par.units c) (hn : M'.nparams = M.nparams) :
    initArrays M' = (initArrays M).units c d := by
  unfold initArrays Arrays.units
  simp only [hp, hn, Params.units]
  congr 1 <;> split <;> simp [sc]

theorem store_scale (cplx : Bool) (c : ℝ) (z : ℂ) : store cplx ((c : ℂ) * z) = (c : ℂ) * store cplx z := by
  unfold store
  split
  · rfl
  · simp

theorem rowAssign_sc (w : ℕ) (c : ℝ) (v : List ℂ) : rowAssign w (sc c v) = (rowAssign w v).map (sc c) := by
  unfold rowAssign
  rw [sc_length]
  split
  · rfl
  · rcases v with _ | ⟨a, _ | ⟨b, v⟩⟩ <;> simp [sc, Except.map]

theorem writeRow_sc (o : Option (List (List ℂ))) (a c d : ℝ) (w : ℕ) (cplx : Bool) (j : ℕ) (v : List ℂ) (e : List ℂ → Event)
    (he : ∀ r, (e r).units c d = e (sc a r)) :
    writeRow (o.map fun l => l.map (sc a)) w cplx j (sc a v) e = (writeRow o w cplx j v e).map (List.map (Event.units c d)) := by
  cases o with
  | none => rfl
  | some l =>
    simp only [writeRow, Option.map_some, List.length_map]
    split
    · rw [rowAssign_sc]
      cases rowAssign w v with
      | error e => rfl
      | ok r =>
        simp only [Except.map, bind, Except.bind, List.map_cons, List.map_nil, he]
        simp only [sc, List.map_map, Function.comp_def, store_scale]
    · rfl

theorem writeScalar_units (o o' : Option (List ℝ)) (c d : ℝ) (j : ℕ) (e : Event) (ho : o'.map List.length = o.map List.length) :
    writeScalar o' j (e.units c d) = (writeScalar o j e).map (List.map (Event.units c d)) := by
  cases o with
  | none => cases o' with
    | none => rfl
    | some l => simp at ho
  | some l => cases o' with
    | none => simp at ho
    | some l' =>
      simp only [Option.map_some, Option.some.injEq] at ho
      simp only [writeScalar, ho]
      split <;> rfl

section
variable {c d : ℝ} {M M' : Sampler n} (hc : 0 < c) (hd : 0 < d) (U : UnitChange c d M M')
include U

theorem UnitChange.tracking (A : Arrays) (j : ℕ) (X Y : List ℂ) (l l2 : ℂ) (v : ℝ) :
    Pxmcmc.tracking M' (A.units c d) j (sc c X) (sc d Y) l l2 (c * v) =
      (Pxmcmc.tracking M A j X Y l l2 v).map (List.map (Event.units c d)) := by
  have hcc : M'.par.complex = M.par.complex := by rw [U.par]; rfl
  unfold Pxmcmc.tracking
  have h1 := writeScalar_units A.logPi (A.units c d).logPi c d j (.logPi j l.re) rfl
  have h2 := writeScalar_units A.L2s (A.units c d).L2s c d j (.L2 j l2.re) rfl
  have h3 := writeScalar_units A.priors (A.units c d).priors c d j (.prior j v) (by
    cases h : A.priors <;> simp [Arrays.units, h])
  have h4 := writeRow_sc A.preds d c d n false j Y (.preds j) fun r => rfl
  have h5 := writeRow_sc A.chain c c d M.nparams M.par.complex j X (.chain j) fun r => rfl
  simp only [Event.units] at h1 h2 h3
  rw [h1, h2, h3, hcc, U.nparams]
  show (Except.map _ (writeScalar A.logPi j (.logPi j l.re))).bind _ = _
  cases writeScalar A.logPi j (.logPi j l.re) with
  | error e => rfl
  | ok a =>
    simp only [Except.map, bind, Except.bind]
    cases writeScalar A.L2s j (.L2 j l2.re) with
    | error e => rfl
    | ok b =>
      simp only []
      cases writeScalar A.priors j (.prior j v) with
      | error e => rfl
      | ok p =>
        simp only []
        have h4' : writeRow (A.units c d).preds n false j (sc d Y) (.preds j) = _ := h4
        have h5' : writeRow (A.units c d).chain M.nparams M.par.complex j (sc c X) (.chain j) = _ := h5
        rw [h4', h5']
        cases writeRow A.preds n false j Y (.preds j) with
        | error e => rfl
        | ok q =>
          simp only [Except.map]
          cases writeRow A.chain M.nparams M.par.complex j X (.chain j) with
          | error e => rfl
          | ok s => simp

include hc hd in
theorem UnitChange.recordRow {R : Rng} (A0 : Arrays) (st : St R) :
    Pxmcmc.recordRow M' (A0.units c d) (st.units c d) = (Pxmcmc.recordRow M A0 st).map (St.units c d) := by
  unfold Pxmcmc.recordRow
  simp only [St.units, Cur.units]
  rw [UnitChange.logpi hc hd U, Arrays.applyAll_units]
  cases Pxmcmc.logpi M.F M.P M.par.mu st.cur.X st.cur.preds with
  | error e => rfl
  | ok l =>
    simp only [Except.map, bind, Except.bind]
    rw [UnitChange.tracking U]
    cases Pxmcmc.tracking M (A0.applyAll st.ev) st.j st.cur.X st.cur.preds l.1 l.2.1 l.2.2 with
    | error e => rfl
    | ok evs => simp [Except.map, St.units, Cur.units]

theorem UnitChange.progressArrays {R : Rng} (A0 : Arrays) (st : St R) :
    Pxmcmc.progressArrays M' (A0.units c d) (st.units c d) = (Pxmcmc.progressArrays M A0 st).map (List.map (Event.units c d)) := by
  have hns : M'.par.nsamples = M.par.nsamples := by rw [U.par]; rfl
  have hget : ∀ (l : List ℝ) (k : ℤ), pyGet (l.map fun v => c * v) k = (pyGet l k).map fun v => c * v := by
    intro l k
    unfold pyGet
    simp only [List.length_map, List.getElem?_map]
    by_cases hk : 0 ≤ (if k < 0 then (l.length : ℤ) + k else k)
    · simp only [hk, if_true]
      cases l[(if k < 0 then (l.length : ℤ) + k else k).toNat]? <;> rfl
    · simp only [hk, if_false]
      rfl
  unfold Pxmcmc.progressArrays
  simp only [St.units]
  rw [Arrays.applyAll_units, hns]
  set A := A0.applyAll st.ev
  show (attrArr A.logPi).bind _ = ((attrArr A.logPi).bind _).map _
  cases attrArr A.logPi with
  | error e => rfl
  | ok lp =>
    simp only [bind, Except.bind]
    cases pyGet lp ((st.j : ℤ) - 1) with
    | error e => rfl
    | ok a =>
      simp only []
      rw [show (A.units c d).L2s = A.L2s from rfl]
      cases attrArr A.L2s with
      | error e => rfl
      | ok l2 =>
        simp only []
        cases pyGet l2 ((st.j : ℤ) - 1) with
        | error e => rfl
        | ok b =>
          simp only [Arrays.units]
          cases A.priors with
          | none => rfl
          | some ps =>
            simp only [Option.map_some, attrArr, hget]
            cases pyGet ps ((st.j : ℤ) - 1) with
            | error e => rfl
            | ok v => simp [Except.map, Event.units]

theorem UnitChange.verbose (i : ℕ) : verbose M'.par i ↔ verbose M.par i := by rw [U.par]; rfl

theorem UnitChange.thinned (i : ℕ) : thinned M'.par i ↔ thinned M.par i := by rw [U.par]; rfl

include hc hd in
theorem UnitChange.myulaBook {R : Rng} (A0 : Arrays) (st : St R) :
    Pxmcmc.myulaBook M' (A0.units c d) (st.units c d) = (Pxmcmc.myulaBook M A0 st).map (St.units c d) := by
  have hnb : M'.par.nburn = M.par.nburn := by rw [U.par]; rfl
  unfold Pxmcmc.myulaBook
  have hi : (st.units c d).i = st.i := rfl
  simp only [hi, hnb, UnitChange.thinned U, UnitChange.verbose U]
  split
  · have h1 : (if Pxmcmc.thinned M.par st.i then Pxmcmc.recordRow M' (A0.units c d) (st.units c d) else .ok (st.units c d) : Py (St R)) =
        (if Pxmcmc.thinned M.par st.i then Pxmcmc.recordRow M A0 st else .ok st : Py (St R)).map (St.units c d) := by
      split
      · exact UnitChange.recordRow hc hd U A0 st
      · rfl
    rw [h1]
    cases (if Pxmcmc.thinned M.par st.i then Pxmcmc.recordRow M A0 st else .ok st : Py (St R)) with
    | error e => rfl
    | ok s =>
      simp only [Except.map, bind, Except.bind]
      have hi : (s.units c d).i = s.i := rfl
      rw [hi]
      have h2 : (if Pxmcmc.verbose M.par s.i then Pxmcmc.progressArrays M' (A0.units c d) (s.units c d) else .ok [] : Py (List Event)) =
          (if Pxmcmc.verbose M.par s.i then Pxmcmc.progressArrays M A0 s else .ok [] : Py (List Event)).map (List.map (Event.units c d)) := by
        split
        · exact UnitChange.progressArrays U A0 s
        · rfl
      rw [h2]
      cases (if Pxmcmc.verbose M.par s.i then Pxmcmc.progressArrays M A0 s else .ok [] : Py (List Event)) with
      | error e => rfl
      | ok evs => simp [Except.map, St.units]
  · simp only [Except.map, St.units, List.map_append]
    congr 3
    split <;> rfl

include hc hd in
theorem UnitChange.skrockBook {R : Rng} (A0 : Arrays) (st : St R) :
    Pxmcmc.skrockBook M' (A0.units c d) (st.units c d) = (Pxmcmc.skrockBook M A0 st).map (St.units c d) := by
  have hnb : M'.par.nburn = M.par.nburn := by rw [U.par]; rfl
  unfold Pxmcmc.skrockBook
  have hi : (st.units c d).i = st.i := rfl
  simp only [hi, hnb, UnitChange.thinned U, UnitChange.verbose U]
  have h1 : (if (st.i : ℤ) ≥ M.par.nburn then
        (if Pxmcmc.thinned M.par st.i then Pxmcmc.recordRow M' (A0.units c d) (st.units c d) else .ok (st.units c d))
      else .ok (st.units c d) : Py (St R)) =
      (if (st.i : ℤ) ≥ M.par.nburn then (if Pxmcmc.thinned M.par st.i then Pxmcmc.recordRow M A0 st else .ok st)
      else .ok st : Py (St R)).map (St.units c d) := by
    split
    · split
      · exact UnitChange.recordRow hc hd U A0 st
      · rfl
    · rfl
  rw [h1]
  cases (if (st.i : ℤ) ≥ M.par.nburn then (if Pxmcmc.thinned M.par st.i then Pxmcmc.recordRow M A0 st else .ok st)
      else .ok st : Py (St R)) with
  | error e => rfl
  | ok s =>
    simp only [Except.map, bind, Except.bind]
    have hi : (s.units c d).i = s.i := rfl
    rw [hi]
    have h2 : (if Pxmcmc.verbose M.par s.i then Pxmcmc.progressArrays M' (A0.units c d) (s.units c d) else .ok [] : Py (List Event)) =
        (if Pxmcmc.verbose M.par s.i then Pxmcmc.progressArrays M A0 s else .ok [] : Py (List Event)).map (List.map (Event.units c d)) := by
      split
      · exact UnitChange.progressArrays U A0 s
      · rfl
    rw [h2]
    cases (if Pxmcmc.verbose M.par s.i then Pxmcmc.progressArrays M A0 s else .ok [] : Py (List Event)) with
    | error e => rfl
    | ok evs => simp [Except.map, St.units]

end

/-! ## Loops -/

/-- A loop whose body commutes with a map of states. -/
theorem whileFuel_sim {σ τ : Type _} (f : σ → τ) (cond : σ → Bool) (cond' : τ → Bool) (body : σ → Py σ) (body' : τ → Py τ)
    (hcond : ∀ s, cond' (f s) = cond s) (hbody : ∀ s, body' (f s) = (body s).map f) (fuel : ℕ) (s : σ) :
    whileFuel cond' body' fuel (f s) = (whileFuel cond body fuel s).map (Option.map f) := by
  induction fuel generalizing s with
  | zero =>
    simp only [whileFuel, hcond]
    split <;> rfl
  | succ k ih =>
    simp only [whileFuel, hcond]
    split
    · rw [hbody]
      cases body s with
      | error e => rfl
      | ok s' => exact ih s'
    · rfl

end Pxmcmc
