import Verif.Lemmas.Loop
import Verif.Model.Sampler
import Verif.Props.Measurements

/-! # Schedule and bookkeeping of the samplers -/

namespace Pxmcmc

/-! ## Counting saved iterations -/

/-- The number of saved iterations before iteration `i`, for burn-in `b` and spacing `g`. -/
def cnt (b g i : ℕ) : ℕ := (i - b + (g - 1)) / g

theorem cnt_zero (b g : ℕ) : cnt b g 0 = 0 := by
  unfold cnt
  rcases Nat.eq_zero_or_pos g with rfl | hg
  · simp
  · exact Nat.div_eq_of_lt (by omega)

theorem cnt_saved (b g i : ℕ) (hg : 0 < g) (h1 : b ≤ i) (h2 : g ∣ i - b) :
    cnt b g (i + 1) = cnt b g i + 1 ∧ i = b + cnt b g i * g := by
  obtain ⟨q, hq⟩ := h2
  have e1 : cnt b g i = q := by
    unfold cnt
    rw [hq, Nat.mul_comm, Nat.add_comm, Nat.add_mul_div_right _ _ hg, Nat.div_eq_of_lt (by omega)]
    omega
  have e2 : cnt b g (i + 1) = q + 1 := by
    unfold cnt
    rw [show i + 1 - b + (g - 1) = (q + 1) * g by rw [Nat.add_mul, Nat.mul_comm q, ← hq]; omega]
    exact Nat.mul_div_cancel _ hg
  refine ⟨by omega, ?_⟩
  rw [e1, Nat.mul_comm, ← hq]
  omega

theorem cnt_not_saved (b g i : ℕ) (hg : 0 < g) (h : ¬ (b ≤ i ∧ g ∣ i - b)) : cnt b g (i + 1) = cnt b g i := by
  unfold cnt
  rcases Nat.lt_or_ge i b with hb | hb
  · rw [show i + 1 - b = 0 by omega, show i - b = 0 by omega]
  · have hd : ¬ g ∣ i - b := fun hd => h ⟨hb, hd⟩
    have hg1 : 1 < g := by
      rcases Nat.lt_or_ge 1 g with h1 | h1
      · exact h1
      · obtain rfl : g = 1 := by omega
        exact absurd (Nat.one_dvd _) hd
    have hr : 0 < (i - b) % g := Nat.pos_of_ne_zero fun h0 => hd (Nat.dvd_of_mod_eq_zero h0)
    have hlt := Nat.mod_lt (i - b) hg
    have hdm := Nat.div_add_mod (i - b) g
    generalize hQ : (i - b) / g = q at *
    generalize hR : (i - b) % g = r at *
    have e : i - b = q * g + r := by rw [Nat.mul_comm]; omega
    have key : ∀ t, t < g → (q * g + (g + t)) / g = q + 1 := by
      intro t ht
      rw [show q * g + (g + t) = t + (q + 1) * g by rw [Nat.add_mul]; omega, Nat.add_mul_div_right _ _ hg,
        Nat.div_eq_of_lt ht]
      omega
    rw [show i + 1 - b + (g - 1) = q * g + (g + r) by omega, show i - b + (g - 1) = q * g + (g + (r - 1)) by omega,
      key r hlt, key (r - 1) (by omega)]

theorem cnt_mono (b g : ℕ) {i k : ℕ} (h : i ≤ k) : cnt b g i ≤ cnt b g k := by
  unfold cnt
  exact Nat.div_le_div_right (by omega)

/-- The documented number of iterations. -/
def numIter (ns b g : ℕ) : ℕ := if ns = 0 then 0 else b + (ns - 1) * g + 1

theorem cnt_numIter (ns b g : ℕ) (hg : 0 < g) : cnt b g (numIter ns b g) = ns := by
  unfold numIter
  split
  · subst_vars; exact cnt_zero b g
  · unfold cnt
    rw [show b + (ns - 1) * g + 1 - b + (g - 1) = ((ns - 1) + 1) * g by rw [Nat.add_mul]; omega]
    rw [Nat.mul_div_cancel _ hg]
    omega

theorem cnt_lt_of_lt (ns b g m : ℕ) (hg : 0 < g) (h : m < numIter ns b g) : cnt b g m < ns := by
  unfold numIter at h
  split at h
  · omega
  · have : cnt b g m ≤ cnt b g (b + (ns - 1) * g) := cnt_mono b g (by omega)
    have e := (cnt_saved b g (b + (ns - 1) * g) hg (by omega)
      (by rw [Nat.add_sub_cancel_left]; exact Dvd.intro_left _ rfl)).1
    have h2 := cnt_numIter ns b g hg
    rw [numIter, if_neg (by omega)] at h2
    omega

theorem lt_numIter_of_cnt (ns b g m : ℕ) (hg : 0 < g) (h : cnt b g m < ns) : m < numIter ns b g := by
  by_contra hc
  have := cnt_mono b g (Nat.le_of_not_lt hc)
  rw [cnt_numIter ns b g hg] at this
  omega

/-! ## Events and arrays -/

/-- Is the event an array write? -/
def Event.isWrite : Event → Bool
  | .logPi .. | .L2 .. | .prior .. | .preds .. | .chain .. => true
  | _ => false

theorem applyAll_append (A : Arrays) (a b : List Event) : A.applyAll (a ++ b) = (A.applyAll a).applyAll b := by
  simp [Arrays.applyAll]

theorem applyAll_filter (A : Arrays) (ev : List Event) : A.applyAll (ev.filter Event.isWrite) = A.applyAll ev := by
  induction ev generalizing A with
  | nil => rfl
  | cons e ev ih =>
    cases e <;> simp only [List.filter_cons, Event.isWrite, if_true, Bool.false_eq_true, if_false, Arrays.applyAll,
      List.foldl_cons] at ih ⊢ <;> exact ih _

/-- The same attributes exist, with the same lengths. -/
structure Arrays.SameShape (A B : Arrays) : Prop where
  logPi : A.logPi.map List.length = B.logPi.map List.length
  L2s : A.L2s.map List.length = B.L2s.map List.length
  priors : A.priors.map List.length = B.priors.map List.length
  preds : A.preds.map List.length = B.preds.map List.length
  chain : A.chain.map List.length = B.chain.map List.length

theorem Arrays.apply_shape (A : Arrays) (e : Event) : (A.apply e).SameShape A := by
  cases e <;> constructor <;> simp [Arrays.apply, Option.map_map, Function.comp_def]

theorem Arrays.applyAll_shape (A : Arrays) (ev : List Event) : (A.applyAll ev).SameShape A := by
  induction ev generalizing A with
  | nil => constructor <;> rfl
  | cons e ev ih =>
    have h1 := ih (A.apply e)
    have h2 := A.apply_shape e
    constructor
    · exact h1.logPi.trans h2.logPi
    · exact h1.L2s.trans h2.L2s
    · exact h1.priors.trans h2.priors
    · exact h1.preds.trans h2.preds
    · exact h1.chain.trans h2.chain

/-- The values recorded for one saved sample. -/
structure Row where
  logPi : ℝ
  L2 : ℝ
  prior : ℝ
  preds : List ℂ
  chain : List ℂ

/-- The events that record a row, for the attributes that exist. -/
def rowEvents (A : Arrays) (k : ℕ) (r : Row) : List Event :=
  (if A.logPi.isSome then [Event.logPi k r.logPi] else []) ++ (if A.L2s.isSome then [Event.L2 k r.L2] else []) ++
  (if A.priors.isSome then [Event.prior k r.prior] else []) ++ (if A.preds.isSome then [Event.preds k r.preds] else []) ++
  (if A.chain.isSome then [Event.chain k r.chain] else [])

theorem isSome_of_map_eq {α β : Type} {a b : Option α} {f : α → β} (h : a.map f = b.map f) : a.isSome = b.isSome := by
  cases a <;> cases b <;> simp_all

theorem rowEvents_shape {A B : Arrays} (h : A.SameShape B) (k : ℕ) (r : Row) : rowEvents A k r = rowEvents B k r := by
  unfold rowEvents
  rw [isSome_of_map_eq h.logPi, isSome_of_map_eq h.L2s, isSome_of_map_eq h.priors, isSome_of_map_eq h.preds,
    isSome_of_map_eq h.chain]

theorem rowEvents_isWrite (A : Arrays) (k : ℕ) (r : Row) : (rowEvents A k r).filter Event.isWrite = rowEvents A k r := by
  rw [List.filter_eq_self]
  intro e he
  unfold rowEvents at he
  simp only [List.mem_append, List.mem_ite_nil_right, List.mem_singleton] at he
  rcases he with (((⟨-, rfl⟩ | ⟨-, rfl⟩) | ⟨-, rfl⟩) | ⟨-, rfl⟩) | ⟨-, rfl⟩ <;> rfl

/-- The list `l` with its first `j` entries replaced by `v`. -/
def overwrite {α : Type} (l : List α) (j : ℕ) (v : ℕ → α) : List α := l.mapIdx fun k x => if k < j then v k else x

theorem overwrite_zero {α : Type} (l : List α) (v : ℕ → α) : overwrite l 0 v = l := by
  apply List.ext_getElem (by simp [overwrite])
  intro k h1 h2
  simp [overwrite]

theorem overwrite_set {α : Type} (l : List α) (j : ℕ) (v : ℕ → α) : (overwrite l j v).set j (v j) =
    overwrite l (j + 1) v := by
  apply List.ext_getElem (by simp [overwrite])
  intro k h1 h2
  simp only [overwrite, List.getElem_set, List.getElem_mapIdx]
  rcases Nat.lt_trichotomy k j with h | h | h
  · rw [if_neg (by omega), if_pos h, if_pos (by omega)]
  · subst h
    rw [if_pos rfl, if_pos (by omega)]
  · rw [if_neg (by omega), if_neg (by omega), if_neg (by omega)]

theorem overwrite_full {α : Type} (l : List α) (j : ℕ) (h : l.length ≤ j) (v : ℕ → α) :
    overwrite l j v = (List.range l.length).map v := by
  apply List.ext_getElem (by simp [overwrite])
  intro k h1 h2
  simp only [overwrite, List.getElem_mapIdx, List.getElem_map, List.getElem_range]
  rw [if_pos (by simp at h2; omega)]

/-- All arrays with their first `j` rows replaced. -/
def Arrays.overwrite (A : Arrays) (j : ℕ) (r : ℕ → Row) : Arrays where
  logPi := A.logPi.map fun l => Pxmcmc.overwrite l j fun k => (r k).logPi
  L2s := A.L2s.map fun l => Pxmcmc.overwrite l j fun k => (r k).L2
  priors := A.priors.map fun l => Pxmcmc.overwrite l j fun k => (r k).prior
  preds := A.preds.map fun l => Pxmcmc.overwrite l j fun k => (r k).preds
  chain := A.chain.map fun l => Pxmcmc.overwrite l j fun k => (r k).chain

theorem overwrite_row (A : Arrays) (j : ℕ) (r : ℕ → Row) :
    (A.overwrite j r).applyAll (rowEvents A j (r j)) = A.overwrite (j + 1) r := by
  rcases A with ⟨a, b, c, d, e⟩
  cases a <;> cases b <;> cases c <;> cases d <;> cases e <;>
    simp [rowEvents, Arrays.overwrite, Arrays.applyAll, Arrays.apply, ← overwrite_set]

/-- Writing the rows one after the other overwrites the arrays. -/
theorem applyAll_rows (A : Arrays) (j : ℕ) (r : ℕ → Row) :
    A.applyAll ((List.range j).flatMap fun (k : ℕ) => rowEvents A k (r k)) = A.overwrite j r := by
  induction j with
  | zero =>
    rcases A with ⟨a, b, c, d, e⟩
    simp [Arrays.applyAll, Arrays.overwrite, overwrite_zero]
  | succ j ih =>
    rw [List.range_succ, List.flatMap_append, applyAll_append, ih]
    simpa using overwrite_row A j r

/-! ## One iteration -/

section
variable {n : ℕ} (M : Sampler n) {R : Rng} (A0 : Arrays)

/-- The stored values of a sample with log-posterior triple `l`. -/
noncomputable def mkRow (X preds : List ℂ) (l : ℂ × ℂ × ℝ) : Row where
  logPi := l.1.re
  L2 := l.2.1.re
  prior := l.2.2
  preds := match rowAssign n preds with
    | .ok p => p.map (store false)
    | .error _ => []
  chain := match rowAssign M.nparams X with
    | .ok p => p.map (store M.par.complex)
    | .error _ => []

theorem writeScalar_ok {o : Option (List ℝ)} {j : ℕ} {e : Event} {l : List Event} (h : writeScalar o j e = .ok l) :
    l = if o.isSome then [e] else [] := by
  cases o with
  | none => simp only [writeScalar, Except.ok.injEq] at h; simp [← h]
  | some a =>
    simp only [writeScalar] at h
    split at h
    · simp only [Except.ok.injEq] at h; simp [← h]
    · cases h

theorem writeRow_ok {o : Option (List (List ℂ))} {w : ℕ} {c : Bool} {j : ℕ} {v : List ℂ} {e : List ℂ → Event}
    {l : List Event} (h : writeRow o w c j v e = .ok l) :
    l = if o.isSome then [e (match rowAssign w v with | .ok p => p.map (store c) | .error _ => [])] else [] := by
  cases o with
  | none => simp only [writeRow, Except.ok.injEq] at h; simp [← h]
  | some a =>
    simp only [writeRow] at h
    split at h
    · obtain ⟨r, hr, h⟩ := bind_ok h
      simp only [Except.ok.injEq] at h
      simp [← h, hr]
    · cases h

theorem tracking_ok {A : Arrays} {j : ℕ} {X preds : List ℂ} {l : ℂ × ℂ × ℝ} {evs : List Event}
    (h : tracking M A j X preds l.1 l.2.1 l.2.2 = .ok evs) : evs = rowEvents A j (mkRow M X preds l) := by
  unfold tracking at h
  obtain ⟨a, ha, h⟩ := bind_ok h
  obtain ⟨b, hb, h⟩ := bind_ok h
  obtain ⟨c, hc, h⟩ := bind_ok h
  obtain ⟨d, hd, h⟩ := bind_ok h
  obtain ⟨e, he, h⟩ := bind_ok h
  rw [← Except.ok.inj h, writeScalar_ok ha, writeScalar_ok hb, writeScalar_ok hc, writeRow_ok hd, writeRow_ok he]
  rfl

/-- `_tracking` succeeds when the arrays are long enough and the rows have the right width. -/
theorem tracking_total {A : Arrays} {ns j : ℕ} (hj : j < ns)
    (hA : ∀ l ∈ A.logPi, l.length = ns) (hB : ∀ l ∈ A.L2s, l.length = ns) (hC : ∀ l ∈ A.priors, l.length = ns)
    (hD : ∀ l ∈ A.preds, l.length = ns) (hE : ∀ l ∈ A.chain, l.length = ns) (X preds : List ℂ)
    (hX : X.length = M.nparams) (hp : preds.length = n) (l : ℂ × ℂ × ℝ) :
    ∃ evs, tracking M A j X preds l.1 l.2.1 l.2.2 = .ok evs := by
  have hs : ∀ (o : Option (List ℝ)) e, (∀ l ∈ o, l.length = ns) → ∃ r, writeScalar o j e = .ok r := by
    intro o e ho
    cases o with
    | none => exact ⟨_, rfl⟩
    | some a => exact ⟨[e], by simp [writeScalar, ho a rfl, hj]⟩
  have hr : ∀ (o : Option (List (List ℂ))) w c v e, (∀ l ∈ o, l.length = ns) → v.length = w →
      ∃ r, writeRow o w c j v e = .ok r := by
    intro o w c v e ho hv
    cases o with
    | none => exact ⟨_, rfl⟩
    | some a => exact ⟨[e (v.map (store c))], by simp [writeRow, ho a rfl, hj, rowAssign, hv, bind, Except.bind]⟩
  obtain ⟨a, ha⟩ := hs _ (.logPi j l.1.re) hA
  obtain ⟨b, hb⟩ := hs _ (.L2 j l.2.1.re) hB
  obtain ⟨c, hc⟩ := hs _ (.prior j l.2.2) hC
  obtain ⟨d, hd⟩ := hr _ n false preds (.preds j) hD hp
  obtain ⟨e, he⟩ := hr _ M.nparams M.par.complex X (.chain j) hE hX
  exact ⟨_, by unfold tracking; rw [ha, hb, hc, hd, he]; rfl⟩

theorem recordRow_ok {st st' : St R} (h : recordRow M A0 st = .ok st') :
    ∃ l, logpi M.F M.P M.par.mu st.cur.X st.cur.preds = .ok l ∧
      st' = { st with ev := st.ev ++ rowEvents A0 st.j (mkRow M st.cur.X st.cur.preds l), j := st.j + 1 } := by
  unfold recordRow at h
  obtain ⟨l, hl, h⟩ := bind_ok h
  obtain ⟨evs, he, h⟩ := bind_ok h
  refine ⟨l, hl, ?_⟩
  rw [← Except.ok.inj h, tracking_ok M he, rowEvents_shape (A0.applyAll_shape st.ev)]

/-- The common form of the bookkeeping of MYULA and SKROCK; `prog` prints. -/
noncomputable def genBook (prog : St R → Py (List Event)) (st : St R) : Py (St R) := do
  let st ← (if (st.i : ℤ) ≥ M.par.nburn ∧ thinned M.par st.i then recordRow M A0 st else .ok st : Py (St R))
  let evs ← prog st
  .ok { st with ev := st.ev ++ evs, i := st.i + 1 }

/-- What MYULA prints. -/
noncomputable def myulaProg (st : St R) : Py (List Event) :=
  if (st.i : ℤ) ≥ M.par.nburn then (if verbose M.par st.i then progressArrays M A0 st else .ok [])
  else .ok (if verbose M.par st.i then [Event.burning] else [])

/-- What SKROCK prints. -/
noncomputable def skrockProg (st : St R) : Py (List Event) :=
  if verbose M.par st.i then progressArrays M A0 st else .ok []

theorem recordRow_i {st st' : St R} (h : recordRow M A0 st = .ok st') : st'.i = st.i := by
  obtain ⟨l, -, rfl⟩ := recordRow_ok M A0 h
  rfl

theorem myulaBook_eq (st : St R) : myulaBook M A0 st = genBook M A0 (myulaProg M A0) st := by
  unfold myulaBook genBook
  by_cases hb : (st.i : ℤ) ≥ M.par.nburn
  · by_cases ht : thinned M.par st.i
    · simp only [hb, ht, if_true, and_self]
      cases h : recordRow M A0 st with
      | error e => rfl
      | ok st' =>
        simp only [bind, Except.bind, myulaProg]
        rw [recordRow_i M A0 h, if_pos hb]
    · simp only [hb, ht, if_true, if_false, and_false, bind, Except.bind, myulaProg]
  · simp only [hb, if_false, false_and, bind, Except.bind, myulaProg]

theorem skrockBook_eq (st : St R) : skrockBook M A0 st = genBook M A0 (skrockProg M A0) st := by
  unfold skrockBook genBook
  by_cases hb : (st.i : ℤ) ≥ M.par.nburn
  · by_cases ht : thinned M.par st.i
    · simp only [hb, ht, if_true, and_self]
      rfl
    · simp only [hb, ht, if_true, if_false, and_false]
      rfl
  · simp only [hb, if_false, false_and]
    rfl

/-- The common form of the loop bodies. -/
noncomputable def genBody (step : Cur R → Py (Cur R)) (prog : St R → Py (List Event)) (st : St R) : Py (St R) := do
  let c ← step st.cur
  genBook M A0 prog { st with cur := c }

theorem myulaBody_eq : myulaBody M R A0 = genBody M A0 (myulaStep M R) (myulaProg M A0) := by
  funext st
  unfold myulaBody genBody
  simp only [myulaBook_eq]

theorem skrockBody_eq (co : SkrockCoefs) :
    skrockBody M R co A0 = genBody M A0 (skrockTransition M R co) (skrockProg M A0) := by
  funext st
  unfold skrockBody genBody
  simp only [skrockBook_eq]

/-- The spacing between saved iterations. -/
def spacing (par : Params) : ℕ := max par.ngap.natAbs 1

theorem spacing_pos (par : Params) : 0 < spacing par := by unfold spacing; omega

theorem saved_iff (par : Params) (b : ℕ) (hb : par.nburn = b) (i : ℕ) :
    ((i : ℤ) ≥ par.nburn ∧ thinned par i) ↔ (b ≤ i ∧ spacing par ∣ i - b) := by
  unfold thinned spacing
  rw [hb]
  constructor
  · rintro ⟨h1, h2⟩
    have h1' : b ≤ i := by exact_mod_cast h1
    refine ⟨h1', ?_⟩
    rcases h2 with h2 | h2
    · rw [h2]; simp
    · have := Int.dvd_of_fmod_eq_zero h2
      by_cases hz : par.ngap = 0
      · rw [hz]; simp
      · rw [max_eq_left (by omega)]
        rw [← Nat.cast_sub h1', ← Int.natAbs_dvd, Int.natCast_dvd_natCast] at this
        exact this
  · rintro ⟨h1, h2⟩
    refine ⟨by exact_mod_cast h1, ?_⟩
    by_cases hz : par.ngap = 0
    · exact .inl hz
    · right
      rw [max_eq_left (by omega)] at h2
      apply Int.fmod_eq_zero_of_dvd
      rw [← Nat.cast_sub h1, ← Int.natAbs_dvd, Int.natCast_dvd_natCast]
      exact h2

/-- A history of `m` transitions. -/
def Hist (step : Cur R → Py (Cur R)) (c0 : Cur R) (m : ℕ) (T : ℕ → Cur R) : Prop :=
  T 0 = c0 ∧ ∀ k < m, step (T k) = .ok (T (k + 1))

theorem Hist.unique {step : Cur R → Py (Cur R)} {c0 : Cur R} {m : ℕ} {T U : ℕ → Cur R} (h : Hist step c0 m T)
    (h' : Hist step c0 m U) : ∀ k ≤ m, T k = U k := by
  intro k
  induction k with
  | zero => intro _; rw [h.1, h'.1]
  | succ k ih =>
    intro hk
    have h1 := h.2 k (by omega)
    have h2 := h'.2 k (by omega)
    rw [ih (by omega), h2] at h1
    exact (Except.ok.inj h1).symm

/-- What is true at every loop head. -/
def SInv (step : Cur R → Py (Cur R)) (c0 : Cur R) (b m : ℕ) (st : St R) : Prop :=
  st.i = m ∧ st.j = cnt b (spacing M.par) m ∧ ∃ (T : ℕ → Cur R) (rows : ℕ → Row), Hist step c0 m T ∧ st.cur = T m ∧
    (∀ k < st.j, ∃ l, logpi M.F M.P M.par.mu (T (b + k * spacing M.par + 1)).X (T (b + k * spacing M.par + 1)).preds
      = .ok l ∧ rows k = mkRow M (T (b + k * spacing M.par + 1)).X (T (b + k * spacing M.par + 1)).preds l) ∧
    (∀ k < st.j, b + k * spacing M.par + 1 ≤ m) ∧
    st.ev.filter Event.isWrite = (List.range st.j).flatMap fun (k : ℕ) => rowEvents A0 k (rows k)

theorem sinv_init (step : Cur R → Py (Cur R)) (c0 : Cur R) (b : ℕ) : SInv M A0 step c0 b 0 ⟨0, 0, c0, []⟩ := by
  refine ⟨rfl, (cnt_zero _ _).symm, fun _ => c0, fun _ => ⟨0, 0, 0, [], []⟩, ⟨rfl, fun k hk => absurd hk (by omega)⟩, rfl,
    fun k hk => absurd hk (by simp), fun k hk => absurd hk (by simp), rfl⟩

/-- Printing never writes. -/
def NoWrites (prog : St R → Py (List Event)) : Prop :=
  ∀ st evs, prog st = .ok evs → evs.filter Event.isWrite = []

theorem progressArrays_noWrites : NoWrites (progressArrays M (R := R) A0) := by
  intro st evs h
  unfold progressArrays at h
  obtain ⟨_, -, h⟩ := bind_ok h
  obtain ⟨_, -, h⟩ := bind_ok h
  obtain ⟨_, -, h⟩ := bind_ok h
  obtain ⟨_, -, h⟩ := bind_ok h
  obtain ⟨_, -, h⟩ := bind_ok h
  obtain ⟨_, -, h⟩ := bind_ok h
  rw [← Except.ok.inj h]
  rfl

theorem myulaProg_noWrites : NoWrites (myulaProg M (R := R) A0) := by
  intro st evs h
  unfold myulaProg at h
  split at h
  · split at h
    · exact progressArrays_noWrites M A0 st evs h
    · rw [← Except.ok.inj h]; rfl
  · rw [← Except.ok.inj h]
    split <;> rfl

theorem skrockProg_noWrites : NoWrites (skrockProg M (R := R) A0) := by
  intro st evs h
  unfold skrockProg at h
  split at h
  · exact progressArrays_noWrites M A0 st evs h
  · rw [← Except.ok.inj h]; rfl

theorem sinv_step (step : Cur R → Py (Cur R)) (prog : St R → Py (List Event)) (hprog : NoWrites prog) (c0 : Cur R)
    (b : ℕ) (hb : M.par.nburn = b) (m : ℕ) (st st' : St R) (h : SInv M A0 step c0 b m st)
    (hbody : genBody M A0 step prog st = .ok st') : SInv M A0 step c0 b (m + 1) st' := by
  obtain ⟨hi, hj, T, rows, hT, hcur, hrows, hle, hev⟩ := h
  unfold genBody at hbody
  obtain ⟨c, hc, hbody⟩ := bind_ok hbody
  unfold genBook at hbody
  obtain ⟨st1, h1, hbody⟩ := bind_ok hbody
  obtain ⟨evs, he, hbody⟩ := bind_ok hbody
  have hnw := hprog _ _ he
  obtain rfl := Except.ok.inj hbody
  have hg := spacing_pos M.par
  -- the extended history
  have hT' : Hist step c0 (m + 1) (Function.update T (m + 1) c) := by
    refine ⟨by rw [Function.update_of_ne (by omega)]; exact hT.1, fun k hk => ?_⟩
    rw [Function.update_of_ne (by omega)]
    rcases Nat.lt_or_ge k m with hkm | hkm
    · rw [Function.update_of_ne (by omega)]
      exact hT.2 k hkm
    · obtain rfl : k = m := by omega
      rw [Function.update_self, ← hcur]
      exact hc
  have hold : ∀ k, k ≤ m → Function.update T (m + 1) c k = T k := fun k hk =>
    Function.update_of_ne (by omega) _ _
  by_cases hs : (st.i : ℤ) ≥ M.par.nburn ∧ thinned M.par st.i
  · rw [if_pos hs] at h1
    obtain ⟨l, hl, rfl⟩ := recordRow_ok M A0 h1
    have hs' := (saved_iff M.par b hb st.i).mp hs
    rw [hi] at hs'
    obtain ⟨e1, e2⟩ := cnt_saved b (spacing M.par) m hg hs'.1 hs'.2
    rw [← hj] at e1 e2
    refine ⟨by simp [hi], by simp [e1], Function.update T (m + 1) c, Function.update rows st.j (mkRow M c.X c.preds l),
      hT', by rw [Function.update_self], ?_, ?_, ?_⟩
    · intro k hk
      rcases Nat.lt_or_ge k st.j with hkj | hkj
      · obtain ⟨l', h1', h2'⟩ := hrows k hkj
        have := hle k hkj
        rw [hold _ this, Function.update_of_ne (by omega)]
        exact ⟨l', h1', h2'⟩
      · obtain rfl : k = st.j := by simp at hk; omega
        rw [Function.update_self, ← e2, Function.update_self]
        exact ⟨l, hl, rfl⟩
    · intro k hk
      rcases Nat.lt_or_ge k st.j with hkj | hkj
      · have := hle k hkj; omega
      · obtain rfl : k = st.j := by simp at hk; omega
        omega
    · simp only [List.filter_append, hnw, List.append_nil, hev, rowEvents_isWrite]
      rw [List.range_succ, List.flatMap_append]
      congr 1
      · apply List.flatMap_congr
        intro k hk
        rw [Function.update_of_ne (by have := List.mem_range.mp hk; omega)]
      · simp
  · rw [if_neg hs] at h1
    obtain rfl := Except.ok.inj h1
    have hs' : ¬ (b ≤ m ∧ spacing M.par ∣ m - b) := fun hh => hs ((saved_iff M.par b hb st.i).mpr (by rw [hi]; exact hh))
    have e1 := cnt_not_saved b (spacing M.par) m hg hs'
    refine ⟨by simp [hi], by simp [e1, hj], Function.update T (m + 1) c, rows, hT', by rw [Function.update_self],
      ?_, ?_, ?_⟩
    · intro k hk
      obtain ⟨l', h1', h2'⟩ := hrows k hk
      have := hle k hk
      rw [hold _ this]
      exact ⟨l', h1', h2'⟩
    · intro k hk
      have := hle k hk; omega
    · simp only [List.filter_append, hnw, List.append_nil, hev]

/-- Every loop head satisfies the invariant. -/
theorem sinv_reach (step : Cur R → Py (Cur R)) (prog : St R → Py (List Event)) (hprog : NoWrites prog) (c0 : Cur R)
    (b : ℕ) (hb : M.par.nburn = b) (m : ℕ) (st : St R)
    (h : Reach (loopCond M) (genBody M A0 step prog) ⟨0, 0, c0, []⟩ m st) : SInv M A0 step c0 b m st :=
  h.invariant (SInv M A0 step c0 b) (sinv_init M A0 step c0 b)
    fun k s s' hi _ hb' => sinv_step M A0 step prog hprog c0 b hb k s s' hi hb'

/-- The loop never runs longer than documented: with that much fuel it returns or raises. -/
theorem gen_terminates (step : Cur R → Py (Cur R)) (prog : St R → Py (List Event)) (hprog : NoWrites prog) (c0 : Cur R)
    (b : ℕ) (hb : M.par.nburn = b) :
    whileFuel (loopCond M) (genBody M A0 step prog) (numIter M.par.nsamples b (spacing M.par)) ⟨0, 0, c0, []⟩ ≠
      .ok none := by
  intro h
  rcases whileFuel_cases (loopCond M) (genBody M A0 step prog) (numIter M.par.nsamples b (spacing M.par))
      ⟨0, 0, c0, []⟩ with ⟨m, s, -, -, -, hw⟩ | ⟨s, hr, hc, -⟩ | ⟨_, s, e, -, -, -, -, hw⟩
  · rw [hw] at h; cases h
  · have hi := sinv_reach M A0 step prog hprog c0 b hb _ s hr
    have := hi.2.1
    rw [cnt_numIter _ _ _ (spacing_pos _)] at this
    simp [loopCond, this] at hc
  · rw [hw] at h; cases h

/-- If the loop returns, it did so after exactly the documented number of iterations. -/
theorem gen_returns (step : Cur R → Py (Cur R)) (prog : St R → Py (List Event)) (hprog : NoWrites prog) (c0 : Cur R)
    (b : ℕ) (hb : M.par.nburn = b) (fuel : ℕ) (r : St R)
    (h : whileFuel (loopCond M) (genBody M A0 step prog) fuel ⟨0, 0, c0, []⟩ = .ok (some r)) :
    Reach (loopCond M) (genBody M A0 step prog) ⟨0, 0, c0, []⟩ (numIter M.par.nsamples b (spacing M.par)) r ∧
      numIter M.par.nsamples b (spacing M.par) ≤ fuel ∧ r.j = M.par.nsamples := by
  obtain ⟨m, hm, hr, hc⟩ := whileFuel_some h
  have hi := sinv_reach M A0 step prog hprog c0 b hb _ r hr
  have hg := spacing_pos M.par
  have hge : numIter M.par.nsamples b (spacing M.par) ≤ m := by
    by_contra hlt
    have := cnt_lt_of_lt _ b _ m hg (by omega : m < numIter M.par.nsamples b (spacing M.par))
    rw [← hi.2.1] at this
    simp [loopCond] at hc
    omega
  have hle : m ≤ numIter M.par.nsamples b (spacing M.par) := by
    by_contra hgt
    cases hr with
    | refl => omega
    | @step m' s _ hr' hc' hb' =>
      have hi' := sinv_reach M A0 step prog hprog c0 b hb _ s hr'
      have h1 := cnt_mono b (spacing M.par) (show numIter M.par.nsamples b (spacing M.par) ≤ m' by omega)
      rw [cnt_numIter _ _ _ hg, ← hi'.2.1] at h1
      simp [loopCond] at hc'
      omega
  obtain rfl : m = numIter M.par.nsamples b (spacing M.par) := le_antisymm hle hge
  refine ⟨hr, hm, ?_⟩
  rw [hi.2.1, cnt_numIter _ _ _ hg]

/-- If transitions, `logpi`, the row widths and printing never fail, the run returns. -/
theorem gen_total (step : Cur R → Py (Cur R)) (prog : St R → Py (List Event)) (hprog : NoWrites prog) (c0 : Cur R)
    (b : ℕ) (hb : M.par.nburn = b) (Good : Cur R → Prop) (h0 : Good c0)
    (hstep : ∀ c, Good c → ∃ c', step c = .ok c' ∧ Good c')
    (hlog : ∀ c, Good c → ∃ l, logpi M.F M.P M.par.mu c.X c.preds = .ok l)
    (hwid : ∀ c, Good c → c.X.length = M.nparams ∧ c.preds.length = n)
    (hA : ∀ l ∈ A0.logPi, l.length = M.par.nsamples) (hB : ∀ l ∈ A0.L2s, l.length = M.par.nsamples)
    (hC : ∀ l ∈ A0.priors, l.length = M.par.nsamples) (hD : ∀ l ∈ A0.preds, l.length = M.par.nsamples)
    (hE : ∀ l ∈ A0.chain, l.length = M.par.nsamples)
    (hpt : ∀ st : St R, st.j ≤ M.par.nsamples → 0 < M.par.nsamples → ∃ evs, prog st = .ok evs) :
    ∃ r, Reach (loopCond M) (genBody M A0 step prog) ⟨0, 0, c0, []⟩ (numIter M.par.nsamples b (spacing M.par)) r ∧
      r.j = M.par.nsamples := by
  have hg := spacing_pos M.par
  have key := reach_of_progress (cond := loopCond M) (body := genBody M A0 step prog)
    (fun k s => SInv M A0 step c0 b k s ∧ Good s.cur) (numIter M.par.nsamples b (spacing M.par)) ⟨0, 0, c0, []⟩
    ⟨sinv_init M A0 step c0 b, h0⟩ ?_
  · obtain ⟨r, hr, hi, -⟩ := key
    exact ⟨r, hr, by rw [hi.2.1, cnt_numIter _ _ _ hg]⟩
  · intro k s hk ⟨hi, hgood⟩
    have hjk : s.j < M.par.nsamples := by
      rw [hi.2.1]; exact cnt_lt_of_lt _ b _ k hg hk
    refine ⟨by simp [loopCond, hjk], ?_⟩
    obtain ⟨c, hc, hgc⟩ := hstep _ hgood
    have hrec : ∃ st1 : St R, (if (s.i : ℤ) ≥ M.par.nburn ∧ thinned M.par s.i then
        recordRow M A0 { s with cur := c } else .ok { s with cur := c }) = .ok st1 ∧ st1.j ≤ M.par.nsamples ∧
        st1.cur = c := by
      split
      · obtain ⟨l, hl⟩ := hlog c hgc
        have hsh := A0.applyAll_shape s.ev
        have hconv : ∀ {α : Type} (o o' : Option (List α)), o.map List.length = o'.map List.length →
            (∀ l ∈ o', l.length = M.par.nsamples) → ∀ l ∈ o, l.length = M.par.nsamples := by
          intro α o o' ho h l hl
          cases o' with
          | none => cases o <;> simp_all
          | some a =>
            cases o with
            | none => cases hl
            | some a' =>
              simp only [Option.map_some, Option.some.injEq] at ho
              have := h a rfl
              obtain rfl : a' = l := Option.some.inj hl
              omega
        obtain ⟨evs, he⟩ := tracking_total M (A := A0.applyAll s.ev) hjk (hconv _ _ hsh.logPi hA)
          (hconv _ _ hsh.L2s hB) (hconv _ _ hsh.priors hC) (hconv _ _ hsh.preds hD) (hconv _ _ hsh.chain hE) c.X c.preds
          (hwid c hgc).1 (hwid c hgc).2 l
        refine ⟨{ s with cur := c, ev := s.ev ++ evs, j := s.j + 1 }, ?_, by simpa using hjk, rfl⟩
        unfold recordRow
        simp only [hl, bind, Except.bind, he]
      · exact ⟨_, rfl, hjk.le, rfl⟩
    obtain ⟨st1, h1, h2, h3⟩ := hrec
    obtain ⟨evs, he⟩ := hpt st1 h2 (by omega)
    have hbody : genBody M A0 step prog s = .ok { st1 with ev := st1.ev ++ evs, i := st1.i + 1 } := by
      unfold genBody genBook
      rw [hc]
      show ((if (s.i : ℤ) ≥ M.par.nburn ∧ thinned M.par s.i then
        recordRow M A0 { s with cur := c } else .ok { s with cur := c }) >>= _) = _
      rw [h1]
      show (prog st1 >>= _) = _
      rw [he]
      rfl
    exact ⟨_, hbody, sinv_step M A0 step prog hprog c0 b hb k s _ hi hbody, by rw [h3]; exact hgc⟩

end

end Pxmcmc
