import Verif.Model.Missing
import Verif.Props.Averages
import Verif.Props.Denoising
import Verif.Lemmas.MalaRecur
import Mathlib.Logic.Relation

/-! # Property C160: what a missing datum (NaN) does to a MYULA run -/

namespace Pxmcmc
variable {m n : ℕ}

/-! ## The specification -/

/-- The parameters that are NaN after `k` iterations: those that a missing datum depends on, then those that share a datum with them. -/
def Spoilt (uses : Fin m → Fin n → Bool) (missing : Fin m → Prop) : ℕ → Fin n → Prop
  | 0, _ => False
  | k + 1, j => Spoilt uses missing k j ∨ ∃ i, uses i j = true ∧ (missing i ∨ ∃ j', uses i j' = true ∧ Spoilt uses missing k j')

/-! ## Arithmetic with NaN -/

theorem nanOp_some (f : ℝ → ℝ → ℝ) (x y : ℝ) : nanOp f (some x) (some y) = some (f x y) := rfl
theorem nanOp_none_left (f : ℝ → ℝ → ℝ) (b : NanReal) : nanOp f none b = none := rfl
theorem nanOp_none_right (f : ℝ → ℝ → ℝ) (a : NanReal) : nanOp f a none = none := by cases a <;> rfl

theorem nanFold_none (l : List NanReal) : l.foldl (nanOp (· + ·)) none = none := by
  induction l with
  | nil => rfl
  | cons a l ih => exact ih

theorem nanFold_mem (l : List NanReal) (a : NanReal) (h : none ∈ l) : l.foldl (nanOp (· + ·)) a = none := by
  induction l generalizing a with
  | nil => cases h
  | cons b l ih =>
    rcases List.mem_cons.mp h with rfl | h
    · rw [List.foldl_cons, nanOp_none_right, nanFold_none]
    · exact ih _ h

theorem nanFold_some (l : List ℝ) (a : ℝ) : (l.map some).foldl (nanOp (· + ·)) (some a) = some (a + l.sum) := by
  induction l generalizing a with
  | nil => simp
  | cons b l ih =>
    rw [List.map_cons, List.foldl_cons, nanOp_some, ih, List.sum_cons, add_assoc]

theorem nanSum_none (l : List NanReal) (h : none ∈ l) : nanSum l = none := nanFold_mem l _ h

theorem nanSum_some (l : List ℝ) : nanSum (l.map some) = some l.sum := by
  unfold nanSum
  rw [nanFold_some, zero_add]

/-! ## Products with sparse matrices -/

theorem dot_none (A : Stored m n) (X : Fin n → NanReal) (i : Fin m) (j : Fin n) (h : A.has i j = true) (hX : X j = none) :
    A.dot X i = none := by
  refine nanSum_none _ (List.mem_map.mpr ⟨j, List.mem_filter.mpr ⟨List.mem_finRange j, h⟩, ?_⟩)
  rw [hX]
  rfl

theorem dot_congr (A : Stored m n) (X Y : Fin n → NanReal) (i : Fin m) (h : ∀ j, A.has i j = true → X j = Y j) :
    A.dot X i = A.dot Y i := by
  unfold Stored.dot
  congr 1
  refine List.map_congr_left fun j hj => ?_
  rw [h j (by simpa using (List.mem_filter.mp hj).2)]

/-- The matrix with zeros where nothing is stored. -/
def Stored.full (A : Stored m n) (i : Fin m) (j : Fin n) : ℝ := if A.has i j then A.val i j else 0

theorem dot_some (A : Stored m n) (x : Fin n → ℝ) (i : Fin m) : A.dot (fun j => some (x j)) i = some (∑ j, A.full i j * x j) := by
  have h1 : A.dot (fun j => some (x j)) i =
      nanSum ((((List.finRange n).filter fun j => A.has i j).map fun j => A.val i j * x j).map some) := by
    unfold Stored.dot
    rw [List.map_map]
    rfl
  rw [h1, nanSum_some]
  congr 1
  have h2 : ∀ l : List (Fin n), ((l.filter fun j => A.has i j).map fun j => A.val i j * x j).sum = (l.map fun j => A.full i j * x j).sum := by
    intro l
    induction l with
    | nil => rfl
    | cons a l ih =>
      unfold Stored.full at ih ⊢
      by_cases ha : A.has i a = true
      · rw [List.filter_cons_of_pos ha, List.map_cons, List.sum_cons, List.map_cons, List.sum_cons, ih, if_pos ha]
      · rw [List.filter_cons_of_neg ha, List.map_cons, List.sum_cons, ih, if_neg ha, zero_mul, zero_add]
  rw [h2, ← List.ofFn_eq_map, List.sum_ofFn]

theorem dot_eq_none (A : Stored m n) (X : Fin n → NanReal) (i : Fin m) : A.dot X i = none ↔ ∃ j, A.has i j = true ∧ X j = none := by
  constructor
  · intro h
    by_contra hn
    have h1 : A.dot X i = A.dot (fun j => some ((X j).getD 0)) i := by
      refine dot_congr A _ _ i fun j hj => ?_
      cases hX : X j with
      | none => exact absurd ⟨j, hj, hX⟩ hn
      | some x => rfl
    rw [h1, dot_some] at h
    cases h
  · rintro ⟨j, hj, hX⟩
    exact dot_none A X i j hj hX

theorem adj_full (A : Stored m n) (i : Fin m) (j : Fin n) : A.adj.full j i = A.full i j := rfl

/-! ## One step -/

variable (R : Rng) (A : Stored m n) (w : Fin m → ℝ) (t : ℝ) (par : Params)

/-- One iteration on the sample. -/
noncomputable def missNext (d : Fin m → NanReal) (X : Fin n → NanReal) (z : Fin n → ℝ) : Fin n → NanReal :=
  missStep par X (missProxf t X) (missGradg A w d (A.dot X)) z

theorem missNext_none_self (d : Fin m → NanReal) (X : Fin n → NanReal) (z : Fin n → ℝ) (j : Fin n) (h : X j = none) :
    missNext A w t par d X z j = none := by
  unfold missNext missStep missProxf
  simp only [h, Option.map_none, nanOp_none_left]

theorem missNext_none_grad (d : Fin m → NanReal) (X : Fin n → NanReal) (z : Fin n → ℝ) (j : Fin n) (i : Fin m) (hi : A.has i j = true)
    (h : d i = none ∨ ∃ j', A.has i j' = true ∧ X j' = none) : missNext A w t par d X z j = none := by
  have hg : missGradg A w d (A.dot X) j = none := by
    refine dot_none A.adj _ j i hi ?_
    rcases h with h | ⟨j', hj', hX⟩
    · rw [h, nanOp_none_right]
      rfl
    · rw [dot_none A X i j' hj' hX, nanOp_none_left]
      rfl
  unfold missNext missStep
  simp only [hg, Option.map_none, nanOp_none_left, nanOp_none_right]

theorem missNext_congr (d d' : Fin m → NanReal) (X Y : Fin n → NanReal) (z : Fin n → ℝ) (j : Fin n) (hj : X j = Y j)
    (h : ∀ i, A.has i j = true → d i = d' i ∧ ∀ j', A.has i j' = true → X j' = Y j') :
    missNext A w t par d X z j = missNext A w t par d' Y z j := by
  have hg : missGradg A w d (A.dot X) j = missGradg A w d' (A.dot Y) j := by
    refine dot_congr A.adj _ _ j fun i hi => ?_
    obtain ⟨h1, h2⟩ := h i hi
    rw [h1, dot_congr A X Y i h2]
  unfold missNext missStep missProxf
  simp only [hg, hj]

/-- The measurement as a complex operator. -/
noncomputable def Stored.fwd (A : Stored m n) (x : Fin n → ℂ) : Fin m → ℂ := fun i => ∑ j, (A.full i j : ℂ) * x j

/-- The gradient of the misfit as a complex operator, for the data `d`. -/
noncomputable def Stored.grad (A : Stored m n) (w d : Fin m → ℝ) (y : Fin m → ℂ) : Fin n → ℂ := fun j =>
  ∑ i, (A.full i j : ℂ) * ((w i : ℂ) * (y i - (d i : ℂ)))

theorem softEntry_ofReal (x t : ℝ) : softEntry (x : ℂ) t = ((softEntry x t : ℝ) : ℂ) := by
  unfold softEntry signEntry
  simp only [Complex.norm_real]
  by_cases hx : x = 0
  · subst hx
    split <;> simp
  · split <;> simp [hx]

/-- Without NaN a step is that of the model of `MYULA`. -/
theorem missNext_complete (hl : par.lmda ≠ 0) (d : Fin m → ℝ) (x z : Fin n → ℝ) : ∃ y : Fin n → ℝ,
    missNext A w t par (fun i => some (d i)) (fun j => some (x j)) z = (fun j => some (y j)) ∧
    (fun j => (y j : ℂ)) = ulaStep par.delta (gradVec par.lmda A.fwd (A.grad w d) fun x i => softEntry (x i) t) (fun j => (x j : ℂ))
      fun j => (z j : ℂ) := by
  have hg : missGradg A w (fun i => some (d i)) (A.dot fun j => some (x j)) =
      fun j => some (∑ i, A.full i j * (w i * (∑ j', A.full i j' * x j' - d i))) := by
    funext j
    have h1 : (fun i => (nanOp (· - ·) (A.dot (fun j => some (x j)) i) (some (d i))).map (w i * ·)) =
        fun i => some (w i * (∑ j', A.full i j' * x j' - d i)) := by
      funext i
      rw [dot_some]
      rfl
    unfold missGradg
    rw [h1, dot_some]
    rfl
  refine ⟨fun j => (1 - par.delta / par.lmda) * x j + par.delta / par.lmda * softEntry (x j) t -
    par.delta * (∑ i, A.full i j * (w i * (∑ j', A.full i j' * x j' - d i))) + √(2 * par.delta) * z j, ?_, ?_⟩
  · funext j
    unfold missNext missStep missProxf
    rw [hg]
    rfl
  · funext j
    have hl' : (par.lmda : ℂ) ≠ 0 := by exact_mod_cast hl
    simp only [ulaStep, gradVec, Stored.fwd, Stored.grad, softEntry_ofReal]
    push_cast
    field_simp
    ring

/-! ## The states of a run -/

/-- The sample after `k` iterations. -/
noncomputable def missState (d : Fin m → NanReal) (x0 : Fin n → ℝ) (z : ℕ → Fin n → ℝ) : ℕ → Fin n → NanReal
  | 0 => fun j => some (x0 j)
  | k + 1 => missNext A w t par d (missState d x0 z k) (z k)

theorem missState_complete (hl : par.lmda ≠ 0) (d : Fin m → ℝ) (x0 : Fin n → ℝ) (z : ℕ → Fin n → ℝ) (k : ℕ) : ∃ y : Fin n → ℝ,
    missState A w t par (fun i => some (d i)) x0 z k = (fun j => some (y j)) ∧
    (fun j => (y j : ℂ)) = fwState (ulaStep par.delta (gradVec par.lmda A.fwd (A.grad w d) fun x i => softEntry (x i) t))
      (fun j => (x0 j : ℂ)) (fun k j => (z k j : ℂ)) k := by
  induction k with
  | zero => exact ⟨x0, rfl, rfl⟩
  | succ k ih =>
    obtain ⟨y, h1, h2⟩ := ih
    obtain ⟨y', h3, h4⟩ := missNext_complete A w t par hl d y (z k)
    refine ⟨y', ?_, ?_⟩
    · rw [missState, h1, h3]
    · rw [h4, h2]
      rfl

/-- NaN where the specification says so, and otherwise the sample for any data in place of the missing ones. -/
theorem missState_spoilt (d : Fin m → NanReal) (d' : Fin m → ℝ) (hd : ∀ i x, d i = some x → d' i = x)
    (x0 : Fin n → ℝ) (z : ℕ → Fin n → ℝ) (k : ℕ) (j : Fin n) :
    (Spoilt A.has (fun i => d i = none) k j → missState A w t par d x0 z k j = none) ∧
    (¬ Spoilt A.has (fun i => d i = none) k j →
      missState A w t par d x0 z k j = missState A w t par (fun i => some (d' i)) x0 z k j) := by
  induction k generalizing j with
  | zero => exact ⟨fun h => h.elim, fun _ => rfl⟩
  | succ k ih =>
    constructor
    · rintro (h | ⟨i, hi, h⟩)
      · exact missNext_none_self A w t par d _ (z k) j ((ih j).1 h)
      · refine missNext_none_grad A w t par d _ (z k) j i hi ?_
        rcases h with h | ⟨j', hj', h⟩
        · exact .inl h
        · exact .inr ⟨j', hj', (ih j').1 h⟩
    · intro h
      refine missNext_congr A w t par d _ _ _ (z k) j ((ih j).2 fun h' => h (.inl h')) fun i hi => ⟨?_, fun j' hj' => ?_⟩
      · cases hdi : d i with
        | none => exact absurd (.inr ⟨i, hi, .inl hdi⟩) h
        | some x => rw [hd i x hdi]
      · exact (ih j').2 fun h' => h (.inr ⟨i, hi, .inr ⟨j', hj', h'⟩⟩)

/-- What is true at every loop head. -/
theorem missLoop (d : Fin m → NanReal) (r : R.σ) (x0 : Fin n → ℝ) (b : ℕ) (hb : par.nburn = b) (k : ℕ)
    (hk : k ≤ numIter par.nsamples b (spacing par)) :
    Reach (fun st => decide (st.j < par.nsamples)) (missBody R A w d t par) ⟨0, 0, fun j => some (x0 j), A.dot fun j => some (x0 j), r, []⟩ k
      ⟨k, cnt b (spacing par) k, missState A w t par d x0 (fun k => (R.randn (rngSeq R false n r k) n).1) k,
        A.dot (missState A w t par d x0 (fun k => (R.randn (rngSeq R false n r k) n).1) k), rngSeq R false n r k,
        (List.range (cnt b (spacing par) k)).map fun l =>
          missRow par w d (A.dot (missState A w t par d x0 (fun k => (R.randn (rngSeq R false n r k) n).1) (b + l * spacing par + 1)))
            (missState A w t par d x0 (fun k => (R.randn (rngSeq R false n r k) n).1) (b + l * spacing par + 1))⟩ := by
  have hg := spacing_pos par
  induction k with
  | zero =>
    rw [cnt_zero]
    exact .refl
  | succ k ih =>
    have hlt := cnt_lt_of_lt _ b _ k hg (show k < numIter par.nsamples b (spacing par) by omega)
    refine .step (ih (by omega)) (by simpa using hlt) ?_
    unfold missBody
    by_cases hs : (k : ℤ) ≥ par.nburn ∧ thinned par k
    · obtain ⟨h1, h2⟩ := (saved_iff par b hb k).mp hs
      obtain ⟨h3, h4⟩ := cnt_saved b (spacing par) k hg h1 h2
      simp only [hs, and_self, if_true]
      rw [h3, List.range_succ, List.map_append, List.map_cons, List.map_nil, ← h4]
      rfl
    · have h3 := cnt_not_saved b (spacing par) k hg fun h => hs ((saved_iff par b hb k).mpr h)
      simp only [hs, if_false]
      rw [h3]
      rfl

/-- The rows of a run. -/
theorem missRun_rows (d : Fin m → NanReal) (r : R.σ) (x0 : Fin n → ℝ) (b : ℕ) (hb : par.nburn = b) :
    ∃ (st : MissSt R m n) (N : ℕ), (∀ fuel ≥ N, missRun R A w d t par r x0 fuel = .ok (some st)) ∧
      st.rows = (List.range par.nsamples).map fun l =>
          missRow par w d (A.dot (missState A w t par d x0 (fun k => (R.randn (rngSeq R false n r k) n).1) (b + l * spacing par + 1)))
            (missState A w t par d x0 (fun k => (R.randn (rngSeq R false n r k) n).1) (b + l * spacing par + 1)) := by
  have h := missLoop R A w t par d r x0 b hb _ le_rfl
  have hc := cnt_numIter par.nsamples b (spacing par) (spacing_pos par)
  rw [hc] at h
  have h2 := fun k => h.returns (by simp) k
  have h3 : ∀ fuel ≥ numIter par.nsamples b (spacing par), missRun R A w d t par r x0 fuel = .ok (some _) := fun fuel hf => by
    obtain ⟨k, rfl⟩ := Nat.exists_eq_add_of_le hf
    exact h2 k
  exact ⟨_, _, h3, rfl⟩

theorem missRow_logPi (d preds : Fin m → NanReal) (X : Fin n → NanReal) : (missRow par w d preds X).logPi =
    nanOp (· - ·) ((missRow par w d preds X).prior.map (-par.mu * ·)) (missRow par w d preds X).L2 := rfl

/-! ## The property -/

/-- C160: a NaN among the data.  The run returns as if nothing had happened.  A parameter of a saved sample is NaN exactly if it is
spoilt: a missing datum depends on it, or it shares a datum with a parameter that was spoilt an iteration before.  All other parameters
are those of the run (`myulaRun`, from the same start and with the same random numbers) for any numbers in place of the missing data.
A saved prediction is NaN exactly if it depends on a spoilt parameter. -/
theorem C160_rows {A : Stored m n} {w : Fin m → ℝ} {t : ℝ} (M : Sampler m) (hc : M.par.complex = false) (b g : ℕ) (hb : M.par.nburn = b)
    (hg : M.par.ngap = g) (d : Fin m → NanReal) (d' : Fin m → ℝ) (hd : ∀ i x, d i = some x → d' i = x) {pri : (Fin n → ℂ) → ℝ}
    (tot : Total M n A.fwd (A.grad w d') (fun x i => softEntry (x i) t) pri) (r : R.σ) (x0 : Fin n → ℝ) (Arr : Arrays)
    (hA : Arr.Shaped M.par.nsamples) (fuel : ℕ) (st : St R)
    (hrun : myulaRun M R Arr r (.array1 (List.ofFn fun j => (x0 j : ℂ))) fuel = .ok (some st))
    (rows : Fin M.par.nsamples → Fin n → ℂ)
    (hrows : (Arr.applyAll st.ev).chain = some (List.ofFn fun k : Fin M.par.nsamples => List.ofFn (rows k))) :
    ∃ (st' : MissSt R m n) (N : ℕ), (∀ fuel ≥ N, missRun R A w d t M.par r x0 fuel = .ok (some st')) ∧
      st'.rows.length = M.par.nsamples ∧
      ∀ (k : Fin M.par.nsamples) (row : MissRow m n), st'.rows[k]? = some row →
        (∀ j, (Spoilt A.has (fun i => d i = none) (b + k * max g 1 + 1) j → row.X j = none) ∧
          (¬ Spoilt A.has (fun i => d i = none) (b + k * max g 1 + 1) j → ∃ y : ℝ, row.X j = some y ∧ rows k j = (y : ℂ))) ∧
        ∀ i, row.preds i = none ↔ ∃ j, A.has i j = true ∧ Spoilt A.has (fun i => d i = none) (b + k * max g 1 + 1) j := by
  obtain ⟨st', N, h1, h2⟩ := missRun_rows R A w t M.par d r x0 b hb
  refine ⟨st', N, h1, by rw [h2]; simp, fun k row hrow => ?_⟩
  rw [h2] at hrow
  simp only [Fin.getElem?_fin, List.getElem?_map, List.getElem?_range k.2, Option.map_some, Option.some.injEq] at hrow
  have hX : row.X = missState A w t M.par d x0 (fun k => (R.randn (rngSeq R false n r k) n).1) (b + k * max g 1 + 1) := by
    rw [← hrow, spacing_nat _ g hg]
    rfl
  have hP : row.preds = A.dot row.X := by
    rw [← hrow]
    rfl
  have hz : noiseSeq R M.par.complex n r = fun k j => (((R.randn (rngSeq R false n r k) n).1 j : ℝ) : ℂ) := by
    funext k j
    rw [hc]
    rfl
  obtain ⟨y, h5, h6⟩ := missState_complete A w t M.par tot.lmda d' x0 (fun k => (R.randn (rngSeq R false n r k) n).1)
    (b + k * max g 1 + 1)
  have h7 := myula_chain_rows R tot Arr hA b g hb hg r (fun j => (x0 j : ℂ)) fuel st hrun rows hrows k
  rw [hz, hc, ← h6] at h7
  have hm : ∀ j, (Spoilt A.has (fun i => d i = none) (b + k * max g 1 + 1) j → row.X j = none) ∧
      (¬ Spoilt A.has (fun i => d i = none) (b + k * max g 1 + 1) j → ∃ y : ℝ, row.X j = some y ∧ rows k j = (y : ℂ)) := by
    intro j
    rw [hX]
    obtain ⟨h3, h4⟩ := missState_spoilt A w t M.par d d' hd x0 (fun k => (R.randn (rngSeq R false n r k) n).1)
      (b + k * max g 1 + 1) j
    refine ⟨h3, fun hs => ⟨y j, by rw [h4 hs, h5], ?_⟩⟩
    rw [h7]
    simp [store]
  refine ⟨hm, fun i => ?_⟩
  rw [hP, dot_eq_none]
  constructor
  · rintro ⟨j, hj, h⟩
    refine ⟨j, hj, ?_⟩
    by_contra hs
    obtain ⟨y, hy, -⟩ := (hm j).2 hs
    rw [h] at hy
    cases hy
  · rintro ⟨j, hj, h⟩
    exact ⟨j, hj, (hm j).1 h⟩

/-- C160, the values that the run reports: with a datum missing the log-posterior and the misfit of every saved row are NaN. -/
theorem C160_logpi (d : Fin m → NanReal) (i : Fin m) (hi : d i = none) (b : ℕ) (hb : par.nburn = b) (r : R.σ) (x0 : Fin n → ℝ) :
    ∃ (st : MissSt R m n) (N : ℕ), (∀ fuel ≥ N, missRun R A w d t par r x0 fuel = .ok (some st)) ∧ st.rows.length = par.nsamples ∧
      ∀ row ∈ st.rows, row.logPi = none ∧ row.L2 = none := by
  obtain ⟨st, N, h1, h2⟩ := missRun_rows R A w t par d r x0 b hb
  refine ⟨st, N, h1, by rw [h2]; simp, fun row hrow => ?_⟩
  rw [h2] at hrow
  obtain ⟨l, -, rfl⟩ := List.mem_map.mp hrow
  have hL : (missRow par w d (A.dot (missState A w t par d x0 (fun k => (R.randn (rngSeq R false n r k) n).1) (b + l * spacing par + 1)))
      (missState A w t par d x0 (fun k => (R.randn (rngSeq R false n r k) n).1) (b + l * spacing par + 1))).L2 = none := by
    refine nanSum_none _ (List.mem_map.mpr ⟨i, List.mem_finRange i, ?_⟩)
    simp only [hi, nanOp_none_left]
  refine ⟨?_, hL⟩
  rw [missRow_logPi, hL, nanOp_none_right]

/-- C160, the plots: no sample is found to be the best one, so that `file["chain"][MAP_idx][0]` raises IndexError. -/
theorem C160_no_best (l : List NanReal) (h : ∀ x ∈ l, x = none) : bestPositions l = [] := by
  unfold bestPositions
  rw [List.filter_eq_nil_iff]
  intro k hk
  have hn : l[k]?.join = none := by
    cases hl : l[k]? with
    | none => rfl
    | some x => rw [h x (List.mem_of_getElem? hl)]; rfl
  simp [hn]

/-- C160, without missing data the best samples are those of the greatest log-posterior, and there is one. -/
theorem C160_best (l : List ℝ) (hl : l ≠ []) :
    bestPositions (l.map some) ≠ [] ∧ ∀ k, k ∈ bestPositions (l.map some) ↔ ∃ x, l[k]? = some x ∧ ∀ y ∈ l, y ≤ x := by
  obtain ⟨a, l, rfl⟩ := List.exists_cons_of_ne_nil hl
  have key : ∀ (l : List ℝ) (a : ℝ), ∃ x, (l.map some).foldl (fun (cur b : NanReal) => match cur, b with
      | some x, some y => if x < y then some y else cur
      | _, _ => cur) (some a) = some x ∧ x ∈ a :: l ∧ ∀ y ∈ a :: l, y ≤ x := by
    intro l
    induction l with
    | nil => exact fun a => ⟨a, rfl, by simp, by simp⟩
    | cons b l ih =>
      intro a
      by_cases hab : a < b
      · obtain ⟨x, h1, h2, h3⟩ := ih b
        refine ⟨x, ?_, by simp only [List.mem_cons] at h2 ⊢; tauto, fun y hy => ?_⟩
        · simp only [List.map_cons, List.foldl_cons, if_pos hab]
          exact h1
        · rcases List.mem_cons.mp hy with rfl | hy
          · exact hab.le.trans (h3 b (by simp))
          · exact h3 y hy
      · obtain ⟨x, h1, h2, h3⟩ := ih a
        refine ⟨x, ?_, by simp only [List.mem_cons] at h2 ⊢; tauto, fun y hy => ?_⟩
        · simp only [List.map_cons, List.foldl_cons, if_neg hab]
          exact h1
        · simp only [List.mem_cons] at hy
          rcases hy with rfl | rfl | hy
          · exact h3 _ (by simp)
          · exact (not_lt.mp hab).trans (h3 a (by simp))
          · exact h3 y (by simp [hy])
  obtain ⟨x, h1, h2, h3⟩ := key l a
  have hmax : pyMaxNan ((a :: l).map some) = some x := h1
  have hpos : ∀ k, k ∈ bestPositions ((a :: l).map some) ↔ (a :: l)[k]? = some x := by
    intro k
    unfold bestPositions
    rw [List.mem_filter, hmax, List.getElem?_map]
    cases hk : (a :: l)[k]? with
    | none =>
      simp
    | some y =>
      obtain ⟨hlt, -⟩ := List.getElem?_eq_some_iff.mp hk
      simp only [List.length_map, List.mem_range, hlt, Option.map_some, Option.join_some, decide_eq_true_eq, true_and, Option.some.injEq]
  refine ⟨?_, fun k => ⟨fun hk => ⟨x, (hpos k).mp hk, h3⟩, fun ⟨x', hx', hm⟩ => ?_⟩⟩
  swap
  · rw [hpos k, hx', le_antisymm (h3 x' (List.mem_of_getElem? hx')) (hm x h2)]
  obtain ⟨k, hk⟩ := List.getElem?_of_mem h2
  exact List.ne_nil_of_mem ((hpos k).mpr hk)

/-- C160, data that share no parameters (`Identity`): a missing datum spoils the parameters it depends on and nothing else, however long
the run. -/
theorem C160_identity (uses : Fin m → Fin n → Bool) (missing : Fin m → Prop)
    (h : ∀ i i' j, uses i j = true → uses i' j = true → i = i') (k : ℕ) (j : Fin n) :
    Spoilt uses missing (k + 1) j ↔ ∃ i, uses i j = true ∧ missing i := by
  induction k generalizing j with
  | zero =>
    constructor
    · rintro (h | ⟨i, hi, h | ⟨j', -, h⟩⟩)
      · exact h.elim
      · exact ⟨i, hi, h⟩
      · exact h.elim
    · rintro ⟨i, hi, hm⟩
      exact .inr ⟨i, hi, .inl hm⟩
  | succ k ih =>
    constructor
    · rintro (h' | ⟨i, hi, h' | ⟨j', hj', h'⟩⟩)
      · exact (ih j).mp h'
      · exact ⟨i, hi, h'⟩
      · obtain ⟨i', hi', hm⟩ := (ih j').mp h'
        obtain rfl := h i i' j' hj' hi'
        exact ⟨i, hi, hm⟩
    · exact fun h' => .inl ((ih j).mpr h')

/-- C160, in the long run: exactly the parameters connected with a missing datum by a chain of data with common parameters are spoilt. -/
theorem C160_spread (uses : Fin m → Fin n → Bool) (missing : Fin m → Prop) (j : Fin n) :
    (∃ k, Spoilt uses missing k j) ↔ ∃ i j0, missing i ∧ uses i j0 = true ∧
      Relation.ReflTransGen (fun a b => ∃ i, uses i a = true ∧ uses i b = true) j0 j := by
  constructor
  · rintro ⟨k, hk⟩
    induction k generalizing j with
    | zero => exact hk.elim
    | succ k ih =>
      rcases hk with h | ⟨i, hi, h | ⟨j', hj', h⟩⟩
      · exact ih j h
      · exact ⟨i, j, h, hi, .refl⟩
      · obtain ⟨i0, j0, h1, h2, h3⟩ := ih j' h
        exact ⟨i0, j0, h1, h2, h3.tail ⟨i, hj', hi⟩⟩
  · rintro ⟨i, j0, h1, h2, h3⟩
    induction h3 with
    | refl => exact ⟨1, .inr ⟨i, h2, .inl h1⟩⟩
    | tail _ hab ih =>
      obtain ⟨k, hk⟩ := ih
      obtain ⟨i', ha, hb⟩ := hab
      exact ⟨k + 1, .inr ⟨i', hb, .inr ⟨_, ha, hk⟩⟩⟩

/-! ## PxMALA -/

theorem missRow_logPi_none (d preds : Fin m → NanReal) (X : Fin n → NanReal) (i : Fin m) (hi : d i = none) :
    (missRow par w d preds X).logPi = none := by
  have hL : (missRow par w d preds X).L2 = none := by
    refine nanSum_none _ (List.mem_map.mpr ⟨i, List.mem_finRange i, ?_⟩)
    simp only [hi, nanOp_none_left]
  rw [missRow_logPi, hL, nanOp_none_right]

/-- C160, PxMALA: with a datum missing, whatever the random numbers and the tuning, every proposal is rejected: after `k` iterations, for
every `k`, the sample is the start, nothing has been saved and `acceptance_trace` is `k` zeros. -/
theorem C160_mala_rejects (d : Fin m → NanReal) (i : Fin m) (hi : d i = none) (tuned : ℝ → List ℕ → ℕ → ℝ) (r : R.σ) (x0 : Fin n → ℝ)
    (hn : 0 < par.nsamples) (k : ℕ) :
    ∃ st, Reach (fun st => decide (st.j < par.nsamples)) (missMalaBody R A w d t par tuned) ⟨0, 0, fun j => some (x0 j), r, par.delta, [], []⟩
      k st ∧ st.i = k ∧ st.j = 0 ∧ st.X = (fun j => some (x0 j)) ∧ st.acc = List.replicate k 0 ∧ st.rows = [] := by
  induction k with
  | zero => exact ⟨_, .refl, rfl, rfl, rfl, rfl, rfl⟩
  | succ k ih =>
    obtain ⟨⟨i', j, X, rg, δ, acc, rows⟩, h1, h2, h3, h4, h5, h6⟩ := ih
    simp only at h2 h3 h4 h5 h6
    subst h2 h3 h4 h5 h6
    have hb : missMalaBody R A w d t par tuned ⟨i', 0, fun j => some (x0 j), rg, δ, List.replicate i' 0, []⟩ =
        .ok ⟨i' + 1, 0, fun j => some (x0 j), (R.rand (R.randn rg n).2).2, tuned δ (List.replicate (i' + 1) 0) i',
          List.replicate (i' + 1) 0, []⟩ := by
      unfold missMalaBody
      simp only [missRow_logPi_none w par d _ _ i hi, nanOp_none_right, missAccept, Bool.false_eq_true, and_false, if_false,
        List.replicate_succ']
    exact ⟨_, .step h1 (by simpa using hn) hb, rfl, rfl, rfl, rfl, rfl⟩

/-- C160, PxMALA: with a datum missing the run never ends (if a sample is asked for). -/
theorem C160_mala_never (d : Fin m → NanReal) (i : Fin m) (hi : d i = none) (tuned : ℝ → List ℕ → ℕ → ℝ) (r : R.σ) (x0 : Fin n → ℝ)
    (hn : 0 < par.nsamples) (fuel : ℕ) : missMalaRun R A w d t par tuned r x0 fuel = .ok none := by
  obtain ⟨st, h1, -, h2, -⟩ := C160_mala_rejects R A w t par d i hi tuned r x0 hn fuel
  have h3 := h1.whileFuel_add 0
  unfold missMalaRun
  rw [add_zero] at h3
  rw [h3]
  simp [whileFuel, h2, hn]

theorem nanSum_map (f : Fin n → ℝ) : nanSum ((List.finRange n).map fun j => some (f j)) = some (∑ j, f j) := by
  have h : (List.finRange n).map (fun j => some (f j)) = ((List.finRange n).map f).map some := by
    rw [List.map_map]
    rfl
  rw [h, nanSum_some, ← List.ofFn_eq_map, List.sum_ofFn]

/-- The gradient of the misfit without NaN. -/
theorem missGradg_complete (d : Fin m → ℝ) (x : Fin n → ℝ) : ∃ g : Fin n → ℝ,
    missGradg A w (fun i => some (d i)) (A.dot fun j => some (x j)) = (fun j => some (g j)) ∧
    (fun j => (g j : ℂ)) = A.grad w d (A.fwd fun j => (x j : ℂ)) := by
  refine ⟨fun j => ∑ i, A.full i j * (w i * (∑ j', A.full i j' * x j' - d i)), ?_, ?_⟩
  · funext j
    have h1 : (fun i => (nanOp (· - ·) (A.dot (fun j => some (x j)) i) (some (d i))).map (w i * ·)) =
        fun i => some (w i * (∑ j', A.full i j' * x j' - d i)) := by
      funext i
      rw [dot_some]
      rfl
    unfold missGradg
    rw [h1, dot_some]
    rfl
  · funext j
    simp only [Stored.fwd, Stored.grad]
    push_cast
    rfl

theorem missLogTrans_complete (δ : ℝ) (d : Fin m → ℝ) (x y : Fin n → ℝ) : ∃ l : ℝ,
    missLogTrans par δ (fun j => some (x j)) (fun j => some (y j)) (missProxf t fun j => some (x j))
      (missGradg A w (fun i => some (d i)) (A.dot fun j => some (x j))) = some l ∧
    (l : ℂ) = logtransVec δ (gradVec par.lmda A.fwd (A.grad w d) fun x i => softEntry (x i) t) (fun j => (x j : ℂ)) fun j => (y j : ℂ) := by
  obtain ⟨g, h1, h2⟩ := missGradg_complete A w d x
  rw [h1]
  refine ⟨-(1 / 2 * δ) * (∑ j, (y j - x j - δ / 2 * (-((x j - softEntry (x j) t) / par.lmda) - g j)) ^ 2) ^ 2, ?_, ?_⟩
  · rw [← Option.map_some (f := fun z : ℝ => -(1 / 2 * δ) * z ^ 2), ← nanSum_map]
    rfl
  · unfold logtransVec gradVec
    rw [← h2]
    simp only [softEntry_ofReal]
    push_cast
    rfl

theorem missLogPi_complete (M : Sampler m) (d : Fin m → ℝ) (hd : M.F.data.vals = fun i => (d i : ℂ))
    (hw : M.F.invcov = Matrix.diagonal fun i => (w i : ℂ)) (grad prox) (x : Fin n → ℝ) : ∃ l : ℝ,
    (missRow M.par w (fun i => some (d i)) (A.dot fun j => some (x j)) fun j => some (x j)).logPi = some l ∧
    (l : ℂ) = (cacheOf M A.fwd grad prox (fun x => ∑ i, ‖x i‖) fun j => (x j : ℂ)).logpi := by
  have e : (A.dot fun j => some (x j)) = fun i => some (∑ j, A.full i j * x j) := funext fun i => dot_some A x i
  rw [e]
  refine ⟨-M.par.mu * (∑ j, |x j|) - ∑ i, (d i - ∑ j, A.full i j * x j) * (w i * (d i - ∑ j, A.full i j * x j)), ?_, ?_⟩
  · have h1 := nanSum_map fun j => |x j|
    have h2 := nanSum_map fun i => (d i - ∑ j, A.full i j * x j) * (w i * (d i - ∑ j, A.full i j * x j))
    rw [missRow_logPi]
    have h3 : (missRow M.par w (fun i => some (d i)) (fun i => some (∑ j, A.full i j * x j)) fun j => some (x j)).prior =
      some (∑ j, |x j|) := h1
    have h4 : (missRow M.par w (fun i => some (d i)) (fun i => some (∑ j, A.full i j * x j)) fun j => some (x j)).L2 =
      some (∑ i, (d i - ∑ j, A.full i j * x j) * (w i * (d i - ∑ j, A.full i j * x j))) := h2
    rw [h3, h4]
    rfl
  · simp only [cacheOf, misfitOf, Spec.inner, hd, hw, Matrix.mulVec_diagonal, Pi.sub_apply, Stored.fwd, Complex.norm_real,
      Real.norm_eq_abs]
    have h5 : ∀ i, (starRingEnd ℂ) ((d i : ℂ) - ∑ j, (A.full i j : ℂ) * (x j : ℂ)) = (d i : ℂ) - ∑ j, (A.full i j : ℂ) * (x j : ℂ) := by
      intro i
      rw [map_sub, map_sum, Complex.conj_ofReal]
      simp
    simp only [h5]
    push_cast
    rfl

/-- The states of the two models of PxMALA agree. -/
structure MalaAgree (M : Sampler m) (d : Fin m → ℝ) (s : MalaSt R) (s' : MissMala R m n) : Prop where
  i : s'.i = s.i
  j : s'.j = s.j
  rng : s'.rng = s.rng
  delta : s'.delta = s.delta
  acc : s'.acc = s.acc
  X : ∃ x : Fin n → ℝ, s'.X = (fun j => some (x j)) ∧
    s.cur = cacheOf M A.fwd (A.grad w d) (fun x i => softEntry (x i) t) (fun x => ∑ i, ‖x i‖) fun j => (x j : ℂ)

theorem missMala_step (M : Sampler m) (hc : M.par.complex = false) (d : Fin m → ℝ) (hd : M.F.data.vals = fun i => (d i : ℂ))
    (hw : M.F.invcov = Matrix.diagonal fun i => (w i : ℂ))
    (tot : Total M n A.fwd (A.grad w d) (fun x i => softEntry (x i) t) fun x => ∑ i, ‖x i‖) (A0 : Arrays) (s s1 : MalaSt R)
    (s' : MissMala R m n) (h : MalaAgree R A w t M d s s') (h1 : malaBody M R false A0 s = .ok s1) :
    ∃ s1', missMalaBody R A w (fun i => some (d i)) t M.par (fun δ _ _ => δ) s' = .ok s1' ∧ MalaAgree R A w t M d s1 s1' := by
  classical
  obtain ⟨i, j, X, rg, δ, acc, rows⟩ := s'
  obtain ⟨e1, e2, e3, e4, e5, x, e6, e7⟩ := h
  simp only at e1 e2 e3 e4 e5 e6
  subst e1 e2 e3 e4 e5 e6
  obtain ⟨hcore, hs1, hs2⟩ := malaBody_ok M R false A0 s s1 h1
  obtain ⟨y, h3, h4⟩ := missNext_complete A w t { M.par with delta := s.delta } tot.lmda d x (R.randn s.rng n).1
  have hdraw : (drawVec R R.randn M.par.complex s.rng n).1 = fun j => (((R.randn s.rng n).1 j : ℝ) : ℂ) := by
    rw [hc]
    rfl
  have hdraw2 : (drawVec R R.randn M.par.complex s.rng n).2 = (R.randn s.rng n).2 := by
    rw [hc]
    rfl
  have hstep := coreStep_vec M R tot s.core (fun j => (x j : ℂ)) e7 (fun j => (y j : ℂ)) (by rw [h4, ← hdraw]; rfl) (R.randn s.rng n).2
    hdraw2.symm _ Iff.rfl
  rw [hcore] at hstep
  have hstep := Except.ok.inj hstep
  obtain ⟨l1, h5, h6⟩ := missLogTrans_complete A w t M.par s.delta d x y
  obtain ⟨l2, h7, h8⟩ := missLogTrans_complete A w t M.par s.delta d y x
  obtain ⟨l3, h9, h10⟩ := missLogPi_complete A w M d hd hw (A.grad w d) (fun x i => softEntry (x i) t) x
  obtain ⟨l4, h11, h12⟩ := missLogPi_complete A w M d hd hw (A.grad w d) (fun x i => softEntry (x i) t) y
  have hla : logAlphaVec M A.fwd (A.grad w d) (fun x i => softEntry (x i) t) (fun x => ∑ i, ‖x i‖) s.delta (fun j => (x j : ℂ))
      (fun j => (y j : ℂ)) = ((l2 + l4 - l1 - l3 : ℝ) : ℂ) := by
    unfold logAlphaVec
    rw [← h6, ← h8, ← h10, ← h12]
    push_cast
    rfl
  have hacc : acceptTest (R.rand (R.randn s.rng n).2).1 ((l2 + l4 - l1 - l3 : ℝ) : ℂ) ↔
      (R.rand (R.randn s.rng n).2).1 = 0 ∨ Real.log (R.rand (R.randn s.rng n).2).1 < l2 + l4 - l1 - l3 := by
    unfold acceptTest
    simp
  have hX : missStep { M.par with delta := s.delta } (fun j => some (x j)) (missProxf t fun j => some (x j))
      (missGradg A w (fun i => some (d i)) (A.dot fun j => some (x j))) (R.randn s.rng n).1 = fun j => some (y j) := h3
  have hla' : logAlphaVec M A.fwd (A.grad w d) (fun x i => softEntry (x i) t) (fun x => ∑ i, ‖x i‖) s.core.delta (fun j => (x j : ℂ))
      (fun j => (y j : ℂ)) = ((l2 + l4 - l1 - l3 : ℝ) : ℂ) := hla
  rw [hla'] at hstep
  have hbody : missMalaBody R A w (fun i => some (d i)) t M.par (fun δ _ _ => δ) ⟨s.i, s.j, fun j => some (x j), s.rng, s.delta, s.acc, rows⟩ =
      if ((s.i : ℤ) ≥ M.par.nburn ∧ thinned M.par s.i) ∧ acceptTest (R.rand (R.randn s.rng n).2).1 ((l2 + l4 - l1 - l3 : ℝ) : ℂ) then
        .ok ⟨s.i + 1, s.j + 1, fun j => some (y j), (R.rand (R.randn s.rng n).2).2, s.delta, s.acc ++ [1],
          rows ++ [missRow M.par w (fun i => some (d i)) (A.dot fun j => some (y j)) fun j => some (y j)]⟩
      else .ok ⟨s.i + 1, s.j, if acceptTest (R.rand (R.randn s.rng n).2).1 ((l2 + l4 - l1 - l3 : ℝ) : ℂ) then fun j => some (y j) else
          fun j => some (x j), (R.rand (R.randn s.rng n).2).2, s.delta,
          s.acc ++ [if acceptTest (R.rand (R.randn s.rng n).2).1 ((l2 + l4 - l1 - l3 : ℝ) : ℂ) then 1 else 0], rows⟩ := by
    unfold missMalaBody
    simp only [hX, h5, h7, h9, h11, nanOp_some, missAccept, ← hacc, decide_eq_true_eq]
    by_cases ha : acceptTest (R.rand (R.randn s.rng n).2).1 ((l2 + l4 - l1 - l3 : ℝ) : ℂ)
    · simp only [ha, if_true]
    · simp only [ha, and_false, if_false]
  rw [hbody]
  obtain ⟨i1, j1, cur1, rng1, δ1, acc1, del1, ev1⟩ := s1
  simp only [MalaSt.core, Core.mk.injEq] at hstep
  obtain ⟨f1, f2, f3, f4, f5, -⟩ := hstep
  subst f1 f2 f3 f4 f5
  have hlast : savesLast M s.i (s.acc ++ [if acceptTest (R.rand (R.randn s.rng n).2).1 ((l2 + l4 - l1 - l3 : ℝ) : ℂ) then 1 else 0]) ↔
      ((s.i : ℤ) ≥ M.par.nburn ∧ thinned M.par s.i) ∧ acceptTest (R.rand (R.randn s.rng n).2).1 ((l2 + l4 - l1 - l3 : ℝ) : ℂ) := by
    unfold savesLast
    rw [List.getLast?_concat]
    by_cases ha : acceptTest (R.rand (R.randn s.rng n).2).1 ((l2 + l4 - l1 - l3 : ℝ) : ℂ) <;> simp
  by_cases hsave : ((s.i : ℤ) ≥ M.par.nburn ∧ thinned M.par s.i) ∧
      acceptTest (R.rand (R.randn s.rng n).2).1 ((l2 + l4 - l1 - l3 : ℝ) : ℂ)
  · rw [if_pos hsave]
    refine ⟨_, rfl, rfl, (hs1 (hlast.mpr hsave)).1.symm, rfl, rfl, ?_, y, rfl, ?_⟩
    · simp only [if_pos hsave.2]
    · simp only [if_pos hsave.2]
  · rw [if_neg hsave]
    refine ⟨_, rfl, rfl, (hs2 fun h => hsave (hlast.mp h)).1.symm, rfl, rfl, rfl, ?_⟩
    by_cases ha : acceptTest (R.rand (R.randn s.rng n).2).1 ((l2 + l4 - l1 - l3 : ℝ) : ℂ)
    · exact ⟨y, by simp only [if_pos ha], by simp only [if_pos ha]⟩
    · exact ⟨x, by simp only [if_neg ha], by simp only [if_neg ha]⟩

/-- C160, PxMALA without missing data: the model with NaN is the one of the other claims (`malaRun`): it returns when that one does, with the
same sample, acceptance trace and generator. -/
theorem C160_mala_complete (M : Sampler m) (hc : M.par.complex = false) (d : Fin m → ℝ) (hd : M.F.data.vals = fun i => (d i : ℂ))
    (hw : M.F.invcov = Matrix.diagonal fun i => (w i : ℂ))
    (tot : Total M n A.fwd (A.grad w d) (fun x i => softEntry (x i) t) fun x => ∑ i, ‖x i‖) (A0 : Arrays) (r : R.σ) (x0 : Fin n → ℝ)
    (fuel : ℕ) (st : MalaSt R) (h : malaRun M R false M.par.delta A0 r (.array1 (List.ofFn fun j => (x0 j : ℂ))) fuel = .ok (some st)) :
    ∃ (st' : MissMala R m n) (x : Fin n → ℝ), missMalaRun R A w (fun i => some (d i)) t M.par (fun δ _ _ => δ) r x0 fuel = .ok (some st') ∧
      st'.X = (fun j => some (x j)) ∧ st.cur.X = List.ofFn (fun j => (x j : ℂ)) ∧ st'.acc = st.acc ∧ st'.i = st.i ∧ st'.j = st.j ∧
      st'.rng = st.rng := by
  obtain ⟨s0, s, k, h1, hr, hcond, hk, rfl⟩ := malaRun_ok M R false M.par.delta A0 r _ fuel st h
  rw [init_vec M R tot _ r r _ _ (start_array R tot r _)] at h1
  obtain rfl := Except.ok.inj h1
  have key : ∀ (k : ℕ) (s : MalaSt R), Reach (malaCond M) (malaBody M R false A0)
      ⟨0, 0, cacheOf M A.fwd (A.grad w d) (fun x i => softEntry (x i) t) (fun x => ∑ i, ‖x i‖) fun j => (x0 j : ℂ), r, M.par.delta, [],
        [M.par.delta], []⟩ k s →
      ∃ s', Reach (fun st => decide (st.j < M.par.nsamples)) (missMalaBody R A w (fun i => some (d i)) t M.par fun δ _ _ => δ)
        ⟨0, 0, fun j => some (x0 j), r, M.par.delta, [], []⟩ k s' ∧ MalaAgree R A w t M d s s' := by
    intro k s hr
    induction hr with
    | refl => exact ⟨_, .refl, rfl, rfl, rfl, rfl, rfl, x0, rfl, rfl⟩
    | step _ hcnd hb ih =>
      obtain ⟨s', h2, h3⟩ := ih
      obtain ⟨s1', h4, h5⟩ := missMala_step R A w t M hc d hd hw tot A0 _ _ s' h3 hb
      refine ⟨s1', .step h2 ?_ h4, h5⟩
      rw [h3.j]
      exact hcnd
  obtain ⟨s', h2, h3⟩ := key k s hr
  obtain ⟨x, h4, h5⟩ := h3.X
  obtain ⟨q, rfl⟩ := Nat.exists_eq_add_of_le hk
  refine ⟨s', x, h2.returns (by rw [h3.j]; exact hcond) q, h4, ?_, h3.acc, h3.i, h3.j, h3.rng⟩
  show s.cur.X = _
  rw [h5]
  rfl

/-! ## Denoising -/

/-- `sparse.eye(n)`. -/
def eyeStored (n : ℕ) : Stored n n := ⟨fun i j => decide (i = j), fun _ _ => 1⟩

theorem eyeStored_fwd (x : Fin n → ℂ) : (eyeStored n).fwd x = x := by
  funext i
  simp [Stored.fwd, Stored.full, eyeStored, apply_ite (Complex.ofReal), ite_mul]

theorem eyeStored_grad (w d : Fin n → ℝ) (y : Fin n → ℂ) : (eyeStored n).grad w d y = fun i => (w i : ℂ) * (y i - (d i : ℂ)) := by
  funext i
  simp [Stored.grad, Stored.full, eyeStored, apply_ite (Complex.ofReal), ite_mul]

/-- C160, denoising: the objects that the public constructors build for the completed data have a run; of the run with the missing data
exactly the missing pixels are NaN, in every saved row, and all others agree. -/
theorem C160_denoising (d : Fin n → NanReal) (d' : Fin n → ℝ) (hd : ∀ i x, d i = some x → d' i = x) (sig : SigD) (σ : Fin n → ℝ)
    (hσ : IsSigma n sig σ) (s : String) (hs : s = "analysis" ∨ s = "synthesis") (t : ℝ) (par : Params) (b g : ℕ) (hl : par.lmda ≠ 0)
    (hb : par.nburn = b) (hg : par.ngap = g) (hc : par.complex = false) (hv : par.verbosity ≤ 0) (htr : "chain" ∈ par.track) (R : Rng)
    (r : R.σ) (x0 : Fin n → ℝ) :
    ∃ (F : ForwardOp n) (P : L1 ℂ) (M : Sampler n) (Arr : Arrays) (st : St R) (rows : Fin par.nsamples → Fin n → ℂ) (st' : MissSt R n n)
      (N : ℕ),
      ForwardOp.init ⟨false, fun i => (d' i : ℂ)⟩ sig s (some identityTransform) (some (identityMeasurement n n)) (some n) = .ok F ∧
      L1.init s identityTransform.op identityTransform.adj (.scalar t) = .ok P ∧ samplerInit F P.toPrior par = .ok (M, Arr) ∧
      (∀ fuel ≥ N, myulaRun M R Arr r (.array1 (List.ofFn fun j => (x0 j : ℂ))) fuel = .ok (some st)) ∧
      (Arr.applyAll st.ev).chain = some (List.ofFn fun k => List.ofFn (rows k)) ∧
      (∀ fuel ≥ N, missRun R (eyeStored n) (fun i => 1 / σ i ^ 2) d t par r x0 fuel = .ok (some st')) ∧
      st'.rows.length = par.nsamples ∧
      ∀ (k : Fin par.nsamples) (row : MissRow n n), st'.rows[k]? = some row → ∀ j,
        (d j = none → row.X j = none ∧ row.preds j = none) ∧
        (d j ≠ none → row.preds j ≠ none ∧ ∃ y : ℝ, row.X j = some y ∧ rows k j = (y : ℂ)) := by
  obtain ⟨F, P, hF, hP, -, -, hnp, tot⟩ := denoise_total ⟨false, fun i => (d' i : ℂ)⟩ rfl sig σ hσ s hs t
  have tot := tot par hl
  have e1 : (fun x : Fin n → ℂ => x) = (eyeStored n).fwd := by
    funext x
    rw [eyeStored_fwd]
  have e2 : (fun (y : Fin n → ℂ) i => (y i - (d' i : ℂ)) / ((σ i ^ 2 : ℝ) : ℂ)) = (eyeStored n).grad (fun i => 1 / σ i ^ 2) d' := by
    funext y i
    rw [eyeStored_grad]
    push_cast
    ring
  simp only [e2] at tot
  rw [e1] at tot
  obtain ⟨-, st, h1, -, h2⟩ := C41_schedule ⟨F, P.toPrior, par, n⟩ R (initArrays ⟨F, P.toPrior, par, n⟩) (initArrays_shaped _)
    (.inl hv) b g hb hg tot _ (fun x => gradlogpi_vec _ tot x) r r (.array1 (List.ofFn fun j => (x0 j : ℂ))) _
    (start_array R tot r _) _ rfl
  have hch : ∃ rows : Fin par.nsamples → Fin n → ℂ,
      ((initArrays ⟨F, P.toPrior, par, n⟩).applyAll st.ev).chain = some (List.ofFn fun k => List.ofFn (rows k)) := by
    have hc' : ∃ l, (initArrays ⟨F, P.toPrior, par, n⟩).chain = some l :=
      ⟨_, if_pos (e := (none : Option (List (List ℂ)))) htr⟩
    obtain ⟨l, hl⟩ := hc'
    refine ⟨fun k i => store par.complex (iter (ulaStep par.delta (gradVec par.lmda (eyeStored n).fwd
      ((eyeStored n).grad (fun i => 1 / σ i ^ 2) d') fun x i => softEntry (x i) t)) (noiseSeq R par.complex n r)
      (fun j => (x0 j : ℂ)) (b + k * max g 1 + 1) i), ?_⟩
    rw [h2]
    simp only [Arrays.ofRows, hl, Option.map_some, Option.some.injEq]
    refine List.ext_getElem (by simp) fun k hk hk' => ?_
    simp only [List.getElem_map, List.getElem_range, List.getElem_ofFn]
    rfl
  obtain ⟨rows, hrows⟩ := hch
  obtain ⟨st', N, h3, h4, h5⟩ := C160_rows R ⟨F, P.toPrior, par, n⟩ hc b g hb hg d d' hd tot r x0
    (initArrays ⟨F, P.toPrior, par, n⟩) (initArrays_shaped _) _ st (h1 _ le_rfl) rows hrows
  refine ⟨F, P, ⟨F, P.toPrior, par, n⟩, initArrays ⟨F, P.toPrior, par, n⟩, st, rows, st', max _ N, hF, hP, by simp [samplerInit, hnp],
    fun fuel hf => h1 fuel ((le_max_left _ _).trans hf), hrows, fun fuel hf => h3 fuel ((le_max_right _ _).trans hf), h4,
    fun k row hrow j => ?_⟩
  obtain ⟨h6, h7⟩ := h5 k row hrow
  have hsp : ∀ j, Spoilt (eyeStored n).has (fun i => d i = none) (b + k * max g 1 + 1) j ↔ d j = none := by
    intro j
    rw [C160_identity _ _ (fun i i' j h h' => by
      have h : i = j := by simpa [eyeStored] using h
      have h' : i' = j := by simpa [eyeStored] using h'
      rw [h, h'])]
    simp [eyeStored]
  have hp : row.preds j = none ↔ d j = none := by
    rw [h7 j]
    simp only [hsp]
    simp [eyeStored]
  exact ⟨fun h => ⟨(h6 j).1 ((hsp j).mpr h), hp.mpr h⟩, fun h => ⟨fun h' => h (hp.mp h'), (h6 j).2 fun h' => h ((hsp j).mp h')⟩⟩

/-! ## Instances -/

/-- Three data, three parameters: the first datum is missing, the second joins two parameters, the third stands alone.  The first and the
second parameter are spoilt after one and two iterations, the third never. -/
example : ∃ (uses : Fin 3 → Fin 3 → Bool) (missing : Fin 3 → Prop), Spoilt uses missing 1 0 ∧ ¬ Spoilt uses missing 1 1 ∧
    Spoilt uses missing 2 1 ∧ ∀ k, ¬ Spoilt uses missing k 2 := by
  refine ⟨fun i j => (i = 0 && j = 0) || (i = 1 && (j = 0 || j = 1)) || (i = 2 && j = 2), fun i => i = 0, ?_, ?_, ?_, fun k => ?_⟩
  · exact .inr ⟨0, rfl, .inl rfl⟩
  · rintro (h | ⟨i, hi, h | ⟨j, -, h⟩⟩)
    · exact h
    · subst h
      revert hi
      decide
    · exact h
  · exact .inr ⟨1, rfl, .inr ⟨0, rfl, .inr ⟨0, rfl, .inl rfl⟩⟩⟩
  · induction k with
    | zero => exact fun h => h
    | succ k ih =>
      rintro (h | ⟨i, hi, h | ⟨j, hj, h⟩⟩)
      · exact ih h
      · subst h
        revert hi
        decide
      · have h2 : j = 2 := by
          clear h ih
          revert i j
          decide
        rw [h2] at h
        exact ih h

/-- The hypotheses of `C160_denoising`, and with it those of `C160_rows`, `C160_logpi`, `C160_mala_rejects` and `C160_mala_never`, are met: three pixels, the first missing. -/
example : ∃ (d : Fin 3 → NanReal) (d' : Fin 3 → ℝ) (par : Params) (b g : ℕ), d 0 = none ∧ (∀ i x, d i = some x → d' i = x) ∧
    IsSigma 3 (.num ((2 : ℝ) : ℂ) false) (fun _ => 2) ∧ par.lmda ≠ 0 ∧ par.nburn = b ∧ par.ngap = g ∧ par.complex = false ∧
    par.verbosity ≤ 0 ∧ "chain" ∈ par.track ∧ par.nsamples = 10 :=
  ⟨![none, some 1, some 5], ![7, 1, 5], ⟨1, 1 / 2, 1, 1, 10, (3 : ℕ), (2 : ℕ), false, 0, ["chain"]⟩, 3, 2, rfl,
    fun i x h => by fin_cases i <;> simp_all, .scalar 2 (by norm_num), one_ne_zero, rfl, rfl, rfl, le_rfl, by simp, rfl⟩

/-- The hypotheses of `C160_mala_complete` are met by denoising with a generator that draws ones and zeros, so that all is accepted. -/
example (par : Params) (hl : par.lmda ≠ 0) (b g : ℕ) (hb : par.nburn = b) (hg : par.ngap = g) :
    ∃ (M : Sampler 3) (d : Fin 3 → ℝ) (w : Fin 3 → ℝ) (t : ℝ), M.par = par ∧
    M.F.data.vals = (fun i => (d i : ℂ)) ∧ M.F.invcov = Matrix.diagonal (fun i => (w i : ℂ)) ∧
    Total M 3 (eyeStored 3).fwd ((eyeStored 3).grad w d) (fun x i => softEntry (x i) t) (fun x => ∑ i, ‖x i‖) ∧
    ∃ (fuel : ℕ) (st : MalaSt (constRng 1 0)),
      malaRun M (constRng 1 0) false M.par.delta (initArrays M) () (.array1 (List.ofFn fun j => ((![0, 1, 2] : Fin 3 → ℝ) j : ℂ))) fuel =
        .ok (some st) := by
  obtain ⟨F, P, -, -, hd, hw, -, tot⟩ := denoise_total (n := 3) ⟨false, fun i => ((![7, 1, 5] : Fin 3 → ℝ) i : ℂ)⟩ rfl _ _
    (.scalar 2 (by norm_num)) "analysis" (.inl rfl) 1
  have tot := tot par hl
  refine ⟨⟨F, P.toPrior, par, 3⟩, ![7, 1, 5], fun _ => 1 / 2 ^ 2, 1, rfl, by rw [hd], hw, ?_⟩
  rw [and_iff_left_of_imp fun tot => mala_returns (M := ⟨F, P.toPrior, par, 3⟩) (constRng 1 0) tot false _ (initArrays_shaped _) b g hb hg _
    () () _ _ (start_array (constRng 1 0) tot () _) fun N => ⟨b + N * max g 1, (Nat.le_mul_of_pos_right N (one_pos.trans_le (le_max_right _ _))).trans (Nat.le_add_left _ _),
      Nat.le_add_right _ _, ⟨N, by rw [Nat.add_sub_cancel_left, mul_comm]⟩, .inl rfl⟩]
  have e1 : (fun x : Fin 3 → ℂ => x) = (eyeStored 3).fwd := by
    funext x
    rw [eyeStored_fwd]
  have e2 : (fun (y : Fin 3 → ℂ) i => (y i - ((![7, 1, 5] : Fin 3 → ℝ) i : ℂ)) / (((2 : ℝ) ^ 2 : ℝ) : ℂ)) =
      (eyeStored 3).grad (fun _ => 1 / 2 ^ 2) ![7, 1, 5] := by
    funext y i
    rw [eyeStored_grad]
    push_cast
    ring
  simp only [e2] at tot
  rw [e1] at tot
  exact tot

end Pxmcmc
