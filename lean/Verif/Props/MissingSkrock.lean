import Verif.Model.MissingSkrock
import Verif.Props.Missing
import Verif.Props.SkrockDiverges

/-! # Property C160 for SKROCK: a missing datum spreads once per stage -/

namespace Pxmcmc
variable {m n : ℕ} (R : Rng) (A : Stored m n) (w : Fin m → ℝ) (t : ℝ) (par : Params)

theorem Spoilt.mono {uses : Fin m → Fin n → Bool} {missing : Fin m → Prop} {j : Fin n} {a b : ℕ} (hab : a ≤ b)
    (h : Spoilt uses missing a j) : Spoilt uses missing b j := by
  induction hab with
  | refl => exact h
  | step _ ih => exact .inl ih

theorem missGradlogpi_none_self (d : Fin m → NanReal) (X : Fin n → NanReal) (j : Fin n) (h : X j = none) :
    missGradlogpi A w d t par X j = none := by
  unfold missGradlogpi
  rw [h, nanOp_none_left]
  rfl

theorem missGradlogpi_none_grad (d : Fin m → NanReal) (X : Fin n → NanReal) (j : Fin n) (i : Fin m) (hi : A.has i j = true)
    (h : d i = none ∨ ∃ j', A.has i j' = true ∧ X j' = none) : missGradlogpi A w d t par X j = none := by
  have hg : missGradg A w d (A.dot X) j = none := by
    refine dot_none A.adj _ j i hi ?_
    rcases h with h | ⟨j', hj', hX⟩
    · rw [h, nanOp_none_right]
      rfl
    · rw [dot_none A X i j' hj' hX, nanOp_none_left]
      rfl
  unfold missGradlogpi
  rw [hg, nanOp_none_right]

theorem missGradlogpi_congr (d d' : Fin m → NanReal) (X Y : Fin n → NanReal) (j : Fin n) (hj : X j = Y j)
    (h : ∀ i, A.has i j = true → d i = d' i ∧ ∀ j', A.has i j' = true → X j' = Y j') :
    missGradlogpi A w d t par X j = missGradlogpi A w d' t par Y j := by
  have hg : missGradg A w d (A.dot X) j = missGradg A w d' (A.dot Y) j := by
    refine dot_congr A.adj _ _ j fun i hi => ?_
    obtain ⟨h1, h2⟩ := h i hi
    rw [h1, dot_congr A X Y i h2]
  unfold missGradlogpi missProxf
  rw [hg, hj]

/-- NaN in `X` exactly where `S` says, and the entries of `Y` elsewhere. -/
def SpoiltAs (S : Fin n → Prop) (X Y : Fin n → NanReal) : Prop := ∀ j, (S j → X j = none) ∧ (¬ S j → X j = Y j)

/-- The gradient spreads NaN by one. -/
theorem missGradlogpi_spoilt (d : Fin m → NanReal) (d' : Fin m → ℝ) (hd : ∀ i x, d i = some x → d' i = x) (a : ℕ) (X Y : Fin n → NanReal)
    (h : SpoiltAs (Spoilt A.has (fun i => d i = none) a) X Y) :
    SpoiltAs (Spoilt A.has (fun i => d i = none) (a + 1)) (missGradlogpi A w d t par X)
      (missGradlogpi A w (fun i => some (d' i)) t par Y) := by
  intro j
  constructor
  · rintro (hs | ⟨i, hi, hs⟩)
    · exact missGradlogpi_none_self A w t par d X j ((h j).1 hs)
    · refine missGradlogpi_none_grad A w t par d X j i hi ?_
      rcases hs with hs | ⟨j', hj', hs⟩
      · exact .inl hs
      · exact .inr ⟨j', hj', (h j').1 hs⟩
  · intro hs
    refine missGradlogpi_congr A w t par d _ X Y j ((h j).2 fun h' => hs (.inl h')) fun i hi => ⟨?_, fun j' hj' => ?_⟩
    · cases hdi : d i with
      | none => exact absurd (.inr ⟨i, hi, .inl hdi⟩) hs
      | some x => rw [hd i x hdi]
    · exact (h j').2 fun h' => hs (.inr ⟨i, hi, .inr ⟨j', hj', h'⟩⟩)

/-- After `s` stages NaN has spread by `s`. -/
theorem missK_spoilt (d : Fin m → NanReal) (d' : Fin m → ℝ) (hd : ∀ i x, d i = some x → d' i = x) (co : SkrockCoefs) (a : ℕ)
    (X Y : Fin n → NanReal) (z : Fin n → ℝ) (h : SpoiltAs (Spoilt A.has (fun i => d i = none) a) X Y) (s : ℕ) :
    SpoiltAs (Spoilt A.has (fun i => d i = none) (a + s)) (missK A w d t par co X z s)
      (missK A w (fun i => some (d' i)) t par co Y z s) := by
  induction s using Nat.strong_induction_on with
  | _ s ih =>
    match s with
    | 0 => exact h
    | 1 =>
      have hg := missGradlogpi_spoilt A w t par d d' hd a (fun j => (X j).map (· + co.nus.getD 1 0 * √(2 * par.delta) * z j))
        (fun j => (Y j).map (· + co.nus.getD 1 0 * √(2 * par.delta) * z j)) fun j =>
          ⟨fun hs => by simp only [(h j).1 hs, Option.map_none], fun hs => by simp only [(h j).2 hs]⟩
      intro j
      constructor
      · intro hs
        unfold missK
        rw [(hg j).1 hs, Option.map_none, nanOp_none_right, nanOp_none_left]
      · intro hs
        unfold missK
        rw [(hg j).2 hs, (h j).2 fun h' => hs (.inl h')]
    | s + 2 =>
      have h1 := ih (s + 1) (by omega)
      have h0 := ih s (by omega)
      have hg := missGradlogpi_spoilt A w t par d d' hd (a + (s + 1)) _ _ h1
      intro j
      constructor
      · intro hs
        unfold missK
        rw [(hg j).1 hs, Option.map_none, nanOp_none_left, Option.map_none, nanOp_none_left]
      · intro hs
        unfold missK
        rw [(hg j).2 hs, (h1 j).2 fun h' => hs (.inl h'), (h0 j).2 fun h' => hs (h'.mono (by omega))]

/-- Without NaN the gradient is that of the model. -/
theorem missGradlogpi_complete (d : Fin m → ℝ) (x : Fin n → ℝ) : ∃ y : Fin n → ℝ,
    missGradlogpi A w (fun i => some (d i)) t par (fun j => some (x j)) = (fun j => some (y j)) ∧
    (fun j => (y j : ℂ)) = gradVec par.lmda A.fwd (A.grad w d) (fun x i => softEntry (x i) t) fun j => (x j : ℂ) := by
  obtain ⟨g, h1, h2⟩ := missGradg_complete A w d x
  refine ⟨fun j => -((x j - softEntry (x j) t) / par.lmda) - g j, ?_, ?_⟩
  · funext j
    unfold missGradlogpi missProxf
    rw [h1]
    rfl
  · funext j
    simp only [gradVec, softEntry_ofReal]
    rw [← h2]
    push_cast
    ring

/-- Without NaN the stages are those of the model. -/
theorem missK_complete (d : Fin m → ℝ) (co : SkrockCoefs) (x z : Fin n → ℝ) (s : ℕ) : ∃ y : Fin n → ℝ,
    missK A w (fun i => some (d i)) t par co (fun j => some (x j)) z s = (fun j => some (y j)) ∧
    (fun j => (y j : ℂ)) = kVec co par.delta (gradVec par.lmda A.fwd (A.grad w d) fun x i => softEntry (x i) t) (fun j => (x j : ℂ))
      (fun j => (z j : ℂ)) s := by
  induction s using Nat.strong_induction_on with
  | _ s ih =>
    match s with
    | 0 => exact ⟨x, rfl, rfl⟩
    | 1 =>
      obtain ⟨g, h1, h2⟩ := missGradlogpi_complete A w t par d fun j => x j + co.nus.getD 1 0 * √(2 * par.delta) * z j
      refine ⟨fun j => x j + co.mus.getD 1 0 * par.delta * g j + co.ks.getD 1 0 * √(2 * par.delta) * z j, ?_, ?_⟩
      · funext j
        unfold missK
        simp only [Option.map_some]
        rw [h1]
        rfl
      · funext j
        have h3 := congrFun h2 j
        simp only [kVec]
        push_cast at h3 ⊢
        rw [h3]
    | s + 2 =>
      obtain ⟨y1, h1, h1'⟩ := ih (s + 1) (by omega)
      obtain ⟨y0, h0, h0'⟩ := ih s (by omega)
      obtain ⟨g, hg, hg'⟩ := missGradlogpi_complete A w t par d y1
      refine ⟨fun j => co.mus.getD (s + 2) 0 * par.delta * g j + co.nus.getD (s + 2) 0 * y1 j + co.ks.getD (s + 2) 0 - y0 j, ?_, ?_⟩
      · funext j
        unfold missK
        rw [h1, h0, hg]
        rfl
      · funext j
        simp only [kVec]
        rw [← h1', ← h0', ← hg']
        push_cast
        rfl

/-- The sample after `k` iterations. -/
noncomputable def missSkState (co : SkrockCoefs) (d : Fin m → NanReal) (x0 : Fin n → ℝ) (z : ℕ → Fin n → ℝ) : ℕ → Fin n → NanReal
  | 0 => fun j => some (x0 j)
  | k + 1 => missK A w d t par co (missSkState co d x0 z k) (z k) par.s

theorem missSkState_complete (co : SkrockCoefs) (d : Fin m → ℝ) (x0 : Fin n → ℝ) (z : ℕ → Fin n → ℝ) (k : ℕ) : ∃ y : Fin n → ℝ,
    missSkState A w t par co (fun i => some (d i)) x0 z k = (fun j => some (y j)) ∧
    (fun j => (y j : ℂ)) = fwState (fun x z => kVec co par.delta (gradVec par.lmda A.fwd (A.grad w d) fun x i => softEntry (x i) t) x z par.s)
      (fun j => (x0 j : ℂ)) (fun k j => (z k j : ℂ)) k := by
  induction k with
  | zero => exact ⟨x0, rfl, rfl⟩
  | succ k ih =>
    obtain ⟨y, h1, h2⟩ := ih
    obtain ⟨y', h3, h4⟩ := missK_complete A w t par d co y (z k) par.s
    refine ⟨y', ?_, ?_⟩
    · rw [missSkState, h1, h3]
    · rw [h4, h2]
      rfl

theorem missSkState_spoilt (co : SkrockCoefs) (d : Fin m → NanReal) (d' : Fin m → ℝ) (hd : ∀ i x, d i = some x → d' i = x)
    (x0 : Fin n → ℝ) (z : ℕ → Fin n → ℝ) (k : ℕ) :
    SpoiltAs (Spoilt A.has (fun i => d i = none) (k * par.s)) (missSkState A w t par co d x0 z k)
      (missSkState A w t par co (fun i => some (d' i)) x0 z k) := by
  induction k with
  | zero =>
    rw [Nat.zero_mul]
    exact fun j => ⟨fun h => h.elim, fun _ => rfl⟩
  | succ k ih =>
    rw [Nat.succ_mul]
    exact missK_spoilt A w t par d d' hd co _ _ _ (z k) ih par.s

theorem missSkLoop (co : SkrockCoefs) (d : Fin m → NanReal) (r : R.σ) (x0 : Fin n → ℝ) (b : ℕ) (hb : par.nburn = b) (k : ℕ)
    (hk : k ≤ numIter par.nsamples b (spacing par)) :
    Reach (fun st => decide (st.j < par.nsamples)) (missSkBody R A w d t par co) ⟨0, 0, fun j => some (x0 j), A.dot fun j => some (x0 j), r, []⟩ k
      ⟨k, cnt b (spacing par) k, missSkState A w t par co d x0 (fun k => (R.randn (rngSeq R false n r k) n).1) k,
        A.dot (missSkState A w t par co d x0 (fun k => (R.randn (rngSeq R false n r k) n).1) k), rngSeq R false n r k,
        (List.range (cnt b (spacing par) k)).map fun l =>
          missRow par w d (A.dot (missSkState A w t par co d x0 (fun k => (R.randn (rngSeq R false n r k) n).1) (b + l * spacing par + 1)))
            (missSkState A w t par co d x0 (fun k => (R.randn (rngSeq R false n r k) n).1) (b + l * spacing par + 1))⟩ := by
  have hg := spacing_pos par
  induction k with
  | zero =>
    rw [cnt_zero]
    exact .refl
  | succ k ih =>
    have hlt := cnt_lt_of_lt _ b _ k hg (show k < numIter par.nsamples b (spacing par) by omega)
    refine .step (ih (by omega)) (by simpa using hlt) ?_
    unfold missSkBody
    by_cases hs : (k : ℤ) ≥ par.nburn ∧ thinned par k
    · obtain ⟨h1, h2⟩ := (saved_iff par b hb k).mp hs
      obtain ⟨h3, h4⟩ := cnt_saved b (spacing par) k hg h1 h2
      simp only [hs, and_self, if_true]
      rw [h3, List.range_succ, List.map_append, List.map_cons, List.map_nil, ← h4]
      rfl
    · have h3 := cnt_not_saved b (spacing par) k hg fun h => hs ((saved_iff par b hb k).mpr h)
      simp only [hs, if_false]
      rw [h3]
      rfl

theorem missSkRun_rows (co : SkrockCoefs) (hco : skrockInit par.s = .ok co) (d : Fin m → NanReal) (r : R.σ) (x0 : Fin n → ℝ) (b : ℕ)
    (hb : par.nburn = b) :
    ∃ (st : MissSt R m n) (N : ℕ), (∀ fuel ≥ N, missSkRun R A w d t par r x0 fuel = .ok (some st)) ∧
      st.rows = (List.range par.nsamples).map fun l =>
          missRow par w d (A.dot (missSkState A w t par co d x0 (fun k => (R.randn (rngSeq R false n r k) n).1) (b + l * spacing par + 1)))
            (missSkState A w t par co d x0 (fun k => (R.randn (rngSeq R false n r k) n).1) (b + l * spacing par + 1)) := by
  have h := missSkLoop R A w t par co d r x0 b hb _ le_rfl
  have hc := cnt_numIter par.nsamples b (spacing par) (spacing_pos par)
  rw [hc] at h
  have h2 := fun k => h.returns (by simp) k
  have h3 : ∀ fuel ≥ numIter par.nsamples b (spacing par), missSkRun R A w d t par r x0 fuel = .ok (some _) := fun fuel hf => by
    obtain ⟨k, rfl⟩ := Nat.exists_eq_add_of_le hf
    unfold missSkRun
    rw [hco]
    exact h2 k
  exact ⟨_, _, h3, rfl⟩

/-- C160, SKROCK: as for MYULA (`C160_rows`), but a NaN spreads once per stage instead of once per iteration; the parameters that are
not spoilt are those of `skrockRun` for any numbers in place of the missing data. -/
theorem C160_skrock_rows {A : Stored m n} {w : Fin m → ℝ} {t : ℝ} (M : Sampler m) (hc : M.par.complex = false) (hs : 1 ≤ M.par.s)
    (b g : ℕ) (hb : M.par.nburn = b) (hg : M.par.ngap = g) (d : Fin m → NanReal) (d' : Fin m → ℝ) (hd : ∀ i x, d i = some x → d' i = x)
    {pri : (Fin n → ℂ) → ℝ} (tot : Total M n A.fwd (A.grad w d') (fun x i => softEntry (x i) t) pri) (r : R.σ) (x0 : Fin n → ℝ)
    (Arr : Arrays) (hA : Arr.Shaped M.par.nsamples) (fuel : ℕ) (st : St R)
    (hrun : skrockRun M R Arr r (.array1 (List.ofFn fun j => (x0 j : ℂ))) fuel = .ok (some st))
    (rows : Fin M.par.nsamples → Fin n → ℂ)
    (hrows : (Arr.applyAll st.ev).chain = some (List.ofFn fun k : Fin M.par.nsamples => List.ofFn (rows k))) :
    ∃ (st' : MissSt R m n) (N : ℕ), (∀ fuel ≥ N, missSkRun R A w d t M.par r x0 fuel = .ok (some st')) ∧
      st'.rows.length = M.par.nsamples ∧
      ∀ (k : Fin M.par.nsamples) (row : MissRow m n), st'.rows[k]? = some row →
        (∀ j, (Spoilt A.has (fun i => d i = none) ((b + k * max g 1 + 1) * M.par.s) j → row.X j = none) ∧
          (¬ Spoilt A.has (fun i => d i = none) ((b + k * max g 1 + 1) * M.par.s) j → ∃ y : ℝ, row.X j = some y ∧ rows k j = (y : ℂ))) ∧
        (∀ i, row.preds i = none ↔ ∃ j, A.has i j = true ∧ Spoilt A.has (fun i => d i = none) ((b + k * max g 1 + 1) * M.par.s) j) ∧
        ((∃ i, d i = none) → row.logPi = none ∧ row.L2 = none) := by
  obtain ⟨co, hco, -⟩ := C18_total M.par.s hs
  obtain ⟨st', N, h1, h2⟩ := missSkRun_rows R A w t M.par co hco d r x0 b hb
  refine ⟨st', N, h1, by rw [h2]; simp, fun k row hrow => ?_⟩
  rw [h2] at hrow
  simp only [Fin.getElem?_fin, List.getElem?_map, List.getElem?_range k.2, Option.map_some, Option.some.injEq] at hrow
  have hX : row.X = missSkState A w t M.par co d x0 (fun k => (R.randn (rngSeq R false n r k) n).1) (b + k * max g 1 + 1) := by
    rw [← hrow, spacing_nat _ g hg]
    rfl
  have hP : row.preds = A.dot row.X := by
    rw [← hrow]
    rfl
  have hz : noiseSeq R M.par.complex n r = fun k j => (((R.randn (rngSeq R false n r k) n).1 j : ℝ) : ℂ) := by
    funext k j
    rw [hc]
    rfl
  obtain ⟨y, h5, h6⟩ := missSkState_complete A w t M.par co d' x0 (fun k => (R.randn (rngSeq R false n r k) n).1)
    (b + k * max g 1 + 1)
  have h7 := skrock_chain_rows R tot co hco Arr hA b g hb hg r (fun j => (x0 j : ℂ)) fuel st hrun rows hrows k
  rw [hz, hc, ← h6] at h7
  have hm : ∀ j, (Spoilt A.has (fun i => d i = none) ((b + k * max g 1 + 1) * M.par.s) j → row.X j = none) ∧
      (¬ Spoilt A.has (fun i => d i = none) ((b + k * max g 1 + 1) * M.par.s) j → ∃ y : ℝ, row.X j = some y ∧ rows k j = (y : ℂ)) := by
    intro j
    rw [hX]
    obtain ⟨h3, h4⟩ := missSkState_spoilt A w t M.par co d d' hd x0 (fun k => (R.randn (rngSeq R false n r k) n).1)
      (b + k * max g 1 + 1) j
    refine ⟨h3, fun hs => ⟨y j, by rw [h4 hs, h5], ?_⟩⟩
    rw [h7]
    simp [store]
  refine ⟨hm, fun i => ?_, fun ⟨i, hi⟩ => ?_⟩
  · rw [hP, dot_eq_none]
    constructor
    · rintro ⟨j, hj, h⟩
      refine ⟨j, hj, ?_⟩
      by_contra hs
      obtain ⟨y, hy, -⟩ := (hm j).2 hs
      rw [h] at hy
      cases hy
    · rintro ⟨j, hj, h⟩
      exact ⟨j, hj, (hm j).1 h⟩
  · rw [← hrow]
    have hL : ∀ (X : Fin n → NanReal), (missRow M.par w d (A.dot X) X).L2 = none := fun X => by
      refine nanSum_none _ (List.mem_map.mpr ⟨i, List.mem_finRange i, ?_⟩)
      simp only [hi, nanOp_none_left]
    refine ⟨?_, hL _⟩
    rw [missRow_logPi, hL, nanOp_none_right]

/-- The hypotheses are met by denoising: three pixels, the first missing, any parameters with two or more stages and `"chain"` tracked. -/
example (R : Rng) (r : R.σ) (par : Params) (b g : ℕ) (hl : par.lmda ≠ 0) (hb : par.nburn = b) (hg : par.ngap = g)
    (hv : par.verbosity ≤ 0) (htr : "chain" ∈ par.track) (hs : 2 ≤ par.s) :
    ∃ (M : Sampler 3) (d : Fin 3 → NanReal) (d' w : Fin 3 → ℝ) (t : ℝ) (Arr : Arrays) (fuel : ℕ) (st : St R)
      (rows : Fin par.nsamples → Fin 3 → ℂ), M.par = par ∧ d 0 = none ∧ (∀ i x, d i = some x → d' i = x) ∧
      Total M 3 (eyeStored 3).fwd ((eyeStored 3).grad w d') (fun x i => softEntry (x i) t) (fun x => ∑ i, ‖x i‖) ∧
      Arr.Shaped par.nsamples ∧
      skrockRun M R Arr r (.array1 (List.ofFn fun j => ((![0, 1, 2] : Fin 3 → ℝ) j : ℂ))) fuel = .ok (some st) ∧
      (Arr.applyAll st.ev).chain = some (List.ofFn fun k => List.ofFn (rows k)) := by
  obtain ⟨F, P, -, -, -, -, -, tot⟩ := denoise_total (n := 3) ⟨false, fun i => ((![7, 1, 5] : Fin 3 → ℝ) i : ℂ)⟩ rfl _ _
    (.scalar 2 (by norm_num)) "analysis" (.inl rfl) 1
  have tot := tot par hl
  have e1 : (fun x : Fin 3 → ℂ => x) = (eyeStored 3).fwd := by
    funext x
    rw [eyeStored_fwd]
  have e2 : (fun (y : Fin 3 → ℂ) i => (y i - ((![7, 1, 5] : Fin 3 → ℝ) i : ℂ)) / (((2 : ℝ) ^ 2 : ℝ) : ℂ)) =
      (eyeStored 3).grad (fun _ => 1 / 2 ^ 2) ![7, 1, 5] := by
    funext y i
    rw [eyeStored_grad]
    push_cast
    ring
  simp only [e2] at tot
  rw [e1] at tot
  obtain ⟨co, f, -, -, -, st, h1, -, h2⟩ := C42_schedule ⟨F, P.toPrior, par, 3⟩ R (initArrays ⟨F, P.toPrior, par, 3⟩) (initArrays_shaped _)
    (.inl hv) (by exact le_trans (by norm_num) hs) b g hb hg tot _ (fun x => gradlogpi_vec _ tot x) r r
    (.array1 (List.ofFn fun j => ((![0, 1, 2] : Fin 3 → ℝ) j : ℂ))) _ (start_array R tot r _) _ rfl
  obtain ⟨l, hl'⟩ : ∃ l, (initArrays ⟨F, P.toPrior, par, 3⟩).chain = some l :=
    ⟨_, if_pos (e := (none : Option (List (List ℂ)))) htr⟩
  refine ⟨⟨F, P.toPrior, par, 3⟩, ![none, some 1, some 5], ![7, 1, 5], fun _ => 1 / 2 ^ 2, 1, _, _, st,
    fun k i => store par.complex (iter f (noiseSeq R par.complex 3 r) (fun j => ((![0, 1, 2] : Fin 3 → ℝ) j : ℂ)) (b + k * max g 1 + 1) i),
    rfl, rfl, fun i x h => by fin_cases i <;> simp_all, tot, initArrays_shaped _, h1 _ le_rfl, ?_⟩
  rw [h2]
  simp only [Arrays.ofRows, hl', Option.map_some, Option.some.injEq]
  refine List.ext_getElem (by simp) fun k hk hk' => ?_
  simp only [List.getElem_map, List.getElem_range, List.getElem_ofFn]
  rfl

/-- With two stages NaN reaches in one iteration what it reaches with one stage in two. -/
example : ∃ (uses : Fin 2 → Fin 2 → Bool) (missing : Fin 2 → Prop), ¬ Spoilt uses missing (1 * 1) 1 ∧ Spoilt uses missing (1 * 2) 1 := by
  refine ⟨fun i j => i = 1 || j = 0, fun i => i = 0, ?_, .inr ⟨1, rfl, .inr ⟨0, rfl, .inr ⟨0, rfl, .inl rfl⟩⟩⟩⟩
  rintro (h | ⟨i, hi, h | ⟨j, -, h⟩⟩)
  · exact h
  · subst h
    revert hi
    decide
  · exact h

end Pxmcmc
