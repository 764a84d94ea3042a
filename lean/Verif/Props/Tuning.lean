import Verif.Lemmas.Tuning
import Verif.Props.MalaTrace
import Verif.Props.MalaExamples

/-! # Property C102: what step-size tuning achieves -/

namespace Pxmcmc
open Finset

variable {n : ℕ}

theorem getD_left {α : Type} (l l' : List α) (j : ℕ) (d : α) (h : j < l.length) : (l ++ l').getD j d = l.getD j d := by
  rw [List.getD_eq_getElem?_getD, List.getD_eq_getElem?_getD, List.getElem?_append_left h]

theorem getD_last {α : Type} (l : List α) (x d : α) : (l ++ [x]).getD l.length d = x := by
  rw [List.getD_eq_getElem?_getD, List.getElem?_concat_length]; rfl

/-- The traces of a tuned run obey the recursion. -/
theorem tuned_rec (M : Sampler n) (R : Rng) (A0 : Arrays) (delta : ℝ) (hl : 0 < M.par.lmda)
    (hlo : M.par.lmda * 1e-8 ≤ delta) (hhi : delta ≤ M.par.lmda / 2)
    (r : R.σ) (sp : StartPoint) (s0 : MalaSt R) (h0 : malaInit M R delta r sp = .ok s0) (m : ℕ) (st : MalaSt R)
    (h : Reach (malaCond M) (malaBody M R true A0) s0 m st) :
    st.acc.length = m ∧ st.deltas.length = m + 1 ∧
      TuneRec M.par.lmda (fun k => st.deltas.getD k 0) (fun k => ((st.acc.getD k 0 : ℕ) : ℝ)) 0 m := by
  obtain ⟨i1, -, i3, -, i5, i6, -⟩ := malaInit_ok M R delta r sp s0 h0
  have key := h.invariant (fun m st => st.i = m ∧ st.acc.length = m ∧ st.deltas.length = m + 1 ∧
    st.deltas.getD m 0 = st.delta ∧
    TuneRec M.par.lmda (fun k => st.deltas.getD k 0) (fun k => ((st.acc.getD k 0 : ℕ) : ℝ)) 0 m) ?_ ?_
  · exact ⟨key.2.1, key.2.2.1, key.2.2.2.2⟩
  · refine ⟨i1, by simp [i3], by simp [i6], by simp [i6, i5], hl, fun j _ hj => absurd hj (by omega), ?_, ?_,
      fun j _ hj => absurd hj (by omega)⟩ <;> simp [i6, hlo, hhi]
  · intro k s s' ⟨a0, a1, a2, a3, a4⟩ _ hbody
    obtain ⟨hstep, -, -⟩ := malaBody_ok M R true A0 s s' hbody
    obtain ⟨pr, a, v, -, -, hi, hacc, -, hv, hdd⟩ := coreStep_ok M R true _ _ hstep
    have hacc' : s'.acc = s.acc ++ [v] := hacc
    have hi' : s'.i = s.i + 1 := hi
    rcases hdd with ⟨-, ht, hds⟩ | ⟨hf, -⟩
    · have ht' : tuneDelta M s.delta s'.acc s.i = .ok s'.delta := ht
      have hds' : s'.deltas = s.deltas ++ [s'.delta] := hds
      have hget : pyGet s'.acc (s.i : ℤ) = .ok v := by
        apply pyGet_nat
        rw [hacc', show s.i = s.acc.length by omega, List.getElem?_concat_length]
      unfold tuneDelta at ht'
      rw [hget] at ht'
      have hde := (Except.ok.inj ht').symm
      have hvv : v = 0 ∨ v = 1 := by rcases hv with ⟨-, e, -⟩ | ⟨-, e, -⟩ <;> simp [e]
      have hA : ∀ j < k, s'.acc.getD j 0 = s.acc.getD j 0 := fun j hj => by
        rw [hacc', getD_left _ _ _ _ (by omega)]
      have hAk : s'.acc.getD k 0 = v := by
        rw [hacc', ← a1]; exact getD_last _ _ _
      have hD : ∀ j ≤ k, s'.deltas.getD j 0 = s.deltas.getD j 0 := fun j hj => by
        rw [hds', getD_left _ _ _ _ (by omega)]
      have hDk : s'.deltas.getD (k + 1) 0 = s'.delta := by
        rw [hds', ← a2]; exact getD_last _ _ _
      refine ⟨by omega, by rw [hacc']; simp [a1], by rw [hds']; simp [a2], hDk, hl, fun j _ hj => ?_, ?_, ?_,
        fun j _ hj => ?_⟩
      · rcases Nat.lt_or_ge j k with hjk | hjk
        · simp only [hA j hjk]; exact a4.flag j (by omega) hjk
        · obtain rfl : j = k := by omega
          simp only [hAk]
          rcases hvv with rfl | rfl <;> simp
      · simp only [hD 0 (by omega)]; exact a4.lo
      · simp only [hD 0 (by omega)]; exact a4.hi
      · rcases Nat.lt_or_ge j k with hjk | hjk
        · simp only [hA j hjk, hD j (by omega), hD (j + 1) (by omega)]; exact a4.step j (by omega) hjk
        · obtain rfl : j = k := by omega
          simp only [hAk, hD j le_rfl, hDk, a3]
          rw [hde, a0]
          rfl
    · cases hf

theorem getD_of_some {α : Type} {l : List α} {k : ℕ} {x d : α} (h : l[k]? = some x) : l.getD k d = x := by
  rw [List.getD_eq_getElem?_getD, h]; rfl

theorem sum_flags (l : List ℕ) (h : ∀ v ∈ l, v = 0 ∨ v = 1) :
    ∑ j ∈ range l.length, ((l.getD j 0 : ℕ) : ℝ) = l.count 1 := by
  induction l with
  | nil => simp
  | cons v l ih =>
    rw [List.length_cons, sum_range_succ']
    simp only [List.getD_cons_succ, List.getD_cons_zero]
    rw [ih fun v hv => h v (List.mem_cons_of_mem _ hv), List.count_cons]
    rcases h v List.mem_cons_self with rfl | rfl <;> simp

/-- C102, acceptance rate: as long as the tuned step size has not been at its upper bound `lmda/2`, the share of accepted
proposals among the first `m` exceeds one half by at most `20 / m^(1/4)`; as long as it has not been at its lower bound, the
share falls short by at most that.  So tuning works towards the documented acceptance probability of 0.5. -/
theorem C102_rate (M : Sampler n) (R : Rng) (A0 : Arrays) (delta : ℝ) (hl : 0 < M.par.lmda)
    (hlo : M.par.lmda * 1e-8 ≤ delta) (hhi : delta ≤ M.par.lmda / 2)
    (r : R.σ) (sp : StartPoint) (s0 : MalaSt R) (h0 : malaInit M R delta r sp = .ok s0) (m : ℕ) (hm : 0 < m) (st : MalaSt R)
    (h : Reach (malaCond M) (malaBody M R true A0) s0 m st) :
    st.acc.length = m ∧
    ((∀ k < m, st.deltas[k + 1]? ≠ some (M.par.lmda / 2)) →
      (st.acc.count 1 : ℝ) / m ≤ 1 / 2 + 20 / (m : ℝ) ^ (1 / 4 : ℝ)) ∧
    ((∀ k < m, st.deltas[k + 1]? ≠ some (M.par.lmda * 1e-8)) →
      1 / 2 - 20 / (m : ℝ) ^ (1 / 4 : ℝ) ≤ (st.acc.count 1 : ℝ) / m) := by
  obtain ⟨h1, h2, hrec⟩ := tuned_rec M R A0 delta hl hlo hhi r sp s0 h0 m st h
  have hf := (C50_traces M R true A0 delta r sp s0 h0 m st h).2.1
  have hne : ∀ (c : ℝ), (∀ k < m, st.deltas[k + 1]? ≠ some c) → ∀ j, j < m → st.deltas.getD (j + 1) 0 ≠ c := by
    intro c hc j hj he
    refine hc j hj ?_
    rw [← he, List.getD_eq_getElem?_getD, List.getElem?_eq_getElem (by omega)]
    rfl
  have hs := sum_flags st.acc hf
  rw [h1] at hs
  refine ⟨h1, fun hc => ?_, fun hc => ?_⟩
  · rw [← hs]; exact tune_rate_upper hrec hm (hne _ hc)
  · rw [← hs]; exact tune_rate_lower hrec hm (hne _ hc)

/-- C102, limits: whatever happened in the first `k` iterations, if all later proposals are accepted then the step size is
`lmda/2` from iteration `2k + 5·10⁷` on, and if all are rejected it is `1e-8·lmda`. -/
theorem C102_limits (M : Sampler n) (R : Rng) (A0 : Arrays) (delta : ℝ) (hl : 0 < M.par.lmda)
    (hlo : M.par.lmda * 1e-8 ≤ delta) (hhi : delta ≤ M.par.lmda / 2)
    (r : R.σ) (sp : StartPoint) (s0 : MalaSt R) (h0 : malaInit M R delta r sp = .ok s0) (k m : ℕ)
    (hm : 2 * k + 50000000 ≤ m) (st : MalaSt R) (h : Reach (malaCond M) (malaBody M R true A0) s0 m st) :
    ((∀ j, k ≤ j → j < m → st.acc[j]? = some 1) → st.delta = M.par.lmda / 2) ∧
    ((∀ j, k ≤ j → j < m → st.acc[j]? = some 0) → st.delta = M.par.lmda * 1e-8) := by
  obtain ⟨h1, h2, hrec⟩ := tuned_rec M R A0 delta hl hlo hhi r sp s0 h0 m st h
  have hlast := (C50_traces M R true A0 delta r sp s0 h0 m st h).2.2.2.2.1
  have hd : st.deltas.getD m 0 = st.delta := by
    rw [List.getLast?_eq_getElem?, h2] at hlast
    exact getD_of_some hlast
  have hrec' := hrec.from (Nat.zero_le k) (show k ≤ m by omega)
  refine ⟨fun ha => ?_, fun ha => ?_⟩
  · rw [← hd]
    exact tune_ceiling hrec' hm fun j hj hjm => by simp only [getD_of_some (ha j hj hjm)]; norm_num
  · rw [← hd]
    exact tune_floor hrec' hm fun j hj hjm => by simp only [getD_of_some (ha j hj hjm)]; norm_num

/-- C102, diminishing adaptation: iteration `k` changes the step size by at most `lmda / (4 (k+1)^0.75)`. -/
theorem C102_diminishing (M : Sampler n) (R : Rng) (A0 : Arrays) (delta : ℝ) (hl : 0 < M.par.lmda)
    (hlo : M.par.lmda * 1e-8 ≤ delta) (hhi : delta ≤ M.par.lmda / 2)
    (r : R.σ) (sp : StartPoint) (s0 : MalaSt R) (h0 : malaInit M R delta r sp = .ok s0) (m : ℕ)
    (st : MalaSt R) (h : Reach (malaCond M) (malaBody M R true A0) s0 m st) (k : ℕ) (hk : k < m) :
    ∃ d d', st.deltas[k]? = some d ∧ st.deltas[k + 1]? = some d' ∧
      |d' - d| ≤ M.par.lmda / (4 * ((k : ℝ) + 1) ^ (3 / 4 : ℝ)) := by
  obtain ⟨h1, h2, hrec⟩ := tuned_rec M R A0 delta hl hlo hhi r sp s0 h0 m st h
  have e : ∀ j ≤ m, st.deltas[j]? = some (st.deltas.getD j 0) := by
    intro j hj
    rw [List.getD_eq_getElem?_getD, List.getElem?_eq_getElem (by omega)]
    rfl
  exact ⟨_, _, e k (by omega), e (k + 1) (by omega), tune_small hrec k (by omega) hk⟩

/-- Tuned runs of every length in which every proposal is accepted. -/
theorem demo_tuned (m : ℕ) (delta : ℝ) : ∃ s0 st,
    malaInit (demo (demoPar (m + 1) (0 : ℕ))) (seqRng fun _ => 0) delta (0 : ℕ) demoSp = .ok s0 ∧
    Reach (malaCond (demo (demoPar (m + 1) (0 : ℕ)))) (malaBody (demo (demoPar (m + 1) (0 : ℕ))) (seqRng fun _ => 0) true
      (demoArr (m + 1) 0)) s0 m st ∧ ∀ j < m, st.acc[j]? = some 1 := by
  have htot := demo_total (demoPar (m + 1) (0 : ℕ)) one_ne_zero
  have hstart := demo_start (demoPar (m + 1) (0 : ℕ)) (seqRng fun _ => 0) (0 : ℕ) 0 one_ne_zero
  have hi := init_vec (demo (demoPar (m + 1) (0 : ℕ))) (seqRng fun _ => 0) htot delta (0 : ℕ) (0 : ℕ) demoSp _ hstart
  obtain ⟨h1, h2, h3⟩ := C54_stops_partial (demo (demoPar (m + 1) (0 : ℕ))) (seqRng fun _ => 0) true delta (demoArr (m + 1) 0)
    (initArrays_shaped _) 0 0 rfl rfl (0 : ℕ) demoSp
  have hnone : malaRun (demo (demoPar (m + 1) (0 : ℕ))) (seqRng fun _ => 0) true delta (demoArr (m + 1) 0) (0 : ℕ) demoSp m =
      .ok none := by
    rcases h3 1 _ _ _ _ _ _ htot hstart m with h | ⟨st, h⟩
    · exact h
    · obtain ⟨e1, e2, -⟩ := h1 m st h
      have e3 : acceptedThinned st.acc 0 0 ≤ st.acc.length := by
        refine (List.length_filter_le _ _).trans ?_
        rw [List.length_range]
      have e4 : acceptedThinned st.acc 0 0 = m + 1 := e1
      omega
  obtain ⟨st, hr, hl, -⟩ := h2 m _ hi hnone
  refine ⟨_, st, hi, hr, fun j hj => ?_⟩
  have hall := hr.invariant (fun _ st => ∀ v ∈ st.acc, v = 1) (by simp) (by
    intro k s s' a _ hbody
    obtain ⟨hstep, -, -⟩ := malaBody_ok _ _ true _ s s' hbody
    obtain ⟨pr, al, v, -, -, -, hacc, -, hv, -⟩ := coreStep_ok _ _ true _ _ hstep
    have hacc' : s'.acc = s.acc ++ [v] := hacc
    have hv1 : v = 1 := by
      rcases hv with ⟨-, e, -⟩ | ⟨hn, -⟩
      · exact e
      · exact absurd (accept_zero _) hn
    intro w hw
    rw [hacc', List.mem_append, List.mem_singleton] at hw
    rcases hw with hw | hw
    · exact a w hw
    · rw [hw, hv1])
  rw [List.getElem?_eq_getElem (by omega)]
  exact congrArg some (hall _ (List.getElem_mem _))

/-- C102: a run in which the step size ends up at its upper bound, and one iteration that touches neither bound. -/
example : (∃ st : MalaSt (seqRng fun _ => 0), st.acc.length = 50000000 ∧ st.delta = 1 / 2) ∧
    ∃ st : MalaSt (seqRng fun _ => 0), st.acc.length = 1 ∧ ∀ k < 1, st.deltas[k + 1]? ≠ some (1 / 2 : ℝ) ∧
      st.deltas[k + 1]? ≠ some (1 * 1e-8 : ℝ) := by
  constructor
  · obtain ⟨s0, st, h0, hr, ha⟩ := demo_tuned 50000000 (1 / 4)
    refine ⟨st, ?_, ?_⟩
    · exact (tuned_rec _ _ _ (1 / 4) (by norm_num [demo, demoPar]) (by norm_num [demo, demoPar]) (by norm_num [demo, demoPar])
        _ _ _ h0 _ _ hr).1
    · exact (C102_limits _ _ _ (1 / 4) (by norm_num [demo, demoPar]) (by norm_num [demo, demoPar]) (by norm_num [demo, demoPar])
        _ _ _ h0 0 _ (by norm_num) _ hr).1 fun j _ hj => ha j hj
  · obtain ⟨s0, st, h0, hr, ha⟩ := demo_tuned 1 (1 / 4)
    obtain ⟨e1, e2, e3⟩ := tuned_rec _ _ _ (1 / 4) (by norm_num [demo, demoPar]) (by norm_num [demo, demoPar])
      (by norm_num [demo, demoPar]) _ _ _ h0 _ _ hr
    have e0 : st.deltas.getD 0 0 = 1 / 4 := by
      have := (C50_traces _ _ _ _ _ _ _ _ h0 _ _ hr).2.2.2.1
      rw [List.head?_eq_getElem?] at this
      exact getD_of_some this
    have es := e3.step 0 le_rfl Nat.one_pos
    simp only [e0, getD_of_some (ha 0 Nat.one_pos)] at es
    have e4 : st.deltas.getD 1 0 = 3 / 8 := by
      rw [es]; norm_num [decay, demo, demoPar]
    refine ⟨st, e1, fun k hk => ?_⟩
    obtain rfl : k = 0 := by omega
    have e5 : st.deltas[1]? = some (3 / 8) := by
      rw [← e4, List.getD_eq_getElem?_getD, List.getElem?_eq_getElem (by omega)]; rfl
    rw [e5]
    constructor <;> (intro h; have := Option.some.inj h; norm_num at this)

end Pxmcmc
