import Verif.Props.Mala

/-! # Properties C49–C54: what PxMALA records, tunes, accepts and when it stops -/

namespace Pxmcmc
variable {n p : ℕ}

/-! ## C49 (partial), C50, C51 -/

/-- C49 (partial): row `k` is the state of the chain right after the `k`-th *accepted* iteration on the thinning grid
after burn-in, and that iteration's state is the accepted proposal.  Missing: repeats for rejected thinned iterations,
which the code does not save (`C49_rejections_refuted`). -/
theorem C49_accepted_states_partial (M : Sampler n) (R : Rng) (tune : Bool) (delta : ℝ) (A0 : Arrays)
    (hA : A0.Shaped M.par.nsamples) (b g : ℕ) (hb : M.par.nburn = b) (hg : M.par.ngap = g) (r : R.σ) (sp : StartPoint)
    (fuel : ℕ) (st s0 : MalaSt R) (h0 : malaInit M R delta r sp = .ok s0)
    (h : malaRun M R tune delta A0 r sp fuel = .ok (some st)) (k : ℕ) (hk : k < M.par.nsamples) :
    ∃ t, ((List.range st.acc.length).filter fun i => decide (st.acc[i]? = some 1 ∧ b ≤ i ∧ max g 1 ∣ i - b))[k]? = some t ∧
      ∃ s, Reach (malaCond M) (malaBody M R tune A0) s0 (t + 1) s ∧ s.acc.getLast? = some 1 ∧
        (A0.applyAll st.ev).RowIs k (mkRow M s.cur.X s.cur.preds (s.cur.logpi, s.cur.L2, s.cur.prior)) := by
  obtain ⟨s1, T, h1, hT, hcore, hacc, -, hlen, harr, -⟩ := malaRun_result M R tune delta A0 hA b hb r sp fuel st h
  rw [h0] at h1
  obtain rfl := Except.ok.inj h1
  have hk' : k < (savedIters st.acc b (spacing M.par)).length := by rw [hlen]; exact hk
  have hlt := savedIters_lt _ _ _ _ (List.getElem_mem hk')
  have hidx := List.getElem?_eq_getElem hk'
  generalize ht : (savedIters st.acc b (spacing M.par))[k] = t at *
  refine ⟨t, by rw [← hidx, spacing_nat _ g hg]; rfl, ?_⟩
  obtain ⟨s1, s, m, h1, hr, hc, -, rfl⟩ := malaRun_ok M R tune delta A0 r sp fuel st h
  rw [h0] at h1
  obtain rfl := Except.ok.inj h1
  have hm := (minv_reach M R tune A0 b hb delta r sp s0 h0 m s hr).1
  simp only at hT hcore hacc hlt hlen harr hidx hk'
  obtain ⟨q, hq⟩ := hr.prefix (t + 1) (by omega)
  obtain ⟨-, -, -, V, hV, hqc, -⟩ := minv_reach M R tune A0 b hb delta r sp s0 h0 _ q hq
  have hT' : CoreHist M R tune s0.core (t + 1) T := ⟨hT.1, fun k hk => hT.2 k (by omega)⟩
  have hqT : q.core = T (t + 1) := by rw [hqc]; exact hV.unique hT' _ le_rfl
  refine ⟨q, hq, ?_, ?_⟩
  · -- the flag of iteration t is 1
    have hmem : t ∈ savedIters s.acc b (spacing M.par) := by
      rw [← ht]; exact List.getElem_mem hk'
    have h1 : s.acc[t]? = some 1 := by
      unfold savedIters at hmem
      exact (of_decide_eq_true (List.mem_filter.mp hmem).2).1
    have hpre : q.acc <+: s.acc := by
      have e1 : q.acc = (T (t + 1)).acc := congrArg Core.acc hqT
      have e2 : s.acc = (T s.i).acc := congrArg Core.acc hcore
      rw [e1, e2]
      exact coreHist_acc M R tune _ _ T hT _ _ (by omega) le_rfl
    have hql := (minv_reach M R tune A0 b hb delta r sp s0 h0 _ q hq).2.1
    obtain ⟨w, hw⟩ := hpre
    rw [← hw, List.getElem?_append_left (by omega)] at h1
    rw [List.getLast?_eq_getElem?, hql]
    exact h1
  · rw [harr]
    have := ofRows_rowIs A0 M.par.nsamples (histRow M T (savedIters s.acc b (spacing M.par))) k hk
    have e : histRow M T (savedIters s.acc b (spacing M.par)) k =
        mkRow M q.cur.X q.cur.preds (q.cur.logpi, q.cur.L2, q.cur.prior) := by
      unfold histRow cacheRow
      rw [hidx, Option.getD_some, ← hqT]
      rfl
    rw [← e]
    exact this

/-- C50: after `m` iterations there is one 0/1 acceptance flag per iteration, `deltas_trace` has `m+1` entries when
tuning and just the initial step size otherwise, its last entry is the current step size, and the number of saved rows is
at most the number of acceptances. -/
theorem C50_traces (M : Sampler n) (R : Rng) (tune : Bool) (A0 : Arrays) (delta : ℝ)
    (r : R.σ) (sp : StartPoint) (s0 : MalaSt R) (h0 : malaInit M R delta r sp = .ok s0) (m : ℕ) (st : MalaSt R)
    (h : Reach (malaCond M) (malaBody M R tune A0) s0 m st) :
    st.acc.length = m ∧ (∀ v ∈ st.acc, v = 0 ∨ v = 1) ∧ st.deltas.length = (if tune then m + 1 else 1) ∧
      st.deltas.head? = some delta ∧ st.deltas.getLast? = some st.delta ∧ st.j ≤ st.acc.count 1 := by
  obtain ⟨-, i2, i3, -, i5, i6, -⟩ := malaInit_ok M R delta r sp s0 h0
  refine h.invariant (fun m st => st.acc.length = m ∧ (∀ v ∈ st.acc, v = 0 ∨ v = 1) ∧
    st.deltas.length = (if tune then m + 1 else 1) ∧ st.deltas.head? = some delta ∧ st.deltas.getLast? = some st.delta ∧
    st.j ≤ st.acc.count 1) ?_ ?_
  · refine ⟨by simp [i3], by simp [i3], by simp [i6], by simp [i6], by simp [i5, i6], by simp [i2]⟩
  · intro k s s' ⟨a1, a2, a3, a4, a5, a6⟩ _ hbody
    obtain ⟨hstep, hs, hns⟩ := malaBody_ok M R tune A0 s s' hbody
    obtain ⟨pr, a, v, -, -, -, hacc, -, hv, hd⟩ := coreStep_ok M R tune _ _ hstep
    have hacc' : s'.acc = s.acc ++ [v] := hacc
    have hv' : v = 0 ∨ v = 1 := by rcases hv with ⟨-, e, -⟩ | ⟨-, e, -⟩ <;> simp [e]
    refine ⟨by rw [hacc']; simp [a1], ?_, ?_, ?_, ?_, ?_⟩
    · intro x hx
      rw [hacc'] at hx
      rcases List.mem_append.mp hx with hx | hx
      · exact a2 x hx
      · rw [List.mem_singleton.mp hx]; exact hv'
    · rcases hd with ⟨rfl, -, e⟩ | ⟨rfl, -, e⟩
      · have e' : s'.deltas = s.deltas ++ [s'.delta] := e
        rw [e']
        simpa using a3
      · have e' : s'.deltas = s.deltas := e
        rw [e']
        simpa using a3
    · rcases hd with ⟨rfl, -, e⟩ | ⟨rfl, -, e⟩
      · have e' : s'.deltas = s.deltas ++ [s'.delta] := e
        rw [e', List.head?_append, a4]
        rfl
      · have e' : s'.deltas = s.deltas := e
        rw [e', a4]
    · rcases hd with ⟨rfl, -, e⟩ | ⟨rfl, f, e⟩
      · have e' : s'.deltas = s.deltas ++ [s'.delta] := e
        rw [e']
        simp
      · have e' : s'.deltas = s.deltas := e
        have f' : s'.delta = s.delta := f
        rw [e', f', a5]
    · rw [hacc', List.count_append]
      by_cases hc : savesLast M s.i s'.acc
      · have h1 := (hs hc).1
        have h2 := hc.2
        rw [hacc'] at h2
        simp only [List.getLast?_concat, Option.some.injEq] at h2
        subst h2
        simp
        omega
      · have h1 := (hns hc).1
        omega

theorem pyGet_nat {α : Type} (l : List α) (k : ℕ) (v : α) (h : l[k]? = some v) : pyGet l (k : ℤ) = .ok v := by
  unfold pyGet
  have h1 : ¬ (k : ℤ) < 0 := by omega
  simp [h1, h]

/-- C51, tuning on: every step size after the first iteration lies in `[1e-8*lmda, lmda/2]`; it rises (or sits at the
upper bound) after an acceptance and falls (or sits at the lower bound) after a rejection. -/
theorem C51_tuned (M : Sampler n) (R : Rng) (A0 : Arrays) (delta : ℝ) (hl : 0 < M.par.lmda) (hd : 0 < delta)
    (r : R.σ) (sp : StartPoint) (s0 : MalaSt R) (h0 : malaInit M R delta r sp = .ok s0) (m : ℕ) (st : MalaSt R)
    (h : Reach (malaCond M) (malaBody M R true A0) s0 m st) :
    ∀ k < m, ∃ d d', st.deltas[k]? = some d ∧ st.deltas[k + 1]? = some d' ∧ M.par.lmda * 1e-8 ≤ d' ∧
      d' ≤ M.par.lmda / 2 ∧ (st.acc[k]? = some 1 → d < d' ∨ d' = M.par.lmda / 2) ∧
      (st.acc[k]? = some 0 → d' < d ∨ d' = M.par.lmda * 1e-8) := by
  obtain ⟨i1, -, i3, -, i5, i6, -⟩ := malaInit_ok M R delta r sp s0 h0
  have key := h.invariant (fun m st => st.i = m ∧ st.acc.length = m ∧ st.deltas.length = m + 1 ∧
    st.deltas[m]? = some st.delta ∧ 0 < st.delta ∧ ∀ k < m, ∃ d d', st.deltas[k]? = some d ∧
      st.deltas[k + 1]? = some d' ∧ M.par.lmda * 1e-8 ≤ d' ∧
      d' ≤ M.par.lmda / 2 ∧ (st.acc[k]? = some 1 → d < d' ∨ d' = M.par.lmda / 2) ∧
      (st.acc[k]? = some 0 → d' < d ∨ d' = M.par.lmda * 1e-8)) ?_ ?_
  · exact key.2.2.2.2.2
  · exact ⟨i1, by simp [i3], by simp [i6], by simp [i6, i5], by rw [i5]; exact hd, fun k hk => absurd hk (by omega)⟩
  · intro k s s' ⟨a0, a1, a2, a3, a4, a5⟩ _ hbody
    obtain ⟨hstep, -, -⟩ := malaBody_ok M R true A0 s s' hbody
    obtain ⟨pr, a, v, -, -, hi, hacc, -, hv, hdd⟩ := coreStep_ok M R true _ _ hstep
    have hacc' : s'.acc = s.acc ++ [v] := hacc
    have hi' : s'.i = s.i + 1 := hi
    rcases hdd with ⟨-, ht, hds⟩ | ⟨hf, -⟩
    · have ht' : tuneDelta M s.delta s'.acc s.i = .ok s'.delta := ht
      have hds' : s'.deltas = s.deltas ++ [s'.delta] := hds
      -- the new step size
      have hget : pyGet s'.acc (s.i : ℤ) = .ok v := by
        apply pyGet_nat
        rw [hacc', show s.i = s.acc.length by omega, List.getElem?_concat_length]
      unfold tuneDelta at ht'
      rw [hget] at ht'
      have hpow : 1 ≤ ((s.i : ℝ) + 1) ^ (3 / 4 : ℝ) :=
        Real.one_le_rpow (by have : (0 : ℝ) ≤ s.i := Nat.cast_nonneg _; linarith) (by norm_num)
      have hlo : M.par.lmda * 1e-8 < M.par.lmda / 2 := by norm_num; linarith
      have hlo0 : 0 < M.par.lmda * 1e-8 := by positivity
      have hde : s'.delta = min (max (s.delta * (1 + ((v : ℝ) - 1 / 2) / ((s.i : ℝ) + 1) ^ (3 / 4 : ℝ)))
          (M.par.lmda * 1e-8)) (M.par.lmda / 2) := (Except.ok.inj ht').symm
      generalize hP : ((s.i : ℝ) + 1) ^ (3 / 4 : ℝ) = P at *
      have hb1 : M.par.lmda * 1e-8 ≤ s'.delta := by
        rw [hde]; exact le_min (le_max_right _ _) hlo.le
      have hb2 : s'.delta ≤ M.par.lmda / 2 := by rw [hde]; exact min_le_right _ _
      have hvv : v = 0 ∨ v = 1 := by rcases hv with ⟨-, e, -⟩ | ⟨-, e, -⟩ <;> simp [e]
      refine ⟨by omega, by rw [hacc']; simp [a1], by rw [hds']; simp [a2], ?_, lt_of_lt_of_le hlo0 hb1, ?_⟩
      · rw [hds', List.getElem?_append_right (by omega)]
        simp [a2]
      · intro q hq
        rcases Nat.lt_or_ge q k with hqk | hqk
        · obtain ⟨d, d', e1, e2, e3, e4, e5, e6⟩ := a5 q hqk
          refine ⟨d, d', ?_, ?_, e3, e4, ?_, ?_⟩
          · rw [hds', List.getElem?_append_left (by omega)]; exact e1
          · rw [hds', List.getElem?_append_left (by omega)]; exact e2
          · rw [hacc', List.getElem?_append_left (by omega)]; exact e5
          · rw [hacc', List.getElem?_append_left (by omega)]; exact e6
        · obtain rfl : q = k := by omega
          refine ⟨s.delta, s'.delta, ?_, ?_, hb1, hb2, ?_, ?_⟩
          · rw [hds', List.getElem?_append_left (by omega)]; exact a3
          · rw [hds', List.getElem?_append_right (by omega)]; simp [a2]
          · intro h1
            rw [hacc', List.getElem?_append_right (by omega)] at h1
            simp only [a1, Nat.sub_self, List.getElem?_cons_zero, Option.some.injEq] at h1
            subst h1
            by_cases hsat : s'.delta = M.par.lmda / 2
            · exact .inr hsat
            · left
              rw [hde] at hsat ⊢
              rcases min_choice (max (s.delta * (1 + (((1 : ℕ) : ℝ) - 1 / 2) / P)) (M.par.lmda * 1e-8)) (M.par.lmda / 2)
                with hm | hm
              · rw [hm]
                refine lt_of_lt_of_le ?_ (le_max_left _ _)
                have : 0 < (((1 : ℕ) : ℝ) - 1 / 2) / P := by
                  apply div_pos _ (by linarith)
                  norm_num
                nlinarith
              · exact absurd hm hsat
          · intro h1
            rw [hacc', List.getElem?_append_right (by omega)] at h1
            simp only [a1, Nat.sub_self, List.getElem?_cons_zero, Option.some.injEq] at h1
            subst h1
            have hneg : s.delta * (1 + (((0 : ℕ) : ℝ) - 1 / 2) / P) < s.delta := by
              have : (((0 : ℕ) : ℝ) - 1 / 2) / P < 0 := by
                apply div_neg_of_neg_of_pos _ (by linarith)
                norm_num
              nlinarith
            rcases max_choice (s.delta * (1 + (((0 : ℕ) : ℝ) - 1 / 2) / P)) (M.par.lmda * 1e-8) with hm | hm
            · left
              rw [hde, hm]
              exact lt_of_le_of_lt (min_le_left _ _) hneg
            · right
              rw [hde, hm, min_eq_left hlo.le]
    · cases hf

/-- C51, tuning off: the step size never changes. -/
theorem C51_untuned (M : Sampler n) (R : Rng) (A0 : Arrays) (delta : ℝ) (r : R.σ) (sp : StartPoint) (s0 : MalaSt R)
    (h0 : malaInit M R delta r sp = .ok s0) (m : ℕ) (st : MalaSt R)
    (h : Reach (malaCond M) (malaBody M R false A0) s0 m st) : st.delta = delta ∧ st.deltas = [delta] := by
  obtain ⟨-, -, -, -, i5, i6, -⟩ := malaInit_ok M R delta r sp s0 h0
  refine h.invariant (fun _ st => st.delta = delta ∧ st.deltas = [delta]) ⟨i5, i6⟩ ?_
  intro k s s' ⟨a1, a2⟩ _ hbody
  obtain ⟨hstep, -, -⟩ := malaBody_ok M R false A0 s s' hbody
  obtain ⟨pr, a, v, -, -, -, -, -, -, hd⟩ := coreStep_ok M R false _ _ hstep
  rcases hd with ⟨hf, -⟩ | ⟨-, e1, e2⟩
  · cases hf
  · have e1' : s'.delta = s.delta := e1
    have e2' : s'.deltas = s.deltas := e2
    exact ⟨by rw [e1', a1], by rw [e2', a2]⟩

/-! ## C52 -/

open MeasureTheory in
/-- C52: with `u` uniform on `[0,1)`, the proposal is accepted with probability `min(1, e^{Re a})` (for complex data the
code compares complex numbers lexicographically, which changes a null set only). -/
theorem C52_probability (a : ℂ) :
    volume {u : ℝ | u ∈ Set.Ico (0 : ℝ) 1 ∧ acceptTest u a} = ENNReal.ofReal (min 1 (Real.exp a.re)) := by
  have he := Real.exp_pos a.re
  have hpos : (0 : ℝ) < min 1 (Real.exp a.re) := lt_min one_pos he
  apply le_antisymm
  · calc volume {u : ℝ | u ∈ Set.Ico (0 : ℝ) 1 ∧ acceptTest u a} ≤ volume (Set.Icc (0 : ℝ) (min 1 (Real.exp a.re))) := by
          apply measure_mono
          rintro u ⟨⟨h0, h1⟩, hu⟩
          refine ⟨h0, le_min h1.le ?_⟩
          rcases eq_or_lt_of_le h0 with h | h
          · rw [← h]; exact he.le
          · rcases hu with rfl | hu | ⟨hu, -⟩
            · exact he.le
            · exact ((Real.log_lt_iff_lt_exp h).mp hu).le
            · exact (Real.log_le_iff_le_exp h).mp hu.le
      _ = ENNReal.ofReal (min 1 (Real.exp a.re)) := by rw [Real.volume_Icc]; simp
  · calc ENNReal.ofReal (min 1 (Real.exp a.re)) = volume (Set.Ico (0 : ℝ) (min 1 (Real.exp a.re))) := by
          rw [Real.volume_Ico]; simp
      _ ≤ volume {u : ℝ | u ∈ Set.Ico (0 : ℝ) 1 ∧ acceptTest u a} := by
          apply measure_mono
          rintro u ⟨h0, h1⟩
          refine ⟨⟨h0, lt_of_lt_of_le h1 (min_le_left _ _)⟩, ?_⟩
          rcases eq_or_lt_of_le h0 with h | h
          · exact .inl h.symm
          · exact .inr (.inl ((Real.log_lt_iff_lt_exp h).mpr (lt_of_lt_of_le h1 (min_le_right _ _))))

end Pxmcmc
