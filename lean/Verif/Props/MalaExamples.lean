import Verif.Props.Mala
import Verif.Props.MalaTrace
import Verif.Props.MalaBalance

/-! # Concrete PxMALA runs meeting the hypotheses of the theorems in Props/Mala, MalaTrace and MalaBalance

All use the demo sampler (one parameter, `f = 0`, `g = x²`), start 0, noise 1, step size 1/2 and the stream `rejectOnce`:
the first proposal is rejected, the following ones are accepted. -/

namespace Pxmcmc

/-- The arrays of the demo sampler. -/
noncomputable def demoArr (ns b : ℕ) : Arrays := initArrays (demo (demoPar ns b))

/-- The start of the demo runs. -/
noncomputable def demoSp : StartPoint := .array1 (List.ofFn fun _ : Fin 1 => 0)

theorem demoRun1 : ∃ st, malaRun (demo (demoPar 1 (0 : ℕ))) (seqRng rejectOnce) false (1 / 2) (demoArr 1 0) (0 : ℕ) demoSp 2 =
    .ok (some st) := demo_mala_returns 1 0 2 _ (initArrays_shaped _) rejectOnce rfl (fun _ => rfl) (by simp)

theorem demoRun2 : ∃ st, malaRun (demo (demoPar 2 (0 : ℕ))) (seqRng rejectOnce) false (1 / 2) (demoArr 2 0) (0 : ℕ) demoSp 3 =
    .ok (some st) := demo_mala_returns 2 0 3 _ (initArrays_shaped _) rejectOnce rfl (fun _ => rfl) (by simp)

/-- C43, C49, C55: the two-sample run returns, its rows are 1 (checked below) and 3/2. -/
example : ∃ st, malaRun (demo (demoPar 2 (0 : ℕ))) (seqRng rejectOnce) false (1 / 2) (demoArr 2 0) (0 : ℕ) demoSp 3 =
      .ok (some st) ∧
    (∃ X row, Records (demo (demoPar 2 (0 : ℕ))) X row ∧ ((demoArr 2 0).applyAll st.ev).RowIs 1 row) ∧
    (∃ row, ((demoArr 2 0).applyAll st.ev).RowIs 1 row ∧ row.chain = [3 / 2]) ∧
    acceptedThinned st.acc 0 0 = 2 := by
  obtain ⟨st, h⟩ := demoRun2
  refine ⟨st, h, C43_rows_mala _ _ _ _ _ (initArrays_shaped _) 0 rfl _ _ _ _ h 1 (by simp [demo, demoPar]), ?_, ?_⟩
  · obtain ⟨row, h1, h2⟩ := demo_mala_rows 2 0 3 _ (initArrays_shaped _) rejectOnce rfl (fun _ => rfl) (by simp) st h
    exact ⟨row, h1, by simpa using h2⟩
  · exact ((C54_stops_partial _ _ _ _ _ (initArrays_shaped _) 0 0 rfl rfl _ _).1 _ _ h).1

/-- C44: the one-sample and the two-sample run share row 0. -/
example : ∃ st st', malaRun (demo (demoPar 1 (0 : ℕ))) (seqRng rejectOnce) false (1 / 2) (demoArr 1 0) (0 : ℕ) demoSp 2 =
      .ok (some st) ∧
    malaRun (demo (demoPar 2 (0 : ℕ))) (seqRng rejectOnce) false (1 / 2) (demoArr 2 0) (0 : ℕ) demoSp 3 = .ok (some st') ∧
    ∃ row, ((demoArr 1 0).applyAll st.ev).RowIs 0 row ∧ ((demoArr 2 0).applyAll st'.ev).RowIs 0 row := by
  obtain ⟨st, h⟩ := demoRun1
  obtain ⟨st', h'⟩ := demoRun2
  exact ⟨st, st', h, h', C44_longer_runs_mala (demo (demoPar 1 (0 : ℕ))) _ _ _ _ _ 2 0 0 rfl rfl (initArrays_shaped _)
    (initArrays_shaped _) 0 ["chain"] (by simp [demo, demoPar]) _ _ _ _ st st' h h' 0 (by simp [demo, demoPar])⟩

/-- C48, C50, C51 (no tuning): the state after the three iterations of the two-sample run. -/
example : ∃ s0 s m, malaInit (demo (demoPar 2 (0 : ℕ))) (seqRng rejectOnce) (1 / 2) (0 : ℕ) demoSp = .ok s0 ∧
    Reach (malaCond (demo (demoPar 2 (0 : ℕ)))) (malaBody (demo (demoPar 2 (0 : ℕ))) (seqRng rejectOnce) false (demoArr 2 0)) s0 m s ∧
    Synced (demo (demoPar 2 (0 : ℕ))) s.cur ∧ s.acc.length = m ∧ s.deltas = [1 / 2] := by
  obtain ⟨st, h⟩ := demoRun2
  obtain ⟨s0, s, m, h0, hr, -, -, -⟩ := malaRun_ok _ _ _ _ _ _ _ _ _ h
  exact ⟨s0, s, m, h0, hr, C48_synced _ _ _ _ _ _ _ _ h0 _ _ hr, (C50_traces _ _ _ _ _ _ _ _ h0 _ _ hr).1,
    (C51_untuned _ _ _ _ _ _ _ h0 _ _ hr).2⟩

/-- C51 (tuning): the first iteration of a tuned run. -/
example : ∃ s0 s, malaInit (demo (demoPar 2 (0 : ℕ))) (seqRng rejectOnce) (1 / 2) (0 : ℕ) demoSp = .ok s0 ∧
    Reach (malaCond (demo (demoPar 2 (0 : ℕ)))) (malaBody (demo (demoPar 2 (0 : ℕ))) (seqRng rejectOnce) true
      (demoArr 2 0)) s0 1 s ∧ ∃ d d' : ℝ, s.deltas[0]? = some d ∧ s.deltas[1]? = some d' ∧ 1 * 1e-8 ≤ d' ∧ d' ≤ 1 / 2 := by
  have tot := demo_total (demoPar 2 (0 : ℕ)) one_ne_zero
  have hi := init_vec (demo (demoPar 2 (0 : ℕ))) (seqRng rejectOnce) tot (1 / 2) (0 : ℕ) (0 : ℕ) demoSp (fun _ => 0)
    (demo_start _ _ _ _ one_ne_zero)
  obtain ⟨c1, c2, c3⟩ := C54_stops_partial (demo (demoPar 2 (0 : ℕ))) (seqRng rejectOnce) true (1 / 2) (demoArr 2 0)
    (initArrays_shaped _) 0 0 rfl rfl (0 : ℕ) demoSp
  rcases c3 1 _ _ _ _ (fun _ => 0) (0 : ℕ) tot (demo_start _ _ _ _ one_ne_zero) 1 with h | ⟨st, h⟩
  · obtain ⟨s, hr, -, -⟩ := c2 1 _ hi h
    obtain ⟨d, d', e1, e2, e3, e4, -⟩ := C51_tuned (demo (demoPar 2 (0 : ℕ))) (seqRng rejectOnce) _ (1 / 2)
      (by simp [demo, demoPar]) (by norm_num) _ _ _ hi 1 s hr 0 one_pos
    exact ⟨_, s, hi, hr, d, d', e1, e2, e3, e4⟩
  · obtain ⟨h1, h2, -⟩ := c1 1 st h
    exfalso
    have := List.length_filter_le (fun i => decide (st.acc[i]? = some 1 ∧ 0 ≤ i ∧ max 0 1 ∣ i - 0)) (List.range st.acc.length)
    unfold acceptedThinned at h1
    rw [h1, List.length_range] at this
    have e : (demo (demoPar 2 (0 : ℕ))).par.nsamples = 2 := rfl
    omega

/-- With `u = 0` throughout, a one-sample run returns after one iteration. -/
theorem demo_accept_returns (A0 : Arrays) (hA : A0.Shaped 1) (r : ℕ) : ∃ st,
    malaRun (demo (demoPar 1 (0 : ℕ))) (seqRng fun _ => 0) false (1 / 2) A0 r demoSp 1 = .ok (some st) := by
  classical
  have tot := demo_total (demoPar 1 (0 : ℕ)) one_ne_zero
  have hi := init_vec (demo (demoPar 1 (0 : ℕ))) (seqRng fun _ => 0) tot (1 / 2) r r demoSp (fun _ => 0)
    (demo_start _ _ _ _ one_ne_zero)
  obtain ⟨-, c2, c3⟩ := C54_stops_partial (demo (demoPar 1 (0 : ℕ))) (seqRng fun _ => 0) false (1 / 2) A0 hA 0 0 rfl rfl
    r demoSp
  rcases c3 1 _ _ _ _ (fun _ => 0) r tot (demo_start _ _ _ _ one_ne_zero) 1 with h | h
  · exfalso
    obtain ⟨s, hr, -, hlt⟩ := c2 1 _ hi h
    obtain ⟨-, -, -, T, hT, hcore, -⟩ := minv_reach _ _ false A0 0 rfl (1 / 2) r demoSp _ hi 1 s hr
    have e0 : T 0 = ⟨0, dc 1 (0 : ℕ) 0, r, 1 / 2, [], [1 / 2]⟩ := by
      rw [hT.1]
      simp [MalaSt.core, dc]
    have h1 := hT.2 0 one_pos
    rw [e0, demo_core, if_pos (accept_zero _), if_pos (accept_zero _)] at h1
    have hacc : s.acc = [1] := by
      have := congrArg Core.acc hcore
      rw [← Except.ok.inj h1] at this
      exact this
    rw [hacc] at hlt
    revert hlt
    show ¬ acceptedThinned [1] 0 0 < 1
    decide
  · exact h

/-- C59: a second run after the first one. -/
example : ∃ st1, malaRun (demo (demoPar 1 (0 : ℕ))) (seqRng fun _ => 0) false (1 / 2) (demoArr 1 0) (0 : ℕ) demoSp 1 =
      .ok (some st1) ∧ ∃ st2, malaRun (demo (demoPar 1 (0 : ℕ))) (seqRng fun _ => 0) false st1.delta
        ((demoArr 1 0).applyAll st1.ev) st1.rng demoSp 1 = .ok (some st2) ∧ st2.deltas.head? = some (1 / 2) := by
  obtain ⟨st1, h1⟩ := demo_accept_returns (demoArr 1 0) (initArrays_shaped _) 0
  have hd : st1.delta = 1 / 2 := by
    obtain ⟨s0, s, m, h0, hr, -, -, rfl⟩ := malaRun_ok _ _ _ _ _ _ _ _ _ h1
    exact (C51_untuned _ _ _ _ _ _ _ h0 _ _ hr).1
  obtain ⟨st2, h2⟩ := demo_accept_returns ((demoArr 1 0).applyAll st1.ev)
    (Arrays.Shaped.of_same (Arrays.applyAll_shape _ _) (initArrays_shaped (demo (demoPar 1 (0 : ℕ))))) st1.rng
  rw [← hd] at h2
  refine ⟨st1, h1, st2, h2, ?_⟩
  rw [← hd]
  exact (C59_second_run_mala (demo (demoPar 1 (0 : ℕ))) _ _ _ _ (initArrays_shaped _) 0 rfl _ _ _ st1 h1 _ _ st2 h2).1

/-- C53: the ratio for the states 0 and 1. -/
example : ∃ a a', malaLogAlpha (demo (demoPar 1 0)) (1 / 2) (dc 1 0 0) (dc 1 0 1) = .ok a ∧
    malaLogAlpha (demo (demoPar 1 0)) (1 / 2) (dc 1 0 1) (dc 1 0 0) = .ok a' ∧ a' = -a ∧ a ≠ 0 := by
  have h1 := logAlpha_vec (demo (demoPar 1 0)) (fwd := fun x => x) (grad := fun y => y) (prox := fun x => x)
    (pri := fun _ => 0) (1 / 2) (fun _ : Fin 1 => ((0 : ℝ) : ℂ)) (fun _ => ((1 : ℝ) : ℂ))
  have h2 := logAlpha_vec (demo (demoPar 1 0)) (fwd := fun x => x) (grad := fun y => y) (prox := fun x => x)
    (pri := fun _ => 0) (1 / 2) (fun _ : Fin 1 => ((1 : ℝ) : ℂ)) (fun _ => ((0 : ℝ) : ℂ))
  have e1 := demo_logAlpha 1 0 0 1
  have e2 := demo_logAlpha 1 0 1 0
  unfold logAlphaVec at e1 e2
  rw [e1] at h1
  rw [e2] at h2
  refine ⟨_, _, h1, h2, ?_, ?_⟩
  · rw [← Complex.ofReal_neg]; norm_num [demoAlpha]
  · rw [Complex.ofReal_ne_zero]; norm_num [demoAlpha]

end Pxmcmc
