import Verif.Props.MalaExamples
import Verif.Props.MyulaRows
import Verif.Props.Plotting
import Verif.Props.Scripts
import Verif.Props.Experiments
import Verif.Props.Progress
import Verif.Props.PlotScripts
import Verif.Props.Mala

/-! # Further concrete cases meeting hypotheses of theorems in other files -/

namespace Pxmcmc

/-- C49_accepted_states_partial: row 1 of the two-sample demo run (first proposal rejected) is the state after an accepted iteration. -/
example : ∃ st s0 t s, malaRun (demo (demoPar 2 (0 : ℕ))) (seqRng rejectOnce) false (1 / 2) (demoArr 2 0) (0 : ℕ) demoSp 3 = .ok (some st) ∧
    Reach (malaCond (demo (demoPar 2 (0 : ℕ)))) (malaBody (demo (demoPar 2 (0 : ℕ))) (seqRng rejectOnce) false (demoArr 2 0)) s0 (t + 1) s ∧
    s.acc.getLast? = some 1 := by
  obtain ⟨st, h⟩ := demoRun2
  obtain ⟨s0, -, -, h0, -⟩ := malaRun_ok _ _ _ _ _ _ _ _ _ h
  obtain ⟨t, -, s, h1, h2, -⟩ := C49_accepted_states_partial _ _ _ _ _ (initArrays_shaped _) 0 0 rfl rfl _ _ _ st s0 h0 h 1
    (by simp [demo, demoPar])
  exact ⟨st, s0, t, s, h, h1, h2⟩

/-- C57_stored_partial: a complex sampler stores the state `2 + i`; a real one stores the state 2, and the predictions if these are real. -/
example : (rowOf (demo ⟨1, 1 / 2, 1, 1, 1, 0, 0, true, 0, ["chain"]⟩) (fun x : Fin 1 → ℂ => x) (fun _ => 0) fun _ => 2 + Complex.I).chain =
      [2 + Complex.I] ∧
    (rowOf (demo ⟨1, 1 / 2, 1, 1, 1, 0, 0, false, 0, ["chain"]⟩) (fun x : Fin 1 → ℂ => x) (fun _ => 0) fun _ => 2).preds = [2] := by
  constructor
  · rw [(C57_stored_partial _ _ _ _).1 (.inl rfl)]
    simp
  · rw [(C57_stored_partial _ _ _ _).2 (fun i => by simp)]
    simp

/-- C76_upper_partial: two wavelet scales of bandlimit 1 with coefficients 2 and 5; the common upper limit is 5. -/
example : ∃ (c0 : NdArr ℂ × WavMapArgs Unit) (cs : List (NdArr ℂ × WavMapArgs Unit)),
    plotWaveletMaps recordCall [1, 1, 1] [2, 5] [7] true ⟨none, none, ()⟩ = .ok (c0 :: cs) ∧ cs.length = 2 ∧
      ∀ c ∈ cs, c.2.vmax = some 5 := by
  have h : ∃ (c0 : NdArr ℂ × WavMapArgs Unit) (cs : List (NdArr ℂ × WavMapArgs Unit)),
      plotWaveletMaps recordCall [1, 1, 1] [2, 5] [7] true ⟨none, none, ()⟩ = .ok (c0 :: cs) ∧ cs.length = 2 := by
    simp [plotWaveletMaps, npReshape, recordCall, sameScaleArgs, npMaxC, wavMapLoop, slice, mwLength, bind, Except.bind]
  obtain ⟨c0, cs, h, hl⟩ := h
  refine ⟨c0, cs, h, hl, ?_⟩
  obtain ⟨v, h1, ⟨z, hz, hzv⟩, h3⟩ := C76_upper_partial 1 [1, 1] [2, 5] [7] _ c0 cs h
  have h5 := h1 5 (by simp)
  have hv : v = 5 := by
    simp only [List.mem_cons, List.not_mem_nil, or_false] at hz
    rcases hz with rfl | rfl
    · norm_num at h5 hzv
      linarith
    · rw [← hzv]; norm_num
  rw [← hv]
  exact h3

/-- C89_negative_burn: three samples, `nburn = -2`. -/
example : chainPix true 3 (-(2 : ℕ)) 1 (fun s => .ok s) [[1], [2], [3]] = .ok ([[2], [3]] ++ List.replicate 3 [0]) := by
  have := C89_negative_burn true 1 (fun s => .ok s) id [[1], [2], [3]] (by simp) 2 (by norm_num) (by simp)
  simpa [store] using this

/-- C59 for SKROCK: six samples, then a second run of the same sampler on the filled arrays. -/
example : ∃ st1 st2, skrockRun (demo (loudPar 6 0)) (constRng 0 0) (initArrays (demo (loudPar 6 0))) ()
      (.array1 (List.ofFn fun _ : Fin 1 => 4)) 7 = .ok (some st1) ∧
    skrockRun (demo (loudPar 6 0)) (constRng 0 0) ((initArrays (demo (loudPar 6 0))).applyAll st1.ev) st1.cur.rng
      (.array1 (List.ofFn fun _ : Fin 1 => 9)) 7 = .ok (some st2) ∧
    ∃ st3, skrockRun (demo (loudPar 6 0)) (constRng 0 0) (initArrays (demo (loudPar 6 0))) st1.cur.rng
      (.array1 (List.ofFn fun _ : Fin 1 => 9)) 7 = .ok (some st3) ∧
    ((initArrays (demo (loudPar 6 0))).applyAll st1.ev).applyAll st2.ev = (initArrays (demo (loudPar 6 0))).applyAll st3.ev := by
  obtain ⟨st1, h1, -, -⟩ := loud_skrock 5 0
  have hsh : (initArrays (demo (loudPar 6 0))).Shaped (demo (loudPar 6 0)).par.nsamples := initArrays_shaped _
  have run : ∀ A0 : Arrays, A0.Shaped (demo (loudPar 6 0)).par.nsamples → ∃ st,
      skrockRun (demo (loudPar 6 0)) (constRng 0 0) A0 () (.array1 (List.ofFn fun _ : Fin 1 => 9)) 7 = .ok (some st) := by
    intro A0 hA
    have tot : Total (demo (loudPar 6 0)) 1 (fun x => x) (fun y => y) (fun x => x) (fun _ => 0) :=
      demo_total (loudPar 6 0) one_ne_zero
    obtain ⟨-, -, -, -, -, st, hst, -, -⟩ := C42_schedule (demo (loudPar 6 0)) (constRng 0 0) A0 hA (.inl le_rfl)
      (by simp [demo, loudPar]) 1 0 rfl rfl tot _ (fun x => gradlogpi_vec _ tot x) () () (.array1 (List.ofFn fun _ => 9))
      (fun _ => 9) (demo_start _ _ _ _ one_ne_zero) 7 (by simp [demo, loudPar])
    exact ⟨st, hst 7 le_rfl⟩
  obtain ⟨st2, h2⟩ := run _ (Arrays.Shaped.of_same (Arrays.applyAll_shape _ st1.ev) hsh)
  obtain ⟨st3, h3⟩ := run _ hsh
  exact ⟨st1, st2, h1, h2, st3, h3, C59_second_run_skrock _ _ _ hsh 1 rfl _ _ _ st1 h1 _ _ _ st2 st3 h2 h3⟩

/-- C109: a pixel of a map with band limit 8. -/
example (galb : ℝ → ℝ → ℝ) : ∃ b, (plotMask galb 8).data[3 * (2 * 8 - 1) + 11]? = some b := by
  obtain ⟨b, h, -⟩ := C109_mask galb 8 3 11 (by norm_num) (by norm_num)
  exact ⟨b, h⟩

/-- C86: one pixel with error 2, unit normal draw 3 and true height 5000 m. -/
example : topoNoise (List.ofFn ![(2 : ℝ)]) (List.ofFn ![(3 : ℝ)]) = .ok [6] ∧
    List.ofFn ![((5006 : ℂ) / 1000)] = topoData (List.ofFn ![(5000 : ℂ)]) [6] := by
  constructor
  · unfold topoNoise
    rw [if_neg (by simp)]
    norm_num
  · norm_num [topoData]

end Pxmcmc
