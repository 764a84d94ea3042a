import Verif.Model.AlgoChoice
import Verif.Props.Saving
import Verif.Props.Myula
import Verif.Props.MalaTrace
import Verif.Props.MalaBalance

/-! # C147: `--algo` runs and records the algorithm it names -/

namespace Pxmcmc
variable {V : Type} {n p : ℕ}

/-- The two cases of saving used below. -/
theorem runAndSave_some (st : V → Bool) (openable : String → Bool) (D : Disk V) (algo setting jobid outdir : String) (t : Stamp)
    (M : Sampler n) (R : Rng) (r : R.σ) (fuel : ℕ) (params kwargs : List (String × V)) (m : McmcObj)
    (hr : runChosen algo M R r fuel = .ok (some m)) (hp : (params.map Prod.fst).Nodup) (hk : (kwargs.map Prod.fst).Nodup)
    (ho : openable (savePath outdir (runName algo setting t jobid)) = true) (hs : ∀ q ∈ params ++ kwargs, st q.2 = true) :
    ∃ D' f, runAndSave st openable D algo setting jobid outdir t M R r fuel params kwargs = (D', .finished) ∧
      D' (savePath outdir (runName algo setting t jobid)) = some f ∧
      (∀ s, s ≠ savePath outdir (runName algo setting t jobid) → D' s = D s) ∧
      f.ds "logposterior" = m.arrays.logPi.map .vec ∧ f.ds "predictions" = m.arrays.preds.map .mat ∧
      f.ds "chain" = m.arrays.chain.map .mat ∧ f.ds "L2s" = m.arrays.L2s.map .vec ∧ f.ds "priors" = m.arrays.priors.map .vec ∧
      f.ds "acceptances" = m.acceptanceTrace.map .i1 ∧ f.ds "deltas" = m.deltasTrace.map .vec := by
  obtain ⟨D', f, h1, h2, h3, a1, a2, a3, a4, a5, a6, a7, -⟩ := C65_saved st openable D m params kwargs hp hk outdir
    (runName algo setting t jobid) ho hs
  refine ⟨D', f, ?_, h2, h3, a1, a2, a3, a4, a5, a6, a7⟩
  simp only [runAndSave, hr, h1]

/-- The hypotheses on the results file: parameter and keyword names are distinct, their values can be stored and the file can be
opened. -/
structure CanSave (st : V → Bool) (openable : String → Bool) (path : String) (params kwargs : List (String × V)) : Prop where
  paramNames : (params.map Prod.fst).Nodup
  kwargNames : (kwargs.map Prod.fst).Nodup
  opens : openable path = true
  stored : ∀ q ∈ params ++ kwargs, st q.2 = true

/-- A results file with these arrays and no traces of acceptance and step size. -/
def HoldsArrays (f : H5File V) (A : Arrays) : Prop :=
  f.ds "logposterior" = A.logPi.map .vec ∧ f.ds "predictions" = A.preds.map .mat ∧ f.ds "chain" = A.chain.map .mat ∧
  f.ds "L2s" = A.L2s.map .vec ∧ f.ds "priors" = A.priors.map .vec

/-- C147: any other name raises `ValueError`; nothing is run and no file is written or changed. -/
theorem C147_unknown (st : V → Bool) (openable : String → Bool) (D : Disk V) (algo setting jobid outdir : String) (t : Stamp)
    (M : Sampler n) (R : Rng) (r : R.σ) (fuel : ℕ) (params kwargs : List (String × V))
    (h : algo ≠ "myula" ∧ algo ≠ "pxmala" ∧ algo ≠ "skrock") :
    runAndSave st openable D algo setting jobid outdir t M R r fuel params kwargs = (D, .raised .ValueError) := by
  simp only [runAndSave, runChosen, if_neg h.1, if_neg h.2.1, if_neg h.2.2]

/-- C147: whatever the name, a script that is still sampling or whose sampler raised has not touched any file; one that finished has
written exactly the file named after the algorithm, the setting, the time and the job. -/
theorem C147_files (st : V → Bool) (openable : String → Bool) (D : Disk V) (algo setting jobid outdir : String) (t : Stamp)
    (M : Sampler n) (R : Rng) (r : R.σ) (fuel : ℕ) (params kwargs : List (String × V)) (D' : Disk V) (e : ScriptEnd)
    (h : runAndSave st openable D algo setting jobid outdir t M R r fuel params kwargs = (D', e)) :
    (∀ s, s ≠ savePath outdir (runName algo setting t jobid) → D' s = D s) ∧
    (e = .running → D' = D) ∧ (∀ x, runChosen algo M R r fuel = .error x → D' = D ∧ e = .raised x) ∧ (e = .finished → (algo = "myula" ∨ algo = "pxmala" ∨ algo = "skrock") ∧
      ∃ f, D' (savePath outdir (runName algo setting t jobid)) = some f) := by
  unfold runAndSave at h
  split at h
  · rename_i x hx
    obtain ⟨rfl, rfl⟩ := Prod.mk.inj h
    exact ⟨fun _ _ => rfl, fun _ => rfl, fun y hy => ⟨rfl, by rw [Except.error.inj (hx.symm.trans hy)]⟩, fun h => by cases h⟩
  · rename_i hx
    obtain ⟨rfl, rfl⟩ := Prod.mk.inj h
    exact ⟨fun _ _ => rfl, fun _ => rfl, fun y hy => (by rw [hx] at hy; cases hy), fun h => by cases h⟩
  · rename_i m hm
    have halgo : algo = "myula" ∨ algo = "pxmala" ∨ algo = "skrock" := by
      by_contra hc
      simp only [not_or] at hc
      simp only [runChosen, if_neg hc.1, if_neg hc.2.1, if_neg hc.2.2] at hm
      cases hm
    obtain ⟨h1, h2⟩ := Prod.mk.inj h
    subst h1
    obtain ⟨-, c2, -, c4⟩ := C66_preserved_partial st openable D m params kwargs outdir (runName algo setting t jobid)
    refine ⟨c2, ?_, fun y hy => (by rw [hm] at hy; cases hy), ?_⟩
    · rintro rfl
      split at h2 <;> cases h2
    · rintro rfl
      refine ⟨halgo, ?_⟩
      by_cases ho : openable (savePath outdir (runName algo setting t jobid)) = true
      · obtain ⟨f, hf, -⟩ := c4 ho
        exact ⟨f, hf⟩
      · exfalso
        simp only [saveMcmc, if_neg ho] at h2
        cases h2

/-- C147, `--algo myula`: the script finishes, and row `k` of the saved arrays is that of the sample after the scheduled number of
MYULA steps from the random start; there are no acceptances and no step sizes in the file. -/
theorem C147_myula (st : V → Bool) (openable : String → Bool) (D : Disk V) (setting jobid outdir : String) (t : Stamp)
    (M : Sampler n) (R : Rng) (r r1 : R.σ) (params kwargs : List (String × V))
    (hsave : CanSave st openable (savePath outdir (runName "myula" setting t jobid)) params kwargs)
    (hv : CanPrint M (initArrays M)) (b g : ℕ) (hb : M.par.nburn = b) (hg : M.par.ngap = g) {fwd : (Fin p → ℂ) → (Fin n → ℂ)}
    {grad : (Fin n → ℂ) → (Fin p → ℂ)} {prox : (Fin p → ℂ) → (Fin p → ℂ)} {pri : (Fin p → ℂ) → ℝ}
    (tot : Total M p fwd grad prox pri) (G : (Fin p → ℂ) → (Fin p → ℂ))
    (hG : ActsAs (fun X => gradlogpi M.F M.P M.par.lmda X none) G) (x0 : Fin p → ℂ)
    (hstart : initialSample M R r .none = .ok (List.ofFn x0, List.ofFn (fwd x0), r1)) (N : ℕ)
    (hN : N = if M.par.nsamples = 0 then 0 else b + (M.par.nsamples - 1) * max g 1 + 1) (fuel : ℕ) (hf : N ≤ fuel) :
    ∃ D' f, runAndSave st openable D "myula" setting jobid outdir t M R r fuel params kwargs = (D', .finished) ∧
      D' (savePath outdir (runName "myula" setting t jobid)) = some f ∧ f.ds "acceptances" = none ∧ f.ds "deltas" = none ∧
      HoldsArrays f ((initArrays M).ofRows M.par.nsamples fun k => rowOf M fwd pri
        (iter (ulaStep M.par.delta G) (noiseSeq R M.par.complex p r1) x0 (b + k * max g 1 + 1))) := by
  obtain ⟨-, s, hs, -, harr⟩ := C41_schedule M R (initArrays M) (initArrays_shaped M) hv b g hb hg tot G hG r r1 .none x0 hstart N hN
  have hr : runChosen "myula" M R r fuel = .ok (some ⟨(initArrays M).applyAll s.ev, none, none⟩) := by
    simp only [runChosen, if_true, hs fuel hf, bind, Except.bind, Option.map_some]
  obtain ⟨D', f, h1, h2, -, a1, a2, a3, a4, a5, a6, a7⟩ := runAndSave_some st openable D "myula" setting jobid outdir t M R r fuel
    params kwargs _ hr hsave.paramNames hsave.kwargNames hsave.opens hsave.stored
  rw [harr] at a1 a2 a3 a4 a5
  exact ⟨D', f, h1, h2, a6, a7, a1, a2, a3, a4, a5⟩

/-- C147, `--algo skrock`: likewise with the steps of the s-stage recursion of C20. -/
theorem C147_skrock (st : V → Bool) (openable : String → Bool) (D : Disk V) (setting jobid outdir : String) (t : Stamp)
    (M : Sampler n) (R : Rng) (r r1 : R.σ) (params kwargs : List (String × V))
    (hsave : CanSave st openable (savePath outdir (runName "skrock" setting t jobid)) params kwargs) (hs1 : 1 ≤ M.par.s)
    (hv : CanPrint M (initArrays M)) (b g : ℕ) (hb : M.par.nburn = b) (hg : M.par.ngap = g) {fwd : (Fin p → ℂ) → (Fin n → ℂ)}
    {grad : (Fin n → ℂ) → (Fin p → ℂ)} {prox : (Fin p → ℂ) → (Fin p → ℂ)} {pri : (Fin p → ℂ) → ℝ}
    (tot : Total M p fwd grad prox pri) (G : (Fin p → ℂ) → (Fin p → ℂ))
    (hG : ActsAs (fun X => gradlogpi M.F M.P M.par.lmda X none) G) (x0 : Fin p → ℂ)
    (hstart : initialSample M R r .none = .ok (List.ofFn x0, List.ofFn (fwd x0), r1)) (N : ℕ)
    (hN : N = if M.par.nsamples = 0 then 0 else b + (M.par.nsamples - 1) * max g 1 + 1) (fuel : ℕ) (hf : N ≤ fuel) :
    ∃ D' f co F, runAndSave st openable D "skrock" setting jobid outdir t M R r fuel params kwargs = (D', .finished) ∧
      D' (savePath outdir (runName "skrock" setting t jobid)) = some f ∧ f.ds "acceptances" = none ∧ f.ds "deltas" = none ∧
      skrockInit M.par.s = .ok co ∧ (∀ x z, skrockStep co M.par.s M.par.delta (fun v => .ok (G v)) x z = .ok (F x z)) ∧
      HoldsArrays f ((initArrays M).ofRows M.par.nsamples fun k => rowOf M fwd pri
        (iter F (noiseSeq R M.par.complex p r1) x0 (b + k * max g 1 + 1))) := by
  obtain ⟨co, F, hco, hF, -, s, hs, -, harr⟩ := C42_schedule M R (initArrays M) (initArrays_shaped M) hv hs1 b g hb hg tot G hG r r1
    .none x0 hstart N hN
  have hr : runChosen "skrock" M R r fuel = .ok (some ⟨(initArrays M).applyAll s.ev, none, none⟩) := by
    simp only [runChosen, if_true, hs fuel hf, bind, Except.bind, Option.map_some, show ¬ ("skrock" = "myula") by decide,
      show ¬ ("skrock" = "pxmala") by decide, if_false]
  obtain ⟨D', f, h1, h2, -, a1, a2, a3, a4, a5, a6, a7⟩ := runAndSave_some st openable D "skrock" setting jobid outdir t M R r fuel
    params kwargs _ hr hsave.paramNames hsave.kwargNames hsave.opens hsave.stored
  rw [harr] at a1 a2 a3 a4 a5
  exact ⟨D', f, co, F, h1, h2, a6, a7, hco, hF, a1, a2, a3, a4, a5⟩

/-- C147, `--algo pxmala`: when the script finishes, the file holds the acceptance flags and the step sizes of a tuned run of PxMALA
that starts with the step size of the parameters: one flag per iteration, one step size more, every one after the first
between `lmda*1e-8` and `lmda/2`; as many accepted iterations lie on the schedule as samples were asked for, and row `k` of
the arrays is the state after the `k`-th of them. -/
theorem C147_pxmala (st : V → Bool) (openable : String → Bool) (D : Disk V) (setting jobid outdir : String) (t : Stamp)
    (M : Sampler n) (R : Rng) (r : R.σ) (params kwargs : List (String × V))
    (hsave : CanSave st openable (savePath outdir (runName "pxmala" setting t jobid)) params kwargs)
    (b g : ℕ) (hb : M.par.nburn = b) (hg : M.par.ngap = g) (hl : 0 < M.par.lmda) (hd : 0 < M.par.delta) (fuel : ℕ) (D' : Disk V)
    (h : runAndSave st openable D "pxmala" setting jobid outdir t M R r fuel params kwargs = (D', .finished)) :
    ∃ f acc deltas s0, D' (savePath outdir (runName "pxmala" setting t jobid)) = some f ∧
      f.ds "acceptances" = some (.i1 acc) ∧ f.ds "deltas" = some (.vec deltas) ∧ (∀ a ∈ acc, a = 0 ∨ a = 1) ∧
      deltas.length = acc.length + 1 ∧ deltas.head? = some M.par.delta ∧
      (∀ d ∈ deltas.tail, M.par.lmda * 1e-8 ≤ d ∧ d ≤ M.par.lmda / 2) ∧ acceptedThinned acc b g = M.par.nsamples ∧
      malaInit M R M.par.delta r .none = .ok s0 ∧
      ∃ A, HoldsArrays f A ∧ ∀ k < M.par.nsamples, ∃ i s,
        ((List.range acc.length).filter fun i => decide (acc[i]? = some 1 ∧ b ≤ i ∧ max g 1 ∣ i - b))[k]? = some i ∧
        Reach (malaCond M) (malaBody M R true (initArrays M)) s0 (i + 1) s ∧ s.acc.getLast? = some 1 ∧
        A.RowIs k (mkRow M s.cur.X s.cur.preds (s.cur.logpi, s.cur.L2, s.cur.prior)) := by
  have hne : ¬ ("pxmala" = "myula") := by decide
  cases hrun : malaRun M R true M.par.delta (initArrays M) r .none fuel with
  | error e =>
    simp only [runAndSave, runChosen, if_neg hne, if_true, hrun, bind, Except.bind, Prod.mk.injEq] at h
    exact absurd h.2 (by simp)
  | ok o =>
    cases o with
    | none =>
      simp only [runAndSave, runChosen, if_neg hne, if_true, hrun, bind, Except.bind, Option.map_none, Prod.mk.injEq] at h
      exact absurd h.2 (by simp)
    | some s =>
      have hr : runChosen "pxmala" M R r fuel = .ok (some ⟨(initArrays M).applyAll s.ev, some s.acc, some s.deltas⟩) := by
        simp only [runChosen, if_neg hne, if_true, hrun, bind, Except.bind, Option.map_some]
      obtain ⟨D1, f, h1, h2, -, a1, a2, a3, a4, a5, a6, a7⟩ := runAndSave_some st openable D "pxmala" setting jobid outdir t M R r
        fuel params kwargs _ hr hsave.paramNames hsave.kwargNames hsave.opens hsave.stored
      obtain rfl : D1 = D' := (Prod.mk.inj (h1.symm.trans h)).1
      obtain ⟨s0, q, m, i0, i1, -, -, i4⟩ := malaRun_ok M R true M.par.delta (initArrays M) r .none fuel s hrun
      obtain ⟨t1, t2, t3, t4, -, -⟩ := C50_traces M R true (initArrays M) M.par.delta r .none s0 i0 m q i1
      have t5 := C51_tuned M R (initArrays M) M.par.delta hl hd r .none s0 i0 m q i1
      have eacc : s.acc = q.acc := by rw [i4]
      have edel : s.deltas = q.deltas := by rw [i4]
      refine ⟨f, s.acc, s.deltas, s0, h2, a6, a7, ?_, ?_, ?_, ?_,
        ((C54_stops_partial M R true M.par.delta (initArrays M) (initArrays_shaped M) b g hb hg r .none).1 fuel s hrun).1, i0,
        (initArrays M).applyAll s.ev, ⟨a1, a2, a3, a4, a5⟩, ?_⟩
      · rw [eacc]; exact t2
      · rw [edel, eacc, t3, t1]; rfl
      · rw [edel]; exact t4
      · intro d hdm
        rw [edel] at hdm
        obtain ⟨k, hk⟩ := List.mem_iff_getElem?.mp hdm
        rw [List.getElem?_tail] at hk
        have hlt := (List.getElem?_eq_some_iff.mp hk).1
        rw [t3] at hlt
        simp only [if_true] at hlt
        obtain ⟨d0, d1, -, e2, e3, e4, -⟩ := t5 k (by omega)
        obtain rfl : d1 = d := Option.some.inj (e2.symm.trans hk)
        exact ⟨e3, e4⟩
      · intro k hk
        obtain ⟨i, u1, s', u2, u3, u4⟩ := C49_accepted_states_partial M R true M.par.delta (initArrays M) (initArrays_shaped M) b g hb hg
          r .none fuel s s0 i0 hrun k hk
        exact ⟨i, s', u1, u2, u3, u4⟩

/-! ## Concrete cases -/

/-- The random start of the demo sampler with a generator that always draws `w`. -/
theorem demo_random_start (par : Params) (w u : ℝ) (hc : par.complex = false) (hl : par.lmda ≠ 0) :
    initialSample (demo par) (constRng w u) () .none =
      .ok (List.ofFn fun _ : Fin 1 => (w : ℂ), List.ofFn fun _ : Fin 1 => (w : ℂ), ()) := by
  have h1 : startVector (demo par) (constRng w u) () .none = .ok (List.ofFn fun _ : Fin 1 => (w : ℂ), ()) := by
    simp [startVector, demo, noise, constRng, hc]
  unfold initialSample
  rw [h1]
  simp only [bind, Except.bind]
  rw [(demo_total par hl).forward _]

/-- Where the scripts save to and what they save, for the examples. -/
theorem demo_canSave (path : String) : CanSave (fun _ : ℕ => true) (fun _ => true) path [("delta", 1)] [("L", 2)] :=
  ⟨by simp, by simp, rfl, fun _ _ => rfl⟩

/-- C147 is not vacuous: `--algo myula` and `--algo skrock` with four samples, burn-in 3 and thinning 2. -/
example : (∃ D' f, runAndSave (fun _ : ℕ => true) (fun _ => true) (fun _ => none) "myula" "synthesis" "0" "." ⟨1, 2, 2022, 3, 4, 5⟩
      (demo ⟨1, 1 / 2, 1, 2, 4, 3, 2, false, 0, ["chain"]⟩) (constRng 1 0) () 10 [("delta", 1)] [("L", 2)] = (D', .finished) ∧
      D' (savePath "." (runName "myula" "synthesis" ⟨1, 2, 2022, 3, 4, 5⟩ "0")) = some f) ∧
    ∃ D' f, runAndSave (fun _ : ℕ => true) (fun _ => true) (fun _ => none) "skrock" "synthesis" "0" "." ⟨1, 2, 2022, 3, 4, 5⟩
      (demo ⟨1, 1 / 2, 1, 2, 4, 3, 2, false, 0, ["chain"]⟩) (constRng 1 0) () 10 [("delta", 1)] [("L", 2)] = (D', .finished) ∧
      D' (savePath "." (runName "skrock" "synthesis" ⟨1, 2, 2022, 3, 4, 5⟩ "0")) = some f := by
  have tot := demo_total ⟨1, 1 / 2, 1, 2, 4, 3, 2, false, 0, ["chain"]⟩ one_ne_zero
  have hst := demo_random_start ⟨1, 1 / 2, 1, 2, 4, 3, 2, false, 0, ["chain"]⟩ 1 0 rfl one_ne_zero
  constructor
  · obtain ⟨D', f, h1, h2, -⟩ := C147_myula (fun _ : ℕ => true) (fun _ => true) (fun _ => none) "synthesis" "0" "."
      ⟨1, 2, 2022, 3, 4, 5⟩ _ (constRng 1 0) () () [("delta", 1)] [("L", 2)] (demo_canSave _) (.inl le_rfl) 3 2 rfl rfl tot _
      (fun x => gradlogpi_vec _ tot x) _ hst _ rfl 10 (by simp [demo])
    exact ⟨D', f, h1, h2⟩
  · obtain ⟨D', f, -, -, h1, h2, -⟩ := C147_skrock (fun _ : ℕ => true) (fun _ => true) (fun _ => none) "synthesis" "0" "."
      ⟨1, 2, 2022, 3, 4, 5⟩ _ (constRng 1 0) () () [("delta", 1)] [("L", 2)] (demo_canSave _) (by simp [demo]) (.inl le_rfl) 3 2 rfl
      rfl tot _ (fun x => gradlogpi_vec _ tot x) _ hst _ rfl 10 (by simp [demo])
    exact ⟨D', f, h1, h2⟩

/-- C147 is not vacuous: `--algo pxmala` with one sample, which is accepted at once. -/
example : ∃ D', runAndSave (fun _ : ℕ => true) (fun _ => true) (fun _ => none) "pxmala" "synthesis" "0" "." ⟨1, 2, 2022, 3, 4, 5⟩
    (demo (demoPar 1 (0 : ℕ))) (constRng 1 0) () 1 [("delta", 1)] [("L", 2)] = (D', .finished) := by
  have tot := demo_total (demoPar 1 (0 : ℕ)) one_ne_zero
  have hst := demo_random_start (demoPar 1 (0 : ℕ)) 1 0 rfl one_ne_zero
  have hA := initArrays_shaped (demo (demoPar 1 (0 : ℕ)))
  obtain ⟨-, c2, c3⟩ := C54_stops_partial (demo (demoPar 1 (0 : ℕ))) (constRng 1 0) true (1 / 2) _ hA 0 0 rfl rfl () .none
  have hi := init_vec (demo (demoPar 1 (0 : ℕ))) (constRng 1 0) tot (1 / 2) () () .none _ hst
  have hrun : ∃ st, malaRun (demo (demoPar 1 (0 : ℕ))) (constRng 1 0) true (1 / 2) (initArrays (demo (demoPar 1 (0 : ℕ)))) () .none 1 =
      .ok (some st) := by
    rcases c3 1 _ _ _ _ _ () tot hst 1 with h | h
    · exfalso
      obtain ⟨s, hr, -, hlt⟩ := c2 1 _ hi h
      obtain ⟨-, -, -, T, hT, hcore, -⟩ := minv_reach _ _ true _ 0 rfl (1 / 2) () .none _ hi 1 s hr
      obtain ⟨pr, a, v, -, -, -, h4, -, h6, -⟩ := coreStep_ok _ _ _ _ _ (hT.2 0 one_pos)
      have h0 : (T 0).acc = [] := by rw [hT.1]; rfl
      have hv : v = 1 := by
        rcases h6 with h6 | h6
        · exact h6.2.1
        · exact absurd (accept_zero a) h6.1
      have hacc : s.acc = [1] := by
        have := congrArg Core.acc hcore
        rw [h4, h0, hv] at this
        exact this
      rw [hacc] at hlt
      revert hlt
      show ¬ acceptedThinned [1] 0 0 < 1
      decide
    · exact h
  obtain ⟨st, hst'⟩ := hrun
  have hr : runChosen "pxmala" (demo (demoPar 1 (0 : ℕ))) (constRng 1 0) () 1 =
      .ok (some ⟨(initArrays (demo (demoPar 1 (0 : ℕ)))).applyAll st.ev, some st.acc, some st.deltas⟩) := by
    have e : (demo (demoPar 1 (0 : ℕ))).par.delta = 1 / 2 := rfl
    simp only [runChosen, show ¬ ("pxmala" = "myula") by decide, if_false, if_true, e, hst', bind, Except.bind, Option.map_some]
  obtain ⟨D', f, h1, -⟩ := runAndSave_some (fun _ : ℕ => true) (fun _ => true) (fun _ => none) "pxmala" "synthesis" "0" "."
    ⟨1, 2, 2022, 3, 4, 5⟩ _ (constRng 1 0) () 1 [("delta", 1)] [("L", 2)] _ hr (by simp) (by simp) rfl (fun _ _ => rfl)
  exact ⟨D', h1⟩

/-- C147 is not vacuous: an unknown name. -/
example : "ula" ≠ "myula" ∧ "ula" ≠ "pxmala" ∧ "ula" ≠ "skrock" := by decide

end Pxmcmc
