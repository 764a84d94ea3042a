import Verif.Lemmas.MalaVec

/-! # Properties C44 (PxMALA), C49, C53, C54: termination, detailed balance, and counterexamples -/

namespace Pxmcmc
variable {n p : ℕ}

/-! ## C54 -/

/-- The number of acceptances on thinned post-burn-in iterations. -/
def acceptedThinned (acc : List ℕ) (b g : ℕ) : ℕ :=
  ((List.range acc.length).filter fun i => decide (acc[i]? = some 1 ∧ b ≤ i ∧ max g 1 ∣ i - b)).length

/-- C54 (partial): a run that stops does so exactly when `nsamples` acceptances have fallen on thinned post-burn-in
iterations (there are `nsamples` of them, and one less before the last iteration); a run that is still going has fewer;
and with operators that accept every vector nothing else can happen.  Missing: termination for every stream, which is
false (`C54_terminates_refuted`). -/
theorem C54_stops_partial (M : Sampler n) (R : Rng) (tune : Bool) (delta : ℝ) (A0 : Arrays)
    (hA : A0.Shaped M.par.nsamples) (b g : ℕ) (hb : M.par.nburn = b) (hg : M.par.ngap = g) (r : R.σ) (sp : StartPoint) :
    (∀ fuel st, malaRun M R tune delta A0 r sp fuel = .ok (some st) → acceptedThinned st.acc b g = M.par.nsamples ∧
      st.acc.length ≤ fuel ∧ (0 < M.par.nsamples → acceptedThinned st.acc.dropLast b g + 1 = M.par.nsamples)) ∧
    (∀ fuel s0, malaInit M R delta r sp = .ok s0 → malaRun M R tune delta A0 r sp fuel = .ok none →
      ∃ s, Reach (malaCond M) (malaBody M R tune A0) s0 fuel s ∧ s.acc.length = fuel ∧
        acceptedThinned s.acc b g < M.par.nsamples) ∧
    (∀ (p : ℕ) (fwd : (Fin p → ℂ) → (Fin n → ℂ)) (grad : (Fin n → ℂ) → (Fin p → ℂ)) (prox : (Fin p → ℂ) → (Fin p → ℂ))
      (pri : (Fin p → ℂ) → ℝ) (x0 : Fin p → ℂ) (r1 : R.σ), Total M p fwd grad prox pri →
      initialSample M R r sp = .ok (List.ofFn x0, List.ofFn (fwd x0), r1) →
      ∀ fuel, malaRun M R tune delta A0 r sp fuel = .ok none ∨
        ∃ st, malaRun M R tune delta A0 r sp fuel = .ok (some st)) := by
  have hsp := spacing_nat M.par g hg
  refine ⟨?_, ?_, ?_⟩
  · intro fuel st h
    obtain ⟨s0, s, m, h0, hr, hc, hm, rfl⟩ := malaRun_ok M R tune delta A0 r sp fuel st h
    have hi := minv_reach M R tune A0 b hb delta r sp s0 h0 m s hr
    have hj := mala_final_j M R tune A0 s0 s m (malaInit_ok M R delta r sp s0 h0).2.1 hr hc
    have e : acceptedThinned s.acc b g = M.par.nsamples := by
      have := hi.2.2.1
      rw [hj, hsp] at this
      exact this.symm
    refine ⟨e, by rw [hi.2.1]; exact hm, fun hpos => ?_⟩
    cases hr with
    | refl =>
      have := (malaInit_ok M R delta r sp s0 h0).2.1
      omega
    | @step m' q _ hr' hc' hb' =>
      have hq := minv_reach M R tune A0 b hb delta r sp s0 h0 m' q hr'
      obtain ⟨hstep, h1, h2⟩ := malaBody_ok M R tune A0 q s hb'
      obtain ⟨pr, a, v, -, -, -, hacc, -⟩ := coreStep_ok M R tune _ _ hstep
      have hacc' : s.acc = q.acc ++ [v] := hacc
      have hqj : q.j = acceptedThinned q.acc b g := by
        have := hq.2.2.1
        rw [hsp] at this
        exact this
      simp only [malaCond, decide_eq_true_eq] at hc'
      have : s.j = q.j + 1 := by
        by_cases hs : savesLast M q.i s.acc
        · exact (h1 hs).1
        · have := (h2 hs).1
          omega
      show acceptedThinned s.acc.dropLast b g + 1 = _
      rw [hacc', List.dropLast_concat, ← hqj]
      omega
  · intro fuel s0 h0 h
    unfold malaRun at h
    rw [h0] at h
    obtain ⟨res, hres, h⟩ := bind_ok (x := whileFuel (malaCond M) (malaBody M R tune A0) fuel s0) h
    rcases whileFuel_cases (malaCond M) (malaBody M R tune A0) fuel s0 with
      ⟨m, s, -, -, -, hw⟩ | ⟨s, hr, hc, -⟩ | ⟨m, s, e, -, -, -, -, hw⟩
    · rw [hw] at hres
      obtain rfl := Except.ok.inj hres
      cases Except.ok.inj h
    · have hi := minv_reach M R tune A0 b hb delta r sp s0 h0 fuel s hr
      refine ⟨s, hr, hi.2.1, ?_⟩
      have := hi.2.2.1
      rw [hsp] at this
      simp only [malaCond, decide_eq_true_eq] at hc
      rw [this] at hc
      exact hc
    · rw [hw] at hres; cases hres
  · intro p fwd grad prox pri x0 r1 tot hstart fuel
    obtain ⟨o, ho⟩ := mala_no_error M R tot tune A0 hA delta r r1 sp x0 hstart fuel
    cases o with
    | none => exact .inl ho
    | some st => exact .inr ⟨st, ho⟩

/-! ## Concrete chains -/

/-- Noise always 1, uniform numbers from the given sequence. -/
noncomputable def seqRng (u : ℕ → ℝ) : Rng := ⟨ℕ, fun r _ => (fun _ => 1, r), fun r _ => (fun _ => 1, r), fun r => (u r, r + 1)⟩

/-- Parameters of the concrete chains: `lmda = 1`, real, no printing. -/
noncomputable def demoPar (ns : ℕ) (b : ℤ) : Params := ⟨1, 1 / 2, 1, 1, ns, b, 0, false, 0, ["chain"]⟩

/-- The cache of the demo sampler at `x`. -/
noncomputable def dc (ns : ℕ) (b : ℤ) (x : ℝ) : Cache :=
  cacheOf (demo (demoPar ns b)) (fun x => x) (fun y => y) (fun x => x) (fun _ => 0) fun _ : Fin 1 => (x : ℂ)

theorem dc_logpi (ns : ℕ) (b : ℤ) (x : ℝ) : (dc ns b x).logpi = ((-x ^ 2 : ℝ) : ℂ) := by
  have : misfitOf (demo (demoPar ns b)) (fun x => x) (fun _ : Fin 1 => (x : ℂ)) = ((x ^ 2 : ℝ) : ℂ) := by
    unfold misfitOf
    show Spec.inner ((fun _ => 0) - fun _ => (x : ℂ))
      ((1 : Matrix (Fin 1) (Fin 1) ℂ).mulVec ((fun _ => 0) - fun _ => (x : ℂ))) = _
    rw [Matrix.one_mulVec]
    simp [Spec.inner]
    ring
  unfold dc cacheOf
  simp only [this]
  push_cast
  ring

/-- The log acceptance ratio of the demo chain with step size 1/2. -/
noncomputable def demoAlpha (x y : ℝ) : ℝ :=
  -(1 / 4) * (x - y + y / 4) ^ 4 - y ^ 2 + 1 / 4 * (y - x + x / 4) ^ 4 + x ^ 2

theorem demo_logtrans (x y : ℝ) : logtransVec (1 / 2) (gradVec 1 (fun x : Fin 1 → ℂ => x) (fun y => y) fun x => x)
    (fun _ => (x : ℂ)) (fun _ => (y : ℂ)) = ((-(1 / 4) * (y - x + x / 4) ^ 4 : ℝ) : ℂ) := by
  simp [logtransVec, gradVec]
  ring

theorem demo_logAlpha (ns : ℕ) (b : ℤ) (x y : ℝ) : logAlphaVec (demo (demoPar ns b)) (fun x => x) (fun y => y)
    (fun x => x) (fun _ => 0) (1 / 2) (fun _ : Fin 1 => (x : ℂ)) (fun _ => (y : ℂ)) = ((demoAlpha x y : ℝ) : ℂ) := by
  have h1 := dc_logpi ns b x
  have h2 := dc_logpi ns b y
  have e : (demo (demoPar ns b)).par.lmda = 1 := rfl
  unfold dc at h1 h2
  unfold logAlphaVec
  rw [h1, h2, e, demo_logtrans, demo_logtrans]
  unfold demoAlpha
  push_cast
  ring

open Classical in
/-- One iteration of the demo chain. -/
theorem demo_core (ns : ℕ) (b : ℤ) (u : ℕ → ℝ) (i k : ℕ) (acc : List ℕ) (ds : List ℝ) (x : ℝ) :
    coreStep (demo (demoPar ns b)) (seqRng u) false ⟨i, dc ns b x, k, 1 / 2, acc, ds⟩ =
      .ok ⟨i + 1, if acceptTest (u k) (demoAlpha x (x / 2 + 1) : ℝ) then dc ns b (x / 2 + 1) else dc ns b x, k + 1,
        1 / 2, acc ++ [if acceptTest (u k) (demoAlpha x (x / 2 + 1) : ℝ) then 1 else 0], ds⟩ := by
  have tot := demo_total (demoPar ns b) one_ne_zero
  refine coreStep_vec (demo (demoPar ns b)) (seqRng u) tot ⟨i, dc ns b x, k, 1 / 2, acc, ds⟩
    (fun _ => (x : ℂ)) rfl (fun _ => ((x / 2 + 1 : ℝ) : ℂ)) ?_ k ?_ _ ?_
  · funext j
    have e : (demo (demoPar ns b)).par.lmda = 1 := rfl
    have e2 : (demo (demoPar ns b)).par.complex = false := rfl
    simp [ulaStep, gradVec, drawVec, seqRng, e2]
    ring
  · have e2 : (demo (demoPar ns b)).par.complex = false := rfl
    simp [drawVec, seqRng, e2]
  · rw [demo_logAlpha]
    exact Iff.rfl

/-- From 0 the proposal 1 is rejected when `u = 1/2` … -/
theorem demo_reject : ¬ acceptTest (1 / 2) (demoAlpha 0 (0 / 2 + 1) : ℝ) := by
  have h : Real.log (1 / 2) = -Real.log 2 := by rw [one_div, Real.log_inv]
  have h2 := Real.log_two_lt_d9
  unfold acceptTest
  rw [h]
  simp only [Complex.ofReal_re, Complex.ofReal_im, demoAlpha]
  norm_num
  linarith

/-- … and anything is accepted when `u = 0`. -/
theorem accept_zero (a : ℂ) : acceptTest 0 a := .inl rfl

theorem demo_coreHist (ns : ℕ) (b : ℤ) (u : ℕ → ℝ) (hu : u 0 = 1 / 2) (hu' : ∀ k, u (k + 1) = 0) (m : ℕ)
    (T : ℕ → Core (seqRng u)) (s0 : MalaSt (seqRng u))
    (h0 : malaInit (demo (demoPar ns b)) (seqRng u) (1 / 2) (0 : ℕ) (.array1 (List.ofFn fun _ : Fin 1 => 0)) = .ok s0)
    (hT : CoreHist (demo (demoPar ns b)) (seqRng u) false s0.core m T) :
    s0.core = ⟨0, dc ns b 0, (0 : ℕ), 1 / 2, [], [1 / 2]⟩ ∧
    (1 ≤ m → T 1 = ⟨1, dc ns b 0, (1 : ℕ), 1 / 2, [0], [1 / 2]⟩) ∧
    (2 ≤ m → T 2 = ⟨2, dc ns b 1, (2 : ℕ), 1 / 2, [0, 1], [1 / 2]⟩) ∧
    (3 ≤ m → T 3 = ⟨3, dc ns b (3 / 2), (3 : ℕ), 1 / 2, [0, 1, 1], [1 / 2]⟩) := by
  classical
  have hi := init_vec (demo (demoPar ns b)) (seqRng u) (demo_total (demoPar ns b) one_ne_zero) (1 / 2) (0 : ℕ) (0 : ℕ)
    (.array1 (List.ofFn fun _ : Fin 1 => 0)) (fun _ => 0) (demo_start _ _ _ _ one_ne_zero)
  rw [hi] at h0
  obtain rfl := Except.ok.inj h0
  have e0 : (⟨0, 0, cacheOf (demo (demoPar ns b)) (fun x => x) (fun y => y) (fun x => x) (fun _ => 0) fun _ : Fin 1 => 0,
      (0 : ℕ), 1 / 2, [], [1 / 2], []⟩ : MalaSt (seqRng u)).core = ⟨0, dc ns b 0, (0 : ℕ), 1 / 2, [], [1 / 2]⟩ := by
    simp [MalaSt.core, dc]
  have t0 : T 0 = ⟨0, dc ns b 0, (0 : ℕ), 1 / 2, [], [1 / 2]⟩ := by rw [hT.1, e0]
  have t1 : 1 ≤ m → T 1 = ⟨1, dc ns b 0, (1 : ℕ), 1 / 2, [0], [1 / 2]⟩ := by
    intro hm
    have h1 := hT.2 0 (by omega)
    rw [t0, demo_core, hu, if_neg demo_reject, if_neg demo_reject] at h1
    exact (Except.ok.inj h1).symm
  have t2 : 2 ≤ m → T 2 = ⟨2, dc ns b 1, (2 : ℕ), 1 / 2, [0, 1], [1 / 2]⟩ := by
    intro hm
    have h2 := hT.2 1 (by omega)
    rw [t1 (by omega), demo_core, hu' 0, if_pos (accept_zero _), if_pos (accept_zero _)] at h2
    rw [← Except.ok.inj h2]
    norm_num
    rfl
  refine ⟨e0, t1, t2, ?_⟩
  intro hm
  have h3 := hT.2 2 (by omega)
  rw [t2 (by omega), demo_core, hu' 1, if_pos (accept_zero _), if_pos (accept_zero _)] at h3
  rw [← Except.ok.inj h3]
  norm_num
  rfl

/-- The stream that rejects once and then accepts. -/
noncomputable def rejectOnce : ℕ → ℝ := fun k => if k = 0 then 1 / 2 else 0

theorem chain_row (A : Arrays) (k : ℕ) (row row' : Row) (h : A.RowIs k row) (h' : A.RowIs k row') (hc : A.chain.isSome) :
    row.chain = row'.chain := by
  obtain ⟨l, hl⟩ := Option.isSome_iff_exists.mp hc
  have h1 := h.chain l hl
  rw [h'.chain l hl] at h1
  exact (Option.some.inj h1).symm

theorem dc_row (ns : ℕ) (b : ℤ) (M : Sampler 1) (hM : M.nparams = 1) (hc : M.par.complex = false) (x : ℝ) :
    (cacheRow M (dc ns b x)).chain = [(x : ℂ)] := by
  simp [cacheRow, mkRow, dc, cacheOf, rowAssign, store, hM, hc]

/-- Existence of the returned demo runs. -/
theorem demo_mala_returns (ns b m : ℕ) (A0 : Arrays) (hA : A0.Shaped ns) (u : ℕ → ℝ) (hu : u 0 = 1 / 2)
    (hu' : ∀ k, u (k + 1) = 0) (hm : (ns = 1 ∧ b = 0 ∧ m = 2) ∨ (ns = 1 ∧ b = 1 ∧ m = 2) ∨ (ns = 2 ∧ b = 0 ∧ m = 3)) :
    ∃ st, malaRun (demo (demoPar ns b)) (seqRng u) false (1 / 2) A0 (0 : ℕ) (.array1 (List.ofFn fun _ : Fin 1 => 0)) m =
      .ok (some st) := by
  have tot := demo_total (demoPar ns b) one_ne_zero
  obtain ⟨o, ho⟩ := mala_no_error (demo (demoPar ns b)) (seqRng u) tot false A0 hA (1 / 2) (0 : ℕ) (0 : ℕ)
    (.array1 (List.ofFn fun _ : Fin 1 => 0)) (fun _ => 0) (demo_start _ _ _ _ one_ne_zero) m
  cases o with
  | some st => exact ⟨st, ho⟩
  | none =>
    exfalso
    have hi := init_vec (demo (demoPar ns b)) (seqRng u) tot (1 / 2) (0 : ℕ) (0 : ℕ)
      (.array1 (List.ofFn fun _ : Fin 1 => 0)) (fun _ => 0) (demo_start _ _ _ _ one_ne_zero)
    obtain ⟨s, hr, hlen, hlt⟩ := (C54_stops_partial (demo (demoPar ns b)) (seqRng u) false (1 / 2) A0 hA b 0 rfl rfl
      (0 : ℕ) (.array1 (List.ofFn fun _ : Fin 1 => 0))).2.1 m _ hi ho
    obtain ⟨-, -, -, T, hT, hcore, -⟩ := minv_reach (demo (demoPar ns b)) (seqRng u) false A0 b rfl (1 / 2) (0 : ℕ)
      (.array1 (List.ofFn fun _ : Fin 1 => 0)) _ hi m s hr
    obtain ⟨-, -, t2, t3⟩ := demo_coreHist ns b u hu hu' m T _ hi hT
    have hacc : s.acc = (T m).acc := congrArg Core.acc hcore
    have hns : (demo (demoPar ns b)).par.nsamples = ns := rfl
    rw [hacc, hns] at hlt
    rcases hm with ⟨rfl, rfl, rfl⟩ | ⟨rfl, rfl, rfl⟩ | ⟨rfl, rfl, rfl⟩
    · rw [t2 le_rfl] at hlt; simp only at hlt; revert hlt; decide
    · rw [t2 le_rfl] at hlt; simp only at hlt; revert hlt; decide
    · rw [t3 le_rfl] at hlt; simp only at hlt; revert hlt; decide

/-- The rows of a returned demo run. -/
theorem demo_mala_rows (ns b m : ℕ) (A0 : Arrays) (hA : A0.Shaped ns) (u : ℕ → ℝ) (hu : u 0 = 1 / 2)
    (hu' : ∀ k, u (k + 1) = 0) (hm : (ns = 1 ∧ b = 0 ∧ m = 2) ∨ (ns = 1 ∧ b = 1 ∧ m = 2) ∨ (ns = 2 ∧ b = 0 ∧ m = 3))
    (st : MalaSt (seqRng u)) (h : malaRun (demo (demoPar ns b)) (seqRng u) false (1 / 2) A0 (0 : ℕ)
      (.array1 (List.ofFn fun _ : Fin 1 => 0)) m = .ok (some st)) :
    ∃ row, (A0.applyAll st.ev).RowIs (ns - 1) row ∧ row.chain = [if ns = 1 then 1 else 3 / 2] := by
  obtain ⟨s0, T, h0, hT, hcore, hacc, -, hlen, harr, -⟩ := malaRun_result (demo (demoPar ns b)) (seqRng u) false (1 / 2)
    A0 hA b rfl (0 : ℕ) (.array1 (List.ofFn fun _ : Fin 1 => 0)) m st h
  obtain ⟨e0, t1, t2, t3⟩ := demo_coreHist ns b u hu hu' st.i T s0 h0 hT
  have hns : (demo (demoPar ns b)).par.nsamples = ns := rfl
  have hsp : spacing (demo (demoPar ns b)).par = 1 := by simp [spacing, demo, demoPar]
  rw [hsp, hns] at hlen harr
  have hac : st.acc = (T st.i).acc := congrArg Core.acc hcore
  have hle : st.i ≤ m := by
    have := ((C54_stops_partial (demo (demoPar ns b)) (seqRng u) false (1 / 2) A0 hA b 0 rfl rfl
      (0 : ℕ) (.array1 (List.ofFn fun _ : Fin 1 => 0))).1 m st h).2.1
    omega
  refine ⟨_, by rw [harr]; exact ofRows_rowIs A0 ns _ (ns - 1) (by omega), ?_⟩
  have hT0 : (T 0).acc = [] := by rw [hT.1, e0]
  rcases hm with ⟨rfl, rfl, rfl⟩ | ⟨rfl, rfl, rfl⟩ | ⟨rfl, rfl, rfl⟩
  · have hi : st.i = 2 := by
      by_contra hne
      rw [hac] at hlen
      interval_cases hh : st.i
      · rw [hT0] at hlen; revert hlen; decide
      · rw [t1 le_rfl] at hlen; simp only at hlen; revert hlen; decide
      · omega
    have : savedIters st.acc 0 1 = [1] := by rw [hac, hi, t2 (by omega)]; show savedIters _ _ _ = _; dsimp only; decide
    rw [this]
    show (cacheRow _ (T 2).cur).chain = _
    rw [t2 (by omega), dc_row _ _ _ rfl rfl]
    simp
  · have hi : st.i = 2 := by
      by_contra hne
      rw [hac] at hlen
      interval_cases hh : st.i
      · rw [hT0] at hlen; revert hlen; decide
      · rw [t1 le_rfl] at hlen; simp only at hlen; revert hlen; decide
      · omega
    have : savedIters st.acc 1 1 = [1] := by rw [hac, hi, t2 (by omega)]; show savedIters _ _ _ = _; dsimp only; decide
    rw [this]
    show (cacheRow _ (T 2).cur).chain = _
    rw [t2 (by omega), dc_row _ _ _ rfl rfl]
    simp
  · have hi : st.i = 3 := by
      by_contra hne
      rw [hac] at hlen
      interval_cases hh : st.i
      · rw [hT0] at hlen; revert hlen; decide
      · rw [t1 le_rfl] at hlen; simp only at hlen; revert hlen; decide
      · rw [t2 le_rfl] at hlen; simp only at hlen; revert hlen; decide
      · omega
    have : savedIters st.acc 0 1 = [1, 2] := by rw [hac, hi, t3 (by omega)]; show savedIters _ _ _ = _; dsimp only; decide
    rw [this]
    show (cacheRow _ (T 3).cur).chain = _
    rw [t3 (by omega), dc_row _ _ _ rfl rfl]
    simp

/-- C49 is violated: with one rejection before the first acceptance (start 0, proposal 1, `u = 1/2`, then `u = 0`) the
state at the first thinned iteration is 0, but row 0 holds 1. -/
theorem C49_rejections_refuted : ¬ ∀ (M : Sampler 1) (R : Rng) (delta : ℝ) (r : R.σ) (sp : StartPoint) (fuel : ℕ)
    (st s0 : MalaSt R) (b : ℕ), M.par.nburn = b → M.par.ngap = 0 → malaInit M R delta r sp = .ok s0 →
    malaRun M R false delta (initArrays M) r sp fuel = .ok (some st) →
    ∀ k < M.par.nsamples, ∀ s, Reach (malaCond M) (malaBody M R false (initArrays M)) s0 (b + k + 1) s →
      ((initArrays M).applyAll st.ev).RowIs k (mkRow M s.cur.X s.cur.preds (s.cur.logpi, s.cur.L2, s.cur.prior)) := by
  intro H
  have hA := initArrays_shaped (demo (demoPar 1 (0 : ℕ)))
  have hm : ((1 : ℕ) = 1 ∧ (0 : ℕ) = 0 ∧ (2 : ℕ) = 2) ∨ ((1 : ℕ) = 1 ∧ (0 : ℕ) = 1 ∧ (2 : ℕ) = 2) ∨
    ((1 : ℕ) = 2 ∧ (0 : ℕ) = 0 ∧ (2 : ℕ) = 3) := .inl ⟨rfl, rfl, rfl⟩
  obtain ⟨st, hst⟩ := demo_mala_returns 1 0 2 (initArrays (demo (demoPar 1 (0 : ℕ)))) hA rejectOnce rfl (fun k => rfl) hm
  obtain ⟨row, hrow, hch⟩ := demo_mala_rows 1 0 2 (initArrays (demo (demoPar 1 (0 : ℕ)))) hA rejectOnce rfl
    (fun k => rfl) hm st hst
  obtain ⟨s0, s, m, h0, hr, hc, hle, -⟩ := malaRun_ok _ _ _ _ _ _ _ _ _ hst
  have hm1 : 1 ≤ m := by
    rcases Nat.eq_zero_or_pos m with rfl | h
    · cases hr
      have := (malaInit_ok _ _ _ _ _ _ h0).2.1
      simp [malaCond, this, demo, demoPar] at hc
    · exact h
  obtain ⟨q, hq⟩ := hr.prefix 1 hm1
  have h1 := H _ _ _ _ _ _ st s0 0 rfl rfl h0 hst 0 (by simp [demo, demoPar]) q hq
  obtain ⟨-, -, -, T, hT, hcore, -⟩ := minv_reach (demo (demoPar 1 (0 : ℕ))) (seqRng rejectOnce) false _ 0 rfl (1 / 2)
    (0 : ℕ) (.array1 (List.ofFn fun _ : Fin 1 => 0)) s0 h0 1 q hq
  have t1 := (demo_coreHist 1 (0 : ℕ) rejectOnce rfl (fun k => rfl) 1 T s0 h0 hT).2.1 le_rfl
  have hcur : q.cur = dc 1 (0 : ℕ) 0 := by
    have := congrArg Core.cur hcore
    rw [t1] at this
    exact this
  have e := chain_row _ 0 _ _ hrow h1 (by
    rw [isSome_of_map_eq (Arrays.applyAll_shape _ _).chain]
    simp [initArrays, demo, demoPar])
  have e2 := dc_row 1 (0 : ℕ) (demo (demoPar 1 (0 : ℕ))) rfl rfl 0
  unfold cacheRow at e2
  rw [hcur, e2, hch] at e
  simp at e

/-- C44, second half, is violated for PxMALA: with the same stream (one rejection, then acceptances) the run with burn-in 1
saves 1 in row 0, while row 1 of the run without burn-in holds 3/2. -/
theorem C44_mala_select_refuted : ¬ ∀ (M : Sampler 1) (R : Rng) (delta : ℝ) (r : R.σ) (sp : StartPoint) (fuel fuel' ns' : ℕ)
    (st st' : MalaSt R) (b : ℕ), M.par.nburn = b → M.par.ngap = 0 → 
    malaRun M R false delta (initArrays M) r sp fuel = .ok (some st) →
    malaRun (M.resched ns' 0 0 0 M.par.track) R false delta (initArrays (M.resched ns' 0 0 0 M.par.track)) r sp fuel' =
      .ok (some st') → ∀ k < M.par.nsamples, b + k < ns' →
    ∃ row, ((initArrays M).applyAll st.ev).RowIs k row ∧
      ((initArrays (M.resched ns' 0 0 0 M.par.track)).applyAll st'.ev).RowIs (b + k) row := by
  intro H
  have hA := initArrays_shaped (demo (demoPar 1 (1 : ℕ)))
  have hA' := initArrays_shaped (demo (demoPar 2 (0 : ℕ)))
  obtain ⟨st, hst⟩ := demo_mala_returns 1 1 2 _ hA rejectOnce rfl (fun k => rfl) (by simp)
  obtain ⟨st', hst'⟩ := demo_mala_returns 2 0 3 _ hA' rejectOnce rfl (fun k => rfl) (by simp)
  obtain ⟨row, hrow, hch⟩ := demo_mala_rows 1 1 2 _ hA rejectOnce rfl (fun k => rfl) (by simp) st hst
  obtain ⟨row', hrow', hch'⟩ := demo_mala_rows 2 0 3 _ hA' rejectOnce rfl (fun k => rfl) (by simp) st' hst'
  obtain ⟨row2, h1, h2⟩ := H _ _ _ _ _ 2 3 2 st st' 1 rfl rfl hst hst' 0 (by simp [demo, demoPar]) (by norm_num)
  have e1 := chain_row _ 0 _ _ hrow h1 (by
    rw [isSome_of_map_eq (Arrays.applyAll_shape _ _).chain]
    simp [initArrays, demo, demoPar])
  have e2 := chain_row _ 1 _ _ hrow' h2 (by
    rw [isSome_of_map_eq (Arrays.applyAll_shape _ _).chain]
    simp [initArrays, demo, demoPar])
  rw [← e1, hch, hch'] at e2
  norm_num at e2

/-- C54 is violated: with noise always 1 and `u` always 1/2 the demo chain rejects for ever, so `PxMALA.run` never
returns. -/
theorem C54_terminates_refuted : ¬ ∀ (M : Sampler 1) (R : Rng) (delta : ℝ) (r : R.σ) (sp : StartPoint),
    Total M 1 (fun x => x) (fun y => y) (fun x => x) (fun _ => 0) →
    ∃ fuel, malaRun M R false delta (initArrays M) r sp fuel ≠ .ok none := by
  intro H
  obtain ⟨fuel, hf⟩ := H (demo (demoPar 1 (0 : ℕ))) (seqRng fun _ => 1 / 2) (1 / 2) (0 : ℕ)
    (.array1 (List.ofFn fun _ : Fin 1 => 0)) (demo_total _ one_ne_zero)
  apply hf
  have hi := init_vec (demo (demoPar 1 (0 : ℕ))) (seqRng fun _ => 1 / 2) (demo_total _ one_ne_zero) (1 / 2) (0 : ℕ) (0 : ℕ)
    (.array1 (List.ofFn fun _ : Fin 1 => 0)) (fun _ => 0) (demo_start _ _ _ _ one_ne_zero)
  obtain ⟨s, hr, hinv⟩ := reach_of_progress (cond := malaCond (demo (demoPar 1 (0 : ℕ))))
    (body := malaBody (demo (demoPar 1 (0 : ℕ))) (seqRng fun _ => 1 / 2) false (initArrays (demo (demoPar 1 (0 : ℕ)))))
    (fun _ s => s.cur = dc 1 (0 : ℕ) 0 ∧ s.delta = 1 / 2 ∧ s.j = 0) fuel
    ⟨0, 0, cacheOf (demo (demoPar 1 (0 : ℕ))) (fun x => x) (fun y => y) (fun x => x) (fun _ => 0) fun _ : Fin 1 => 0,
      (0 : ℕ), 1 / 2, [], [1 / 2], []⟩ ⟨by simp [dc], rfl, rfl⟩ (by
      rintro k ⟨i, j, cur, rng, delta, acc, deltas, ev⟩ - ⟨h1, h2, h3⟩
      simp only at h1 h2 h3
      subst h1 h2 h3
      have hcore := demo_core 1 (0 : ℕ) (fun _ => 1 / 2) i rng acc deltas 0
      rw [if_neg demo_reject, if_neg demo_reject] at hcore
      refine ⟨by simp [malaCond, demo, demoPar], ?_⟩
      obtain ⟨st', hb, hc'⟩ := malaBody_total (demo (demoPar 1 (0 : ℕ))) (seqRng fun _ => 1 / 2) false _
        (initArrays_shaped _) ⟨i, 0, dc 1 (0 : ℕ) 0, rng, 1 / 2, acc, deltas, ev⟩ _ hcore
        (by simp [demo, demoPar]) (by simp [dc, cacheOf, demo]) (by simp [dc, cacheOf])
      refine ⟨st', hb, congrArg Core.cur hc', congrArg Core.delta hc', ?_⟩
      have hns := (malaBody_ok _ _ _ _ _ _ hb).2.2
      refine (hns ?_).1
      rintro ⟨-, hl⟩
      have : st'.acc = acc ++ [0] := congrArg Core.acc hc'
      rw [this] at hl
      simp at hl)
  unfold malaRun
  rw [hi]
  simp only [bind, Except.bind]
  rw [hr.running (by simp [malaCond, hinv.2.2, demo, demoPar])]
  rfl

/-! ## C53 -/

/-- C53, first half, is violated: no constant makes `calc_logtransition` the log-density of MYULA's Gaussian proposal
(mean `x + delta*∇logπ(x)`, variance `2*delta` per coordinate). -/
theorem C53_transition_refuted : ¬ ∀ (M : Sampler 1) (fwd grad prox : (Fin 1 → ℂ) → (Fin 1 → ℂ)) (pri : (Fin 1 → ℂ) → ℝ)
    (delta : ℝ), Total M 1 fwd grad prox pri → 0 < delta → ∃ c : ℝ, ∀ x y : Fin 1 → ℝ,
    calcLogtransition M delta (List.ofFn fun i => (x i : ℂ)) (List.ofFn fun i => (y i : ℂ))
      (List.ofFn (prox fun i => (x i : ℂ))) (List.ofFn (grad (fwd fun i => (x i : ℂ)))) =
    .ok ((c : ℂ) - (∑ i, ((y i : ℂ) - x i - (delta : ℂ) * gradVec M.par.lmda fwd grad prox (fun i => (x i : ℂ)) i) ^ 2) /
      (4 * delta : ℝ)) := by
  intro H
  obtain ⟨c, hc⟩ := H (demo (demoPar 1 0)) _ _ _ _ (1 / 2) (demo_total _ one_ne_zero) (by norm_num)
  have key : ∀ y : ℝ, ((-(1 / 4) * (y - 0 + 0 / 4) ^ 4 : ℝ) : ℂ) = (c : ℂ) - ((y : ℂ) ^ 2) / 2 := by
    intro y
    have h := hc (fun _ => 0) (fun _ => y)
    have h2 := logtrans_vec (demo (demoPar 1 0)) (fwd := fun x => x) (grad := fun y => y) (prox := fun x => x) (1 / 2)
      (fun _ : Fin 1 => ((0 : ℝ) : ℂ)) (fun _ => (y : ℂ))
    have e : (demo (demoPar 1 0)).par.lmda = 1 := rfl
    rw [e, demo_logtrans] at h2
    rw [h2] at h
    rw [Except.ok.inj h]
    simp [gradVec, e]
    norm_num
  have k0 := congrArg Complex.re (key 0)
  have k1 := congrArg Complex.re (key 1)
  simp at k0
  norm_num at k1
  linarith

/-- C53, second half, is violated: the accept/reject step is not in detailed balance with `exp(logpi)` and MYULA's
proposal density.  (Demo sampler, states 0 and 1, step size 1/2.) -/
theorem C53_balance_refuted : ¬ ∀ (M : Sampler 1) (fwd grad prox : (Fin 1 → ℂ) → (Fin 1 → ℂ)) (pri : (Fin 1 → ℂ) → ℝ)
    (delta : ℝ) (q : (Fin 1 → ℝ) → (Fin 1 → ℝ) → ℝ) (x y : Fin 1 → ℝ) (a a' : ℂ), Total M 1 fwd grad prox pri → 0 < delta →
    (∀ x y : Fin 1 → ℝ, q x y = (√(4 * Real.pi * delta))⁻¹ * Real.exp
      (-(∑ i, (y i - x i - delta * (gradVec M.par.lmda fwd grad prox (fun i => (x i : ℂ)) i).re) ^ 2) / (4 * delta))) →
    malaLogAlpha M delta (cacheOf M fwd grad prox pri fun i => (x i : ℂ)) (cacheOf M fwd grad prox pri fun i => (y i : ℂ))
      = .ok a →
    malaLogAlpha M delta (cacheOf M fwd grad prox pri fun i => (y i : ℂ)) (cacheOf M fwd grad prox pri fun i => (x i : ℂ))
      = .ok a' →
    Real.exp (cacheOf M fwd grad prox pri fun i => (x i : ℂ)).logpi.re * (q x y * min 1 (Real.exp a.re)) =
    Real.exp (cacheOf M fwd grad prox pri fun i => (y i : ℂ)).logpi.re * (q y x * min 1 (Real.exp a'.re)) := by
  intro H
  have h1 := logAlpha_vec (demo (demoPar 1 0)) (fwd := fun x => x) (grad := fun y => y) (prox := fun x => x)
    (pri := fun _ => 0) (1 / 2) (fun _ : Fin 1 => ((0 : ℝ) : ℂ)) (fun _ => ((1 : ℝ) : ℂ))
  have h2 := logAlpha_vec (demo (demoPar 1 0)) (fwd := fun x => x) (grad := fun y => y) (prox := fun x => x)
    (pri := fun _ => 0) (1 / 2) (fun _ : Fin 1 => ((1 : ℝ) : ℂ)) (fun _ => ((0 : ℝ) : ℂ))
  have e1 := demo_logAlpha 1 0 0 1
  have e2 := demo_logAlpha 1 0 1 0
  unfold logAlphaVec at e1 e2
  rw [e1] at h1
  rw [e2] at h2
  have h := H (demo (demoPar 1 0)) _ _ _ _ (1 / 2) _ (fun _ => 0) (fun _ => 1) _ _ (demo_total _ one_ne_zero) (by norm_num)
    (fun x y => rfl) h1 h2
  have l0 := dc_logpi 1 0 0
  have l1 := dc_logpi 1 0 1
  unfold dc at l0 l1
  rw [l0, l1] at h
  have e : (demo (demoPar 1 0)).par.lmda = 1 := rfl
  have hs : (√(4 * Real.pi * (1 / 2)))⁻¹ ≠ 0 := by
    have := Real.pi_pos
    positivity
  generalize (√(4 * Real.pi * (1 / 2)))⁻¹ = C at h hs
  simp only [Complex.ofReal_re, gradVec, e, Fin.sum_univ_one, demoAlpha] at h
  norm_num at h
  have h3 : C * Real.exp (-1361 / 1024) = C * Real.exp (-9 / 8) := by
    calc C * Real.exp (-1361 / 1024) = C * Real.exp (-(1 / 2)) * Real.exp (-(849 / 1024)) := by
          rw [mul_assoc, ← Real.exp_add]; norm_num
      _ = Real.exp (-1) * (C * Real.exp (-(1 / 8))) := h
      _ = C * Real.exp (-9 / 8) := by
          rw [mul_left_comm, ← Real.exp_add]; norm_num
  have h4 := Real.exp_injective (mul_left_cancel₀ hs h3)
  norm_num at h4

/-- C53 (partial): what does hold: the acceptance ratio is in detailed balance with `exp(logpi)` and the code's own
transition function `exp(calc_logtransition)`, for all states; forward and backward ratios are inverse.  Missing: that this
function is the density from which proposals are drawn (false, see the refutations). -/
theorem C53_ratio_partial (M : Sampler n) (delta : ℝ) (c q : Cache) (a a' t t' : ℂ)
    (h : malaLogAlpha M delta c q = .ok a) (h' : malaLogAlpha M delta q c = .ok a')
    (ht : calcLogtransition M delta c.X q.X c.proxf c.gradg = .ok t)
    (ht' : calcLogtransition M delta q.X c.X q.proxf q.gradg = .ok t') :
    a' = -a ∧ Real.exp (c.logpi + t).re * min 1 (Real.exp a.re) = Real.exp (q.logpi + t').re * min 1 (Real.exp a'.re) := by
  unfold malaLogAlpha at h h'
  simp only [ht, ht', bind, Except.bind] at h h'
  have ha := Except.ok.inj h
  have ha' := Except.ok.inj h'
  have hneg : a' = -a := by rw [← ha, ← ha']; ring
  refine ⟨hneg, ?_⟩
  have hre : a.re = (q.logpi + t').re - (c.logpi + t).re := by
    rw [← ha]; simp; ring
  have hre' : a'.re = (c.logpi + t).re - (q.logpi + t').re := by
    rw [hneg, Complex.neg_re, hre]; ring
  rw [hre, hre']
  generalize (c.logpi + t).re = P
  generalize (q.logpi + t').re = Q
  rw [mul_min_of_nonneg _ _ (Real.exp_pos _).le, mul_min_of_nonneg _ _ (Real.exp_pos _).le, ← Real.exp_add, ← Real.exp_add,
    mul_one, mul_one, min_comm]
  congr 2 <;> ring

end Pxmcmc
