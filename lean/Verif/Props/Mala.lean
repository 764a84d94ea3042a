import Verif.Lemmas.Mala
import Mathlib.MeasureTheory.Measure.Lebesgue.Basic
import Mathlib.Analysis.Complex.ExponentialBounds

/-! # Properties C43, C44, C48–C55, C59 for PxMALA -/

namespace Pxmcmc
variable {n p : ℕ}

/-! ## C48 -/

/-- The cached quantities are those of the cached sample. -/
structure Synced (M : Sampler n) (c : Cache) : Prop where
  preds : M.F.forward c.X = .ok c.preds
  gradg : M.F.calcGradg c.preds = .ok c.gradg
  proxf : M.P.proxf c.X = .ok c.proxf
  logpi : Pxmcmc.logpi M.F M.P M.par.mu c.X c.preds = .ok (c.logpi, c.L2, c.prior)

theorem malaPropose_synced (M : Sampler n) (R : Rng) (delta : ℝ) (r : R.σ) (c : Cache) (pr : Cache × R.σ)
    (h : malaPropose M R delta r c = .ok pr) : Synced M pr.1 := by
  unfold malaPropose at h
  obtain ⟨x, -, h⟩ := bind_ok h
  obtain ⟨q, hq, h⟩ := bind_ok h
  obtain ⟨g, hg, h⟩ := bind_ok h
  obtain ⟨f, hf, h⟩ := bind_ok h
  obtain ⟨l, hl, h⟩ := bind_ok h
  obtain rfl := Except.ok.inj h
  exact ⟨hq, hg, hf, hl⟩

theorem malaInit_synced (M : Sampler n) (R : Rng) (delta : ℝ) (r : R.σ) (sp : StartPoint) (s0 : MalaSt R)
    (h : malaInit M R delta r sp = .ok s0) : Synced M s0.cur := by
  obtain ⟨-, -, -, -, -, -, X, preds, r', l, h1, rfl, rfl, -, h2, h3, h4, h5, h6, h7⟩ := malaInit_ok M R delta r sp s0 h
  refine ⟨?_, h2, h3, by rw [h4, h5, h6, h7]⟩
  unfold initialSample at h1
  obtain ⟨x, -, h1⟩ := bind_ok h1
  obtain ⟨q, hq, h1⟩ := bind_ok h1
  have := Except.ok.inj h1
  rw [Prod.mk.injEq, Prod.mk.injEq] at this
  rw [← this.1, ← this.2.1]
  exact hq

theorem coreStep_synced (M : Sampler n) (R : Rng) (tune : Bool) (c c' : Core R) (h : coreStep M R tune c = .ok c')
    (hs : Synced M c.cur) : Synced M c'.cur := by
  obtain ⟨pr, a, v, hpr, -, -, -, -, hacc, -⟩ := coreStep_ok M R tune c c' h
  rcases hacc with ⟨-, -, e⟩ | ⟨-, -, e⟩
  · rw [e]; exact malaPropose_synced M R _ _ _ pr hpr
  · rw [e]; exact hs

/-- C48: at the head of every iteration, whatever has been accepted or rejected, the cached predictions, gradient, prox
and log-posterior are those of the current sample. -/
theorem C48_synced (M : Sampler n) (R : Rng) (tune : Bool) (A0 : Arrays) (delta : ℝ) (r : R.σ) (sp : StartPoint)
    (s0 : MalaSt R) (h0 : malaInit M R delta r sp = .ok s0) (m : ℕ) (st : MalaSt R)
    (h : Reach (malaCond M) (malaBody M R tune A0) s0 m st) : Synced M st.cur :=
  h.invariant (fun _ s => Synced M s.cur) (malaInit_synced M R delta r sp s0 h0) fun _ s s' hi _ hb =>
    coreStep_synced M R tune s.core s'.core (malaBody_ok M R tune A0 s s' hb).1 hi

theorem hist_synced (M : Sampler n) (R : Rng) (tune : Bool) (c0 : Core R) (h0 : Synced M c0.cur) (m : ℕ)
    (T : ℕ → Core R) (hT : CoreHist M R tune c0 m T) : ∀ k ≤ m, Synced M (T k).cur := by
  intro k
  induction k with
  | zero => intro _; rw [hT.1]; exact h0
  | succ k ih => intro hk; exact coreStep_synced M R tune _ _ (hT.2 k (by omega)) (ih (by omega))

/-! ## C43, C44, C55, C59 for PxMALA -/

/-- C43 for PxMALA, arbitrary operators and any accept/reject history. -/
theorem C43_rows_mala (M : Sampler n) (R : Rng) (tune : Bool) (delta : ℝ) (A0 : Arrays)
    (hA : A0.Shaped M.par.nsamples) (b : ℕ) (hb : M.par.nburn = b) (r : R.σ) (sp : StartPoint) (fuel : ℕ)
    (st : MalaSt R) (h : malaRun M R tune delta A0 r sp fuel = .ok (some st)) (k : ℕ) (hk : k < M.par.nsamples) :
    ∃ X row, Records M X row ∧ (A0.applyAll st.ev).RowIs k row := by
  obtain ⟨s0, T, h0, hT, -, hacc, -, hlen, harr, -⟩ := malaRun_result M R tune delta A0 hA b hb r sp fuel st h
  refine ⟨(T (((savedIters st.acc b (spacing M.par))[k]?).getD 0 + 1)).cur.X,
    histRow M T (savedIters st.acc b (spacing M.par)) k, ?_, by rw [harr]; exact ofRows_rowIs A0 _ _ k hk⟩
  rw [← hlen] at hk
  have hlt := savedIters_lt _ _ _ _ (List.getElem_mem hk)
  have hs := hist_synced M R tune s0.core (malaInit_synced M R delta r sp s0 h0) st.i T hT
    (((savedIters st.acc b (spacing M.par))[k]?).getD 0 + 1)
    (by rw [List.getElem?_eq_getElem hk, Option.getD_some]; omega)
  exact records_mkRow M _ _ _ hs.preds hs.logpi

theorem coreHist_acc (M : Sampler n) (R : Rng) (tune : Bool) (c0 : Core R) (m : ℕ) (T : ℕ → Core R)
    (hT : CoreHist M R tune c0 m T) (k l : ℕ) (hkl : k ≤ l) (hl : l ≤ m) : (T k).acc <+: (T l).acc := by
  induction l with
  | zero => obtain rfl : k = 0 := by omega
            exact List.prefix_refl _
  | succ l ih =>
    rcases Nat.lt_or_ge k (l + 1) with h1 | h1
    · obtain ⟨pr, a, v, -, -, -, e, -⟩ := coreStep_ok M R tune _ _ (hT.2 l (by omega))
      rw [e]
      exact (ih (by omega) (by omega)).trans (List.prefix_append _ _)
    · obtain rfl : k = l + 1 := by omega
      exact List.prefix_refl _

/-- C44 for PxMALA: running with more samples keeps the first rows (the second half of C44, selection by burn-in and
thinning, is false for PxMALA: `C44_mala_select_refuted`). -/
theorem C44_longer_runs_mala (M : Sampler n) (R : Rng) (tune : Bool) (delta : ℝ) (A0 A0' : Arrays) (ns' b g : ℕ)
    (hb : M.par.nburn = b) (hg : M.par.ngap = g) (hA : A0.Shaped M.par.nsamples) (hA' : A0'.Shaped ns') (v' : ℤ)
    (track' : List String) (hns : M.par.nsamples ≤ ns') (r : R.σ) (sp : StartPoint) (fuel fuel' : ℕ)
    (st st' : MalaSt R) (h : malaRun M R tune delta A0 r sp fuel = .ok (some st))
    (h' : malaRun (M.resched ns' b g v' track') R tune delta A0' r sp fuel' = .ok (some st'))
    (k : ℕ) (hk : k < M.par.nsamples) :
    ∃ row, (A0.applyAll st.ev).RowIs k row ∧ (A0'.applyAll st'.ev).RowIs k row := by
  obtain ⟨s0, T, h0, hT, hcore, hacc, -, hlen, harr, -⟩ := malaRun_result M R tune delta A0 hA b hb r sp fuel st h
  obtain ⟨s1, T', h1, hT', hcore', hacc', -, hlen', harr', -⟩ := malaRun_result (M.resched ns' b g v' track') R tune
    delta A0' hA' b rfl r sp fuel' st' h'
  have h1' : malaInit M R delta r sp = .ok s1 := h1
  rw [h0] at h1'
  obtain rfl := Except.ok.inj h1'
  have hsp : spacing (M.resched ns' b g v' track').par = spacing M.par := by
    rw [spacing_nat _ g rfl, spacing_nat _ g hg]
  rw [hsp] at hlen' harr'
  have hT'' : CoreHist M R tune s0.core st'.i T' := hT'
  have hTa : st.acc = (T st.i).acc := congrArg Core.acc hcore
  have hTa' : st'.acc = (T' st'.i).acc := congrArg Core.acc hcore'
  have hk1 : k < (savedIters st.acc b (spacing M.par)).length := by rw [hlen]; exact hk
  have hk2 : k < (savedIters st'.acc b (spacing M.par)).length := by
    rw [hlen']; exact lt_of_lt_of_le hk hns
  have agree : ∀ i, i ≤ st.i → i ≤ st'.i → T i = T' i := by
    intro i hi hi'
    have u1 : CoreHist M R tune s0.core i T := ⟨hT.1, fun k hk => hT.2 k (by omega)⟩
    have u2 : CoreHist M R tune s0.core i T' := ⟨hT''.1, fun k hk => hT''.2 k (by omega)⟩
    exact u1.unique u2 i le_rfl
  have hpre : (savedIters st.acc b (spacing M.par)) <+: (savedIters st'.acc b (spacing M.par)) ∨
      (savedIters st'.acc b (spacing M.par)) <+: (savedIters st.acc b (spacing M.par)) := by
    rcases Nat.le_total st.i st'.i with hle | hle
    · left
      apply savedIters_prefix
      rw [hTa, hTa', agree st.i le_rfl hle]
      exact coreHist_acc M R tune _ _ T' hT'' _ _ hle le_rfl
    · right
      apply savedIters_prefix
      rw [hTa, hTa', ← agree st'.i hle le_rfl]
      exact coreHist_acc M R tune _ _ T hT _ _ hle le_rfl
  have hidx : (savedIters st.acc b (spacing M.par))[k]? = (savedIters st'.acc b (spacing M.par))[k]? := by
    rcases hpre with ⟨t, ht⟩ | ⟨t, ht⟩
    · rw [← ht, List.getElem?_append_left hk1]
    · rw [← ht, List.getElem?_append_left hk2]
  have l1 := savedIters_lt _ _ _ _ (List.getElem_mem hk1)
  have l2 := savedIters_lt _ _ _ _ (List.getElem_mem hk2)
  have e : histRow M T (savedIters st.acc b (spacing M.par)) k = histRow M T' (savedIters st'.acc b (spacing M.par)) k := by
    unfold histRow
    have e1 : ((savedIters st.acc b (spacing M.par))[k]?).getD 0 + 1 ≤ st.i := by
      rw [List.getElem?_eq_getElem hk1, Option.getD_some]; omega
    have e2 : ((savedIters st.acc b (spacing M.par))[k]?).getD 0 + 1 ≤ st'.i := by
      rw [hidx, List.getElem?_eq_getElem hk2, Option.getD_some]; omega
    rw [agree _ e1 e2, hidx]
  refine ⟨_, by rw [harr]; exact ofRows_rowIs A0 _ _ k hk, ?_⟩
  rw [harr', e]
  exact ofRows_rowIs A0' _ (histRow M T' (savedIters st'.acc b (spacing M.par))) k (lt_of_lt_of_le hk hns)

/-- C55 for PxMALA. -/
theorem C55_crash_mala (M : Sampler n) (R : Rng) (tune : Bool) (delta : ℝ) (A0 : Arrays)
    (hA : A0.Shaped M.par.nsamples) (b : ℕ) (hb : M.par.nburn = b) (r : R.σ) (sp : StartPoint) (fuel : ℕ)
    (st : MalaSt R) (h : malaRun M R tune delta A0 r sp fuel = .ok (some st)) (ev' : List Event) (hp : ev' <+: st.ev) :
    ∃ k0 ≤ M.par.nsamples, (∀ k < k0, (A0.applyAll ev').row k = (A0.applyAll st.ev).row k) ∧
      (∀ k > k0, (A0.applyAll ev').row k = A0.row k) ∧
      ((A0.applyAll ev').chain.map (fun l => l[k0]?) = A0.chain.map (fun l => l[k0]?) ∨
        (A0.applyAll ev').row k0 = (A0.applyAll st.ev).row k0) := by
  obtain ⟨s0, T, -, -, -, -, -, -, -, hev⟩ := malaRun_result M R tune delta A0 hA b hb r sp fuel st h
  exact crash_prefix A0 _ hA _ le_rfl _ st.ev ev' hev hp

theorem ofRows_shape (A B : Arrays) (h : A.SameShape B) (ns : ℕ) (rows : ℕ → Row) : A.ofRows ns rows = B.ofRows ns rows := by
  have key : ∀ {α β : Type} (o o' : Option (List β)) (a : α), o.map List.length = o'.map List.length →
      (o.map fun _ => a) = o'.map fun _ => a := by
    intro α β o o' a h
    cases o <;> cases o' <;> simp_all
  simp only [Arrays.ofRows, key _ _ _ h.logPi, key _ _ _ h.L2s, key _ _ _ h.priors, key _ _ _ h.preds,
    key _ _ _ h.chain]

theorem ofRows_congr (A : Arrays) (ns : ℕ) (rows rows' : ℕ → Row) (h : ∀ k < ns, rows k = rows' k) :
    A.ofRows ns rows = A.ofRows ns rows' := by
  have e : ∀ {α : Type} (f : Row → α), (List.range ns).map (fun k => f (rows k)) =
      (List.range ns).map fun k => f (rows' k) := fun f =>
    List.map_congr_left fun k hk => by rw [h k (List.mem_range.mp hk)]
  simp only [Arrays.ofRows, e]

/-- C59 for SKROCK. -/
theorem C59_second_run_skrock (M : Sampler n) (R : Rng) (A0 : Arrays) (hA : A0.Shaped M.par.nsamples) (b : ℕ)
    (hb : M.par.nburn = b) (r1 : R.σ) (sp1 : StartPoint) (fuel1 : ℕ) (st1 : St R)
    (_h1 : skrockRun M R A0 r1 sp1 fuel1 = .ok (some st1)) (sp2 : StartPoint) (fuel2 fuel3 : ℕ) (st2 st3 : St R)
    (h2 : skrockRun M R (A0.applyAll st1.ev) st1.cur.rng sp2 fuel2 = .ok (some st2))
    (h3 : skrockRun M R A0 st1.cur.rng sp2 fuel3 = .ok (some st3)) :
    (A0.applyAll st1.ev).applyAll st2.ev = A0.applyAll st3.ev := by
  have hsh := A0.applyAll_shape st1.ev
  have hA1 := Arrays.Shaped.of_same hsh hA
  obtain ⟨co, X0, P0, r0, T, rows, hco, hx, hT, -, hrows, harr, -⟩ := skrockRun_result M R _ hA1 b hb _ sp2 fuel2 st2 h2
  obtain ⟨co', X1, P1, r1', T', rows', hco', hx', hT', -, hrows', harr', -⟩ :=
    skrockRun_result M R _ hA b hb _ sp2 fuel3 st3 h3
  rw [hx] at hx'
  obtain ⟨rfl, rfl, rfl⟩ : X0 = X1 ∧ P0 = P1 ∧ r0 = r1' := by simpa using hx'
  rw [hco] at hco'
  obtain rfl := Except.ok.inj hco'
  have hrow : ∀ k < M.par.nsamples, rows k = rows' k := by
    intro k hk
    obtain ⟨hle, l, hl, hr⟩ := hrows k hk
    obtain ⟨hle', l', hl', hr'⟩ := hrows' k hk
    rw [hr, hr']
    exact rows_agree M M R (skrockTransition M R co) ⟨X0, P0, r0⟩ T T' _ _ hT hT' _ hle hle' l l' rfl rfl rfl rfl rfl
      hl hl'
  rw [harr, harr', ofRows_shape _ _ hsh, ofRows_congr _ _ _ _ hrow]

/-- C59 for PxMALA: a second run, which starts from the step size `st1.delta` to which the first one tuned, overwrites
every row with its own samples, restarts its traces, and its first step size is the tuned one. -/
theorem C59_second_run_mala (M : Sampler n) (R : Rng) (tune : Bool) (delta : ℝ) (A0 : Arrays)
    (hA : A0.Shaped M.par.nsamples) (b : ℕ) (hb : M.par.nburn = b) (r1 : R.σ) (sp1 : StartPoint) (fuel1 : ℕ)
    (st1 : MalaSt R) (_h1 : malaRun M R tune delta A0 r1 sp1 fuel1 = .ok (some st1)) (sp2 : StartPoint)
    (fuel2 : ℕ) (st2 : MalaSt R)
    (h2 : malaRun M R tune st1.delta (A0.applyAll st1.ev) st1.rng sp2 fuel2 = .ok (some st2)) :
    st2.deltas.head? = some st1.delta ∧ st2.acc.length = st2.i ∧
    ∀ fuel3 st3, malaRun M R tune st1.delta A0 st1.rng sp2 fuel3 = .ok (some st3) →
      (A0.applyAll st1.ev).applyAll st2.ev = A0.applyAll st3.ev ∧ st2.acc = st3.acc ∧ st2.deltas = st3.deltas := by
  have hsh := A0.applyAll_shape st1.ev
  have hA1 := Arrays.Shaped.of_same hsh hA
  obtain ⟨s0, T, h0, hT, hcore, hacc, -, hlen, harr, -⟩ := malaRun_result M R tune _ _ hA1 b hb _ sp2 fuel2 st2 h2
  have hd0 := (malaInit_ok M R _ _ sp2 s0 h0).2.2.2.2.2.1
  refine ⟨?_, hacc, ?_⟩
  · have : ∀ k ≤ st2.i, (T k).deltas.head? = some st1.delta := by
      intro k
      induction k with
      | zero => intro _; rw [hT.1]; show s0.deltas.head? = _; rw [hd0]; rfl
      | succ k ih =>
        intro hk
        obtain ⟨_, _, _, -, -, -, -, -, -, hd⟩ := coreStep_ok M R tune _ _ (hT.2 k (by omega))
        have ih' := ih (by omega)
        rcases hd with ⟨-, -, e⟩ | ⟨-, -, e⟩
        · rw [e, List.head?_append, ih']; rfl
        · rw [e, ih']
    have h3 := this st2.i le_rfl
    rw [← hcore] at h3
    exact h3
  · intro fuel3 st3 h3
    obtain ⟨s1, T', h1', hT', hcore', hacc', -, hlen', harr', -⟩ := malaRun_result M R tune _ _ hA b hb _ sp2 fuel3 st3 h3
    rw [h0] at h1'
    obtain rfl := Except.ok.inj h1'
    -- both runs stop at the same iteration
    have agree : ∀ i, i ≤ st2.i → i ≤ st3.i → T i = T' i := by
      intro i hi hi'
      have u1 : CoreHist M R tune s0.core i T := ⟨hT.1, fun k hk => hT.2 k (by omega)⟩
      have u2 : CoreHist M R tune s0.core i T' := ⟨hT'.1, fun k hk => hT'.2 k (by omega)⟩
      exact u1.unique u2 i le_rfl
    have hst : ∀ (fA fB : ℕ) (A B : Arrays) (s s' : MalaSt R), malaRun M R tune st1.delta A st1.rng sp2 fA = .ok (some s) →
        malaRun M R tune st1.delta B st1.rng sp2 fB = .ok (some s') → A.Shaped M.par.nsamples → B.Shaped M.par.nsamples →
        ∀ U U', CoreHist M R tune s0.core s.i U → CoreHist M R tune s0.core s'.i U' → s'.core = U' s'.i → s.core = U s.i →
        s.acc.length = s.i → ¬ s.i < s'.i := by
      intro fA fB A B s s' hs hs' hA hB U U' hU hU' hc' hc hlen hlt
      -- the longer run has already saved all rows after the shorter one's iterations
      obtain ⟨t0, t, m, g0, hr, hcond, -, rfl⟩ := malaRun_ok M R tune _ B _ sp2 fB s' hs'
      rw [h0] at g0
      obtain rfl := Except.ok.inj g0
      have hm : t.i = m := (minv_reach M R tune B b hb _ _ sp2 s0 h0 m t hr).1
      have hlt' : s.i < m := by rw [← hm]; exact hlt
      obtain ⟨q, hq⟩ := hr.prefix s.i hlt'.le
      have hqi := minv_reach M R tune B b hb _ _ sp2 s0 h0 _ q hq
      obtain ⟨_, _, hqj, V, hV, hqc, -⟩ := hqi
      have hsq : q.core = s.core := by
        rw [hqc, hc]
        exact (hV.unique hU s.i le_rfl)
      have hqacc : q.acc = s.acc := congrArg Core.acc hsq
      have hfin : (savedIters s.acc b (spacing M.par)).length = M.par.nsamples := by
        obtain ⟨_, _, _, _, _, _, _, hl, _⟩ := malaRun_result M R tune _ A hA b hb _ sp2 fA s hs
        exact hl
      have hqcond : malaCond M q = false := by
        simp [malaCond, hqj, hqacc, hfin]
      -- but the loop went on from q
      have hq2 := hq.returns hqcond (m - s.i)
      rw [Nat.add_sub_cancel' hlt'.le] at hq2
      have hr2 := hr.returns hcond 0
      rw [Nat.add_zero, hq2] at hr2
      have : q = t := Option.some.inj (Except.ok.inj hr2)
      have h5 := (minv_reach M R tune B b hb _ _ sp2 s0 h0 _ q hq).1
      rw [this, hm] at h5
      omega
    have n1 := hst _ _ _ _ st2 st3 h2 h3 hA1 hA T T' hT hT' hcore' hcore hacc
    have n2 := hst _ _ _ _ st3 st2 h3 h2 hA hA1 T' T hT' hT hcore hcore' hacc'
    have hi : st2.i = st3.i := by omega
    have hcc : st2.core = st3.core := by rw [hcore, hcore', hi, agree st3.i (by omega) le_rfl]
    have ha : st2.acc = st3.acc := congrArg Core.acc hcc
    refine ⟨?_, ha, congrArg Core.deltas hcc⟩
    rw [harr, harr', ofRows_shape _ _ hsh]
    apply ofRows_congr
    intro k hk
    unfold histRow
    rw [ha]
    have hk' : k < (savedIters st3.acc b (spacing M.par)).length := by rw [hlen']; exact hk
    have hlt := savedIters_lt _ _ _ _ (List.getElem_mem hk')
    rw [agree]
    · rw [List.getElem?_eq_getElem hk', Option.getD_some]; omega
    · rw [List.getElem?_eq_getElem hk', Option.getD_some]; omega

end Pxmcmc
