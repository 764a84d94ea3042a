import Verif.Props.Myula

/-! # Properties C43–C45, C55–C57, C59 for MYULA and SKROCK -/

namespace Pxmcmc
variable {n p : ℕ}

/-- Row `k` of every existing array holds the values of `r`. -/
structure Arrays.RowIs (A : Arrays) (k : ℕ) (r : Row) : Prop where
  logPi : ∀ a ∈ A.logPi, a[k]? = some r.logPi
  L2s : ∀ a ∈ A.L2s, a[k]? = some r.L2
  priors : ∀ a ∈ A.priors, a[k]? = some r.prior
  preds : ∀ a ∈ A.preds, a[k]? = some r.preds
  chain : ∀ a ∈ A.chain, a[k]? = some r.chain

theorem ofRows_rowIs (A : Arrays) (ns : ℕ) (rows : ℕ → Row) (k : ℕ) (hk : k < ns) :
    (A.ofRows ns rows).RowIs k (rows k) := by
  have key : ∀ {α β : Type} (o : Option β) (f : ℕ → α), ∀ a ∈ o.map (fun _ => (List.range ns).map f), a[k]? = some (f k) := by
    intro α β o f a ha
    cases o with
    | none => cases ha
    | some x =>
      obtain rfl := Option.some.inj ha
      simp [hk]
  exact ⟨key _ _, key _ _, key _ _, key _ _, key _ _⟩

/-- `r` are the values to be recorded for the sample `X`. -/
structure Records (M : Sampler n) (X : List ℂ) (r : Row) : Prop where
  ex : ∃ preds l, M.F.forward X = .ok preds ∧ logpi M.F M.P M.par.mu X preds = .ok l ∧ r.logPi = l.1.re ∧
    r.L2 = l.2.1.re ∧ r.prior = l.2.2 ∧ (preds.length = n → r.preds = preds.map (store false))
  chain : X.length = M.nparams → r.chain = X.map (store M.par.complex)
  sum : r.logPi = -M.par.mu * r.prior - r.L2

theorem logpi_sum (F : ForwardOp n) (P : PriorObj) (mu : ℝ) (X preds : List ℂ) (l : ℂ × ℂ × ℝ)
    (h : logpi F P mu X preds = .ok l) : l.1 = ((-mu * l.2.2 : ℝ) : ℂ) - l.2.1 := by
  unfold logpi at h
  obtain ⟨_, -, h⟩ := bind_ok h
  obtain ⟨_, -, h⟩ := bind_ok h
  obtain ⟨_, -, h⟩ := bind_ok h
  obtain ⟨_, -, h⟩ := bind_ok h
  rw [← Except.ok.inj h]

theorem records_mkRow (M : Sampler n) (X preds : List ℂ) (l : ℂ × ℂ × ℝ) (hf : M.F.forward X = .ok preds)
    (hl : logpi M.F M.P M.par.mu X preds = .ok l) : Records M X (mkRow M X preds l) where
  ex := ⟨preds, l, hf, hl, rfl, rfl, rfl, fun h => by simp [mkRow, rowAssign, h]⟩
  chain := fun h => by simp [mkRow, rowAssign, h]
  sum := by
    have := congrArg Complex.re (logpi_sum _ _ _ _ _ _ hl)
    simpa [mkRow] using this

theorem myulaStep_forward (M : Sampler n) (R : Rng) (c c' : Cur R) (h : myulaStep M R c = .ok c') :
    M.F.forward c'.X = .ok c'.preds := by
  unfold myulaStep at h
  obtain ⟨_, -, h⟩ := bind_ok h
  obtain ⟨_, -, h⟩ := bind_ok h
  obtain ⟨_, -, h⟩ := bind_ok h
  obtain ⟨_, hp, h⟩ := bind_ok h
  rw [← Except.ok.inj h]
  exact hp

theorem skrockTransition_forward (M : Sampler n) (R : Rng) (co : SkrockCoefs) (c c' : Cur R)
    (h : skrockTransition M R co c = .ok c') : M.F.forward c'.X = .ok c'.preds := by
  unfold skrockTransition at h
  obtain ⟨_, -, h⟩ := bind_ok h
  obtain ⟨_, -, h⟩ := bind_ok h
  obtain ⟨_, -, h⟩ := bind_ok h
  obtain ⟨_, hp, h⟩ := bind_ok h
  rw [← Except.ok.inj h]
  exact hp

/-- The result of a returned MYULA run, for arbitrary operators. -/
theorem myulaRun_result (M : Sampler n) (R : Rng) (A0 : Arrays) (hA : A0.Shaped M.par.nsamples) (b : ℕ)
    (hb : M.par.nburn = b) (r : R.σ) (sp : StartPoint) (fuel : ℕ) (st : St R)
    (h : myulaRun M R A0 r sp fuel = .ok (some st)) :
    ∃ (X0 P0 : List ℂ) (r0 : R.σ) (T : ℕ → Cur R) (rows : ℕ → Row), initialSample M R r sp = .ok (X0, P0, r0) ∧
      Hist (myulaStep M R) ⟨X0, P0, r0⟩ (numIter M.par.nsamples b (spacing M.par)) T ∧
      st.cur = T (numIter M.par.nsamples b (spacing M.par)) ∧
      (∀ k < M.par.nsamples, b + k * spacing M.par + 1 ≤ numIter M.par.nsamples b (spacing M.par) ∧
        ∃ l, logpi M.F M.P M.par.mu (T (b + k * spacing M.par + 1)).X (T (b + k * spacing M.par + 1)).preds
        = .ok l ∧ rows k = mkRow M (T (b + k * spacing M.par + 1)).X (T (b + k * spacing M.par + 1)).preds l) ∧
      A0.applyAll st.ev = A0.ofRows M.par.nsamples rows ∧
      st.ev.filter Event.isWrite = (List.range M.par.nsamples).flatMap fun (k : ℕ) => rowEvents A0 k (rows k) := by
  unfold myulaRun at h
  obtain ⟨⟨X0, P0, r0⟩, hx, h⟩ := bind_ok h
  obtain ⟨res, hres, h⟩ := bind_ok h
  rw [myulaBody_eq] at hres
  cases res with
  | none => cases Except.ok.inj h
  | some s =>
    obtain rfl := Option.some.inj (Except.ok.inj h)
    obtain ⟨T, rows, h1, -, h3, h4, h5, h6⟩ := gen_result M A0 _ _ (myulaProg_noWrites M A0) _ b hb hA fuel s hres
    refine ⟨X0, P0, r0, T, rows, hx, h1, h3, h4, ?_, ?_⟩
    · rw [applyAll_append, h5]; rfl
    · rw [List.filter_append, h6]; simp [Event.isWrite]

/-- The result of a returned SKROCK run, for arbitrary operators. -/
theorem skrockRun_result (M : Sampler n) (R : Rng) (A0 : Arrays) (hA : A0.Shaped M.par.nsamples) (b : ℕ)
    (hb : M.par.nburn = b) (r : R.σ) (sp : StartPoint) (fuel : ℕ) (st : St R)
    (h : skrockRun M R A0 r sp fuel = .ok (some st)) :
    ∃ (co : SkrockCoefs) (X0 P0 : List ℂ) (r0 : R.σ) (T : ℕ → Cur R) (rows : ℕ → Row), skrockInit M.par.s = .ok co ∧
      initialSample M R r sp = .ok (X0, P0, r0) ∧
      Hist (skrockTransition M R co) ⟨X0, P0, r0⟩ (numIter M.par.nsamples b (spacing M.par)) T ∧
      st.cur = T (numIter M.par.nsamples b (spacing M.par)) ∧
      (∀ k < M.par.nsamples, b + k * spacing M.par + 1 ≤ numIter M.par.nsamples b (spacing M.par) ∧
        ∃ l, logpi M.F M.P M.par.mu (T (b + k * spacing M.par + 1)).X (T (b + k * spacing M.par + 1)).preds
        = .ok l ∧ rows k = mkRow M (T (b + k * spacing M.par + 1)).X (T (b + k * spacing M.par + 1)).preds l) ∧
      A0.applyAll st.ev = A0.ofRows M.par.nsamples rows ∧
      st.ev.filter Event.isWrite = (List.range M.par.nsamples).flatMap fun (k : ℕ) => rowEvents A0 k (rows k) := by
  unfold skrockRun at h
  obtain ⟨co, hco, h⟩ := bind_ok h
  obtain ⟨⟨X0, P0, r0⟩, hx, h⟩ := bind_ok h
  obtain ⟨res, hres, h⟩ := bind_ok h
  rw [skrockBody_eq] at hres
  cases res with
  | none => cases Except.ok.inj h
  | some s =>
    obtain rfl := Option.some.inj (Except.ok.inj h)
    obtain ⟨T, rows, h1, -, h3, h4, h5, h6⟩ := gen_result M A0 _ _ (skrockProg_noWrites M A0) _ b hb hA fuel s hres
    refine ⟨co, X0, P0, r0, T, rows, hco, hx, h1, h3, h4, ?_, ?_⟩
    · rw [applyAll_append, h5]; rfl
    · rw [List.filter_append, h6]; simp [Event.isWrite]

/-- Runs of the demo sampler return for every schedule; used in the examples below. -/
theorem demo_returns (ns b g : ℕ) (A0 : Arrays) (hA : A0.Shaped ns) (w : ℝ) (x0 : Fin 1 → ℂ) : ∃ fuel st,
    myulaRun (demo ⟨1, 1 / 2, 1, 1, ns, b, g, true, 0, ["chain"]⟩) (constRng w 0) A0 () (.array1 (List.ofFn x0)) fuel =
      .ok (some st) := by
  obtain ⟨-, st, h, -⟩ := C41_schedule (demo ⟨1, 1 / 2, 1, 1, ns, b, g, true, 0, ["chain"]⟩) (constRng w 0) A0 hA
    (.inl le_rfl) b g rfl rfl (demo_total _ one_ne_zero) _
    (fun x => gradlogpi_vec _ (demo_total _ one_ne_zero) x) () () (.array1 (List.ofFn x0)) x0
    (demo_start _ _ _ _ one_ne_zero) _ rfl
  exact ⟨_, st, h _ le_rfl⟩

/-! ## C43 -/

/-- C43 for MYULA, arbitrary operators: every saved row belongs to one sample: predictions, misfit, prior, log-posterior
and chain entry are those of that sample, and `logPi[k] = -mu*priors[k] - L2s[k]`. -/
theorem C43_rows_myula (M : Sampler n) (R : Rng) (A0 : Arrays) (hA : A0.Shaped M.par.nsamples) (b : ℕ)
    (hb : M.par.nburn = b) (r : R.σ) (sp : StartPoint) (fuel : ℕ) (st : St R)
    (h : myulaRun M R A0 r sp fuel = .ok (some st)) (k : ℕ) (hk : k < M.par.nsamples) :
    ∃ X row, Records M X row ∧ (A0.applyAll st.ev).RowIs k row := by
  obtain ⟨X0, P0, r0, T, rows, -, hT, -, hrows, harr, -⟩ := myulaRun_result M R A0 hA b hb r sp fuel st h
  obtain ⟨hle, l, hl, he⟩ := hrows k hk
  refine ⟨(T (b + k * spacing M.par + 1)).X, rows k, ?_, by rw [harr]; exact ofRows_rowIs A0 _ rows k hk⟩
  rw [he]
  exact records_mkRow M _ _ l (myulaStep_forward M R _ _ (hT.2 _ (by omega))) hl

/-- C43 for SKROCK. -/
theorem C43_rows_skrock (M : Sampler n) (R : Rng) (A0 : Arrays) (hA : A0.Shaped M.par.nsamples) (b : ℕ)
    (hb : M.par.nburn = b) (r : R.σ) (sp : StartPoint) (fuel : ℕ) (st : St R)
    (h : skrockRun M R A0 r sp fuel = .ok (some st)) (k : ℕ) (hk : k < M.par.nsamples) :
    ∃ X row, Records M X row ∧ (A0.applyAll st.ev).RowIs k row := by
  obtain ⟨co, X0, P0, r0, T, rows, -, -, hT, -, hrows, harr, -⟩ := skrockRun_result M R A0 hA b hb r sp fuel st h
  obtain ⟨hle, l, hl, he⟩ := hrows k hk
  refine ⟨(T (b + k * spacing M.par + 1)).X, rows k, ?_, by rw [harr]; exact ofRows_rowIs A0 _ rows k hk⟩
  rw [he]
  exact records_mkRow M _ _ l (skrockTransition_forward M R co _ _ (hT.2 _ (by omega))) hl

/-- C43 applies: a run with five samples, burn-in 3 and thinning 2 returns. -/
example : ∃ fuel st, myulaRun (demo ⟨1, 1 / 2, 1, 1, 5, (3 : ℕ), (2 : ℕ), true, 0, ["chain"]⟩) (constRng 1 0)
    (initArrays (demo ⟨1, 1 / 2, 1, 1, 5, (3 : ℕ), (2 : ℕ), true, 0, ["chain"]⟩)) () (.array1 (List.ofFn fun _ : Fin 1 => 2)) fuel =
      .ok (some st) := demo_returns 5 3 2 _ (initArrays_shaped _) 1 _

/-! ## C44 -/

/-- The same sampler with another schedule, verbosity and track list. -/
def Sampler.resched (M : Sampler n) (ns : ℕ) (b g v : ℤ) (track : List String) : Sampler n :=
  { M with par := { M.par with nsamples := ns, nburn := b, ngap := g, verbosity := v, track := track } }

theorem rows_agree (M M' : Sampler n) (R : Rng) (step : Cur R → Py (Cur R)) (c0 : Cur R) (T T' : ℕ → Cur R) (N N' : ℕ)
    (hT : Hist step c0 N T) (hT' : Hist step c0 N' T') (i : ℕ) (hi : i ≤ N) (hi' : i ≤ N') (l l' : ℂ × ℂ × ℝ)
    (hF : M'.F = M.F) (hP : M'.P = M.P) (hmu : M'.par.mu = M.par.mu) (hc : M'.par.complex = M.par.complex)
    (hn : M'.nparams = M.nparams)
    (hl : logpi M.F M.P M.par.mu (T i).X (T i).preds = .ok l)
    (hl' : logpi M'.F M'.P M'.par.mu (T' i).X (T' i).preds = .ok l') :
    mkRow M (T i).X (T i).preds l = mkRow M' (T' i).X (T' i).preds l' := by
  have h1 : Hist step c0 i T := ⟨hT.1, fun k hk => hT.2 k (by omega)⟩
  have h2 : Hist step c0 i T' := ⟨hT'.1, fun k hk => hT'.2 k (by omega)⟩
  have e := h1.unique h2 i le_rfl
  rw [hF, hP, hmu, ← e, hl] at hl'
  rw [← e, ← Except.ok.inj hl']
  unfold mkRow
  rw [hc, hn]

/-- C44: two MYULA runs from the same generator state and start point that differ only in schedule, verbosity and track
list agree on rows that fall on the same iteration: row `k` of the first equals row `k'` of the second whenever
`nburn + k*max(ngap,1) = nburn' + k'*max(ngap',1)`. -/
theorem C44_myula (M : Sampler n) (R : Rng) (A0 A0' : Arrays) (ns' b g b' g' : ℕ) (v' : ℤ) (track' : List String)
    (hb : M.par.nburn = b) (hg : M.par.ngap = g) (hA : A0.Shaped M.par.nsamples) (hA' : A0'.Shaped ns')
    (r : R.σ) (sp : StartPoint) (fuel fuel' : ℕ) (st st' : St R) (h : myulaRun M R A0 r sp fuel = .ok (some st))
    (h' : myulaRun (M.resched ns' b' g' v' track') R A0' r sp fuel' = .ok (some st')) (k k' : ℕ)
    (hk : k < M.par.nsamples) (hk' : k' < ns') (he : b + k * max g 1 = b' + k' * max g' 1) :
    ∃ row, (A0.applyAll st.ev).RowIs k row ∧ (A0'.applyAll st'.ev).RowIs k' row := by
  obtain ⟨X0, P0, r0, T, rows, hx, hT, -, hrows, harr, -⟩ := myulaRun_result M R A0 hA b hb r sp fuel st h
  obtain ⟨X1, P1, r1, T', rows', hx', hT', -, hrows', harr', -⟩ := myulaRun_result (M.resched ns' b' g' v' track') R A0'
    hA' b' rfl r sp fuel' st' h'
  obtain ⟨hle, l, hl, hr⟩ := hrows k hk
  obtain ⟨hle', l', hl', hr'⟩ := hrows' k' hk'
  have hx'' : initialSample M R r sp = .ok (X1, P1, r1) := hx'
  rw [hx] at hx''
  obtain ⟨rfl, rfl, rfl⟩ : X0 = X1 ∧ P0 = P1 ∧ r0 = r1 := by simpa using hx''
  rw [spacing_nat _ g hg] at hle hl hr hT
  rw [spacing_nat _ g' rfl] at hle' hl' hr' hT'
  rw [← he] at hle' hl' hr'
  have e : rows k = rows' k' := by
    rw [hr, hr']
    exact rows_agree M (M.resched ns' b' g' v' track') R (myulaStep M R) ⟨X0, P0, r0⟩ T T' _ _ hT hT' _ hle hle' l l'
      rfl rfl rfl rfl rfl hl hl'
  refine ⟨rows k, by rw [harr]; exact ofRows_rowIs A0 _ rows k hk, ?_⟩
  rw [harr', e]
  exact ofRows_rowIs A0' _ rows' k' hk'

/-- C44 for SKROCK. -/
theorem C44_skrock (M : Sampler n) (R : Rng) (A0 A0' : Arrays) (ns' b g b' g' : ℕ) (v' : ℤ) (track' : List String)
    (hb : M.par.nburn = b) (hg : M.par.ngap = g) (hA : A0.Shaped M.par.nsamples) (hA' : A0'.Shaped ns')
    (r : R.σ) (sp : StartPoint) (fuel fuel' : ℕ) (st st' : St R) (h : skrockRun M R A0 r sp fuel = .ok (some st))
    (h' : skrockRun (M.resched ns' b' g' v' track') R A0' r sp fuel' = .ok (some st')) (k k' : ℕ)
    (hk : k < M.par.nsamples) (hk' : k' < ns') (he : b + k * max g 1 = b' + k' * max g' 1) :
    ∃ row, (A0.applyAll st.ev).RowIs k row ∧ (A0'.applyAll st'.ev).RowIs k' row := by
  obtain ⟨co, X0, P0, r0, T, rows, hco, hx, hT, -, hrows, harr, -⟩ := skrockRun_result M R A0 hA b hb r sp fuel st h
  obtain ⟨co', X1, P1, r1, T', rows', hco', hx', hT', -, hrows', harr', -⟩ :=
    skrockRun_result (M.resched ns' b' g' v' track') R A0' hA' b' rfl r sp fuel' st' h'
  obtain ⟨hle, l, hl, hr⟩ := hrows k hk
  obtain ⟨hle', l', hl', hr'⟩ := hrows' k' hk'
  have hx'' : initialSample M R r sp = .ok (X1, P1, r1) := hx'
  rw [hx] at hx''
  obtain ⟨rfl, rfl, rfl⟩ : X0 = X1 ∧ P0 = P1 ∧ r0 = r1 := by simpa using hx''
  have hco'' : skrockInit M.par.s = .ok co' := hco'
  rw [hco] at hco''
  obtain rfl := Except.ok.inj hco''
  rw [spacing_nat _ g hg] at hle hl hr hT
  rw [spacing_nat _ g' rfl] at hle' hl' hr' hT'
  rw [← he] at hle' hl' hr'
  have e : rows k = rows' k' := by
    rw [hr, hr']
    exact rows_agree M (M.resched ns' b' g' v' track') R (skrockTransition M R co) ⟨X0, P0, r0⟩ T T' _ _ hT hT' _ hle
      hle' l l' rfl rfl rfl rfl rfl hl hl'
  refine ⟨rows k, by rw [harr]; exact ofRows_rowIs A0 _ rows k hk, ?_⟩
  rw [harr', e]
  exact ofRows_rowIs A0' _ rows' k' hk'

/-- C44, first reading: running longer keeps the first rows. -/
theorem C44_longer_runs (M : Sampler n) (R : Rng) (A0 A0' : Arrays) (ns' b g : ℕ) (hb : M.par.nburn = b)
    (hg : M.par.ngap = g) (hA : A0.Shaped M.par.nsamples) (hA' : A0'.Shaped ns') (hns : M.par.nsamples ≤ ns')
    (r : R.σ) (sp : StartPoint) (fuel fuel' : ℕ) (st st' : St R) (h : myulaRun M R A0 r sp fuel = .ok (some st))
    (h' : myulaRun (M.resched ns' b g M.par.verbosity M.par.track) R A0' r sp fuel' = .ok (some st')) (k : ℕ)
    (hk : k < M.par.nsamples) : ∃ row, (A0.applyAll st.ev).RowIs k row ∧ (A0'.applyAll st'.ev).RowIs k row :=
  C44_myula M R A0 A0' ns' b g b g _ _ hb hg hA hA' r sp fuel fuel' st st' h h' k k hk (by omega) rfl

/-- C44, second reading: burn-in and thinning select rows of the full run. -/
theorem C44_select (M : Sampler n) (R : Rng) (A0 A0' : Arrays) (ns' b g : ℕ) (hb : M.par.nburn = b)
    (hg : M.par.ngap = g) (hA : A0.Shaped M.par.nsamples) (hA' : A0'.Shaped ns') (r : R.σ) (sp : StartPoint)
    (fuel fuel' : ℕ) (st st' : St R) (h : myulaRun M R A0 r sp fuel = .ok (some st))
    (h' : myulaRun (M.resched ns' (0 : ℕ) (0 : ℕ) M.par.verbosity M.par.track) R A0' r sp fuel' = .ok (some st')) (k : ℕ)
    (hk : k < M.par.nsamples) (hk' : b + k * max g 1 < ns') :
    ∃ row, (A0.applyAll st.ev).RowIs k row ∧ (A0'.applyAll st'.ev).RowIs (b + k * max g 1) row :=
  C44_myula M R A0 A0' ns' b g 0 0 _ _ hb hg hA hA' r sp fuel fuel' st st' h h' k _ hk hk' (by simp)

/-- C44 applies: the runs with (nsamples, nburn, ngap) = (5, 3, 2) and (12, 0, 0) both return. -/
example : (∃ fuel st, myulaRun (demo ⟨1, 1 / 2, 1, 1, 5, (3 : ℕ), (2 : ℕ), true, 0, ["chain"]⟩) (constRng 1 0)
      ⟨none, none, none, none, some (List.replicate 5 [0])⟩ () (.array1 (List.ofFn fun _ : Fin 1 => 2)) fuel = .ok (some st)) ∧
    ∃ fuel st, myulaRun ((demo ⟨1, 1 / 2, 1, 1, 5, (3 : ℕ), (2 : ℕ), true, 0, ["chain"]⟩).resched 12 (0 : ℕ) (0 : ℕ) 0
      ["chain"]) (constRng 1 0) ⟨none, none, none, none, some (List.replicate 12 [0])⟩ ()
      (.array1 (List.ofFn fun _ : Fin 1 => 2)) fuel = .ok (some st) :=
  ⟨demo_returns 5 3 2 _ (by constructor <;> simp) 1 _,
    demo_returns 12 0 0 _ (by constructor <;> simp) 1 _⟩

/-! ## C45 -/

/-- C45: validation of the start point, for every sampler run. -/
theorem C45_rejects (M : Sampler n) (R : Rng) (A0 : Arrays) (r : R.σ) (fuel : ℕ) :
    (∀ d hd, myulaRun M R A0 r (.arrayNd d hd) fuel = .error .TypeError) ∧
    (myulaRun M R A0 r .other fuel = .error .TypeError) ∧
    (∀ v, v.length ≠ M.nparams → myulaRun M R A0 r (.array1 v) fuel = .error .ValueError) ∧
    (∀ d hd, ∀ tune delta, malaRun M R tune delta A0 r (.arrayNd d hd) fuel = .error .TypeError) ∧
    (∀ tune delta, malaRun M R tune delta A0 r .other fuel = .error .TypeError) ∧
    (∀ v, v.length ≠ M.nparams → ∀ tune delta, malaRun M R tune delta A0 r (.array1 v) fuel = .error .ValueError) ∧
    (1 ≤ M.par.s → (∀ d hd, skrockRun M R A0 r (.arrayNd d hd) fuel = .error .TypeError) ∧
      skrockRun M R A0 r .other fuel = .error .TypeError ∧
      ∀ v, v.length ≠ M.nparams → skrockRun M R A0 r (.array1 v) fuel = .error .ValueError) := by
  have h1 : ∀ d hd, initialSample M R r (.arrayNd d hd) = .error .TypeError := fun d hd => rfl
  have h2 : initialSample M R r .other = .error .TypeError := rfl
  have h3 : ∀ v, v.length ≠ M.nparams → initialSample M R r (.array1 v) = .error .ValueError := by
    intro v hv
    simp [initialSample, startVector, hv, bind, Except.bind]
  refine ⟨?_, ?_, ?_, ?_, ?_, ?_, fun hs => ?_⟩
  · intro d hd; unfold myulaRun; rw [h1]; rfl
  · unfold myulaRun; rw [h2]; rfl
  · intro v hv; unfold myulaRun; rw [h3 v hv]; rfl
  · intro d hd t de; unfold malaRun malaInit; rw [h1]; rfl
  · intro t de; unfold malaRun malaInit; rw [h2]; rfl
  · intro v hv t de; unfold malaRun malaInit; rw [h3 v hv]; rfl
  · obtain ⟨co, hco, -⟩ := C18_total M.par.s hs
    refine ⟨?_, ?_, ?_⟩
    · intro d hd; unfold skrockRun; rw [hco, h1]; rfl
    · unfold skrockRun; rw [hco, h2]; rfl
    · intro v hv; unfold skrockRun; rw [hco, h3 v hv]; rfl

/-- C45: an accepted start point is used unchanged (and consumes no random numbers); `None` draws `nparams` Laplace
variates, with imaginary parts from a second draw exactly if the sampler is complex. -/
theorem C45_accepts (M : Sampler n) (R : Rng) (r : R.σ) (fwd : List ℂ → List ℂ)
    (hf : ∀ X, M.F.forward X = .ok (fwd X)) :
    (∀ v, v.length = M.nparams → initialSample M R r (.array1 v) = .ok (v, fwd v, r)) ∧
    (M.par.complex = false → ∃ a r1, R.laplace r M.nparams = (a, r1) ∧ initialSample M R r .none =
      .ok (List.ofFn fun i => (a i : ℂ), fwd (List.ofFn fun i => (a i : ℂ)), r1)) ∧
    (M.par.complex = true → ∃ a r1 b r2, R.laplace r M.nparams = (a, r1) ∧ R.laplace r1 M.nparams = (b, r2) ∧
      initialSample M R r .none = .ok (List.ofFn fun i => (⟨a i, b i⟩ : ℂ), fwd (List.ofFn fun i => (⟨a i, b i⟩ : ℂ)), r2)) := by
  refine ⟨?_, ?_, ?_⟩
  · intro v hv
    simp [initialSample, startVector, hv, bind, Except.bind, hf]
  · intro hc
    refine ⟨(R.laplace r M.nparams).1, (R.laplace r M.nparams).2, rfl, ?_⟩
    simp [initialSample, startVector, noise, hc, bind, Except.bind, hf]
  · intro hc
    refine ⟨(R.laplace r M.nparams).1, (R.laplace r M.nparams).2, (R.laplace (R.laplace r M.nparams).2 M.nparams).1,
      (R.laplace (R.laplace r M.nparams).2 M.nparams).2, rfl, rfl, ?_⟩
    have e : ∀ a b : ℝ, (a : ℂ) + (b : ℂ) * Complex.I = ⟨a, b⟩ := by
      intro a b
      apply Complex.ext <;> simp
    simp [initialSample, startVector, noise, hc, bind, Except.bind, hf, e]

/-- Hypotheses of C45: a start point of the wrong size exists for the demo sampler. -/
example : ([1, 2] : List ℂ).length ≠ (demo ⟨1, 1, 1, 1, 1, 0, 0, true, 0, []⟩).nparams := by simp [demo]

/-! ## C55 -/

theorem prefix_append_cases {α : Type} {l a b : List α} (h : l <+: a ++ b) : l <+: a ∨ ∃ c, l = a ++ c ∧ c <+: b := by
  rcases List.prefix_or_prefix_of_prefix h (List.prefix_append a b) with h1 | h1
  · exact .inl h1
  · obtain ⟨c, rfl⟩ := h1
    exact .inr ⟨c, rfl, (List.prefix_append_right_inj a).mp h⟩

theorem prefix_flatMap_range {α : Type} (f : ℕ → List α) (j : ℕ) (l : List α) (h : l <+: (List.range j).flatMap f) :
    ∃ k ≤ j, ∃ pre, l = (List.range k).flatMap f ++ pre ∧ pre <+: f k ∧ (k = j → pre = []) := by
  induction j with
  | zero =>
    simp only [List.range_zero, List.flatMap_nil, List.prefix_nil] at h
    exact ⟨0, le_rfl, [], by simp [h], List.nil_prefix, fun _ => rfl⟩
  | succ j ih =>
    rw [List.range_succ, List.flatMap_append] at h
    rcases prefix_append_cases h with h1 | ⟨c, rfl, hc⟩
    · obtain ⟨k, hk, pre, h2, h3, h4⟩ := ih h1
      exact ⟨k, by omega, pre, h2, h3, fun e => by omega⟩
    · simp only [List.flatMap_cons, List.flatMap_nil, List.append_nil] at hc
      by_cases hfull : c = f j
      · refine ⟨j + 1, le_rfl, [], ?_, List.nil_prefix, fun _ => rfl⟩
        rw [List.range_succ, List.flatMap_append, hfull]
        simp
      · exact ⟨j, by omega, c, rfl, hc, fun e => by omega⟩

/-- The row `k` of all arrays, `none` where there is no array or no such row. -/
def Arrays.row (A : Arrays) (k : ℕ) : Option ℝ × Option ℝ × Option ℝ × Option (List ℂ) × Option (List ℂ) :=
  (A.logPi.bind fun l => l[k]?, A.L2s.bind fun l => l[k]?, A.priors.bind fun l => l[k]?, A.preds.bind fun l => l[k]?,
    A.chain.bind fun l => l[k]?)

theorem overwrite_getElem? {α : Type} (l : List α) (j : ℕ) (v : ℕ → α) (k : ℕ) (hj : j ≤ l.length) :
    (overwrite l j v)[k]? = if k < j then some (v k) else l[k]? := by
  unfold overwrite
  rw [List.getElem?_mapIdx]
  split
  · rw [List.getElem?_eq_getElem (by omega)]; simp [*]
  · cases h : l[k]? <;> simp [*]

theorem overwrite_row_lt (A : Arrays) (ns j j' k : ℕ) (hA : A.Shaped ns) (hj : j ≤ ns) (hj' : j' ≤ ns) (hk : k < j)
    (hk' : k < j') (r : ℕ → Row) : (A.overwrite j r).row k = (A.overwrite j' r).row k := by
  have key : ∀ {α : Type} (o : Option (List α)) (v : ℕ → α), (∀ l ∈ o, l.length = ns) →
      ((o.map fun l => Pxmcmc.overwrite l j v).bind fun l => l[k]?) =
      ((o.map fun l => Pxmcmc.overwrite l j' v).bind fun l => l[k]?) := by
    intro α o v h
    cases o with
    | none => rfl
    | some a =>
      have := h a rfl
      simp only [Option.map_some, Option.bind_some]
      rw [overwrite_getElem? _ _ _ _ (by omega), overwrite_getElem? _ _ _ _ (by omega), if_pos hk, if_pos hk']
  simp only [Arrays.row, Arrays.overwrite, key _ _ hA.logPi, key _ _ hA.L2s, key _ _ hA.priors, key _ _ hA.preds,
    key _ _ hA.chain]

theorem overwrite_row_ge (A : Arrays) (ns j k : ℕ) (hA : A.Shaped ns) (hj : j ≤ ns) (hk : j ≤ k) (r : ℕ → Row) :
    (A.overwrite j r).row k = A.row k := by
  have key : ∀ {α : Type} (o : Option (List α)) (v : ℕ → α), (∀ l ∈ o, l.length = ns) →
      ((o.map fun l => Pxmcmc.overwrite l j v).bind fun l => l[k]?) = (o.bind fun l => l[k]?) := by
    intro α o v h
    cases o with
    | none => rfl
    | some a =>
      have := h a rfl
      simp only [Option.map_some, Option.bind_some]
      rw [overwrite_getElem? _ _ _ _ (by omega), if_neg (by omega)]
  simp only [Arrays.row, Arrays.overwrite, key _ _ hA.logPi, key _ _ hA.L2s, key _ _ hA.priors, key _ _ hA.preds,
    key _ _ hA.chain]

/-- The row an event writes to. -/
def Event.rowIdx : Event → Option ℕ
  | .logPi j _ | .L2 j _ | .prior j _ | .preds j _ | .chain j _ => some j
  | _ => none

theorem apply_row_ne (A : Arrays) (e : Event) (k : ℕ) (h : e.rowIdx ≠ some k) : (A.apply e).row k = A.row k := by
  have key : ∀ {α : Type} (o : Option (List α)) (j : ℕ) (v : α), j ≠ k →
      ((o.map fun l => l.set j v).bind fun l => l[k]?) = o.bind fun l => l[k]? := by
    intro α o j v hj
    cases o with
    | none => rfl
    | some a => simp [hj]
  cases e <;> simp only [Event.rowIdx, ne_eq, Option.some.injEq] at h <;>
    simp only [Arrays.apply, Arrays.row] <;> first | rfl | rw [key _ _ _ h]

theorem applyAll_row_ne (A : Arrays) (ev : List Event) (k : ℕ) (h : ∀ e ∈ ev, e.rowIdx ≠ some k) :
    (A.applyAll ev).row k = A.row k := by
  induction ev generalizing A with
  | nil => rfl
  | cons e ev ih =>
    have := ih (A.apply e) fun x hx => h x (List.mem_cons_of_mem _ hx)
    rw [show A.applyAll (e :: ev) = (A.apply e).applyAll ev from rfl, this]
    exact apply_row_ne A e k (h e List.mem_cons_self)

theorem rowEvents_idx (A : Arrays) (k : ℕ) (r : Row) (e : Event) (he : e ∈ rowEvents A k r) : e.rowIdx = some k := by
  unfold rowEvents at he
  simp only [List.mem_append, List.mem_ite_nil_right, List.mem_singleton] at he
  rcases he with (((⟨-, rfl⟩ | ⟨-, rfl⟩) | ⟨-, rfl⟩) | ⟨-, rfl⟩) | ⟨-, rfl⟩ <;> rfl

/-- The events of a row except the chain write leave the chain alone. -/
theorem applyAll_chain (A : Arrays) (ev : List Event) (h : ∀ e ∈ ev, ∀ j r, e ≠ .chain j r) :
    (A.applyAll ev).chain = A.chain := by
  induction ev generalizing A with
  | nil => rfl
  | cons e ev ih =>
    have h1 := ih (A.apply e) fun x hx => h x (List.mem_cons_of_mem _ hx)
    rw [show A.applyAll (e :: ev) = (A.apply e).applyAll ev from rfl, h1]
    have h2 := h e List.mem_cons_self
    cases e <;> first | rfl | exact absurd rfl (h2 _ _)

theorem prefix_rowEvents (A : Arrays) (k : ℕ) (r : Row) (pre : List Event) (h : pre <+: rowEvents A k r) :
    pre = rowEvents A k r ∨ ∀ e ∈ pre, ∀ j r, e ≠ .chain j r := by
  unfold rowEvents at h ⊢
  rcases prefix_append_cases h with h1 | ⟨c, rfl, hc⟩
  · right
    intro e he j r' hh
    have := h1.subset he
    subst hh
    simp only [List.mem_append, List.mem_ite_nil_right, List.mem_singleton] at this
    rcases this with ((⟨-, h⟩ | ⟨-, h⟩) | ⟨-, h⟩) | ⟨-, h⟩ <;> cases h
  · by_cases hch : A.chain.isSome
    · simp only [hch, if_true] at hc
      rcases List.prefix_cons_iff.mp hc with rfl | ⟨t, rfl, ht⟩
      · right
        intro e he j r' hh
        subst hh
        simp only [List.append_nil, List.mem_append, List.mem_ite_nil_right, List.mem_singleton] at he
        rcases he with ((⟨-, h⟩ | ⟨-, h⟩) | ⟨-, h⟩) | ⟨-, h⟩ <;> cases h
      · left
        rw [List.prefix_nil.mp ht]
        simp [hch]
    · simp only [hch] at hc
      left
      simp only [Bool.false_eq_true, if_false, List.prefix_nil] at hc
      rw [hc]
      simp [hch]

/-- The state of the arrays after any prefix of the writes of complete rows. -/
theorem crash_prefix (A0 : Arrays) (ns : ℕ) (hA : A0.Shaped ns) (j : ℕ) (hj : j ≤ ns) (rows : ℕ → Row) (ev ev' : List Event)
    (hev : ev.filter Event.isWrite = (List.range j).flatMap fun (k : ℕ) => rowEvents A0 k (rows k)) (hp : ev' <+: ev) :
    ∃ k0 ≤ j, (∀ k < k0, (A0.applyAll ev').row k = (A0.applyAll ev).row k) ∧
      (∀ k > k0, (A0.applyAll ev').row k = A0.row k) ∧
      ((A0.applyAll ev').chain.map (fun l => l[k0]?) = A0.chain.map (fun l => l[k0]?) ∨
        (A0.applyAll ev').row k0 = (A0.applyAll ev).row k0) := by
  have hp' : ev'.filter Event.isWrite <+: ev.filter Event.isWrite := hp.filter _
  rw [hev] at hp'
  obtain ⟨k0, hk0, pre, h1, h2, h3⟩ := prefix_flatMap_range _ j _ hp'
  have e1 : A0.applyAll ev' = (A0.overwrite k0 rows).applyAll pre := by
    rw [← applyAll_filter, h1, applyAll_append, applyAll_rows]
  have e2 : A0.applyAll ev = A0.overwrite j rows := by
    rw [← applyAll_filter, hev, applyAll_rows]
  have hidx : ∀ k, k ≠ k0 → ∀ e ∈ pre, e.rowIdx ≠ some k := by
    intro k hk e he hh
    have := rowEvents_idx A0 k0 (rows k0) e (h2.subset he)
    rw [this] at hh
    exact hk (Option.some.inj hh).symm
  refine ⟨k0, hk0, ?_, ?_, ?_⟩
  · intro k hk
    rw [e1, applyAll_row_ne _ _ _ (hidx k (by omega)), e2]
    exact overwrite_row_lt A0 ns k0 j k hA (by omega) hj hk (by omega) rows
  · intro k hk
    rw [e1, applyAll_row_ne _ _ _ (hidx k (by omega))]
    exact overwrite_row_ge A0 ns k0 k hA (by omega) (by omega) rows
  · rcases prefix_rowEvents A0 k0 (rows k0) pre h2 with h4 | h4
    · by_cases hkj : k0 = j
      · right
        rw [e1, h3 hkj, e2, hkj]
        rfl
      · right
        rw [e1, h4, overwrite_row, e2]
        exact overwrite_row_lt A0 ns (k0 + 1) j k0 hA (by omega) hj (by omega) (by omega) rows
    · left
      rw [e1, applyAll_chain _ _ h4]
      cases hc : A0.chain with
      | none => simp [Arrays.overwrite, hc]
      | some l =>
        simp only [Arrays.overwrite, hc, Option.map_some]
        rw [overwrite_getElem? _ _ _ _ (by rw [hA.chain l hc]; omega), if_neg (by omega)]

/-- C55 for MYULA: after any prefix of the events of a run (an interruption between any two array writes) there is a
current row `k0` such that all earlier rows are complete and final, all later rows are untouched, and if the chain entry of
row `k0` has been touched at all then the row is complete and final. -/
theorem C55_crash_myula (M : Sampler n) (R : Rng) (A0 : Arrays) (hA : A0.Shaped M.par.nsamples) (b : ℕ)
    (hb : M.par.nburn = b) (r : R.σ) (sp : StartPoint) (fuel : ℕ) (st : St R)
    (h : myulaRun M R A0 r sp fuel = .ok (some st)) (ev' : List Event) (hp : ev' <+: st.ev) :
    ∃ k0 ≤ M.par.nsamples, (∀ k < k0, (A0.applyAll ev').row k = (A0.applyAll st.ev).row k) ∧
      (∀ k > k0, (A0.applyAll ev').row k = A0.row k) ∧
      ((A0.applyAll ev').chain.map (fun l => l[k0]?) = A0.chain.map (fun l => l[k0]?) ∨
        (A0.applyAll ev').row k0 = (A0.applyAll st.ev).row k0) := by
  obtain ⟨X0, P0, r0, T, rows, -, -, -, -, -, hev⟩ := myulaRun_result M R A0 hA b hb r sp fuel st h
  exact crash_prefix A0 _ hA _ le_rfl rows st.ev ev' hev hp

/-- C55 for SKROCK. -/
theorem C55_crash_skrock (M : Sampler n) (R : Rng) (A0 : Arrays) (hA : A0.Shaped M.par.nsamples) (b : ℕ)
    (hb : M.par.nburn = b) (r : R.σ) (sp : StartPoint) (fuel : ℕ) (st : St R)
    (h : skrockRun M R A0 r sp fuel = .ok (some st)) (ev' : List Event) (hp : ev' <+: st.ev) :
    ∃ k0 ≤ M.par.nsamples, (∀ k < k0, (A0.applyAll ev').row k = (A0.applyAll st.ev).row k) ∧
      (∀ k > k0, (A0.applyAll ev').row k = A0.row k) ∧
      ((A0.applyAll ev').chain.map (fun l => l[k0]?) = A0.chain.map (fun l => l[k0]?) ∨
        (A0.applyAll ev').row k0 = (A0.applyAll st.ev).row k0) := by
  obtain ⟨co, X0, P0, r0, T, rows, -, -, -, -, -, -, hev⟩ := skrockRun_result M R A0 hA b hb r sp fuel st h
  exact crash_prefix A0 _ hA _ le_rfl rows st.ev ev' hev hp

/-- C55 applies, e.g. to the prefix with three of the five chain writes. -/
example : ∃ fuel st, myulaRun (demo ⟨1, 1 / 2, 1, 1, 5, (0 : ℕ), (0 : ℕ), true, 0, ["chain"]⟩) (constRng 1 0)
    ⟨none, none, none, none, some (List.replicate 5 [0])⟩ () (.array1 (List.ofFn fun _ : Fin 1 => 2)) fuel = .ok (some st) ∧
    st.ev.take 3 <+: st.ev := by
  obtain ⟨fuel, st, h⟩ := demo_returns 5 0 0 ⟨none, none, none, none, some (List.replicate 5 [0])⟩
    (by constructor <;> simp) 1 (fun _ => 2)
  exact ⟨fuel, st, h, List.take_prefix _ _⟩

/-! ## C59 -/

/-- C59 for MYULA: what a run leaves in the arrays does not depend on what they held before; so a second run overwrites
every row with the second run's samples. -/
theorem C59_second_run_myula (M : Sampler n) (R : Rng) (A0 : Arrays) (hA : A0.Shaped M.par.nsamples) (b : ℕ)
    (hb : M.par.nburn = b) (r1 : R.σ) (sp1 : StartPoint) (fuel1 : ℕ) (st1 : St R)
    (_h1 : myulaRun M R A0 r1 sp1 fuel1 = .ok (some st1)) (sp2 : StartPoint) (fuel2 fuel3 : ℕ) (st2 st3 : St R)
    (h2 : myulaRun M R (A0.applyAll st1.ev) st1.cur.rng sp2 fuel2 = .ok (some st2))
    (h3 : myulaRun M R A0 st1.cur.rng sp2 fuel3 = .ok (some st3)) :
    (A0.applyAll st1.ev).applyAll st2.ev = A0.applyAll st3.ev := by
  have hsh := A0.applyAll_shape st1.ev
  have hA1 := Arrays.Shaped.of_same hsh hA
  obtain ⟨X0, P0, r0, T, rows, hx, hT, -, hrows, harr, -⟩ := myulaRun_result M R _ hA1 b hb _ sp2 fuel2 st2 h2
  obtain ⟨X1, P1, r1', T', rows', hx', hT', -, hrows', harr', -⟩ := myulaRun_result M R _ hA b hb _ sp2 fuel3 st3 h3
  rw [hx] at hx'
  obtain ⟨rfl, rfl, rfl⟩ : X0 = X1 ∧ P0 = P1 ∧ r0 = r1' := by simpa using hx'
  have hrow : ∀ k < M.par.nsamples, rows k = rows' k := by
    intro k hk
    obtain ⟨hle, l, hl, hr⟩ := hrows k hk
    obtain ⟨hle', l', hl', hr'⟩ := hrows' k hk
    rw [hr, hr']
    exact rows_agree M M R (myulaStep M R) ⟨X0, P0, r0⟩ T T' _ _ hT hT' _ hle hle' l l' rfl rfl rfl rfl rfl hl hl'
  rw [harr, harr']
  have e : ∀ {α : Type} (f : Row → α), (List.range M.par.nsamples).map (fun k => f (rows k)) =
      (List.range M.par.nsamples).map fun k => f (rows' k) := fun f =>
    List.map_congr_left fun k hk => by rw [hrow k (List.mem_range.mp hk)]
  have key : ∀ {α β : Type} (o o' : Option (List β)) (a : α), o.map List.length = o'.map List.length →
      (o.map fun _ => a) = o'.map fun _ => a := by
    intro α β o o' a h
    cases o <;> cases o' <;> simp_all
  simp only [Arrays.ofRows, e, key _ _ _ hsh.logPi, key _ _ _ hsh.L2s, key _ _ _ hsh.priors, key _ _ _ hsh.preds,
    key _ _ _ hsh.chain]

/-- C59 applies: both runs of the demo sampler return, from whatever the first one left. -/
example (A1 : Arrays) (hA : A1.Shaped 5) : ∃ fuel st,
    myulaRun (demo ⟨1, 1 / 2, 1, 1, 5, (3 : ℕ), (2 : ℕ), true, 0, ["chain"]⟩) (constRng 1 0) A1 ()
      (.array1 (List.ofFn fun _ : Fin 1 => 7)) fuel = .ok (some st) := demo_returns 5 3 2 A1 hA 1 _

/-! ## C56 -/

/-- A progress line with an admissible counter. -/
def Event.GoodCounter (lo : ℤ) (ns : ℕ) : Event → Prop
  | .progress c t _ _ _ _ => lo ≤ c ∧ c ≤ ns ∧ t = ns
  | _ => True

theorem rowEvents_good (A : Arrays) (k : ℕ) (r : Row) (lo : ℤ) (ns : ℕ) : ∀ e ∈ rowEvents A k r, e.GoodCounter lo ns := by
  intro e he
  unfold rowEvents at he
  simp only [List.mem_append, List.mem_ite_nil_right, List.mem_singleton] at he
  rcases he with (((⟨-, rfl⟩ | ⟨-, rfl⟩) | ⟨-, rfl⟩) | ⟨-, rfl⟩) | ⟨-, rfl⟩ <;> trivial

theorem progressArrays_counter (M : Sampler n) {R : Rng} (A0 : Arrays) (st : St R) (evs : List Event)
    (h : progressArrays M A0 st = .ok evs) : ∃ a b c, evs = [.progress st.j M.par.nsamples a b c none] := by
  unfold progressArrays at h
  obtain ⟨_, -, h⟩ := bind_ok h
  obtain ⟨x, -, h⟩ := bind_ok h
  obtain ⟨_, -, h⟩ := bind_ok h
  obtain ⟨y, -, h⟩ := bind_ok h
  obtain ⟨_, -, h⟩ := bind_ok h
  obtain ⟨z, -, h⟩ := bind_ok h
  refine ⟨x, y, z, ?_⟩
  rw [← Except.ok.inj h]
  congr 2
  omega

/-- Counters stay in range if each printed line has a counter in range. -/
theorem good_counters (M : Sampler n) {R : Rng} (A0 : Arrays) (step : Cur R → Py (Cur R))
    (prog : St R → Py (List Event)) (hprog : NoWrites prog) (b : ℕ) (hb : M.par.nburn = b) (c0 : Cur R) (lo : ℤ)
    (hcount : ∀ (st : St R) evs, prog st = .ok evs → st.j = cnt b (spacing M.par) (st.i + 1) → st.j ≤ M.par.nsamples →
      ∀ e ∈ evs, e.GoodCounter lo M.par.nsamples) (m : ℕ) (st : St R)
    (hr : Reach (loopCond M) (genBody M A0 step prog) ⟨0, 0, c0, []⟩ m st) :
    ∀ e ∈ st.ev, e.GoodCounter lo M.par.nsamples := by
  have hI := hr.invariant (fun k s => SInv M A0 step c0 b k s ∧ ∀ e ∈ s.ev, e.GoodCounter lo M.par.nsamples)
    ⟨sinv_init M A0 step c0 b, by simp⟩ ?_
  · exact hI.2
  · intro k s s' ⟨hi, hgood⟩ hc hbody
    refine ⟨sinv_step M A0 step prog hprog c0 b hb k s s' hi hbody, ?_⟩
    have hi' := sinv_step M A0 step prog hprog c0 b hb k s s' hi hbody
    unfold genBody at hbody
    obtain ⟨c, -, hbody⟩ := bind_ok hbody
    unfold genBook at hbody
    obtain ⟨st1, h1, hbody⟩ := bind_ok hbody
    obtain ⟨evs, he, hbody⟩ := bind_ok hbody
    obtain rfl := Except.ok.inj hbody
    have hj1 : st1.j ≤ M.par.nsamples ∧ st1.i = k ∧ ∀ e ∈ st1.ev, e.GoodCounter lo M.par.nsamples := by
      simp only [loopCond, decide_eq_true_eq] at hc
      split at h1
      · obtain ⟨l, -, rfl⟩ := recordRow_ok M A0 h1
        refine ⟨by simpa using hc, hi.1, ?_⟩
        intro e he'
        rcases List.mem_append.mp he' with h2 | h2
        · exact hgood e h2
        · exact rowEvents_good A0 _ _ _ _ e h2
      · obtain rfl := Except.ok.inj h1
        exact ⟨hc.le, hi.1, hgood⟩
    have hj2 : st1.j = cnt b (spacing M.par) (st1.i + 1) := by
      rw [hj1.2.1]; exact hi'.2.1
    intro e he'
    rcases List.mem_append.mp he' with h2 | h2
    · exact hj1.2.2 e h2
    · exact hcount st1 evs he hj2 hj1.1 e h2

/-- C56 (partial): if `logposterior`, `L2` and `prior` are all tracked (or nothing is printed), neither MYULA nor SKROCK
fails because of printing (C41/C42 then apply), and the counters MYULA prints lie in `1..nsamples`; those of SKROCK lie in
`0..nsamples`.  Missing: other track lists, and the lower bound 1 for SKROCK; both are false. -/
theorem C56_counters_partial (M : Sampler n) (R : Rng) (A0 : Arrays) (b : ℕ) (hb : M.par.nburn = b) (r : R.σ)
    (sp : StartPoint) (fuel : ℕ) (st : St R) :
    (myulaRun M R A0 r sp fuel = .ok (some st) → ∀ c t x y z a, Event.progress c t x y z a ∈ st.ev →
      1 ≤ c ∧ c ≤ M.par.nsamples ∧ t = M.par.nsamples) ∧
    (skrockRun M R A0 r sp fuel = .ok (some st) → ∀ c t x y z a, Event.progress c t x y z a ∈ st.ev →
      0 ≤ c ∧ c ≤ M.par.nsamples ∧ t = M.par.nsamples) := by
  constructor
  · intro h c t x y z a he
    unfold myulaRun at h
    obtain ⟨x0, -, h⟩ := bind_ok h
    obtain ⟨res, hres, h⟩ := bind_ok h
    rw [myulaBody_eq] at hres
    cases res with
    | none => cases Except.ok.inj h
    | some s =>
      obtain rfl := Option.some.inj (Except.ok.inj h)
      obtain ⟨hr, -, -⟩ := gen_returns M A0 _ _ (myulaProg_noWrites M A0) _ b hb fuel s hres
      have hgood := good_counters M A0 _ _ (myulaProg_noWrites M A0) b hb _ 1 ?_ _ s hr
      · rcases List.mem_append.mp he with h1 | h1
        · exact hgood _ h1
        · simp at h1
      · intro st1 evs hp hj hle e hee
        unfold myulaProg at hp
        split at hp
        · rename_i hnb
          split at hp
          · obtain ⟨a', b', c', rfl⟩ := progressArrays_counter M A0 st1 evs hp
            obtain rfl := List.mem_singleton.mp hee
            refine ⟨?_, by exact_mod_cast hle, rfl⟩
            have h1 : cnt b (spacing M.par) (b + 1) = 1 := by
              have := (cnt_saved b (spacing M.par) b (spacing_pos _) le_rfl (by simp)).1
              rw [this]
              have : cnt b (spacing M.par) b = 0 := by
                unfold cnt
                have := spacing_pos M.par
                exact Nat.div_eq_of_lt (by omega)
              omega
            rw [hb] at hnb
            have h2 := cnt_mono b (spacing M.par) (show b + 1 ≤ st1.i + 1 by
              have : b ≤ st1.i := by exact_mod_cast hnb
              omega)
            rw [h1, ← hj] at h2
            exact_mod_cast h2
          · obtain rfl := Except.ok.inj hp; cases hee
        · obtain rfl := Except.ok.inj hp
          split at hee
          · obtain rfl := List.mem_singleton.mp hee; trivial
          · cases hee
  · intro h c t x y z a he
    unfold skrockRun at h
    obtain ⟨co, -, h⟩ := bind_ok h
    obtain ⟨x0, -, h⟩ := bind_ok h
    obtain ⟨res, hres, h⟩ := bind_ok h
    rw [skrockBody_eq] at hres
    cases res with
    | none => cases Except.ok.inj h
    | some s =>
      obtain rfl := Option.some.inj (Except.ok.inj h)
      obtain ⟨hr, -, -⟩ := gen_returns M A0 _ _ (skrockProg_noWrites M A0) _ b hb fuel s hres
      have hgood := good_counters M A0 _ _ (skrockProg_noWrites M A0) b hb _ 0 ?_ _ s hr
      · rcases List.mem_append.mp he with h1 | h1
        · exact hgood _ h1
        · simp at h1
      · intro st1 evs hp hj hle e hee
        unfold skrockProg at hp
        split at hp
        · obtain ⟨a', b', c', rfl⟩ := progressArrays_counter M A0 st1 evs hp
          obtain rfl := List.mem_singleton.mp hee
          exact ⟨by positivity, by exact_mod_cast hle, rfl⟩
        · obtain rfl := Except.ok.inj hp; cases hee

/-- C56 is violated: with `track = ["chain"]` and `verbosity = 1` a MYULA run on a perfectly regular problem raises
`AttributeError`. -/
theorem C56_track_list_refuted : ¬ ∀ (M : Sampler 1) (R : Rng) (r : R.σ) (x0 : Fin 1 → ℂ),
    Total M 1 (fun x => x) (fun y => y) (fun x => x) (fun _ => 0) →
    ∃ fuel st, myulaRun M R (initArrays M) r (.array1 (List.ofFn x0)) fuel = .ok (some st) := by
  intro H
  have hl : (⟨1, 1, 1, 1, 1, 0, 0, true, 1, ["chain"]⟩ : Params).lmda ≠ 0 := one_ne_zero
  obtain ⟨fuel, st, h⟩ := H (demo ⟨1, 1, 1, 1, 1, 0, 0, true, 1, ["chain"]⟩) (constRng 0 0) () (fun _ => 0)
    (demo_total _ hl)
  set M := demo ⟨1, 1, 1, 1, 1, 0, 0, true, 1, ["chain"]⟩ with hM
  unfold myulaRun at h
  obtain ⟨x, -, h⟩ := bind_ok h
  obtain ⟨res, hres, h⟩ := bind_ok h
  rw [myulaBody_eq] at hres
  cases res with
  | none => cases Except.ok.inj h
  | some s =>
    obtain ⟨hr, -, -⟩ := gen_returns M (initArrays M) _ _ (myulaProg_noWrites M _) _ 0 rfl fuel s hres
    have hN : numIter M.par.nsamples 0 (spacing M.par) = 0 + 1 := by simp [numIter, hM, demo]
    rw [hN] at hr
    cases hr with
    | @step _ s0 _ hr0 hc hb =>
      cases hr0
      unfold genBody at hb
      obtain ⟨c, -, hb⟩ := bind_ok hb
      unfold genBook at hb
      obtain ⟨st1, h1, hb⟩ := bind_ok hb
      obtain ⟨evs, he, -⟩ := bind_ok hb
      have hi1 : st1.i = 0 := by
        split at h1
        · exact recordRow_i M _ h1
        · rw [← Except.ok.inj h1]
      unfold myulaProg at he
      rw [hi1, if_pos (by simp [hM, demo]), if_pos (by simp [verbose, hM, demo])] at he
      unfold progressArrays at he
      obtain ⟨lp, hlp, -⟩ := bind_ok he
      have hsh := isSome_of_map_eq ((initArrays M).applyAll_shape st1.ev).logPi
      have h0 : (initArrays M).logPi = none := by simp [initArrays, hM, demo]
      rw [h0] at hsh
      simp only [Option.isSome_none, Option.isSome_eq_false_iff, Option.isNone_iff_eq_none] at hsh
      rw [hsh] at hlp
      cases hlp

/-- C56 is violated for SKROCK also where the track list is complete: during burn-in it prints counter 0. -/
theorem C56_skrock_counter_refuted : ¬ ∀ (M : Sampler 1) (R : Rng) (r : R.σ) (sp : StartPoint) (fuel : ℕ) (st : St R),
    skrockRun M R (initArrays M) r sp fuel = .ok (some st) → ∀ c t x y z a, Event.progress c t x y z a ∈ st.ev →
      1 ≤ c ∧ c ≤ M.par.nsamples := by
  intro H
  set M := demo ⟨1, 1, 1, 1, 1, 1, 0, true, 1, ["logposterior", "L2", "prior", "chain"]⟩ with hM
  have hl : (1 : ℝ) ≠ 0 := one_ne_zero
  have tot := demo_total ⟨1, 1, 1, 1, 1, 1, 0, true, 1, ["logposterior", "L2", "prior", "chain"]⟩ hl
  have hcan : CanPrint M (initArrays M) := .inr (by simp [initArrays, hM, demo])
  obtain ⟨co, f, -, -, -, st, hst, -, -⟩ := C42_schedule M (constRng 0 0) (initArrays M) (initArrays_shaped M) hcan
    (by simp [hM, demo]) 1 0 rfl rfl tot _ (fun x => gradlogpi_vec M tot x) () () (.array1 (List.ofFn fun _ => 0))
    (fun _ => 0) (demo_start _ _ _ _ hl) 2 (by simp [hM, demo])
  have h := hst 2 le_rfl
  have hall := H M _ _ _ _ st h
  unfold skrockRun at h
  obtain ⟨co', -, h⟩ := bind_ok h
  obtain ⟨x, -, h⟩ := bind_ok h
  obtain ⟨res, hres, h⟩ := bind_ok h
  rw [skrockBody_eq] at hres
  cases res with
  | none => cases Except.ok.inj h
  | some s =>
    obtain ⟨hr, -, -⟩ := gen_returns M (initArrays M) _ _ (skrockProg_noWrites M _) _ 1 rfl 2 s hres
    have hN : numIter M.par.nsamples 1 (spacing M.par) = 1 + 1 := by simp [numIter, hM, demo]
    rw [hN] at hr
    obtain rfl := Option.some.inj (Except.ok.inj h)
    cases hr with
    | @step _ s1 _ hr1 hc1 hb1 =>
      have hr1' := hr1
      cases hr1 with
      | @step _ s0 _ hr0 hc hb =>
        cases hr0
        unfold genBody at hb
        obtain ⟨c, -, hb⟩ := bind_ok hb
        unfold genBook at hb
        obtain ⟨st1, h1, hb⟩ := bind_ok hb
        obtain ⟨evs, he, hb⟩ := bind_ok hb
        rw [if_neg (by simp [hM, demo])] at h1
        obtain rfl := Except.ok.inj h1
        unfold skrockProg at he
        rw [if_pos (by simp [verbose, hM, demo])] at he
        obtain ⟨a', b', c', rfl⟩ := progressArrays_counter M _ _ evs he
        obtain rfl := Except.ok.inj hb
        -- the second iteration only appends
        unfold genBody at hb1
        obtain ⟨c2, -, hb1⟩ := bind_ok hb1
        unfold genBook at hb1
        obtain ⟨st2, h2, hb1⟩ := bind_ok hb1
        obtain ⟨evs2, -, hb1⟩ := bind_ok hb1
        obtain rfl := Except.ok.inj hb1
        have hmem : Event.progress 0 M.par.nsamples a' b' c' none ∈ st2.ev := by
          split at h2
          · obtain ⟨l, -, rfl⟩ := recordRow_ok M _ h2
            simp
          · rw [← Except.ok.inj h2]
            simp
        have := hall 0 M.par.nsamples a' b' c' none (by simp [hmem])
        omega

/-- C56, partial case: the default track list with progress printing returns. -/
example : ∃ st, myulaRun (demo ⟨1, 1 / 2, 1, 1, 5, (3 : ℕ), (2 : ℕ), true, 4, ["logposterior", "L2", "prior", "chain"]⟩)
    (constRng 1 0) (initArrays (demo ⟨1, 1 / 2, 1, 1, 5, (3 : ℕ), (2 : ℕ), true, 4,
      ["logposterior", "L2", "prior", "chain"]⟩)) () (.array1 (List.ofFn fun _ : Fin 1 => 2)) 12 = .ok (some st) := by
  obtain ⟨-, st, h, -⟩ := C41_schedule (demo ⟨1, 1 / 2, 1, 1, 5, (3 : ℕ), (2 : ℕ), true, 4,
      ["logposterior", "L2", "prior", "chain"]⟩) (constRng 1 0) _ (initArrays_shaped _)
    (.inr (by simp [initArrays, demo])) 3 2 rfl rfl (demo_total _ one_ne_zero) _
    (fun x => gradlogpi_vec _ (demo_total _ one_ne_zero) x) () () (.array1 (List.ofFn fun _ : Fin 1 => 2)) (fun _ => 2)
    (demo_start _ _ _ _ one_ne_zero) 12 (by simp [demo])
  exact ⟨st, h 12 le_rfl⟩

/-! ## C57 -/

/-- C57 (partial): the stored chain row is the state itself if the sampler is complex or the state is real, and the stored
predictions are the predictions if these are real (any sampler; see C41 for which state).  Missing: complex predictions,
whose imaginary parts are dropped, and complex states of a sampler with `complex=False`. -/
theorem C57_stored_partial (M : Sampler n) (fwd : (Fin p → ℂ) → (Fin n → ℂ)) (pri : (Fin p → ℂ) → ℝ) (x : Fin p → ℂ) :
    ((M.par.complex = true ∨ ∀ i, (x i).im = 0) → (rowOf M fwd pri x).chain = List.ofFn x) ∧
    ((∀ i, (fwd x i).im = 0) → (rowOf M fwd pri x).preds = List.ofFn (fwd x)) := by
  have hre : ∀ z : ℂ, z.im = 0 → ((z.re : ℝ) : ℂ) = z := by
    intro z hz
    apply Complex.ext <;> simp [hz]
  constructor
  · intro h
    simp only [rowOf]
    congr 1
    funext i
    rcases h with h | h
    · simp [store, h]
    · unfold store
      split
      · rfl
      · exact hre _ (h i)
  · intro h
    simp only [rowOf]
    congr 1
    funext i
    simp only [store, Bool.false_eq_true, if_false]
    exact hre _ (h i)

/-- C57 is violated: a complex sampler with complex predictions loses their imaginary parts: the predictions of the saved
sample `1 + i` are stored as `1`. -/
theorem C57_stored_refuted : ¬ ∀ (M : Sampler 1) (R : Rng) (r : R.σ) (sp : StartPoint) (fuel : ℕ) (st : St R)
    (fwd : (Fin 1 → ℂ) → (Fin 1 → ℂ)) (ps cs : List (List ℂ)) (x : Fin 1 → ℂ), ActsAs M.F.forward fwd →
    myulaRun M R (initArrays M) r sp fuel = .ok (some st) →
    ((initArrays M).applyAll st.ev).preds = some ps → ((initArrays M).applyAll st.ev).chain = some cs →
    cs[0]? = some (List.ofFn x) → ps[0]? = some (List.ofFn (fwd x)) := by
  intro H
  set M := demo ⟨1, 1 / 2, 1, 1, 1, 0, 0, true, 0, ["predictions", "chain"]⟩ with hM
  have hl : (1 : ℝ) ≠ 0 := one_ne_zero
  have tot := demo_total ⟨1, 1 / 2, 1, 1, 1, 0, 0, true, 0, ["predictions", "chain"]⟩ hl
  obtain ⟨-, st, hst, -, harr⟩ := C41_schedule M (constRng 1 0) (initArrays M) (initArrays_shaped M) (.inl le_rfl)
    0 0 rfl rfl tot _ (fun x => gradlogpi_vec M tot x) () () (.array1 (List.ofFn fun _ => 0))
    (fun _ => 0) (demo_start _ _ _ _ hl) 1 (by simp [hM, demo])
  set x : Fin 1 → ℂ := iter (ulaStep M.par.delta (gradVec M.par.lmda (fun x : Fin 1 → ℂ => x) (fun y => y) fun x => x))
    (noiseSeq (constRng 1 0) M.par.complex 1 ()) (fun _ => 0) (0 + 0 * max 0 1 + 1) with hx
  have hx1 : x = fun _ => 1 + Complex.I := by
    funext i
    simp [hx, iter, ulaStep, gradVec, noiseSeq, drawVec, rngSeq, constRng, hM, demo]
  have h := H M _ _ _ _ st (fun x => x) [List.ofFn fun i => store false (x i)] [List.ofFn fun i => store true (x i)]
    x tot.forward (hst 1 le_rfl) (by rw [harr]; simp [Arrays.ofRows, initArrays, hM, demo, rowOf, hx])
    (by rw [harr]; simp [Arrays.ofRows, initArrays, hM, demo, rowOf, hx]) (by simp [store])
  simp only [List.getElem?_cons_zero, Option.some.injEq] at h
  have h0 := congrFun (List.ofFn_injective h) 0
  rw [hx1] at h0
  have := congrArg Complex.im h0
  simp [store] at this

end Pxmcmc
