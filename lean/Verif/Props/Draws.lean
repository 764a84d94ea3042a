import Verif.Props.Calls

/-!
# C158: the random numbers a run consumes
-/

namespace Pxmcmc

/-- A call of numpy's generator. -/
inductive Draw where
  /-- `laplace.rvs(size=k)` -/
  | laplace (k : ℕ)
  /-- `np.random.randn(k)` -/
  | randn (k : ℕ)
  /-- `np.random.rand()` -/
  | rand

/-- The state of the generator after one call. -/
def Draw.next (R : Rng) (r : R.σ) : Draw → R.σ
  | .laplace k => (R.laplace r k).2
  | .randn k => (R.randn r k).2
  | .rand => (R.rand r).2

/-- The state of the generator after a sequence of calls. -/
def Rng.after (R : Rng) (r : R.σ) (l : List Draw) : R.σ := l.foldl (Draw.next R) r

theorem Rng.after_append (R : Rng) (r : R.σ) (l l' : List Draw) : R.after r (l ++ l') = R.after (R.after r l) l' := by
  simp [Rng.after, List.foldl_append]

/-- The calls for one vector of `p` real or complex numbers. -/
def vectorOf (complex : Bool) (d : Draw) : List Draw := List.replicate (if complex then 2 else 1) d

/-- The calls for the start: none if the caller gives a start array. -/
def startCalls (complex : Bool) (p : ℕ) : StartPoint → List Draw
  | .none => vectorOf complex (.laplace p)
  | _ => []

/-- The calls of `N` iterations. -/
def iterationCalls (N : ℕ) (one : List Draw) : List Draw := (List.replicate N one).flatten

variable {n : ℕ} (M : Sampler n) (R : Rng)

theorem noise_randn_after (c : Bool) (r : R.σ) (k : ℕ) : (noise R R.randn c r k).2 = R.after r (vectorOf c (.randn k)) := by
  cases c <;> rfl

theorem noise_laplace_after (c : Bool) (r : R.σ) (k : ℕ) : (noise R R.laplace c r k).2 = R.after r (vectorOf c (.laplace k)) := by
  cases c <;> rfl

theorem noise_size (draw : R.σ → (k : ℕ) → (Fin k → ℝ) × R.σ) (c : Bool) (r : R.σ) (k : ℕ) : (noise R draw c r k).1.length = k := by
  unfold noise
  cases c <;> simp

theorem initialSample_after (r : R.σ) (sp : StartPoint) (x : List ℂ × List ℂ × R.σ) (h : initialSample M R r sp = .ok x) :
    x.2.2 = R.after r (startCalls M.par.complex M.nparams sp) ∧ x.1.length = M.nparams := by
  unfold initialSample at h
  obtain ⟨xr, hx, h⟩ := bind_ok h
  obtain ⟨p, -, h⟩ := bind_ok h
  obtain rfl := Except.ok.inj h
  cases sp with
  | none =>
    obtain rfl := Except.ok.inj hx
    exact ⟨noise_laplace_after R _ _ _, noise_size R _ _ _ _⟩
  | array1 v =>
    unfold startVector at hx
    simp only at hx
    split at hx
    · rename_i hv
      obtain rfl := Except.ok.inj hx
      exact ⟨rfl, hv⟩
    · cases hx
  | arrayNd k hk => cases hx
  | other => cases hx

theorem chainStep_after (delta : ℝ) (r : R.σ) (X p g : List ℂ) (x : List ℂ × R.σ) (h : chainStep M R delta r X p g = .ok x) :
    x.2 = R.after r (vectorOf M.par.complex (.randn M.nparams)) := by
  unfold chainStep at h
  simp only at h
  obtain ⟨q, -, h⟩ := bind_ok h
  obtain ⟨a, -, h⟩ := bind_ok h
  obtain ⟨b, -, h⟩ := bind_ok h
  obtain ⟨c, -, h⟩ := bind_ok h
  obtain rfl := Except.ok.inj h
  exact noise_randn_after R _ _ _

theorem genBook_cur (A0 : Arrays) (prog : St R → Py (List Event)) (st st' : St R) (h : genBook M A0 prog st = .ok st') :
    st'.cur = st.cur ∧ st'.i = st.i + 1 := by
  unfold genBook at h
  obtain ⟨s, hs, h⟩ := bind_ok h
  obtain ⟨e, -, h⟩ := bind_ok h
  obtain rfl := Except.ok.inj h
  split at hs
  · obtain ⟨l, -, rfl⟩ := recordRow_ok M A0 hs
    exact ⟨rfl, rfl⟩
  · obtain rfl := Except.ok.inj hs
    exact ⟨rfl, rfl⟩

theorem iterationCalls_succ (N : ℕ) (one : List Draw) : iterationCalls (N + 1) one = iterationCalls N one ++ one := by
  unfold iterationCalls
  rw [List.replicate_add, List.flatten_append]
  simp

/-- C158 for MYULA: a run that returns has made, after the draws for the start, one draw of `nparams` normal numbers (two for complex samples) per
iteration, and no other. -/
theorem C158_myula (A0 : Arrays) (b g : ℕ) (hb : M.par.nburn = b) (hg : M.par.ngap = g) (r : R.σ) (sp : StartPoint) (fuel : ℕ) (st : St R)
    (h : myulaRun M R A0 r sp fuel = .ok (some st)) :
    st.cur.rng = R.after r (startCalls M.par.complex M.nparams sp ++
      iterationCalls (if M.par.nsamples = 0 then 0 else b + (M.par.nsamples - 1) * max g 1 + 1) (vectorOf M.par.complex (.randn M.nparams))) := by
  rw [← ((C41_terminates M R A0 b g hb hg r sp _ rfl).2 fuel st h).2.1]
  unfold myulaRun at h
  obtain ⟨x, hx, h⟩ := bind_ok h
  obtain ⟨res, hres, h⟩ := bind_ok h
  obtain ⟨hx2, -⟩ := initialSample_after M R r sp x hx
  cases res with
  | none => cases Except.ok.inj h
  | some s =>
    obtain rfl := Option.some.inj (Except.ok.inj h)
    obtain ⟨m, -, hr, -⟩ := whileFuel_some hres
    exact hr.invariant (fun _ s => s.cur.rng = R.after r (startCalls M.par.complex M.nparams sp ++
        iterationCalls s.i (vectorOf M.par.complex (.randn M.nparams)))) (by simpa [iterationCalls] using hx2) fun k s s' hs _ hbody => by
      unfold myulaBody at hbody
      obtain ⟨c, hc, hbody⟩ := bind_ok hbody
      rw [myulaBook_eq] at hbody
      obtain ⟨h1, h2⟩ := genBook_cur M R A0 _ _ _ hbody
      rw [h1, h2]
      show c.rng = _
      unfold myulaStep at hc
      obtain ⟨gg, -, hc⟩ := bind_ok hc
      obtain ⟨pp, -, hc⟩ := bind_ok hc
      obtain ⟨xr, hxr, hc⟩ := bind_ok hc
      obtain ⟨pr, -, hc⟩ := bind_ok hc
      obtain rfl := Except.ok.inj hc
      show xr.2 = _
      rw [chainStep_after M R _ _ _ _ _ xr hxr, hs, iterationCalls_succ, ← List.append_assoc, R.after_append r (_ ++ _)]

/-- C158 for SKROCK: the same, whatever the number of stages. -/
theorem C158_skrock (A0 : Arrays) (b g : ℕ) (hb : M.par.nburn = b) (hg : M.par.ngap = g) (r : R.σ) (sp : StartPoint) (fuel : ℕ) (st : St R)
    (h : skrockRun M R A0 r sp fuel = .ok (some st)) :
    st.cur.rng = R.after r (startCalls M.par.complex M.nparams sp ++
      iterationCalls (if M.par.nsamples = 0 then 0 else b + (M.par.nsamples - 1) * max g 1 + 1) (vectorOf M.par.complex (.randn M.nparams))) := by
  rw [← ((C42_terminates M R A0 b g hb hg r sp _ rfl).2 fuel st h).2.1]
  unfold skrockRun at h
  obtain ⟨co, -, h⟩ := bind_ok h
  obtain ⟨x, hx, h⟩ := bind_ok h
  obtain ⟨res, hres, h⟩ := bind_ok h
  obtain ⟨hx2, hx1⟩ := initialSample_after M R r sp x hx
  cases res with
  | none => cases Except.ok.inj h
  | some s =>
    obtain rfl := Option.some.inj (Except.ok.inj h)
    obtain ⟨m, -, hr, -⟩ := whileFuel_some hres
    refine (hr.invariant (fun _ s => s.cur.rng = R.after r (startCalls M.par.complex M.nparams sp ++
        iterationCalls s.i (vectorOf M.par.complex (.randn M.nparams))) ∧ s.cur.X.length = M.nparams)
        ⟨by simpa [iterationCalls] using hx2, hx1⟩ fun k s s' hs _ hbody => ?_).1
    unfold skrockBody at hbody
    obtain ⟨c, hc, hbody⟩ := bind_ok hbody
    rw [skrockBook_eq] at hbody
    obtain ⟨h1, h2⟩ := genBook_cur M R A0 _ _ _ hbody
    rw [h1, h2]
    unfold skrockTransition at hc
    simp only at hc
    obtain ⟨xv, -, hc⟩ := bind_ok hc
    obtain ⟨zv, -, hc⟩ := bind_ok hc
    obtain ⟨y, -, hc⟩ := bind_ok hc
    obtain ⟨pr, -, hc⟩ := bind_ok hc
    obtain rfl := Except.ok.inj hc
    refine ⟨?_, by simpa using hs.2⟩
    have e : (noise R R.randn M.par.complex s.cur.rng s.cur.X.length).2 = R.after r (startCalls M.par.complex M.nparams sp ++
        iterationCalls (s.i + 1) (vectorOf M.par.complex (.randn M.nparams))) := by
      rw [noise_randn_after, hs.1, hs.2, iterationCalls_succ, ← List.append_assoc, R.after_append r (_ ++ _)]
    exact e

/-- C158 for PxMALA, tuned or not: per iteration a vector of normal numbers and one uniform number, accepted or not. -/
theorem C158_mala (tune : Bool) (delta : ℝ) (A0 : Arrays) (r : R.σ) (sp : StartPoint) (fuel : ℕ) (st : MalaSt R)
    (h : malaRun M R tune delta A0 r sp fuel = .ok (some st)) :
    st.rng = R.after r (startCalls M.par.complex M.nparams sp ++
      iterationCalls st.acc.length (vectorOf M.par.complex (.randn M.nparams) ++ [.rand])) := by
  obtain ⟨s0, s, m, h0, hr, -, -, rfl⟩ := malaRun_ok M R tune delta A0 r sp fuel st h
  refine hr.invariant (fun _ s => s.rng = R.after r (startCalls M.par.complex M.nparams sp ++
      iterationCalls s.acc.length (vectorOf M.par.complex (.randn M.nparams) ++ [.rand]))) ?_ fun k s s' hs _ hbody => ?_
  · unfold malaInit at h0
    obtain ⟨x, hx, h0⟩ := bind_ok h0
    obtain ⟨g, -, h0⟩ := bind_ok h0
    obtain ⟨p, -, h0⟩ := bind_ok h0
    obtain ⟨l, -, h0⟩ := bind_ok h0
    obtain rfl := Except.ok.inj h0
    simpa [iterationCalls] using (initialSample_after M R r sp x hx).1
  · obtain ⟨hc, -, -⟩ := malaBody_ok M R tune A0 s s' hbody
    unfold coreStep at hc
    obtain ⟨pr, hpr, hc⟩ := bind_ok hc
    obtain ⟨a, -, hc⟩ := bind_ok hc
    have hp : pr.2 = R.after s.rng (vectorOf M.par.complex (.randn M.nparams)) := by
      unfold malaPropose at hpr
      obtain ⟨xr, hxr, hpr⟩ := bind_ok hpr
      obtain ⟨p, -, hpr⟩ := bind_ok hpr
      obtain ⟨g, -, hpr⟩ := bind_ok hpr
      obtain ⟨q, -, hpr⟩ := bind_ok hpr
      obtain ⟨l, -, hpr⟩ := bind_ok hpr
      obtain rfl := Except.ok.inj hpr
      exact chainStep_after M R _ _ _ _ _ xr hxr
    have hc' : s'.rng = (R.rand pr.2).2 ∧ s'.acc.length = s.acc.length + 1 := by
      cases tune with
      | true =>
        obtain ⟨d, -, hc⟩ := bind_ok hc
        have := Except.ok.inj hc
        have h1 : s'.rng = (R.rand pr.2).2 := (congrArg Core.rng this).symm
        have h2 := congrArg Core.acc this
        refine ⟨h1, ?_⟩
        show s'.core.acc.length = _
        rw [← h2]
        simp [MalaSt.core]
      | false =>
        have := Except.ok.inj hc
        have h1 : s'.rng = (R.rand pr.2).2 := (congrArg Core.rng this).symm
        have h2 := congrArg Core.acc this
        refine ⟨h1, ?_⟩
        show s'.core.acc.length = _
        rw [← h2]
        simp [MalaSt.core]
    rw [hc'.1, hc'.2, iterationCalls_succ, ← List.append_assoc, R.after_append r (_ ++ _), ← hs, R.after_append s.rng, ← hp]
    rfl

/-- C158, consequence: what a run leaves to the code that follows it does not depend on the model.  Two MYULA samplers with different operators, data, priors
and step sizes, but the same schedule and number of parameters, leave the generator in the same state. -/
theorem C158_same {n' : ℕ} (M' : Sampler n') (A0 A0' : Arrays) (b g : ℕ) (hb : M.par.nburn = b) (hg : M.par.ngap = g) (hb' : M'.par.nburn = b)
    (hg' : M'.par.ngap = g) (hs : M.par.nsamples = M'.par.nsamples) (hc : M.par.complex = M'.par.complex) (hp : M.nparams = M'.nparams) (r : R.σ)
    (v v' : List ℂ) (fuel fuel' : ℕ) (st st' : St R) (h : myulaRun M R A0 r (.array1 v) fuel = .ok (some st))
    (h' : myulaRun M' R A0' r (.array1 v') fuel' = .ok (some st')) : st.cur.rng = st'.cur.rng := by
  rw [C158_myula M R A0 b g hb hg r _ fuel st h, C158_myula M' R A0' b g hb' hg' r _ fuel' st' h', hs, hc, hp]
  rfl

/-! ### Concrete runs -/

/-- A generator that counts the numbers it has delivered. -/
def countingRng : Rng := ⟨ℕ, fun s k => (fun _ => 1, s + k), fun s k => (fun _ => 1, s + k), fun s => (0, s + 1)⟩

/-- The demo sampler (one parameter) with burn-in 3, thinning 2 and 4 samples consumes ten numbers, one per iteration. -/
example : ∃ st, myulaRun (demo ⟨1, 1 / 2, 1, 1, 4, (3 : ℕ), (2 : ℕ), false, 0, ["chain"]⟩) countingRng
    (initArrays (demo ⟨1, 1 / 2, 1, 1, 4, (3 : ℕ), (2 : ℕ), false, 0, ["chain"]⟩)) (0 : ℕ) (.array1 (List.ofFn fun _ : Fin 1 => 5)) 10 = .ok (some st) ∧
    st.cur.rng = (10 : ℕ) := by
  have tot := demo_total ⟨1, 1 / 2, 1, 1, 4, (3 : ℕ), (2 : ℕ), false, 0, ["chain"]⟩ one_ne_zero
  obtain ⟨-, st, hst, -, -⟩ := C41_schedule _ countingRng _ (initArrays_shaped _) (.inl le_rfl) 3 2 rfl rfl tot _ (fun x => gradlogpi_vec _ tot x)
    (0 : ℕ) (0 : ℕ) _ (fun _ => 5) (demo_start _ _ _ _ one_ne_zero) 10 rfl
  have h := C158_myula _ countingRng _ 3 2 rfl rfl (0 : ℕ) _ 10 st (hst 10 le_rfl)
  exact ⟨st, hst 10 le_rfl, h⟩

/-- The same sampler with SKROCK and two stages. -/
example : ∃ st, skrockRun (demo ⟨1, 1 / 2, 1, 2, 4, (3 : ℕ), (2 : ℕ), true, 0, ["chain"]⟩) countingRng
    (initArrays (demo ⟨1, 1 / 2, 1, 2, 4, (3 : ℕ), (2 : ℕ), true, 0, ["chain"]⟩)) (0 : ℕ) (.array1 (List.ofFn fun _ : Fin 1 => 5)) 10 = .ok (some st) ∧
    st.cur.rng = (20 : ℕ) := by
  have tot := demo_total ⟨1, 1 / 2, 1, 2, 4, (3 : ℕ), (2 : ℕ), true, 0, ["chain"]⟩ one_ne_zero
  obtain ⟨co, f, -, -, -, st, hst, -, -⟩ := C42_schedule _ countingRng _ (initArrays_shaped _) (.inl le_rfl) (by decide) 3 2 rfl rfl tot _
    (fun x => gradlogpi_vec _ tot x) (0 : ℕ) (0 : ℕ) _ (fun _ => 5) (demo_start _ _ _ _ one_ne_zero) 10 rfl
  have h := C158_skrock _ countingRng _ 3 2 rfl rfl (0 : ℕ) _ 10 st (hst 10 le_rfl)
  exact ⟨st, hst 10 le_rfl, h⟩

/-- PxMALA with a rejected and an accepted proposal. -/
example : ∃ st, malaRun (demo (demoPar 1 (0 : ℕ))) (seqRng rejectOnce) false (1 / 2) (demoArr 1 0) (0 : ℕ) demoSp 2 = .ok (some st) ∧
    st.rng = (seqRng rejectOnce).after (0 : ℕ) (iterationCalls st.acc.length [.randn 1, .rand]) := by
  obtain ⟨st, hst⟩ := demoRun1
  exact ⟨st, hst, C158_mala (demo (demoPar 1 (0 : ℕ))) (seqRng rejectOnce) false (1 / 2) (demoArr 1 0) (0 : ℕ) demoSp 2 st hst⟩

end Pxmcmc
