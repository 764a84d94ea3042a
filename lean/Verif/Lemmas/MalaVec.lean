import Verif.Props.MalaTrace

/-! # Vector form and totality of the PxMALA loop -/

namespace Pxmcmc
variable {n p : ℕ}

/-- The weighted misfit of the sample `x`, as `logpi` computes it. -/
noncomputable def misfitOf (M : Sampler n) (fwd : (Fin p → ℂ) → (Fin n → ℂ)) (x : Fin p → ℂ) : ℂ :=
  Spec.inner (M.F.data.vals - fwd x) (M.F.invcov.mulVec (M.F.data.vals - fwd x))

/-- The cache of the sample `x`. -/
noncomputable def cacheOf (M : Sampler n) (fwd : (Fin p → ℂ) → (Fin n → ℂ)) (grad : (Fin n → ℂ) → (Fin p → ℂ))
    (prox : (Fin p → ℂ) → (Fin p → ℂ)) (pri : (Fin p → ℂ) → ℝ) (x : Fin p → ℂ) : Cache :=
  ⟨List.ofFn x, List.ofFn (fwd x), List.ofFn (grad (fwd x)), List.ofFn (prox x),
    ((-M.par.mu * pri x : ℝ) : ℂ) - misfitOf M fwd x, misfitOf M fwd x, pri x⟩

/-- `calc_logtransition` on vectors. -/
noncomputable def logtransVec (delta : ℝ) (G : (Fin p → ℂ) → (Fin p → ℂ)) (x y : Fin p → ℂ) : ℂ :=
  -((1 / 2 * delta : ℝ) : ℂ) * (∑ i, (y i - x i - ((delta / 2 : ℝ) : ℂ) * G x i) ^ 2) ^ 2

section
variable (M : Sampler n) (R : Rng) {fwd : (Fin p → ℂ) → (Fin n → ℂ)} {grad : (Fin n → ℂ) → (Fin p → ℂ)}
    {prox : (Fin p → ℂ) → (Fin p → ℂ)} {pri : (Fin p → ℂ) → ℝ}

theorem logtrans_vec (delta : ℝ) (x y : Fin p → ℂ) :
    calcLogtransition M delta (List.ofFn x) (List.ofFn y) (List.ofFn (prox x)) (List.ofFn (grad (fwd x))) =
      .ok (logtransVec delta (gradVec M.par.lmda fwd grad prox) x y) := by
  unfold calcLogtransition
  rw [npSub_ofFn]
  simp only [bind, Except.bind, map_ofFn']
  rw [npSub_ofFn, npSub_ofFn]
  simp only [map_ofFn']
  rw [npSub_ofFn]
  simp only [map_ofFn', List.sum_ofFn]
  rfl

variable (tot : Total M p fwd grad prox pri)
include tot

theorem propose_vec (delta : ℝ) (r : R.σ) (x : Fin p → ℂ) :
    malaPropose M R delta r (cacheOf M fwd grad prox pri x) =
      .ok (cacheOf M fwd grad prox pri (ulaStep delta (gradVec M.par.lmda fwd grad prox) x
        (drawVec R R.randn M.par.complex r p).1), (drawVec R R.randn M.par.complex r p).2) := by
  unfold malaPropose cacheOf
  rw [chainStep_vec M R delta r tot.nparams tot.lmda]
  simp only [bind, Except.bind]
  have e : (fun i => x i + (delta : ℂ) * (-((x i - prox x i) / (M.par.lmda : ℂ)) - grad (fwd x) i)
        + ((√(2 * delta) : ℝ) : ℂ) * (drawVec R R.randn M.par.complex r p).1 i) =
      ulaStep delta (gradVec M.par.lmda fwd grad prox) x (drawVec R R.randn M.par.complex r p).1 := rfl
  rw [e]
  generalize ulaStep delta (gradVec M.par.lmda fwd grad prox) x (drawVec R R.randn M.par.complex r p).1 = y
  have h1 := tot.forward y
  have h2 := tot.gradg (fwd y)
  have h3 := tot.proxf y
  have h4 := logpi_ofFn M.F M.P M.par.mu (List.ofFn y) (fwd y) _ (tot.prior y)
  simp only [h1, h2, h3, h4]
  rfl

omit tot in
theorem logAlpha_vec (delta : ℝ) (x y : Fin p → ℂ) :
    malaLogAlpha M delta (cacheOf M fwd grad prox pri x) (cacheOf M fwd grad prox pri y) =
      .ok (logtransVec delta (gradVec M.par.lmda fwd grad prox) y x + (cacheOf M fwd grad prox pri y).logpi
        - logtransVec delta (gradVec M.par.lmda fwd grad prox) x y - (cacheOf M fwd grad prox pri x).logpi) := by
  unfold malaLogAlpha
  have h1 := logtrans_vec M (fwd := fwd) (grad := grad) (prox := prox) delta x y
  have h2 := logtrans_vec M (fwd := fwd) (grad := grad) (prox := prox) delta y x
  simp only [cacheOf, h1, h2, bind, Except.bind]

theorem init_vec (delta : ℝ) (r r1 : R.σ) (sp : StartPoint) (x0 : Fin p → ℂ)
    (hstart : initialSample M R r sp = .ok (List.ofFn x0, List.ofFn (fwd x0), r1)) :
    malaInit M R delta r sp = .ok ⟨0, 0, cacheOf M fwd grad prox pri x0, r1, delta, [], [delta], []⟩ := by
  unfold malaInit
  have h2 := tot.gradg (fwd x0)
  have h3 := tot.proxf x0
  have h4 := logpi_ofFn M.F M.P M.par.mu (List.ofFn x0) (fwd x0) _ (tot.prior x0)
  simp only [hstart, bind, Except.bind, h2, h3, h4]
  rfl

/-- The log acceptance ratio of proposing `y` from `x`. -/
noncomputable def logAlphaVec (M : Sampler n) (fwd : (Fin p → ℂ) → (Fin n → ℂ)) (grad : (Fin n → ℂ) → (Fin p → ℂ))
    (prox : (Fin p → ℂ) → (Fin p → ℂ)) (pri : (Fin p → ℂ) → ℝ) (delta : ℝ) (x y : Fin p → ℂ) : ℂ :=
  logtransVec delta (gradVec M.par.lmda fwd grad prox) y x + (cacheOf M fwd grad prox pri y).logpi
    - logtransVec delta (gradVec M.par.lmda fwd grad prox) x y - (cacheOf M fwd grad prox pri x).logpi

open Classical in
/-- One iteration in vector form, without tuning. -/
theorem coreStep_vec (c : Core R) (x : Fin p → ℂ) (hx : c.cur = cacheOf M fwd grad prox pri x)
    (y : Fin p → ℂ) (hy : y = ulaStep c.delta (gradVec M.par.lmda fwd grad prox) x
      (drawVec R R.randn M.par.complex c.rng p).1) (r1 : R.σ) (hr : r1 = (drawVec R R.randn M.par.complex c.rng p).2)
    (ac : Prop) (hac : ac ↔ acceptTest (R.rand r1).1 (logAlphaVec M fwd grad prox pri c.delta x y)) :
    coreStep M R false c = .ok ⟨c.i + 1, if ac then cacheOf M fwd grad prox pri y else cacheOf M fwd grad prox pri x,
      (R.rand r1).2, c.delta, c.acc ++ [if ac then 1 else 0], c.deltas⟩ := by
  unfold coreStep
  rw [hx, propose_vec M R tot]
  simp only [bind, Except.bind]
  rw [← hy, ← hr, logAlpha_vec]
  simp only [hac, logAlphaVec, Bool.false_eq_true, if_false]

/-- No exception in an iteration. -/
theorem coreStep_total (tune : Bool) (c : Core R) (x : Fin p → ℂ) (hx : c.cur = cacheOf M fwd grad prox pri x)
    (hacc : c.acc.length = c.i) :
    ∃ c' y, coreStep M R tune c = .ok c' ∧ c'.cur = cacheOf M fwd grad prox pri y ∧ c'.acc.length = c'.i := by
  classical
  obtain ⟨y, r1, hpr⟩ : ∃ y r1, malaPropose M R c.delta c.rng c.cur = .ok (cacheOf M fwd grad prox pri y, r1) :=
    ⟨_, _, by rw [hx]; exact propose_vec M R tot _ _ _⟩
  obtain ⟨a, ha⟩ : ∃ a, malaLogAlpha M c.delta c.cur (cacheOf M fwd grad prox pri y) = .ok a :=
    ⟨_, by rw [hx]; exact logAlpha_vec M _ _ _⟩
  unfold coreStep
  simp only [hpr, ha, bind, Except.bind]
  generalize acceptTest _ _ = ac
  have hcur : ∃ z, (if ac then cacheOf M fwd grad prox pri y else c.cur) = cacheOf M fwd grad prox pri z := by
    split
    · exact ⟨y, rfl⟩
    · exact ⟨x, hx⟩
  obtain ⟨z, hz⟩ := hcur
  cases tune
  · simp only [Bool.false_eq_true, if_false]
    exact ⟨_, z, rfl, hz, by simp [hacc]⟩
  · simp only [if_true]
    have hget : pyGet (c.acc ++ [if ac then 1 else 0]) (c.i : ℤ) = .ok (if ac then 1 else 0) := by
      apply pyGet_nat
      rw [← hacc, List.getElem?_concat_length]
    have hd : ∃ d, tuneDelta M c.delta (c.acc ++ [if ac then 1 else 0]) c.i = .ok d := by
      unfold tuneDelta
      rw [hget]
      exact ⟨_, rfl⟩
    obtain ⟨d, hd⟩ := hd
    rw [hd]
    exact ⟨_, z, rfl, hz, by simp [hacc]⟩

omit tot in
/-- If the iteration does not raise, neither do saving and printing. -/
theorem malaBody_total (tune : Bool) (A0 : Arrays) (hA : A0.Shaped M.par.nsamples) (st : MalaSt R) (c' : Core R)
    (hc : coreStep M R tune st.core = .ok c') (hj : st.j < M.par.nsamples) (hX : c'.cur.X.length = M.nparams)
    (hP : c'.cur.preds.length = n) : ∃ st', malaBody M R tune A0 st = .ok st' ∧ st'.core = c' := by
  classical
  unfold coreStep at hc
  obtain ⟨pr, hpr, hc⟩ := bind_ok hc
  obtain ⟨a, ha, hc⟩ := bind_ok hc
  have hpr' : malaPropose M R st.delta st.rng st.cur = .ok pr := hpr
  have ha' : malaLogAlpha M st.delta st.cur pr.1 = .ok a := ha
  unfold malaBody
  simp only [hpr', ha', bind, Except.bind]
  have htune : ∃ st2 : MalaSt R, malaTune M tune { st with
      rng := (R.rand pr.2).2
      cur := if acceptTest (R.rand pr.2).1 a then pr.1 else st.cur
      acc := st.acc ++ [if acceptTest (R.rand pr.2).1 a then 1 else 0] } = .ok st2 ∧ st2.j = st.j ∧
      st2.ev = st.ev ∧ st2.i = st.i ∧ c' = ⟨st.i + 1, st2.cur, st2.rng, st2.delta, st2.acc, st2.deltas⟩ := by
    unfold malaTune
    cases tune
    · simp only [Bool.false_eq_true, if_false] at hc ⊢
      exact ⟨_, rfl, rfl, rfl, rfl, (Except.ok.inj hc).symm⟩
    · simp only [if_true] at hc ⊢
      obtain ⟨d, hd, hc⟩ := bind_ok hc
      have hd' : tuneDelta M st.delta (st.acc ++ [if acceptTest (R.rand pr.2).1 a then 1 else 0]) st.i = .ok d := hd
      simp only [hd', bind, Except.bind]
      exact ⟨_, rfl, rfl, rfl, rfl, (Except.ok.inj hc).symm⟩
  obtain ⟨st2, h2, e1, e2, e3, rfl⟩ := htune
  rw [h2]
  simp only
  have hsave : ∃ st3, malaSave M A0 (acceptTest (R.rand pr.2).1 a) st2 = .ok st3 ∧
      (⟨st3.i, st3.cur, st3.rng, st3.delta, st3.acc, st3.deltas⟩ : Core R) =
        ⟨st2.i, st2.cur, st2.rng, st2.delta, st2.acc, st2.deltas⟩ := by
    unfold malaSave
    split
    · split
      · have hs := Arrays.Shaped.of_same (A0.applyAll_shape st2.ev) hA
        obtain ⟨evs, he⟩ := tracking_total M (A := A0.applyAll st2.ev) (j := st2.j) (by rw [e1]; exact hj) hs.logPi hs.L2s
          hs.priors hs.preds hs.chain st2.cur.X st2.cur.preds hX hP (st2.cur.logpi, st2.cur.L2, st2.cur.prior)
        simp only at he
        simp only [he, bind, Except.bind]
        exact ⟨_, rfl, rfl⟩
      · exact ⟨_, rfl, rfl⟩
    · exact ⟨_, rfl, rfl⟩
  obtain ⟨st3, h3, e4⟩ := hsave
  rw [h3]
  refine ⟨_, rfl, ?_⟩
  simp only [Core.mk.injEq] at e4
  obtain ⟨f1, f2, f3, f4, f5, f6⟩ := e4
  simp only [MalaSt.core, malaFinish, f1, f2, f3, f4, f5, f6, e3]

/-- With total operators no loop state raises. -/
theorem mala_no_error (tune : Bool) (A0 : Arrays) (hA : A0.Shaped M.par.nsamples) (delta : ℝ) (r r1 : R.σ)
    (sp : StartPoint) (x0 : Fin p → ℂ)
    (hstart : initialSample M R r sp = .ok (List.ofFn x0, List.ofFn (fwd x0), r1)) (fuel : ℕ) :
    ∃ o, malaRun M R tune delta A0 r sp fuel = .ok o := by
  unfold malaRun
  rw [init_vec M R tot delta r r1 sp x0 hstart]
  simp only [bind, Except.bind]
  rcases whileFuel_cases (malaCond M) (malaBody M R tune A0) fuel
      ⟨0, 0, cacheOf M fwd grad prox pri x0, r1, delta, [], [delta], []⟩ with
    ⟨m, s, -, -, -, hw⟩ | ⟨s, -, -, hw⟩ | ⟨m, s, e, -, hr, hc, hb, -⟩
  · rw [hw]; exact ⟨_, rfl⟩
  · rw [hw]; exact ⟨_, rfl⟩
  · exfalso
    have hinv := hr.invariant (fun _ s => (∃ x, s.cur = cacheOf M fwd grad prox pri x) ∧ s.acc.length = s.i)
      ⟨⟨x0, rfl⟩, rfl⟩ ?_
    · obtain ⟨⟨x, hx⟩, hl⟩ := hinv
      obtain ⟨c', y, h1, h2, -⟩ := coreStep_total M R tot tune s.core x hx hl
      obtain ⟨st', h3, -⟩ := malaBody_total M R tune A0 hA s c' h1 (by simpa [malaCond] using hc)
        (by rw [h2]; simp [cacheOf, tot.nparams]) (by rw [h2]; simp [cacheOf])
      rw [hb] at h3
      cases h3
    · rintro k s s' ⟨⟨x, hx⟩, hl⟩ - hb'
      obtain ⟨c', y, h1, h2, h3⟩ := coreStep_total M R tot tune s.core x hx hl
      have := (malaBody_ok M R tune A0 s s' hb').1
      rw [h1] at this
      obtain rfl := Except.ok.inj this
      exact ⟨⟨y, h2⟩, h3⟩

end

end Pxmcmc
