import Verif.Lemmas.Schedule
import Verif.Props.Forward

/-! # Vector form of the chains, and the result of a complete MYULA/SKROCK loop -/

namespace Pxmcmc

/-- The arrays all have length `ns` where they exist. -/
structure Arrays.Shaped (A : Arrays) (ns : ℕ) : Prop where
  logPi : ∀ l ∈ A.logPi, l.length = ns
  L2s : ∀ l ∈ A.L2s, l.length = ns
  priors : ∀ l ∈ A.priors, l.length = ns
  preds : ∀ l ∈ A.preds, l.length = ns
  chain : ∀ l ∈ A.chain, l.length = ns

theorem initArrays_shaped {n : ℕ} (M : Sampler n) : (initArrays M).Shaped M.par.nsamples := by
  constructor <;> intro l hl <;> simp only [initArrays] at hl <;> split at hl <;>
    first | (obtain rfl := Option.some.inj hl; simp) | cases hl

theorem Arrays.Shaped.of_same {A B : Arrays} {ns : ℕ} (h : A.SameShape B) (hB : B.Shaped ns) : A.Shaped ns := by
  have hconv : ∀ {α : Type} (o o' : Option (List α)), o.map List.length = o'.map List.length →
      (∀ l ∈ o', l.length = ns) → ∀ l ∈ o, l.length = ns := by
    intro α o o' ho h l hl
    cases o' with
    | none => cases o <;> simp_all
    | some a =>
      cases o with
      | none => cases hl
      | some a' =>
        simp only [Option.map_some, Option.some.injEq] at ho
        have := h a rfl
        obtain rfl : a' = l := Option.some.inj hl
        omega
  exact ⟨hconv _ _ h.logPi hB.logPi, hconv _ _ h.L2s hB.L2s, hconv _ _ h.priors hB.priors, hconv _ _ h.preds hB.preds,
    hconv _ _ h.chain hB.chain⟩

/-- The arrays that hold exactly the given rows, for the attributes that exist in `A`. -/
def Arrays.ofRows (A : Arrays) (ns : ℕ) (r : ℕ → Row) : Arrays where
  logPi := A.logPi.map fun _ => (List.range ns).map fun k => (r k).logPi
  L2s := A.L2s.map fun _ => (List.range ns).map fun k => (r k).L2
  priors := A.priors.map fun _ => (List.range ns).map fun k => (r k).prior
  preds := A.preds.map fun _ => (List.range ns).map fun k => (r k).preds
  chain := A.chain.map fun _ => (List.range ns).map fun k => (r k).chain

theorem Arrays.overwrite_all (A : Arrays) (ns : ℕ) (hA : A.Shaped ns) (r : ℕ → Row) :
    A.overwrite ns r = A.ofRows ns r := by
  have key : ∀ {α : Type} (o : Option (List α)) (v : ℕ → α), (∀ l ∈ o, l.length = ns) →
      (o.map fun l => Pxmcmc.overwrite l ns v) = o.map fun _ => (List.range ns).map v := by
    intro α o v h
    cases o with
    | none => rfl
    | some a =>
      simp only [Option.map_some]
      have := h a rfl
      rw [overwrite_full a ns this.le, this]
  simp only [Arrays.overwrite, Arrays.ofRows, key _ _ hA.logPi, key _ _ hA.L2s, key _ _ hA.priors, key _ _ hA.preds,
    key _ _ hA.chain]

section
variable {n : ℕ} (M : Sampler n) {R : Rng} (A0 : Arrays)

/-- The result of a loop that returned. -/
theorem gen_result (step : Cur R → Py (Cur R)) (prog : St R → Py (List Event)) (hprog : NoWrites prog) (c0 : Cur R)
    (b : ℕ) (hb : M.par.nburn = b) (hA : A0.Shaped M.par.nsamples) (fuel : ℕ) (r : St R)
    (h : whileFuel (loopCond M) (genBody M A0 step prog) fuel ⟨0, 0, c0, []⟩ = .ok (some r)) :
    ∃ (T : ℕ → Cur R) (rows : ℕ → Row), Hist step c0 (numIter M.par.nsamples b (spacing M.par)) T ∧
      r.i = numIter M.par.nsamples b (spacing M.par) ∧ r.cur = T (numIter M.par.nsamples b (spacing M.par)) ∧
      (∀ k < M.par.nsamples, b + k * spacing M.par + 1 ≤ numIter M.par.nsamples b (spacing M.par) ∧
        ∃ l, logpi M.F M.P M.par.mu (T (b + k * spacing M.par + 1)).X (T (b + k * spacing M.par + 1)).preds
        = .ok l ∧ rows k = mkRow M (T (b + k * spacing M.par + 1)).X (T (b + k * spacing M.par + 1)).preds l) ∧
      A0.applyAll r.ev = A0.ofRows M.par.nsamples rows ∧
      r.ev.filter Event.isWrite = (List.range M.par.nsamples).flatMap fun (k : ℕ) => rowEvents A0 k (rows k) := by
  obtain ⟨hr, -, hj⟩ := gen_returns M A0 step prog hprog c0 b hb fuel r h
  obtain ⟨hi, -, T, rows, hT, hcur, hrows, hle, hev⟩ := sinv_reach M A0 step prog hprog c0 b hb _ r hr
  rw [hj] at hrows hle hev
  refine ⟨T, rows, hT, hi, hcur, fun k hk => ⟨hle k hk, hrows k hk⟩, ?_, hev⟩
  rw [← applyAll_filter, hev, applyAll_rows, Arrays.overwrite_all A0 _ hA]

end

/-! ## Vectors -/

/-- A vector of draws, with imaginary parts if complex. -/
noncomputable def drawVec (R : Rng) (draw : R.σ → (k : ℕ) → (Fin k → ℝ) × R.σ) (cplx : Bool) (r : R.σ) (k : ℕ) :
    (Fin k → ℂ) × R.σ :=
  if cplx then (fun i => ((draw r k).1 i : ℂ) + ((draw (draw r k).2 k).1 i : ℂ) * Complex.I, (draw (draw r k).2 k).2)
  else (fun i => ((draw r k).1 i : ℂ), (draw r k).2)

theorem noise_eq (R : Rng) (draw : R.σ → (k : ℕ) → (Fin k → ℝ) × R.σ) (cplx : Bool) (r : R.σ) (k : ℕ) :
    noise R draw cplx r k = (List.ofFn (drawVec R draw cplx r k).1, (drawVec R draw cplx r k).2) := by
  unfold noise drawVec
  cases cplx <;> rfl

variable {n p : ℕ}

/-- The operators and the prior accept every vector (no exception), and act as the given functions. -/
structure Total (M : Sampler n) (p : ℕ) (fwd : (Fin p → ℂ) → (Fin n → ℂ)) (grad : (Fin n → ℂ) → (Fin p → ℂ))
    (prox : (Fin p → ℂ) → (Fin p → ℂ)) (pri : (Fin p → ℂ) → ℝ) : Prop where
  nparams : M.nparams = p
  forward : ActsAs M.F.forward fwd
  gradg : ActsAs M.F.calcGradg grad
  proxf : ActsAs M.P.proxf prox
  prior : ∀ x, M.P.prior (List.ofFn x) = .ok (pri x)
  lmda : M.par.lmda ≠ 0

/-- `∇ log π` as the samplers compute it. -/
noncomputable def gradVec (lmda : ℝ) (fwd : (Fin p → ℂ) → (Fin n → ℂ)) (grad : (Fin n → ℂ) → (Fin p → ℂ))
    (prox : (Fin p → ℂ) → (Fin p → ℂ)) (x : Fin p → ℂ) : Fin p → ℂ :=
  fun i => -((x i - prox x i) / (lmda : ℂ)) - grad (fwd x) i

theorem gradlogpi_vec (M : Sampler n) {fwd : (Fin p → ℂ) → (Fin n → ℂ)} {grad : (Fin n → ℂ) → (Fin p → ℂ)}
    {prox : (Fin p → ℂ) → (Fin p → ℂ)} {pri : (Fin p → ℂ) → ℝ} (h : Total M p fwd grad prox pri) (x : Fin p → ℂ) :
    gradlogpi M.F M.P M.par.lmda (List.ofFn x) none = .ok (List.ofFn (gradVec M.par.lmda fwd grad prox x)) := by
  unfold gradlogpi gradf
  rw [h.proxf x]
  simp only [bind, Except.bind]
  rw [npSub_ofFn]
  simp only [map_ofFn']
  rw [h.forward x]
  simp only
  rw [h.gradg]
  simp only
  rw [npSub_ofFn]
  rfl

/-- One MYULA update. -/
noncomputable def ulaStep (delta : ℝ) (G : (Fin p → ℂ) → (Fin p → ℂ)) (x w : Fin p → ℂ) : Fin p → ℂ :=
  fun i => x i + (delta : ℂ) * G x i + ((√(2 * delta) : ℝ) : ℂ) * w i

theorem chainStep_vec (M : Sampler n) (R : Rng) (delta : ℝ) (r : R.σ) (hp : M.nparams = p) (hl : M.par.lmda ≠ 0)
    (x px g : Fin p → ℂ) : chainStep M R delta r (List.ofFn x) (List.ofFn px) (List.ofFn g) =
      .ok (List.ofFn fun i => x i + (delta : ℂ) * (-((x i - px i) / (M.par.lmda : ℂ)) - g i)
        + ((√(2 * delta) : ℝ) : ℂ) * (drawVec R R.randn M.par.complex r p).1 i,
        (drawVec R R.randn M.par.complex r p).2) := by
  subst hp
  unfold chainStep
  rw [noise_eq]
  simp only [pyDiv, if_neg hl, bind, Except.bind, map_ofFn']
  rw [npAdd_ofFn]
  simp only
  rw [npSub_ofFn]
  simp only
  rw [npAdd_ofFn]
  simp only [Except.ok.injEq, Prod.mk.injEq, and_true]
  congr 1
  funext i
  have : (M.par.lmda : ℂ) ≠ 0 := by exact_mod_cast hl
  push_cast
  field_simp
  ring

theorem myulaStep_vec (M : Sampler n) (R : Rng) {fwd : (Fin p → ℂ) → (Fin n → ℂ)} {grad : (Fin n → ℂ) → (Fin p → ℂ)}
    {prox : (Fin p → ℂ) → (Fin p → ℂ)} {pri : (Fin p → ℂ) → ℝ} (h : Total M p fwd grad prox pri) (x : Fin p → ℂ)
    (r : R.σ) : myulaStep M R ⟨List.ofFn x, List.ofFn (fwd x), r⟩ =
      .ok ⟨List.ofFn (ulaStep M.par.delta (gradVec M.par.lmda fwd grad prox) x
          (drawVec R R.randn M.par.complex r p).1),
        List.ofFn (fwd (ulaStep M.par.delta (gradVec M.par.lmda fwd grad prox) x
          (drawVec R R.randn M.par.complex r p).1)), (drawVec R R.randn M.par.complex r p).2⟩ := by
  unfold myulaStep
  have h1 := h.gradg (fwd x)
  have h2 := h.proxf x
  simp only [h1, h2, bind, Except.bind]
  rw [chainStep_vec M R _ r h.nparams h.lmda]
  simp only
  have e : (fun i => x i + (M.par.delta : ℂ) * (-((x i - prox x i) / (M.par.lmda : ℂ)) - grad (fwd x) i)
        + ((√(2 * M.par.delta) : ℝ) : ℂ) * (drawVec R R.randn M.par.complex r p).1 i) =
      ulaStep M.par.delta (gradVec M.par.lmda fwd grad prox) x (drawVec R R.randn M.par.complex r p).1 := rfl
  rw [e, h.forward]

/-- Generator states after successive noise draws. -/
noncomputable def rngSeq (R : Rng) (cplx : Bool) (p : ℕ) (r : R.σ) : ℕ → R.σ
  | 0 => r
  | k + 1 => (drawVec R R.randn cplx (rngSeq R cplx p r k) p).2

/-- The `k`-th noise vector. -/
noncomputable def noiseSeq (R : Rng) (cplx : Bool) (p : ℕ) (r : R.σ) (k : ℕ) : Fin p → ℂ :=
  (drawVec R R.randn cplx (rngSeq R cplx p r k) p).1

/-- The sequence `x, f x w₀, …` of states driven by the noise `w`. -/
def iter (f : (Fin p → ℂ) → (Fin p → ℂ) → (Fin p → ℂ)) (w : ℕ → Fin p → ℂ) (x0 : Fin p → ℂ) : ℕ → Fin p → ℂ
  | 0 => x0
  | k + 1 => f (iter f w x0 k) (w k)

theorem logpi_total (M : Sampler n) {fwd : (Fin p → ℂ) → (Fin n → ℂ)} {grad : (Fin n → ℂ) → (Fin p → ℂ)}
    {prox : (Fin p → ℂ) → (Fin p → ℂ)} {pri : (Fin p → ℂ) → ℝ} (h : Total M p fwd grad prox pri) (x : Fin p → ℂ)
    (y : Fin n → ℂ) : ∃ l, logpi M.F M.P M.par.mu (List.ofFn x) (List.ofFn y) = .ok l ∧ l.2.2 = pri x ∧
      l.1 = ((-M.par.mu * pri x : ℝ) : ℂ) - l.2.1 :=
  ⟨_, logpi_ofFn M.F M.P M.par.mu _ y _ (h.prior x), rfl, rfl⟩

theorem mkRow_vec (M : Sampler n) (hp : M.nparams = p) (x : Fin p → ℂ) (y : Fin n → ℂ) (l : ℂ × ℂ × ℝ) :
    mkRow M (List.ofFn x) (List.ofFn y) l = ⟨l.1.re, l.2.1.re, l.2.2, List.ofFn fun i => store false (y i),
      List.ofFn fun i => store M.par.complex (x i)⟩ := by
  unfold mkRow
  simp [rowAssign, hp, List.ofFn_eq_map, List.map_map, Function.comp_def]

/-! ## SKROCK in vector form -/

theorem kRec_total (c : SkrockCoefs) (delta : ℝ) (G : (Fin p → ℂ) → (Fin p → ℂ)) (X Z : Fin p → ℂ) (s : ℕ) :
    ∃ r, kRec c delta (fun v => .ok (G v)) X Z s = .ok r := by
  induction s using Nat.strongRecOn with
  | ind s ih =>
    match s with
    | 0 => exact ⟨_, rfl⟩
    | 1 => exact ⟨_, rfl⟩
    | s + 2 =>
      obtain ⟨a, ha⟩ := ih (s + 1) (by omega)
      obtain ⟨d, hd⟩ := ih s (by omega)
      unfold kRec
      rw [ha, hd]
      exact ⟨_, rfl⟩

theorem asVec_ofFn (x : Fin p → ℂ) : asVec p (List.ofFn x) = .ok x := by
  unfold asVec
  rw [dif_pos List.length_ofFn]
  congr 1
  funext i
  simp

theorem skrockTransition_vec (M : Sampler n) (R : Rng) (co : SkrockCoefs) {fwd : (Fin p → ℂ) → (Fin n → ℂ)}
    {grad : (Fin n → ℂ) → (Fin p → ℂ)} {prox : (Fin p → ℂ) → (Fin p → ℂ)} {pri : (Fin p → ℂ) → ℝ}
    (h : Total M p fwd grad prox pri) (x : Fin p → ℂ) (P : List ℂ) (r : R.σ) :
    ∃ y, skrockStep co M.par.s M.par.delta (fun v => .ok (gradVec M.par.lmda fwd grad prox v)) x
        (drawVec R R.randn M.par.complex r p).1 = .ok y ∧
      skrockTransition M R co ⟨List.ofFn x, P, r⟩ =
        .ok ⟨List.ofFn y, List.ofFn (fwd y), (drawVec R R.randn M.par.complex r p).2⟩ := by
  obtain ⟨k, hk⟩ := kRec_total co M.par.delta (gradVec M.par.lmda fwd grad prox) x
    (drawVec R R.randn M.par.complex r p).1 M.par.s
  have hy : skrockStep co M.par.s M.par.delta (fun v => .ok (gradVec M.par.lmda fwd grad prox v)) x
        (drawVec R R.randn M.par.complex r p).1 = .ok k.1 := by
    unfold skrockStep
    rw [hk]
    rfl
  refine ⟨k.1, hy, ?_⟩
  have key : ∀ (q : ℕ) (hq : q = p), (do
      let x' ← asVec q (List.ofFn x)
      let z ← asVec q (noise R R.randn M.par.complex r q).1
      let y ← skrockStep co M.par.s M.par.delta
        (fun v => do
          let g ← gradlogpi M.F M.P M.par.lmda (List.ofFn v) none
          asVec q g) x' z
      let preds ← M.F.forward (List.ofFn y)
      (.ok ⟨List.ofFn y, preds, (noise R R.randn M.par.complex r q).2⟩ : Py (Cur R))) =
      .ok ⟨List.ofFn k.1, List.ofFn (fwd k.1), (drawVec R R.randn M.par.complex r p).2⟩ := by
    intro q hq
    subst hq
    have eg : (fun v : Fin q → ℂ => (do
          let g ← gradlogpi M.F M.P M.par.lmda (List.ofFn v) none
          asVec q g : Py (Fin q → ℂ))) = fun v => .ok (gradVec M.par.lmda fwd grad prox v) := by
      funext v
      rw [gradlogpi_vec M h v]
      exact asVec_ofFn _
    rw [eg, noise_eq]
    simp only [asVec_ofFn, bind, Except.bind, hy]
    rw [h.forward]
  exact key _ List.length_ofFn

end Pxmcmc
