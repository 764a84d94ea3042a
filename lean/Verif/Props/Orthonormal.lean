import Verif.Model.Orthonormal
import Verif.Props.Denoising
import Mathlib.Analysis.SpecialFunctions.Log.Basic

/-! # Property C151: for an orthonormal transform the analysis and the synthesis run agree -/

namespace Pxmcmc
variable {n p : ℕ}

/-- Two samplers for the same data, measurement, transform, threshold and parameters, one built in the synthesis and one in the analysis
setting, as `ForwardOperator`, `L1` and the sampler's constructor build them.  The transform's `inverse` is multiplication with a real
orthogonal matrix, `inverse_adjoint` with its transpose; the measurement is arbitrary. -/
structure TwoSettings (O : Matrix (Fin p) (Fin p) ℝ) (m : (Fin p → ℂ) → (Fin n → ℂ)) (a : (Fin n → ℂ) → (Fin p → ℂ)) (data : DataVec n)
    (sig : SigD) (tr me : OpPair) (T : Thresh) (par : Params) (Ms Ma : Sampler n) (As Aa : Arrays) : Prop where
  orth : O.transpose * O = 1
  inv : ActsAs tr.op (turnVec O)
  adj : ActsAs tr.adj (turnVec O.transpose)
  mop : ActsAs me.op m
  madj : ActsAs me.adj a
  thr : ∀ ts : List ℝ, T = .vector ts → ts.length = p
  lmda : par.lmda ≠ 0
  syn : ∃ F P, ForwardOp.init data sig "synthesis" (some tr) (some me) (some p) = .ok F ∧
    L1.init "synthesis" tr.op tr.adj T = .ok P ∧ samplerInit F P.toPrior par = .ok (Ms, As)
  ana : ∃ F P, ForwardOp.init data sig "analysis" (some tr) (some me) (some p) = .ok F ∧
    L1.init "analysis" tr.op tr.adj T = .ok P ∧ samplerInit F P.toPrior par = .ok (Ma, Aa)

/-! ## Multiplication with the matrix -/

theorem turnVec_add (O : Matrix (Fin p) (Fin p) ℝ) (x y : Fin p → ℂ) :
    turnVec O (fun i => x i + y i) = fun i => turnVec O x i + turnVec O y i := by
  funext i
  simp only [turnVec, mul_add, Finset.sum_add_distrib]

theorem turnVec_sub (O : Matrix (Fin p) (Fin p) ℝ) (x y : Fin p → ℂ) :
    turnVec O (fun i => x i - y i) = fun i => turnVec O x i - turnVec O y i := by
  funext i
  simp only [turnVec, mul_sub, Finset.sum_sub_distrib]

theorem turnVec_smul (O : Matrix (Fin p) (Fin p) ℝ) (c : ℂ) (x : Fin p → ℂ) :
    turnVec O (fun i => c * x i) = fun i => c * turnVec O x i := by
  funext i
  simp only [turnVec, Finset.mul_sum]
  exact Finset.sum_congr rfl fun j _ => by ring

theorem turnVec_turnVec (O Q : Matrix (Fin p) (Fin p) ℝ) (x : Fin p → ℂ) : turnVec O (turnVec Q x) = turnVec (O * Q) x := by
  funext i
  simp only [turnVec, Matrix.mul_apply, Finset.mul_sum]
  rw [Finset.sum_comm]
  refine Finset.sum_congr rfl fun j _ => ?_
  push_cast
  rw [Finset.sum_mul]
  exact Finset.sum_congr rfl fun k _ => by ring

theorem turnVec_one (x : Fin p → ℂ) : turnVec 1 x = x := by
  funext i
  simp only [turnVec, Matrix.one_apply]
  rw [Finset.sum_eq_single i]
  · simp
  · intro j _ hj
    simp [hj.symm]
  · simp

theorem turnVec_store (O : Matrix (Fin p) (Fin p) ℝ) (c : Bool) (x : Fin p → ℂ) (i : Fin p) :
    store c (turnVec O x i) = turnVec O (fun j => store c (x j)) i := by
  cases c
  · simp only [store, turnVec, Bool.false_eq_true, if_false]
    rw [Complex.re_sum]
    push_cast
    refine Finset.sum_congr rfl fun j _ => ?_
    rw [Complex.re_ofReal_mul]
    push_cast
    rfl
  · rfl

theorem turnList_ofFn (O : Matrix (Fin p) (Fin p) ℝ) (x : Fin p → ℂ) : turnList O (List.ofFn x) = List.ofFn (turnVec O x) := by
  unfold turnList
  congr 2
  funext j
  simp [List.getD_eq_getElem?_getD]

theorem turnDraw_eq (O : Matrix (Fin p) (Fin p) ℝ) {σ : Type} (draw : σ → (k : ℕ) → (Fin k → ℝ) × σ) (r : σ) :
    turnDraw O draw r p = (fun i => ∑ j, O i j * (draw r p).1 j, (draw r p).2) := by
  simp [turnDraw]

/-- The noise of the turned generator. -/
theorem drawVec_turned (O : Matrix (Fin p) (Fin p) ℝ) (R : Rng) (draw : R.σ → (k : ℕ) → (Fin k → ℝ) × R.σ) (c : Bool) (r : R.σ) :
    drawVec (R.turned O) (turnDraw O draw) c r p = (turnVec O (drawVec R draw c r p).1, (drawVec R draw c r p).2) := by
  unfold drawVec
  cases c
  · simp only [Bool.false_eq_true, if_false]
    erw [turnDraw_eq]
    congr 1
    funext i
    simp only [turnVec]
    push_cast
    rfl
  · simp only [if_true]
    erw [turnDraw_eq, turnDraw_eq]
    congr 1
    funext i
    simp only [turnVec]
    push_cast
    rw [Finset.sum_mul, ← Finset.sum_add_distrib]
    exact Finset.sum_congr rfl fun j _ => by ring

theorem rngSeq_turned (O : Matrix (Fin p) (Fin p) ℝ) (R : Rng) (c : Bool) (r : R.σ) (k : ℕ) :
    rngSeq (R.turned O) c p r k = rngSeq R c p r k := by
  induction k with
  | zero => rfl
  | succ k ih =>
    show (drawVec (R.turned O) (turnDraw O R.randn) c (rngSeq (R.turned O) c p r k) p).2 = (drawVec R R.randn c (rngSeq R c p r k) p).2
    rw [ih]
    erw [drawVec_turned O R R.randn c (rngSeq R c p r k)]

theorem noiseSeq_turned (O : Matrix (Fin p) (Fin p) ℝ) (R : Rng) (c : Bool) (r : R.σ) (k : ℕ) :
    noiseSeq (R.turned O) c p r k = turnVec O (noiseSeq R c p r k) := by
  unfold noiseSeq
  rw [rngSeq_turned]
  exact congrArg Prod.fst (drawVec_turned O R R.randn c (rngSeq R c p r k))

/-! ## The two problems in vector form -/

theorem soft_fits (T : Thresh) (h : ∀ ts : List ℝ, T = .vector ts → ts.length = p) :
    ∃ t : Fin p → ℝ, ∀ x : Fin p → ℂ, soft (List.ofFn x) T = .ok (List.ofFn fun i => softEntry (x i) (t i)) := by
  cases T with
  | scalar t => exact ⟨fun _ => t, fun x => soft_scalar x t⟩
  | vector ts =>
    obtain ⟨t, rfl⟩ := exists_ofFn ts (h ts rfl)
    refine ⟨t, fun x => ?_⟩
    unfold soft Thresh.arr
    rw [bcast_eq _ _ (by simp), zip_ofFn]
    simp only [bind, Except.bind, map_ofFn']

/-- The two problems, in vector form. -/
structure Pair (O : Matrix (Fin p) (Fin p) ℝ) (m : (Fin p → ℂ) → (Fin n → ℂ)) (par : Params) (Ms Ma : Sampler n) (As Aa : Arrays)
    (gs ga : (Fin n → ℂ) → (Fin p → ℂ)) (ps pa : (Fin p → ℂ) → (Fin p → ℂ)) : Prop where
  tots : Total Ms p (fun x => m (turnVec O x)) gs ps fun x => ∑ i, ‖x i‖
  tota : Total Ma p m ga pa fun x => ∑ i, ‖x i‖
  pars : Ms.par = par
  para : Ma.par = par
  data : Ma.F.data = Ms.F.data
  invcov : Ma.F.invcov = Ms.F.invcov
  arrs : As = initArrays Ms
  arra : Aa = initArrays Ma
  grad : ∀ y, ga y = turnVec O (gs y)
  prox : ∀ x, pa (turnVec O x) = turnVec O (ps x)

theorem TwoSettings.pair {O : Matrix (Fin p) (Fin p) ℝ} {m : (Fin p → ℂ) → (Fin n → ℂ)} {a : (Fin n → ℂ) → (Fin p → ℂ)}
    {data : DataVec n} {sig : SigD} {tr me : OpPair} {T : Thresh} {par : Params} {Ms Ma : Sampler n} {As Aa : Arrays}
    (H : TwoSettings O m a data sig tr me T par Ms Ma As Aa) :
    ∃ gs ga ps pa, Pair O m par Ms Ma As Aa gs ga ps pa ∧
      (∀ y, ga y = a (Ms.F.invcov.mulVec fun i => y i - data.vals i)) ∧
      (∀ y, gs y = turnVec O.transpose (a (Ms.F.invcov.mulVec fun i => y i - data.vals i))) ∧
      (∀ x, (T = .scalar 0) → ps x = x) := by
  obtain ⟨Fs, Ps, hFs, hPs, hMs⟩ := H.syn
  obtain ⟨Fa, Pa, hFa, hPa, hMa⟩ := H.ana
  obtain ⟨t, ht⟩ := soft_fits (p := p) T H.thr
  have hO : O * O.transpose = 1 := mul_eq_one_comm.mp H.orth
  unfold ForwardOp.init at hFs hFa
  cases hW : buildInvCov data sig with
  | error e => rw [hW] at hFs; cases hFs
  | ok W =>
  rw [hW] at hFs hFa
  have e1 : Setting.parse "synthesis" = some .synthesis := by decide
  have e2 : Setting.parse "analysis" = some .analysis := by decide
  simp only [bind, Except.bind, e1, e2] at hFs hFa
  unfold L1.init at hPs hPa
  simp only [e1, e2] at hPs hPa
  cases hFs; cases hFa; cases hPs; cases hPa
  unfold samplerInit at hMs hMa
  simp only at hMs hMa
  cases hMs; cases hMa
  have hg : ∀ (S : Setting) (y : Fin n → ℂ), ForwardOp.gradgAnalysis ⟨data, W, S, some tr, some me, some p⟩ (List.ofFn y) =
      .ok (List.ofFn (a (W.mulVec fun i => y i - data.vals i))) := by
    intro S y
    unfold ForwardOp.gradgAnalysis
    simp only [attr, bind, Except.bind]
    rw [npSub_ofFn]
    simp only
    rw [matDot_ofFn]
    simp only
    exact H.madj _
  refine ⟨fun y => turnVec O.transpose (a (W.mulVec fun i => y i - data.vals i)), fun y => a (W.mulVec fun i => y i - data.vals i),
    fun x i => softEntry (x i) (t i), fun x i => x i + turnVec O (fun i => softEntry (turnVec O.transpose x i) (t i) - turnVec O.transpose x i) i,
    ⟨⟨rfl, ?_, ?_, ?_, ?_, H.lmda⟩, ⟨rfl, ?_, ?_, ?_, ?_, H.lmda⟩, rfl, rfl, rfl, rfl, rfl, rfl, ?_, ?_⟩, fun y => rfl, fun y => rfl, ?_⟩
  · intro x
    simp only [ForwardOp.forward, ForwardOp.forwardSynthesis, attr, bind, Except.bind]
    rw [H.inv x]
    exact H.mop _
  · intro y
    simp only [ForwardOp.calcGradg, attr, bind, Except.bind]
    rw [hg]
    exact H.adj _
  · intro x
    exact ht x
  · intro x
    show Except.ok _ = _
    rw [L1.prior, norm_sum_ofFn]
  · intro x
    exact H.mop x
  · intro y
    exact hg _ y
  · intro x
    show L1.proxfAnalysis _ _ = _
    unfold L1.proxfAnalysis
    simp only [bind, Except.bind]
    rw [H.adj x]
    simp only
    rw [ht]
    simp only
    rw [npSub_ofFn]
    simp only
    rw [H.inv]
    simp only
    rw [npAdd_ofFn]
  · intro x
    show Except.ok _ = _
    rw [L1.prior, norm_sum_ofFn]
  · intro y
    rw [turnVec_turnVec, hO, turnVec_one]
  · intro x
    have e : turnVec O.transpose (turnVec O x) = x := by rw [turnVec_turnVec, H.orth, turnVec_one]
    rw [e, turnVec_sub]
    funext i
    ring
  · intro x hT
    have h1 := ht x
    rw [hT, soft_scalar] at h1
    have h2 := List.ofFn_injective (Except.ok.inj h1)
    show (fun i => softEntry (x i) (t i)) = x
    rw [← h2]
    funext i
    have h3 := (softEntry_residual (x := x i) (le_refl (0 : ℝ))).1
    exact (sub_eq_zero.mp (norm_le_zero_iff.mp h3)).symm

section
variable {O : Matrix (Fin p) (Fin p) ℝ} {m : (Fin p → ℂ) → (Fin n → ℂ)} {par : Params} {Ms Ma : Sampler n} {As Aa : Arrays}
  {gs ga : (Fin n → ℂ) → (Fin p → ℂ)} {ps pa : (Fin p → ℂ) → (Fin p → ℂ)}

theorem Pair.gradVec (Q : Pair O m par Ms Ma As Aa gs ga ps pa) (l : ℝ) (x : Fin p → ℂ) :
    Pxmcmc.gradVec l m ga pa (turnVec O x) = turnVec O (Pxmcmc.gradVec l (fun x => m (turnVec O x)) gs ps x) := by
  unfold Pxmcmc.gradVec
  rw [turnVec_sub, Q.grad, Q.prox]
  have e : (fun i => -((x i - ps x i) / (l : ℂ))) = fun i => (-(1 / (l : ℂ))) * (x i - ps x i) := by
    funext i
    ring
  rw [e, turnVec_smul, turnVec_sub]
  funext i
  ring

theorem ulaStep_turn (δ : ℝ) (G G' : (Fin p → ℂ) → (Fin p → ℂ)) (hG : ∀ x, G' (turnVec O x) = turnVec O (G x)) (x w : Fin p → ℂ) :
    ulaStep δ G' (turnVec O x) (turnVec O w) = turnVec O (ulaStep δ G x w) := by
  unfold ulaStep
  rw [turnVec_add O (fun i => x i + (δ : ℂ) * G x i), turnVec_add, turnVec_smul, turnVec_smul, hG]

theorem iter_turn (f f' : (Fin p → ℂ) → (Fin p → ℂ) → (Fin p → ℂ)) (hf : ∀ x w, f' (turnVec O x) (turnVec O w) = turnVec O (f x w))
    (w w' : ℕ → Fin p → ℂ) (hw : ∀ k, w' k = turnVec O (w k)) (x0 : Fin p → ℂ) (k : ℕ) :
    iter f' w' (turnVec O x0) k = turnVec O (iter f w x0 k) := by
  induction k with
  | zero => rfl
  | succ k ih => simp only [iter]; rw [ih, hw, hf]

/-- The recursion of SKROCK; from the second stage on it adds a constant to every entry. -/
theorem kRec_turn (co : SkrockCoefs) (δ : ℝ) (G G' : (Fin p → ℂ) → (Fin p → ℂ)) (hG : ∀ x, G' (turnVec O x) = turnVec O (G x))
    (x z : Fin p → ℂ) (s : ℕ) (hs : s ≤ 1 ∨ turnVec O (fun _ => 1) = fun _ => 1) :
    kRec co δ (fun v => .ok (G' v)) (turnVec O x) (turnVec O z) s =
      (kRec co δ (fun v => .ok (G v)) x z s).map fun w => (turnVec O w.1, w.2) := by
  induction s using Nat.strong_induction_on with
  | _ s ih =>
    match s, hs with
    | 0, _ => rfl
    | 1, _ =>
      simp only [kRec, bind, Except.bind, Except.map]
      congr 2
      have key : (fun i => turnVec O x i + ((co.mus.getD 1 0 * δ : ℝ) : ℂ) *
          G' (fun i => turnVec O x i + ((co.nus.getD 1 0 * √(2 * δ) : ℝ) : ℂ) * turnVec O z i) i +
          ((co.ks.getD 1 0 * √(2 * δ) : ℝ) : ℂ) * turnVec O z i) = turnVec O fun i => x i + ((co.mus.getD 1 0 * δ : ℝ) : ℂ) *
          G (fun i => x i + ((co.nus.getD 1 0 * √(2 * δ) : ℝ) : ℂ) * z i) i + ((co.ks.getD 1 0 * √(2 * δ) : ℝ) : ℂ) * z i := by
        rw [turnVec_add O (fun i => x i + ((co.mus.getD 1 0 * δ : ℝ) : ℂ) *
          G (fun i => x i + ((co.nus.getD 1 0 * √(2 * δ) : ℝ) : ℂ) * z i) i), turnVec_add, turnVec_smul, turnVec_smul, ← hG,
          turnVec_add, turnVec_smul]
      exact key
    | s + 2, hs =>
      have h1 : turnVec O (fun _ => 1) = fun _ => 1 := hs.resolve_left (by omega)
      simp only [kRec]
      rw [ih (s + 1) (by omega) (Or.inr h1), ih s (by omega) (Or.inr h1)]
      obtain ⟨a, ha⟩ := kRec_total co δ G x z (s + 1)
      obtain ⟨b, hb⟩ := kRec_total co δ G x z s
      rw [ha, hb]
      simp only [Except.map, bind, Except.bind]
      congr 2
      have e : (fun i => ((co.mus.getD (s + 2) 0 * δ : ℝ) : ℂ) * G a.1 i + ((co.nus.getD (s + 2) 0 : ℝ) : ℂ) * a.1 i
          + ((co.ks.getD (s + 2) 0 : ℝ) : ℂ) - b.1 i) = fun i => (((co.mus.getD (s + 2) 0 * δ : ℝ) : ℂ) * G a.1 i +
            ((co.nus.getD (s + 2) 0 : ℝ) : ℂ) * a.1 i + ((co.ks.getD (s + 2) 0 : ℝ) : ℂ) * (fun _ : Fin p => (1 : ℂ)) i) - b.1 i := by
        funext i
        simp
      erw [e]
      rw [turnVec_sub, turnVec_add O (fun i => ((co.mus.getD (s + 2) 0 * δ : ℝ) : ℂ) * G a.1 i +
            ((co.nus.getD (s + 2) 0 : ℝ) : ℂ) * a.1 i), turnVec_add, turnVec_smul, turnVec_smul, turnVec_smul, h1, hG]
      funext i
      simp

/-- The rows of the two runs. -/
theorem Pair.images (Q : Pair O m par Ms Ma As Aa gs ga ps pa) (T T' : ℕ → Fin p → ℂ) (hT : ∀ k, T' k = turnVec O (T k)) :
    SameImages O (As.ofRows par.nsamples fun k => rowOf Ms (fun x => m (turnVec O x)) (fun x => ∑ i, ‖x i‖) (T k))
      (Aa.ofRows par.nsamples fun k => rowOf Ma m (fun x => ∑ i, ‖x i‖) (T' k)) := by
  constructor
  · simp only [Arrays.ofRows, Q.arrs, Q.arra, initArrays, Q.pars, Q.para]
    by_cases h : "chain" ∈ par.track
    · simp only [h, if_true, Option.map_some, List.map_map, Function.comp_def, rowOf, hT, turnList_ofFn, Q.pars, Q.para, turnVec_store]
    · simp [h]
  · simp only [Arrays.ofRows, Q.arrs, Q.arra, initArrays, Q.pars, Q.para]
    by_cases h : "predictions" ∈ par.track
    · simp only [h, if_true, Option.map_some, rowOf, hT]
    · simp [h]
  · simp only [Arrays.ofRows, Q.arrs, Q.arra, initArrays, Q.pars, Q.para]
    by_cases h : "L2" ∈ par.track
    · simp only [h, if_true, Option.map_some, rowOf, hT, Q.data, Q.invcov]
    · simp [h]

theorem canPrint (M : Sampler n) (hv : M.par.verbosity ≤ 0 ∨ ("logposterior" ∈ M.par.track ∧ "L2" ∈ M.par.track ∧ "prior" ∈ M.par.track)) :
    CanPrint M (initArrays M) := by
  refine hv.imp_right ?_
  rintro ⟨h1, h2, h3⟩
  simp [initArrays, h1, h2, h3]

/-- A given start. -/
theorem Pair.start_array (Q : Pair O m par Ms Ma As Aa gs ga ps pa) (R : Rng) (r : R.σ) (x : Fin p → ℂ) :
    initialSample Ms R r (.array1 (List.ofFn x)) = .ok (List.ofFn x, List.ofFn (m (turnVec O x)), r) ∧
      initialSample Ma (R.turned O) r (StartPoint.turned O (.array1 (List.ofFn x))) =
        .ok (List.ofFn (turnVec O x), List.ofFn (m (turnVec O x)), r) := by
  constructor
  · unfold initialSample startVector
    simp only [bind, Except.bind]
    rw [if_pos (by simpa using Q.tots.nparams.symm)]
    simp only
    rw [Q.tots.forward]
  · unfold initialSample startVector
    simp only [bind, Except.bind, StartPoint.turned]
    rw [turnList_ofFn, if_pos (by simpa using Q.tota.nparams.symm)]
    simp only
    rw [Q.tota.forward]

/-- The start vectors. -/
theorem Pair.start (Q : Pair O m par Ms Ma As Aa gs ga ps pa) (R : Rng) (r : R.σ) (sp : StartPoint)
    (hsp : sp = .none ∨ ∃ v : List ℂ, sp = .array1 v ∧ v.length = p) :
    ∃ x0 r1, initialSample Ms R r sp = .ok (List.ofFn x0, List.ofFn (m (turnVec O x0)), r1) ∧
      initialSample Ma (R.turned O) r (sp.turned O) = .ok (List.ofFn (turnVec O x0), List.ofFn (m (turnVec O x0)), r1) := by
  rcases hsp with rfl | ⟨v, rfl, hv⟩
  · refine ⟨(drawVec R R.laplace par.complex r p).1, (drawVec R R.laplace par.complex r p).2, ?_, ?_⟩
    · unfold initialSample startVector
      simp only [bind, Except.bind]
      rw [Q.tots.nparams, Q.pars, noise_eq]
      simp only
      rw [Q.tots.forward]
    · unfold initialSample startVector
      simp only [bind, Except.bind, StartPoint.turned]
      rw [Q.tota.nparams, Q.para]
      have e : noise (R.turned O) (R.turned O).laplace par.complex r p =
          (List.ofFn (turnVec O (drawVec R R.laplace par.complex r p).1), (drawVec R R.laplace par.complex r p).2) :=
        (noise_eq (R.turned O) (R.turned O).laplace par.complex r p).trans
          (congrArg (fun w : (Fin p → ℂ) × R.σ => (List.ofFn w.1, w.2)) (drawVec_turned O R R.laplace par.complex r))
      erw [e]
      simp only
      rw [Q.tota.forward]
  · obtain ⟨x, rfl⟩ := exists_ofFn v hv
    exact ⟨x, r, Q.start_array R r x⟩

end

/-! ## C151 -/

section
variable {O : Matrix (Fin p) (Fin p) ℝ} {m : (Fin p → ℂ) → (Fin n → ℂ)} {a : (Fin n → ℂ) → (Fin p → ℂ)} {data : DataVec n} {sig : SigD}
  {tr me : OpPair} {T : Thresh} {par : Params} {Ms Ma : Sampler n} {As Aa : Arrays}

/-- C151 (the part that holds, MYULA): for an orthonormal transform, any measurement, any data errors, threshold and parameters, the
synthesis run and the analysis run started from the same image and driven by the same noise return after the same number of iterations;
the recorded analysis samples are the images of the recorded synthesis samples, and predictions and misfits are equal.  Missing: priors
and log-posteriors (`C151_prior_refuted`). -/
theorem C151_myula_partial (H : TwoSettings O m a data sig tr me T par Ms Ma As Aa) (b g : ℕ) (hb : par.nburn = b) (hg : par.ngap = g)
    (hv : par.verbosity ≤ 0 ∨ ("logposterior" ∈ par.track ∧ "L2" ∈ par.track ∧ "prior" ∈ par.track)) (R : Rng) (r : R.σ) (sp : StartPoint)
    (hsp : sp = .none ∨ ∃ v : List ℂ, sp = .array1 v ∧ v.length = p) :
    ∃ (N : ℕ) (st : St R) (st' : St (R.turned O)),
      (∀ fuel < N, myulaRun Ms R As r sp fuel = .ok none ∧ myulaRun Ma (R.turned O) Aa r (sp.turned O) fuel = .ok none) ∧
      (∀ fuel ≥ N, myulaRun Ms R As r sp fuel = .ok (some st) ∧ myulaRun Ma (R.turned O) Aa r (sp.turned O) fuel = .ok (some st')) ∧
      SameImages O (As.applyAll st.ev) (Aa.applyAll st'.ev) := by
  obtain ⟨gs, ga, ps, pa, Q, -, -, -⟩ := H.pair
  obtain ⟨x0, r1, h1, h2⟩ := Q.start R r sp hsp
  have hP := Q.pars
  have hP' := Q.para
  have hA := Q.arrs
  have hA' := Q.arra
  subst hA hA'
  obtain ⟨hs1, st, hs2, -, hs4⟩ := C41_schedule Ms R (initArrays Ms) (initArrays_shaped Ms) (canPrint Ms (by rw [hP]; exact hv)) b g
    (by rw [hP]; exact hb) (by rw [hP]; exact hg) Q.tots _ (fun x => gradlogpi_vec Ms Q.tots x) r r1 sp x0 h1 _ rfl
  obtain ⟨ha1, st', ha2, -, ha4⟩ := C41_schedule Ma (R.turned O) (initArrays Ma) (initArrays_shaped Ma) (canPrint Ma (by rw [hP']; exact hv)) b g
    (by rw [hP']; exact hb) (by rw [hP']; exact hg) Q.tota _ (fun x => gradlogpi_vec Ma Q.tota x) r r1 (sp.turned O) _ h2 _ rfl
  rw [hP'] at ha1 ha2
  rw [hP] at hs1 hs2
  refine ⟨_, st, st', fun fuel hf => ⟨hs1 fuel hf, ha1 fuel hf⟩, fun fuel hf => ⟨hs2 fuel hf, ha2 fuel hf⟩, ?_⟩
  rw [hs4, ha4, hP, hP']
  exact Q.images _ _ fun k => iter_turn _ _ (ulaStep_turn _ _ _ (Q.gradVec _)) _ _ (noiseSeq_turned O R _ _) _ _

/-- C151 (the part that holds, SKROCK): the same for one stage, and for any number of stages if the constant image has constant
coefficients of the same value.  Missing: other transforms with two or more stages (`C151_skrock_refuted`). -/
theorem C151_skrock_partial (H : TwoSettings O m a data sig tr me T par Ms Ma As Aa) (b g : ℕ) (hb : par.nburn = b) (hg : par.ngap = g)
    (hs : par.s = 1 ∨ (1 ≤ par.s ∧ turnVec O (fun _ => 1) = fun _ => 1))
    (hv : par.verbosity ≤ 0 ∨ ("logposterior" ∈ par.track ∧ "L2" ∈ par.track ∧ "prior" ∈ par.track)) (R : Rng) (r : R.σ) (sp : StartPoint)
    (hsp : sp = .none ∨ ∃ v : List ℂ, sp = .array1 v ∧ v.length = p) :
    ∃ (N : ℕ) (st : St R) (st' : St (R.turned O)),
      (∀ fuel < N, skrockRun Ms R As r sp fuel = .ok none ∧ skrockRun Ma (R.turned O) Aa r (sp.turned O) fuel = .ok none) ∧
      (∀ fuel ≥ N, skrockRun Ms R As r sp fuel = .ok (some st) ∧ skrockRun Ma (R.turned O) Aa r (sp.turned O) fuel = .ok (some st')) ∧
      SameImages O (As.applyAll st.ev) (Aa.applyAll st'.ev) := by
  obtain ⟨gs, ga, ps, pa, Q, -, -, -⟩ := H.pair
  obtain ⟨x0, r1, h1, h2⟩ := Q.start R r sp hsp
  have hP := Q.pars
  have hP' := Q.para
  have hA := Q.arrs
  have hA' := Q.arra
  subst hA hA'
  have hs1 : 1 ≤ par.s := by rcases hs with h | h <;> omega
  obtain ⟨co, f, hco, hf, hs1, st, hs2, -, hs4⟩ := C42_schedule Ms R (initArrays Ms) (initArrays_shaped Ms) (canPrint Ms (by rw [hP]; exact hv))
    (by rw [hP]; exact hs1) b g
    (by rw [hP]; exact hb) (by rw [hP]; exact hg) Q.tots _ (fun x => gradlogpi_vec Ms Q.tots x) r r1 sp x0 h1 _ rfl
  obtain ⟨co', f', hco', hf', ha1, st', ha2, -, ha4⟩ := C42_schedule Ma (R.turned O) (initArrays Ma) (initArrays_shaped Ma)
    (canPrint Ma (by rw [hP']; exact hv)) (by rw [hP']; assumption) b g
    (by rw [hP']; exact hb) (by rw [hP']; exact hg) Q.tota _ (fun x => gradlogpi_vec Ma Q.tota x) r r1 (sp.turned O) _ h2 _ rfl
  rw [hP'] at ha1 ha2 hco' hf'
  rw [hP] at hs1 hs2 hco hf
  obtain rfl : co = co' := Except.ok.inj (hco.symm.trans hco')
  refine ⟨_, st, st', fun fuel hf => ⟨hs1 fuel hf, ha1 fuel hf⟩, fun fuel hf => ⟨hs2 fuel hf, ha2 fuel hf⟩, ?_⟩
  rw [hs4, ha4, hP, hP']
  refine Q.images _ _ fun k => iter_turn _ _ (fun x w => ?_) _ _ (noiseSeq_turned O R _ _) _ _
  have e := hf' (turnVec O x) (turnVec O w)
  unfold skrockStep at e
  rw [kRec_turn co par.delta _ _ (Q.gradVec par.lmda) x w par.s (hs.imp (fun h => h.le) fun h => h.2)] at e
  have e2 := hf x w
  unfold skrockStep at e2
  obtain ⟨k, hk⟩ := kRec_total co par.delta (gradVec par.lmda (fun x => m (turnVec O x)) gs ps) x w par.s
  rw [hk] at e e2
  simp only [Except.map, bind, Except.bind] at e e2
  rw [← Except.ok.inj e, ← Except.ok.inj e2]

end

/-! ## Concrete problems -/

/-- A problem with any real orthogonal matrix, any measurement matrix and real data can be built in both settings. -/
theorem twoSettings_exists (O : Matrix (Fin p) (Fin p) ℝ) (hO : O.transpose * O = 1) (B : Matrix (Fin n) (Fin p) ℂ) (d : Fin n → ℂ) (T : Thresh)
    (hT : ∀ ts : List ℝ, T = .vector ts → ts.length = p) (par : Params) (hl : par.lmda ≠ 0) :
    ∃ tr me Ms Ma As Aa, TwoSettings O B.mulVec B.conjTranspose.mulVec ⟨false, d⟩ (.num 1 false) tr me T par Ms Ma As Aa ∧
      Ms.F.data.vals = d := by
  have hW : buildInvCov (⟨false, d⟩ : DataVec n) (.num 1 false) = .ok (Matrix.diagonal fun _ => 1 / (1 : ℂ) ^ 2) := by
    simp [buildInvCov, complexVar]
  obtain ⟨tr, htr, htr'⟩ : ∃ tr : OpPair, ActsAs tr.op (turnVec O) ∧ ActsAs tr.adj (turnVec O.transpose) :=
    ⟨⟨fun X => .ok (turnList O X), fun X => .ok (turnList O.transpose X)⟩, fun x => congrArg Except.ok (turnList_ofFn _ x),
      fun x => congrArg Except.ok (turnList_ofFn _ x)⟩
  obtain ⟨me, hme, hme'⟩ : ∃ me : OpPair, ActsAs me.op B.mulVec ∧ ActsAs me.adj B.conjTranspose.mulVec :=
    ⟨⟨fun X => matDot B X, fun Y => matDot B.conjTranspose Y⟩, fun x => matDot_ofFn B x, fun x => matDot_ofFn _ x⟩
  have hF : ∀ (s : String) (S : Setting), Setting.parse s = some S → ForwardOp.init (⟨false, d⟩ : DataVec n) (.num 1 false) s (some tr) (some me)
      (some p) = .ok ⟨⟨false, d⟩, Matrix.diagonal fun _ => 1 / (1 : ℂ) ^ 2, S, some tr, some me, some p⟩ := by
    intro s S hS
    unfold ForwardOp.init
    rw [hW, hS]
    rfl
  exact ⟨tr, me, _, _, _, _, ⟨hO, htr, htr', hme, hme', hT, hl,
    ⟨_, ⟨.synthesis, tr.op, tr.adj, T⟩, hF "synthesis" .synthesis (by decide), rfl, rfl⟩,
    ⟨_, ⟨.analysis, tr.op, tr.adj, T⟩, hF "analysis" .analysis (by decide), rfl, rfl⟩⟩, rfl⟩

/-- A rotation of the plane. -/
noncomputable def turn34 : Matrix (Fin 2) (Fin 2) ℝ := !![3 / 5, -4 / 5; 4 / 5, 3 / 5]

theorem turn34_orth : turn34.transpose * turn34 = 1 := by
  ext i j
  fin_cases i <;> fin_cases j <;> simp [turn34, Matrix.mul_apply, Fin.sum_univ_two] <;> norm_num

theorem turn34_vec (x y : ℂ) : turnVec turn34 ![x, y] = ![3 / 5 * x - 4 / 5 * y, 4 / 5 * x + 3 / 5 * y] := by
  funext i
  fin_cases i
  · simp [turnVec, turn34, Fin.sum_univ_two]
    ring
  · simp [turnVec, turn34, Fin.sum_univ_two]

/-- The hypotheses of `C151_myula_partial` are met: a rotation, a measurement of the sum of two pixels, two thresholds, noise 1 and the
start `(2, -1)`. -/
example : ∃ tr me Ms Ma As Aa, TwoSettings (n := 1) turn34 (Matrix.mulVec !![1, 1]) (Matrix.mulVec (!![1, 1] : Matrix (Fin 1) (Fin 2) ℂ).conjTranspose)
    ⟨false, ![3]⟩ (.num 1 false) tr me (.vector [1, 2]) ⟨1, 1 / 2, 1, 1, 4, 3, 2, false, 0, ["chain", "L2"]⟩ Ms Ma As Aa := by
  obtain ⟨tr, me, Ms, Ma, As, Aa, H, -⟩ := twoSettings_exists turn34 turn34_orth !![1, 1] ![3] (.vector [1, 2])
    (by intro ts h; cases h; rfl) ⟨1, 1 / 2, 1, 1, 4, 3, 2, false, 0, ["chain", "L2"]⟩ one_ne_zero
  exact ⟨tr, me, Ms, Ma, As, Aa, H⟩

/-- The second hypothesis of `C151_skrock_partial` is met by the exchange of two coefficients. -/
example : (!![0, 1; 1, 0] : Matrix (Fin 2) (Fin 2) ℝ).transpose * !![0, 1; 1, 0] = 1 ∧
    turnVec (!![0, 1; 1, 0] : Matrix (Fin 2) (Fin 2) ℝ) (fun _ => 1) = fun _ => 1 := by
  constructor
  · ext i j
    fin_cases i <;> fin_cases j <;> simp [Matrix.mul_apply, Fin.sum_univ_two]
  · funext i
    fin_cases i <;> simp [turnVec, Fin.sum_univ_two]

/-- A problem in which nothing is measured and nothing is thresholded: the gradient vanishes in both settings. -/
theorem flat_exists (par : Params) (hl : par.lmda ≠ 0) :
    ∃ (m : (Fin 2 → ℂ) → (Fin 1 → ℂ)) (a : (Fin 1 → ℂ) → (Fin 2 → ℂ)) (data : DataVec 1) (sig : SigD) (tr me : OpPair) (T : Thresh)
      (Ms Ma : Sampler 1) (As Aa : Arrays) (gs ga : (Fin 1 → ℂ) → (Fin 2 → ℂ)) (ps pa : (Fin 2 → ℂ) → (Fin 2 → ℂ)),
      TwoSettings turn34 m a data sig tr me T par Ms Ma As Aa ∧ Pair turn34 m par Ms Ma As Aa gs ga ps pa ∧ (∀ x, m x = fun _ => 0) ∧
      (∀ x, gradVec par.lmda (fun x => m (turnVec turn34 x)) gs ps x = fun _ => 0) ∧ (∀ x, gradVec par.lmda m ga pa x = fun _ => 0) ∧
      Ms.F.data.vals = (fun _ => 0) ∧ Ma.F.data.vals = (fun _ => 0) := by
  obtain ⟨tr, me, Ms, Ma, As, Aa, H, hd⟩ := twoSettings_exists turn34 turn34_orth (0 : Matrix (Fin 1) (Fin 2) ℂ) (fun _ => 0) (.scalar 0)
    (by intro ts h; cases h) par hl
  obtain ⟨gs, ga, ps, pa, Q, hga, hgs, hps⟩ := H.pair
  have e0 : turnVec turn34 (fun _ => 0) = fun _ => 0 := by
    funext i
    simp [turnVec]
  have e0' : turnVec turn34.transpose (fun _ => 0) = fun _ => 0 := by
    funext i
    simp [turnVec]
  have hz : ∀ y : Fin 1 → ℂ, (0 : Matrix (Fin 1) (Fin 2) ℂ).conjTranspose.mulVec y = fun _ => 0 := by
    intro y
    rw [Matrix.conjTranspose_zero, Matrix.zero_mulVec]
    rfl
  have hG : ∀ x, gradVec par.lmda (fun x => (0 : Matrix (Fin 1) (Fin 2) ℂ).mulVec (turnVec turn34 x)) gs ps x = fun _ => 0 := by
    intro x
    unfold gradVec
    rw [hps x rfl, hgs, hz, e0']
    funext i
    simp
  refine ⟨_, _, _, _, tr, me, _, Ms, Ma, As, Aa, gs, ga, ps, pa, H, Q, fun x => by rw [Matrix.zero_mulVec]; rfl, hG, fun x => ?_, hd,
    by rw [Q.data]; exact hd⟩
  have hO : turn34 * turn34.transpose = 1 := mul_eq_one_comm.mp turn34_orth
  have ex : x = turnVec turn34 (turnVec turn34.transpose x) := by rw [turnVec_turnVec, hO, turnVec_one]
  rw [ex, Q.gradVec, hG, e0]

theorem iter_flat (δ : ℝ) (G : (Fin p → ℂ) → (Fin p → ℂ)) (hG : ∀ x, G x = fun _ => 0) (w : ℕ → Fin p → ℂ) (hw : ∀ k, w k = fun _ => 0)
    (x0 : Fin p → ℂ) (k : ℕ) : iter (ulaStep δ G) w x0 k = x0 := by
  induction k with
  | zero => rfl
  | succ k ih =>
    simp only [iter]
    rw [ih, hw]
    unfold ulaStep
    rw [hG]
    funext i
    simp

theorem noiseSeq_zero (u : ℝ) (k : ℕ) : noiseSeq (constRng 0 u) false p () k = fun _ => 0 := by
  unfold noiseSeq drawVec
  simp [constRng]

theorem noiseSeq_turned_zero (u : ℝ) (k : ℕ) : noiseSeq ((constRng 0 u).turned turn34) false 2 () k = fun _ => 0 := by
  refine (noiseSeq_turned turn34 (constRng 0 u) false () k).trans ?_
  erw [noiseSeq_zero]
  funext i
  simp [turnVec]

/-- C151 is violated for the recorded priors and log-posteriors: the synthesis run records `‖c‖₁`, the analysis run the l1 norm of the
image instead of that of its coefficients (prior.py:35). -/
theorem C151_prior_refuted : ¬ ∀ (O : Matrix (Fin 2) (Fin 2) ℝ) (m : (Fin 2 → ℂ) → (Fin 1 → ℂ)) (a : (Fin 1 → ℂ) → (Fin 2 → ℂ)) (data : DataVec 1)
    (sig : SigD) (tr me : OpPair) (T : Thresh) (par : Params) (Ms Ma : Sampler 1) (As Aa : Arrays),
    TwoSettings O m a data sig tr me T par Ms Ma As Aa → ∀ (R : Rng) (r : R.σ) (sp : StartPoint) (fuel : ℕ) (st : St R) (st' : St (R.turned O)),
    myulaRun Ms R As r sp fuel = .ok (some st) → myulaRun Ma (R.turned O) Aa r (sp.turned O) fuel = .ok (some st') →
    (Aa.applyAll st'.ev).priors = (As.applyAll st.ev).priors ∨ (Aa.applyAll st'.ev).logPi = (As.applyAll st.ev).logPi := by
  intro K
  obtain ⟨m, a, data, sig, tr, me, T, Ms, Ma, As, Aa, gs, ga, ps, pa, H, Q, hm, hGs, hGa, hd, hd'⟩ :=
    flat_exists ⟨1, 1, 1, 1, 1, 0, 1, false, 0, ["prior", "logposterior"]⟩ one_ne_zero
  obtain ⟨h1, h2⟩ := Q.start_array (constRng 0 0) () ![1, 0]
  have hP := Q.pars
  have hP' := Q.para
  have hA := Q.arrs
  have hA' := Q.arra
  subst hA hA'
  obtain ⟨-, st, hs2, -, hs4⟩ := C41_schedule Ms (constRng 0 0) (initArrays Ms) (initArrays_shaped Ms) (.inl (by rw [hP])) 0 1
    (by rw [hP]; rfl) (by rw [hP]; rfl) Q.tots _ (fun x => gradlogpi_vec Ms Q.tots x) () () _ _ h1 _ rfl
  obtain ⟨-, st', ha2, -, ha4⟩ := C41_schedule Ma ((constRng 0 0).turned turn34) (initArrays Ma) (initArrays_shaped Ma) (.inl (by rw [hP'])) 0 1
    (by rw [hP']; rfl) (by rw [hP']; rfl) Q.tota _ (fun x => gradlogpi_vec Ma Q.tota x) () () _ _ h2 _ rfl
  have e := K turn34 m a data sig tr me T _ Ms Ma _ _ H (constRng 0 0) () (.array1 (List.ofFn ![1, 0])) 1 st st'
    (hs2 1 (by rw [hP]; simp)) (ha2 1 (by rw [hP']; simp))
  rw [hs4, ha4] at e
  have i1 : ∀ k, iter (ulaStep 1 (gradVec 1 (fun x => m (turnVec turn34 x)) gs ps)) (noiseSeq (constRng 0 0) false 2 ()) ![1, 0] k = ![1, 0] :=
    iter_flat _ _ hGs _ (noiseSeq_zero 0) _
  have i2 : ∀ k, iter (ulaStep 1 (gradVec 1 m ga pa)) (noiseSeq ((constRng 0 0).turned turn34) false 2 ()) (turnVec turn34 ![1, 0]) k = turnVec turn34 ![1, 0] :=
    iter_flat _ _ hGa _ (noiseSeq_turned_zero 0) _
  have v := turn34_vec 1 0
  have n1 : ∑ i, ‖turnVec turn34 ![1, 0] i‖ = (7 / 5 : ℝ) := by
    rw [v]
    simp [Fin.sum_univ_two]
    norm_num
  have n2 : ∑ i, ‖(![1, 0] : Fin 2 → ℂ) i‖ = (1 : ℝ) := by simp [Fin.sum_univ_two]
  rw [hP, hP'] at e
  simp only [i1, i2] at e
  simp only [Arrays.ofRows, initArrays, hP, hP', rowOf, n1, n2, hm, hd, hd'] at e
  simp [Spec.inner] at e
  norm_num at e

theorem ks_two (co : SkrockCoefs) (hco : skrockInit ((2 : ℕ) : ℤ) = .ok co) : co.ks.getD 2 0 = 1 := by
  unfold skrockInit at hco
  obtain ⟨q, -, hco⟩ := bind_ok hco
  obtain ⟨u, -, hco⟩ := bind_ok hco
  obtain ⟨v, -, hco⟩ := bind_ok hco
  obtain ⟨w, -, hco⟩ := bind_ok hco
  unfold recursionCoefs at hco
  obtain ⟨m1, -, hco⟩ := bind_ok hco
  obtain ⟨k1, -, hco⟩ := bind_ok hco
  obtain ⟨rs, hrs, hco⟩ := bind_ok hco
  have e : (((2 : ℕ) : ℤ).toNat - 1) = 1 := rfl
  rw [e] at hrs
  simp only [List.range_one, List.mapM_cons, List.mapM_nil] at hrs
  obtain ⟨x, -, hrs⟩ := bind_ok hrs
  rw [← Except.ok.inj hco, ← Except.ok.inj hrs]
  simp

/-- C151 is violated by SKROCK with two stages: the recursion adds a constant to every entry (mcmc.py:366), of the coefficients in one setting
and of the pixels in the other. -/
theorem C151_skrock_refuted : ¬ ∀ (O : Matrix (Fin 2) (Fin 2) ℝ) (m : (Fin 2 → ℂ) → (Fin 1 → ℂ)) (a : (Fin 1 → ℂ) → (Fin 2 → ℂ)) (data : DataVec 1)
    (sig : SigD) (tr me : OpPair) (T : Thresh) (par : Params) (Ms Ma : Sampler 1) (As Aa : Arrays),
    TwoSettings O m a data sig tr me T par Ms Ma As Aa → ∀ (R : Rng) (r : R.σ) (sp : StartPoint) (fuel : ℕ) (st : St R) (st' : St (R.turned O)),
    skrockRun Ms R As r sp fuel = .ok (some st) → skrockRun Ma (R.turned O) Aa r (sp.turned O) fuel = .ok (some st') →
    (Aa.applyAll st'.ev).chain = (As.applyAll st.ev).chain.map fun l => l.map (turnList O) := by
  intro K
  obtain ⟨m, a, data, sig, tr, me, T, Ms, Ma, As, Aa, gs, ga, ps, pa, H, Q, hm, hGs, hGa, hd, hd'⟩ :=
    flat_exists ⟨1, 1, 1, 2, 1, 0, 1, false, 0, ["chain"]⟩ one_ne_zero
  obtain ⟨h1, h2⟩ := Q.start_array (constRng 0 0) () (fun _ => 0)
  have e0 : turnVec turn34 (fun _ => 0) = fun _ => 0 := by
    funext i
    simp [turnVec]
  have hP := Q.pars
  have hP' := Q.para
  have hA := Q.arrs
  have hA' := Q.arra
  subst hA hA'
  obtain ⟨co, f, hco, hf, -, st, hs2, -, hs4⟩ := C42_schedule Ms (constRng 0 0) (initArrays Ms) (initArrays_shaped Ms) (.inl (by rw [hP]))
    (by rw [hP]; decide) 0 1 (by rw [hP]; rfl) (by rw [hP]; rfl) Q.tots _ (fun x => gradlogpi_vec Ms Q.tots x) () () _ _ h1 _ rfl
  obtain ⟨co', f', hco', hf', -, st', ha2, -, ha4⟩ := C42_schedule Ma ((constRng 0 0).turned turn34) (initArrays Ma) (initArrays_shaped Ma)
    (.inl (by rw [hP'])) (by rw [hP']; decide) 0 1
    (by rw [hP']; rfl) (by rw [hP']; rfl) Q.tota _ (fun x => gradlogpi_vec Ma Q.tota x) () () _ _ h2 _ rfl
  have e := K turn34 m a data sig tr me T _ Ms Ma _ _ H (constRng 0 0) () (.array1 (List.ofFn fun _ => 0)) 1 st st'
    (hs2 1 (by rw [hP]; simp)) (ha2 1 (by rw [hP']; simp))
  rw [hP] at hco hf
  rw [hP'] at hco' hf'
  obtain rfl : co = co' := Except.ok.inj (hco.symm.trans hco')
  have hk : co.ks.getD 2 0 = 1 := ks_two co hco
  have key : ∀ (G : (Fin 2 → ℂ) → (Fin 2 → ℂ)) (f : (Fin 2 → ℂ) → (Fin 2 → ℂ) → (Fin 2 → ℂ)), (∀ x, G x = fun _ => 0) →
      (∀ x z, skrockStep co 2 1 (fun v => .ok (G v)) x z = .ok (f x z)) → f (fun _ => 0) (fun _ => 0) = fun _ => 1 := by
    intro G f hG hf
    have := hf (fun _ => 0) (fun _ => 0)
    simp only [skrockStep, kRec, bind, Except.bind, hG, hk] at this
    rw [← Except.ok.inj this]
    funext i
    simp
  have k1 := key _ f hGs hf
  have k2 := key _ f' hGa hf'
  have n1 := noiseSeq_zero (p := 2) 0 0
  have n2 := noiseSeq_turned_zero 0 0
  have v := turn34_vec 1 1
  rw [hs4, ha4, hP, hP'] at e
  simp only [Arrays.ofRows, initArrays, hP, hP', rowOf, List.mem_singleton, if_true, Option.map_some, List.range_one, List.map_cons, List.map_nil,
    zero_mul, zero_add, iter, n1, n2, e0, k1, k2, turnList_ofFn, Option.some.injEq, List.cons.injEq, and_true] at e
  have e' := congrFun (List.ofFn_injective e) 0
  simp [store, turnVec, turn34, Fin.sum_univ_two] at e'
  norm_num [Complex.ext_iff] at e'

/-- The first iteration of a PxMALA run that needs one sample. -/
theorem mala_once (M : Sampler n) (R : Rng) {fwd : (Fin p → ℂ) → (Fin n → ℂ)} {grad : (Fin n → ℂ) → (Fin p → ℂ)}
    {prox : (Fin p → ℂ) → (Fin p → ℂ)} {pri : (Fin p → ℂ) → ℝ} (tot : Total M p fwd grad prox pri) (hns : M.par.nsamples = 1)
    (hb : M.par.nburn = 0) (hg : M.par.ngap = 1) (r r1 : R.σ) (sp : StartPoint) (x0 : Fin p → ℂ)
    (hstart : initialSample M R r sp = .ok (List.ofFn x0, List.ofFn (fwd x0), r1)) (δ : ℝ) (y : Fin p → ℂ)
    (hy : y = ulaStep δ (gradVec M.par.lmda fwd grad prox) x0 (drawVec R R.randn M.par.complex r1 p).1) (r2 : R.σ)
    (hr : r2 = (drawVec R R.randn M.par.complex r1 p).2) :
    (acceptTest (R.rand r2).1 (logAlphaVec M fwd grad prox pri δ x0 y) → ∃ st, malaRun M R false δ (initArrays M) r sp 1 = .ok (some st)) ∧
    (¬ acceptTest (R.rand r2).1 (logAlphaVec M fwd grad prox pri δ x0 y) → malaRun M R false δ (initArrays M) r sp 1 = .ok none) := by
  classical
  have h0 := init_vec M R tot δ r r1 sp x0 hstart
  have hc := coreStep_vec M R tot (MalaSt.core ⟨0, 0, cacheOf M fwd grad prox pri x0, r1, δ, [], [δ], []⟩) x0 rfl y hy r2 hr _ Iff.rfl
  obtain ⟨st', hst', hcore⟩ := malaBody_total M R false (initArrays M) (initArrays_shaped M) _ _ hc (by rw [hns]; exact Nat.zero_lt_one)
    (by split <;> simp [cacheOf, tot.nparams]) (by split <;> simp [cacheOf])
  obtain ⟨-, hsave, hnot⟩ := malaBody_ok M R false (initArrays M) _ _ hst'
  have hacc : st'.acc = [if acceptTest (R.rand r2).1 (logAlphaVec M fwd grad prox pri δ x0 y) then 1 else 0] := by
    have := congrArg Core.acc hcore
    exact this
  have hrun : malaRun M R false δ (initArrays M) r sp 1 = (if st'.j < 1 then .ok none else .ok (some { st' with ev := st'.ev ++ [Event.done] })) := by
    unfold malaRun
    rw [h0]
    simp only [bind, Except.bind, whileFuel, malaCond, hns, Nat.lt_one_iff, decide_true, if_true, hst', decide_eq_true_eq]
    by_cases hj : st'.j = 0
    · simp [hj]
    · simp [hj]
  constructor
  · intro ha
    have hj := (hsave ⟨⟨by simp [hb], Or.inr (by simp [hb, hg])⟩, by rw [hacc]; simp [ha]⟩).1
    rw [hrun, if_neg (by rw [hj]; simp)]
    exact ⟨_, rfl⟩
  · intro ha
    have hj := (hnot (by rintro ⟨-, h⟩; rw [hacc] at h; simp [ha] at h)).1
    rw [hrun, if_pos (by rw [hj]; simp)]

/-- The log acceptance ratio where the gradient vanishes and the prediction is constant. -/
theorem logAlpha_flat (M : Sampler n) (fwd : (Fin p → ℂ) → (Fin n → ℂ)) (grad : (Fin n → ℂ) → (Fin p → ℂ))
    (prox : (Fin p → ℂ) → (Fin p → ℂ)) (pri : (Fin p → ℂ) → ℝ) (hG : ∀ x, gradVec M.par.lmda fwd grad prox x = fun _ => 0)
    (hf : ∀ x y, fwd x = fwd y) (δ : ℝ) (x y : Fin p → ℂ) :
    logAlphaVec M fwd grad prox pri δ x y = ((-M.par.mu * (pri y - pri x) : ℝ) : ℂ) := by
  unfold logAlphaVec
  have e : logtransVec δ (gradVec M.par.lmda fwd grad prox) y x = logtransVec δ (gradVec M.par.lmda fwd grad prox) x y := by
    unfold logtransVec
    rw [hG, hG]
    congr 2
    refine Finset.sum_congr rfl fun i _ => ?_
    ring
  rw [e]
  simp only [cacheOf, misfitOf, hf y x]
  push_cast
  ring

/-- C151 is violated by PxMALA: the acceptance test uses the recorded log-posteriors, so that the first proposal of the synthesis run is
accepted and the run returns, while the same proposal is rejected in the analysis run, which does not return. -/
theorem C151_mala_refuted : ¬ ∀ (O : Matrix (Fin 2) (Fin 2) ℝ) (m : (Fin 2 → ℂ) → (Fin 1 → ℂ)) (a : (Fin 1 → ℂ) → (Fin 2 → ℂ)) (data : DataVec 1)
    (sig : SigD) (tr me : OpPair) (T : Thresh) (par : Params) (Ms Ma : Sampler 1) (As Aa : Arrays),
    TwoSettings O m a data sig tr me T par Ms Ma As Aa → ∀ (R : Rng) (r : R.σ) (sp : StartPoint) (fuel : ℕ),
    (∃ st, malaRun Ms R false par.delta As r sp fuel = .ok (some st)) →
    ∃ st', malaRun Ma (R.turned O) false par.delta Aa r (sp.turned O) fuel = .ok (some st') := by
  intro K
  obtain ⟨m, a, data, sig, tr, me, T, Ms, Ma, As, Aa, gs, ga, ps, pa, H, Q, hm, hGs, hGa, hd, hd'⟩ :=
    flat_exists ⟨1, 1 / 2, 1, 1, 1, 0, 1, false, 0, ["chain"]⟩ one_ne_zero
  -- draws `1, 0`, then the uniform number `exp (-6/5)`
  set R : Rng := ⟨Unit, fun _ k => (fun i => if (i : ℕ) = 0 then 1 else 0, ()), fun _ k => (fun _ => 0, ()), fun _ => (Real.exp (-6 / 5), ())⟩ with hR
  obtain ⟨h1, h2⟩ := Q.start_array R () (fun _ => 0)
  have e0 : turnVec turn34 (fun _ => 0) = fun _ => 0 := by
    funext i
    simp [turnVec]
  have hP := Q.pars
  have hP' := Q.para
  have hA := Q.arrs
  have hA' := Q.arra
  subst hA hA'
  have hdraw : drawVec R R.randn false () 2 = (![1, 0], ()) := by
    unfold drawVec
    simp only [Bool.false_eq_true, if_false]
    congr 1
    funext i
    fin_cases i
    · show ((if ((0 : Fin 2) : ℕ) = 0 then (1 : ℝ) else 0 : ℝ) : ℂ) = 1
      simp
    · show ((if ((1 : Fin 2) : ℕ) = 0 then (1 : ℝ) else 0 : ℝ) : ℂ) = 0
      simp
  have hsq : √(2 * (1 / 2) : ℝ) = 1 := by norm_num
  have hstep : ∀ (G : (Fin 2 → ℂ) → (Fin 2 → ℂ)) (w : Fin 2 → ℂ), (∀ x, G x = fun _ => 0) → w = ulaStep (1 / 2) G (fun _ => 0) w := by
    intro G w hG
    unfold ulaStep
    rw [hG, hsq]
    funext i
    simp
  have hdraw' : drawVec (R.turned turn34) (R.turned turn34).randn false () 2 = (turnVec turn34 ![1, 0], ()) := by
    refine (drawVec_turned turn34 R R.randn false ()).trans ?_
    rw [hdraw]
  have hu : Real.log (R.rand ()).1 = -6 / 5 := Real.log_exp _
  have hu' : Real.log ((R.turned turn34).rand ()).1 = -6 / 5 := Real.log_exp _
  have hpos : ((R.turned turn34).rand ()).1 ≠ 0 := (Real.exp_pos _).ne'
  have n0 : ∑ _i : Fin 2, ‖(0 : ℂ)‖ = (0 : ℝ) := by simp
  have n1 : ∑ i, ‖turnVec turn34 ![1, 0] i‖ = (7 / 5 : ℝ) := by
    rw [turn34_vec]
    simp [Fin.sum_univ_two]
    norm_num
  have n2 : ∑ i, ‖(![1, 0] : Fin 2 → ℂ) i‖ = (1 : ℝ) := by simp [Fin.sum_univ_two]
  have hs := (mala_once Ms R Q.tots (by rw [hP]) (by rw [hP]) (by rw [hP]) () () _ _ h1 (1 / 2) ![1, 0] (by
    rw [hP, hdraw]
    exact hstep _ _ hGs) () (by rw [hP, hdraw])).1 (by
    rw [logAlpha_flat Ms _ _ _ _ (by rw [hP]; exact hGs) (fun x y => by rw [hm, hm])]
    refine Or.inr (Or.inl ?_)
    rw [hu, Complex.ofReal_re, hP, n2, n0]
    norm_num)
  have ha := (mala_once Ma (R.turned turn34) Q.tota (by rw [hP']) (by rw [hP']) (by rw [hP']) () () _ _ h2 (1 / 2) (turnVec turn34 ![1, 0]) (by
    rw [hP', e0]
    erw [hdraw']
    exact hstep _ _ hGa) () rfl).2 (by
    rw [logAlpha_flat Ma _ _ _ _ (by rw [hP']; exact hGa) (fun x y => by rw [hm, hm])]
    rintro (h | h | h)
    · exact hpos h
    · rw [hu', Complex.ofReal_re, hP', n1, e0, n0] at h
      norm_num at h
    · exact lt_irrefl _ h.2)
  obtain ⟨st', hst'⟩ := K turn34 m a data sig tr me T _ Ms Ma _ _ H R () (.array1 (List.ofFn fun _ => 0)) 1 hs
  erw [ha] at hst'
  cases hst'

end Pxmcmc
