import Verif.Props.Units
import Verif.Props.SkrockDiverges
import Verif.Props.MalaInvariance

/-! # Property C139: path integrals, and where the units matter -/

namespace Pxmcmc
variable {n p : ℕ}

/-! ## Path integrals -/

theorem path_homogeneous (W : Matrix (Fin n) (Fin p) ℂ) : Homogeneous (pathForward W) ∧ Homogeneous (pathAdjoint W) := by
  constructor
  · intro a _ X
    unfold pathForward
    rw [sc_length]
    split
    · simpa using matDot_sc 1 a W X
    · rfl
  · intro a _ X
    unfold pathAdjoint
    rw [sc_length]
    split
    · simpa using matDot_sc 1 a W.conjTranspose X
    · rfl

theorem path_scaled (a : ℝ) (W : Matrix (Fin n) (Fin p) ℂ) :
    OpPair.scaled a ⟨pathForward W, pathAdjoint W⟩ = ⟨pathForward ((a : ℂ) • W), pathAdjoint ((a : ℂ) • W)⟩ := by
  unfold OpPair.scaled
  simp only [OpPair.mk.injEq]
  constructor
  · funext X
    unfold pathForward
    split
    · have := matDot_sc a 1 W X
      rw [sc_one, mul_one] at this
      exact this.symm
    · rfl
  · funext Y
    unfold pathAdjoint
    split
    · have := matDot_sc a 1 W.conjTranspose Y
      rw [sc_one, mul_one] at this
      rw [Matrix.conjTranspose_smul, ← this]
      simp
    · rfl

theorem identity_homogeneous : Homogeneous identityTransform.op ∧ Homogeneous identityTransform.adj := ⟨fun _ _ _ => rfl, fun _ _ _ => rfl⟩

/-- C139 for path integrals with an l1 prior, sampled by MYULA, with every argument written out: a velocity map in m/s instead of km/s
and travel times in minutes instead of seconds, say. -/
theorem C139_path_integrals {c d : ℝ} (hc : 0 < c) (hd : 0 < d) (W : Matrix (Fin n) (Fin p) ℂ) (data : DataVec n) (hdc : data.cplx = false)
    (sig : SigD) (σ : Fin n → ℝ) (hσ : IsSigma n sig σ) (s : String) (hs : s = "analysis" ∨ s = "synthesis") (t : ℝ) (par : Params) :
    ∃ (F F' : ForwardOp n) (L L' : L1 ℂ) (M M' : Sampler n) (A A' : Arrays),
      ForwardOp.init data sig s (some identityTransform) (some ⟨pathForward W, pathAdjoint W⟩) (some p) = .ok F ∧
      L1.init s identityTransform.op identityTransform.adj (.scalar t) = .ok L ∧ samplerInit F L.toPrior par = .ok (M, A) ∧
      ForwardOp.init (data.units d) (sig.units d) s (some identityTransform)
        (some ⟨pathForward (((d / c : ℝ) : ℂ) • W), pathAdjoint (((d / c : ℝ) : ℂ) • W)⟩) (some p) = .ok F' ∧
      L1.init s identityTransform.op identityTransform.adj (.scalar (c * t)) = .ok L' ∧ samplerInit F' L'.toPrior (par.units c) = .ok (M', A') ∧
      ∀ (R : Rng) (r : R.σ) (v : List ℂ) (fuel : ℕ) (st : St R), myulaRun M R A r (.array1 v) fuel = .ok (some st) →
        ∃ st', myulaRun M' R A' r (.array1 (sc c v)) fuel = .ok (some st') ∧ st'.i = st.i ∧
          A'.applyAll st'.ev = (A.applyAll st.ev).units c d := by
  obtain ⟨V, hV, -, -⟩ := C35_diagonal data hdc sig σ hσ
  obtain ⟨S, hS⟩ : ∃ S, Setting.parse s = some S := by
    rcases hs with rfl | rfl
    · exact ⟨_, rfl⟩
    · exact ⟨_, rfl⟩
  have hF : ForwardOp.init data sig s (some identityTransform) (some ⟨pathForward W, pathAdjoint W⟩) (some p) =
      .ok ⟨data, V, S, some identityTransform, some ⟨pathForward W, pathAdjoint W⟩, some p⟩ := by
    unfold ForwardOp.init
    rw [hV]
    simp only [bind, Except.bind, hS]
  have hL : L1.init s identityTransform.op identityTransform.adj (.scalar t) =
      .ok (⟨S, identityTransform.op, identityTransform.adj, .scalar t⟩ : L1 ℂ) := by
    unfold L1.init
    rw [hS]
  obtain ⟨L', hL', hP⟩ := C139_l1 hc s _ _ identity_homogeneous.1 identity_homogeneous.2 (.scalar t) _ hL
  set F : ForwardOp n := ⟨data, V, S, some identityTransform, some ⟨pathForward W, pathAdjoint W⟩, some p⟩
  obtain ⟨F', M', A', hF', hM', hrun⟩ := C139_myula hc hd data sig s (some identityTransform) (some ⟨pathForward W, pathAdjoint W⟩) (some p)
    (fun o ho => by cases ho; exact identity_homogeneous) (fun o ho => by cases ho; exact path_homogeneous W) F hF _ _ hP par
    (initArrays ⟨F, _, par, p⟩) (M := ⟨F, _, par, p⟩) rfl
  refine ⟨F, F', _, L', _, M', _, A', hF, hL, rfl, ?_, hL', hM', fun R r v fuel st hst => ?_⟩
  · rw [← hF', Option.map_some, path_scaled]
  · obtain ⟨h1, h2⟩ := hrun R r v fuel
    obtain ⟨st', h3, h4⟩ := h2 st hst
    refine ⟨st', h3, ?_, h4⟩
    rw [h3, hst] at h1
    have := Option.some.inj (Except.ok.inj h1)
    rw [this]
    rfl

/-! ### The constants of the SKROCK recursion -/

/-- What the recursion adds in every stage, whatever the units. -/
noncomputable def kConst (co : SkrockCoefs) : ℕ → ℝ
  | 0 => 0
  | 1 => 0
  | s + 2 => co.nus.getD (s + 2) 0 * kConst co (s + 1) + co.ks.getD (s + 2) 0 - kConst co s

theorem kVec_units {c : ℝ} (hc : 0 < c) (co : SkrockCoefs) (δ : ℝ) (G G' : (Fin p → ℂ) → (Fin p → ℂ)) (j : Fin p) (hG : ∀ x, G x j = 0)
    (hG' : ∀ x, G' x j = 0) (x z : Fin p → ℂ) (s : ℕ) :
    kVec co (c ^ 2 * δ) G' (fun i => (c : ℂ) * x i) z s j = (c : ℂ) * kVec co δ G x z s j + ((1 - c : ℝ) : ℂ) * ((kConst co s : ℝ) : ℂ) := by
  have hsq : √(2 * (c ^ 2 * δ)) = c * √(2 * δ) := by
    rw [show 2 * (c ^ 2 * δ) = c ^ 2 * (2 * δ) by ring, Real.sqrt_mul (sq_nonneg c), Real.sqrt_sq hc.le]
  induction s using Nat.strong_induction_on with
  | _ s ih =>
    match s with
    | 0 => simp [kVec, kConst]
    | 1 =>
      simp only [kVec, kConst, hG, hG', hsq]
      push_cast; ring
    | s + 2 =>
      simp only [kVec, kConst, hG, hG', ih (s + 1) (by omega), ih s (by omega)]
      push_cast; ring

/-- From two stages on the constant does not vanish. -/
theorem kConst_ne_zero (k : ℕ) (hk : 1 ≤ k) (co : SkrockCoefs) (hco : skrockInit ((k + 1 : ℕ) : ℤ) = .ok co) : kConst co (k + 1) ≠ 0 := by
  have w0 := codeOmega0_gt k
  have hks : ∀ j, j < k → co.ks.getD (j + 2) 0 = 1 := by
    intro j hj
    obtain rfl := Except.ok.inj ((skrockInit_eq k).symm.trans hco)
    simp [hj]
  have hrec : ∀ j, j < k → kConst co (j + 2) = 2 * codeOmega0 k * codeRatio k j * kConst co (j + 1) + 1 - kConst co j := by
    intro j hj
    rw [kConst, hks j hj, (coef_mus k j hj co hco).2.1]
  have habs : ∀ j, j < k → ∀ q : ℝ, 0 ≤ q → q ≤ |codeRatio k j| →
      2 * q * |kConst co (j + 1)| - |kConst co j| - 1 ≤ |kConst co (j + 2)| := by
    intro j hj q hq0 hq
    rw [hrec j hj]
    have h1 : |2 * codeOmega0 k * codeRatio k j * kConst co (j + 1)| = 2 * codeOmega0 k * |codeRatio k j| * |kConst co (j + 1)| := by
      rw [abs_mul, abs_mul, abs_mul, abs_two, abs_of_pos (by linarith)]
    have h2 : |2 * codeOmega0 k * codeRatio k j * kConst co (j + 1)| ≤
        |2 * codeOmega0 k * codeRatio k j * kConst co (j + 1) + 1 - kConst co j| + |kConst co j| + 1 := by
      have e : 2 * codeOmega0 k * codeRatio k j * kConst co (j + 1) =
          (2 * codeOmega0 k * codeRatio k j * kConst co (j + 1) + 1 - kConst co j) + (kConst co j - 1) := by ring
      calc _ = |(2 * codeOmega0 k * codeRatio k j * kConst co (j + 1) + 1 - kConst co j) + (kConst co j - 1)| := by rw [← e]
        _ ≤ _ := by
          refine (abs_add_le _ _).trans ?_
          have := abs_sub (kConst co j) 1
          rw [abs_one] at this
          linarith
    have hb := abs_nonneg (kConst co (j + 1))
    have h3 : q * |kConst co (j + 1)| ≤ |codeRatio k j| * |kConst co (j + 1)| := mul_le_mul_of_nonneg_right hq hb
    have h4 : 0 ≤ |codeRatio k j| * |kConst co (j + 1)| := by positivity
    rw [h1] at h2
    nlinarith
  have b2 : kConst co 2 = 1 := by
    have := hrec 0 (by omega)
    simpa [kConst] using this
  have key : ∀ i, 2 * i + 3 ≤ k + 1 → 1 ≤ |kConst co (2 * i + 2)| ∧ 2 * |kConst co (2 * i + 2)| + 1 ≤ |kConst co (2 * i + 3)| := by
    intro i
    induction i with
    | zero =>
      intro hi
      have h1 := habs 1 (by omega) (30 / 11) (by norm_num) (codeRatio_odd k 0 (by omega) (by omega))
      have e1 : kConst co 1 = 0 := rfl
      rw [show 2 * 0 + 2 = 2 by rfl, show 2 * 0 + 3 = 3 by rfl, b2]
      rw [show 1 + 1 = 2 by rfl, show 1 + 2 = 3 by rfl, b2, e1] at h1
      simp only [abs_one, abs_zero] at h1 ⊢
      exact ⟨le_rfl, by linarith⟩
    | succ i ih =>
      intro hi
      obtain ⟨c1, c2⟩ := ih (by omega)
      have h1 := habs (2 * i + 2) (by omega) 1 (by norm_num) (one_le_codeRatio k _ hk)
      have h2 := habs (2 * i + 3) (by omega) (30 / 11) (by norm_num) (codeRatio_odd k (i + 1) (by omega) (by omega))
      rw [show 2 * i + 2 + 1 = 2 * i + 3 by ring, show 2 * i + 2 + 2 = 2 * i + 4 by ring] at h1
      rw [show 2 * i + 3 + 1 = 2 * i + 4 by ring, show 2 * i + 3 + 2 = 2 * i + 5 by ring] at h2
      rw [show 2 * (i + 1) + 2 = 2 * i + 4 by ring, show 2 * (i + 1) + 3 = 2 * i + 5 by ring]
      constructor <;> linarith
  have hpos : 0 < |kConst co (k + 1)| := by
    rcases Nat.even_or_odd (k + 1) with h | h
    · obtain ⟨m, hm⟩ := h
      rcases Nat.lt_or_ge m 2 with h2 | h2
      · obtain rfl : k = 1 := by omega
        rw [show 1 + 1 = 2 by rfl, b2]; norm_num
      · obtain ⟨i, hi⟩ : ∃ i, k + 1 = 2 * i + 4 := ⟨m - 2, by omega⟩
        obtain ⟨c1, c2⟩ := key i (by omega)
        have h1 := habs (2 * i + 2) (by omega) 1 (by norm_num) (one_le_codeRatio k _ hk)
        rw [show 2 * i + 2 + 1 = 2 * i + 3 by ring, show 2 * i + 2 + 2 = 2 * i + 4 by ring] at h1
        rw [hi]
        linarith
    · obtain ⟨m, hm⟩ := h
      obtain ⟨i, hi⟩ : ∃ i, k + 1 = 2 * i + 3 := ⟨m - 1, by omega⟩
      obtain ⟨c1, c2⟩ := key i (by omega)
      rw [hi]
      linarith
  exact abs_pos.mp hpos

/-- The steps of samplers for path integrals with an l1 prior never raise. -/
theorem pathTotal (B : Matrix (Fin n) (Fin p) ℂ) (dat : DataVec n) (C : Matrix (Fin n) (Fin n) ℂ) (t : ℝ) (pr : Params) (hpr : pr.lmda ≠ 0) :
    Total (⟨⟨dat, C, .synthesis, some identityTransform, some ⟨pathForward B, pathAdjoint B⟩, some p⟩,
      (⟨.synthesis, identityTransform.op, identityTransform.adj, .scalar t⟩ : L1 ℂ).toPrior, pr, p⟩ : Sampler n) p
      ((Matrix.mulVecLin B).comp LinearMap.id) (fun y => Matrix.mulVec B.conjTranspose (C.mulVec (y - dat.vals)))
      (fun x i => softEntry (x i) t) (fun x => ∑ i, ‖x i‖) := by
  have hA : LinModel (⟨dat, C, .synthesis, some identityTransform, some ⟨pathForward B, pathAdjoint B⟩, some p⟩ : ForwardOp n)
      ((Matrix.mulVecLin B).comp LinearMap.id) fun y => (fun z => z) (Matrix.mulVec B.conjTranspose y) :=
    linModel_synthesis _ rfl (Matrix.mulVecLin B) (Matrix.mulVec B.conjTranspose) (pathIntegral_linearOps _ B rfl)
      (LinearMap.id : (Fin p → ℂ) →ₗ[ℂ] (Fin p → ℂ)) (fun y => y) ⟨⟨identityTransform, rfl, fun x => rfl, fun x => rfl⟩, fun x y => rfl⟩
  refine ⟨rfl, hA.fwd, hA.grad, fun x => soft_scalar x t, fun x => ?_, hpr⟩
  show Except.ok (((List.ofFn x).map fun z => ‖z‖).sum) = _
  rw [map_ofFn', List.sum_ofFn]

theorem softEntry_thresh_zero (z : ℂ) : softEntry z 0 = z := by
  by_cases hz : z = 0
  · subst hz
    simp [softEntry]
  · have : ‖z‖ ≠ 0 := norm_ne_zero_iff.mpr hz
    have h0 : ¬ ‖z‖ ≤ 0 := by rw [norm_le_zero_iff]; exact hz
    simp only [softEntry, signEntry, h0, if_false, this, sub_zero]
    field_simp
    exact div_self (RCLike.ofReal_ne_zero.mpr this)

/-- With a flat prior nothing drives a pixel that no path crosses. -/
theorem gradVec_uncrossed (B : Matrix (Fin n) (Fin p) ℂ) (j : Fin p) (hB : ∀ i, B i j = 0) (dat : DataVec n) (C : Matrix (Fin n) (Fin n) ℂ) (l : ℝ)
    (x : Fin p → ℂ) :
    gradVec l ((Matrix.mulVecLin B).comp LinearMap.id) (fun y => Matrix.mulVec B.conjTranspose (C.mulVec (y - dat.vals)))
      (fun x i => softEntry (x i) 0) x j = 0 := by
  simp only [gradVec, softEntry_thresh_zero, sub_self, zero_div, neg_zero, zero_sub, neg_eq_zero]
  simp only [Matrix.mulVec, dotProduct, Matrix.conjTranspose_apply, hB, star_zero, zero_mul, Finset.sum_const_zero]

/-- C139 is violated by SKROCK with two or more stages, for every path matrix with a pixel that no path crosses, every data vector, a flat
prior and every change of the units of the parameters: from corresponding points, with the same random numbers, one transition never
leads to corresponding points (in every later stage the number 1 is added to every parameter, whatever its units). -/
theorem C139_skrock_refuted {c d : ℝ} (hc : 0 < c) (hc1 : c ≠ 1) (hd : 0 < d) (W : Matrix (Fin n) (Fin p) ℂ) (j : Fin p) (hj : ∀ i, W i j = 0)
    (data : DataVec n) (hdc : data.cplx = false) (sig : SigD) (σ : Fin n → ℝ) (hσ : IsSigma n sig σ) (par : Params) (hl : par.lmda ≠ 0)
    (hs : 2 ≤ par.s) :
    ∃ (F F' : ForwardOp n) (L L' : L1 ℂ) (M M' : Sampler n) (A A' : Arrays) (co : SkrockCoefs),
      ForwardOp.init data sig "synthesis" (some identityTransform) (some ⟨pathForward W, pathAdjoint W⟩) (some p) = .ok F ∧
      L1.init "synthesis" identityTransform.op identityTransform.adj (.scalar 0) = .ok L ∧ samplerInit F L.toPrior par = .ok (M, A) ∧
      ForwardOp.init (data.units d) (sig.units d) "synthesis" (some identityTransform)
        (some ⟨pathForward (((d / c : ℝ) : ℂ) • W), pathAdjoint (((d / c : ℝ) : ℂ) • W)⟩) (some p) = .ok F' ∧
      L1.init "synthesis" identityTransform.op identityTransform.adj (.scalar (c * 0)) = .ok L' ∧
      samplerInit F' L'.toPrior (par.units c) = .ok (M', A') ∧ skrockInit par.s = .ok co ∧
      ∀ (R : Rng) (r : R.σ) (x : Fin p → ℂ) (preds : List ℂ), ∃ y y' : Cur R,
        skrockTransition M R co ⟨List.ofFn x, preds, r⟩ = .ok y ∧
        skrockTransition M' R co ⟨sc c (List.ofFn x), sc d preds, r⟩ = .ok y' ∧ y'.X ≠ sc c y.X := by
  obtain ⟨V, hV, -, hVd⟩ := C35_diagonal data hdc sig σ hσ
  have hV' := buildInvCov_units hd data sig
  rw [hV] at hV'
  obtain ⟨k, hk⟩ : ∃ k, par.s = k + 1 := ⟨par.s - 1, by omega⟩
  have hco := skrockInit_eq k
  set co : SkrockCoefs := _ with hcodef
  have hco' : skrockInit (par.s : ℤ) = .ok co := by rw [hk]; exact hco
  set W' := ((d / c : ℝ) : ℂ) • W with hW'
  have hj' : ∀ i, W' i j = 0 := fun i => by simp [hW', hj]
  refine ⟨⟨data, V, .synthesis, some identityTransform, some ⟨pathForward W, pathAdjoint W⟩, some p⟩,
    ⟨data.units d, (((d ^ 2)⁻¹ : ℝ) : ℂ) • V, .synthesis, some identityTransform, some ⟨pathForward W', pathAdjoint W'⟩, some p⟩,
    ⟨.synthesis, identityTransform.op, identityTransform.adj, .scalar 0⟩,
    ⟨.synthesis, identityTransform.op, identityTransform.adj, .scalar (c * 0)⟩, ⟨_, _, par, p⟩, ⟨_, _, par.units c, p⟩, _, _, co,
    ?_, rfl, rfl, ?_, rfl, rfl, hco', fun R r x preds => ?_⟩
  · unfold ForwardOp.init
    rw [hV]
    rfl
  · unfold ForwardOp.init
    rw [hV']
    rfl
  · have hl' : (par.units c).lmda ≠ 0 := mul_ne_zero (by positivity) hl
    have t1 := pathTotal W data V 0 par hl
    have t2 := pathTotal W' (data.units d) ((((d ^ 2)⁻¹ : ℝ) : ℂ) • V) (c * 0) (par.units c) hl'
    rw [sc_ofFn]
    refine ⟨_, _, skrockTransition_kVec R co t1 x preds r, skrockTransition_kVec R co t2 _ (sc d preds) r, ?_⟩
    simp only
    intro heq
    rw [sc_ofFn] at heq
    have h1 := congrFun (List.ofFn_injective heq) j
    simp only [mul_zero] at h1
    have h2 := kVec_units hc co par.delta _ _ j (gradVec_uncrossed W j hj data V par.lmda)
      (gradVec_uncrossed W' j hj' (data.units d) ((((d ^ 2)⁻¹ : ℝ) : ℂ) • V) (par.units c).lmda) x (drawVec R R.randn par.complex r p).1 par.s
    have h3 := h2.symm.trans h1
    have h4 : ((1 - c : ℝ) : ℂ) * ((kConst co par.s : ℝ) : ℂ) = 0 := by
      have := add_eq_left.mp h3
      exact this
    rw [← Complex.ofReal_mul, Complex.ofReal_eq_zero, mul_eq_zero] at h4
    rcases h4 with h4 | h4
    · exact hc1 (by linarith)
    · rw [hk] at h4
      exact kConst_ne_zero k (by omega) co hco h4

/-! ### PxMALA -/

/-- C139 for PxMALA, as far as it holds: the proposals, with everything that is cached for them, do not depend on the units. -/
theorem C139_pxmala_partial {c d : ℝ} (hc : 0 < c) (hd : 0 < d) {F F' : ForwardOp n} {P P' : PriorObj} (hF : ForwardUnits c d F F')
    (hP : PriorUnits c P P') (par : Params) (M : Sampler n) (A : Arrays) (hM : samplerInit F P par = .ok (M, A)) :
    ∃ M' A', samplerInit F' P' (par.units c) = .ok (M', A') ∧
      ∀ (R : Rng) (r : R.σ) (delta : ℝ) (x : Cache), malaPropose M' R (c ^ 2 * delta) r (x.units c d) =
        (malaPropose M R delta r x).map fun q => (q.1.units c d, q.2) := by
  obtain ⟨M', A', hM', U, -, -⟩ := sampler_units hF hP par A hM
  refine ⟨M', A', hM', fun R r delta x => ?_⟩
  unfold malaPropose
  simp only [Cache.units]
  rw [UnitChange.chainStep hc U]
  cases chainStep M R delta r x.X x.proxf x.gradg with
  | error e => rfl
  | ok xr =>
    simp only [Except.map, bind, Except.bind]
    rw [U.fwd]
    cases M.F.forward xr.1 with
    | error e => rfl
    | ok y =>
      simp only [Except.map]
      rw [U.grad, U.prox, UnitChange.logpi hc hd U]
      cases M.F.calcGradg y with
      | error e => rfl
      | ok g =>
        simp only [Except.map]
        cases M.P.proxf xr.1 with
        | error e => rfl
        | ok q =>
          simp only []
          cases logpi M.F M.P M.par.mu xr.1 y <;> rfl

theorem acceptTest_pos {u : ℝ} (hu : 0 < u) (a : ℝ) : acceptTest u ((a : ℝ) : ℂ) ↔ Real.log u < a := by
  unfold acceptTest
  simp [hu.ne']

/-- The decision differs for some random numbers. -/
theorem flux_units {c : ℝ} (hc : 0 < c) (hc1 : c ≠ 1) (d s δ : ℝ) (hs : 0 < s) (hδ : 0 < δ) (hδ4 : δ < 4 * s ^ 2) :
    ∃ x w u : ℝ, 0 < u ∧ u < 1 ∧ fluxNext (c * d) (c * s) (c ^ 2 * δ) (c * x, w, u) ≠ c * fluxNext d s δ (x, w, u) := by
  set e := δ / s ^ 2 with he
  have hs2 : 0 < s ^ 2 := by positivity
  have he0 : 0 < e := by positivity
  have he4 : e < 4 := by rw [he, div_lt_iff₀ hs2]; exact hδ4
  set κ := 1 - e / 2 with hκ
  have hκ1 : 0 < 1 - κ ^ 2 := by rw [hκ]; nlinarith
  set K := δ / 2 * (1 - κ ^ 4) with hK
  have hK0 : 0 < K := by
    have : 1 - κ ^ 4 = (1 - κ ^ 2) * (1 + κ ^ 2) := by ring
    rw [hK, this]; positivity
  set f := √(1 / (2 * s ^ 2 * K * (1 + c ^ 6))) with hf
  have hpos : 0 < 1 / (2 * s ^ 2 * K * (1 + c ^ 6)) := by positivity
  have hf0 : 0 < f := Real.sqrt_pos.mpr hpos
  have hf2 : f ^ 2 = 1 / (2 * s ^ 2 * K * (1 + c ^ 6)) := Real.sq_sqrt hpos.le
  have hKf : K * f ^ 2 * (1 + c ^ 6) = 1 / (2 * s ^ 2) := by rw [hf2]; field_simp
  have hc6 : 0 < c ^ 6 := by positivity
  have hc6' : c ^ 6 ≠ 1 := fun h => hc1 ((pow_eq_one_iff_of_nonneg hc.le (by norm_num)).mp h)
  have hKf0 : 0 < K * f ^ 2 := by positivity
  have hs2i : 1 / s ^ 2 = 2 * (1 / (2 * s ^ 2)) := by field_simp
  have hs2p : 0 < 1 / (2 * s ^ 2) := by positivity
  have hq : 0 < √(2 * δ) := Real.sqrt_pos.mpr (by positivity)
  have hsq : √(2 * (c ^ 2 * δ)) = c * √(2 * δ) := by
    rw [show 2 * (c ^ 2 * δ) = c ^ 2 * (2 * δ) by ring, Real.sqrt_mul (sq_nonneg c), Real.sqrt_sq hc.le]
  have hes : e * s ^ 2 = δ := by rw [he]; field_simp
  have ha1 : fluxAlpha d s δ d (d + f) = f ^ 2 * (K * f ^ 2 - 1 / s ^ 2) := by
    have : d - (d + f) - δ / 2 * -((d + f - d) / s ^ 2) = -(κ * f) := by
      rw [hκ, he]; field_simp; ring
    unfold fluxAlpha
    rw [this, hK]
    field_simp
    ring
  have ha2 : fluxAlpha (c * d) (c * s) (c ^ 2 * δ) (c * d) (c * (d + f)) = f ^ 2 * (c ^ 6 * (K * f ^ 2) - 1 / s ^ 2) := by
    have : c * d - c * (d + f) - c ^ 2 * δ / 2 * -((c * (d + f) - c * d) / (c * s) ^ 2) = -(c * (κ * f)) := by
      rw [hκ, he]; field_simp; ring
    unfold fluxAlpha
    rw [this, hK]
    field_simp
    ring
  set α := f ^ 2 * (K * f ^ 2 - 1 / s ^ 2) with hα
  set α' := f ^ 2 * (c ^ 6 * (K * f ^ 2) - 1 / s ^ 2) with hα'
  have hf2p : 0 < f ^ 2 := by positivity
  have hαn : α < 0 := mul_neg_of_pos_of_neg hf2p (by nlinarith)
  have hα'n : α' < 0 := mul_neg_of_pos_of_neg hf2p (by nlinarith)
  have hne : α ≠ α' := by
    intro h
    have h1 : K * f ^ 2 - 1 / s ^ 2 = c ^ 6 * (K * f ^ 2) - 1 / s ^ 2 := mul_left_cancel₀ hf2p.ne' h
    have h2 : (c ^ 6 - 1) * (K * f ^ 2) = 0 := by linarith
    rcases mul_eq_zero.mp h2 with h3 | h3
    · exact hc6' (by linarith)
    · exact hKf0.ne' h3
  have hw : √(2 * δ) * (f / √(2 * δ)) = f := by field_simp
  have hp1 : fluxProp d s δ (d, f / √(2 * δ), Real.exp ((α + α') / 2)) = d + f := by
    unfold fluxProp propMean
    simp only [sub_self, zero_div, neg_zero, mul_zero, add_zero, hw]
  have hp2 : fluxProp (c * d) (c * s) (c ^ 2 * δ) (c * d, f / √(2 * δ), Real.exp ((α + α') / 2)) = c * (d + f) := by
    unfold fluxProp propMean
    simp only [sub_self, zero_div, neg_zero, mul_zero, add_zero, hsq]
    rw [mul_assoc, hw]
    ring
  refine ⟨d, f / √(2 * δ), Real.exp ((α + α') / 2), Real.exp_pos _, by rw [Real.exp_lt_one_iff]; linarith, ?_⟩
  have m1 : (d, f / √(2 * δ), Real.exp ((α + α') / 2)) ∈ fluxAcc d s δ ↔ (α + α') / 2 < α := by
    show acceptTest _ _ ↔ _
    rw [acceptTest_pos (Real.exp_pos _), hp1, Real.log_exp]
    simp only [ha1]
  have m2 : (c * d, f / √(2 * δ), Real.exp ((α + α') / 2)) ∈ fluxAcc (c * d) (c * s) (c ^ 2 * δ) ↔ (α + α') / 2 < α' := by
    show acceptTest _ _ ↔ _
    rw [acceptTest_pos (Real.exp_pos _), hp2, Real.log_exp]
    simp only [ha2]
  unfold fluxNext
  rcases lt_or_gt_of_ne hne with h | h
  · rw [if_pos (m2.mpr (by linarith)), if_neg (fun hm => by have := m1.mp hm; linarith), hp2]
    intro h'
    have := mul_left_cancel₀ hc.ne' h'
    linarith
  · rw [if_neg (fun hm => by have := m2.mp hm; linarith), if_pos (m1.mpr (by linarith)), hp1]
    intro h'
    have := mul_left_cancel₀ hc.ne' h'
    linarith

/-- C139 is violated by PxMALA for every change of units, every datum `d`, standard deviation `s` and step size `0 < delta < 4 s²`: in the
denoising problem with one parameter and a flat prior there are a start point, a normal number and a uniform number such that the
sample after one iteration in the new units is not the original one in the new units. -/
theorem C139_pxmala_refuted {c : ℝ} (hc : 0 < c) (hc1 : c ≠ 1) (d s : ℝ) (hs : 0 < s) (st : String) (hst : st = "analysis" ∨ st = "synthesis")
    (par : Params) (hl : par.lmda ≠ 0) (hmu : par.mu = 0) (hcx : par.complex = false) (hns : 0 < par.nsamples) (hδ : 0 < par.delta)
    (hδ4 : par.delta < 4 * s ^ 2) :
    ∃ (F F' : ForwardOp 1) (L L' : L1 ℂ) (M M' : Sampler 1) (A A' : Arrays),
      ForwardOp.init ⟨false, fun _ => (d : ℂ)⟩ (.num (s : ℂ) false) st (some identityTransform) (some (identityMeasurement 1 1)) (some 1) =
        .ok F ∧
      L1.init st identityTransform.op identityTransform.adj (.scalar 0) = .ok L ∧ samplerInit F L.toPrior par = .ok (M, A) ∧
      ForwardOp.init ⟨false, fun _ => ((c * d : ℝ) : ℂ)⟩ (.num ((c * s : ℝ) : ℂ) false) st (some identityTransform)
        (some (identityMeasurement 1 1)) (some 1) = .ok F' ∧
      L1.init st identityTransform.op identityTransform.adj (.scalar (c * 0)) = .ok L' ∧ samplerInit F' L'.toPrior (par.units c) = .ok (M', A') ∧
      ∃ x w u : ℝ, 0 < u ∧ u < 1 ∧ ∃ s0 s1 s0' s1' : MalaSt pairRng,
        malaInit M pairRng M.par.delta ((w, u) : ℝ × ℝ) (.array1 [(x : ℂ)]) = .ok s0 ∧ malaBody M pairRng false A s0 = .ok s1 ∧
        malaInit M' pairRng M'.par.delta ((w, u) : ℝ × ℝ) (.array1 (sc c [(x : ℂ)])) = .ok s0' ∧ malaBody M' pairRng false A' s0' = .ok s1' ∧
        s1'.cur.X ≠ sc c s1.cur.X := by
  have key : ∀ (a b t : ℝ) (_ : 0 < b) (_ : t = 0) (pr : Params), pr.lmda ≠ 0 → pr.mu = 0 → pr.complex = false → 0 < pr.nsamples →
      ∃ (F : ForwardOp 1) (L : L1 ℂ) (M : Sampler 1) (A : Arrays),
        ForwardOp.init ⟨false, fun _ => (a : ℂ)⟩ (.num (b : ℂ) false) st (some identityTransform) (some (identityMeasurement 1 1)) (some 1) =
          .ok F ∧
        L1.init st identityTransform.op identityTransform.adj (.scalar t) = .ok L ∧ samplerInit F L.toPrior pr = .ok (M, A) ∧
        M.par = pr ∧ ∀ q : ℝ × ℝ × ℝ, ∃ s0 s1 : MalaSt pairRng,
          malaInit M pairRng M.par.delta (q.2 : ℝ × ℝ) (.array1 [((q.1 : ℝ) : ℂ)]) = .ok s0 ∧ malaBody M pairRng false A s0 = .ok s1 ∧
          s1.cur.X = [((fluxNext a b pr.delta q : ℝ) : ℂ)] := by
    rintro a b t hb rfl pr hpl hpm hpc hpn
    obtain ⟨F, Pr, hF, hP, hdat, hcov, hnp, tot⟩ := denoise_total (⟨false, fun _ => (a : ℂ)⟩ : DataVec 1) rfl (.num (b : ℂ) false)
      (fun _ => b) (.scalar b hb) st hst 0
    have hdat' : F.data.vals = fun _ => (a : ℂ) := by rw [hdat]
    have tot' : Total (⟨F, Pr.toPrior, pr, 1⟩ : Sampler 1) 1 (fun x => x) (fun y i => (y i - F.data.vals i) / ((b ^ 2 : ℝ) : ℂ))
        (fun x i => softEntry (x i) 0) (fun x => ∑ i, ‖x i‖) := by
      rw [hdat']
      exact tot pr hpl
    refine ⟨F, Pr, ⟨F, Pr.toPrior, pr, 1⟩, initArrays ⟨F, Pr.toPrior, pr, 1⟩, hF, hP, ?_, rfl, fun q => ?_⟩
    · unfold samplerInit
      rw [hnp]
    · obtain ⟨s0, s1, h1, h2, h3⟩ := flux_iteration F Pr pr a b pr.delta hpm hpc hpn hdat' hcov tot' q
        (initArrays ⟨F, Pr.toPrior, pr, 1⟩) (initArrays_shaped _)
      exact ⟨s0, s1, by simpa using h1, h2, by simpa using h3⟩
  obtain ⟨F, L, M, A, h1, h2, h3, hp, h4⟩ := key d s 0 hs rfl par hl hmu hcx hns
  obtain ⟨F', L', M', A', h1', h2', h3', hp', h4'⟩ := key (c * d) (c * s) (c * 0) (mul_pos hc hs) (mul_zero c) (par.units c)
    (mul_ne_zero (by positivity) hl) (by simp [Params.units, hmu]) hcx hns
  obtain ⟨x, w, u, hu0, hu1, hne⟩ := flux_units hc hc1 d s par.delta hs hδ hδ4
  obtain ⟨s0, s1, e1, e2, e3⟩ := h4 (x, w, u)
  obtain ⟨s0', s1', e1', e2', e3'⟩ := h4' (c * x, w, u)
  refine ⟨F, F', L, L', M, M', A, A', h1, h2, h3, h1', h2', h3', x, w, u, hu0, hu1, s0, s1, s0', s1', e1, e2, ?_, e2', ?_⟩
  · have : sc c [(x : ℂ)] = [((c * x : ℝ) : ℂ)] := by simp [sc]
    rw [this]
    exact e1'
  · rw [e3, e3']
    intro h
    apply hne
    have : ((fluxNext (c * d) (c * s) (c ^ 2 * par.delta) (c * x, w, u) : ℝ) : ℂ) = (c : ℂ) * ((fluxNext d s par.delta (x, w, u) : ℝ) : ℂ) := by
      simpa [sc, Params.units] using h
    exact_mod_cast this

/-! ### Examples -/

/-- The hypotheses of C139 are met: three pixels, two paths of which none crosses the last pixel; kilometres instead of metres and minutes
instead of seconds; the standard deviations are given one by one. -/
example : ∃ (c d : ℝ) (W : Matrix (Fin 2) (Fin 3) ℂ) (data : DataVec 2) (sig : SigD) (σ : Fin 2 → ℝ) (par : Params),
    0 < c ∧ c ≠ 1 ∧ 0 < d ∧ d ≠ c ∧ W ≠ 0 ∧ (∀ i, W i 2 = 0) ∧ data.cplx = false ∧ IsSigma 2 sig σ ∧ par.lmda ≠ 0 ∧ 2 ≤ par.s ∧
    Homogeneous (pathForward W) ∧ Homogeneous identityTransform.op := by
  refine ⟨1 / 1000, 1 / 60, !![1, 2, 0; 3, 4, 0], ⟨false, ![5, 6]⟩, .vec (List.ofFn fun i : Fin 2 => ((![1, 2] i : ℝ) : ℂ)) false, ![1, 2],
    ⟨3 / 100000, 1 / 100000, 1, 10, 100, 10, 5, false, 0, ["chain"]⟩, by norm_num, by norm_num, by norm_num, by norm_num, fun h => ?_,
    fun i => by fin_cases i <;> rfl, rfl, .vector _ (fun i => by fin_cases i <;> simp), by norm_num, by norm_num,
    (path_homogeneous _).1, identity_homogeneous.1⟩
  have := congrFun (congrFun h 0) 0
  simp at this

/-- The hypotheses of the refutation for PxMALA are met by a step size well inside the stable range. -/
example : ∃ (s : ℝ) (par : Params), 0 < s ∧ par.lmda ≠ 0 ∧ par.mu = 0 ∧ par.complex = false ∧ 0 < par.nsamples ∧ 0 < par.delta ∧
    par.delta < 4 * s ^ 2 :=
  ⟨1 / 10, ⟨3 / 1000, 1 / 1000, 0, 10, 100, 10, 5, false, 0, ["chain"]⟩, by norm_num, by norm_num, rfl, rfl, by norm_num, by norm_num,
    by norm_num⟩

/-- A wavelet prior and its version in other units exist for the scales of a small problem. -/
example : ∃ (h1 : Heap ℝ) (P : S2L1), S2L1.init (fun _ => none) "synthesis" (.float (1 / 2)) [2, 3] 0 = .ok (h1, P) := ⟨_, _, rfl⟩

/-- The change of units is visible in the results: a recorded chain is multiplied by `c`, the log-posteriors are not. -/
example : (⟨some [-3], none, some [2], none, some [[1, -1]]⟩ : Arrays).units 10 1 = ⟨some [-3], none, some [20], none, some [[10, -10]]⟩ := by
  simp [Arrays.units, sc]
  norm_num

end Pxmcmc
