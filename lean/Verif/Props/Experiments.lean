import Verif.Model.Experiments
import Verif.Props.Operators
import Verif.Props.Noise
import Verif.Props.ChainStable

/-!
# The experiment scripts (C84–C86, C94)
-/

namespace Pxmcmc
variable {n : ℕ}

/-! ## C84: both settings -/

/-- C84: in the analysis setting no script gets as far as a sampler: whatever the operator, the prior raises. -/
theorem C84_analysis_fails {r c : ℕ} (px lm : S2Routines) (empty phi : List ℂ) (psis : List (List ℂ)) (bls bls1 peaks : List ℕ)
    (eta : ℝ) (A : Matrix (Fin r) (Fin c) ℂ) (meas : OpPair) (data : DataVec n) (sig : SigD) (L : ℕ) (lmda mu : ℝ) :
    (∀ x, topoSetup px lm empty bls data sig "analysis" L lmda mu ≠ .ok x) ∧
    (∀ x, lensingSetup px lm empty bls meas data sig "analysis" lmda mu ≠ .ok x) ∧
    (∀ x, phasevelSetup px lm empty phi psis bls bls1 peaks eta A data sig "analysis" L lmda mu ≠ .ok x) := by
  have hP : ∀ (h : Heap ℝ) T f, S2L1.init h "analysis" T bls f = .error .NotImplementedError :=
    fun h T f => (C10_analysis_not_implemented h T bls f).1
  refine ⟨?_, ?_, ?_⟩ <;> intro x hx
  · unfold topoSetup at hx
    obtain ⟨F, -, hx⟩ := bind_ok hx
    rw [hP] at hx
    cases hx
  · unfold lensingSetup at hx
    obtain ⟨T, -, hx⟩ := bind_ok hx
    obtain ⟨F, -, hx⟩ := bind_ok hx
    rw [hP] at hx
    cases hx
  · unfold phasevelSetup at hx
    obtain ⟨F, -, hx⟩ := bind_ok hx
    unfold S2L1.initPower at hx
    rw [hP] at hx
    cases hx

theorem waveletOperator_synthesis (px lm : S2Routines) (L w s : ℕ) (h : px.Sound (L * (2 * L - 1)) w s) (empty : List ℂ)
    (he : empty.length = L * (2 * L - 1)) (data : DataVec n) (sig : SigD) (W : Matrix (Fin n) (Fin n) ℂ)
    (hW : buildInvCov data sig = .ok W) :
    ∃ F, waveletOperator px lm empty data sig "synthesis" L = .ok F ∧ F.nparams = some (w + s) ∧
      ∃ (A : (Fin (w + s) → ℂ) →ₗ[ℂ] (Fin n → ℂ)) (At : (Fin n → ℂ) → (Fin (w + s) → ℂ)), LinModel F A At := by
  have hop1 : ActsAs (⟨identityForward n (mwSize L), identityAdjoint n (mwSize L)⟩ : OpPair).op
      (Matrix.mulVecLin (eye n (mwSize L) : Matrix _ _ ℂ)) := by
    intro x
    show identityForward n (mwSize L) (List.ofFn x) = _
    unfold identityForward
    rw [if_pos (by simp), matDot_ofFn]
    rfl
  have hop2 : ActsAs (⟨identityForward n (mwSize L), identityAdjoint n (mwSize L)⟩ : OpPair).adj
      (eye n (mwSize L) : Matrix _ _ ℂ).conjTranspose.mulVec := by
    intro x
    show identityAdjoint n (mwSize L) (List.ofFn x) = _
    unfold identityAdjoint
    rw [if_pos (by simp), matDot_ofFn]
  have hadj : Spec.IsAdjointPair (Matrix.mulVecLin (eye n (mwSize L) : Matrix _ _ ℂ))
      (eye n (mwSize L) : Matrix _ _ ℂ).conjTranspose.mulVec := fun x y => inner_mulVec (eye n (mwSize L)) x y
  obtain ⟨F, p, hF, hp, -, hpa, -, -, -, -, -, A, At, hA⟩ := operator_linModel px lm (mwSize L) w s h empty he _ _ _
    hop1 hop2 hadj data sig W hW "synthesis" .synthesis rfl
  obtain rfl := hpa rfl
  exact ⟨F, hF, hp, A, At, hA⟩

/-- C84: in the synthesis setting the earth-topography script builds an operator and a prior for the same parameter vectors,
provided the wavelet maps have together as many samples as the transform has coefficients. -/
theorem C84_synthesis_partial (px lm : S2Routines) (L w s : ℕ) (h : px.Sound (L * (2 * L - 1)) w s) (empty : List ℂ)
    (he : empty.length = L * (2 * L - 1)) (bls : List ℕ) (hb : ∀ b ∈ bls, 1 ≤ b)
    (hsum : (bls.map fun b => b * (2 * b - 1)).sum = w + s) (data : DataVec n) (sig : SigD)
    (σ : Fin n → ℝ) (hσ : IsSigma n sig σ) (lmda mu : ℝ) (hl : 0 ≤ lmda) (hm : 0 ≤ mu) :
    ∃ F h' P, topoSetup px lm empty bls data sig "synthesis" L lmda mu = .ok (F, h', P) ∧ F.nparams = some (w + s) ∧
      (∀ X : List ℂ, X.length = w + s → ∃ preds g, F.forward X = .ok preds ∧ preds.length = n ∧
        F.calcGradg preds = .ok g ∧ g.length = w + s) ∧
      ∃ g : (Fin (w + s) → ℂ) → ℝ, (∀ u, P.prior (List.ofFn u) = .ok (g u)) ∧
        ∀ X : Fin (w + s) → ℂ, ∃ p, P.proxf h' (List.ofFn X) = .ok (List.ofFn p) ∧
          Spec.IsProx (fun u => lmda * mu * g u) X p := by
  obtain ⟨W, hW⟩ : ∃ W, buildInvCov data sig = .ok W := by
    cases hc : data.cplx
    · exact ⟨_, (C35_diagonal data hc sig σ hσ).choose_spec.1⟩
    · exact ⟨_, buildInvCov_complex data hc sig σ hσ⟩
  obtain ⟨F, hF, hp, A, At, hA⟩ := waveletOperator_synthesis px lm L w s h empty he data sig W hW
  obtain ⟨h', P, hP, N, hN, g, hg1, -, hg2⟩ :=
    C10_wavelet_prox (𝕜 := ℂ) (fun _ => none) bls hb (lmda * mu) (mul_nonneg hl hm) 0
  rw [hsum] at hN
  subst hN
  refine ⟨F, h', P, ?_, hp, ?_, g, hg1, hg2⟩
  swap
  · intro X hX
    obtain ⟨x, rfl⟩ := exists_ofFn X hX
    exact ⟨_, _, hA.fwd x, List.length_ofFn, hA.grad _, List.length_ofFn⟩
  unfold topoSetup
  rw [hF]
  simp only [bind, Except.bind]
  rw [hP]

/-- C84: in the synthesis setting the weak-lensing script builds an operator and a prior for the same parameter vectors.  `meas` is
any measurement that takes maps of `m` pixels linearly to the data and comes with its adjoint. -/
theorem C84_lensing_partial (px lm : S2Routines) (m w s : ℕ) (h : px.Sound m w s) (empty : List ℂ) (he : empty.length = m)
    (bls : List ℕ) (hb : ∀ b ∈ bls, 1 ≤ b) (hsum : (bls.map fun b => b * (2 * b - 1)).sum = w + s) (meas : OpPair)
    (M : (Fin m → ℂ) →ₗ[ℂ] (Fin n → ℂ)) (Mt : (Fin n → ℂ) → (Fin m → ℂ)) (h1 : ActsAs meas.op M) (h2 : ActsAs meas.adj Mt)
    (hM : Spec.IsAdjointPair M Mt) (data : DataVec n) (sig : SigD) (σ : Fin n → ℝ) (hσ : IsSigma n sig σ) (lmda mu : ℝ)
    (hl : 0 ≤ lmda) (hm : 0 ≤ mu) :
    ∃ F h' P, lensingSetup px lm empty bls meas data sig "synthesis" lmda mu = .ok (F, h', P) ∧ F.nparams = some (w + s) ∧
      (∀ X : List ℂ, X.length = w + s → ∃ preds g, F.forward X = .ok preds ∧ preds.length = n ∧
        F.calcGradg preds = .ok g ∧ g.length = w + s) ∧
      (∀ (wav scal : List ℂ) (y : Fin m → ℂ), wav.length = w → scal.length = s → px.inv wav scal = .ok (List.ofFn y) →
        F.forward (scal ++ wav) = .ok (List.ofFn (M y))) ∧
      ∃ g : (Fin (w + s) → ℂ) → ℝ, (∀ u, P.prior (List.ofFn u) = .ok (g u)) ∧
        ∀ X : Fin (w + s) → ℂ, ∃ p, P.proxf h' (List.ofFn X) = .ok (List.ofFn p) ∧
          Spec.IsProx (fun u => lmda * mu * g u) X p := by
  obtain ⟨W, hW⟩ : ∃ W, buildInvCov data sig = .ok W := by
    cases hc : data.cplx
    · exact ⟨_, (C35_diagonal data hc sig σ hσ).choose_spec.1⟩
    · exact ⟨_, buildInvCov_complex data hc sig σ hσ⟩
  obtain ⟨F, p, hF, hp, -, hpa, -, -, h3, h4, h5, A, At, hA⟩ := operator_linModel px lm m w s h empty he meas M Mt h1 h2 hM data sig
    W hW "synthesis" .synthesis rfl
  obtain rfl := hpa rfl
  obtain ⟨h', P, hP, N, hN, g, hg1, -, hg2⟩ :=
    C10_wavelet_prox (𝕜 := ℂ) (fun _ => none) bls hb (lmda * mu) (mul_nonneg hl hm) 0
  rw [hsum] at hN
  subst hN
  refine ⟨F, h', P, ?_, hp, ?_, ?_, g, hg1, hg2⟩
  · rw [(transform_linear px lm m w s h empty he).1] at hF
    unfold lensingSetup
    rw [(transform_linear px lm m w s h empty he).1]
    simp only [bind, Except.bind, show ¬ ("synthesis" : String) = "analysis" by decide, if_false] at hF ⊢
    rw [hF]
    simp only
    rw [hP]
  · intro X hX
    obtain ⟨x, rfl⟩ := exists_ofFn X hX
    exact ⟨_, _, hA.fwd x, List.length_ofFn, hA.grad _, List.length_ofFn⟩
  · intro wav scal y hw hs hY
    simp only [ForwardOp.forward, h5, ForwardOp.forwardSynthesis, h3, h4, attr, bind, Except.bind]
    have e : (WaveletTransform.mk px w s).inverse (scal ++ wav) = .ok (List.ofFn y) := by
      have := inverse_pack ⟨px, w, s⟩ wav scal hs
      rw [hY] at this
      exact this
    rw [e]
    exact h1 y

/-- C84: in the synthesis setting the phase-velocity script builds an operator and a prior for the same parameter vectors: with
quadrature weights `wb` and power weights `wp`, one per coefficient, `prior` and `proxf` accept what the operator accepts, and the
threshold is `lmda·mu` times both weights.  Missing: that `proxf` belongs to `prior`, see C11. -/
theorem C84_phasevel_partial (px lm : S2Routines) (L w s : ℕ) (h : px.Sound (L * (2 * L - 1)) w s) (empty : List ℂ)
    (he : empty.length = L * (2 * L - 1)) (phi : List ℂ) (psis : List (List ℂ)) (bls bls1 peaks : List ℕ) (eta : ℝ)
    (wb wp : Fin (w + s) → ℝ) (hb : bls.flatMap mwMapWeights = List.ofFn wb) (sw ww : List ℝ) (hs : scalingWeights phi = .ok sw)
    (hww : waveletWeights bls1 psis peaks eta = .ok ww) (hp : sw ++ ww = List.ofFn wp) (hwb : ∀ i, 0 ≤ wb i)
    (hwp : ∀ i, 0 ≤ wp i) (A : Matrix (Fin n) (Fin (L * (2 * L - 1))) ℂ) (data : DataVec n) (hd : data.cplx = false) (sig : SigD)
    (σ : Fin n → ℝ) (hσ : IsSigma n sig σ) (lmda mu : ℝ) (hl : 0 ≤ lmda) (hm : 0 ≤ mu) :
    ∃ F h' P, phasevelSetup px lm empty phi psis bls bls1 peaks eta A data sig "synthesis" L lmda mu = .ok (F, h', P) ∧
      Works F (w + s) ∧
      (∀ (wav scal : List ℂ) (y : Fin (L * (2 * L - 1)) → ℂ), wav.length = w → scal.length = s →
        px.inv wav scal = .ok (List.ofFn y) → F.forward (scal ++ wav) = .ok (List.ofFn fun i => ∑ j, A i j * y j)) ∧
      (∀ u : Fin (w + s) → ℂ, P.priorPower (List.ofFn u) = .ok (∑ i, wp i * (wp i * ‖u i‖))) ∧
      ∀ X : Fin (w + s) → ℂ, ∃ p, P.proxf h' (List.ofFn X) = .ok (List.ofFn p) ∧
        Spec.IsProx (fun u => ∑ i, lmda * mu * wb i * wp i * ‖u i‖) X p := by
  obtain ⟨F, hF, hW, hf⟩ := (C83_path_operator px lm L w s h empty he A data hd sig σ hσ).2.1
  obtain ⟨h', h1, h2⟩ := initPower_eq (fun _ => none) (lmda * mu) phi psis bls bls1 peaks eta 0 wb wp hb sw hs ww hww hp
  refine ⟨F, h', ⟨.arr 0, List.ofFn wp⟩, ?_, hW, hf, fun u => ?_, fun X => ⟨fun i => softEntry (X i) (lmda * mu * wb i * wp i), ?_, ?_⟩⟩
  · unfold phasevelSetup
    rw [hF]
    simp only [bind, Except.bind]
    rw [h1]
  · unfold S2L1.priorPower
    simp only [wmul_ofFn, bind, Except.bind]
    rw [prior_ofFn _ wp rfl]
    congr 1
    refine Finset.sum_congr rfl fun i _ => ?_
    rw [norm_mul, RCLike.norm_ofReal, abs_of_nonneg (hwp i)]
  · unfold S2L1.proxf TObj.value
    simp only [h2, Option.map_some]
    exact soft_vector X _
  · exact softEntry_isProx X _ fun i => mul_nonneg (mul_nonneg (mul_nonneg hl hm) (hwb i)) (hwp i)

theorem ofFn_of_length (l : List ℝ) (N : ℕ) (h : l.length = N) : ∃ w : Fin N → ℝ, l = List.ofFn w ∧ ∀ i, w i ∈ l := by
  subst h
  exact ⟨fun i => l[i], list_eq_ofFn l, fun i => List.getElem_mem _⟩

/-- Routines for bandlimit 2 (six pixels) that keep the map as six scaling coefficients, with seven zero wavelet coefficients. -/
noncomputable def scalRoutines : S2Routines :=
  ⟨fun X => .ok (List.replicate 7 0, X), fun _ s => .ok s, fun _ s => .ok s, fun X => .ok (List.replicate 7 0, X)⟩

theorem scal_sound : scalRoutines.Sound (2 * (2 * 2 - 1)) 7 6 := by
  have hz : ∀ wav : List ℂ, cdot (List.replicate 7 0) wav = 0 ∧ cdot wav (List.replicate 7 0) = 0 := by
    intro wav
    constructor
    · generalize 7 = k
      induction k generalizing wav with
      | zero => simp [cdot]
      | succ k ih => cases wav with
        | nil => simp [cdot]
        | cons a wav => simpa [cdot, List.replicate_succ] using ih wav
    · generalize 7 = k
      induction k generalizing wav with
      | zero => simp [cdot]
      | succ k ih => cases wav with
        | nil => simp [cdot]
        | cons a wav => simpa [cdot, List.replicate_succ] using ih wav
  refine ⟨fun X hX => ⟨_, _, rfl, by simp, hX, rfl⟩, fun X wav scal hX hw hs => ⟨⟨_, _, _, rfl, by simp, hX, rfl, ?_⟩,
    ⟨_, _, _, rfl, by simp, hX, rfl, ?_⟩⟩, fun wav scal Y hw hs hY => ?_⟩
  · simpa using (hz wav).2
  · simpa using (hz wav).1
  · obtain rfl := Except.ok.inj hY
    exact hs

/-- The hypotheses of the C84 theorems are met: bandlimit 2 with the tiling of `tiling_bandlimits`. -/
example : scalRoutines.Sound (2 * (2 * 2 - 1)) 7 6 ∧ (∀ b ∈ [2, 1, 2], 1 ≤ b) ∧
    ([2, 1, 2].map fun b => b * (2 * b - 1)).sum = 7 + 6 ∧
    ActsAs (⟨fun x => .ok x, fun x => .ok x⟩ : OpPair).op (LinearMap.id : (Fin 6 → ℂ) →ₗ[ℂ] (Fin 6 → ℂ)) ∧
    Spec.IsAdjointPair (LinearMap.id : (Fin 6 → ℂ) →ₗ[ℂ] (Fin 6 → ℂ)) id ∧
    (∃ wb : Fin (7 + 6) → ℝ, [2, 1, 2].flatMap mwMapWeights = List.ofFn wb ∧ ∀ i, 0 ≤ wb i) ∧
    (∃ (sw ww : List ℝ) (wp : Fin (7 + 6) → ℝ), scalingWeights [1, 1] = .ok sw ∧
      waveletWeights [2, 1, 2] [[1, 0, 0, 0], [0, 0, 1, 0]] [0, 1] 1 = .ok ww ∧ sw ++ ww = List.ofFn wp ∧ ∀ i, 0 ≤ wp i) := by
  refine ⟨scal_sound, by decide, by decide, fun x => rfl, fun x y => rfl, ?_, ?_⟩
  · obtain ⟨wb, h1, h2⟩ := ofFn_of_length ([2, 1, 2].flatMap mwMapWeights) (7 + 6) (by simp [mwMapWeights_length])
    exact ⟨wb, h1, fun i => (weights_pos [2, 1, 2] (by decide) _ (h2 i)).le⟩
  · have b1 : bandlimitOf [1, 1] = .ok 2 := by simp [bandlimitOf, nonzeroIdx, List.range_succ]
    have hpow : ∀ l : List ℂ, 0 ≤ power l := fun l => List.sum_nonneg (by simp)
    obtain ⟨wp, h1, h2⟩ := ofFn_of_length (sinWeights 2 (2 * Real.pi ^ 2 / (power [1, 1] * mwLength 2)) ++
      (sinWeights 1 (2 * Real.pi ^ 2 * (0 : ℕ) ^ (1 : ℝ) / (power [1, 0, 0, 0] * mwLength 1)) ++
        sinWeights 2 (2 * Real.pi ^ 2 * (1 : ℕ) ^ (1 : ℝ) / (power [0, 0, 1, 0] * mwLength 2)))) (7 + 6) (by simp [sinWeights_length])
    refine ⟨_, _, wp, by unfold scalingWeights; rw [b1]; rfl, ?_, h1, fun i => ?_⟩
    · simp [waveletWeights, waveletScales]
    have := hpow [1, 1]
    have := hpow [1, 0, 0, 0]
    have := hpow [0, 0, 1, 0]
    rcases List.mem_append.mp (h2 i) with hx | hx
    · exact sinWeights_nonneg (by norm_num) (by positivity) _ hx
    · rcases List.mem_append.mp hx with hx | hx <;> exact sinWeights_nonneg (by norm_num) (by positivity) _ hx

/-- C84 is false: the documented analysis setting does not work. -/
theorem C84_settings_refuted : ¬ ∀ (setting : String), setting = "analysis" ∨ setting = "synthesis" →
    ∀ (px lm : S2Routines) (empty : List ℂ) (bls : List ℕ) (data : DataVec 1) (sig : SigD) (F : ForwardOp 1),
      waveletOperator px lm empty data sig setting 1 = .ok F →
      ∃ x, topoSetup px lm empty bls data sig setting 1 1 1 = .ok x := by
  intro H
  obtain ⟨⟨F, hF, -⟩, -⟩ := C83_wavelet_operator tinyRoutines tinyRoutines 1 1 1 tiny_sound [0] rfl (⟨false, fun _ => 0⟩ : DataVec 1) rfl
    _ _ (IsSigma.scalar 1 one_pos)
  obtain ⟨x, hx⟩ := H "analysis" (Or.inl rfl) tinyRoutines tinyRoutines [0] [1] _ _ F hF
  exact (C84_analysis_fails tinyRoutines tinyRoutines [0] [] [] [1] [] [] 1 (0 : Matrix (Fin 0) (Fin 0) ℂ) ⟨fun x => .ok x, fun x => .ok x⟩
    _ _ 1 1 1).1 x hx

/-! ## C85: weights of the weak-lensing likelihood -/

/-- C85: the misfit that the weak-lensing script reports for observed shears `g` and predicted shears `g'`: both are weighted by
`measurement.inv_cov`, and the errors are its reciprocals, so each pixel counts with the fourth power of its weight. -/
theorem C85_fourth_power_partial (w : WL) (v : Fin n → ℝ) (hw : w.invCov = List.ofFn v) (hv : ∀ i, 0 < v i)
    (g g' d preds : Fin n → ℂ) (hd : covWeight w (List.ofFn g) = .ok (List.ofFn d))
    (hp : covWeight w (List.ofFn g') = .ok (List.ofFn preds)) (setting : String) (t m : Option OpPair) (np : Option ℕ)
    (F : ForwardOp n)
    (hF : ForwardOp.init ⟨true, d⟩ (.vec (w.invCov.map fun x => ((1 / x : ℝ) : ℂ)) false) setting t m np = .ok F)
    (P : PriorObj) (mu : ℝ) (X : List ℂ) (pr : ℝ) (hpr : P.prior X = .ok pr) :
    ∃ logPi L2 : ℂ, logpi F P mu X (List.ofFn preds) = .ok (logPi, L2, pr) ∧
      ‖L2‖ = ∑ i, v i ^ 4 * ‖g i - g' i‖ ^ 2 := by
  have hc : ∀ (a b : Fin n → ℂ), covWeight w (List.ofFn a) = .ok (List.ofFn b) → ∀ i, b i = a i * (v i : ℂ) := by
    intro a b hab i
    unfold covWeight at hab
    rw [hw, bcast_eq _ _ (by simp)] at hab
    have h1 := Except.ok.inj hab
    rw [zip_ofFn, map_ofFn'] at h1
    exact (congrFun (List.ofFn_injective h1) i).symm
  have hσ : IsSigma n (.vec (w.invCov.map fun x => ((1 / x : ℝ) : ℂ)) false) fun i => 1 / v i := by
    rw [hw, map_ofFn']
    exact IsSigma.vector _ fun i => one_div_pos.mpr (hv i)
  obtain ⟨lp, L2, h1, -, -, h2, -⟩ := C37_complex_misfit_partial ⟨true, d⟩ rfl _ _ hσ setting t m np F hF P mu X pr hpr preds
  refine ⟨lp, L2, h1, ?_⟩
  rw [h2]
  unfold misfit
  refine Finset.sum_congr rfl fun i _ => ?_
  have h0 := (hv i).ne'
  show ‖d i - preds i‖ ^ 2 / (1 / v i) ^ 2 = _
  rw [hc g d hd i, hc g' preds hp i, ← sub_mul, norm_mul, Complex.norm_real, Real.norm_of_nonneg (hv i).le]
  field_simp

/-- C85 is false: with the 30 galaxies per pixel of the script a shear residual is not weighted by its inverse noise
variance `2·30/0.37²`, but by the square of that. -/
theorem C85_weights_refuted : ¬ ∀ (w : WL) (g g' d preds : Fin 1 → ℂ) (F : ForwardOp 1) (P : PriorObj) (lp L2 : ℂ) (pr : ℝ),
    w.invCov = [√(2 * 30 / varE)] → covWeight w (List.ofFn g) = .ok (List.ofFn d) →
    covWeight w (List.ofFn g') = .ok (List.ofFn preds) →
    ForwardOp.init ⟨true, d⟩ (.vec (w.invCov.map fun x => ((1 / x : ℝ) : ℂ)) false) "synthesis" none none none = .ok F →
    logpi F P 1 [] (List.ofFn preds) = .ok (lp, L2, pr) → ‖L2‖ = 2 * 30 / 0.37 ^ 2 * ‖g 0 - g' 0‖ ^ 2 := by
  intro H
  set q : ℝ := 2 * 30 / varE with hq
  have hqv : q = 2 * 30 / 0.37 ^ 2 := by rw [hq]; unfold varE; norm_num
  have hq0 : 0 < q := by rw [hqv]; norm_num
  have hs : 0 < √q := Real.sqrt_pos.mpr hq0
  let w : WL := ⟨1, [], ⟨[1, 1], [true]⟩, [√q]⟩
  have hw : w.invCov = List.ofFn fun _ : Fin 1 => √q := by simp [w]
  have hcov : ∀ a : Fin 1 → ℂ, covWeight w (List.ofFn a) = .ok (List.ofFn fun i => a i * ((√q : ℝ) : ℂ)) := by
    intro a
    unfold covWeight
    rw [hw, bcast_eq _ _ (by simp)]
    show Except.ok _ = _
    rw [zip_ofFn, map_ofFn']
  have hσ : IsSigma 1 (.vec (w.invCov.map fun x => ((1 / x : ℝ) : ℂ)) false) fun _ => 1 / √q := by
    rw [hw, map_ofFn']
    exact IsSigma.vector _ fun i => one_div_pos.mpr hs
  obtain ⟨F, hF⟩ : ∃ F, ForwardOp.init (⟨true, fun i : Fin 1 => (1 : ℂ) * ((√q : ℝ) : ℂ)⟩ : DataVec 1)
      (.vec (w.invCov.map fun x => ((1 / x : ℝ) : ℂ)) false) "synthesis" none none none = .ok F := by
    have hW := buildInvCov_complex (⟨true, fun i : Fin 1 => (1 : ℂ) * ((√q : ℝ) : ℂ)⟩ : DataVec 1) rfl _ _ hσ
    unfold ForwardOp.init
    rw [hW]
    exact ⟨_, rfl⟩
  obtain ⟨lp, L2, h1, h2⟩ := C85_fourth_power_partial w (fun _ => √q) hw (fun _ => hs) (fun _ => 1) (fun _ => 0) _ _
    (hcov _) (hcov _) "synthesis" none none none F hF ⟨fun _ => .ok 0, fun x => .ok x⟩ 1 [] 0 rfl
  have h3 := H w (fun _ => 1) (fun _ => 0) _ _ F _ lp L2 0 rfl (hcov _) (hcov _) hF h1
  rw [h2, ← hqv] at h3
  have h4 : √q ^ 4 = q ^ 2 := by
    rw [show (4 : ℕ) = 2 * 2 from rfl, pow_mul, Real.sq_sqrt hq0.le]
  simp [h4] at h3
  have : q * (q - 1) = 0 := by nlinarith
  have hq1 : 1 < q := by rw [hqv]; norm_num
  nlinarith

theorem zipWith_ofFn {α β γ : Type} (f : α → β → γ) (a : Fin n → α) (b : Fin n → β) :
    List.zipWith f (List.ofFn a) (List.ofFn b) = List.ofFn fun i => f (a i) (b i) := by
  apply List.ext_getElem <;> simp

/-! ## C86: noise level of the earth-topography data -/

/-- C86: the noise level is `σ` per unit area (its square times the pixel area is `σ²`), multiplied by the requested factor in
the African block. -/
theorem C86_levels_partial (sigma : ℝ) (scale : ℤ) (areas : List ℝ) (block : List Bool) (ha : ∀ a ∈ areas, 0 < a)
    (hl : areas.length = block.length) :
    (topoSig sigma scale areas block).length = areas.length ∧
    ∀ (i : ℕ) (a s : ℝ) (b : Bool), areas[i]? = some a → block[i]? = some b → (topoSig sigma scale areas block)[i]? = some s →
      s ^ 2 * a = if scale ≠ 0 ∧ b = true then sigma ^ 2 * (scale : ℝ) ^ 2 else sigma ^ 2 := by
  refine ⟨by simp [topoSig, hl], fun i a s b h1 h2 h3 => ?_⟩
  have ha' := ha a (List.mem_of_getElem? h1)
  have hz : (areas.zip block)[i]? = some (a, b) := by
    rw [List.getElem?_zip_eq_some]; exact ⟨h1, h2⟩
  unfold topoSig at h3
  rw [List.getElem?_map, hz] at h3
  have h4 := Option.some.inj h3
  rw [← h4]
  dsimp only
  have hsq : √(sigma ^ 2 / a) ^ 2 = sigma ^ 2 / a := Real.sq_sqrt (by positivity)
  split_ifs
  · rw [mul_pow, hsq]; field_simp
  · rw [hsq]; field_simp

/-- C86: the misfit that the script reports when the sampler sits exactly at the true map (in km): the noise is in metres, the
data are divided by 1000 and the errors are not, so it is the noise's sum of squares divided by a million. -/
theorem C86_million (σ z : Fin n → ℝ) (hσ : ∀ i, 0 < σ i) (topo d : Fin n → ℂ)
    (hd : ∃ noise, topoNoise (List.ofFn σ) (List.ofFn z) = .ok noise ∧ List.ofFn d = topoData (List.ofFn topo) noise)
    (setting : String) (t m : Option OpPair) (np : Option ℕ) (F : ForwardOp n)
    (hF : ForwardOp.init ⟨true, d⟩ (.vec (List.ofFn fun i => (σ i : ℂ)) false) setting t m np = .ok F)
    (P : PriorObj) (mu : ℝ) (X : List ℂ) (pr : ℝ) (hpr : P.prior X = .ok pr) :
    ∃ logPi L2 : ℂ, logpi F P mu X (List.ofFn fun i => topo i / 1000) = .ok (logPi, L2, pr) ∧
      ‖L2‖ = (∑ i, z i ^ 2) / 10 ^ 6 := by
  obtain ⟨noise, h1, h2⟩ := hd
  have hneg : ¬ ∃ s ∈ List.ofFn σ, s < 0 := by
    rintro ⟨s, hs, hlt⟩
    obtain ⟨i, rfl⟩ := List.mem_ofFn.mp hs
    exact absurd (hσ i) (not_lt.mpr hlt.le)
  unfold topoNoise at h1
  rw [if_neg hneg] at h1
  have h3 : List.zipWith (· * ·) (List.ofFn σ) (List.ofFn z) = List.ofFn fun i => σ i * z i := by
    rw [zipWith_ofFn]
  have h4 : d = fun i => (topo i + ((σ i * z i : ℝ) : ℂ)) / 1000 := by
    rw [← Except.ok.inj h1, h3] at h2
    unfold topoData at h2
    rw [zipWith_ofFn, map_ofFn'] at h2
    exact List.ofFn_injective h2
  obtain ⟨lp, L2, e1, -, -, e2, -⟩ := C37_complex_misfit_partial ⟨true, d⟩ rfl _ _ (IsSigma.vector σ hσ) setting t m np F hF
    P mu X pr hpr fun i => topo i / 1000
  refine ⟨lp, L2, e1, ?_⟩
  rw [e2]
  unfold misfit
  rw [Finset.sum_div]
  refine Finset.sum_congr rfl fun i _ => ?_
  have h0 := (hσ i).ne'
  show ‖d i - topo i / 1000‖ ^ 2 / σ i ^ 2 = _
  rw [h4]
  have : (topo i + ((σ i * z i : ℝ) : ℂ)) / 1000 - topo i / 1000 = ((σ i * z i / 1000 : ℝ) : ℂ) := by
    push_cast; ring
  rw [this, Complex.norm_real, Real.norm_eq_abs, sq_abs]
  field_simp
  norm_num

/-- C86 is false: the misfit of the true map is not the sum of squares of the standardised noise. -/
theorem C86_units_refuted : ¬ ∀ (σ z : Fin 1 → ℝ) (topo d : Fin 1 → ℂ) (noise : List ℝ) (F : ForwardOp 1) (P : PriorObj)
    (lp L2 : ℂ) (pr : ℝ), (∀ i, 0 < σ i) → topoNoise (List.ofFn σ) (List.ofFn z) = .ok noise →
    List.ofFn d = topoData (List.ofFn topo) noise →
    ForwardOp.init ⟨true, d⟩ (.vec (List.ofFn fun i => (σ i : ℂ)) false) "synthesis" none none none = .ok F →
    logpi F P 1 [] (List.ofFn fun i => topo i / 1000) = .ok (lp, L2, pr) → ‖L2‖ = ∑ i, z i ^ 2 := by
  intro H
  have hn : topoNoise (List.ofFn fun _ : Fin 1 => (1 : ℝ)) (List.ofFn fun _ : Fin 1 => (1 : ℝ)) = .ok [1] := by
    simp [topoNoise]
  have hd : List.ofFn (fun _ : Fin 1 => (1 / 1000 : ℂ)) = topoData (List.ofFn fun _ : Fin 1 => (0 : ℂ)) [1] := by
    simp [topoData]
  have hW := buildInvCov_complex (⟨true, fun _ => 1 / 1000⟩ : DataVec 1) rfl _ _ (IsSigma.vector (fun _ => 1) fun _ => one_pos)
  obtain ⟨F, hF⟩ : ∃ F, ForwardOp.init (⟨true, fun _ => 1 / 1000⟩ : DataVec 1) (.vec (List.ofFn fun _ : Fin 1 => ((1 : ℝ) : ℂ)) false)
      "synthesis" none none none = .ok F := by
    unfold ForwardOp.init
    rw [hW]
    exact ⟨_, rfl⟩
  obtain ⟨lp, L2, h1, h2⟩ := C86_million (fun _ => 1) (fun _ => 1) (fun _ => one_pos) (fun _ => 0) (fun _ => 1 / 1000)
    ⟨[1], hn, hd⟩ "synthesis" none none none F hF ⟨fun _ => .ok 0, fun x => .ok x⟩ 1 [] 0 rfl
  have h3 := H (fun _ => 1) (fun _ => 1) (fun _ => 0) (fun _ => 1 / 1000) [1] F _ lp L2 0 (fun _ => one_pos) hn hd hF h1
  rw [h2] at h3
  norm_num at h3

/-! ## C94: step sizes of the scripts -/

/-- C94: with `lmda = delta/2`, as set by the phase-velocity and weak-lensing scripts, one MYULA step from two points that the
proximal map sends to zero (all coefficients below the threshold) moves their difference `d` to `-(d + delta*Q d)`: it grows in
every direction that the data constrain. -/
theorem C94_half_step {p : ℕ} (M : Sampler n) (R : Rng) {fwd : (Fin p → ℂ) → (Fin n → ℂ)} {grad : (Fin n → ℂ) → (Fin p → ℂ)}
    {prox : (Fin p → ℂ) → (Fin p → ℂ)} {pri : (Fin p → ℂ) → ℝ} (tot : Total M p fwd grad prox pri)
    (hl : M.par.lmda = M.par.delta / 2) (Q : Matrix (Fin p) (Fin p) ℂ)
    (hlin : ∀ x y, grad (fwd x) - grad (fwd y) = Q.mulVec (x - y)) (x y : Fin p → ℂ) (hx : prox x = 0) (hy : prox y = 0)
    (r : R.σ) :
    ∃ x' y' r', myulaStep M R ⟨List.ofFn x, List.ofFn (fwd x), r⟩ = .ok ⟨List.ofFn x', List.ofFn (fwd x'), r'⟩ ∧
      myulaStep M R ⟨List.ofFn y, List.ofFn (fwd y), r⟩ = .ok ⟨List.ofFn y', List.ofFn (fwd y'), r'⟩ ∧
      ∀ i, x' i - y' i = -((x i - y i) + (M.par.delta : ℂ) * Q.mulVec (x - y) i) := by
  refine ⟨_, _, _, myulaStep_vec M R tot x r, myulaStep_vec M R tot y r, fun i => ?_⟩
  have h1 := congrFun (hlin x y) i
  rw [← h1]
  have hd : (M.par.delta : ℂ) ≠ 0 := by
    intro h0
    apply tot.lmda
    rw [hl, Complex.ofReal_eq_zero.mp h0, zero_div]
  simp only [ulaStep, gradVec, hx, hy, hl, Pi.zero_apply, Pi.sub_apply, sub_zero]
  push_cast
  field_simp
  ring

/-- C94 is false for those scripts: for every `delta` and `mu` there is a problem (one coefficient, identity operator, unit
error) on which two chains with the same random numbers move apart by the factor `1 + delta` while below the threshold. -/
theorem C94_half_refuted (delta mu : ℝ) (hd : 0 < delta) (hm : 0 < mu) :
    ∃ (M : Sampler 1) (x y : Fin 1 → ℂ), M.par.delta = delta ∧ M.par.lmda = delta / 2 ∧
      M.P.proxf = L1.proxf ⟨.synthesis, fun x => .ok x, fun x => .ok x, .scalar (M.par.lmda * mu)⟩ ∧ x ≠ y ∧
      ∀ (R : Rng) (r : R.σ), ∃ (x' y' : Fin 1 → ℂ) (r' : R.σ), myulaStep M R ⟨List.ofFn x, List.ofFn x, r⟩ = .ok ⟨List.ofFn x', List.ofFn x', r'⟩ ∧
        myulaStep M R ⟨List.ofFn y, List.ofFn y, r⟩ = .ok ⟨List.ofFn y', List.ofFn y', r'⟩ ∧
        Spec.distSq x' y' = (1 + delta) ^ 2 * Spec.distSq x y ∧ Spec.distSq x y < Spec.distSq x' y' := by
  set par : Params := ⟨delta / 2, delta, mu, 1, 4, 3, 2, false, 0, ["chain"]⟩ with hpar
  set t : ℝ := delta / 2 * mu with ht
  have ht0 : 0 < t := by positivity
  have h0 := demo_total par (by simp [hpar]; exact hd.ne')
  have tot : Total (demoL1 t par) 1 (fun x => x) (fun y => y) (fun x i => softEntry (x i) t) (fun x => ∑ i, ‖x i‖) := by
    refine ⟨rfl, h0.forward, h0.gradg, fun x => soft_scalar x t, fun x => ?_, h0.lmda⟩
    show Except.ok _ = _
    rw [L1.prior, norm_sum_ofFn]
  refine ⟨demoL1 t par, fun _ => (t : ℂ), fun _ => 0, rfl, rfl, rfl, ?_, ?_⟩
  · intro h
    have := congrFun h 0
    simp at this
    exact ht0.ne' this
  · intro R r
    have hz : ∀ z : ℂ, ‖z‖ ≤ t → (fun _ : Fin 1 => softEntry z t) = 0 := by
      intro z hz
      funext i
      show softEntry z t = 0
      unfold softEntry
      simp [not_lt.mpr hz]
    obtain ⟨x', y', r', h1, h2, h3⟩ := C94_half_step (demoL1 t par) R tot rfl 1
      (fun x y => (Matrix.one_mulVec _).symm) (fun _ => (t : ℂ)) (fun _ => 0)
      (hz _ (by rw [Complex.norm_real, Real.norm_of_nonneg ht0.le])) (hz _ (by simp [ht0.le])) r
    have e : Spec.distSq x' y' = (1 + delta) ^ 2 * Spec.distSq (fun _ : Fin 1 => (t : ℂ)) fun _ => 0 := by
      unfold Spec.distSq
      simp only [Fin.sum_univ_one]
      rw [h3 0, Matrix.one_mulVec]
      have : ∀ u : Fin 1 → ℂ, u 0 = (t : ℂ) → -((t : ℂ) - 0 + ((demoL1 t par).par.delta : ℂ) * u 0) =
          ((-((1 + delta) * t) : ℝ) : ℂ) := by
        intro u hu
        rw [hu]
        show -((t : ℂ) - 0 + (delta : ℂ) * t) = _
        push_cast
        ring
      rw [this _ (by simp)]
      rw [sub_zero, Complex.norm_real, Complex.norm_real, Real.norm_eq_abs, Real.norm_eq_abs, sq_abs, sq_abs]
      ring
    refine ⟨x', y', r', h1, h2, e, ?_⟩
    rw [e]
    have hp : 0 < Spec.distSq (fun _ : Fin 1 => (t : ℂ)) fun _ => 0 := by
      unfold Spec.distSq
      simp only [Fin.sum_univ_one, sub_zero, Complex.norm_real, Real.norm_eq_abs, sq_abs]
      positivity
    have : 1 < (1 + delta) ^ 2 := by nlinarith
    nlinarith

/-- C94: with `lmda = delta`, the defaults of the earth-topography script (both 1e-6), chains with the same random numbers never
move apart as long as the data term's largest eigenvalue is at most `1/delta`. -/
theorem C94_equal_partial {p : ℕ} (M : Sampler n) (R : Rng) {fwd : (Fin p → ℂ) → (Fin n → ℂ)}
    {grad : (Fin n → ℂ) → (Fin p → ℂ)} {prox : (Fin p → ℂ) → (Fin p → ℂ)} {pri : (Fin p → ℂ) → ℝ}
    (tot : Total M p fwd grad prox pri) (g : (Fin p → ℂ) → ℝ) (hg : ConvexOn ℝ Set.univ g)
    (hprox : ∀ x, Spec.IsProx g x (prox x)) (Q : Matrix (Fin p) (Fin p) ℂ) (hQ : Q.IsHermitian) (Lf : ℝ) (hL : 0 ≤ Lf)
    (h0 : ∀ v, 0 ≤ (Spec.inner v (Q.mulVec v)).re) (h1 : ∀ v, (Spec.inner v (Q.mulVec v)).re ≤ Lf * Spec.distSq v 0)
    (hlin : ∀ x y, grad (fwd x) - grad (fwd y) = Q.mulVec (x - y)) (hd : M.par.delta = 1e-6) (hl : M.par.lmda = 1e-6)
    (hLf : Lf ≤ 10 ^ 6) (x0 y0 : Fin p → ℂ) (r : R.σ) (m : ℕ) (T T' : ℕ → Cur R)
    (hT0 : T 0 = ⟨List.ofFn x0, List.ofFn (fwd x0), r⟩) (hT0' : T' 0 = ⟨List.ofFn y0, List.ofFn (fwd y0), r⟩)
    (hT : ∀ k < m, myulaStep M R (T k) = .ok (T (k + 1))) (hT' : ∀ k < m, myulaStep M R (T' k) = .ok (T' (k + 1))) :
    ∃ x y : ℕ → Fin p → ℂ, x 0 = x0 ∧ y 0 = y0 ∧
      (∀ k ≤ m, (T k).X = List.ofFn (x k) ∧ (T' k).X = List.ofFn (y k) ∧ (T k).rng = (T' k).rng) ∧
      ∀ k < m, Spec.distSq (x (k + 1)) (y (k + 1)) ≤ Spec.distSq (x k) (y k) := by
  refine C47_never_separate M R tot g hg hprox Q hQ Lf hL h0 h1 hlin (by rw [hl]; norm_num) (by rw [hd]; norm_num) ?_ x0 y0 r m
    T T' hT0 hT0' hT hT'
  rw [hd, hl]
  norm_num at hLf ⊢
  linarith

/-- The hypotheses of C84 are met: one pixel, one wavelet and one scaling map of bandlimit 1. -/
example : ∃ F h' P, topoSetup tinyRoutines tinyRoutines [0] [1, 1] (⟨true, fun _ => 3⟩ : DataVec 1) (.num ((2 : ℝ) : ℂ) false)
    "synthesis" 1 1e-6 1 = .ok (F, h', P) ∧ F.nparams = some (1 + 1) := by
  obtain ⟨F, h', P, h1, h2, -⟩ := C84_synthesis_partial tinyRoutines tinyRoutines 1 1 1 tiny_sound [0] rfl [1, 1] (by simp)
    (by simp) (⟨true, fun _ => 3⟩ : DataVec 1) _ _ (IsSigma.scalar 2 two_pos) 1e-6 1 (by norm_num) (by norm_num)
  exact ⟨F, h', P, h1, h2⟩

/-- Two pixels of area 1/4 and 4, the second in the block, with the noise three times as large there. -/
example : ∀ a ∈ [1 / 4, (4 : ℝ)], 0 < a := by
  intro a ha
  rcases List.mem_cons.mp ha with rfl | ha
  · norm_num
  · rw [List.mem_singleton.mp ha]; norm_num

end Pxmcmc
