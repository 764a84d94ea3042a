import Verif.Model.Operators
import Verif.Props.Forward
import Verif.Props.Transforms

/-!
# C83: the two concrete forward operators
-/

namespace Pxmcmc
variable {n p k : ℕ}

theorem cdot_ofFn (x y : Fin p → ℂ) : cdot (List.ofFn x) (List.ofFn y) = Spec.inner x y := by
  unfold cdot Spec.inner
  rw [← List.sum_ofFn]
  congr 1
  apply List.ext_getElem <;> simp

/-- A function with an adjoint is linear. -/
theorem linear_of_adjoint (f : (Fin p → ℂ) → (Fin k → ℂ)) (g : (Fin k → ℂ) → (Fin p → ℂ)) (h : Spec.IsAdjointPair f g) :
    ∃ B : (Fin p → ℂ) →ₗ[ℂ] (Fin k → ℂ), ⇑B = f := by
  have e : ∀ x i, f x i = Spec.inner (g (Pi.single i 1)) x := by
    intro x i
    rw [← h, Spec.inner, Finset.sum_eq_single i]
    · simp
    · intro j _ hj
      simp [hj]
    · simp
  refine ⟨⟨⟨f, fun x y => ?_⟩, fun c x => ?_⟩, rfl⟩
  · funext i
    rw [Pi.add_apply, e, e, e]
    simp [Spec.inner, mul_add, Finset.sum_add_distrib]
  · funext i
    simp only [RingHom.id_apply, Pi.smul_apply]
    rw [e, e]
    simp only [Spec.inner, Pi.smul_apply, smul_eq_mul, Finset.mul_sum]
    exact Finset.sum_congr rfl fun j _ => by ring

/-- What is assumed of the pixel routines of pys2let, for `m` pixels: `w` wavelet and `s` scaling coefficients, synthesis
inverts analysis and returns `m` pixels, and the adjoint routines are adjoints. -/
structure S2Routines.Sound (r : S2Routines) (m w s : ℕ) : Prop where
  roundTrip : r.RoundTrip m w s
  adjoints : r.Adjoints m w s
  size : ∀ wav scal Y, wav.length = w → scal.length = s → r.inv wav scal = .ok Y → Y.length = m

/-- The transform that the operators construct. -/
theorem transform_linear (px lm : S2Routines) (m w s : ℕ) (h : px.Sound m w s) (empty : List ℂ) (he : empty.length = m) :
    WaveletTransform.init px lm false empty = .ok ⟨px, w, s⟩ ∧
    ∃ (B : (Fin (w + s) → ℂ) →ₗ[ℂ] (Fin m → ℂ)) (Bt : (Fin m → ℂ) → (Fin (w + s) → ℂ)),
      ActsAs (WaveletTransform.mk px w s).inverse B ∧ ActsAs (WaveletTransform.mk px w s).inverseAdjoint Bt ∧
      Spec.IsAdjointPair B Bt := by
  obtain ⟨w0, s0, h0, hw0, hs0, -⟩ := h.roundTrip empty he
  have hT : WaveletTransform.init px lm false empty = .ok ⟨px, w, s⟩ := by
    simp [WaveletTransform.init, h0, bind, Except.bind, hw0, hs0]
  have key : ∀ (X : Fin m → ℂ) (c : Fin (w + s) → ℂ), ∃ (y : Fin m → ℂ) (g : Fin (w + s) → ℂ),
      (WaveletTransform.mk px w s).inverse (List.ofFn c) = .ok (List.ofFn y) ∧
      (WaveletTransform.mk px w s).inverseAdjoint (List.ofFn X) = .ok (List.ofFn g) ∧ Spec.inner X y = Spec.inner g c := by
    intro X c
    obtain ⟨wav, scal, hc, hw, hs⟩ := split_vec (List.ofFn c) w s List.length_ofFn
    obtain ⟨-, w2, s2, Y', hf', hw2, hs2, ha', hd'⟩ := h.adjoints (List.ofFn X) wav scal List.length_ofFn hw hs
    obtain ⟨y, rfl⟩ := exists_ofFn Y' (h.size _ _ _ hw hs ha')
    obtain ⟨g, hg⟩ := exists_ofFn (n := w + s) (flattenMlm (.d1 w2) s2) (by
      simp [flattenMlm, WavArr.ravelF, hw2, hs2]; omega)
    refine ⟨y, g, ?_, ?_, ?_⟩
    · rw [hc, inverse_pack _ _ _ hs, ha']
    · simp only [WaveletTransform.inverseAdjoint, hf', bind, Except.bind, ← hg]
    · rw [← cdot_ofFn, ← cdot_ofFn, hd', hc, ← hg]
      simp only [flattenMlm, WavArr.ravelF]
      rw [cdot_append _ _ _ _ (by rw [hs, hs2]), add_comm]
  refine ⟨hT, ?_⟩
  choose f g h1 h2 h3 using key
  have hf : ∀ X c, f X c = f 0 c := fun X c => List.ofFn_injective (Except.ok.inj ((h1 X c).symm.trans (h1 0 c)))
  have hg : ∀ X c, g X c = g X 0 := fun X c => List.ofFn_injective (Except.ok.inj ((h2 X c).symm.trans (h2 X 0)))
  have hadj : Spec.IsAdjointPair (f 0) (fun X => g X 0) := by
    intro c X
    show Spec.inner X (f 0 c) = Spec.inner (g X 0) c
    rw [← hf X c, ← hg X c]
    exact h3 X c
  obtain ⟨B, hB⟩ := linear_of_adjoint _ _ hadj
  refine ⟨B, fun X => g X 0, ?_, fun X => h2 X 0, ?_⟩
  · intro c
    rw [hB]
    exact h1 0 c
  · rw [hB]
    exact hadj

/-- The constructed operator, in either setting, for a linear measurement. -/
theorem operator_linModel (px lm : S2Routines) (m w s : ℕ) (h : px.Sound m w s) (empty : List ℂ) (he : empty.length = m)
    (op : OpPair) (M : (Fin m → ℂ) →ₗ[ℂ] (Fin n → ℂ)) (Mt : (Fin n → ℂ) → (Fin m → ℂ)) (h1 : ActsAs op.op M)
    (h2 : ActsAs op.adj Mt) (hM : Spec.IsAdjointPair M Mt) (data : DataVec n) (sig : SigD) (W : Matrix (Fin n) (Fin n) ℂ)
    (hW : buildInvCov data sig = .ok W) (setting : String) (st : Setting) (hs : Setting.parse setting = some st) :
    ∃ F p, (do
      let T ← WaveletTransform.init px lm false empty
      ForwardOp.init data sig setting (some ⟨T.inverse, T.inverseAdjoint⟩) (some op)
        (some (if setting = "analysis" then m else T.ncoefs))) = Except.ok F ∧ F.nparams = some p ∧
      (st = .analysis → p = m) ∧ (st = .synthesis → p = w + s) ∧ F.data = data ∧ F.invcov = W ∧ F.measurement = some op ∧
      F.transform = some ⟨(WaveletTransform.mk px w s).inverse, (WaveletTransform.mk px w s).inverseAdjoint⟩ ∧
      F.setting = st ∧
      ∃ (A : (Fin p → ℂ) →ₗ[ℂ] (Fin n → ℂ)) (At : (Fin n → ℂ) → (Fin p → ℂ)), LinModel F A At := by
  obtain ⟨hT, B, Bt, hB, hBt, hadj⟩ := transform_linear px lm m w s h empty he
  have hset : (setting = "analysis" ∧ st = .analysis) ∨ (setting = "synthesis" ∧ setting ≠ "analysis" ∧ st = .synthesis) := by
    unfold Setting.parse at hs
    split_ifs at hs with ha hb
    · exact .inl ⟨ha, (Option.some.inj hs).symm⟩
    · exact .inr ⟨hb, ha, (Option.some.inj hs).symm⟩
  rw [hT]
  simp only [bind, Except.bind, ForwardOp.init, hW, hs]
  refine ⟨_, _, rfl, rfl, ?_⟩
  rcases hset with ⟨rfl, rfl⟩ | ⟨hsy, hne, rfl⟩
  · refine ⟨fun _ => rfl, fun h => (by cases h), rfl, rfl, rfl, rfl, rfl, ?_⟩
    exact ⟨M, Mt, linModel_analysis _ rfl M Mt ⟨⟨op, rfl, h1, h2⟩, hM⟩⟩
  · rw [if_neg hne]
    refine ⟨fun h => (by cases h), fun _ => rfl, rfl, rfl, rfl, rfl, rfl, ?_⟩
    exact ⟨_, _, linModel_synthesis _ rfl M Mt ⟨⟨op, rfl, h1, h2⟩, hM⟩ B Bt ⟨⟨_, rfl, hB, hBt⟩, hadj⟩⟩

/-- What an operator with `p` parameters must do: predict one value per datum from every vector of `p` parameters, return one
gradient entry per parameter, and the gradient is that of half the misfit. -/
structure Works (F : ForwardOp n) (p : ℕ) : Prop where
  nparams : F.nparams = some p
  forward : ∀ X : List ℂ, X.length = p → ∃ preds, F.forward X = .ok preds ∧ preds.length = n
  gradient : ∀ preds : List ℂ, preds.length = n → ∃ g, F.calcGradg preds = .ok g ∧ g.length = p
  derivative : ∀ (P : PriorObj) (mu : ℝ), (∀ x, ∃ pr, P.prior x = .ok pr) → ∀ X V : Fin p → ℂ,
    ∃ (L2 : ℝ → ℂ) (preds : List ℂ) (g : Fin p → ℂ), (∀ t : ℝ, ReportsL2 F P mu (X + (t : ℂ) • V) (L2 t)) ∧
      F.forward (List.ofFn X) = .ok preds ∧ F.calcGradg preds = .ok (List.ofFn g) ∧
      HasDerivAt (fun t => 1 / 2 * (L2 t).re) (Spec.inner g V).re 0

theorem works_of_linModel (F : ForwardOp n) (hW : F.invcov.conjTranspose = F.invcov) (hp : F.nparams = some p)
    (A : (Fin p → ℂ) →ₗ[ℂ] (Fin n → ℂ)) (At : (Fin n → ℂ) → (Fin p → ℂ)) (h : LinModel F A At) : Works F p where
  nparams := hp
  forward := by
    intro X hX
    obtain ⟨x, rfl⟩ := exists_ofFn X hX
    exact ⟨_, h.fwd x, List.length_ofFn⟩
  gradient := by
    intro Y hY
    obtain ⟨y, rfl⟩ := exists_ofFn Y hY
    exact ⟨_, h.grad y, List.length_ofFn⟩
  derivative := by
    intro P mu hP X V
    obtain ⟨L2, preds, g, h1, h2, h3, h4⟩ := gradg_derivative F hW P mu A At h hP X V
    exact ⟨L2, preds, g, h1, h2, h3, (h4.const_mul (1 / 2 : ℝ)).congr_deriv (by ring)⟩

theorem invcov_diag_hermitian (data : DataVec n) (hd : data.cplx = false) (sig : SigD) (σ : Fin n → ℝ)
    (hσ : IsSigma n sig σ) : ∃ W, buildInvCov data sig = .ok W ∧ W.conjTranspose = W := by
  obtain ⟨W, hW, -, rfl⟩ := C35_diagonal data hd sig σ hσ
  refine ⟨_, hW, ?_⟩
  rw [Matrix.diagonal_conjTranspose]
  congr 1
  funext i
  simp

/-- C83 for `SphericalWaveletTransformOperator`: in the analysis setting the parameters are the pixels of the map, in the
synthesis setting the wavelet and scaling coefficients; the operator works for both.  With one datum per pixel the predictions
are the map itself. -/
theorem C83_wavelet_operator (px lm : S2Routines) (L w s : ℕ) (h : px.Sound (L * (2 * L - 1)) w s) (empty : List ℂ)
    (he : empty.length = L * (2 * L - 1)) (data : DataVec n) (hd : data.cplx = false) (sig : SigD) (σ : Fin n → ℝ)
    (hσ : IsSigma n sig σ) :
    (∃ F, waveletOperator px lm empty data sig "analysis" L = .ok F ∧ Works F (L * (2 * L - 1)) ∧
      (n = L * (2 * L - 1) → ∀ X : List ℂ, X.length = n → F.forward X = .ok X) ∧
      ∀ X : List ℂ, X.length ≠ L * (2 * L - 1) → F.forward X = .error .AssertionError) ∧
    (∃ F, waveletOperator px lm empty data sig "synthesis" L = .ok F ∧ Works F (w + s) ∧
      (n = L * (2 * L - 1) → ∀ wav scal : List ℂ, wav.length = w → scal.length = s →
        F.forward (scal ++ wav) = px.inv wav scal)) ∧
    ∀ setting, setting ≠ "analysis" → setting ≠ "synthesis" →
      waveletOperator px lm empty data sig setting L = .error .ValueError := by
  obtain ⟨W, hW, hWh⟩ := invcov_diag_hermitian data hd sig σ hσ
  have hop1 : ActsAs (⟨identityForward n (mwSize L), identityAdjoint n (mwSize L)⟩ : OpPair).op
      (Matrix.mulVecLin (eye n (mwSize L) : Matrix _ _ ℂ)) := by
    intro x
    show identityForward n (mwSize L) (List.ofFn x) = _
    unfold identityForward
    rw [if_pos (by simp), matDot_ofFn]
    rfl
  have hop2 : ActsAs (⟨identityForward n (mwSize L), identityAdjoint n (mwSize L)⟩ : OpPair).adj
      (eye n (mwSize L) : Matrix _ _ ℂ).conjTranspose.mulVec := by
    intro x
    show identityAdjoint n (mwSize L) (List.ofFn x) = _
    unfold identityAdjoint
    rw [if_pos (by simp), matDot_ofFn]
  have hadj : Spec.IsAdjointPair (Matrix.mulVecLin (eye n (mwSize L) : Matrix _ _ ℂ))
      (eye n (mwSize L) : Matrix _ _ ℂ).conjTranspose.mulVec := fun x y => inner_mulVec (eye n (mwSize L)) x y
  refine ⟨?_, ?_, ?_⟩
  · obtain ⟨F, p, hF, hp, hpa, -, h1, h2, h3, h4, h5, A, At, hA⟩ := operator_linModel px lm (mwSize L) w s h empty he _ _ _
      hop1 hop2 hadj data sig W hW "analysis" .analysis rfl
    obtain rfl := hpa rfl
    refine ⟨F, hF, works_of_linModel F (by rw [h2, hWh]) hp A At hA, ?_, ?_⟩
    · intro hn X hX
      simp only [ForwardOp.forward, h5, ForwardOp.forwardAnalysis, h3, attr, bind, Except.bind]
      show identityForward n (L * (2 * L - 1)) X = _
      rw [← hn]
      exact (C27_square n X hX).1
    · intro X hX
      simp only [ForwardOp.forward, h5, ForwardOp.forwardAnalysis, h3, attr, bind, Except.bind]
      exact (C27_wrong_length n (mwSize L) X).1 hX
  · obtain ⟨F, p, hF, hp, -, hpa, h1, h2, h3, h4, h5, A, At, hA⟩ := operator_linModel px lm (mwSize L) w s h empty he _ _ _
      hop1 hop2 hadj data sig W hW "synthesis" .synthesis rfl
    obtain rfl := hpa rfl
    refine ⟨F, hF, works_of_linModel F (by rw [h2, hWh]) hp A At hA, ?_⟩
    intro hn wav scal hw hs
    obtain ⟨-, -, -, Y, -, -, -, hY, -⟩ := h.adjoints (List.replicate (L * (2 * L - 1)) 0) wav scal (by simp) hw hs
    simp only [ForwardOp.forward, h5, ForwardOp.forwardSynthesis, h3, h4, attr, bind, Except.bind]
    have e : (WaveletTransform.mk px w s).inverse (scal ++ wav) = .ok Y := by
      have := inverse_pack ⟨px, w, s⟩ wav scal hs
      rw [hY] at this
      exact this
    rw [e, hY]
    show identityForward n (L * (2 * L - 1)) Y = _
    rw [← hn]
    exact (C27_square n Y (by rw [h.size _ _ _ hw hs hY, hn])).1
  · intro setting h1 h2
    unfold waveletOperator
    rw [(transform_linear px lm _ w s h empty he).1]
    simp [bind, Except.bind, ForwardOp.init, hW, Setting.parse, h1, h2]

/-- C83 for `PathIntegralOperator` with one row per datum and one column per pixel. -/
theorem C83_path_operator (px lm : S2Routines) (L w s : ℕ) (h : px.Sound (L * (2 * L - 1)) w s) (empty : List ℂ)
    (he : empty.length = L * (2 * L - 1)) (A : Matrix (Fin n) (Fin (L * (2 * L - 1))) ℂ) (data : DataVec n)
    (hd : data.cplx = false) (sig : SigD) (σ : Fin n → ℝ) (hσ : IsSigma n sig σ) :
    (∃ F, pathOperator px lm empty A data sig "analysis" L = .ok F ∧ Works F (L * (2 * L - 1)) ∧
      (∀ x : Fin (L * (2 * L - 1)) → ℂ, F.forward (List.ofFn x) = .ok (List.ofFn fun i => ∑ j, A i j * x j)) ∧
      ∀ X : List ℂ, X.length ≠ L * (2 * L - 1) → F.forward X = .error .AssertionError) ∧
    (∃ F, pathOperator px lm empty A data sig "synthesis" L = .ok F ∧ Works F (w + s) ∧
      ∀ (wav scal : List ℂ) (y : Fin (L * (2 * L - 1)) → ℂ), wav.length = w → scal.length = s →
        px.inv wav scal = .ok (List.ofFn y) → F.forward (scal ++ wav) = .ok (List.ofFn fun i => ∑ j, A i j * y j)) ∧
    ∀ setting, setting ≠ "analysis" → setting ≠ "synthesis" →
      pathOperator px lm empty A data sig setting L = .error .ValueError := by
  obtain ⟨W, hW, hWh⟩ := invcov_diag_hermitian data hd sig σ hσ
  have hop1 : ActsAs (⟨pathForward A, pathAdjoint A⟩ : OpPair).op (Matrix.mulVecLin A) := by
    intro x
    show pathForward A (List.ofFn x) = _
    unfold pathForward
    rw [if_pos (by simp), matDot_ofFn]
    rfl
  have hop2 : ActsAs (⟨pathForward A, pathAdjoint A⟩ : OpPair).adj A.conjTranspose.mulVec := by
    intro x
    show pathAdjoint A (List.ofFn x) = _
    unfold pathAdjoint
    rw [if_pos (by simp), matDot_ofFn]
  have hadj : Spec.IsAdjointPair (Matrix.mulVecLin A) A.conjTranspose.mulVec := fun x y => inner_mulVec A x y
  refine ⟨?_, ?_, ?_⟩
  · obtain ⟨F, p, hF, hp, hpa, -, h1, h2, h3, h4, h5, B, Bt, hB⟩ := operator_linModel px lm (L * (2 * L - 1)) w s h empty he
      _ _ _ hop1 hop2 hadj data sig W hW "analysis" .analysis rfl
    obtain rfl := hpa rfl
    refine ⟨F, hF, works_of_linModel F (by rw [h2, hWh]) hp B Bt hB, ?_, ?_⟩
    · intro x
      simp only [ForwardOp.forward, h5, ForwardOp.forwardAnalysis, h3, attr, bind, Except.bind]
      exact hop1 x
    · intro X hX
      simp only [ForwardOp.forward, h5, ForwardOp.forwardAnalysis, h3, attr, bind, Except.bind]
      exact (C28_wrong_length A X).1 hX
  · obtain ⟨F, p, hF, hp, -, hpa, h1, h2, h3, h4, h5, B, Bt, hB⟩ := operator_linModel px lm (L * (2 * L - 1)) w s h empty he
      _ _ _ hop1 hop2 hadj data sig W hW "synthesis" .synthesis rfl
    obtain rfl := hpa rfl
    refine ⟨F, hF, works_of_linModel F (by rw [h2, hWh]) hp B Bt hB, ?_⟩
    intro wav scal y hw hs hY
    simp only [ForwardOp.forward, h5, ForwardOp.forwardSynthesis, h3, h4, attr, bind, Except.bind]
    have e : (WaveletTransform.mk px w s).inverse (scal ++ wav) = .ok (List.ofFn y) := by
      have := inverse_pack ⟨px, w, s⟩ wav scal hs
      rw [hY] at this
      exact this
    rw [e]
    exact hop1 y
  · intro setting h1 h2
    unfold pathOperator
    rw [(transform_linear px lm _ w s h empty he).1]
    simp [bind, Except.bind, ForwardOp.init, hW, Setting.parse, h1, h2]

/-- A path matrix with the wrong number of columns is not noticed by the constructor, but every prediction then raises
`AssertionError`. -/
theorem C83_path_columns {r c : ℕ} (px lm : S2Routines) (L w s : ℕ) (h : px.Sound (L * (2 * L - 1)) w s) (empty : List ℂ)
    (he : empty.length = L * (2 * L - 1)) (A : Matrix (Fin r) (Fin c) ℂ) (hc : c ≠ L * (2 * L - 1)) (data : DataVec n)
    (sig : SigD) (setting : String) (F : ForwardOp n) (hF : pathOperator px lm empty A data sig setting L = .ok F) (N : ℕ)
    (hN : F.nparams = some N) (X : List ℂ) (hX : X.length = N) : F.forward X = .error .AssertionError := by
  unfold pathOperator at hF
  rw [(transform_linear px lm _ w s h empty he).1] at hF
  simp only [bind, Except.bind, ForwardOp.init] at hF
  split at hF
  · cases hF
  · split at hF
    · cases hF
    · rename_i st hst
      obtain rfl := Except.ok.inj hF
      unfold Setting.parse at hst
      split_ifs at hst with ha hb
      · obtain rfl := Option.some.inj hst
        simp only [ha, if_true, Option.some.injEq] at hN
        simp only [ForwardOp.forward, ForwardOp.forwardAnalysis, attr, bind, Except.bind]
        refine (C28_wrong_length A X).1 ?_
        rw [hX, ← hN]
        exact fun e => hc e.symm
      · obtain rfl := Option.some.inj hst
        simp only [ha, if_false, Option.some.injEq] at hN
        simp only [ForwardOp.forward, ForwardOp.forwardSynthesis, attr, bind, Except.bind]
        obtain ⟨wav, scal, rfl, hw, hs⟩ := split_vec X w s (by rw [hX, ← hN]; rfl)
        obtain ⟨-, -, -, Y, -, -, -, hY, -⟩ := h.adjoints (List.replicate (L * (2 * L - 1)) 0) wav scal (by simp) hw hs
        rw [inverse_pack _ _ _ hs]
        simp only [hY]
        refine (C28_wrong_length A Y).1 ?_
        rw [h.size _ _ _ hw hs hY]
        exact fun e => hc e.symm

/-- Routines for bandlimit 1 (one pixel) with one wavelet and one scaling coefficient. -/
noncomputable def tinyRoutines : S2Routines :=
  ⟨fun X => .ok (X.map (2 * ·), X.map (3 * ·)), fun w s => .ok (List.zipWith (fun a b => 2 * a + 3 * b) w s),
    fun w s => .ok (List.zipWith (fun a b => a / 4 + b / 6) w s), fun X => .ok (X.map (· / 4), X.map (· / 6))⟩

/-- The hypotheses of C83 are met by `tinyRoutines`. -/
theorem tiny_sound : tinyRoutines.Sound (1 * (2 * 1 - 1)) 1 1 := by
  unfold tinyRoutines
  refine ⟨?_, ?_, ?_⟩
  · intro X hX
    obtain ⟨x, rfl⟩ := List.length_eq_one_iff.mp hX
    refine ⟨_, _, rfl, rfl, rfl, ?_⟩
    simp only [List.map_cons, List.map_nil, List.zipWith_cons_cons, List.zipWith_nil_left, Except.ok.injEq, List.cons.injEq,
      and_true]
    ring
  · intro X wav scal hX hw hs
    obtain ⟨x, rfl⟩ := List.length_eq_one_iff.mp hX
    obtain ⟨a, rfl⟩ := List.length_eq_one_iff.mp hw
    obtain ⟨b, rfl⟩ := List.length_eq_one_iff.mp hs
    refine ⟨⟨_, _, _, rfl, rfl, rfl, rfl, ?_⟩, ⟨_, _, _, rfl, rfl, rfl, rfl, ?_⟩⟩ <;>
      simp [cdot, Complex.conj_ofNat] <;> ring
  · intro wav scal Y hw hs hY
    obtain rfl := Except.ok.inj hY
    simp [hw, hs]

/-- C83 applied to one real datum with standard deviation 2. -/
example : ∃ F, waveletOperator tinyRoutines tinyRoutines [0] (⟨false, fun _ => 3⟩ : DataVec 1) (.num ((2 : ℝ) : ℂ) false)
    "synthesis" 1 = .ok F ∧ Works F (1 + 1) := by
  obtain ⟨-, ⟨F, hF, hW, -⟩, -⟩ := C83_wavelet_operator tinyRoutines tinyRoutines 1 1 1 tiny_sound [0] rfl
    (⟨false, fun _ => 3⟩ : DataVec 1) rfl _ _ (IsSigma.scalar 2 two_pos)
  exact ⟨F, hF, hW⟩

end Pxmcmc
