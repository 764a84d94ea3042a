import Verif.Lemmas.Listing

/-! # Property C140: neither the order of the observations nor their repetition matters -/

namespace Pxmcmc
variable {n n' k : ℕ}

/-- The errors of the new list: one per observation, or one number for all if every observation occurs equally often. -/
inductive SigRelist (φ : Fin n' → Fin n) : SigD → SigD → Prop where
  | vec (σ : Fin n → ℂ) (cplx : Bool) : SigRelist φ (.vec (List.ofFn σ) cplx) (.vec (List.ofFn (sigmas φ σ)) cplx)
  | num (x : ℂ) (cplx : Bool) (m : ℕ) (hm : 0 < m) (h : ∀ i, copies φ i = m) : SigRelist φ (.num x cplx) (.num (((√(m : ℝ) : ℝ) : ℂ) * x) cplx)
  | npScalar (x : ℝ) (m : ℕ) (hm : 0 < m) (h : ∀ i, copies φ i = m) : SigRelist φ (.npScalar x) (.npScalar (√(m : ℝ) * x))

theorem relist_ofFn (φ : Fin n' → Fin n) (v : Fin n → ℂ) : relist φ (List.ofFn v) = List.ofFn fun j => v (φ j) := by
  unfold relist
  rw [dif_pos (by simp)]
  simp

theorem copies_pos {φ : Fin n' → Fin n} (hφ : Function.Surjective φ) (i : Fin n) : 0 < copies φ i := by
  obtain ⟨j, rfl⟩ := hφ i
  exact Finset.card_pos.mpr ⟨j, by simp⟩

theorem complexVar_relist (a b : Bool) (m : ℕ) (x : ℂ) :
    complexVar a b ((((√(m : ℝ) : ℝ) : ℂ) * x) ^ 2) = (m : ℂ) * complexVar a b (x ^ 2) := by
  have h : (((√(m : ℝ) : ℝ) : ℂ)) ^ 2 = (m : ℂ) := by
    rw [← Complex.ofReal_pow, Real.sq_sqrt (Nat.cast_nonneg m)]
    simp
  unfold complexVar
  rw [mul_pow, h]
  split <;> ring

/-- The weights of the misfit. -/
theorem buildInvCov_relist {φ : Fin n' → Fin n} (hφ : Function.Surjective φ) (data : DataVec n) {sig sig' : SigD} (h : SigRelist φ sig sig')
    (W : Matrix (Fin n) (Fin n) ℂ) (hW : buildInvCov data sig = .ok W) :
    ∃ w : Fin n → ℂ, W = Matrix.diagonal w ∧
      buildInvCov (data.relist φ) sig' = .ok (Matrix.diagonal fun j => w (φ j) / (copies φ (φ j) : ℂ)) := by
  have hc : ∀ i, ((copies φ i : ℕ) : ℂ) ≠ 0 := fun i => by exact_mod_cast (copies_pos hφ i).ne'
  cases h with
  | vec σ cplx =>
    simp only [buildInvCov] at hW
    rw [dif_pos (by simp)] at hW
    simp only [List.getElem_ofFn, Fin.getElem_fin, Fin.eta] at hW
    split at hW
    · cases hW
    · rename_i hne
      cases hW
      refine ⟨_, rfl, ?_⟩
      simp only [buildInvCov]
      rw [dif_pos (by simp)]
      simp only [List.getElem_ofFn, Fin.getElem_fin, Fin.eta, DataVec.relist, sigmas, complexVar_relist]
      rw [if_neg]
      · refine congrArg _ (congrArg _ ?_)
        funext j
        rw [div_div, mul_comm]
      · rintro ⟨j, hj⟩
        rcases mul_eq_zero.mp hj with h0 | h0
        · exact hc _ h0
        · exact hne ⟨φ j, h0⟩
  | num x cplx m hm hcm =>
    have hm0 : (m : ℂ) ≠ 0 := by exact_mod_cast hm.ne'
    unfold buildInvCov at hW
    simp only at hW
    split at hW
    · split at hW <;> cases hW
    · rename_i hne
      cases hW
      refine ⟨_, rfl, ?_⟩
      unfold buildInvCov
      simp only [DataVec.relist, complexVar_relist]
      rw [if_neg (mul_ne_zero hm0 hne)]
      refine congrArg _ (congrArg _ ?_)
      funext j
      rw [hcm, div_div, mul_comm]
  | npScalar x m hm hcm =>
    have hm0 : (m : ℂ) ≠ 0 := by exact_mod_cast hm.ne'
    unfold buildInvCov at hW
    simp only at hW
    split at hW
    · rename_i hd
      split at hW
      · cases hW
      · rename_i hne
        cases hW
        refine ⟨_, rfl, ?_⟩
        unfold buildInvCov
        simp only [DataVec.relist, hd, if_true, Complex.ofReal_mul, complexVar_relist]
        rw [if_neg (mul_ne_zero hm0 hne)]
        refine congrArg _ (congrArg _ ?_)
        funext j
        rw [hcm, div_div, mul_comm]
    · cases hW

/-- Sums over the new list. -/
theorem sum_relist {φ : Fin n' → Fin n} (hφ : Function.Surjective φ) (f : Fin n → ℂ) :
    ∑ j, f (φ j) / (copies φ (φ j) : ℂ) = ∑ i, f i := by
  rw [← Finset.sum_fiberwise (s := Finset.univ) (g := φ)]
  refine Finset.sum_congr rfl fun i _ => ?_
  have hc : ((copies φ i : ℕ) : ℂ) ≠ 0 := by exact_mod_cast (copies_pos hφ i).ne'
  rw [Finset.sum_congr rfl (g := fun _ => f i / (copies φ i : ℂ)) fun j hj => by rw [(Finset.mem_filter.mp hj).2]]
  rw [Finset.sum_const, nsmul_eq_mul]
  show ((copies φ i : ℕ) : ℂ) * _ = _
  field_simp

theorem fibre_sum {φ : Fin n' → Fin n} (hφ : Function.Surjective φ) (f : Fin n → ℂ) (i : Fin n) :
    ∑ j ∈ Finset.univ.filter (fun j => φ j = i), f (φ j) / (copies φ (φ j) : ℂ) = f i := by
  have hc : ((copies φ i : ℕ) : ℂ) ≠ 0 := by exact_mod_cast (copies_pos hφ i).ne'
  rw [Finset.sum_congr rfl (g := fun _ => f i / (copies φ i : ℂ)) fun j hj => by rw [(Finset.mem_filter.mp hj).2]]
  rw [Finset.sum_const, nsmul_eq_mul]
  show ((copies φ i : ℕ) : ℂ) * _ = _
  field_simp

theorem restated_relist {φ : Fin n' → Fin n} (hφ : Function.Surjective φ) (data : DataVec n) {o o' : OpPair} (ho : Relisted φ o o')
    (w : Fin n → ℂ) (set : Setting) (tr : Option OpPair) (np : Option ℕ) (P : PriorObj) (par : Params) (k : ℕ) :
    Restated (relist φ)
      (⟨⟨data, Matrix.diagonal w, set, tr, some o, np⟩, P, par, k⟩ : Sampler n)
      (⟨⟨data.relist φ, Matrix.diagonal fun j => w (φ j) / (copies φ (φ j) : ℂ), set, tr, some o', np⟩, P, par, k⟩ : Sampler n') where
  fwd X := by
    cases set with
    | analysis => exact ho.op X
    | synthesis =>
      show (attr tr).bind _ = ((attr tr).bind _).map _
      cases attr tr with
      | error e => rfl
      | ok t =>
        show (t.op X).bind _ = ((t.op X).bind _).map _
        cases t.op X with
        | error e => rfl
        | ok y => exact ho.op y
  len X Y h := by
    cases set with
    | analysis => exact ho.len X Y h
    | synthesis =>
      obtain ⟨m, hm, h⟩ := bind_ok h
      cases hm
      obtain ⟨t, -, h⟩ := bind_ok h
      obtain ⟨y, -, h⟩ := bind_ok h
      exact ho.len _ _ h
  qlen Y h := by
    obtain ⟨v, rfl⟩ := exists_ofFn Y h
    rw [relist_ofFn, List.length_ofFn]
  qstore Y h := by
    obtain ⟨v, rfl⟩ := exists_ofFn Y h
    rw [relist_ofFn, map_ofFn', map_ofFn', relist_ofFn]
  grad Y h := by
    obtain ⟨v, rfl⟩ := exists_ofFn Y h
    have hg : (⟨data.relist φ, Matrix.diagonal fun j => w (φ j) / (copies φ (φ j) : ℂ), set, tr, some o', np⟩ : ForwardOp n').gradgAnalysis
        (relist φ (List.ofFn v)) = (⟨data, Matrix.diagonal w, set, tr, some o, np⟩ : ForwardOp n).gradgAnalysis (List.ofFn v) := by
      unfold ForwardOp.gradgAnalysis
      simp only [relist_ofFn, attr, bind, Except.bind, DataVec.relist, npSub_ofFn, matDot_ofFn]
      rw [ho.adj]
      congr 2
      funext i
      simp only [Matrix.mulVec_diagonal]
      rw [← fibre_sum hφ (fun i => w i * (v i - data.vals i)) i]
      exact Finset.sum_congr rfl fun j _ => by ring
    cases set with
    | analysis => exact hg
    | synthesis =>
      show (attr tr).bind _ = (attr tr).bind _
      cases attr tr with
      | error e => rfl
      | ok t =>
        show Except.bind (ForwardOp.gradgAnalysis _ _) _ = Except.bind (ForwardOp.gradgAnalysis _ _) _
        rw [hg]
  logpi X Y h := by
    obtain ⟨v, rfl⟩ := exists_ofFn Y h
    unfold Pxmcmc.logpi
    simp only [relist_ofFn, bind, Except.bind, DataVec.relist, npSub_ofFn, matDot_ofFn, npVdot_ofFn]
    have e : Spec.inner (fun j => data.vals (φ j) - v (φ j)) ((Matrix.diagonal fun j => w (φ j) / (copies φ (φ j) : ℂ)).mulVec fun j =>
        data.vals (φ j) - v (φ j)) = Spec.inner (fun i => data.vals i - v i) ((Matrix.diagonal w).mulVec fun i => data.vals i - v i) := by
      unfold Spec.inner
      simp only [Matrix.mulVec_diagonal]
      rw [← sum_relist hφ (fun i => (starRingEnd ℂ) (data.vals i - v i) * (w i * (data.vals i - v i)))]
      exact Finset.sum_congr rfl fun j _ => by ring
    rw [e]
  P := rfl
  par := rfl
  nparams := rfl

/-- C140: list the observations in another order, or several times with accordingly larger errors, and give the samplers a measurement
operator that predicts the new list.  Then the constructors succeed as before, and every run of the three samplers is the same (it fails with
the same exception, or goes on for as long, or returns after as many iterations), with the same samples, log-posteriors, misfits, priors,
step sizes, acceptances and printed lines; only the rows of predictions are in the order of the new list. -/
theorem C140_runs {φ : Fin n' → Fin n} (hφ : Function.Surjective φ) (data : DataVec n) {sig sig' : SigD} (hsig : SigRelist φ sig sig')
    (s : String) (tr : Option OpPair) {o o' : OpPair} (ho : Relisted φ o o') (np : Option ℕ) (F : ForwardOp n)
    (hF : ForwardOp.init data sig s tr (some o) np = .ok F) (P : PriorObj) (par : Params) (M : Sampler n) (A : Arrays)
    (hM : samplerInit F P par = .ok (M, A)) :
    ∃ (F' : ForwardOp n') (M' : Sampler n'), ForwardOp.init (data.relist φ) sig' s tr (some o') np = .ok F' ∧
      samplerInit F' P par = .ok (M', A.mapPreds (relist φ)) ∧
      ∀ (R : Rng) (r : R.σ) (sp : StartPoint) (fuel : ℕ),
        myulaRun M' R (A.mapPreds (relist φ)) r sp fuel = (myulaRun M R A r sp fuel).map (Option.map (St.mapPreds (relist φ))) ∧
        skrockRun M' R (A.mapPreds (relist φ)) r sp fuel = (skrockRun M R A r sp fuel).map (Option.map (St.mapPreds (relist φ))) ∧
        ∀ tune δ, malaRun M' R tune δ (A.mapPreds (relist φ)) r sp fuel =
          (malaRun M R tune δ A r sp fuel).map (Option.map (MalaSt.mapPreds (relist φ))) := by
  unfold ForwardOp.init at hF
  obtain ⟨W, hW, hF⟩ := bind_ok hF
  obtain ⟨w, rfl, hW'⟩ := buildInvCov_relist hφ data hsig W hW
  cases hs : Setting.parse s with
  | none => rw [hs] at hF; cases hF
  | some set =>
    rw [hs] at hF
    cases hF
    refine ⟨⟨data.relist φ, Matrix.diagonal fun j => w (φ j) / (copies φ (φ j) : ℂ), set, tr, some o', np⟩, ⟨⟨data.relist φ,
      Matrix.diagonal fun j => w (φ j) / (copies φ (φ j) : ℂ), set, tr, some o', np⟩, P, par, M.nparams⟩, ?_, ?_, ?_⟩
    · unfold ForwardOp.init
      rw [hW']
      simp only [bind, Except.bind, hs]
    · unfold samplerInit at hM ⊢
      cases np with
      | none => simp only at hM; split at hM <;> cases hM
      | some k =>
        cases hM
        simp only [Except.ok.injEq, Prod.mk.injEq, true_and]
        unfold initArrays Arrays.mapPreds
        congr 1
        simp only
        split
        · simp only [Option.map_some, List.map_replicate]
          have h0 : relist φ (List.replicate n 0) = List.replicate n' 0 := by
            rw [← List.ofFn_const, relist_ofFn, List.ofFn_const]
          rw [h0]
        · rfl
    · cases np with
      | none => unfold samplerInit at hM; simp only at hM; split at hM <;> cases hM
      | some k =>
        cases hM
        intro R r sp fuel
        have U := restated_relist hφ data ho w set tr (some k) P par k
        exact ⟨U.myulaRun R _ r sp fuel, U.skrockRun R _ r sp fuel, fun tune δ => U.malaRun R tune δ _ r sp fuel⟩

/-- C140 for the recorded results: the chain, the log-posteriors, the misfits and the priors are equal, the predictions relisted. -/
theorem C140_results {φ : Fin n' → Fin n} (hφ : Function.Surjective φ) (data : DataVec n) {sig sig' : SigD} (hsig : SigRelist φ sig sig')
    (s : String) (tr : Option OpPair) {o o' : OpPair} (ho : Relisted φ o o') (np : Option ℕ) (F : ForwardOp n)
    (hF : ForwardOp.init data sig s tr (some o) np = .ok F) (P : PriorObj) (par : Params) (M : Sampler n) (A : Arrays)
    (hM : samplerInit F P par = .ok (M, A)) :
    ∃ (F' : ForwardOp n') (M' : Sampler n') (A' : Arrays), ForwardOp.init (data.relist φ) sig' s tr (some o') np = .ok F' ∧
      samplerInit F' P par = .ok (M', A') ∧
      ∀ (R : Rng) (r : R.σ) (sp : StartPoint) (fuel : ℕ),
        (∀ st, myulaRun M R A r sp fuel = .ok (some st) → ∃ st', myulaRun M' R A' r sp fuel = .ok (some st') ∧
          A'.applyAll st'.ev = { A.applyAll st.ev with preds := (A.applyAll st.ev).preds.map (List.map (relist φ)) }) ∧
        (∀ st, skrockRun M R A r sp fuel = .ok (some st) → ∃ st', skrockRun M' R A' r sp fuel = .ok (some st') ∧
          A'.applyAll st'.ev = { A.applyAll st.ev with preds := (A.applyAll st.ev).preds.map (List.map (relist φ)) }) ∧
        ∀ tune δ st, malaRun M R tune δ A r sp fuel = .ok (some st) → ∃ st', malaRun M' R tune δ A' r sp fuel = .ok (some st') ∧
          A'.applyAll st'.ev = { A.applyAll st.ev with preds := (A.applyAll st.ev).preds.map (List.map (relist φ)) } ∧
          st'.acc = st.acc ∧ st'.deltas = st.deltas := by
  obtain ⟨F', M', h1, h2, h3⟩ := C140_runs hφ data hsig s tr ho np F hF P par M A hM
  refine ⟨F', M', _, h1, h2, fun R r sp fuel => ?_⟩
  obtain ⟨e1, e2, e3⟩ := h3 R r sp fuel
  refine ⟨fun st h => ⟨st.mapPreds (relist φ), ?_, Arrays.applyAll_mapPreds _ _ _⟩,
    fun st h => ⟨st.mapPreds (relist φ), ?_, Arrays.applyAll_mapPreds _ _ _⟩,
    fun tune δ st h => ⟨st.mapPreds (relist φ), ?_, Arrays.applyAll_mapPreds _ _ _, rfl, rfl⟩⟩
  · rw [e1, h]; rfl
  · rw [e2, h]; rfl
  · rw [e3, h]; rfl

/-- C140 for path integrals: the paths are the rows of the matrix, and the object built from the relisted rows is the operator that the
theorems above ask for. -/
theorem C140_path_integrals (φ : Fin n' → Fin n) (W : Matrix (Fin n) (Fin k) ℂ) :
    Relisted φ ⟨pathForward W, pathAdjoint W⟩ ⟨pathForward (W.submatrix φ id), pathAdjoint (W.submatrix φ id)⟩ where
  op X := by
    simp only [pathForward]
    by_cases h : X.length = k
    · obtain ⟨v, rfl⟩ := exists_ofFn X h
      rw [if_pos h, if_pos h, matDot_ofFn, matDot_ofFn]
      simp only [Except.map]
      rw [relist_ofFn]
      rfl
    · rw [if_neg h, if_neg h]
      rfl
  adj v := by
    simp only [pathAdjoint]
    rw [if_pos (by simp), if_pos (by simp), matDot_ofFn, matDot_ofFn]
    congr 2
    funext l
    simp only [Matrix.mulVec, dotProduct, Matrix.conjTranspose_apply, Matrix.submatrix_apply, id_eq]
    rw [← Finset.sum_fiberwise (s := Finset.univ) (g := φ)]
    refine Finset.sum_congr rfl fun i _ => ?_
    rw [Finset.mul_sum]
    exact Finset.sum_congr rfl fun j hj => by rw [(Finset.mem_filter.mp hj).2]
  len X Y h := by
    simp only [pathForward] at h
    split at h
    · rename_i hX
      obtain ⟨v, rfl⟩ := exists_ofFn X hX
      rw [matDot_ofFn] at h
      cases h
      simp
    · cases h

/-- Three paths from two, with the second one listed twice and before the first: the new errors are `2√2`, `2√2` and 1, and all constructors
succeed. -/
example : ∃ (F : ForwardOp 2) (M : Sampler 2) (A : Arrays), Function.Surjective (![1, 1, 0] : Fin 3 → Fin 2) ∧
    SigRelist (![1, 1, 0] : Fin 3 → Fin 2) (.vec (List.ofFn ![(1 : ℂ), 2]) false) (.vec (List.ofFn (sigmas ![1, 1, 0] ![(1 : ℂ), 2])) false) ∧
    sigmas (![1, 1, 0] : Fin 3 → Fin 2) ![(1 : ℂ), 2] = ![((√2 : ℝ) : ℂ) * 2, ((√2 : ℝ) : ℂ) * 2, 1] ∧
    ForwardOp.init ⟨false, ![3, 5]⟩ (.vec (List.ofFn ![(1 : ℂ), 2]) false) "analysis" none
      (some ⟨pathForward !![1, 2, 0; 0, 2, 5], pathAdjoint !![1, 2, 0; 0, 2, 5]⟩) (some 3) = .ok F ∧
    samplerInit F ⟨fun _ => .ok 0, .ok⟩ ⟨1, 1 / 2, 1, 1, 4, 3, 2, false, 0, ["chain", "predictions"]⟩ = .ok (M, A) := by
  have hs : List.ofFn ![(1 : ℂ), 2] = List.ofFn fun i => ((![(1 : ℝ), 2] i : ℝ) : ℂ) := by simp
  obtain ⟨W, hW, -⟩ := C35_diagonal (⟨false, ![3, 5]⟩ : DataVec 2) rfl _ _
    (IsSigma.vector ![(1 : ℝ), 2] (by intro i; fin_cases i <;> simp))
  refine ⟨⟨⟨false, ![3, 5]⟩, W, .analysis, none, some ⟨pathForward !![1, 2, 0; 0, 2, 5], pathAdjoint !![1, 2, 0; 0, 2, 5]⟩, some 3⟩,
    _, _, ?_, .vec _ _, ?_, ?_, rfl⟩
  · intro i
    fin_cases i
    · exact ⟨2, rfl⟩
    · exact ⟨0, rfl⟩
  · have c1 : copies (![1, 1, 0] : Fin 3 → Fin 2) 1 = 2 := by decide
    have c0 : copies (![1, 1, 0] : Fin 3 → Fin 2) 0 = 1 := by decide
    funext j
    fin_cases j <;> simp [sigmas, c1, c0]
  · unfold ForwardOp.init
    rw [hs, hW]
    simp [bind, Except.bind, Setting.parse]

end Pxmcmc
