import Verif.Model.PowerPrior
import Verif.Props.MyulaFlat
import Verif.Props.Experiments

/-! # Property C129: MYULA converges for complex data, too -/

namespace Pxmcmc
open MeasureTheory ProbabilityTheory Filter
open scoped ENNReal NNReal RealInnerProductSpace Topology
variable {n m p k : ℕ}

/-- What `ForwardOp.init` stores for complex data. -/
theorem forward_stored_complex (data : DataVec n) (hd : data.cplx = true) (sig : SigD) (σ : Fin n → ℝ) (hσ : IsSigma n sig σ) (s : String)
    (t m : Option OpPair) (np : Option ℕ) (F : ForwardOp n) (hF : ForwardOp.init data sig s t m np = .ok F) :
    F.data = data ∧ F.invcov = Matrix.diagonal fun i => ((1 / σ i ^ 2 / √2 : ℝ) : ℂ) * (1 - Complex.I) := by
  unfold ForwardOp.init at hF
  rw [buildInvCov_complex data hd sig σ hσ] at hF
  simp only [Bind.bind, Except.bind] at hF
  split at hF
  · cases hF
  · rw [← Except.ok.inj hF]
    exact ⟨rfl, rfl⟩

/-- The adjoint of a linear map commutes with multiplication by numbers. -/
theorem adjoint_smul' {A : (Fin p → ℂ) →ₗ[ℂ] (Fin n → ℂ)} {At : (Fin n → ℂ) → (Fin p → ℂ)} (h : Spec.IsAdjointPair A At) (c : ℂ)
    (y : Fin n → ℂ) : At (c • y) = c • At y := by
  have h' : Spec.IsAdjointPair At A := by
    intro y x
    have := h x y
    have e : ∀ {q : ℕ} (a b : Fin q → ℂ), Spec.inner a b = (starRingEnd ℂ) (Spec.inner b a) := by
      intro q a b
      unfold Spec.inner
      rw [map_sum]
      exact Finset.sum_congr rfl fun j _ => by simp [mul_comm]
    rw [e x, e (A x), this]
  obtain ⟨B, rfl⟩ := linear_of_adjoint _ _ h'
  rw [map_smul]

/-- The forward model and the prior of C129: as in `ThresholdModel`, with the inverse covariance that the code builds for complex data. -/
structure ComplexThresholdModel (F : ForwardOp n) (P : PriorObj) (σ : Fin n → ℝ) (A : (Fin p → ℂ) →ₗ[ℂ] (Fin n → ℂ))
    (At : (Fin n → ℂ) → (Fin p → ℂ)) (B : (Fin p → ℂ) →ₗ[ℂ] (Fin m → ℂ)) (Bt : (Fin m → ℂ) → (Fin p → ℂ)) (T : Fin m → ℝ) : Prop where
  lin : LinModel F A At
  invcov : F.invcov = Matrix.diagonal fun i => ((1 / σ i ^ 2 / √2 : ℝ) : ℂ) * (1 - Complex.I)
  prior : ∀ x : Fin p → ℂ, ∃ v, P.prior (List.ofFn x) = .ok v
  proxf : ∀ x : Fin p → ℂ, P.proxf (List.ofFn x) = .ok (List.ofFn (x + Bt ((fun j => softEntry (B x j) (T j)) - B x)))
  adj : Spec.IsAdjointPair B Bt
  frame : ∃ b : ℝ, 0 < b ∧ ∀ x, b * Spec.distSq x 0 ≤ Spec.distSq (B x) 0 ∧ Spec.distSq (B x) 0 ≤ Spec.distSq x 0
  pos : ∀ j, 0 < T j

/-- The factor by which the code turns the drift for complex data. -/
noncomputable def turn : ℂ := ((1 / √2 : ℝ) : ℂ) * (1 - Complex.I)

theorem turn_re : turn.re = 1 / √2 := by
  unfold turn
  rw [Complex.re_ofReal_mul]
  simp

theorem turn_im : turn.im = -(1 / √2) := by
  unfold turn
  rw [Complex.im_ofReal_mul]
  simp

theorem turn_sq : turn.re ^ 2 + turn.im ^ 2 = 1 := by
  rw [turn_re, turn_im, neg_sq, div_pow, Real.sq_sqrt (by norm_num)]
  norm_num

theorem turn_diag (σ : Fin n → ℝ) (z : Fin n → ℂ) :
    (Matrix.diagonal fun i => ((1 / σ i ^ 2 / √2 : ℝ) : ℂ) * (1 - Complex.I)).mulVec z =
      turn • (Matrix.diagonal fun i => ((1 / σ i ^ 2 : ℝ) : ℂ)).mulVec z := by
  funext i
  rw [Pi.smul_apply, Matrix.mulVec_diagonal, Matrix.mulVec_diagonal, smul_eq_mul, turn]
  push_cast
  ring

theorem rip_turn (z w : Fin p → ℂ) (h : ∑ i, ((z i).re * (w i).im - (z i).im * (w i).re) = 0) :
    rip (turn • z) w = 1 / √2 * rip z w := by
  unfold rip
  have e : ∀ i, ((turn • z) i).re * (w i).re + ((turn • z) i).im * (w i).im =
      1 / √2 * ((z i).re * (w i).re + (z i).im * (w i).im) - 1 / √2 * ((z i).re * (w i).im - (z i).im * (w i).re) := by
    intro i
    rw [Pi.smul_apply, smul_eq_mul, Complex.mul_re, Complex.mul_im, turn_re, turn_im]
    ring
  rw [Finset.sum_congr rfl fun i _ => e i, Finset.sum_sub_distrib, ← Finset.mul_sum, ← Finset.mul_sum, h, mul_zero, sub_zero]

theorem rip_turn_self (z : Fin p → ℂ) : rip (turn • z) (turn • z) = rip z z := by
  unfold rip
  refine Finset.sum_congr rfl fun i _ => ?_
  rw [Pi.smul_apply, smul_eq_mul, Complex.mul_re, Complex.mul_im]
  linear_combination ((z i).re ^ 2 + (z i).im ^ 2) * turn_sq

section Model
variable {M : Sampler n} {F : ForwardOp n} {Pr : PriorObj} {σ : Fin n → ℝ} {A : (Fin p → ℂ) →ₗ[ℂ] (Fin n → ℂ)}
  {At : (Fin n → ℂ) → (Fin p → ℂ)} {B : (Fin p → ℂ) →ₗ[ℂ] (Fin m → ℂ)} {Bt : (Fin m → ℂ) → (Fin p → ℂ)} {T : Fin m → ℝ}

/-- C129: let the data be complex, let `proxf` threshold the coefficients of `x` in a frame with positive thresholds, and let the forward
operator be linear (it may be far from injective).  If the noise of the complex sampler is complex standard normal and
`delta*(1/lmda + √2*Lf) < 2`, there is exactly one stationary law, the law of the sample after `k` steps converges to it from every
start, and so do the averages over the saved samples. -/
theorem C129_converges (h : ComplexThresholdModel M.F M.P σ A At B Bt T) (hn : M.nparams = p)
    (hcplx : M.par.complex = true) (hl : 0 < M.par.lmda) (hδ : 0 < M.par.delta) (Lf : ℝ) (hL : 0 < Lf)
    (hup : ∀ v, misfit σ 0 (A v) ≤ Lf * Spec.distSq v 0) (hs : M.par.delta * (1 / M.par.lmda + √2 * Lf) < 2)
    (R : Rng) {Ω : Type} [MeasurableSpace Ω] (P : Measure Ω) [IsProbabilityMeasure P] (r : Ω → R.σ)
    (hr : NoiseStream R true p P r (cplxNormalLaw p)) : LongRun M R A P r (cplxNormalLaw p) Set.univ := by
  set e' : (Fin p → ℂ) → EuclideanSpace ℝ (Fin p ⊕ Fin p) := fun z => WithLp.toLp 2 (Sum.elim (fun i => (z i).re) fun i => (z i).im) with he'
  have hm : Measurable e' := by
    refine Continuous.measurable ?_
    have h1 : Continuous fun z : Fin p → ℂ => (Sum.elim (fun i => (z i).re) fun i => (z i).im : Fin p ⊕ Fin p → ℝ) := by
      refine continuous_pi fun j => ?_
      cases j with
      | inl i => exact Complex.continuous_re.comp (continuous_apply i)
      | inr i => exact Complex.continuous_im.comp (continuous_apply i)
    exact (PiLp.continuous_toLp 2 _).comp h1
  have hiff : ∀ z : Fin p → ℂ, cplxVec (e' z).ofLp = z := fun z => funext fun i => Complex.ext rfl rfl
  have he := realForm_cplx (p := p)
  rw [← hcplx, ← cplxNormalLaw_std] at hr
  rw [← cplxNormalLaw_std]
  set W : Matrix (Fin n) (Fin n) ℂ := Matrix.diagonal fun i => ((1 / σ i ^ 2 : ℝ) : ℂ) with hW
  obtain ⟨b, hb, hfr⟩ := h.frame
  set e : EuclideanSpace ℝ (Fin p ⊕ Fin p) → Fin p → ℂ := fun x => cplxVec x.ofLp with hedef
  have hst : ∀ x, e (e' (turn • At (W.mulVec (A (e x) - M.F.data.vals)))) = At (M.F.invcov.mulVec (A (e x) - M.F.data.vals)) := by
    intro x
    rw [h.invcov, turn_diag, adjoint_smul' h.lin.adj]
    exact hiff _
  have key := he.flat_ops h.lin h.prior h.proxf h.adj h.pos hn hl hδ (√2 * Lf) hs e' hm (fun x => by
      ext i
      cases i <;> simp [he', hedef, cplxVec])
    (fun x => e' (Bt (clip T (B (e x))))) (fun x => e' (turn • At (W.mulVec (A (e x) - M.F.data.vals)))) (fun x => hiff _) hst ?_ R P r hr
    (fun k ω => hiff _)
  · have hset : {z : Fin p → ℂ | cplxVec (e' z).ofLp = z} = Set.univ := Set.eq_univ_of_forall hiff
    rw [hset] at key
    exact key
  · obtain ⟨x₀, τ, η, K, ρ, hc⟩ := he.clipped h.adj b hb (fun x => by rw [rip_self, rip_self]; exact (hfr x).1)
      (fun x => by rw [rip_self, rip_self]; exact (hfr x).2) h.pos σ M.F.data.vals A At h.lin.adj Lf hL hup
      (fun x => e' (Bt (clip T (B (e x))))) (fun x => e' (At (W.mulVec (A (e x) - M.F.data.vals)))) (fun x => hiff _) (fun x => hiff _)
    have h2 : 0 < √2 := Real.sqrt_pos.mpr two_pos
    have hS : ∀ x y, e (e' (turn • At (W.mulVec (A (e x) - M.F.data.vals))) - e' (turn • At (W.mulVec (A (e y) - M.F.data.vals)))) =
        turn • e (e' (At (W.mulVec (A (e x) - M.F.data.vals))) - e' (At (W.mulVec (A (e y) - M.F.data.vals)))) := by
      intro x y
      rw [he.sub, he.sub]
      show cplxVec (e' _).ofLp - cplxVec (e' _).ofLp = turn • (cplxVec (e' _).ofLp - cplxVec (e' _).ofLp)
      rw [hiff, hiff, hiff, hiff, smul_sub]
    refine ⟨x₀, τ, η, K, ρ, hc.firm, hc.bound, hc.push, hc.strict, fun x y => ?_, ?_, by positivity, hc.ηpos, hc.ρpos⟩
    · have h3 := hc.coco x y
      rw [he.norm_rip, he.inner] at h3
      rw [he.norm_rip, he.inner, hS, rip_turn_self]
      have hz : e (e' (At (W.mulVec (A (e x) - M.F.data.vals))) - e' (At (W.mulVec (A (e y) - M.F.data.vals)))) =
          At (W.mulVec (A (e (x - y)))) := by
        rw [he.sub]
        show cplxVec (e' _).ofLp - cplxVec (e' _).ofLp = _
        rw [hiff, hiff, adjoint_sub' h.lin.adj, ← Matrix.mulVec_sub, he.sub, map_sub]
        congr 2
        abel
      rw [rip_turn]
      · have h4 : √2 * Lf * (1 / √2 * rip (e (e' (At (W.mulVec (A (e x) - M.F.data.vals))) - e' (At (W.mulVec (A (e y) - M.F.data.vals)))))
            (e (x - y))) = Lf * rip (e (e' (At (W.mulVec (A (e x) - M.F.data.vals))) - e' (At (W.mulVec (A (e y) - M.F.data.vals)))))
            (e (x - y)) := by
          field_simp
        rw [h4]
        exact h3
      · rw [hz]
        have h5 := h.lin.adj (e (x - y)) (W.mulVec (A (e (x - y))))
        have h6 : (Spec.inner (At (W.mulVec (A (e (x - y))))) (e (x - y))).im = 0 := by
          rw [← h5]
          unfold Spec.inner
          rw [Complex.im_sum]
          refine Finset.sum_eq_zero fun i _ => ?_
          rw [hW, Matrix.mulVec_diagonal, map_mul, Complex.conj_ofReal, mul_assoc, Complex.im_ofReal_mul, Complex.mul_im, Complex.conj_re,
            Complex.conj_im]
          ring
        rw [← h6]
        unfold Spec.inner
        rw [Complex.im_sum]
        exact Finset.sum_congr rfl fun i _ => by simp; ring
    · have h7 := hc.zero
      have h8 : At (W.mulVec (A (e x₀) - M.F.data.vals)) = 0 := by
        have := congrArg e h7
        rw [he.zero] at this
        exact (hiff _).symm.trans this
      show e' (turn • At (W.mulVec (A (e x₀) - M.F.data.vals))) = 0
      rw [h8, smul_zero]
      exact he.inj ((hiff 0).trans he.zero.symm)

/-- The l1 prior in the synthesis setting. -/
theorem C129_l1_synthesis (data : DataVec n) (hd : data.cplx = true) (sig : SigD) (hσ : IsSigma n sig σ) (s : String)
    (tr me : Option OpPair) (np : Option ℕ) (hF : ForwardOp.init data sig s tr me np = .ok F) (hA : LinModel F A At)
    (fw ad : List ℂ → Py (List ℂ)) (t : ℝ) (ht : 0 < t) (L : L1 ℂ) (hL : L1.init "synthesis" fw ad (.scalar t) = .ok L) :
    ComplexThresholdModel F L.toPrior σ A At (LinearMap.id : (Fin p → ℂ) →ₗ[ℂ] (Fin p → ℂ)) (fun y => y) fun _ => t := by
  obtain rfl := Except.ok.inj hL
  refine ⟨hA, (forward_stored_complex data hd sig σ hσ s tr me np F hF).2, fun x => ⟨_, rfl⟩, fun x => ?_, fun x y => rfl,
    ⟨1, one_pos, fun x => ⟨by rw [one_mul]; exact le_rfl, le_rfl⟩⟩, fun _ => ht⟩
  show soft (List.ofFn x) (.scalar t) = _
  rw [soft_scalar]
  congr 2
  funext i
  simp

/-- The l1 prior in the analysis setting. -/
theorem C129_l1_analysis (data : DataVec n) (hd : data.cplx = true) (sig : SigD) (hσ : IsSigma n sig σ) (s : String)
    (tr me : Option OpPair) (np : Option ℕ) (hF : ForwardOp.init data sig s tr me np = .ok F) (hA : LinModel F A At)
    (fw ad : List ℂ → Py (List ℂ)) (t : ℝ) (ht : 0 < t) (Bl : (Fin m → ℂ) →ₗ[ℂ] (Fin p → ℂ)) (had : ActsAs ad B) (hfw : ActsAs fw Bl)
    (hadj : Spec.IsAdjointPair B Bl) (b : ℝ) (hb : 0 < b)
    (hfr : ∀ x, b * Spec.distSq x 0 ≤ Spec.distSq (B x) 0 ∧ Spec.distSq (B x) 0 ≤ Spec.distSq x 0)
    (L : L1 ℂ) (hL : L1.init "analysis" fw ad (.scalar t) = .ok L) :
    ComplexThresholdModel F L.toPrior σ A At B Bl fun _ => t := by
  obtain rfl := Except.ok.inj hL
  refine ⟨hA, (forward_stored_complex data hd sig σ hσ s tr me np F hF).2, fun x => ⟨_, rfl⟩, fun x => ?_, hadj, ⟨b, hb, hfr⟩, fun _ => ht⟩
  exact proxfAnalysis_eq ⟨.analysis, fw, ad, .scalar t⟩ B Bl rfl had hfw t rfl x

/-- What the constructor of the wavelet prior leaves: positive thresholds, one per coefficient. -/
theorem wavelet_thresholds (h : Heap ℝ) (bls : List ℕ) (hb : ∀ b ∈ bls, 1 ≤ b) (t : ℝ) (ht : 0 < t) (fresh : ℕ) (N : ℕ)
    (hN : (bls.map fun b => b * (2 * b - 1)).sum = N) (h' : Heap ℝ) (P : S2L1)
    (hP : S2L1.init h "synthesis" (.float t) bls fresh = .ok (h', P)) :
    ∃ T : Fin N → ℝ, (∀ j, 0 < T j) ∧ (∀ x : Fin N → ℂ, ∃ v, (P.toPrior h').prior (List.ofFn x) = .ok v) ∧
      ∀ x : Fin N → ℂ, (P.toPrior h').proxf (List.ofFn x) = .ok (List.ofFn fun i => softEntry (x i) (T i)) := by
  set w := bls.flatMap mwMapWeights with hw
  have h1 : S2L1.init h "synthesis" (.float t) bls fresh = .ok (h.write fresh (w.map fun x => t * x), ⟨.arr fresh, w⟩) := rfl
  obtain ⟨rfl, rfl⟩ := Prod.mk.inj (Except.ok.inj (h1.symm.trans hP))
  have hlen : w.length = N := by
    rw [← hN, hw, List.length_flatMap]
    congr 1
    exact List.map_congr_left fun b _ => mwMapWeights_length b
  subst hlen
  refine ⟨fun i => t * w[i], fun i => mul_pos ht (weights_pos bls hb _ (List.getElem_mem _)), fun x =>
    ⟨_, prior_ofFn ⟨.arr fresh, w⟩ (fun i : Fin w.length => w[i]) (list_eq_ofFn w) x⟩, fun x => ?_⟩
  · show S2L1.proxf _ _ _ = _
    unfold S2L1.proxf TObj.value
    simp only [Heap.write, if_true, Option.map_some]
    have : w.map (fun x => t * x) = List.ofFn fun i : Fin w.length => t * w[i] := by
      apply List.ext_getElem <;> simp
    rw [this, soft_vector]

/-- C126, the wavelet prior: the thresholds of `S2_Wavelets_L1` are positive, so C126 holds for it. -/
theorem C126_wavelet_prior (data : DataVec n) (hd : data.cplx = false) (sig : SigD) (hσ : IsSigma n sig σ) (s : String)
    (tr me : Option OpPair) (np : Option ℕ) (hF : ForwardOp.init data sig s tr me np = .ok F) (hA : LinModel F A At)
    (h : Heap ℝ) (bls : List ℕ) (hb : ∀ b ∈ bls, 1 ≤ b) (t : ℝ) (ht : 0 < t) (fresh : ℕ)
    (hN : (bls.map fun b => b * (2 * b - 1)).sum = p) (h' : Heap ℝ) (P : S2L1)
    (hP : S2L1.init h "synthesis" (.float t) bls fresh = .ok (h', P)) :
    ∃ T : Fin p → ℝ, ThresholdModel F (P.toPrior h') σ A At (LinearMap.id : (Fin p → ℂ) →ₗ[ℂ] (Fin p → ℂ)) (fun y => y) T := by
  obtain ⟨T, hT, h1, h2⟩ := wavelet_thresholds h bls hb t ht fresh p hN h' P hP
  refine ⟨T, hA, (forward_stored data hd sig σ hσ s tr me np F hF).2, h1, fun x => ?_, fun x y => rfl,
    ⟨1, one_pos, fun x => ⟨by rw [one_mul]; exact le_rfl, le_rfl⟩⟩, hT⟩
  rw [h2]
  congr 2
  funext i
  simp

/-- C129 for the wavelet prior. -/
theorem C129_wavelet_prior (data : DataVec n) (hd : data.cplx = true) (sig : SigD) (hσ : IsSigma n sig σ) (s : String)
    (tr me : Option OpPair) (np : Option ℕ) (hF : ForwardOp.init data sig s tr me np = .ok F) (hA : LinModel F A At)
    (h : Heap ℝ) (bls : List ℕ) (hb : ∀ b ∈ bls, 1 ≤ b) (t : ℝ) (ht : 0 < t) (fresh : ℕ)
    (hN : (bls.map fun b => b * (2 * b - 1)).sum = p) (h' : Heap ℝ) (P : S2L1)
    (hP : S2L1.init h "synthesis" (.float t) bls fresh = .ok (h', P)) :
    ∃ T : Fin p → ℝ, ComplexThresholdModel F (P.toPrior h') σ A At (LinearMap.id : (Fin p → ℂ) →ₗ[ℂ] (Fin p → ℂ)) (fun y => y) T := by
  obtain ⟨T, hT, h1, h2⟩ := wavelet_thresholds h bls hb t ht fresh p hN h' P hP
  refine ⟨T, hA, (forward_stored_complex data hd sig σ hσ s tr me np F hF).2, h1, fun x => ?_, fun x y => rfl,
    ⟨1, one_pos, fun x => ⟨by rw [one_mul]; exact le_rfl, le_rfl⟩⟩, hT⟩
  rw [h2]
  congr 2
  funext i
  simp

/-- Runs of every length return all their rows. -/
theorem C129_runs (h : ComplexThresholdModel M.F M.P σ A At B Bt T) (hn : M.nparams = p) (hl : M.par.lmda ≠ 0) (R : Rng) (r : R.σ)
    (x0 : Fin p → ℂ) (N b gap : ℕ) (v : ℤ) (hv : v ≤ 0) (track : List String) (hc : "chain" ∈ track) :
    ∃ (fuel : ℕ) (st : St R) (rows : Fin N → Fin p → ℂ),
      myulaRun (M.resched N b gap v track) R (initArrays (M.resched N b gap v track)) r (.array1 (List.ofFn x0)) fuel = .ok (some st) ∧
      ((initArrays (M.resched N b gap v track)).applyAll st.ev).chain = some (List.ofFn fun k : Fin N => List.ofFn (rows k)) := by
  have hpx := h.prior
  choose pri hpri using hpx
  have tot : Total (M.resched N b gap v track) p A (fun y => At (M.F.invcov.mulVec (y - M.F.data.vals)))
      (fun x => x + Bt ((fun j => softEntry (B x j) (T j)) - B x)) pri := ⟨hn, h.lin.fwd, h.lin.grad, h.proxf, hpri, hl⟩
  obtain ⟨-, st, h1, -, h2⟩ := C41_schedule (M.resched N b gap v track) R (initArrays (M.resched N b gap v track)) (initArrays_shaped _)
    (.inl hv) b gap rfl rfl tot _ (fun x => gradlogpi_vec _ tot x) r r (.array1 (List.ofFn x0)) x0 (start_array R tot r x0) _ rfl
  refine ⟨_, st, fun k i => store M.par.complex (iter (ulaStep M.par.delta (gradVec M.par.lmda A
    (fun y => At (M.F.invcov.mulVec (y - M.F.data.vals))) fun x => x + Bt ((fun j => softEntry (B x j) (T j)) - B x)))
    (noiseSeq R M.par.complex p r) x0 (b + k * max gap 1 + 1) i), h1 _ le_rfl, ?_⟩
  rw [h2]
  have hch : ∃ l, (initArrays (M.resched N b gap v track)).chain = some l :=
    ⟨_, if_pos (e := (none : Option (List (List ℂ)))) (show "chain" ∈ track from hc)⟩
  obtain ⟨l, hl'⟩ := hch
  simp only [Arrays.ofRows, hl', Option.map_some, Option.some.injEq]
  refine List.ext_getElem (by simp; rfl) fun k hk hk' => ?_
  simp only [List.getElem_map, List.getElem_range, List.getElem_ofFn]
  rfl

end Model

/-- A constructed `WeakLensing` object is a linear map with its adjoint. -/
theorem lensing_acts (L : ℤ) (mask : Option (NdArr Bool)) (ngal : Option (NdArr ℝ)) (w : WL)
    (hm : ∀ m, mask = some m → m.WF) (hg : ∀ g, ngal = some g → g.WF ∧ ∀ x ∈ g.data, 0 ≤ x)
    (h : WL.init L mask ngal = .ok w) (T : Ssht) (hT : SshtAdjoint T w.L) :
    ∃ (A : (Fin (w.L * (2 * w.L - 1)) → ℂ) →ₗ[ℂ] (Fin (w.mask.data.count true) → ℂ))
      (At : (Fin (w.mask.data.count true) → ℂ) → (Fin (w.L * (2 * w.L - 1)) → ℂ)),
      ActsAs (w.forward T) A ∧ ActsAs (w.adjoint T) At ∧ Spec.IsAdjointPair A At := by
  have key : ∀ (x : Fin (w.L * (2 * w.L - 1)) → ℂ) (y : Fin (w.mask.data.count true) → ℂ), ∃ a b, w.forward T (List.ofFn x) = .ok (List.ofFn a) ∧
      w.adjoint T (List.ofFn y) = .ok (List.ofFn b) ∧ Spec.inner y a = Spec.inner b x := by
    intro x y
    obtain ⟨a, b, h1, h2, h3, h4, h5⟩ := C32_adjoint L mask ngal w hm hg h T hT (List.ofFn x) (List.ofFn y) (by simp) (by simp)
    obtain ⟨a, rfl⟩ := exists_ofFn a h2
    obtain ⟨b, rfl⟩ := exists_ofFn b h4
    rw [listInner_ofFn, listInner_ofFn] at h5
    exact ⟨a, b, h1, h3, h5⟩
  choose f g hf hg' hfg using key
  have hadj : Spec.IsAdjointPair (fun x => f x 0) (fun y => g 0 y) := by
    intro x y
    have e1 : f x 0 = f x y := List.ofFn_injective (Except.ok.inj ((hf x 0).symm.trans (hf x y)))
    have e2 : g 0 y = g x y := List.ofFn_injective (Except.ok.inj ((hg' 0 y).symm.trans (hg' x y)))
    show Spec.inner y (f x 0) = Spec.inner (g 0 y) x
    rw [e1, e2, hfg]
  obtain ⟨A, hA⟩ := linear_of_adjoint _ _ hadj
  refine ⟨A, fun y => g 0 y, fun x => ?_, fun y => hg' 0 y, hA ▸ hadj⟩
  rw [hA]
  exact hf x 0

/-- C129 for the weak-lensing script: whatever the mask and the galaxy counts, for complex shears, every `lmda > 0`, `mu > 0` and every
step size below some `delta0`, operator, prior and a complex MYULA sampler are constructed, runs of every length return all their rows, and
MYULA converges.  The data need not determine the coefficients.  -/
theorem C129_lensing (L : ℤ) (mask : Option (NdArr Bool)) (ngal : Option (NdArr ℝ)) (w : WL)
    (hm : ∀ m, mask = some m → m.WF) (hg : ∀ g, ngal = some g → g.WF ∧ ∀ x ∈ g.data, 0 ≤ x)
    (hw : WL.init L mask ngal = .ok w) (T : Ssht) (hT : SshtAdjoint T w.L) (px lm : S2Routines) (nw ns : ℕ)
    (hpx : px.Sound (w.L * (2 * w.L - 1)) nw ns) (empty : List ℂ) (he : empty.length = w.L * (2 * w.L - 1)) (bls : List ℕ)
    (hb : ∀ b ∈ bls, 1 ≤ b) (hsum : (bls.map fun b => b * (2 * b - 1)).sum = nw + ns)
    (data : DataVec (w.mask.data.count true)) (hd : data.cplx = true) (sig : SigD) (σ : Fin (w.mask.data.count true) → ℝ)
    (hσ : IsSigma _ sig σ) (par : Params) (hl : 0 < par.lmda) (hmu : 0 < par.mu) (hc : par.complex = true) :
    ∃ delta0, 0 < delta0 ∧ ∀ delta, 0 < delta → delta < delta0 → ∃ F h' P M A,
      lensingSetup px lm empty bls ⟨w.forward T, w.adjoint T⟩ data sig "synthesis" par.lmda par.mu = .ok (F, h', P) ∧
      samplerInit F (P.toPrior h') { par with delta := delta } = .ok (M, A) ∧
      (∀ (R : Rng) (r : R.σ) (x0 : Fin (nw + ns) → ℂ) (N b gap : ℕ) (track : List String), "chain" ∈ track →
        ∃ (fuel : ℕ) (st : St R) (rows : Fin N → Fin (nw + ns) → ℂ),
          myulaRun (M.resched N b gap 0 track) R (initArrays (M.resched N b gap 0 track)) r (.array1 (List.ofFn x0)) fuel = .ok (some st) ∧
          ((initArrays (M.resched N b gap 0 track)).applyAll st.ev).chain = some (List.ofFn fun k : Fin N => List.ofFn (rows k))) ∧
      ∃ fwd : (Fin (nw + ns) → ℂ) → (Fin (w.mask.data.count true) → ℂ), (∀ x, F.forward (List.ofFn x) = .ok (List.ofFn (fwd x))) ∧
        ∀ (R : Rng) {Ω : Type} [MeasurableSpace Ω] (P : Measure Ω) [IsProbabilityMeasure P] (r : Ω → R.σ),
          NoiseStream R true (nw + ns) P r (cplxNormalLaw (nw + ns)) → LongRun M R fwd P r (cplxNormalLaw (nw + ns)) Set.univ := by
  obtain ⟨Mm, Mt, h1, h2, hM⟩ := lensing_acts L mask ngal w hm hg hw T hT
  obtain ⟨F, p, hF, hp, -, hpa, -, hinv, h3, h4, h5, A, At, hA⟩ := operator_linModel px lm _ nw ns hpx empty he ⟨w.forward T, w.adjoint T⟩ Mm Mt
    h1 h2 hM data sig _ (buildInvCov_complex data hd sig σ hσ) "synthesis" .synthesis rfl
  obtain rfl := hpa rfl
  rw [(transform_linear px lm _ nw ns hpx empty he).1] at hF
  simp only [Bind.bind, Except.bind, show ¬ ("synthesis" : String) = "analysis" by decide, if_false] at hF
  obtain ⟨h', P, hP, -⟩ := C10_wavelet_prox (𝕜 := ℂ) (fun _ => none) bls hb (par.lmda * par.mu) (by positivity) 0
  obtain ⟨th, hmod⟩ := C129_wavelet_prior data hd sig hσ "synthesis" _ _ _ hF hA _ bls hb (par.lmda * par.mu) (by positivity) 0 hsum h' P hP
  obtain ⟨Lf, hL, hup⟩ := misfit_bounded σ A
  have hsq : 0 < √2 := Real.sqrt_pos.mpr two_pos
  have hpos : 0 < 1 / par.lmda + √2 * Lf := by positivity
  refine ⟨2 / (1 / par.lmda + √2 * Lf), by positivity, fun delta hδ hδlt => ?_⟩
  refine ⟨F, h', P, ⟨F, P.toPrior h', { par with delta := delta }, nw + ns⟩, _, ?_, by simp only [samplerInit, hp]; rfl,
    fun R r x0 N b gap track htr => ?_, A, hA.fwd, fun R Ω _ Pm _ r hr => ?_⟩
  · unfold lensingSetup
    rw [(transform_linear px lm _ nw ns hpx empty he).1]
    simp only [Bind.bind, Except.bind]
    rw [hF]
    simp only
    rw [hP]
  · exact C129_runs (M := ⟨F, P.toPrior h', { par with delta := delta }, nw + ns⟩) hmod rfl hl.ne' R r x0 N b gap 0 le_rfl track htr
  · refine C129_converges (M := ⟨F, P.toPrior h', { par with delta := delta }, nw + ns⟩) hmod rfl hc hl hδ Lf hL hup ?_ R Pm r hr
    show delta * (1 / par.lmda + √2 * Lf) < 2
    rwa [lt_div_iff₀ hpos] at hδlt

/-- The hypotheses of `C129_lensing` are met at bandlimit 2 by stand-ins for pyssht and pys2let. -/
example : ∃ (w : WL) (T : Ssht) (data : DataVec (w.mask.data.count true)) (sig : SigD) (σ : Fin (w.mask.data.count true) → ℝ) (par : Params),
    WL.init 2 none none = .ok w ∧ SshtAdjoint T w.L ∧ scalRoutines.Sound (w.L * (2 * w.L - 1)) 7 6 ∧ (∀ b ∈ [2, 1, 2], 1 ≤ b) ∧
    ([2, 1, 2].map fun b => b * (2 * b - 1)).sum = 7 + 6 ∧ data.cplx = true ∧ IsSigma _ sig σ ∧ 0 < par.lmda ∧ 0 < par.mu ∧
    par.complex = true ∧
    NoiseStream (halvesRng (7 + 6)) true (7 + 6) (Measure.infinitePi fun _ : ℕ => Measure.pi fun _ : Fin (7 + 6) ⊕ Fin (7 + 6) => gaussianReal 0 1)
      (fun ω => (false, ω)) (cplxNormalLaw (7 + 6)) := by
  obtain ⟨k, hk, -⟩ := C29_kernel 2 (by norm_num)
  have hk : wlHarmonicInit 2 = .ok k := hk
  have inn : ∀ f g : List ℂ, f.length = 6 → g.length = 4 →
      Spec.listInner g (f.take 4) = Spec.listInner (g ++ List.replicate 2 0) f := by
    intro f g hf hg
    obtain ⟨a, rfl⟩ := exists_ofFn f hf
    obtain ⟨b, rfl⟩ := exists_ofFn g hg
    simp [Spec.listInner, List.ofFn_succ]
  have inn2 : ∀ f g : List ℂ, f.length = 4 → g.length = 6 →
      Spec.listInner g (f ++ List.replicate 2 0) = Spec.listInner (g.take 4) f := by
    intro f g hf hg
    obtain ⟨a, rfl⟩ := exists_ofFn f hf
    obtain ⟨b, rfl⟩ := exists_ofFn g hg
    simp [Spec.listInner, List.ofFn_succ]
  refine ⟨⟨2, k, ⟨[2, 3], List.replicate 6 true⟩, List.replicate 6 1⟩,
    ⟨fun f => f.take 4, fun g => g ++ List.replicate 2 0, fun f => f.take 4, fun g => g ++ List.replicate 2 0⟩,
    ⟨true, fun _ => 1 + Complex.I⟩, .num ((1 / 10 : ℝ) : ℂ) false, fun _ => 1 / 10,
    ⟨3 / 100000, 1 / 100000, 1, 5, 100, 10, 5, true, 0, ["chain"]⟩, ?_, ?_, scal_sound, by decide, by decide, rfl, .scalar _ (by norm_num),
    by norm_num, by norm_num, rfl, halvesRng_normal⟩
  · simp [WL.init, wlMask, wlInvCov, hk, Bind.bind, Except.bind, maskForward, boolIndex, selectBlocks]
    rfl
  · exact ⟨fun f hf => by simp [hf], fun f hf => by simp [hf], fun f hf => by simp [hf], fun f hf => by simp [hf],
      fun f g hf hg => inn f g hf hg, fun f g hf hg => inn2 f g hf hg⟩

/-- C129 in the analysis setting: complex data, a complex 1×2 operator that misses one direction, and a frame
of three vectors. -/
example : ∃ (F : ForwardOp 1) (L : L1 ℂ) (A : (Fin 2 → ℂ) →ₗ[ℂ] (Fin 1 → ℂ)) (At : (Fin 1 → ℂ) → (Fin 2 → ℂ))
    (B : (Fin 2 → ℂ) →ₗ[ℂ] (Fin 3 → ℂ)) (Bt : (Fin 3 → ℂ) → (Fin 2 → ℂ)),
    ComplexThresholdModel F L.toPrior (fun _ => 1) A At B Bt (fun _ => 3) ∧ (∃ v, v ≠ 0 ∧ A v = 0) ∧
    NoiseStream (halvesRng 2) true 2 (Measure.infinitePi fun _ : ℕ => Measure.pi fun _ : Fin 2 ⊕ Fin 2 => gaussianReal 0 1)
      (fun ω => (false, ω)) (cplxNormalLaw 2) := by
  set W : Matrix (Fin 1) (Fin 2) ℂ := !![1, Complex.I] with hW
  set B : Matrix (Fin 3) (Fin 2) ℂ := !![1/2, 0; 0, 1/2; 1/2, Complex.I/2] with hB
  have hV := buildInvCov_complex (⟨true, fun _ => 4 + Complex.I⟩ : DataVec 1) rfl _ _ (IsSigma.scalar 1 one_pos)
  set F : ForwardOp 1 := ⟨⟨true, fun _ => 4 + Complex.I⟩,
    Matrix.diagonal fun _ => ((1 / (1 : ℝ) ^ 2 / √2 : ℝ) : ℂ) * (1 - Complex.I), .analysis, none,
    some ⟨pathForward W, pathAdjoint W⟩, some 2⟩ with hFdef
  have hF : ForwardOp.init (⟨true, fun _ => 4 + Complex.I⟩ : DataVec 1) (.num ((1 : ℝ) : ℂ) false) "analysis" none
      (some ⟨pathForward W, pathAdjoint W⟩) (some 2) = .ok F := by
    unfold ForwardOp.init
    rw [hV]
    rfl
  refine ⟨F, _, _, _, B.mulVecLin, _, C129_l1_analysis (⟨true, fun _ => 4 + Complex.I⟩ : DataVec 1) rfl _ (IsSigma.scalar 1 one_pos) "analysis" _ _ _ hF
    (linModel_analysis F rfl _ _ (pathIntegral_linearOps F W rfl)) (pathAdjoint B) (pathForward B) 3 (by norm_num) B.conjTranspose.mulVecLin (fun x => ?_) (fun x => ?_)
    (fun x y => inner_mulVec B x y) (1 / 4) (by norm_num) (fun x => ?_) _ rfl, ⟨![1, Complex.I], ?_, ?_⟩, halvesRng_normal⟩
  · simp only [pathForward]
    rw [if_pos (by simp), matDot_ofFn]
    rfl
  · simp only [pathAdjoint]
    rw [if_pos (by simp), matDot_ofFn]
    rfl
  · have e : ∀ v : Fin 2 → ℂ, Spec.distSq v 0 = ‖v 0‖ ^ 2 + ‖v 1‖ ^ 2 := fun v => by simp [Spec.distSq, Fin.sum_univ_two]
    have e3 : Spec.distSq (B.mulVecLin x) 0 = ‖1 / 2 * x 0‖ ^ 2 + ‖1 / 2 * x 1‖ ^ 2 + ‖1 / 2 * x 0 + Complex.I / 2 * x 1‖ ^ 2 := by
      simp [Spec.distSq, Fin.sum_univ_three, hB, Matrix.mulVec, dotProduct, Fin.sum_univ_two]
    rw [e, e3]
    simp only [Complex.sq_norm, Complex.normSq_apply]
    simp
    constructor <;> nlinarith [sq_nonneg ((x 0).re - (x 1).im), sq_nonneg ((x 0).im + (x 1).re), sq_nonneg ((x 0).re + (x 1).im),
      sq_nonneg ((x 0).im - (x 1).re)]
  · intro h
    have := congrFun h 0
    simp at this
  · funext i
    fin_cases i
    simp [Matrix.mulVec, dotProduct, Fin.sum_univ_two, hW]

end Pxmcmc
