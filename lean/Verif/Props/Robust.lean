import Verif.Props.Averages
import Verif.Props.Denoising
import Verif.Props.SoftAlgebra
import Verif.Props.Uncertainty
import Verif.Props.SkrockDiverges
import Verif.Lemmas.QuantileLimit
import Verif.Props.BurnIn

/-! # Property C161: small changes of data, threshold and start change the samples little -/

namespace Pxmcmc
open MeasureTheory ProbabilityTheory Filter
open scoped ENNReal Topology
variable {n p : ℕ}

/-! ## Two chains with the same noise -/

/-- Two chains whose steps differ by at most `a`, the first of which contracts by `ρ`. -/
theorem fw_diff {E W : Type*} (f f' : E → W → E) (φ : E → E → ℝ) (ρ a : ℝ) (hρ : 0 ≤ ρ) (tri : ∀ x y z, φ x z ≤ φ x y + φ y z)
    (hφ : ∀ x y w, φ (f x w) (f y w) ≤ ρ * φ x y) (ha : ∀ x w, φ (f x w) (f' x w) ≤ a) (x0 x0' : E) (w : ℕ → W) (k : ℕ) :
    φ (fwState f x0 w k) (fwState f' x0' w k) ≤ ρ ^ k * φ x0 x0' + a * ∑ i ∈ Finset.range k, ρ ^ i := by
  induction k with
  | zero => simp [fwState]
  | succ k ih =>
    have h1 := tri (fwState f x0 w (k + 1)) (f (fwState f' x0' w k) (w k)) (fwState f' x0' w (k + 1))
    have h2 := hφ (fwState f x0 w k) (fwState f' x0' w k) (w k)
    have h3 := ha (fwState f' x0' w k) (w k)
    have h4 := mul_le_mul_of_nonneg_left ih hρ
    have e : ∑ i ∈ Finset.range (k + 1), ρ ^ i = ρ * (∑ i ∈ Finset.range k, ρ ^ i) + 1 := by
      rw [Finset.sum_range_succ', Finset.mul_sum]
      simp [pow_succ, mul_comm]
    rw [e, pow_succ]
    simp only [fwState] at h1 ⊢
    nlinarith

theorem geom_rate (ρ : ℝ) (hρ : ρ < 1) (k : ℕ) : ∑ i ∈ Finset.range k, ρ ^ i = (1 - ρ ^ k) / (1 - ρ) := by
  rw [geom_sum_eq hρ.ne, ← neg_div_neg_eq, neg_sub, neg_sub]

/-- One step of two samplers from the same state with the same noise. -/
theorem ulaStep_diff (delta lmda : ℝ) (hd : 0 ≤ delta) (hl : 0 < lmda) {fwd fwd' : (Fin p → ℂ) → (Fin n → ℂ)}
    {grad grad' : (Fin n → ℂ) → (Fin p → ℂ)} {prox prox' : (Fin p → ℂ) → (Fin p → ℂ)} (η τ : ℝ) (x w : Fin p → ℂ)
    (hη : √(Spec.distSq (grad (fwd x)) (grad' (fwd' x))) ≤ η) (hτ : √(Spec.distSq (prox x) (prox' x)) ≤ τ) :
    √(Spec.distSq (ulaStep delta (gradVec lmda fwd grad prox) x w) (ulaStep delta (gradVec lmda fwd' grad' prox') x w)) ≤
      delta * (η + τ / lmda) := by
  rw [← enorm2_eq_sqrt] at hη hτ ⊢
  have e : ulaStep delta (gradVec lmda fwd grad prox) x w - ulaStep delta (gradVec lmda fwd' grad' prox') x w =
      (fun i => ((delta / lmda : ℝ) : ℂ) * (prox x - prox' x) i) + fun i => ((-delta : ℝ) : ℂ) * (grad (fwd x) - grad' (fwd' x)) i := by
    funext i
    simp only [ulaStep, gradVec, Pi.sub_apply, Pi.add_apply]
    push_cast
    ring
  rw [e]
  refine (enorm2_add _ _).trans ?_
  rw [enorm2_smul, enorm2_smul, abs_neg, abs_of_nonneg hd, abs_of_nonneg (div_nonneg hd hl.le)]
  have h1 := mul_le_mul_of_nonneg_left hη hd
  have h2 := mul_le_mul_of_nonneg_left hτ (div_nonneg hd hl.le)
  have e2 : delta * (η + τ / lmda) = delta / lmda * τ + delta * η := by ring
  rw [e2]
  exact add_le_add h2 h1

variable {M M' : Sampler n} {fwd fwd' : (Fin p → ℂ) → (Fin n → ℂ)} {grad grad' : (Fin n → ℂ) → (Fin p → ℂ)}
  {prox prox' : (Fin p → ℂ) → (Fin p → ℂ)} {pri pri' g : (Fin p → ℂ) → ℝ} {Q : Matrix (Fin p) (Fin p) ℂ} {c Lf : ℝ}

/-- The states of two chains with the same noise. -/
theorem states_diff (delta lmda : ℝ) (hM : M.par.delta = delta) (hMl : M.par.lmda = lmda) (h : Identifiable M fwd grad prox g Q c Lf)
    (η τ : ℝ) (hη : ∀ x, √(Spec.distSq (grad (fwd x)) (grad' (fwd' x))) ≤ η)
    (hτ : ∀ x, √(Spec.distSq (prox x) (prox' x)) ≤ τ) (x0 x0' : Fin p → ℂ) (w : ℕ → Fin p → ℂ) (K : ℕ) :
    √(Spec.distSq (fwState (ulaStep delta (gradVec lmda fwd grad prox)) x0 w K)
      (fwState (ulaStep delta (gradVec lmda fwd' grad' prox')) x0' w K)) ≤
      (1 - delta * c) ^ K * √(Spec.distSq x0 x0') + (1 - (1 - delta * c) ^ K) / c * (η + τ / lmda) := by
  subst hM hMl
  obtain ⟨hr0, hr1⟩ := h.rate
  have h1 := fw_diff (ulaStep M.par.delta (gradVec M.par.lmda fwd grad prox)) (ulaStep M.par.delta (gradVec M.par.lmda fwd' grad' prox'))
    (fun x y => √(Spec.distSq x y)) (1 - M.par.delta * c) (M.par.delta * (η + τ / M.par.lmda)) hr0.le
    (fun x y z => by
      rw [← enorm2_eq_sqrt, ← enorm2_eq_sqrt, ← enorm2_eq_sqrt, show x - z = (x - y) + (y - z) by abel]
      exact enorm2_add _ _)
    (fun x y w => by
      have h2 := Real.sqrt_le_sqrt (strong_contract h x y w)
      rwa [Real.sqrt_mul (sq_nonneg _), Real.sqrt_sq hr0.le] at h2)
    (fun x w => ulaStep_diff _ _ h.delta.le h.lmda η τ x w (hη x) (hτ x)) x0 x0' w K
  refine h1.trans (le_of_eq ?_)
  rw [geom_rate _ hr1]
  have := h.delta.ne'
  have := h.pos.ne'
  congr 1
  rw [show 1 - (1 - M.par.delta * c) = M.par.delta * c by ring]
  field_simp

/-- C161: two MYULA samplers with the same parameters, the first of which determines the parameters.  If their data gradients differ by at
most `η` and their proximal maps by at most `τ`, then runs from the same random state stay together: with `ρ = 1 - delta*c` and `K` the
iteration of the saved row, the distance of the rows is at most `ρ^K` times that of the starts plus `(1-ρ^K)/c * (η + τ/lmda)`. -/
theorem C161_rows (R : Rng) (tot : Total M p fwd grad prox pri) (tot' : Total M' p fwd' grad' prox' pri') (hpar : M'.par = M.par)
    (h : Identifiable M fwd grad prox g Q c Lf) (η τ : ℝ) (hη : ∀ x, √(Spec.distSq (grad (fwd x)) (grad' (fwd' x))) ≤ η)
    (hτ : ∀ x, √(Spec.distSq (prox x) (prox' x)) ≤ τ) (A A' : Arrays) (hA : A.Shaped M.par.nsamples) (hA' : A'.Shaped M.par.nsamples)
    (b gap : ℕ) (hb : M.par.nburn = b) (hg : M.par.ngap = gap) (r : R.σ) (x0 x0' : Fin p → ℂ) (fuel fuel' : ℕ) (st st' : St R)
    (hrun : myulaRun M R A r (.array1 (List.ofFn x0)) fuel = .ok (some st))
    (hrun' : myulaRun M' R A' r (.array1 (List.ofFn x0')) fuel' = .ok (some st')) (rows rows' : Fin M.par.nsamples → Fin p → ℂ)
    (hrows : (A.applyAll st.ev).chain = some (List.ofFn fun k => List.ofFn (rows k)))
    (hrows' : (A'.applyAll st'.ev).chain = some (List.ofFn fun k => List.ofFn (rows' k))) (k : Fin M.par.nsamples) :
    √(Spec.distSq (rows k) (rows' k)) ≤ (1 - M.par.delta * c) ^ (b + k * max gap 1 + 1) * √(Spec.distSq x0 x0') +
      (1 - (1 - M.par.delta * c) ^ (b + k * max gap 1 + 1)) / c * (η + τ / M.par.lmda) := by
  obtain ⟨F', P', par', np'⟩ := M'
  obtain rfl : par' = M.par := hpar
  rw [myula_chain_rows R tot A hA b gap hb hg r x0 fuel st hrun rows hrows k,
    myula_chain_rows R tot' A' hA' b gap hb hg r x0' fuel' st' hrun' rows' hrows' k]
  refine (Real.sqrt_le_sqrt (distSq_store _ _ _)).trans ?_
  exact states_diff _ _ rfl rfl h η τ hη hτ x0 x0' _ _

/-- C161, limit: the laws to which the two chains settle.  For every quantity with Lipschitz constant `L` the means over infinitely long runs
differ by at most `L/c * (η + τ/lmda)`. -/
theorem C161_law (R : Rng) (tot : Total M p fwd grad prox pri) (tot' : Total M' p fwd' grad' prox' pri') (hpar : M'.par = M.par)
    (h : Identifiable M fwd grad prox g Q c Lf) {g' : (Fin p → ℂ) → ℝ} {Q' : Matrix (Fin p) (Fin p) ℂ} {c' Lf' : ℝ}
    (h' : Identifiable M' fwd' grad' prox' g' Q' c' Lf') (η τ : ℝ) (hη : ∀ x, √(Spec.distSq (grad (fwd x)) (grad' (fwd' x))) ≤ η)
    (hτ : ∀ x, √(Spec.distSq (prox x) (prox' x)) ≤ τ) {Ω : Type} [MeasurableSpace Ω] (P : Measure Ω) [IsProbabilityMeasure P]
    (r : Ω → R.σ) (ν : Measure (Fin p → ℂ)) (hs : NoiseStream R M.par.complex p P r ν) (hsq : ∫⁻ w, ‖w‖ₑ ^ 2 ∂ν ≠ ⊤)
    (π π' : Measure (Fin p → ℂ)) [IsProbabilityMeasure π] [IsProbabilityMeasure π'] (hπ : StationaryLaw M R ν π)
    (hπ' : StationaryLaw M' R ν π') (q : (Fin p → ℂ) → ℝ) (L : ℝ) (hL0 : 0 ≤ L) (hL : ∀ x y, |q x - q y| ≤ L * √(Spec.distSq x y)) :
    Integrable (fun z => q fun i => store M.par.complex (z i)) π ∧ Integrable (fun z => q fun i => store M.par.complex (z i)) π' ∧
    |∫ z, q (fun i => store M.par.complex (z i)) ∂π - ∫ z, q (fun i => store M.par.complex (z i)) ∂π'| ≤ L / c * (η + τ / M.par.lmda) := by
  obtain ⟨F', P', par', np'⟩ := M'
  obtain rfl : par' = M.par := hpar
  obtain ⟨hr0, hr1⟩ := h.rate
  obtain ⟨hr0', hr1'⟩ := h'.rate
  refine ⟨burn_in_stationary R tot h P r ν hs hsq π hπ q L hL0 hL, burn_in_stationary R tot' h' P r ν hs hsq π' hπ' q L hL0 hL, ?_⟩
  set B := (η + τ / M.par.lmda) with hB
  set D := momBound ν (ulaStep M.par.delta (gradVec M.par.lmda fwd grad prox)) (fun x y => √(Spec.distSq x y)) (1 - M.par.delta * c) 0
  set D' := momBound ν (ulaStep M.par.delta (gradVec M.par.lmda fwd' grad' prox')) (fun x y => √(Spec.distSq x y)) (1 - M.par.delta * c') 0
  have hK : ∀ K : ℕ, |∫ z, q (fun i => store M.par.complex (z i)) ∂π - ∫ z, q (fun i => store M.par.complex (z i)) ∂π'| ≤
      L * D * (1 - M.par.delta * c) ^ K + L * ((1 - (1 - M.par.delta * c) ^ K) / c * B) + L * D' * (1 - M.par.delta * c') ^ K := by
    intro K
    obtain ⟨i1, b1⟩ := burn_in_state R tot h P r ν hs hsq π hπ 0 q L hL0 hL K
    obtain ⟨i2, b2⟩ := burn_in_state R tot' h' P r ν hs hsq π' hπ' 0 q L hL0 hL K
    have h3 : |∫ ω, q (fun i => store M.par.complex (fwState (ulaStep M.par.delta (gradVec M.par.lmda fwd grad prox)) 0
          (fun k => noiseSeq R M.par.complex p (r ω) k) K i)) ∂P -
        ∫ ω, q (fun i => store M.par.complex (fwState (ulaStep M.par.delta (gradVec M.par.lmda fwd' grad' prox')) 0
          (fun k => noiseSeq R M.par.complex p (r ω) k) K i)) ∂P| ≤ L * ((1 - (1 - M.par.delta * c) ^ K) / c * B) := by
      rw [← integral_sub i1 i2]
      have hcst : ∀ f : Ω → ℝ, (∀ ω, ‖f ω‖ ≤ L * ((1 - (1 - M.par.delta * c) ^ K) / c * B)) →
          |∫ ω, f ω ∂P| ≤ L * ((1 - (1 - M.par.delta * c) ^ K) / c * B) := fun f hf => by
        have h4 := norm_integral_le_of_norm_le_const (μ := P) (Eventually.of_forall hf)
        rwa [probReal_univ, mul_one] at h4
      refine hcst _ fun ω => ?_
      rw [Real.norm_eq_abs]
      refine (hL _ _).trans (mul_le_mul_of_nonneg_left ?_ hL0)
      refine (Real.sqrt_le_sqrt (distSq_store _ _ _)).trans ?_
      refine (states_diff _ _ rfl rfl h η τ hη hτ 0 0 _ K).trans (le_of_eq ?_)
      simp [Spec.distSq, hB]
    have e := abs_sub_comm (∫ ω, q (fun i => store M.par.complex (fwState (ulaStep M.par.delta (gradVec M.par.lmda fwd grad prox)) 0
          (fun k => noiseSeq R M.par.complex p (r ω) k) K i)) ∂P) (∫ z, q (fun i => store M.par.complex (z i)) ∂π)
    rw [e] at b1
    refine (abs_sub_le _ _ _).trans ((add_le_add ((abs_sub_le _ _ _).trans (add_le_add b1 h3)) b2).trans (le_of_eq ?_))
    rfl
  have hp := tendsto_pow_atTop_nhds_zero_of_lt_one hr0.le hr1
  have hp' := tendsto_pow_atTop_nhds_zero_of_lt_one hr0'.le hr1'
  have hlim : Tendsto (fun K : ℕ => L * D * (1 - M.par.delta * c) ^ K + L * ((1 - (1 - M.par.delta * c) ^ K) / c * B) +
      L * D' * (1 - M.par.delta * c') ^ K) atTop (𝓝 (L * D * 0 + L * ((1 - 0) / c * B) + L * D' * 0)) :=
    ((hp.const_mul _).add ((((tendsto_const_nhds.sub hp).div_const c).mul_const B).const_mul L)).add (hp'.const_mul _)
  refine (ge_of_tendsto' hlim hK).trans (le_of_eq ?_)
  ring

/-! ## Noisy data -/

theorem adjoint_bound (σ : Fin n → ℝ) (A : (Fin p → ℂ) →ₗ[ℂ] (Fin n → ℂ)) (At : (Fin n → ℂ) → (Fin p → ℂ))
    (hadj : Spec.IsAdjointPair A At) (Lf : ℝ) (hL : 0 ≤ Lf) (hup : ∀ v, misfit σ 0 (A v) ≤ Lf * Spec.distSq v 0) (e : Fin n → ℂ) :
    √(Spec.distSq (At ((Matrix.diagonal fun i => ((1 / σ i ^ 2 : ℝ) : ℂ)).mulVec e)) 0) ≤ √Lf * √(misfit σ 0 e) := by
  set u := At ((Matrix.diagonal fun i => ((1 / σ i ^ 2 : ℝ) : ℂ)).mulVec e) with hu
  have h0 : 0 ≤ Spec.distSq u 0 := Finset.sum_nonneg fun i _ => sq_nonneg _
  have h1 : Spec.distSq u 0 = (Spec.inner ((Matrix.diagonal fun i => ((1 / σ i ^ 2 : ℝ) : ℂ)).mulVec e) (A u)).re := by
    rw [hadj u, ← hu, ← rip_eq_inner, rip_self]
  have h2 : (Spec.inner ((Matrix.diagonal fun i => ((1 / σ i ^ 2 : ℝ) : ℂ)).mulVec e) (A u)).re ≤ √(misfit σ 0 (A u)) * √(misfit σ 0 e) := by
    have h3 : (Spec.inner ((Matrix.diagonal fun i => ((1 / σ i ^ 2 : ℝ) : ℂ)).mulVec e) (A u)).re ≤
        ∑ i, (‖A u i‖ / |σ i|) * (‖e i‖ / |σ i|) := by
      rw [Spec.inner, Complex.re_sum]
      refine Finset.sum_le_sum fun i _ => ?_
      refine (Complex.re_le_norm _).trans (le_of_eq ?_)
      rw [Matrix.mulVec_diagonal]
      simp only [norm_mul, Complex.norm_real, RCLike.norm_conj, Real.norm_eq_abs]
      rw [abs_of_nonneg (by positivity : (0 : ℝ) ≤ 1 / σ i ^ 2), ← sq_abs]
      ring
    refine h3.trans ((Real.sum_mul_le_sqrt_mul_sqrt _ _ _).trans (le_of_eq ?_))
    unfold misfit
    simp [div_pow]
  have h4 : √(misfit σ 0 (A u)) ≤ √Lf * √(Spec.distSq u 0) := by
    rw [← Real.sqrt_mul hL]
    exact Real.sqrt_le_sqrt (hup u)
  rcases h0.eq_or_lt with h5 | h5
  · rw [← h5, Real.sqrt_zero]
    positivity
  have h6 : √(Spec.distSq u 0) * √(Spec.distSq u 0) ≤ √(Spec.distSq u 0) * (√Lf * √(misfit σ 0 e)) := by
    rw [Real.mul_self_sqrt h0]
    calc Spec.distSq u 0 ≤ √(misfit σ 0 (A u)) * √(misfit σ 0 e) := h1.le.trans h2
      _ ≤ (√Lf * √(Spec.distSq u 0)) * √(misfit σ 0 e) := mul_le_mul_of_nonneg_right h4 (Real.sqrt_nonneg _)
      _ = _ := by ring
  exact le_of_mul_le_mul_left h6 (Real.sqrt_pos.mpr h5)

theorem gradg_data_diff (σ : Fin n → ℝ) (A : (Fin p → ℂ) →ₗ[ℂ] (Fin n → ℂ)) (At : (Fin n → ℂ) → (Fin p → ℂ))
    (hadj : Spec.IsAdjointPair A At) (Lf : ℝ) (hL : 0 ≤ Lf) (hup : ∀ v, misfit σ 0 (A v) ≤ Lf * Spec.distSq v 0) (d d' y : Fin n → ℂ) :
    √(Spec.distSq (At ((Matrix.diagonal fun i => ((1 / σ i ^ 2 : ℝ) : ℂ)).mulVec (y - d)))
      (At ((Matrix.diagonal fun i => ((1 / σ i ^ 2 : ℝ) : ℂ)).mulVec (y - d')))) ≤ √Lf * √(misfit σ d d') := by
  set B := LinearMap.toMatrix' A with hB
  have hAB : ∀ x, A x = B.mulVec x := fun x => by rw [hB, LinearMap.toMatrix'_mulVec]
  have hAt : ∀ y, At y = B.conjTranspose.mulVec y := by
    intro y
    funext i
    have h1 := hadj (Pi.single i 1) y
    rw [hAB, inner_mulVec] at h1
    have e : ∀ z : Fin p → ℂ, Spec.inner z (Pi.single i 1) = (starRingEnd ℂ) (z i) := by
      intro z
      rw [Spec.inner, Finset.sum_eq_single i]
      · simp
      · intro j _ hj
        simp [hj]
      · simp
    rw [e, e] at h1
    exact (starRingEnd ℂ).injective h1.symm
  have h1 := adjoint_bound σ A At hadj Lf hL hup (d' - d)
  have e : At ((Matrix.diagonal fun i => ((1 / σ i ^ 2 : ℝ) : ℂ)).mulVec (y - d)) -
      At ((Matrix.diagonal fun i => ((1 / σ i ^ 2 : ℝ) : ℂ)).mulVec (y - d')) =
      At ((Matrix.diagonal fun i => ((1 / σ i ^ 2 : ℝ) : ℂ)).mulVec (d' - d)) - 0 := by
    rw [hAt, hAt, hAt, ← Matrix.mulVec_sub, ← Matrix.mulVec_sub, sub_zero]
    congr 2
    abel
  have e2 : misfit σ 0 (d' - d) = misfit σ d d' := by
    unfold misfit
    exact Finset.sum_congr rfl fun i _ => by simp
  rw [← enorm2_eq_sqrt, e, enorm2_eq_sqrt, ← e2]
  exact h1

/-- C161, data: the constructors are called with two data vectors, the operators, the noise level, the prior and all parameters being the
same.  The distance of the saved rows is at most `ρ^K` times that of the starts plus `(1-ρ^K) * √Lf / c` times the distance of the two data
vectors in units of the noise level. -/
theorem C161_data (data data' : DataVec n) (hd : data.cplx = false) (hd' : data'.cplx = false) (sig : SigD) (σ : Fin n → ℝ)
    (hσ : IsSigma n sig σ) (s : String) (t m : Option OpPair) (np : Option ℕ) (F F' : ForwardOp n)
    (hF : ForwardOp.init data sig s t m np = .ok F) (hF' : ForwardOp.init data' sig s t m np = .ok F')
    (B : (Fin p → ℂ) →ₗ[ℂ] (Fin n → ℂ)) (Bt : (Fin n → ℂ) → (Fin p → ℂ)) (hB : LinModel F B Bt) (hB' : LinModel F' B Bt) (c Lf : ℝ)
    (hc : 0 < c) (hcL : c ≤ Lf) (hlow : ∀ v, c * Spec.distSq v 0 ≤ misfit σ 0 (B v))
    (hup : ∀ v, misfit σ 0 (B v) ≤ Lf * Spec.distSq v 0) (Pr : PriorObj) (pri g : (Fin p → ℂ) → ℝ)
    (hpri : ∀ x, Pr.prior (List.ofFn x) = .ok (pri x)) (hconv : ConvexOn ℝ Set.univ g)
    (hprox : ∀ x : Fin p → ℂ, ∃ a, Pr.proxf (List.ofFn x) = .ok (List.ofFn a) ∧ Spec.IsProx g x a) (par : Params) (hl : 0 < par.lmda)
    (hdel : 0 < par.delta) (hs : par.delta * (1 / par.lmda + Lf + c) ≤ 2) (R : Rng) (A A' : Arrays) (hA : A.Shaped par.nsamples)
    (hA' : A'.Shaped par.nsamples) (b gap : ℕ) (hb : par.nburn = b) (hg : par.ngap = gap) (r : R.σ) (x0 x0' : Fin p → ℂ)
    (fuel fuel' : ℕ) (st st' : St R)
    (hrun : myulaRun ⟨F, Pr, par, p⟩ R A r (.array1 (List.ofFn x0)) fuel = .ok (some st))
    (hrun' : myulaRun ⟨F', Pr, par, p⟩ R A' r (.array1 (List.ofFn x0')) fuel' = .ok (some st'))
    (rows rows' : Fin par.nsamples → Fin p → ℂ)
    (hrows : (A.applyAll st.ev).chain = some (List.ofFn fun k => List.ofFn (rows k)))
    (hrows' : (A'.applyAll st'.ev).chain = some (List.ofFn fun k => List.ofFn (rows' k))) (k : Fin par.nsamples) :
    √(Spec.distSq (rows k) (rows' k)) ≤ (1 - par.delta * c) ^ (b + k * max gap 1 + 1) * √(Spec.distSq x0 x0') +
      (1 - (1 - par.delta * c) ^ (b + k * max gap 1 + 1)) * (√Lf / c) * √(misfit σ data.vals data'.vals) := by
  obtain ⟨hFd, hFi⟩ := forward_stored data hd sig σ hσ s t m np F hF
  obtain ⟨hFd', hFi'⟩ := forward_stored data' hd' sig σ hσ s t m np F' hF'
  choose prox hprox1 hprox2 using hprox
  have tot : Total ⟨F, Pr, par, p⟩ p B
      (fun y => Bt ((Matrix.diagonal fun i => ((1 / σ i ^ 2 : ℝ) : ℂ)).mulVec (y - data.vals))) prox pri :=
    ⟨rfl, hB.fwd, fun y => by rw [← hFi, ← hFd]; exact hB.grad y, hprox1, hpri, hl.ne'⟩
  have tot' : Total ⟨F', Pr, par, p⟩ p B
      (fun y => Bt ((Matrix.diagonal fun i => ((1 / σ i ^ 2 : ℝ) : ℂ)).mulVec (y - data'.vals))) prox pri :=
    ⟨rfl, hB'.fwd, fun y => by rw [← hFi', ← hFd']; exact hB'.grad y, hprox1, hpri, hl.ne'⟩
  obtain ⟨Q, hid⟩ := linear_identifiable ⟨F, Pr, par, p⟩ σ data.vals B Bt hB.adj c Lf hc hcL hlow hup prox g hconv hprox2 hl hdel hs
  have h1 := C161_rows R tot tot' rfl hid (√Lf * √(misfit σ data.vals data'.vals)) 0
    (fun x => gradg_data_diff σ B Bt hB.adj Lf (hc.le.trans hcL) hup _ _ _) (fun x => by simp [Spec.distSq]) A A' hA hA' b gap hb hg r
    x0 x0' fuel fuel' st st' hrun hrun' rows rows' hrows hrows' k
  refine h1.trans (le_of_eq ?_)
  show _ + _ / c * (_ + 0 / par.lmda) = _
  ring

/-- C161, limit for two data vectors: both chains settle to one stationary law each, `π` and `π'`, and for every quantity with Lipschitz
constant `L` the means over infinitely long runs differ by at most `L * √Lf / c` times the distance of the data vectors in units of the noise
level. -/
theorem C161_data_law (data data' : DataVec n) (hd : data.cplx = false) (hd' : data'.cplx = false) (sig : SigD) (σ : Fin n → ℝ)
    (hσ : IsSigma n sig σ) (s : String) (t m : Option OpPair) (np : Option ℕ) (F F' : ForwardOp n)
    (hF : ForwardOp.init data sig s t m np = .ok F) (hF' : ForwardOp.init data' sig s t m np = .ok F')
    (B : (Fin p → ℂ) →ₗ[ℂ] (Fin n → ℂ)) (Bt : (Fin n → ℂ) → (Fin p → ℂ)) (hB : LinModel F B Bt) (hB' : LinModel F' B Bt) (c Lf : ℝ)
    (hc : 0 < c) (hcL : c ≤ Lf) (hlow : ∀ v, c * Spec.distSq v 0 ≤ misfit σ 0 (B v))
    (hup : ∀ v, misfit σ 0 (B v) ≤ Lf * Spec.distSq v 0) (Pr : PriorObj) (pri g : (Fin p → ℂ) → ℝ)
    (hpri : ∀ x, Pr.prior (List.ofFn x) = .ok (pri x)) (hconv : ConvexOn ℝ Set.univ g)
    (hprox : ∀ x : Fin p → ℂ, ∃ a, Pr.proxf (List.ofFn x) = .ok (List.ofFn a) ∧ Spec.IsProx g x a) (par : Params) (hl : 0 < par.lmda)
    (hdel : 0 < par.delta) (hs : par.delta * (1 / par.lmda + Lf + c) ≤ 2) (R : Rng) {Ω : Type} [MeasurableSpace Ω] (P : Measure Ω)
    [IsProbabilityMeasure P] (r : Ω → R.σ) (ν : Measure (Fin p → ℂ)) (hν : NoiseStream R par.complex p P r ν)
    (hsq : ∫⁻ w, ‖w‖ₑ ^ 2 ∂ν ≠ ⊤) :
    ∃ π π' : Measure (Fin p → ℂ), IsProbabilityMeasure π ∧ IsProbabilityMeasure π' ∧
      (∀ ρ : Measure (Fin p → ℂ), IsProbabilityMeasure ρ → (StationaryLaw ⟨F, Pr, par, p⟩ R ν ρ ↔ ρ = π)) ∧
      (∀ ρ : Measure (Fin p → ℂ), IsProbabilityMeasure ρ → (StationaryLaw ⟨F', Pr, par, p⟩ R ν ρ ↔ ρ = π')) ∧
      ∀ (q : (Fin p → ℂ) → ℝ) (L : ℝ), 0 ≤ L → (∀ x y, |q x - q y| ≤ L * √(Spec.distSq x y)) →
        Integrable (fun z => q fun i => store par.complex (z i)) π ∧ Integrable (fun z => q fun i => store par.complex (z i)) π' ∧
        |∫ z, q (fun i => store par.complex (z i)) ∂π - ∫ z, q (fun i => store par.complex (z i)) ∂π'| ≤
          L * (√Lf / c) * √(misfit σ data.vals data'.vals) := by
  obtain ⟨hFd, hFi⟩ := forward_stored data hd sig σ hσ s t m np F hF
  obtain ⟨hFd', hFi'⟩ := forward_stored data' hd' sig σ hσ s t m np F' hF'
  choose prox hprox1 hprox2 using hprox
  have tot : Total ⟨F, Pr, par, p⟩ p B
      (fun y => Bt ((Matrix.diagonal fun i => ((1 / σ i ^ 2 : ℝ) : ℂ)).mulVec (y - data.vals))) prox pri :=
    ⟨rfl, hB.fwd, fun y => by rw [← hFi, ← hFd]; exact hB.grad y, hprox1, hpri, hl.ne'⟩
  have tot' : Total ⟨F', Pr, par, p⟩ p B
      (fun y => Bt ((Matrix.diagonal fun i => ((1 / σ i ^ 2 : ℝ) : ℂ)).mulVec (y - data'.vals))) prox pri :=
    ⟨rfl, hB'.fwd, fun y => by rw [← hFi', ← hFd']; exact hB'.grad y, hprox1, hpri, hl.ne'⟩
  obtain ⟨Q, hid⟩ := linear_identifiable ⟨F, Pr, par, p⟩ σ data.vals B Bt hB.adj c Lf hc hcL hlow hup prox g hconv hprox2 hl hdel hs
  obtain ⟨Q', hid'⟩ := linear_identifiable ⟨F', Pr, par, p⟩ σ data'.vals B Bt hB.adj c Lf hc hcL hlow hup prox g hconv hprox2 hl hdel hs
  obtain ⟨π, hπ, hst, huniq, -⟩ := C99_ergodic R tot hid P r ν hν
  obtain ⟨π', hπ', hst', huniq', -⟩ := C99_ergodic R tot' hid' P r ν hν
  refine ⟨π, π', hπ, hπ', fun ρ hρ => ⟨fun h => huniq ρ hρ h, fun h => h ▸ hst⟩, fun ρ hρ => ⟨fun h => huniq' ρ hρ h, fun h => h ▸ hst'⟩,
    fun q L hL0 hL => ?_⟩
  have h1 := C161_law R tot tot' rfl hid hid' (√Lf * √(misfit σ data.vals data'.vals)) 0
    (fun x => gradg_data_diff σ B Bt hB.adj Lf (hc.le.trans hcL) hup _ _ _) (fun x => by simp [Spec.distSq]) P r ν hν hsq π π' hst hst' q L hL0 hL
  refine ⟨h1.1, h1.2.1, h1.2.2.trans (le_of_eq ?_)⟩
  show L / c * (_ + 0 / par.lmda) = _
  ring

/-! ## Denoising -/

theorem softEntry_threshold (x : ℂ) {s t : ℝ} (hs : 0 ≤ s) (ht : 0 ≤ t) : ‖softEntry x s - softEntry x t‖ ≤ |s - t| := by
  wlog h : s ≤ t generalizing s t
  · rw [norm_sub_rev, abs_sub_comm]
    exact this ht hs (not_le.mp h).le
  rw [show t = s + (t - s) by ring, ← softEntry_semigroup x hs (sub_nonneg.mpr h)]
  refine (softEntry_residual (sub_nonneg.mpr h)).1.trans ?_
  rw [show s - (s + (t - s)) = -(t - s) by ring, abs_neg]
  exact le_abs_self _

theorem pixel_contract (delta lmda v t : ℝ) (hd : 0 ≤ delta) (hl : 0 < lmda) (ht : 0 ≤ t)
    (hs : delta * (1 / lmda + 2 / v) ≤ 2) (x y : ℂ) :
    ‖((1 - delta / v : ℝ) : ℂ) * (x - y) - ((delta / lmda : ℝ) : ℂ) * ((x - softEntry x t) - (y - softEntry y t))‖ ≤
      (1 - delta / v) * ‖x - y‖ := by
  have ha : 0 ≤ delta / lmda := div_nonneg hd hl.le
  have hρ : delta / lmda ≤ 2 * (1 - delta / v) := by
    have e : delta * (1 / lmda + 2 / v) = delta / lmda + 2 * (delta / v) := by ring
    linarith
  have hρ0 : 0 ≤ 1 - delta / v := by linarith
  have hf := softEntry_firm x y ht
  set D := x - y with hD
  set S := softEntry x t - softEntry y t with hS
  have e1 : x - softEntry x t - (y - softEntry y t) = D - S := by rw [hD, hS]; ring
  rw [e1]
  set a := delta / lmda
  set ρ := 1 - delta / v
  refine le_of_sq_le_sq ?_ (mul_nonneg hρ0 (norm_nonneg _))
  have hf' : S.re ^ 2 + S.im ^ 2 ≤ S.re * D.re + S.im * D.im := by
    have h1 : ‖S‖ ^ 2 = S.re ^ 2 + S.im ^ 2 := by
      rw [← Complex.normSq_eq_norm_sq, Complex.normSq_apply]
      ring
    have h2 : RCLike.re (inner ℂ S D) = S.re * D.re + S.im * D.im := by
      simp
      ring
    rw [h1, h2] at hf
    exact hf
  rw [mul_pow, ← Complex.normSq_eq_norm_sq, ← Complex.normSq_eq_norm_sq, Complex.normSq_apply, Complex.normSq_apply]
  simp only [Complex.sub_re, Complex.sub_im, Complex.mul_re, Complex.mul_im, Complex.ofReal_re, Complex.ofReal_im, zero_mul, sub_zero,
    add_zero]
  have h3 : 0 ≤ a * (2 * ρ - a) * ((D.re - S.re) ^ 2 + (D.im - S.im) ^ 2) :=
    mul_nonneg (mul_nonneg ha (by linarith)) (by positivity)
  have h4 : 0 ≤ 2 * ρ * a * (S.re * D.re + S.im * D.im - (S.re ^ 2 + S.im ^ 2)) :=
    mul_nonneg (mul_nonneg (mul_nonneg zero_le_two hρ0) ha) (by linarith)
  nlinarith

theorem norm_store (cplx : Bool) (x y : ℂ) : ‖store cplx x - store cplx y‖ ≤ ‖x - y‖ := by
  cases cplx with
  | true => exact le_of_eq (by simp [store])
  | false =>
    have e : store false x - store false y = (((x - y).re : ℝ) : ℂ) := by simp [store]
    rw [e, Complex.norm_real]
    exact Complex.abs_re_le_norm _

/-- C161, denoising end to end: the public constructors are called twice, with real data `d`, `d'` and thresholds `T`, `T'`; both runs exist, from
the same random state and from the starts `x0`, `x0'`.  For every pixel `i` whose noise level `σ i` satisfies
`delta * (1/lmda + 2/σ i^2) ≤ 2` the saved values differ by at most
`ρ^K * |x0 i - x0' i| + (1 - ρ^K) * (|d i - d' i| + σ i^2/lmda * |T - T'|)`, with `ρ = 1 - delta/σ i^2` and `K` the iteration of the row. -/
theorem C161_denoising (d d' : DataVec n) (hd : d.cplx = false) (hd' : d'.cplx = false) (sig : SigD) (σ : Fin n → ℝ)
    (hσ : IsSigma n sig σ) (s : String) (hs : s = "analysis" ∨ s = "synthesis") (T T' : ℝ) (hT : 0 ≤ T) (hT' : 0 ≤ T') (par : Params)
    (b gap : ℕ) (hl : 0 < par.lmda) (hdel : 0 < par.delta) (hb : par.nburn = b) (hg : par.ngap = gap) (hv : par.verbosity ≤ 0)
    (htr : "chain" ∈ par.track) (R : Rng) (r : R.σ) (x0 x0' : Fin n → ℂ) :
    ∃ (F F' : ForwardOp n) (P P' : L1 ℂ) (M M' : Sampler n) (A A' : Arrays) (st st' : St R) (N : ℕ)
      (rows rows' : Fin par.nsamples → Fin n → ℂ),
      ForwardOp.init d sig s (some identityTransform) (some (identityMeasurement n n)) (some n) = .ok F ∧
      ForwardOp.init d' sig s (some identityTransform) (some (identityMeasurement n n)) (some n) = .ok F' ∧
      L1.init s identityTransform.op identityTransform.adj (.scalar T) = .ok P ∧
      L1.init s identityTransform.op identityTransform.adj (.scalar T') = .ok P' ∧
      samplerInit F P.toPrior par = .ok (M, A) ∧ samplerInit F' P'.toPrior par = .ok (M', A') ∧
      (∀ fuel ≥ N, myulaRun M R A r (.array1 (List.ofFn x0)) fuel = .ok (some st)) ∧
      (∀ fuel ≥ N, myulaRun M' R A' r (.array1 (List.ofFn x0')) fuel = .ok (some st')) ∧
      (A.applyAll st.ev).chain = some (List.ofFn fun k => List.ofFn (rows k)) ∧
      (A'.applyAll st'.ev).chain = some (List.ofFn fun k => List.ofFn (rows' k)) ∧
      ∀ i, par.delta * (1 / par.lmda + 2 / σ i ^ 2) ≤ 2 → ∀ k : Fin par.nsamples,
        ‖rows k i - rows' k i‖ ≤ (1 - par.delta / σ i ^ 2) ^ (b + k * max gap 1 + 1) * ‖x0 i - x0' i‖ +
          (1 - (1 - par.delta / σ i ^ 2) ^ (b + k * max gap 1 + 1)) * (‖d.vals i - d'.vals i‖ + σ i ^ 2 / par.lmda * |T - T'|) := by
  obtain ⟨F, P, hF, hP, -, -, hnp, tot⟩ := denoise_total d hd sig σ hσ s hs T
  obtain ⟨F', P', hF', hP', -, -, hnp', tot'⟩ := denoise_total d' hd' sig σ hσ s hs T'
  have tot := tot par hl.ne'
  have tot' := tot' par hl.ne'
  obtain ⟨-, st, h1, -, h2⟩ := C41_schedule ⟨F, P.toPrior, par, n⟩ R (initArrays ⟨F, P.toPrior, par, n⟩) (initArrays_shaped _)
    (.inl hv) b gap hb hg tot _ (fun x => gradlogpi_vec _ tot x) r r (.array1 (List.ofFn x0)) _ (start_array R tot r _) _ rfl
  obtain ⟨-, st', h1', -, h2'⟩ := C41_schedule ⟨F', P'.toPrior, par, n⟩ R (initArrays ⟨F', P'.toPrior, par, n⟩) (initArrays_shaped _)
    (.inl hv) b gap hb hg tot' _ (fun x => gradlogpi_vec _ tot' x) r r (.array1 (List.ofFn x0')) _ (start_array R tot' r _) _ rfl
  have hch : ∀ (Mm : Sampler n) (hm : Mm.par = par) (f : ℕ → Row) (x : ℕ → Fin n → ℂ) (_ : ∀ k, (f k).chain = List.ofFn (x k)),
      ((initArrays Mm).ofRows par.nsamples f).chain = some (List.ofFn fun k : Fin par.nsamples => List.ofFn (x k)) := by
    intro Mm hm f x hf
    have hc' : ∃ l, (initArrays Mm).chain = some l := ⟨_, if_pos (e := (none : Option (List (List ℂ)))) (hm ▸ htr)⟩
    obtain ⟨l, hl⟩ := hc'
    simp only [Arrays.ofRows, hl, Option.map_some, Option.some.injEq]
    refine List.ext_getElem (by simp) fun k hk hk' => ?_
    simp only [List.getElem_map, List.getElem_range, List.getElem_ofFn]
    exact hf k
  obtain ⟨rows, hrows⟩ : ∃ rows : Fin par.nsamples → Fin n → ℂ, ((initArrays ⟨F, P.toPrior, par, n⟩).applyAll st.ev).chain =
      some (List.ofFn fun k => List.ofFn (rows k)) := ⟨_, (congrArg Arrays.chain h2).trans (hch _ rfl _ _ fun k => rfl)⟩
  obtain ⟨rows', hrows'⟩ : ∃ rows : Fin par.nsamples → Fin n → ℂ, ((initArrays ⟨F', P'.toPrior, par, n⟩).applyAll st'.ev).chain =
      some (List.ofFn fun k => List.ofFn (rows k)) := ⟨_, (congrArg Arrays.chain h2').trans (hch _ rfl _ _ fun k => rfl)⟩
  refine ⟨F, F', P, P', ⟨F, P.toPrior, par, n⟩, ⟨F', P'.toPrior, par, n⟩, _, _, st, st', _, rows, rows', hF, hF', hP, hP',
    by simp [samplerInit, hnp], by simp [samplerInit, hnp'], h1, h1', hrows, hrows', fun i hi k => ?_⟩
  rw [myula_chain_rows R tot _ (initArrays_shaped _) b gap hb hg r x0 _ st (h1 _ le_rfl) rows hrows k,
    myula_chain_rows R tot' _ (initArrays_shaped _) b gap hb hg r x0' _ st' (h1' _ le_rfl) rows' hrows' k]
  refine (norm_store _ _ _).trans ?_
  have hσi : 0 < σ i ^ 2 := by
    have : 0 < σ i := by
      cases hσ with
      | scalar s hs => exact hs
      | vector s hs => exact hs i
    positivity
  have hρ1 : 1 - par.delta / σ i ^ 2 < 1 := by linarith [div_pos hdel hσi]
  have hρ0 : 0 ≤ 1 - par.delta / σ i ^ 2 := by
    have e : par.delta * (1 / par.lmda + 2 / σ i ^ 2) = par.delta / par.lmda + 2 * (par.delta / σ i ^ 2) := by ring
    linarith [div_pos hdel hl]
  have h3 := fw_diff (ulaStep par.delta (gradVec par.lmda (fun x => x) (fun y i => (y i - d.vals i) / ((σ i ^ 2 : ℝ) : ℂ))
      fun x i => softEntry (x i) T)) (ulaStep par.delta (gradVec par.lmda (fun x => x)
      (fun y i => (y i - d'.vals i) / ((σ i ^ 2 : ℝ) : ℂ)) fun x i => softEntry (x i) T'))
    (fun x y => ‖x i - y i‖) (1 - par.delta / σ i ^ 2)
    (par.delta / σ i ^ 2 * (‖d.vals i - d'.vals i‖ + σ i ^ 2 / par.lmda * |T - T'|)) hρ0
    (fun x y z => norm_sub_le_norm_sub_add_norm_sub _ _ _)
    (fun x y w => by
      refine le_of_eq_of_le ?_ (pixel_contract par.delta par.lmda (σ i ^ 2) T hdel.le hl hT hi (x i) (y i))
      congr 1
      simp only [ulaStep, gradVec]
      push_cast
      ring)
    (fun x w => by
      have e : ulaStep par.delta (gradVec par.lmda (fun x => x) (fun y i => (y i - d.vals i) / ((σ i ^ 2 : ℝ) : ℂ))
          fun x i => softEntry (x i) T) x w i - ulaStep par.delta (gradVec par.lmda (fun x => x)
          (fun y i => (y i - d'.vals i) / ((σ i ^ 2 : ℝ) : ℂ)) fun x i => softEntry (x i) T') x w i =
          ((par.delta / σ i ^ 2 : ℝ) : ℂ) * (d.vals i - d'.vals i) +
          ((par.delta / par.lmda : ℝ) : ℂ) * (softEntry (x i) T - softEntry (x i) T') := by
        simp only [ulaStep, gradVec]
        push_cast
        ring
      show ‖_‖ ≤ _
      rw [e]
      refine (norm_add_le _ _).trans ?_
      rw [norm_mul, norm_mul, Complex.norm_real, Complex.norm_real, Real.norm_of_nonneg (div_pos hdel hσi).le,
        Real.norm_of_nonneg (div_pos hdel hl).le]
      have h4 := mul_le_mul_of_nonneg_left (softEntry_threshold (x i) hT hT') (div_pos hdel hl).le
      have e2 : par.delta / σ i ^ 2 * (‖d.vals i - d'.vals i‖ + σ i ^ 2 / par.lmda * |T - T'|) =
          par.delta / σ i ^ 2 * ‖d.vals i - d'.vals i‖ + par.delta / par.lmda * |T - T'| := by
        have hne := hσi.ne'
        generalize σ i ^ 2 = v at hne ⊢
        field_simp
      rw [e2]
      linarith)
    x0 x0' (noiseSeq R par.complex n r) (b + k * max gap 1 + 1)
  refine h3.trans (le_of_eq ?_)
  rw [geom_rate _ hρ1]
  congr 1
  rw [show 1 - (1 - par.delta / σ i ^ 2) = par.delta / σ i ^ 2 by ring]
  have hne := (div_pos hdel hσi).ne'
  generalize par.delta / σ i ^ 2 = a at hne ⊢
  field_simp

/-! ## Summaries of the chain -/

theorem count_shift (ε : ℝ) (xs ys : List ℝ) (h : List.Forall₂ (fun x y => |x - y| ≤ ε) xs ys) (u : ℝ) :
    ys.countP (fun y => decide (y ≤ u)) ≤ xs.countP (fun x => decide (x ≤ u + ε)) := by
  induction h with
  | nil => simp
  | @cons x y xs ys hxy _ ih =>
    rw [List.countP_cons, List.countP_cons]
    by_cases hy : y ≤ u
    · have hx : x ≤ u + ε := by linarith [(abs_le.mp hxy).2]
      simpa [hx, hy] using ih
    · simp only [hy, decide_false, Bool.false_eq_true, if_false, add_zero]
      omega

theorem ostat_shift (ε : ℝ) (xs ys : List ℝ) (h : List.Forall₂ (fun x y => |x - y| ≤ ε) xs ys) (j : ℕ) (hj : j < xs.length) :
    |ostat xs j - ostat ys j| ≤ ε := by
  have key : ∀ xs ys : List ℝ, List.Forall₂ (fun x y => |x - y| ≤ ε) xs ys → j < xs.length → ostat xs j ≤ ostat ys j + ε := by
    intro xs ys h hj
    refine ostat_le_of_count xs _ j (lt_of_lt_of_le ?_ (count_shift ε xs ys h _))
    by_contra hn
    exact lt_irrefl _ (ostat_gt_of_count ys (ostat ys j) j (h.length_eq ▸ hj) (not_lt.mp hn))
  have h1 := key xs ys h hj
  have h2 := key ys xs (h.flip.imp fun x y hxy => by rwa [abs_sub_comm]) (h.length_eq ▸ hj)
  rw [abs_le]
  constructor <;> linarith

theorem tele_shift (ε : ℝ) (f f' : ℕ → ℝ) (N : ℕ) (h : ∀ i ≤ N, |f i - f' i| ≤ ε) (u : ℝ) (hu : 0 ≤ u) :
    |tele f N u - tele f' N u| ≤ ε := by
  rcases le_or_gt (N : ℝ) u with hN | hN
  · rw [tele_last _ _ _ hN, tele_last _ _ _ hN]
    exact h N le_rfl
  have hj : ⌊u⌋₊ < N := (Nat.floor_lt hu).mpr hN
  have h0 := Nat.floor_le hu
  have h1 := (Nat.lt_floor_add_one u).le
  rw [tele_mid f N ⌊u⌋₊ u hj h0 h1, tele_mid f' N ⌊u⌋₊ u hj h0 h1]
  set t := u - ⌊u⌋₊ with ht
  have e : f ⌊u⌋₊ + (f (⌊u⌋₊ + 1) - f ⌊u⌋₊) * t - (f' ⌊u⌋₊ + (f' (⌊u⌋₊ + 1) - f' ⌊u⌋₊) * t) =
      (1 - t) * (f ⌊u⌋₊ - f' ⌊u⌋₊) + t * (f (⌊u⌋₊ + 1) - f' (⌊u⌋₊ + 1)) := by ring
  have h2 := h ⌊u⌋₊ hj.le
  have h3 := h (⌊u⌋₊ + 1) hj
  rw [e]
  refine (abs_add_le _ _).trans ?_
  rw [abs_mul, abs_mul, abs_of_nonneg (by linarith : (0 : ℝ) ≤ 1 - t), abs_of_nonneg (by linarith : (0 : ℝ) ≤ t)]
  nlinarith

/-- C161, intervals: two chains of `N > 0` real samples in which every saved value of parameter `j` differs by at most `ε j`.  For every level that
`credible_interval_range` accepts, the widths returned for parameter `j` differ by at most `2 * ε j`. -/
theorem C161_interval {N : ℕ} (hN : 0 < N) (rows rows' : Fin N → Fin p → ℝ) (ε : Fin p → ℝ) (h : ∀ k j, |rows k j - rows' k j| ≤ ε j)
    (alpha : ℝ) (h0 : 0 ≤ alpha) (h2 : alpha ≤ 2) :
    ∃ w w' : Fin p → ℝ,
      credibleIntervalRange (· ≤ ·) (⟨N, List.ofFn fun j => List.ofFn fun k => rows k j⟩ : SampleArr ℝ) alpha = .ok (List.ofFn w) ∧
      credibleIntervalRange (· ≤ ·) (⟨N, List.ofFn fun j => List.ofFn fun k => rows' k j⟩ : SampleArr ℝ) alpha = .ok (List.ofFn w') ∧
      ∀ j, |w j - w' j| ≤ 2 * ε j := by
  have hw : ∀ rows : Fin N → Fin p → ℝ,
      credibleIntervalRange (· ≤ ·) (⟨N, List.ofFn fun j => List.ofFn fun k => rows k j⟩ : SampleArr ℝ) alpha =
        .ok (List.ofFn fun j => colWidth (List.ofFn fun k => rows k j) (N - 1) alpha) := by
    intro rows
    have hwf : SampleArr.WF (⟨N, List.ofFn fun j : Fin p => List.ofFn fun k : Fin N => rows k j⟩ : SampleArr ℝ) := by
      intro col hcol
      obtain ⟨j, rfl⟩ := (List.mem_ofFn' _ _).mp hcol
      exact List.length_ofFn
    rw [ciRange_real _ hwf (N - 1) (show N = N - 1 + 1 by omega) alpha h0 h2, List.map_ofFn]
    rfl
  refine ⟨_, _, hw rows, hw rows', fun j => ?_⟩
  have hfa : List.Forall₂ (fun x y => |x - y| ≤ ε j) (List.ofFn fun k => rows k j) (List.ofFn fun k => rows' k j) := by
    rw [List.forall₂_iff_get]
    exact ⟨by simp, fun k hk hk' => by simpa using h _ j⟩
  have ho : ∀ i ≤ N - 1, |ostat (List.ofFn fun k => rows k j) i - ostat (List.ofFn fun k => rows' k j) i| ≤ ε j :=
    fun i hi => ostat_shift _ _ _ hfa i (by rw [List.length_ofFn]; omega)
  have hNn : (0 : ℝ) ≤ (N - 1 : ℕ) := Nat.cast_nonneg _
  have h3 := abs_le.mp (tele_shift (ε j) _ _ (N - 1) ho ((N - 1 : ℕ) * (1 - alpha / 2)) (mul_nonneg hNn (by linarith)))
  have h4 := abs_le.mp (tele_shift (ε j) _ _ (N - 1) ho ((N - 1 : ℕ) * (alpha / 2)) (mul_nonneg hNn (by linarith)))
  show |colWidth _ _ _ - colWidth _ _ _| ≤ _
  unfold colWidth
  rw [abs_le]
  constructor <;> linarith [h3.1, h3.2, h4.1, h4.2]

/-! ## Instances -/

/-- The hypotheses of `C161_denoising` are met: three pixels, different data, thresholds and starts. -/
example : ∃ (d d' : DataVec 3) (sig : SigD) (σ : Fin 3 → ℝ) (T T' : ℝ) (par : Params), d.cplx = false ∧ d'.cplx = false ∧
    d.vals ≠ d'.vals ∧ IsSigma 3 sig σ ∧ 0 ≤ T ∧ 0 ≤ T' ∧ T ≠ T' ∧ 0 < par.lmda ∧ 0 < par.delta ∧ par.nburn = (3 : ℕ) ∧ par.ngap = (2 : ℕ) ∧
    par.verbosity ≤ 0 ∧ "chain" ∈ par.track ∧ par.nsamples = 10 ∧ ∀ i, par.delta * (1 / par.lmda + 2 / σ i ^ 2) ≤ 2 :=
  ⟨⟨false, ![1, 2, 3]⟩, ⟨false, ![1, 2, 4]⟩, .num ((2 : ℝ) : ℂ) false, fun _ => 2, 1, 3, ⟨1, 1 / 2, 1, 1, 10, 3, 2, false, 0, ["chain"]⟩,
    rfl, rfl, fun h => by simpa using congrFun h 2, .scalar 2 (by norm_num), by norm_num, by norm_num, by norm_num, by norm_num, by norm_num, rfl,
    rfl, le_rfl, by simp, rfl, fun _ => by norm_num⟩

/-- The hypotheses of `C161_data`, and with it those of `C161_rows`, are met by the runs of `C161_denoising` for two data vectors, starts and
every generator. -/
example (R : Rng) (r : R.σ) : ∃ (data data' : DataVec 3) (sig : SigD) (σ : Fin 3 → ℝ) (F F' : ForwardOp 3)
    (B : (Fin 3 → ℂ) →ₗ[ℂ] (Fin 3 → ℂ)) (Bt : (Fin 3 → ℂ) → (Fin 3 → ℂ)) (Pr : PriorObj) (pri g : (Fin 3 → ℂ) → ℝ) (par : Params)
    (A A' : Arrays) (x0 x0' : Fin 3 → ℂ) (fuel fuel' : ℕ) (st st' : St R) (rows rows' : Fin par.nsamples → Fin 3 → ℂ),
    data.cplx = false ∧ data'.cplx = false ∧ data.vals ≠ data'.vals ∧ x0 ≠ x0' ∧ IsSigma 3 sig σ ∧
    ForwardOp.init data sig "analysis" (some identityTransform) (some (identityMeasurement 3 3)) (some 3) = .ok F ∧
    ForwardOp.init data' sig "analysis" (some identityTransform) (some (identityMeasurement 3 3)) (some 3) = .ok F' ∧
    LinModel F B Bt ∧ LinModel F' B Bt ∧ (∀ v, 1 / 4 * Spec.distSq v 0 ≤ misfit σ 0 (B v)) ∧
    (∀ v, misfit σ 0 (B v) ≤ 1 / 4 * Spec.distSq v 0) ∧ (∀ x, Pr.prior (List.ofFn x) = .ok (pri x)) ∧ ConvexOn ℝ Set.univ g ∧
    (∀ x : Fin 3 → ℂ, ∃ a, Pr.proxf (List.ofFn x) = .ok (List.ofFn a) ∧ Spec.IsProx g x a) ∧ 0 < par.lmda ∧ 0 < par.delta ∧
    par.delta * (1 / par.lmda + 1 / 4 + 1 / 4) ≤ 2 ∧ A.Shaped par.nsamples ∧ A'.Shaped par.nsamples ∧ par.nburn = (3 : ℕ) ∧
    par.ngap = (2 : ℕ) ∧ par.nsamples = 10 ∧
    myulaRun ⟨F, Pr, par, 3⟩ R A r (.array1 (List.ofFn x0)) fuel = .ok (some st) ∧
    myulaRun ⟨F', Pr, par, 3⟩ R A' r (.array1 (List.ofFn x0')) fuel' = .ok (some st') ∧
    (A.applyAll st.ev).chain = some (List.ofFn fun k => List.ofFn (rows k)) ∧
    (A'.applyAll st'.ev).chain = some (List.ofFn fun k => List.ofFn (rows' k)) := by
  have hσ : IsSigma 3 (.num ((2 : ℝ) : ℂ) false) fun _ => 2 := .scalar 2 (by norm_num)
  set par : Params := ⟨1, 1 / 2, 1, 1, 10, 3, 2, false, 0, ["chain"]⟩ with hpar
  obtain ⟨F, F', P, P', M, M', A, A', st, st', N, rows, rows', hF, hF', hP, hP', hM, hM', h1, h1', h2, h2', -⟩ :=
    C161_denoising (⟨false, ![1, 2, 3]⟩ : DataVec 3) ⟨false, ![1, 2, 4]⟩ rfl rfl _ _ hσ "analysis" (.inl rfl) 1 1 zero_le_one zero_le_one par
      3 2 one_pos (by norm_num [hpar]) rfl rfl le_rfl (by simp [hpar]) R r ![5, 5, 5] ![0, 1, 2]
  obtain ⟨G, Q, hG, hQ, hGd, hGi, hGn, tot⟩ := denoise_total (⟨false, ![1, 2, 3]⟩ : DataVec 3) rfl _ _ hσ "analysis" (.inl rfl) 1
  obtain ⟨G', Q', hG', hQ', hGd', hGi', hGn', tot'⟩ := denoise_total (⟨false, ![1, 2, 4]⟩ : DataVec 3) rfl _ _ hσ "analysis" (.inl rfl) 1
  obtain rfl := Except.ok.inj (hF.symm.trans hG)
  obtain rfl := Except.ok.inj (hF'.symm.trans hG')
  obtain rfl := Except.ok.inj (hP.symm.trans hP')
  obtain rfl := Except.ok.inj (hP.symm.trans hQ)
  obtain rfl := Except.ok.inj (hP.symm.trans hQ')
  have tot := tot par one_ne_zero
  have tot' := tot' par one_ne_zero
  have e1 : M = ⟨F, P.toPrior, par, 3⟩ ∧ A = initArrays ⟨F, P.toPrior, par, 3⟩ := by
    simp only [samplerInit, hGn] at hM
    have := Except.ok.inj hM
    simp only [Prod.mk.injEq] at this
    exact ⟨this.1.symm, this.2.symm⟩
  have e2 : M' = ⟨F', P.toPrior, par, 3⟩ ∧ A' = initArrays ⟨F', P.toPrior, par, 3⟩ := by
    simp only [samplerInit, hGn'] at hM'
    have := Except.ok.inj hM'
    simp only [Prod.mk.injEq] at this
    exact ⟨this.1.symm, this.2.symm⟩
  obtain ⟨rfl, rfl⟩ := e1
  obtain ⟨rfl, rfl⟩ := e2
  have hmis : ∀ v : Fin 3 → ℂ, misfit (fun _ => 2) 0 v = 1 / 4 * Spec.distSq v 0 := by
    intro v
    unfold misfit Spec.distSq
    rw [Finset.mul_sum]
    refine Finset.sum_congr rfl fun i _ => ?_
    rw [Pi.zero_apply, zero_sub, norm_neg, sub_zero]
    ring
  refine ⟨_, _, _, _, F, F', LinearMap.id, fun y => y, P.toPrior, fun u => ∑ i, ‖u i‖, Spec.wl1 fun _ => 1, par, _, _, _, _, N, N, st, st', rows,
    rows', rfl, rfl, fun h => by simpa using congrFun h 2, fun h => by simpa using congrFun h 0, hσ, hF, hF',
    ⟨tot.forward, fun y => ?_, fun x y => rfl⟩, ⟨tot'.forward, fun y => ?_, fun x y => rfl⟩, fun v => (hmis v).ge, fun v => (hmis v).le,
    tot.prior, wl1_convex _ fun _ => zero_le_one, fun x => ⟨_, tot.proxf x, softEntry_isProx x (fun _ => 1) fun _ => zero_le_one⟩, one_pos,
    by norm_num [hpar], by norm_num [hpar], initArrays_shaped _, initArrays_shaped _, rfl, rfl, rfl, h1 N le_rfl, h1' N le_rfl, h2, h2'⟩
  · refine (tot.gradg y).trans ?_
    rw [hGd, hGi]
    congr 2
    funext i
    rw [Matrix.mulVec_diagonal, Pi.sub_apply]
    push_cast
    ring
  · refine (tot'.gradg y).trans ?_
    rw [hGd', hGi']
    congr 2
    funext i
    rw [Matrix.mulVec_diagonal, Pi.sub_apply]
    push_cast
    ring

/-- The hypotheses of `C161_interval` are met by two chains of ten samples of two parameters. -/
example : ∃ (rows rows' : Fin 10 → Fin 2 → ℝ) (ε : Fin 2 → ℝ), rows ≠ rows' ∧ (∀ k j, |rows k j - rows' k j| ≤ ε j) ∧ ε 0 = 1 ∧ ε 1 = 0 :=
  ⟨fun k j => k + j, fun k j => k + j + if j = 0 then 1 else 0, ![1, 0], fun h => by simpa using congrFun (congrFun h 0) 0,
    fun k j => by fin_cases j <;> simp, rfl, rfl⟩

/-- The further hypotheses of `C161_data_law` on the noise are met by independent normal vectors with three entries; the others are those of
`C161_data`. -/
example : NoiseStream (vecRng 3) false 3 (Measure.infinitePi fun _ : ℕ => Measure.pi fun _ : Fin 3 => gaussianReal 0 1) (fun ω => ω)
    (normalLaw 3) ∧ ∫⁻ w, ‖w‖ₑ ^ 2 ∂(normalLaw 3) ≠ ⊤ :=
  ⟨C99_normal_noise _ _ _ vecRng_normal, C114_normal_noise⟩

/-- The hypotheses of `C161_law` are met by two samplers of one pixel with thresholds 3 and 1 under independent normal draws. -/
example : ∃ (M M' : Sampler 1) (prox prox' : (Fin 1 → ℂ) → (Fin 1 → ℂ)) (pri g g' : (Fin 1 → ℂ) → ℝ) (π π' : Measure (Fin 1 → ℂ)),
    Total M 1 (fun x => x) (fun y => y) prox pri ∧ Total M' 1 (fun x => x) (fun y => y) prox' pri ∧ M'.par = M.par ∧ prox ≠ prox' ∧
    Identifiable M (fun x : Fin 1 → ℂ => x) (fun y => y) prox g 1 1 1 ∧ Identifiable M' (fun x : Fin 1 → ℂ => x) (fun y => y) prox' g' 1 1 1 ∧
    (∀ x : Fin 1 → ℂ, √(Spec.distSq x x) ≤ 0) ∧ (∀ x, √(Spec.distSq (prox x) (prox' x)) ≤ 2) ∧
    NoiseStream streamRng M.par.complex 1 (Measure.infinitePi fun _ : ℕ => gaussianReal 0 1) (fun ω => ω) (normalLaw 1) ∧
    ∫⁻ w, ‖w‖ₑ ^ 2 ∂(normalLaw 1) ≠ ⊤ ∧ IsProbabilityMeasure π ∧ IsProbabilityMeasure π' ∧ StationaryLaw M streamRng (normalLaw 1) π ∧
    StationaryLaw M' streamRng (normalLaw 1) π' := by
  have hr : ∀ v : Fin 1 → ℂ, (Spec.inner v ((1 : Matrix (Fin 1) (Fin 1) ℂ).mulVec v)).re = Spec.distSq v 0 := by
    intro v
    rw [Matrix.one_mulVec, ← rip_eq_inner, rip_self]
  have htot : ∀ T : ℝ, Total (demoL1 T ⟨1, 2 / 3, 1, 1, 4, (3 : ℕ), (2 : ℕ), false, 0, ["chain"]⟩) 1 (fun x => x) (fun y => y)
      (fun x i => softEntry (x i) T) fun x => ∑ i, ‖x i‖ := by
    intro T
    have h0 := demo_total ⟨1, 2 / 3, 1, 1, 4, (3 : ℕ), (2 : ℕ), false, 0, ["chain"]⟩ one_ne_zero
    refine ⟨rfl, h0.forward, h0.gradg, fun x => soft_scalar x T, fun x => ?_, one_ne_zero⟩
    show Except.ok _ = _
    rw [L1.prior, norm_sum_ofFn]
  have hid : ∀ T : ℝ, 0 ≤ T → Identifiable (demoL1 T ⟨1, 2 / 3, 1, 1, 4, (3 : ℕ), (2 : ℕ), false, 0, ["chain"]⟩) (fun x : Fin 1 → ℂ => x)
      (fun y => y) (fun x i => softEntry (x i) T) (Spec.wl1 fun _ => T) 1 1 1 := by
    intro T hT
    refine ⟨wl1_convex _ fun _ => hT, fun x => softEntry_isProx x (fun _ => T) fun _ => hT, Matrix.isHermitian_one,
      fun v => ?_, fun v => ?_, fun x y => (Matrix.one_mulVec _).symm, one_pos, le_rfl, one_pos, ?_, ?_⟩
    · rw [hr, one_mul]
    · rw [hr, one_mul]
    · show (0 : ℝ) < 2 / 3
      norm_num
    · show (2 / 3 : ℝ) * (1 / 1 + 1 + 1) ≤ 2
      norm_num
  have hn := C99_normal_noise streamRng _ _ streamRng_normal
  obtain ⟨π, hπ, hst, -⟩ := C99_ergodic streamRng (htot 3) (hid 3 (by norm_num)) _ _ _ hn
  obtain ⟨π', hπ', hst', -⟩ := C99_ergodic streamRng (htot 1) (hid 1 (by norm_num)) _ _ _ hn
  refine ⟨_, _, _, _, _, _, _, π, π', htot 3, htot 1, rfl, fun h => ?_, hid 3 (by norm_num), hid 1 (by norm_num), fun x => ?_, fun x => ?_, hn,
    C114_normal_noise, hπ, hπ', hst, hst'⟩
  · have h2 := congrFun (congrFun h fun _ => 2) 0
    norm_num [softEntry, signEntry] at h2
  · simp [Spec.distSq]
  · have h3 := softEntry_threshold (x 0) (s := 3) (t := 1) (by norm_num) (by norm_num)
    norm_num at h3
    refine (Real.sqrt_le_left (by norm_num)).mpr ?_
    simp only [Spec.distSq, Finset.univ_unique, Fin.default_eq_zero, Finset.sum_singleton]
    exact pow_le_pow_left₀ (norm_nonneg _) h3 2

end Pxmcmc
