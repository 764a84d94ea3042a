import Verif.Props.Averages
import Verif.Props.MyulaComplex
import Verif.Props.ComplexDenoise

/-! # Property C132: geometric convergence of MYULA for complex data, also with a real sampler -/

namespace Pxmcmc
open MeasureTheory ProbabilityTheory Filter
open scoped ENNReal Topology
variable {n p : ℕ}

section Generic
variable {M : Sampler n} {fwd : (Fin p → ℂ) → (Fin n → ℂ)} {grad : (Fin n → ℂ) → (Fin p → ℂ)}
  {prox : (Fin p → ℂ) → (Fin p → ℂ)} {pri g : (Fin p → ℂ) → ℝ} {ρ : ℝ}

/-- One step with common noise brings two points closer by the factor `ρ`, and the drift is continuous. -/
structure StepContracts (delta : ℝ) (G : (Fin p → ℂ) → (Fin p → ℂ)) (ρ : ℝ) : Prop where
  cont : Continuous G
  nonneg : 0 ≤ ρ
  lt_one : ρ < 1
  contract : ∀ x y w, √(Spec.distSq (ulaStep delta G x w) (ulaStep delta G y w)) ≤ ρ * √(Spec.distSq x y)

theorem StepContracts.square {delta : ℝ} {G : (Fin p → ℂ) → (Fin p → ℂ)} (h : StepContracts delta G ρ) (ν : Measure (Fin p → ℂ))
    [IsProbabilityMeasure ν] (hν : ∫⁻ w, ‖w‖ₑ ∂ν ≠ ⊤) (hsq : ∫⁻ w, ‖w‖ₑ ^ 2 ∂ν ≠ ⊤) (x0 : Fin p → ℂ) :
    SquareContraction ν (ulaStep delta G) (fun x y => √(Spec.distSq x y)) ρ x0 := by
  have hcont : Continuous (Function.uncurry (ulaStep delta G)) := by
    unfold ulaStep Function.uncurry
    refine continuous_pi fun i => ?_
    have h1 : Continuous fun q : (Fin p → ℂ) × (Fin p → ℂ) => G q.1 i := (continuous_apply i).comp (h.cont.comp continuous_fst)
    have h2 : Continuous fun q : (Fin p → ℂ) × (Fin p → ℂ) => q.1 i := (continuous_apply i).comp continuous_fst
    have h3 : Continuous fun q : (Fin p → ℂ) × (Fin p → ℂ) => q.2 i := (continuous_apply i).comp continuous_snd
    exact (h2.add (h1.const_mul _)).add (h3.const_mul _)
  set z : Fin p → ℂ := fun i => x0 i + (delta : ℂ) * G x0 i with hz
  set s : ℂ := ((√(2 * delta) : ℝ) : ℂ) with hs
  have hm : Measurable fun w => √(Spec.distSq (ulaStep delta G x0 w) x0) :=
    ((continuous_distSq x0).comp (hcont.comp (Continuous.prodMk_right x0))).measurable
  refine ⟨⟨hcont.measurable, fun w => hcont.comp (Continuous.prodMk_left w), h.nonneg, h.lt_one, sqrt_distSq_le, h.contract, hm, ?_⟩,
    fun x y z => ?_, continuous_distSq x0, by simp [Spec.distSq], ?_⟩
  · have hb : ∀ w : Fin p → ℂ, ENNReal.ofReal √(Spec.distSq (ulaStep delta G x0 w) x0) ≤
        ENNReal.ofReal (√p * ‖z - x0‖) + ENNReal.ofReal (√p * ‖s‖) * ‖w‖ₑ := by
      intro w
      refine (ENNReal.ofReal_le_ofReal (sqrt_distSq_add x0 z w s)).trans ?_
      rw [mul_add, ENNReal.ofReal_add (by positivity) (by positivity)]
      refine add_le_add le_rfl (le_of_eq ?_)
      rw [← mul_assoc, ENNReal.ofReal_mul (by positivity), ofReal_norm]
    refine ne_top_of_le_ne_top ?_ (lintegral_mono hb)
    rw [lintegral_add_left measurable_const, lintegral_const, lintegral_const_mul _ measurable_enorm]
    simp only [measure_univ, mul_one]
    exact ENNReal.add_ne_top.mpr ⟨ENNReal.ofReal_ne_top, ENNReal.mul_ne_top ENNReal.ofReal_ne_top hν⟩
  · rw [sqrt_distSq_eq, sqrt_distSq_eq, sqrt_distSq_eq, show x - z = (x - y) + (y - z) by abel]
    exact enorm2_add _ _
  · have hm2 : MemLp (fun w : Fin p → ℂ => w) 2 ν := by
      refine ⟨aestronglyMeasurable_id, ?_⟩
      rw [eLpNorm_lt_top_iff_lintegral_rpow_enorm_lt_top two_ne_zero ENNReal.ofNat_ne_top]
      simpa using lt_top_iff_ne_top.mpr hsq
    have hb1 : MemLp (fun _ : Fin p → ℂ => ‖z - x0‖) 2 ν := memLp_const _
    have hb2 : MemLp (fun w : Fin p → ℂ => ‖s‖ * ‖w‖) 2 ν := hm2.norm.const_mul ‖s‖
    have hb : MemLp (fun w : Fin p → ℂ => √p * (‖z - x0‖ + ‖s‖ * ‖w‖)) 2 ν := (hb1.add hb2).const_mul (√p)
    have hf : MemLp (fun w => √(Spec.distSq (ulaStep delta G x0 w) x0)) 2 ν := by
      refine hb.of_le hm.aestronglyMeasurable (Eventually.of_forall fun w => ?_)
      rw [Real.norm_of_nonneg (Real.sqrt_nonneg _), Real.norm_of_nonneg (by positivity)]
      exact sqrt_distSq_add x0 z w s
    exact hf.integrable_sq

/-- What geometric convergence of MYULA means: there is one stationary law, the sample after `k` steps converges to it in law, averages
over the rows of the `chain` array converge almost surely and in mean square at the rate `1/N`, and the bias of row `k` decays like
`ρ ^ (nburn + k * max ngap 1 + 1)`. -/
def GeometricRun (M : Sampler n) (R : Rng) (fwd : (Fin p → ℂ) → (Fin n → ℂ)) {Ω : Type} [MeasurableSpace Ω] (P : Measure Ω)
    (r : Ω → R.σ) (ν : Measure (Fin p → ℂ)) (ρ : ℝ) : Prop :=
  ∃ π : Measure (Fin p → ℂ), IsProbabilityMeasure π ∧ StationaryLaw M R ν π ∧
    (∀ π' : Measure (Fin p → ℂ), IsProbabilityMeasure π' → StationaryLaw M R ν π' → π' = π) ∧
    (∀ x : ℕ → Ω → Fin p → ℂ, (∀ ω ω', x 0 ω = x 0 ω') →
      (∀ k ω, myulaStep M R ⟨List.ofFn (x k ω), List.ofFn (fwd (x k ω)), rngSeq R M.par.complex p (r ω) k⟩ =
        .ok ⟨List.ofFn (x (k + 1) ω), List.ofFn (fwd (x (k + 1) ω)), rngSeq R M.par.complex p (r ω) (k + 1)⟩) →
      ∀ f : BoundedContinuousFunction (Fin p → ℂ) ℝ, Tendsto (fun k => ∫ ω, f (x k ω) ∂P) atTop (𝓝 (∫ z, f z ∂π))) ∧
    ∀ x0 : Fin p → ℂ, ∃ D : ℝ, ∀ (b gap : ℕ) (v : ℤ) (track : List String) (A : ℕ → Arrays), (∀ N, (A N).Shaped N) →
      ∀ (fuel : ℕ → Ω → ℕ) (st : ℕ → Ω → St R),
      (∀ N ω, myulaRun (M.resched N b gap v track) R (A N) (r ω) (.array1 (List.ofFn x0)) (fuel N ω) = .ok (some (st N ω))) →
      ∀ rows : (N : ℕ) → Ω → Fin N → Fin p → ℂ,
      (∀ N ω, ((A N).applyAll (st N ω).ev).chain = some (List.ofFn fun k : Fin N => List.ofFn (rows N ω k))) →
      ∀ (q : (Fin p → ℂ) → ℝ) (L : ℝ), 0 ≤ L → (∀ x y, |q x - q y| ≤ L * √(Spec.distSq x y)) →
        (∀ N k, Integrable (fun ω => q (rows N ω k)) P ∧ |∫ ω, q (rows N ω k) ∂P - ∫ z, q (fun i => store M.par.complex (z i)) ∂π| ≤ L * D * ρ ^ (b + k * max gap 1 + 1)) ∧
        (∃ C : ℝ, ∀ N : ℕ, 0 < N →
          MemLp (fun ω => (∑ k, q (rows N ω k)) / N - ∫ z, q (fun i => store M.par.complex (z i)) ∂π) 2 P ∧
          ∫ ω, ((∑ k, q (rows N ω k)) / N - ∫ z, q (fun i => store M.par.complex (z i)) ∂π) ^ 2 ∂P ≤ C / N) ∧
        ∀ᵐ ω ∂P, Tendsto (fun N : ℕ => (∑ k, q (rows N ω k)) / N) atTop (𝓝 (∫ z, q (fun i => store M.par.complex (z i)) ∂π))

theorem StepContracts.run (R : Rng) (tot : Total M p fwd grad prox pri)
    (h : StepContracts M.par.delta (gradVec M.par.lmda fwd grad prox) ρ)
    {Ω : Type} [MeasurableSpace Ω] (P : Measure Ω) [IsProbabilityMeasure P] (r : Ω → R.σ) (ν : Measure (Fin p → ℂ))
    (hs : NoiseStream R M.par.complex p P r ν) (hsq : ∫⁻ w, ‖w‖ₑ ^ 2 ∂ν ≠ ⊤) : GeometricRun M R fwd P r ν ρ := by
  have hν : IsProbabilityMeasure ν := by
    rw [← hs.law 0]
    exact Measure.isProbabilityMeasure_map (hs.meas 0).aemeasurable
  have hsc := fun x0 => h.square ν hs.finite hsq x0
  have hrc := (hsc 0).toRandomContraction
  have hiff := fun (π : Measure (Fin p → ℂ)) (_ : IsProbabilityMeasure π) => stationary_iff_meas R tot hrc.meas P r ν hs π
  obtain ⟨π, hπ, hfix, hlim⟩ := contraction_limit hrc
  refine ⟨π, hπ, (hiff π hπ).mpr hfix, fun π' hp hst => contraction_unique hrc π' π ((hiff π' hp).mp hst) hfix,
    fun x hx0 hstep f => ?_, fun x0 => ⟨momBound ν (ulaStep M.par.delta (gradVec M.par.lmda fwd grad prox))
      (fun x y => √(Spec.distSq x y)) ρ x0, fun b gap v track A hA fuel st hrun rows hrows q L hL0 hL => ?_⟩⟩
  · obtain ⟨ω0⟩ : Nonempty Ω := nonempty_of_isProbabilityMeasure P
    have hx : ∀ k, x k = fun ω => fwState (ulaStep M.par.delta (gradVec M.par.lmda fwd grad prox)) (x 0 ω0)
        (fun j => noiseSeq R M.par.complex p (r ω) j) k := by
      intro k
      induction k with
      | zero => funext ω; exact hx0 ω ω0
      | succ k ih =>
        funext ω
        have h2 := hstep k ω
        rw [myulaStep_vec M R tot] at h2
        have h3 := List.ofFn_injective (Cur.mk.inj (Except.ok.inj h2)).1
        rw [← h3, congrFun ih ω]
        rfl
    have hl := hlim (Measure.dirac (x 0 ω0)) inferInstance f
    refine hl.congr fun k => ?_
    rw [hx k, ← fwState_law P _ hs.meas hs.indep ν hs.law _ hrc.meas (x 0 ω0) k]
    rw [integral_map (fwState_measurable _ hrc.meas _ _ hs.meas k).aemeasurable f.continuous.aestronglyMeasurable]
  · have hLq : ∀ x y : Fin p → ℂ, |q (fun i => store M.par.complex (x i)) - q (fun i => store M.par.complex (y i))| ≤
        L * √(Spec.distSq x y) := fun x y =>
      (hL _ _).trans (mul_le_mul_of_nonneg_left (Real.sqrt_le_sqrt (distSq_store _ x y)) hL0)
    have hcont : Continuous fun z : Fin p → ℂ => q (fun i => store M.par.complex (z i)) := by
      refine (LipschitzWith.of_dist_le_mul (K := NNReal.mk (L * √p) (by positivity)) fun x y => ?_).continuous
      rw [Real.dist_eq]
      refine (hLq x y).trans ?_
      calc L * √(Spec.distSq x y) ≤ L * (√p * dist x y) := mul_le_mul_of_nonneg_left (sqrt_distSq_le_dist x y) hL0
        _ = _ := by rw [← mul_assoc]; rfl
    have hrow : ∀ (N : ℕ) (ω : Ω) (k : Fin N), rows N ω k = fun i => store M.par.complex
        (fwState (ulaStep M.par.delta (gradVec M.par.lmda fwd grad prox)) x0 (fun j => noiseSeq R M.par.complex p (r ω) j)
          (b + k * max gap 1 + 1) i) := by
      intro N ω k
      have tot' : Total (M.resched N b gap v track) p fwd grad prox pri :=
        ⟨tot.nparams, tot.forward, tot.gradg, tot.proxf, tot.prior, tot.lmda⟩
      rw [myula_chain_rows (M := M.resched N b gap v track) R tot' (A N) (hA N) b gap rfl rfl (r ω) x0 (fuel N ω) (st N ω) (hrun N ω)
        (rows N ω) (hrows N ω) k]
      rfl
    have hV : Driven P (fun k ω => noiseSeq R M.par.complex p (r ω) k) ν := ⟨hs.meas, hs.indep, hs.law⟩
    have htimes : StrictMono fun k : ℕ => b + k * max gap 1 + 1 := by
      intro i j hij
      have : 0 < max gap 1 := lt_max_of_lt_right one_pos
      have := Nat.mul_lt_mul_of_pos_right hij this
      show b + i * max gap 1 + 1 < b + j * max gap 1 + 1
      omega
    refine ⟨fun N k => ?_, ?_⟩
    · simp only [hrow]
      exact ⟨((hsc x0).obs_int hV _ hcont L hLq _).integrable one_le_two, ((hsc x0).bias hV π hfix _ hcont L hL0 hLq _).2⟩
    · have hkey := (hsc x0).averages hV π hfix _ hcont L hL0 hLq _ htimes
      have hsum : ∀ (N : ℕ) (ω : Ω), ∑ k, q (rows N ω k) = ∑ k ∈ Finset.range N, q (fun i => store M.par.complex
          (fwState (ulaStep M.par.delta (gradVec M.par.lmda fwd grad prox)) x0 (fun j => noiseSeq R M.par.complex p (r ω) j)
            (b + k * max gap 1 + 1) i)) := by
        intro N ω
        rw [Finset.sum_range]
        exact Finset.sum_congr rfl fun k _ => by rw [hrow]
      simp only [hsum]
      exact hkey

end Generic

/-- Complex data that determine the parameters: `proxf` is the proximal map of a convex function, the forward operator is linear with
`c * ‖v‖² ≤ ‖A v‖² / sig_d² ≤ Lf * ‖v‖²`, `c > 0`, the inverse covariance is the one the code builds for complex data, and the step size is
small enough. -/
structure ComplexIdentifiable (M : Sampler n) (σ : Fin n → ℝ) (A : (Fin p → ℂ) →ₗ[ℂ] (Fin n → ℂ)) (At : (Fin n → ℂ) → (Fin p → ℂ))
    (prox : (Fin p → ℂ) → (Fin p → ℂ)) (g : (Fin p → ℂ) → ℝ) (c Lf : ℝ) : Prop where
  nparams : M.nparams = p
  lin : LinModel M.F A At
  invcov : M.F.invcov = Matrix.diagonal fun i => ((1 / σ i ^ 2 / √2 : ℝ) : ℂ) * (1 - Complex.I)
  prior : ∀ x : Fin p → ℂ, ∃ v, M.P.prior (List.ofFn x) = .ok v
  proxf : ∀ x : Fin p → ℂ, M.P.proxf (List.ofFn x) = .ok (List.ofFn (prox x))
  convex : ConvexOn ℝ Set.univ g
  prox : ∀ x, Spec.IsProx g x (prox x)
  lower : ∀ v, c * Spec.distSq v 0 ≤ misfit σ 0 (A v)
  upper : ∀ v, misfit σ 0 (A v) ≤ Lf * Spec.distSq v 0
  pos : 0 < c
  le : c ≤ Lf
  lmda : 0 < M.par.lmda
  delta : 0 < M.par.delta
  step : M.par.delta * (1 / M.par.lmda + √2 * Lf) < 2

/-- The factor by which one step brings two chains closer. -/
noncomputable def complexRate (M : Sampler n) (c Lf : ℝ) : ℝ :=
  √(1 - M.par.delta * (2 - M.par.delta * (1 / M.par.lmda + √2 * Lf)) * c / √2)

variable {M : Sampler n} {σ : Fin n → ℝ} {A : (Fin p → ℂ) →ₗ[ℂ] (Fin n → ℂ)} {At : (Fin n → ℂ) → (Fin p → ℂ)}
  {prox : (Fin p → ℂ) → (Fin p → ℂ)} {g : (Fin p → ℂ) → ℝ} {c Lf : ℝ}

/-- The quadratic part of the data term. -/
theorem weighted_form (hadj : Spec.IsAdjointPair A At) (u v : Fin p → ℂ) :
    rip (At ((Matrix.diagonal fun i => ((1 / σ i ^ 2 : ℝ) : ℂ)).mulVec (A u))) v =
      ∑ i, 1 / σ i ^ 2 * ((A u i).re * (A v i).re + (A u i).im * (A v i).im) := by
  rw [rip_adjoint hadj]
  unfold rip
  refine Finset.sum_congr rfl fun i _ => ?_
  rw [Matrix.mulVec_diagonal, Complex.re_ofReal_mul, Complex.im_ofReal_mul]
  ring

theorem weighted_self (hadj : Spec.IsAdjointPair A At) (v : Fin p → ℂ) :
    rip (At ((Matrix.diagonal fun i => ((1 / σ i ^ 2 : ℝ) : ℂ)).mulVec (A v))) v = misfit σ 0 (A v) := by
  rw [weighted_form hadj]
  unfold misfit
  refine Finset.sum_congr rfl fun i _ => ?_
  rw [Pi.zero_apply, zero_sub, norm_neg, Complex.sq_norm, Complex.normSq_apply]
  ring

theorem weighted_coco (hadj : Spec.IsAdjointPair A At) (hL : 0 < Lf) (hup : ∀ v, misfit σ 0 (A v) ≤ Lf * Spec.distSq v 0) (v : Fin p → ℂ) :
    rip (At ((Matrix.diagonal fun i => ((1 / σ i ^ 2 : ℝ) : ℂ)).mulVec (A v)))
      (At ((Matrix.diagonal fun i => ((1 / σ i ^ 2 : ℝ) : ℂ)).mulVec (A v))) ≤ Lf * misfit σ 0 (A v) := by
  set z := At ((Matrix.diagonal fun i => ((1 / σ i ^ 2 : ℝ) : ℂ)).mulVec (A v)) with hz
  have h1 : misfit σ 0 (A (v - ((1 / Lf : ℝ) : ℂ) • z)) = misfit σ 0 (A v) - 2 / Lf * rip z z + (1 / Lf) ^ 2 * misfit σ 0 (A z) := by
    rw [← weighted_self hadj, ← weighted_self hadj v, ← weighted_self hadj z, weighted_form hadj, weighted_form hadj, weighted_form hadj]
    conv_rhs => rw [hz, weighted_form hadj, ← hz]
    rw [Finset.mul_sum, Finset.mul_sum, ← Finset.sum_sub_distrib, ← Finset.sum_add_distrib]
    refine Finset.sum_congr rfl fun i _ => ?_
    rw [map_sub, map_smul, Pi.sub_apply, Pi.smul_apply, smul_eq_mul, Complex.sub_re, Complex.sub_im, Complex.re_ofReal_mul,
      Complex.im_ofReal_mul]
    ring
  have h2 := misfit_nonneg σ 0 (A (v - ((1 / Lf : ℝ) : ℂ) • z))
  have h3 := hup z
  rw [← rip_self] at h3
  rw [h1] at h2
  have h4 : (1 / Lf) ^ 2 * misfit σ 0 (A z) ≤ 1 / Lf * rip z z := by
    calc (1 / Lf) ^ 2 * misfit σ 0 (A z) ≤ (1 / Lf) ^ 2 * (Lf * rip z z) := mul_le_mul_of_nonneg_left h3 (sq_nonneg _)
      _ = _ := by field_simp
  have h5 : 1 / Lf * rip z z ≤ misfit σ 0 (A v) := by
    have : 2 / Lf * rip z z = 1 / Lf * rip z z + 1 / Lf * rip z z := by ring
    linarith
  calc rip z z = Lf * (1 / Lf * rip z z) := by field_simp
    _ ≤ _ := mul_le_mul_of_nonneg_left h5 hL.le

theorem weighted_im (hadj : Spec.IsAdjointPair A At) (v : Fin p → ℂ) :
    ∑ i, ((At ((Matrix.diagonal fun i => ((1 / σ i ^ 2 : ℝ) : ℂ)).mulVec (A v)) i).re * (v i).im -
      (At ((Matrix.diagonal fun i => ((1 / σ i ^ 2 : ℝ) : ℂ)).mulVec (A v)) i).im * (v i).re) = 0 := by
  set W : Matrix (Fin n) (Fin n) ℂ := Matrix.diagonal fun i => ((1 / σ i ^ 2 : ℝ) : ℂ) with hW
  have h5 := hadj v (W.mulVec (A v))
  have h6 : (Spec.inner (At (W.mulVec (A v))) v).im = 0 := by
    rw [← h5]
    unfold Spec.inner
    rw [Complex.im_sum]
    refine Finset.sum_eq_zero fun i _ => ?_
    rw [hW, Matrix.mulVec_diagonal, map_mul, Complex.conj_ofReal, mul_assoc, Complex.im_ofReal_mul, Complex.mul_im, Complex.conj_re,
      Complex.conj_im]
    ring
  rw [← h6]
  unfold Spec.inner
  rw [Complex.im_sum]
  exact Finset.sum_congr rfl fun i _ => by simp; ring

/-- The drift of the data term between two points. -/
theorem ComplexIdentifiable.affine (h : ComplexIdentifiable M σ A At prox g c Lf) (x y : Fin p → ℂ) :
    At (M.F.invcov.mulVec (A x - M.F.data.vals)) - At (M.F.invcov.mulVec (A y - M.F.data.vals)) =
      turn • At ((Matrix.diagonal fun i => ((1 / σ i ^ 2 : ℝ) : ℂ)).mulVec (A (x - y))) := by
  rw [adjoint_sub' h.lin.adj, ← Matrix.mulVec_sub, sub_sub_sub_cancel_right, ← map_sub, h.invcov, turn_diag, adjoint_smul' h.lin.adj]

theorem ComplexIdentifiable.rate (h : ComplexIdentifiable M σ A At prox g c Lf) :
    0 ≤ 1 - M.par.delta * (2 - M.par.delta * (1 / M.par.lmda + √2 * Lf)) * c / √2 ∧
      1 - M.par.delta * (2 - M.par.delta * (1 / M.par.lmda + √2 * Lf)) * c / √2 < 1 := by
  have h2 : 0 < √2 := Real.sqrt_pos.mpr two_pos
  set K := 1 / M.par.lmda + √2 * Lf with hK
  have hs : 0 < 2 - M.par.delta * K := by linarith [h.step]
  have hc : c / √2 ≤ K := by
    have h3 : c / √2 ≤ √2 * Lf := by
      rw [div_le_iff₀ h2]
      have := Real.mul_self_sqrt (show (0 : ℝ) ≤ 2 by norm_num)
      nlinarith [h.pos, h.le]
    have := one_div_pos.mpr h.lmda
    linarith
  have hp : 0 < M.par.delta * (2 - M.par.delta * K) * c / √2 := div_pos (mul_pos (mul_pos h.delta hs) h.pos) h2
  refine ⟨?_, by linarith⟩
  have h4 : M.par.delta * (2 - M.par.delta * K) * (c / √2) ≤ M.par.delta * (2 - M.par.delta * K) * K :=
    mul_le_mul_of_nonneg_left hc (mul_pos h.delta hs).le
  rw [← mul_div_assoc] at h4
  nlinarith [sq_nonneg (M.par.delta * K - 1)]

/-- C132, one step: two points that take the same step with the same noise come closer by the factor `complexRate`. -/
theorem C132_step (h : ComplexIdentifiable M σ A At prox g c Lf) :
    StepContracts M.par.delta (gradVec M.par.lmda A (fun y => At (M.F.invcov.mulVec (y - M.F.data.vals))) prox) (complexRate M c Lf) := by
  have h2 : 0 < √2 := Real.sqrt_pos.mpr two_pos
  obtain ⟨hr0, hr1⟩ := h.rate
  have hL : 0 < Lf := h.pos.trans_le h.le
  refine ⟨?_, Real.sqrt_nonneg _, by rw [complexRate, Real.sqrt_lt' one_pos]; linarith, fun x y w => ?_⟩
  · have hp : Continuous prox := by
      refine (LipschitzWith.of_dist_le_mul (K := NNReal.mk (√p) (Real.sqrt_nonneg _)) fun x y => ?_).continuous
      have hf := prox_firm g h.convex x y _ _ (h.prox x) (h.prox y)
      have h1 : rip (prox x - prox y) (prox x - prox y) ≤ rip (x - y) (x - y) := by
        have h2 := rip_self_nonneg ((prox x - prox y) - (x - y))
        have e : rip ((prox x - prox y) - (x - y)) ((prox x - prox y) - (x - y)) =
            rip (prox x - prox y) (prox x - prox y) - 2 * rip (prox x - prox y) (x - y) + rip (x - y) (x - y) := by
          unfold rip
          rw [Finset.mul_sum, ← Finset.sum_sub_distrib, ← Finset.sum_add_distrib]
          exact Finset.sum_congr rfl fun i _ => by simp; ring
        linarith
      rw [rip_sub, rip_sub] at h1
      calc dist (prox x) (prox y) ≤ √(Spec.distSq (prox x) (prox y)) := sqrt_distSq_le _ _
        _ ≤ √(Spec.distSq x y) := Real.sqrt_le_sqrt h1
        _ ≤ √p * dist x y := sqrt_distSq_le_dist x y
        _ = _ := rfl
    have hg : Continuous fun x => At (M.F.invcov.mulVec (A x - M.F.data.vals)) := by
      have h' : Spec.IsAdjointPair At A := by
        intro y x
        have := h.lin.adj x y
        have e : ∀ {q : ℕ} (a b : Fin q → ℂ), Spec.inner a b = (starRingEnd ℂ) (Spec.inner b a) := by
          intro q a b
          unfold Spec.inner
          rw [map_sum]
          exact Finset.sum_congr rfl fun j _ => by simp [mul_comm]
        rw [e x, e (A x), this]
      obtain ⟨B, hB⟩ := linear_of_adjoint _ _ h'
      have e : (fun x => At (M.F.invcov.mulVec (A x - M.F.data.vals))) = fun x => B (M.F.invcov.mulVec (A x - M.F.data.vals)) := by
        funext x
        rw [hB]
      rw [e]
      have hA : Continuous A := LinearMap.continuous_of_finiteDimensional A
      have hBc : Continuous B := LinearMap.continuous_of_finiteDimensional B
      have h3 : Continuous fun x : Fin n → ℂ => M.F.invcov.mulVec x := LinearMap.continuous_of_finiteDimensional M.F.invcov.mulVecLin
      exact hBc.comp (h3.comp (hA.sub continuous_const))
    unfold gradVec
    refine continuous_pi fun i => ?_
    have h1 : Continuous fun x => prox x i := (continuous_apply i).comp hp
    have h2 : Continuous fun x => At (M.F.invcov.mulVec (A x - M.F.data.vals)) i := (continuous_apply i).comp hg
    exact ((((continuous_apply i).sub h1).div_const _).neg).sub h2
  · rw [complexRate, ← Real.sqrt_mul hr0]
    refine Real.sqrt_le_sqrt ?_
    rw [← rip_sub, ← rip_sub]
    have hf := prox_firm g h.convex x y _ _ (h.prox x) (h.prox y)
    set Pd := prox x - prox y with hP
    set d := x - y with hdd
    set e := d - Pd with he
    set S := turn • At ((Matrix.diagonal fun i => ((1 / σ i ^ 2 : ℝ) : ℂ)).mulVec (A d)) with hS
    have he1 : rip e e ≤ rip e d := by
      have e1 : rip e d - rip e e = rip Pd d - rip Pd Pd := by
        unfold rip
        rw [← Finset.sum_sub_distrib, ← Finset.sum_sub_distrib]
        exact Finset.sum_congr rfl fun i _ => by simp [he]; ring
      linarith
    have hSd : rip S d = 1 / √2 * misfit σ 0 (A d) := by
      rw [hS, rip_turn _ _ (weighted_im h.lin.adj d), weighted_self h.lin.adj]
    have hSS : rip S S ≤ √2 * Lf * rip S d := by
      rw [hS, rip_turn_self, ← hS, hSd]
      refine (weighted_coco h.lin.adj hL h.upper d).trans (le_of_eq ?_)
      field_simp
    have hSl : c / √2 * rip d d ≤ rip S d := by
      rw [hSd, rip_self]
      calc c / √2 * Spec.distSq d 0 = 1 / √2 * (c * Spec.distSq d 0) := by ring
        _ ≤ _ := mul_le_mul_of_nonneg_left (h.lower d) (by positivity)
    have heq : ulaStep M.par.delta (gradVec M.par.lmda A (fun y => At (M.F.invcov.mulVec (y - M.F.data.vals))) prox) x w -
        ulaStep M.par.delta (gradVec M.par.lmda A (fun y => At (M.F.invcov.mulVec (y - M.F.data.vals))) prox) y w =
        fun i => ((1 : ℝ) : ℂ) * d i + ((-(M.par.delta / M.par.lmda) : ℝ) : ℂ) * e i + ((-M.par.delta : ℝ) : ℂ) * S i := by
      funext i
      have hli := congrFun (h.affine x y) i
      rw [← hdd, ← hS] at hli
      rw [← hli]
      simp only [ulaStep, gradVec, Pi.sub_apply, hdd, he, hP]
      push_cast
      have hl0 : (M.par.lmda : ℂ) ≠ 0 := by exact_mod_cast h.lmda.ne'
      field_simp
      ring
    rw [heq, rip_comb]
    set L := √2 * Lf with hLdef
    have hL' : 0 < L := mul_pos h2 hL
    have hcs : 0 ≤ L ^ 2 * rip e e - 2 * L * rip e S + rip S S := by
      have h3 := rip_self_nonneg (fun i => ((0 : ℝ) : ℂ) * d i + ((L : ℝ) : ℂ) * e i + ((-1 : ℝ) : ℂ) * S i)
      rw [rip_comb] at h3
      linarith
    have hl := h.lmda
    set K := 1 / M.par.lmda + L with hK
    have hN : rip e e / M.par.lmda ^ 2 + rip S S + 2 * rip e S / M.par.lmda ≤ K * (rip e d / M.par.lmda + rip S d) := by
      have h3 : 2 * rip e S ≤ L * rip e e + rip S S / L := by
        have e3 : L * rip e e + rip S S / L - 2 * rip e S = (L ^ 2 * rip e e - 2 * L * rip e S + rip S S) / L := by
          field_simp
          ring
        have := div_nonneg hcs hL'.le
        linarith
      have h4 : 2 * rip e S / M.par.lmda ≤ (L * rip e e + rip S S / L) / M.par.lmda := div_le_div_of_nonneg_right h3 hl.le
      have h5 : rip e e / M.par.lmda ^ 2 + rip S S + (L * rip e e + rip S S / L) / M.par.lmda =
          K * (rip e e / M.par.lmda + rip S S / L) := by
        rw [hK]
        field_simp
        ring
      have h6 : rip e e / M.par.lmda + rip S S / L ≤ rip e d / M.par.lmda + rip S d := by
        refine add_le_add (div_le_div_of_nonneg_right he1 hl.le) ?_
        rw [div_le_iff₀ hL']
        linarith
      have hK0 : 0 ≤ K := by positivity
      have := mul_le_mul_of_nonneg_left h6 hK0
      linarith
    have hs : 0 < 2 - M.par.delta * K := by linarith [h.step]
    have hT : c / √2 * rip d d ≤ rip e d / M.par.lmda + rip S d := by
      have : 0 ≤ rip e d / M.par.lmda := div_nonneg ((rip_self_nonneg e).trans he1) hl.le
      linarith
    have h7 := mul_le_mul_of_nonneg_left hT (mul_pos h.delta hs).le
    have h8 := mul_le_mul_of_nonneg_left hN (sq_nonneg M.par.delta)
    rw [rip_comm d e, rip_comm d S]
    have e8 : M.par.delta ^ 2 * (rip e e / M.par.lmda ^ 2 + rip S S + 2 * rip e S / M.par.lmda) =
        (-(M.par.delta / M.par.lmda)) ^ 2 * rip e e + (-M.par.delta) ^ 2 * rip S S +
          2 * -(M.par.delta / M.par.lmda) * -M.par.delta * rip e S := by
      field_simp
    have e7 : M.par.delta * (2 - M.par.delta * K) * (c / √2 * rip d d) = M.par.delta * (2 - M.par.delta * K) * c / √2 * rip d d := by ring
    have e9 : 2 * 1 * -(M.par.delta / M.par.lmda) * rip e d + 2 * 1 * -M.par.delta * rip S d =
        -(2 * M.par.delta) * (rip e d / M.par.lmda + rip S d) := by ring
    rw [e7] at h7
    rw [e8] at h8
    nlinarith [h7, h8, e9]

theorem ComplexIdentifiable.total (h : ComplexIdentifiable M σ A At prox g c Lf) :
    ∃ pri, Total M p A (fun y => At (M.F.invcov.mulVec (y - M.F.data.vals))) prox pri := by
  have hpx := h.prior
  choose pri hpri using hpx
  exact ⟨pri, h.nparams, h.lin.fwd, h.lin.grad, h.proxf, hpri, h.lmda.ne'⟩

/-- C132, forgetting the start: two chains driven by the same random stream approach each other at least geometrically. -/
theorem C132_contract (h : ComplexIdentifiable M σ A At prox g c Lf) (R : Rng) (x y : ℕ → Fin p → ℂ) (S : ℕ → R.σ)
    (hx : ∀ k, myulaStep M R ⟨List.ofFn (x k), List.ofFn (A (x k)), S k⟩ =
      .ok ⟨List.ofFn (x (k + 1)), List.ofFn (A (x (k + 1))), S (k + 1)⟩)
    (hy : ∀ k, myulaStep M R ⟨List.ofFn (y k), List.ofFn (A (y k)), S k⟩ =
      .ok ⟨List.ofFn (y (k + 1)), List.ofFn (A (y (k + 1))), S (k + 1)⟩) (k : ℕ) :
    0 ≤ complexRate M c Lf ∧ complexRate M c Lf < 1 ∧
    √(Spec.distSq (x k) (y k)) ≤ complexRate M c Lf ^ k * √(Spec.distSq (x 0) (y 0)) := by
  obtain ⟨pri, tot⟩ := h.total
  have hc := C132_step h
  refine ⟨hc.nonneg, hc.lt_one, ?_⟩
  induction k with
  | zero => simp
  | succ k ih =>
    have e : ∀ z : ℕ → Fin p → ℂ, (∀ k, myulaStep M R ⟨List.ofFn (z k), List.ofFn (A (z k)), S k⟩ =
        .ok ⟨List.ofFn (z (k + 1)), List.ofFn (A (z (k + 1))), S (k + 1)⟩) → z (k + 1) =
        ulaStep M.par.delta (gradVec M.par.lmda A (fun y => At (M.F.invcov.mulVec (y - M.F.data.vals))) prox) (z k)
          (drawVec R R.randn M.par.complex (S k) p).1 := by
      intro z hz
      have h2 := hz k
      rw [myulaStep_vec M R tot] at h2
      exact (List.ofFn_injective (Cur.mk.inj (Except.ok.inj h2)).1).symm
    rw [e x hx, e y hy]
    calc _ ≤ _ := hc.contract _ _ _
      _ ≤ _ := mul_le_mul_of_nonneg_left ih hc.nonneg
      _ = _ := by rw [pow_succ]; ring

/-- C132: with complex data that determine the parameters and independent noise of finite second moment, MYULA converges geometrically.
The sampler may be complex or real (`complex=False`, as in the weak-lensing script). -/
theorem C132_converges (h : ComplexIdentifiable M σ A At prox g c Lf) (R : Rng) {Ω : Type} [MeasurableSpace Ω] (P : Measure Ω)
    [IsProbabilityMeasure P] (r : Ω → R.σ) (ν : Measure (Fin p → ℂ)) (hs : NoiseStream R M.par.complex p P r ν)
    (hsq : ∫⁻ w, ‖w‖ₑ ^ 2 ∂ν ≠ ⊤) : GeometricRun M R A P r ν (complexRate M c Lf) := by
  obtain ⟨pri, tot⟩ := h.total
  exact (C132_step h).run R tot P r ν hs hsq

/-- An injective forward operator determines the parameters. -/
theorem misfit_lower (hσ : ∀ i, 0 < σ i) (A : (Fin p → ℂ) →ₗ[ℂ] (Fin n → ℂ)) (hA : Function.Injective A) :
    ∃ c : ℝ, 0 < c ∧ ∀ v, c * Spec.distSq v 0 ≤ misfit σ 0 (A v) := by
  obtain ⟨K, hK, hlip⟩ := A.exists_antilipschitzWith (LinearMap.ker_eq_bot.mpr hA)
  set S := ∑ i, σ i ^ 2 with hS
  have hS0 : 0 ≤ S := Finset.sum_nonneg fun i _ => sq_nonneg _
  have hden : 0 < p * (K : ℝ) ^ 2 * S + 1 := by positivity
  refine ⟨1 / (p * (K : ℝ) ^ 2 * S + 1), by positivity, fun v => ?_⟩
  rw [one_div_mul_eq_div, div_le_iff₀ hden]
  have hm : ∀ i, ‖A v i‖ ^ 2 ≤ S * misfit σ 0 (A v) := by
    intro i
    have h1 : ‖A v i‖ ^ 2 / σ i ^ 2 ≤ misfit σ 0 (A v) := by
      have := Finset.single_le_sum (f := fun i => ‖(0 : Fin n → ℂ) i - A v i‖ ^ 2 / σ i ^ 2) (fun i _ => by positivity) (Finset.mem_univ i)
      simpa [misfit] using this
    have h2 : σ i ^ 2 ≤ S := Finset.single_le_sum (f := fun i => σ i ^ 2) (fun i _ => sq_nonneg _) (Finset.mem_univ i)
    have h3 : 0 < σ i ^ 2 := pow_pos (hσ i) 2
    rw [div_le_iff₀ h3] at h1
    have := mul_le_mul_of_nonneg_left h2 (misfit_nonneg σ 0 (A v))
    linarith
  have hN : ‖A v‖ ^ 2 ≤ S * misfit σ 0 (A v) := by
    have h0 : 0 ≤ S * misfit σ 0 (A v) := mul_nonneg hS0 (misfit_nonneg _ _ _)
    rw [← Real.sq_sqrt h0]
    refine pow_le_pow_left₀ (norm_nonneg _) ?_ 2
    exact (pi_norm_le_iff_of_nonneg (Real.sqrt_nonneg _)).mpr fun i => Real.le_sqrt_of_sq_le (hm i)
  have hv : ‖v‖ ≤ K * ‖A v‖ := by
    have := hlip.le_mul_dist v 0
    simpa using this
  have hv2 : ‖v‖ ^ 2 ≤ (K : ℝ) ^ 2 * ‖A v‖ ^ 2 := by
    rw [← mul_pow]
    exact pow_le_pow_left₀ (norm_nonneg _) hv 2
  have hd : Spec.distSq v 0 ≤ p * ‖v‖ ^ 2 := by
    unfold Spec.distSq
    calc ∑ i, ‖v i - (0 : Fin p → ℂ) i‖ ^ 2 ≤ ∑ _i : Fin p, ‖v‖ ^ 2 := Finset.sum_le_sum fun i _ => by
          rw [Pi.zero_apply, sub_zero]
          exact pow_le_pow_left₀ (norm_nonneg _) (norm_le_pi_norm v i) 2
      _ = _ := by simp
  have h5 : (p : ℝ) * ‖v‖ ^ 2 ≤ p * ((K : ℝ) ^ 2 * (S * misfit σ 0 (A v))) :=
    mul_le_mul_of_nonneg_left (hv2.trans (mul_le_mul_of_nonneg_left hN (sq_nonneg _))) (Nat.cast_nonneg p)
  have h6 := misfit_nonneg σ 0 (A v)
  nlinarith

/-- C132 from the constructors: complex data, an injective linear forward operator and the l1 prior in the synthesis setting.  For every
`lmda > 0`, threshold `t ≥ 0` and every step size below some `delta0` the assumptions of C132 hold, for real and complex samplers. -/
theorem C132_l1 (data : DataVec n) (hd : data.cplx = true) (sig : SigD) (hσ : IsSigma n sig σ) (s : String) (tr me : Option OpPair)
    (np : Option ℕ) (F : ForwardOp n) (hF : ForwardOp.init data sig s tr me np = .ok F) (hA : LinModel F A At)
    (hinj : Function.Injective A) (hnp : F.nparams = some p) (fw ad : List ℂ → Py (List ℂ)) (t : ℝ) (ht : 0 ≤ t) (L : L1 ℂ)
    (hL : L1.init "synthesis" fw ad (.scalar t) = .ok L) (par : Params) (hl : 0 < par.lmda) :
    ∃ delta0 > 0, ∀ delta > 0, delta < delta0 → ∃ M arr c Lf,
      samplerInit F L.toPrior { par with delta := delta } = .ok (M, arr) ∧
      ComplexIdentifiable M σ A At (fun x i => softEntry (x i) t) (Spec.wl1 fun _ => t) c Lf := by
  obtain rfl := Except.ok.inj hL
  have hσ0 : ∀ i, 0 < σ i := by
    cases hσ with
    | scalar s hs => exact fun _ => hs
    | vector s hs => exact hs
  obtain ⟨Lf, hLf, hup⟩ := misfit_bounded σ A
  obtain ⟨c, hc, hlow⟩ := misfit_lower hσ0 A hinj
  have h2 : 0 < √2 := Real.sqrt_pos.mpr two_pos
  set L' := max Lf c with hL'
  have hpos : 0 < 1 / par.lmda + √2 * L' := by positivity
  refine ⟨2 / (1 / par.lmda + √2 * L'), by positivity, fun delta h0 h1 => ⟨⟨F, (⟨.synthesis, fw, ad, .scalar t⟩ : L1 ℂ).toPrior,
    { par with delta := delta }, p⟩, initArrays ⟨F, (⟨.synthesis, fw, ad, .scalar t⟩ : L1 ℂ).toPrior, { par with delta := delta }, p⟩,
    c, L', ?_, ?_⟩⟩
  · simp only [samplerInit, hnp]
  · refine ⟨rfl, hA, (forward_stored_complex data hd sig σ hσ s tr me np F hF).2, fun x => ⟨_, rfl⟩, fun x => soft_scalar x t,
      wl1_convex _ fun _ => ht, fun x => softEntry_isProx x (fun _ => t) fun _ => ht, hlow, fun v => (hup v).trans ?_, hc,
      le_max_right _ _, hl, h0, ?_⟩
    · exact mul_le_mul_of_nonneg_right (le_max_left _ _) (Finset.sum_nonneg fun i _ => sq_nonneg _)
    · show delta * (1 / par.lmda + √2 * L') < 2
      rwa [lt_div_iff₀ hpos] at h1

/-- The noise of complex samplers has a finite second moment. -/
theorem C132_complex_noise : ∫⁻ w, ‖w‖ₑ ^ 2 ∂(cplxNormalLaw p) ≠ ⊤ := by
  have h1 : MemLp (fun w : Fin p → ℂ => w) 2 (cplxNormalLaw p) := memLp_pi_iff.mpr fun i => (cplxNormal_entry i).1
  have h4 := (eLpNorm_lt_top_iff_lintegral_rpow_enorm_lt_top two_ne_zero ENNReal.ofNat_ne_top).mp h1.2
  simpa using h4.ne

/-- The hypotheses of C132 are met: complex data, the operator `[1, i; 0, 2]`, an l1 prior, a real sampler (`complex=False`) and
independent standard normals. -/
example : ∃ (M : Sampler 2) (A : (Fin 2 → ℂ) →ₗ[ℂ] (Fin 2 → ℂ)) (At : (Fin 2 → ℂ) → (Fin 2 → ℂ)) (c Lf : ℝ) (ν : Measure (Fin 2 → ℂ)),
    M.par.complex = false ∧ M.F.data.cplx = true ∧
    ComplexIdentifiable M (fun _ => 1) A At (fun x i => softEntry (x i) 3) (Spec.wl1 fun _ => 3) c Lf ∧
    NoiseStream (vecRng 2) M.par.complex 2 (Measure.infinitePi fun _ : ℕ => Measure.pi fun _ : Fin 2 => gaussianReal 0 1) (fun ω => ω) ν ∧
    ∫⁻ w, ‖w‖ₑ ^ 2 ∂ν ≠ ⊤ := by
  set W : Matrix (Fin 2) (Fin 2) ℂ := !![1, Complex.I; 0, 2] with hW
  have hV := buildInvCov_complex (⟨true, fun _ => 4 + Complex.I⟩ : DataVec 2) rfl _ _ (IsSigma.scalar 1 one_pos)
  set F : ForwardOp 2 := ⟨⟨true, fun _ => 4 + Complex.I⟩,
    Matrix.diagonal fun _ => ((1 / (1 : ℝ) ^ 2 / √2 : ℝ) : ℂ) * (1 - Complex.I), .analysis, none,
    some ⟨pathForward W, pathAdjoint W⟩, some 2⟩ with hFdef
  have hF : ForwardOp.init (⟨true, fun _ => 4 + Complex.I⟩ : DataVec 2) (.num ((1 : ℝ) : ℂ) false) "analysis" none
      (some ⟨pathForward W, pathAdjoint W⟩) (some 2) = .ok F := by
    unfold ForwardOp.init
    rw [hV]
    rfl
  have hinj : Function.Injective W.mulVecLin := by
    refine (injective_iff_map_eq_zero _).mpr fun v hv => ?_
    have h1 := congrFun hv 1
    have h0 := congrFun hv 0
    simp [hW, Matrix.mulVec, dotProduct, Fin.sum_univ_two] at h0 h1
    rw [h1] at h0
    funext i
    fin_cases i
    · simpa using h0
    · simpa using h1
  obtain ⟨d0, hd0, hd⟩ := C132_l1 (⟨true, fun _ => 4 + Complex.I⟩ : DataVec 2) rfl _ (IsSigma.scalar 1 one_pos) "analysis" _ _ _ F hF
    (linModel_analysis F rfl _ _ (pathIntegral_linearOps F W rfl)) hinj rfl (fun x => .ok x) (fun x => .ok x) 3 (by norm_num) _ rfl
    ⟨1, 1, 1, 1, 5, 3, 2, false, 0, ["chain"]⟩ one_pos
  obtain ⟨M, arr, c, Lf, hM, hid⟩ := hd (d0 / 2) (by positivity) (by linarith)
  obtain ⟨rfl, -⟩ := Prod.mk.inj (Except.ok.inj hM)
  exact ⟨_, _, _, c, Lf, _, rfl, rfl, hid, C99_normal_noise (vecRng 2) _ _ vecRng_normal, C114_normal_noise⟩

end Pxmcmc
