import Verif.Lemmas.MalaFlux
import Verif.Lemmas.MalaVec
import Verif.Props.Denoising
import Verif.Props.Averages

/-! # Property C53, invariance: PxMALA does not preserve the posterior -/

namespace Pxmcmc
open MeasureTheory ProbabilityTheory
open scoped ENNReal NNReal
variable {n p : ℕ}

/-- `π` is invariant under PxMALA without tuning: start `run` at a random array of law `π`, with an independent standard normal vector and
an independent uniform number from the generator; after one iteration the current sample has law `π`. -/
def MalaInvariant (M : Sampler n) (delta : ℝ) (π : Measure (Fin p → ℝ)) : Prop :=
  ∀ (R : Rng) (A0 : Arrays) (Ω : Type) (_ : MeasurableSpace Ω) (P : Measure Ω) (x y : Ω → Fin p → ℝ) (r : Ω → R.σ),
    A0.Shaped M.par.nsamples →
    Measurable (fun ω => (x ω, (R.randn (r ω) p).1, (R.rand (R.randn (r ω) p).2).1)) →
    P.map (fun ω => (x ω, (R.randn (r ω) p).1, (R.rand (R.randn (r ω) p).2).1)) =
      π.prod ((Measure.pi fun _ : Fin p => gaussianReal 0 1).prod (volume.restrict (Set.Ico (0 : ℝ) 1))) →
    (∀ ω, ∃ st st' : MalaSt R, malaInit M R delta (r ω) (.array1 (List.ofFn fun i => ((x ω i : ℝ) : ℂ))) = .ok st ∧
      malaBody M R false A0 st = .ok st' ∧ st'.cur.X = List.ofFn fun i => ((y ω i : ℝ) : ℂ)) →
    P.map y = π

/-- The generator used in the refutation: one normal number and one uniform number. -/
def pairRng : Rng := ⟨ℝ × ℝ, fun s _ => (fun _ => s.1, s), fun s _ => (fun _ => s.1, s), fun s => (s.2, s)⟩

open Classical in
/-- One PxMALA iteration of the one-parameter denoising problem with a flat prior. -/
theorem flux_iteration (F : ForwardOp 1) (Pr : L1 ℂ) (par : Params) (d s δ : ℝ) (hmu : par.mu = 0) (hc : par.complex = false)
    (hns : 0 < par.nsamples)
    (hdat : F.data.vals = fun _ => (d : ℂ)) (hcov : F.invcov = Matrix.diagonal (fun _ => ((1 / s ^ 2 : ℝ) : ℂ)))
    (tot : Total (⟨F, Pr.toPrior, par, 1⟩ : Sampler 1) 1 (fun x => x) (fun y i => (y i - F.data.vals i) / ((s ^ 2 : ℝ) : ℂ))
      (fun x i => softEntry (x i) 0) (fun x => ∑ i, ‖x i‖)) (q : ℝ × ℝ × ℝ) (A0 : Arrays) (hA : A0.Shaped par.nsamples) :
    ∃ st st' : MalaSt pairRng,
      malaInit (⟨F, Pr.toPrior, par, 1⟩ : Sampler 1) pairRng δ (q.2 : ℝ × ℝ) (.array1 (List.ofFn fun _ : Fin 1 => ((q.1 : ℝ) : ℂ))) = .ok st ∧
      malaBody (⟨F, Pr.toPrior, par, 1⟩ : Sampler 1) pairRng false A0 st = .ok st' ∧
      st'.cur.X = List.ofFn fun _ : Fin 1 => ((fluxNext d s δ q : ℝ) : ℂ) := by
  set M : Sampler 1 := ⟨F, Pr.toPrior, par, 1⟩ with hM
  set fwd : (Fin 1 → ℂ) → (Fin 1 → ℂ) := fun x => x
  set grad : (Fin 1 → ℂ) → (Fin 1 → ℂ) := fun y i => (y i - F.data.vals i) / ((s ^ 2 : ℝ) : ℂ) with hgrad
  set prox : (Fin 1 → ℂ) → (Fin 1 → ℂ) := fun x i => softEntry (x i) 0 with hprox
  set pri : (Fin 1 → ℂ) → ℝ := fun x => ∑ i, ‖x i‖
  have hsoft : ∀ z : ℂ, softEntry z 0 = z := by
    intro z
    by_cases hz : z = 0
    · subst hz
      simp [softEntry]
    · have : ‖z‖ ≠ 0 := norm_ne_zero_iff.mpr hz
      have h0 : ¬ ‖z‖ ≤ 0 := by rw [norm_le_zero_iff]; exact hz
      simp only [softEntry, signEntry, h0, if_false, this, sub_zero]
      field_simp
      exact div_self (RCLike.ofReal_ne_zero.mpr this)
  have hG : ∀ x : ℝ, gradVec M.par.lmda fwd grad prox (fun _ => (x : ℂ)) = fun _ => ((-((x - d) / s ^ 2) : ℝ) : ℂ) := by
    intro x
    funext i
    simp only [gradVec, fwd, hgrad, hprox, hdat, hsoft, sub_self, zero_div, neg_zero, zero_sub]
    push_cast
    ring
  have hmis : ∀ x : ℝ, misfitOf M fwd (fun _ => (x : ℂ)) = (((x - d) ^ 2 / s ^ 2 : ℝ) : ℂ) := by
    intro x
    simp only [misfitOf, hM, hdat, hcov, fwd]
    rw [inner_diagonal]
    simp only [Finset.univ_unique, Finset.sum_singleton, Pi.sub_apply]
    rw [← Complex.ofReal_sub, Complex.norm_real, Real.norm_eq_abs, sq_abs]
    push_cast
    ring
  have hlp : ∀ x : ℝ, (cacheOf M fwd grad prox pri fun _ => (x : ℂ)).logpi = ((-((x - d) ^ 2 / s ^ 2) : ℝ) : ℂ) := by
    intro x
    simp only [cacheOf, hmis]
    have : M.par.mu = 0 := hmu
    rw [this]
    push_cast
    ring
  have hlt : ∀ x y : ℝ, logtransVec δ (gradVec M.par.lmda fwd grad prox) (fun _ => (x : ℂ)) (fun _ => (y : ℂ)) =
      ((-(1 / 2 * δ) * (y - x - δ / 2 * -((x - d) / s ^ 2)) ^ 4 : ℝ) : ℂ) := by
    intro x y
    simp only [logtransVec, hG, Finset.univ_unique, Finset.sum_singleton]
    push_cast
    ring
  have hal : ∀ x y : ℝ, logAlphaVec M fwd grad prox pri δ (fun _ => (x : ℂ)) (fun _ => (y : ℂ)) = ((fluxAlpha d s δ x y : ℝ) : ℂ) := by
    intro x y
    simp only [logAlphaVec, hlt, hlp, fluxAlpha]
    push_cast
    ring
  have hstart := start_array pairRng tot (q.2 : ℝ × ℝ) fun _ => ((q.1 : ℝ) : ℂ)
  have hinit := init_vec M pairRng tot δ (q.2 : ℝ × ℝ) (q.2 : ℝ × ℝ) _ _ hstart
  have hdraw : drawVec pairRng pairRng.randn M.par.complex (q.2 : ℝ × ℝ) 1 = (fun _ => ((q.2.1 : ℝ) : ℂ), (q.2 : ℝ × ℝ)) := by
    have : M.par.complex = false := hc
    rw [this]
    rfl
  have hprop : (fun _ : Fin 1 => ((fluxProp d s δ q : ℝ) : ℂ)) = ulaStep δ (gradVec M.par.lmda fwd grad prox) (fun _ => ((q.1 : ℝ) : ℂ))
      (drawVec pairRng pairRng.randn M.par.complex (q.2 : ℝ × ℝ) 1).1 := by
    rw [hdraw]
    funext i
    simp only [ulaStep, hG, fluxProp, propMean]
    push_cast
    ring
  have hcore := coreStep_vec M pairRng tot (⟨0, cacheOf M fwd grad prox pri fun _ => ((q.1 : ℝ) : ℂ), q.2, δ, [], [δ]⟩ : Core pairRng)
    (fun _ => ((q.1 : ℝ) : ℂ)) rfl (fun _ => ((fluxProp d s δ q : ℝ) : ℂ)) hprop (q.2 : ℝ × ℝ) (by rw [hdraw]) (q ∈ fluxAcc d s δ)
    (by rw [hal]; rfl)
  obtain ⟨st', h1, h2⟩ := malaBody_total M pairRng false A0 hA
    (⟨0, 0, cacheOf M fwd grad prox pri fun _ => ((q.1 : ℝ) : ℂ), q.2, δ, [], [δ], []⟩ : MalaSt pairRng) _ hcore hns
    (by simp only; split <;> simp [cacheOf, hM]) (by simp only; split <;> simp [cacheOf])
  refine ⟨_, st', hinit, h1, ?_⟩
  have h3 : st'.cur = (st'.core).cur := rfl
  rw [h3, h2]
  unfold fluxNext
  simp only
  split <;> rfl

/-- C53, invariance, is violated for every datum `d`, standard deviation `s` and step size `0 < delta < 4s²` (MYULA itself is stable up to
`2s²`): in the denoising problem with one parameter and a flat prior (`T = 0`, `mu = 0`), built by the library's constructors, PxMALA does
not leave the posterior `exp(logpi)` invariant, nor any other normal law centred at the datum. -/
theorem C53_invariance_refuted (d s : ℝ) (hs : 0 < s) (st : String) (hst : st = "analysis" ∨ st = "synthesis") (par : Params)
    (hl : par.lmda ≠ 0) (hmu : par.mu = 0) (hc : par.complex = false) (hns : 0 < par.nsamples) (hδ : 0 < par.delta)
    (hδ4 : par.delta < 4 * s ^ 2) :
    ∃ (F : ForwardOp 1) (Pr : L1 ℂ) (M : Sampler 1) (A : Arrays),
      ForwardOp.init ⟨false, fun _ => (d : ℂ)⟩ (.num (s : ℂ) false) st (some identityTransform) (some (identityMeasurement 1 1)) (some 1) =
        .ok F ∧
      L1.init st identityTransform.op identityTransform.adj (.scalar 0) = .ok Pr ∧
      samplerInit F Pr.toPrior par = .ok (M, A) ∧
      (∀ v : ℝ≥0, v ≠ 0 → ¬ MalaInvariant M par.delta (Measure.pi fun _ : Fin 1 => gaussianReal d v)) ∧
      ∀ (ρ : Measure ℝ) (Z : ℝ), IsProbabilityMeasure ρ →
        (ρ = volume.withDensity fun x : ℝ => ENNReal.ofReal (Z * Real.exp (
          match logpi M.F M.P M.par.mu [(x : ℂ)] [(x : ℂ)] with
          | .ok l => l.1.re
          | .error _ => 0))) →
        ¬ MalaInvariant M par.delta (Measure.pi fun _ : Fin 1 => ρ) := by
  obtain ⟨F, Pr, hF, hP, hdat, hcov, hnp, tot⟩ := denoise_total (⟨false, fun _ => (d : ℂ)⟩ : DataVec 1) rfl (.num (s : ℂ) false)
    (fun _ => s) (.scalar s hs) st hst 0
  have hdat' : F.data.vals = fun _ => (d : ℂ) := by rw [hdat]
  have tot' : Total (⟨F, Pr.toPrior, par, 1⟩ : Sampler 1) 1 (fun x => x) (fun y i => (y i - F.data.vals i) / ((s ^ 2 : ℝ) : ℂ))
      (fun x i => softEntry (x i) 0) (fun x => ∑ i, ‖x i‖) := by
    rw [hdat']
    exact tot par hl
  have hgauss : ∀ v : ℝ≥0, v ≠ 0 → ¬ MalaInvariant (⟨F, Pr.toPrior, par, 1⟩ : Sampler 1) par.delta
      (Measure.pi fun _ : Fin 1 => gaussianReal d v) := by
    intro v hv hinv
    set P : Measure ((Fin 1 → ℝ) × (Fin 1 → ℝ) × ℝ) := (Measure.pi fun _ : Fin 1 => gaussianReal d v).prod
      ((Measure.pi fun _ : Fin 1 => gaussianReal 0 1).prod (volume.restrict (Set.Ico (0 : ℝ) 1)))
    set e : (Fin 1 → ℝ) × (Fin 1 → ℝ) × ℝ → ℝ × ℝ × ℝ := fun ω => (ω.1 0, ω.2.1 0, ω.2.2) with he
    have hem : MeasurePreserving e P (fluxLaw d v) :=
      (measurePreserving_eval (fun _ : Fin 1 => gaussianReal d v) 0).prod
        ((measurePreserving_eval (fun _ : Fin 1 => gaussianReal 0 1) 0).prod (MeasurePreserving.id _))
    have hid : (fun ω : (Fin 1 → ℝ) × (Fin 1 → ℝ) × ℝ => (ω.1, (pairRng.randn (e ω).2 1).1,
        (pairRng.rand (pairRng.randn (e ω).2 1).2).1)) = fun ω => ω := by
      funext ω
      refine Prod.ext rfl (Prod.ext ?_ rfl)
      funext i
      rw [Subsingleton.elim i 0]
      rfl
    have h1 := hinv pairRng (initArrays ⟨F, Pr.toPrior, par, 1⟩) _ inferInstance P (fun ω => ω.1) (fun ω _ => fluxNext d s par.delta (e ω))
      (fun ω => (e ω).2) (initArrays_shaped _) (by rw [hid]; exact measurable_id) (by rw [hid]; exact Measure.map_id)
      (fun ω => by
        have h2 := flux_iteration F Pr par d s par.delta hmu hc hns hdat' hcov tot' (e ω) (initArrays ⟨F, Pr.toPrior, par, 1⟩)
          (initArrays_shaped _)
        have e1 : (fun i => ((ω.1 i : ℝ) : ℂ)) = fun _ : Fin 1 => (((e ω).1 : ℝ) : ℂ) := by
          funext i
          rw [Subsingleton.elim i 0]
        rw [e1]
        exact h2)
    refine flux_not_stationary d s par.delta hs hδ hδ4 v hv ?_
    have h2 := congrArg (Measure.map fun y : Fin 1 → ℝ => y 0) h1
    rw [(measurePreserving_eval (fun _ : Fin 1 => gaussianReal d v) 0).map_eq, Measure.map_map (f := fun ω (_ : Fin 1) => fluxNext d s par.delta (e ω)) (measurable_pi_apply 0)
      (measurable_pi_lambda _ fun _ => (fluxNext_measurable d s par.delta).comp hem.measurable)] at h2
    rw [← h2, ← hem.map_eq, Measure.map_map (fluxNext_measurable d s par.delta) hem.measurable]
    rfl
  refine ⟨F, Pr, ⟨F, Pr.toPrior, par, 1⟩, initArrays ⟨F, Pr.toPrior, par, 1⟩, hF, hP, by simp [samplerInit, hnp], hgauss, fun ρ Z hρ he => ?_⟩
  have hlp : ∀ x : ℝ, (match logpi F Pr.toPrior par.mu [(x : ℂ)] [(x : ℂ)] with
      | .ok l => l.1.re
      | .error _ => 0) = -((x - d) ^ 2 / s ^ 2) := by
    intro x
    have h1 := logpi_ofFn F Pr.toPrior par.mu (List.ofFn fun _ : Fin 1 => (x : ℂ)) (fun _ : Fin 1 => (x : ℂ)) _ (tot'.prior fun _ => (x : ℂ))
    have h2 : (List.ofFn fun _ : Fin 1 => (x : ℂ)) = [(x : ℂ)] := by simp
    rw [h2] at h1
    rw [h1]
    simp only [hdat', hcov, hmu]
    rw [inner_diagonal]
    simp only [Finset.univ_unique, Finset.sum_singleton, Pi.sub_apply]
    have h3 : ‖(d : ℂ) - (x : ℂ)‖ ^ 2 = (x - d) ^ 2 := by
      rw [← Complex.ofReal_sub, Complex.norm_real, Real.norm_eq_abs, sq_abs]
      ring
    rw [h3]
    norm_cast
    push_cast
    ring
  set v : ℝ≥0 := Real.toNNReal (s ^ 2 / 2) with hv
  have hs2 : 0 < s ^ 2 / 2 := by positivity
  have hv' : (v : ℝ) = s ^ 2 / 2 := Real.coe_toNNReal _ hs2.le
  have hv0 : v ≠ 0 := by rw [hv, Ne, Real.toNNReal_eq_zero]; linarith
  suffices h : ρ = gaussianReal d v by
    rw [h]
    exact hgauss v hv0
  set K : ℝ := (√(2 * Real.pi * v))⁻¹ with hK
  have hK0 : 0 < K := by
    have := Real.pi_pos
    rw [hK, hv']
    positivity
  have hdens : ρ = ENNReal.ofReal (Z / K) • gaussianReal d v := by
    rw [he, gaussianReal_of_var_ne_zero _ hv0, ← withDensity_smul _ (measurable_gaussianPDF d v)]
    congr 1
    funext x
    show _ = ENNReal.ofReal (Z / K) * gaussianPDF d v x
    simp only [hlp]
    rw [gaussianPDF, ← ENNReal.ofReal_mul' (gaussianPDFReal_nonneg _ _ _), gaussianPDFReal, hv']
    congr 1
    rw [← hv', ← hK, hv']
    have : -(x - d) ^ 2 / (2 * (s ^ 2 / 2)) = -((x - d) ^ 2 / s ^ 2) := by
      rw [show 2 * (s ^ 2 / 2) = s ^ 2 by ring]
      ring
    rw [this]
    field_simp
  have h1 : ENNReal.ofReal (Z / K) = 1 := by
    have h2 := congrArg (fun m : Measure ℝ => m Set.univ) hdens
    simpa using h2.symm
  rw [hdens, h1, one_smul]

/-- The hypotheses are met with the step sizes of tests/test_mcmc.py:27-29 and standard deviation 0.1. -/
example : ∃ par : Params, par.lmda ≠ 0 ∧ par.mu = 0 ∧ par.complex = false ∧ 0 < par.nsamples ∧ 0 < par.delta ∧
    par.delta < 4 * (1 / 10 : ℝ) ^ 2 :=
  ⟨⟨3 / 100000, 1 / 100000, 0, 5, 100, 10, 5, false, 0, ["chain"]⟩, by norm_num, rfl, rfl, by norm_num, by norm_num, by norm_num⟩

end Pxmcmc
