import Verif.Lemmas.PathAverages
import Verif.Props.SavedLaplace
import Verif.Props.Events

/-! # Property C137: averages over the samples saved by PxMALA -/

namespace Pxmcmc
open MeasureTheory ProbabilityTheory Filter
open scoped ENNReal Topology

section Spread
variable {V : Type} [NormedAddCommGroup V] [InnerProductSpace ℝ V] [FiniteDimensional ℝ V] [MeasurableSpace V] [BorelSpace V]

theorem gauss_volume (a : V) (s : ℝ) (hs : 0 < s) (B : Set V) (hB : MeasurableSet B) :
    (stdGaussian V) {w | a + s • w ∈ B} = 0 ↔ (volume : Measure V) B = 0 := by
  have hm : Measurable fun w : V => a + s • w := by fun_prop
  have e : (stdGaussian V) {w | a + s • w ∈ B} = (stdGaussian V).map (fun w => a + s • w) B := (Measure.map_apply hm hB).symm
  have hb : 0 < 1 / (2 * s ^ 2) := by positivity
  rw [e, stdGaussian_affine a s hs]
  exact ⟨fun h => absolutelyContinuous_tilted (integrable_exp_shift _ hb a) h, fun h => tilted_absolutelyContinuous _ _ h⟩

theorem gauss_null (a : V) (s : ℝ) (hs : 0 < s) (B : Set V) (hB : MeasurableSet B) :
    (stdGaussian V) {w | a + s • w ∈ B} = 0 ↔ (stdGaussian V) B = 0 := by
  have h := gauss_volume (0 : V) 1 one_pos B hB
  simp only [one_smul, zero_add, Set.ofPred_mem_eq] at h
  rw [gauss_volume a s hs B hB, h]

end Spread

variable {n p : ℕ}

/-- The noise, scaled and shifted, charges the sets that the noise charges: for real samplers if the shift is real. -/
theorem noise_spread (cplx : Bool) (s : ℝ) (hs : 0 < s) (a : Fin p → ℂ) (ha : cplx = false → ∀ i, (a i).im = 0) (B : Set (Fin p → ℂ))
    (hB : MeasurableSet B) :
    (normalNoise cplx p) {w | (fun i => a i + (s : ℂ) * w i) ∈ B} = 0 ↔ (normalNoise cplx p) B = 0 := by
  have hm : Measurable fun (w : Fin p → ℂ) i => a i + (s : ℂ) * w i := by fun_prop
  cases cplx
  · have hem := (realForm_real (p := p)).cont.measurable
    show (normalLaw p) ((fun (w : Fin p → ℂ) i => a i + (s : ℂ) * w i) ⁻¹' B) = 0 ↔ (normalLaw p) B = 0
    rw [← normalLaw_std, Measure.map_apply hem (hm hB), Measure.map_apply hem hB,
      ← gauss_null (WithLp.toLp 2 fun i => (a i).re : EuclideanSpace ℝ (Fin p)) s hs _ (hem hB)]
    refine Eq.congr (congrArg _ ?_) rfl
    ext w
    have e : (fun i => a i + (s : ℂ) * realVec w.ofLp i) = realVec ((WithLp.toLp 2 fun i => (a i).re) + s • w : EuclideanSpace ℝ (Fin p)).ofLp := by
      funext i
      refine Complex.ext ?_ ?_
      · simp [realVec]
      · simp [realVec, ha rfl i]
    show (fun i => a i + (s : ℂ) * realVec w.ofLp i) ∈ B ↔ _
    rw [e]
    rfl
  · have hem := (realForm_cplx (p := p)).cont.measurable
    set e' : (Fin p → ℂ) → EuclideanSpace ℝ (Fin p ⊕ Fin p) := fun z => WithLp.toLp 2 (Sum.elim (fun i => (z i).re) fun i => (z i).im)
      with he'
    have hiff : ∀ z : Fin p → ℂ, cplxVec (e' z).ofLp = z := fun z => funext fun i => Complex.ext rfl rfl
    show (cplxNormalLaw p) ((fun (w : Fin p → ℂ) i => a i + (s : ℂ) * w i) ⁻¹' B) = 0 ↔ (cplxNormalLaw p) B = 0
    rw [← cplxNormalLaw_std, Measure.map_apply hem (hm hB), Measure.map_apply hem hB, ← gauss_null (e' a) s hs _ (hem hB)]
    refine Eq.congr (congrArg _ ?_) rfl
    ext w
    have e : (fun i => a i + (s : ℂ) * cplxVec w.ofLp i) = cplxVec (e' a + s • w).ofLp := by
      have h1 := (realForm_cplx (p := p)).add (e' a) (s • w)
      have h2 := (realForm_cplx (p := p)).smul s w
      simp only at h1 h2
      rw [h1, h2, hiff]
      rfl
    show (fun i => a i + (s : ℂ) * cplxVec w.ofLp i) ∈ B ↔ _
    rw [e]
    rfl

/-- The samples a sampler works with: all arrays if it is complex, the arrays of real numbers otherwise. -/
def stateSet (cplx : Bool) (p : ℕ) : Set (Fin p → ℂ) := {x | cplx = false → ∀ i, (x i).im = 0}

theorem stateSet_meas (cplx : Bool) : MeasurableSet (stateSet cplx p) := by
  unfold stateSet
  cases cplx
  · have e : {x : Fin p → ℂ | false = false → ∀ i, (x i).im = 0} = ⋂ i, {x | (x i).im = 0} := by
      ext x
      simp
    rw [e]
    exact MeasurableSet.iInter fun i => measurableSet_eq_fun (by fun_prop) measurable_const
  · simp

instance (cplx : Bool) (p : ℕ) : IsProbabilityMeasure (normalNoise cplx p) := normalNoise_prob cplx p

section Reach
variable {M : Sampler n} {fwd : (Fin p → ℂ) → (Fin n → ℂ)} {grad : (Fin n → ℂ) → (Fin p → ℂ)}
    {prox : (Fin p → ℂ) → (Fin p → ℂ)} {pri : (Fin p → ℂ) → ℝ} {delta : ℝ} {ρ : Measure (Fin p → ℂ)} [IsProbabilityMeasure ρ]

theorem weighted_null {Y : Type} [MeasurableSpace Y] (ν : Measure Y) (t : Y → ℝ) (ht : Measurable t) (D : Set Y) (hD : MeasurableSet D) :
    ∫⁻ w, ENNReal.ofReal (min 1 (Real.exp (t w))) * D.indicator 1 w ∂ν = 0 ↔ ν D = 0 := by
  have hm : Measurable fun w => ENNReal.ofReal (min 1 (Real.exp (t w))) * D.indicator (1 : Y → ℝ≥0∞) w :=
    (ENNReal.measurable_ofReal.comp (measurable_const.min (Real.measurable_exp.comp ht))).mul (measurable_one.indicator hD)
  rw [lintegral_eq_zero_iff hm]
  have e : D = {w | ¬ w ∉ D} := by
    ext w
    simp
  conv_rhs => rw [e, ← ae_iff]
  refine eventually_congr (Eventually.of_forall fun w => ?_)
  have h0 : ¬ min 1 (Real.exp (t w)) ≤ 0 := not_le.mpr (lt_min one_pos (Real.exp_pos _))
  simp only [Pi.zero_apply, mul_eq_zero, ENNReal.ofReal_eq_zero, h0, false_or, Set.indicator_apply_eq_zero, Pi.one_apply, one_ne_zero,
    imp_false]

theorem accept_null (hf : Measurable fwd) (hgr : Measurable grad) (hp : Measurable prox) (hq : Measurable pri)
    (ν : Measure (Fin p → ℂ)) [IsProbabilityMeasure ν] (x : Fin p → ℂ) (B : Set (Fin p → ℂ)) (hB : MeasurableSet B) :
    accF (ν.prod uniformLaw) (iterMap M fwd grad prox pri delta) (accSet M fwd grad prox pri delta) (B.indicator 1) x = 0 ↔
      ν {w | ulaStep delta (gradVec M.par.lmda fwd grad prox) x w ∈ B} = 0 := by
  have hstep : Measurable fun w => ulaStep delta (gradVec M.par.lmda fwd grad prox) x w := by
    unfold ulaStep
    fun_prop
  have hα : Measurable fun w => propAlpha M fwd grad prox pri (x, delta, w) :=
    (propAlpha_measurable (M := M) hf hgr hp hq).comp (measurable_const.prodMk (measurable_const.prodMk measurable_id))
  rw [acc_mean hf hgr hp hq delta ν _ (measurable_one.indicator hB)]
  exact weighted_null ν (fun w => (propAlpha M fwd grad prox pri (x, delta, w)).re) (Complex.measurable_re.comp hα) _ (hstep hB)

theorem accF_event {E V : Type} [MeasurableSpace E] [MeasurableSpace V] {κ : Measure V} {f : E → V → E} {A : Set (E × V)}
    (hf : Measurable (Function.uncurry f)) (hA : MeasurableSet A) (B : Set E) (hB : MeasurableSet B) (x : E) :
    accF κ f A (B.indicator 1) x = κ {v | (x, v) ∈ A ∧ f x v ∈ B} := by
  have hS : MeasurableSet {v | (x, v) ∈ A ∧ f x v ∈ B} := (measurable_prodMk_left hA).inter ((hf.comp measurable_prodMk_left) hB)
  rw [← lintegral_indicator_one hS]
  refine lintegral_congr fun v => ?_
  by_cases h1 : (x, v) ∈ A <;> by_cases h2 : f x v ∈ B <;> simp [h1, h2]

/-- With normal noise, an accepted iteration reaches from every sample exactly the sets that a kept law charges. -/
theorem mala_reaches (hf : Measurable fwd) (hgr : Measurable grad) (hp : Measurable prox) (hq : Measurable pri) (hδ : 0 < delta)
    (hre : M.par.complex = false → ∀ x : Fin p → ℂ, (∀ i, (x i).im = 0) → ∀ i, (gradVec M.par.lmda fwd grad prox x i).im = 0)
    (hinv : KeepsLaw M fwd grad prox pri delta (normalNoise M.par.complex p) ρ) (hρ : ∀ᵐ z ∂ρ, z ∈ stateSet M.par.complex p) :
    Reaches ((normalNoise M.par.complex p).prod uniformLaw) (iterMap M fwd grad prox pri delta) (accSet M fwd grad prox pri delta) ρ
      (stateSet M.par.complex p) := by
  have hfm := iterMap_meas (M := M) hf hgr hp hq delta
  have hAm := accSet_meas (M := M) hf hgr hp hq delta
  have key : ∀ x ∈ stateSet M.par.complex p, ∀ B, MeasurableSet B →
      (accF ((normalNoise M.par.complex p).prod uniformLaw) (iterMap M fwd grad prox pri delta) (accSet M fwd grad prox pri delta)
        (B.indicator 1) x = 0 ↔ (normalNoise M.par.complex p) B = 0) := by
    intro x hx B hB
    rw [accept_null hf hgr hp hq _ x B hB]
    refine noise_spread M.par.complex √(2 * delta) (Real.sqrt_pos.mpr (by linarith))
      (fun i => x i + (delta : ℂ) * gradVec M.par.lmda fwd grad prox x i) (fun hc i => ?_) B hB
    simp [hx hc i, hre hc x (hx hc) i]
  have hequiv : ∀ B, MeasurableSet B → ((normalNoise M.par.complex p) B = 0 ↔ ρ B = 0) := by
    intro B hB
    have hφ : Measurable (B.indicator (1 : (Fin p → ℂ) → ℝ≥0∞)) := measurable_one.indicator hB
    have h := acc_weighted hfm hAm (iterMap_rej delta) hinv hφ (fun x => Set.indicator_le_self' (fun _ _ => zero_le) x)
    have hl : ∫⁻ x, accF ((normalNoise M.par.complex p).prod uniformLaw) (iterMap M fwd grad prox pri delta)
        (accSet M fwd grad prox pri delta) (B.indicator 1) x ∂ρ = 0 ↔ (normalNoise M.par.complex p) B = 0 := by
      rw [lintegral_eq_zero_iff (accF_meas hfm hAm hφ)]
      constructor
      · intro h0
        obtain ⟨x, h1, h2⟩ := (h0.and hρ).exists
        exact (key x h2 B hB).mp h1
      · intro h0
        filter_upwards [hρ] with x hx
        exact (key x hx B hB).mpr h0
    have hr : ∫⁻ x, B.indicator 1 x * ((normalNoise M.par.complex p).prod uniformLaw) {v | (x, v) ∈ accSet M fwd grad prox pri delta} ∂ρ = 0 ↔
        ρ B = 0 := by
      have hm : Measurable fun x => B.indicator (1 : (Fin p → ℂ) → ℝ≥0∞) x *
          ((normalNoise M.par.complex p).prod uniformLaw) {v | (x, v) ∈ accSet M fwd grad prox pri delta} :=
        hφ.mul (measurable_measure_prodMk_left hAm)
      rw [lintegral_eq_zero_iff hm]
      have e : B = {x | ¬ x ∉ B} := by
        ext x
        simp
      conv_rhs => rw [e, ← ae_iff]
      refine eventually_congr (Eventually.of_forall fun x => ?_)
      have hpos := acceptProb_ne_zero (M := M) hf hgr hp hq delta (normalNoise M.par.complex p) x
      rw [← acceptProb_eq hf hgr hp hq] at hpos
      simp only [Pi.zero_apply, mul_eq_zero, hpos, or_false, Set.indicator_apply_eq_zero, Pi.one_apply, one_ne_zero, imp_false]
    rw [← hl, h, hr]
  refine ⟨stateSet_meas _, hρ, fun x hx B hB => ?_⟩
  rw [← accF_event hfm hAm B hB, key x hx B hB, hequiv B hB]

/-- The mean after an accepted iteration from a kept law. -/
theorem accepted_mean (hf : Measurable fwd) (hgr : Measurable grad) (hp : Measurable prox) (hq : Measurable pri)
    {ν : Measure (Fin p → ℂ)} [IsProbabilityMeasure ν] (hinv : KeepsLaw M fwd grad prox pri delta ν ρ) (φ : (Fin p → ℂ) → ℝ) (hφ : Measurable φ) :
    (∫ q in accSet M fwd grad prox pri delta, φ (iterMap M fwd grad prox pri delta q.1 q.2) ∂(ρ.prod (ν.prod uniformLaw))) /
      (ρ.prod (ν.prod uniformLaw)).real (accSet M fwd grad prox pri delta) = ∫ x, φ x ∂(acceptedLaw M fwd grad prox pri delta ν ρ) := by
  have hfm := iterMap_meas (M := M) hf hgr hp hq delta
  have hAm := accSet_meas (M := M) hf hgr hp hq delta
  have hW : accW (ν.prod uniformLaw) (accSet M fwd grad prox pri delta) = acceptProb M fwd grad prox pri delta ν :=
    funext fun x => acceptProb_eq hf hgr hp hq delta ν x
  have hmap : ((ρ.prod (ν.prod uniformLaw)).restrict (accSet M fwd grad prox pri delta)).map (Function.uncurry (iterMap M fwd grad prox pri delta)) =
      ρ.withDensity (acceptProb M fwd grad prox pri delta ν) := by
    refine Measure.ext fun B hB => ?_
    have hB1 : Measurable (B.indicator (1 : (Fin p → ℂ) → ℝ≥0∞)) := measurable_one.indicator hB
    have h := flow_snd hfm hAm (iterMap_rej delta) hinv hB1
    rw [← lintegral_indicator_one hB, lintegral_map hB1 hfm, ← lintegral_indicator_one hB,
      lintegral_withDensity_eq_lintegral_mul _ (acceptProb_meas hf hgr hp hq delta ν) hB1, ← hW]
    refine h.trans (lintegral_congr fun x => mul_comm _ _)
  have hmass : (ρ.prod (ν.prod uniformLaw)) (accSet M fwd grad prox pri delta) = ∫⁻ x, acceptProb M fwd grad prox pri delta ν x ∂ρ := by
    rw [Measure.prod_apply hAm]
    exact lintegral_congr fun x => acceptProb_eq hf hgr hp hq delta ν x
  have h1 := integral_map (μ := (ρ.prod (ν.prod uniformLaw)).restrict (accSet M fwd grad prox pri delta)) hfm.aemeasurable (f := φ) hφ.aestronglyMeasurable
  rw [hmap] at h1
  rw [acceptedLaw, integral_smul_measure, h1, measureReal_def, hmass, ENNReal.toReal_inv, smul_eq_mul, div_eq_inv_mul]
  rfl

/-- An accepted grid iteration is determined by the number of earlier ones. -/
theorem hits_inj {E V : Type} [MeasurableSpace E] [MeasurableSpace V] {f : E → V → E} {A : Set (E × V)} {b h : ℕ} {s : E} {v : ℕ → V} {t u : ℕ}
    (ht : b ≤ t ∧ h ∣ t - b ∧ (fwState f s v t, v t) ∈ A) (hu : b ≤ u ∧ h ∣ u - b ∧ (fwState f s v u, v u) ∈ A)
    (he : hits f A b h s v t = hits f A b h s v u) : t = u := by
  classical
  have mono : ∀ t u, t < u → b ≤ t ∧ h ∣ t - b ∧ (fwState f s v t, v t) ∈ A → hits f A b h s v t < hits f A b h s v u := by
    intro t u htu hc
    have e := hits_grid (f := f) (A := A) (b := b) (h := h) (s := s) (v := v) (k := t) ⟨hc.1, hc.2.1⟩
    rw [if_pos hc.2.2] at e
    have : hits f A b h s v (t + 1) ≤ hits f A b h s v u := Nat.count_monotone _ htu
    omega
  rcases lt_trichotomy t u with h' | h' | h'
  · have := mono _ _ h' ht
    omega
  · exact h'
  · have := mono _ _ h' hu
    omega

variable {b g : ℕ} {v : ℤ} {track : List String} {R : Rng} {A0 : ℕ → Arrays} {Ω : Type} [MeasurableSpace Ω] {P : Measure Ω}
  [IsProbabilityMeasure P] {r r1 : Ω → R.σ} {sp : Ω → StartPoint} {x0 : Ω → Fin p → ℂ} {fuel : ℕ → Ω → ℕ} {st : ℕ → Ω → MalaSt R}
  {rows : (N : ℕ) → Ω → Fin N → Fin p → ℂ}

/-- Averages over the rows of the chain array are averages over the accepted states. -/
theorem mala_saved (tot : Total M p fwd grad prox pri) (hf : Measurable fwd) (hgr : Measurable grad) (hp : Measurable prox)
    (hq : Measurable pri) (hδ : 0 < delta)
    (hre : M.par.complex = false → ∀ x : Fin p → ℂ, (∀ i, (x i).im = 0) → ∀ i, (gradVec M.par.lmda fwd grad prox x i).im = 0)
    (hinv : KeepsLaw M fwd grad prox pri delta (normalNoise M.par.complex p) ρ)
    (hρ : M.par.complex = false → ∀ᵐ z ∂ρ, ∀ i, (z i).im = 0)
    (h : ∀ N, MalaRuns (M.resched N b g v track) R fwd delta (A0 N) b g P r r1 sp x0 (normalNoise M.par.complex p) (fuel N) (st N) (rows N))
    (hx0 : M.par.complex = false → ∀ᵐ ω ∂P, ∀ i, (x0 ω i).im = 0)
    (q : (Fin p → ℂ) → ℝ) (hqm : Measurable q) (C : ℝ) (hC : ∀ x, |q x| ≤ C) :
    (∀ᵐ ω ∂P, Tendsto (fun N : ℕ => (∑ k, q (rows N ω k)) / N) atTop
      (𝓝 (∫ z, q (fun i => store M.par.complex (z i)) ∂(acceptedLaw M fwd grad prox pri delta (normalNoise M.par.complex p) ρ)))) ∧
    ∀ ε : ℝ, 0 < ε → Tendsto (fun N : ℕ => P {ω | ε ≤ |(∑ k, q (rows N ω k)) / N -
      ∫ z, q (fun i => store M.par.complex (z i)) ∂(acceptedLaw M fwd grad prox pri delta (normalNoise M.par.complex p) ρ)|}) atTop (𝓝 0) := by
  have hfm := iterMap_meas (M := M) hf hgr hp hq delta
  have hAm := accSet_meas (M := M) hf hgr hp hq delta
  have hpos : ∀ s, ((normalNoise M.par.complex p).prod uniformLaw) {v | (s, v) ∈ accSet M fwd grad prox pri delta} ≠ 0 := fun s => by
    rw [acceptProb_eq hf hgr hp hq]
    exact acceptProb_ne_zero hf hgr hp hq delta _ s
  have hS : ∀ᵐ z ∂ρ, z ∈ stateSet M.par.complex p := by
    by_cases hc : M.par.complex = false
    · filter_upwards [hρ hc] with z hz _
      exact hz
    · exact Eventually.of_forall fun z h => absurd h hc
  have hx : ∀ᵐ ω ∂P, x0 ω ∈ stateSet M.par.complex p := by
    by_cases hc : M.par.complex = false
    · filter_upwards [hx0 hc] with ω hω _
      exact hω
    · exact Eventually.of_forall fun z h => absurd h hc
  have hR := mala_reaches hf hgr hp hq hδ hre hinv hS
  have hC0 : 0 ≤ C := (abs_nonneg _).trans (hC 0)
  have hφ : Measurable fun z : Fin p → ℂ => q fun i => store M.par.complex (z i) := hqm.comp (store_meas _)
  have hseq : SeqIndep P x0 (fun k ω => malaDraws R M.par.complex p (r1 ω) k) ((normalNoise M.par.complex p).prod uniformLaw) := (h 0).seq
  set rw' : ℕ → Ω → ℕ → ℝ := fun N ω k => if hk : k < N then q (rows N ω ⟨k, hk⟩) else 0 with hrw
  have hrB : ∀ N ω k, |rw' N ω k| ≤ C := fun N ω k => by
    simp only [hrw]
    split
    · exact hC _
    · rw [abs_zero]
      exact hC0
  have hrow : ∀ N, ∀ᵐ ω ∂P, ∀ t, b ≤ t → max g 1 ∣ t - b →
      (stAt (iterMap M fwd grad prox pri delta) x0 (fun k ω => malaDraws R M.par.complex p (r1 ω) k) t ω, malaDraws R M.par.complex p (r1 ω) t) ∈
        accSet M fwd grad prox pri delta →
      hitsAt (iterMap M fwd grad prox pri delta) (accSet M fwd grad prox pri delta) b (max g 1) x0
        (fun k ω => malaDraws R M.par.complex p (r1 ω) k) t ω < N →
      rw' N ω (hitsAt (iterMap M fwd grad prox pri delta) (accSet M fwd grad prox pri delta) b (max g 1) x0
        (fun k ω => malaDraws R M.par.complex p (r1 ω) k) t ω) =
        q (fun i => store M.par.complex (stAt (iterMap M fwd grad prox pri delta) x0 (fun k ω => malaDraws R M.par.complex p (r1 ω) k) (t + 1) ω i)) := by
    intro N
    filter_upwards [(h N).ran, (h N).rows] with ω h1 h2 t t1 t2 t3 t4
    have tot' : Total (M.resched N b g v track) p fwd grad prox pri :=
      ⟨tot.nparams, tot.forward, tot.gradg, tot.proxf, tot.prior, tot.lmda⟩
    obtain ⟨t', a1, a2, a3, a4, a5⟩ := mala_row_at R tot' delta (A0 N) (h N).shaped b g (h N).nburn (h N).ngap (r ω) (r1 ω) (sp ω) (x0 ω)
      ((h N).start ω) (fuel N ω) (st N ω) h1 (rows N ω) h2 ⟨_, t4⟩
    have e : t' = t := hits_inj (f := iterMap M fwd grad prox pri delta) (A := accSet M fwd grad prox pri delta) (b := b) (h := max g 1)
      (s := x0 ω) (v := malaDraws R M.par.complex p (r1 ω)) ⟨a1, a2, a3⟩ ⟨t1, t2, t3⟩ a4
    subst e
    simp only [hrw]
    rw [dif_pos t4]
    exact congrArg q a5
  have hsum : ∀ N ω, ∑ k, q (rows N ω k) = ∑ k ∈ Finset.range N, rw' N ω k := fun N ω => by
    rw [Finset.sum_range]
    exact Finset.sum_congr rfl fun k _ => by
      simp only [hrw]
      rw [dif_pos k.2]
  simp only [hsum]
  constructor
  · have hlim := saved_average_ae hfm hAm (iterMap_rej delta) hpos hinv hR b (max g 1) (by omega) hseq hx
      (fun z => q fun i => store M.par.complex (z i)) hφ C (fun z => hC _) rw' hrB hrow
    rw [accepted_mean hf hgr hp hq hinv _ hφ] at hlim
    exact hlim
  · intro ε hε
    have hlim := saved_average hfm hAm (iterMap_rej delta) hpos hinv hR b (max g 1) (by omega) hseq hx
      (fun z => q fun i => store M.par.complex (z i)) hφ C (fun z => hC _) rw' hrB hrow ε hε
    rw [accepted_mean hf hgr hp hq hinv _ hφ] at hlim
    exact hlim

/-- C137 (partial): with normal noise, a positive step size and no tuning, whatever the start, the burn-in and the thinning, the averages of a
bounded function over the samples that PxMALA saves converge in probability, as the number of samples grows: to the mean under the law that its
iterations keep, reweighted with the acceptance probability.  Missing: that they converge to the mean under the kept law (`C137_refuted`). -/
theorem C137_limit_partial (tot : Total M p fwd grad prox pri) (hf : Measurable fwd) (hgr : Measurable grad) (hp : Measurable prox)
    (hq : Measurable pri) (hδ : 0 < delta)
    (hre : M.par.complex = false → ∀ x : Fin p → ℂ, (∀ i, (x i).im = 0) → ∀ i, (gradVec M.par.lmda fwd grad prox x i).im = 0)
    (hinv : KeepsLaw M fwd grad prox pri delta (normalNoise M.par.complex p) ρ)
    (hρ : M.par.complex = false → ∀ᵐ z ∂ρ, ∀ i, (z i).im = 0)
    (h : ∀ N, MalaRuns (M.resched N b g v track) R fwd delta (A0 N) b g P r r1 sp x0 (normalNoise M.par.complex p) (fuel N) (st N) (rows N))
    (hx0 : M.par.complex = false → ∀ᵐ ω ∂P, ∀ i, (x0 ω i).im = 0)
    (q : (Fin p → ℂ) → ℝ) (hqm : Measurable q) (C : ℝ) (hC : ∀ x, |q x| ≤ C) (ε : ℝ) (hε : 0 < ε) :
    Tendsto (fun N : ℕ => P {ω | ε ≤ |(∑ k, q (rows N ω k)) / N -
      ∫ z, q (fun i => store M.par.complex (z i)) ∂(acceptedLaw M fwd grad prox pri delta (normalNoise M.par.complex p) ρ)|}) atTop (𝓝 0) :=
  (mala_saved tot hf hgr hp hq hδ hre hinv hρ h hx0 q hqm C hC).2 ε hε

/-- C137 (partial): under the same conditions the averages also converge with probability one: along almost every sequence of random numbers the
averages over the samples that one seed gives settle down, as `nsamples` grows, at the mean under the reweighted law.  Missing: as in
`C137_limit_partial`. -/
theorem C137_always_partial (tot : Total M p fwd grad prox pri) (hf : Measurable fwd) (hgr : Measurable grad) (hp : Measurable prox)
    (hq : Measurable pri) (hδ : 0 < delta)
    (hre : M.par.complex = false → ∀ x : Fin p → ℂ, (∀ i, (x i).im = 0) → ∀ i, (gradVec M.par.lmda fwd grad prox x i).im = 0)
    (hinv : KeepsLaw M fwd grad prox pri delta (normalNoise M.par.complex p) ρ)
    (hρ : M.par.complex = false → ∀ᵐ z ∂ρ, ∀ i, (z i).im = 0)
    (h : ∀ N, MalaRuns (M.resched N b g v track) R fwd delta (A0 N) b g P r r1 sp x0 (normalNoise M.par.complex p) (fuel N) (st N) (rows N))
    (hx0 : M.par.complex = false → ∀ᵐ ω ∂P, ∀ i, (x0 ω i).im = 0)
    (q : (Fin p → ℂ) → ℝ) (hqm : Measurable q) (C : ℝ) (hC : ∀ x, |q x| ≤ C) :
    ∀ᵐ ω ∂P, Tendsto (fun N : ℕ => (∑ k, q (rows N ω k)) / N) atTop
      (𝓝 (∫ z, q (fun i => store M.par.complex (z i)) ∂(acceptedLaw M fwd grad prox pri delta (normalNoise M.par.complex p) ρ))) :=
  (mala_saved tot hf hgr hp hq hδ hre hinv hρ h hx0 q hqm C hC).1

/-- C137 (partial): with normal noise and a positive step size, an untuned iteration keeps at most one law.  Missing: as in
`C137_limit_partial`. -/
theorem C137_unique_partial (hf : Measurable fwd) (hgr : Measurable grad) (hp : Measurable prox)
    (hq : Measurable pri) (hδ : 0 < delta)
    (hre : M.par.complex = false → ∀ x : Fin p → ℂ, (∀ i, (x i).im = 0) → ∀ i, (gradVec M.par.lmda fwd grad prox x i).im = 0)
    (hinv : KeepsLaw M fwd grad prox pri delta (normalNoise M.par.complex p) ρ)
    (hρ : M.par.complex = false → ∀ᵐ z ∂ρ, ∀ i, (z i).im = 0) (ρ' : Measure (Fin p → ℂ)) [IsProbabilityMeasure ρ']
    (hinv' : KeepsLaw M fwd grad prox pri delta (normalNoise M.par.complex p) ρ')
    (hρ' : M.par.complex = false → ∀ᵐ z ∂ρ', ∀ i, (z i).im = 0) : ρ' = ρ := by
  have hS : ∀ (μ : Measure (Fin p → ℂ)), (M.par.complex = false → ∀ᵐ z ∂μ, ∀ i, (z i).im = 0) → ∀ᵐ z ∂μ, z ∈ stateSet M.par.complex p := by
    intro μ hμ
    by_cases hc : M.par.complex = false
    · filter_upwards [hμ hc] with z hz _
      exact hz
    · exact Eventually.of_forall fun z h => absurd h hc
  exact kept_unique (iterMap_meas hf hgr hp hq delta) (accSet_meas hf hgr hp hq delta) (iterMap_rej delta)
    (fun s => by
      rw [acceptProb_eq hf hgr hp hq]
      exact acceptProb_ne_zero hf hgr hp hq delta _ s) hinv (mala_reaches hf hgr hp hq hδ hre hinv (hS ρ hρ)) ρ' hinv' (hS ρ' hρ')

end Reach

section Refuted

theorem walk_accepted {M : Sampler n} (hmu : 0 < M.par.mu) (delta : ℝ) (hδ : 0 < delta) :
    acceptedLaw M (fun _ : Fin 1 → ℂ => 0) (fun _ => 0) (fun x => x) (fun x => ∑ i, ‖x i‖) delta (normalLaw 1) (laplaceRow M.par.mu) ≠
      laplaceRow M.par.mu := by
  intro he
  have hL := laplaceLaw_prob hmu
  have hR : IsProbabilityMeasure (laplaceRow M.par.mu) := Measure.isProbabilityMeasure_map single_meas.aemeasurable
  have c1 : Measurable fun _ : Fin 1 → ℂ => (0 : Fin n → ℂ) := measurable_const
  have c2 : Measurable fun _ : Fin n → ℂ => (0 : Fin 1 → ℂ) := measurable_const
  have c3 : Measurable fun x : Fin 1 → ℂ => x := measurable_id
  have hfm := iterMap_meas (M := M) c1 c2 c3 pri_meas delta
  obtain ⟨h0, h1⟩ := acceptProb_mass (M := M) (delta := delta) (ν := normalLaw 1) (ρ := laplaceRow M.par.mu) c1 c2 c3 pri_meas
  have hm := acceptProb_meas (M := M) c1 c2 c3 pri_meas delta (normalLaw 1)
  set a := acceptProb M (fun _ : Fin 1 → ℂ => 0) (fun _ => 0) (fun x => x) (fun x => ∑ i, ‖x i‖) delta (normalLaw 1) with ha
  set m := ∫⁻ x, a x ∂(laplaceRow M.par.mu) with hmd
  have hconst : ∀ᵐ x ∂(laplaceRow M.par.mu), a x = m := by
    have h2 : (laplaceRow M.par.mu).withDensity a = (laplaceRow M.par.mu).withDensity fun _ => m := by
      rw [withDensity_const]
      conv_rhs => rw [← he]
      rw [acceptedLaw, smul_smul, ← ha, ← hmd, ENNReal.mul_inv_cancel h0 h1, one_smul]
    exact (withDensity_eq_iff hm.aemeasurable aemeasurable_const h1).mp h2
  refine walk_changes hmu delta hδ ?_
  have hk := walk_keeps (M := M) hmu delta
  have k1 : ∀ᵐ q ∂((laplaceRow M.par.mu).prod ((normalLaw 1).prod uniformLaw)), a q.1 = m :=
    (Measure.quasiMeasurePreserving_fst (μ := laplaceRow M.par.mu) (ν := (normalLaw 1).prod uniformLaw)).ae hconst
  have hmp : MeasurePreserving (fun q => iterMap M (fun _ : Fin 1 → ℂ => 0) (fun _ => 0) (fun x => x) (fun x => ∑ i, ‖x i‖) delta q.1 q.2)
      ((laplaceRow M.par.mu).prod ((normalLaw 1).prod uniformLaw)) (laplaceRow M.par.mu) := ⟨hfm, hk⟩
  have k2 := hmp.quasiMeasurePreserving.ae hconst
  filter_upwards [k1, k2] with q h3 h4
  exact h4.trans h3.symm

/-- C137 is violated: for one parameter that no path crosses (the posterior is the prior) with the `L1` prior and `T = 0`, every `mu > 0` and
every step size, PxMALA without tuning leaves the Laplace law with density `mu/2*exp(-mu|x|)` invariant, but there is a set of samples whose
share among the saved samples does not come close to its probability under that law: whatever the real start, the burn-in and the thinning,
the probability that it is closer than `c` tends to zero with the number of samples. -/
theorem C137_refuted (data : DataVec n) (hd : data.cplx = false) (sig : SigD) (σ : Fin n → ℝ) (hσ : IsSigma n sig σ) (par : Params)
    (hl : par.lmda ≠ 0) (hmu : 0 < par.mu) (hδ : 0 < par.delta) (hc : par.complex = false) (hns : 0 < par.nsamples) :
    ∃ (F : ForwardOp n) (L : L1 ℂ) (M : Sampler n) (A : Arrays) (S : Set (Fin 1 → ℂ)) (c : ℝ),
      ForwardOp.init data sig "synthesis" (some identityTransform) (some ⟨pathForward (0 : Matrix (Fin n) (Fin 1) ℂ), pathAdjoint (0 : Matrix (Fin n) (Fin 1) ℂ)⟩) (some 1) =
        .ok F ∧
      L1.init "synthesis" identityTransform.op identityTransform.adj (.scalar 0) = .ok L ∧
      samplerInit F L.toPrior par = .ok (M, A) ∧
      MalaInvariant M par.delta (Measure.pi fun _ : Fin 1 => laplaceLaw par.mu) ∧ MeasurableSet S ∧ 0 < c ∧
      ∀ (b g : ℕ) (v : ℤ) (track : List String) (R : Rng) (A0 : ℕ → Arrays) (Ω : Type) (_ : MeasurableSpace Ω) (P : Measure Ω)
        (_ : IsProbabilityMeasure P) (r r1 : Ω → R.σ) (sp : Ω → StartPoint) (x0 : Ω → Fin 1 → ℂ) (fuel : ℕ → Ω → ℕ) (st : ℕ → Ω → MalaSt R)
        (rows : (N : ℕ) → Ω → Fin N → Fin 1 → ℂ),
        (∀ N, MalaRuns (M.resched N b g v track) R (fun _ => 0) par.delta (A0 N) b g P r r1 sp x0 (normalLaw 1) (fuel N) (st N) (rows N)) →
        (∀ᵐ ω ∂P, ∀ i, (x0 ω i).im = 0) →
        Tendsto (fun N : ℕ => P {ω | |(∑ k, S.indicator 1 (rows N ω k)) / N - (laplaceRow par.mu).real S| < c}) atTop (𝓝 0) := by
  obtain ⟨F, L, hF, hL, hnp, tot⟩ := walk_total data hd sig σ hσ
  have tot := tot par hl
  have c1 : Measurable fun _ : Fin 1 → ℂ => (0 : Fin n → ℂ) := measurable_const
  have c2 : Measurable fun _ : Fin n → ℂ => (0 : Fin 1 → ℂ) := measurable_const
  have c3 : Measurable fun x : Fin 1 → ℂ => x := measurable_id
  have c4 := pri_meas
  have hprob := laplaceLaw_prob hmu
  have hR : IsProbabilityMeasure (laplaceRow par.mu) := Measure.isProbabilityMeasure_map single_meas.aemeasurable
  set M : Sampler n := ⟨F, L.toPrior, par, 1⟩ with hM
  have hk := walk_keeps (M := M) hmu par.delta
  have hne := walk_accepted (M := M) hmu par.delta hδ
  have hAp := acceptedLaw_prob (M := M) (delta := par.delta) (ν := normalLaw 1) (ρ := laplaceRow par.mu) c1 c2 c3 c4
  obtain ⟨S, hS, hSne⟩ : ∃ S, MeasurableSet S ∧ acceptedLaw M (fun _ : Fin 1 → ℂ => 0) (fun _ => 0) (fun x => x) (fun x => ∑ i, ‖x i‖) par.delta
      (normalLaw 1) (laplaceRow par.mu) S ≠ laplaceRow par.mu S := by
    by_contra hno
    push Not at hno
    exact hne (Measure.ext hno)
  set ℓ := (acceptedLaw M (fun _ : Fin 1 → ℂ => 0) (fun _ => 0) (fun x => x) (fun x => ∑ i, ‖x i‖) par.delta
      (normalLaw 1) (laplaceRow par.mu)).real S with hℓ
  have hd0 : 0 < |ℓ - (laplaceRow par.mu).real S| := by
    rw [abs_pos, sub_ne_zero]
    intro h
    exact hSne ((ENNReal.toReal_eq_toReal_iff' (measure_ne_top _ _) (measure_ne_top _ _)).mp h)
  have hst : ∀ᵐ z ∂(laplaceRow par.mu), (fun i => store par.complex (z i)) = z := by
    rw [hc]
    exact laplaceRow_real
  refine ⟨F, L, M, initArrays M, S, |ℓ - (laplaceRow par.mu).real S| / 2, hF, hL, by simp [samplerInit, hnp, hM], ?_, hS, by linarith, ?_⟩
  · refine KeepsLaw.invariant tot c1 c2 c3 c4 hns hc par.delta _ ?_
    rw [laplace_pi hmu]
    exact hk
  · intro b g v track R A0 Ω _ P _ r r1 sp x0 fuel st rows h hx0
    have hn : normalNoise M.par.complex 1 = normalLaw 1 := by
      show normalNoise par.complex 1 = _
      rw [hc]
      rfl
    have hlim := C137_limit_partial (M := M) (ρ := laplaceRow par.mu) (b := b) (g := g) (v := v) (track := track) (A0 := A0) (r := r) (r1 := r1)
      (sp := sp) (x0 := x0) (fuel := fuel) (st := st) (rows := rows) tot c1 c2 c3 c4 hδ
      (fun _ x _ i => by rw [walk_grad]; rfl) (by rw [hn]; exact hk)
      (fun _ => by
        filter_upwards [laplaceRow_real (m := par.mu)] with z hz i
        rw [← hz]
        simp [store]) (by rw [hn]; exact h) (fun _ => hx0) (S.indicator 1) (measurable_one.indicator hS) 1
      (fun x => by by_cases hx : x ∈ S <;> simp [hx]) (|ℓ - (laplaceRow par.mu).real S| / 2) (by linarith)
    have hint : ∫ z, S.indicator (1 : (Fin 1 → ℂ) → ℝ) (fun i => store M.par.complex (z i)) ∂(acceptedLaw M (fun _ : Fin 1 → ℂ => 0) (fun _ => 0)
        (fun x => x) (fun x => ∑ i, ‖x i‖) par.delta (normalNoise M.par.complex 1) (laplaceRow par.mu)) = ℓ := by
      rw [hn, hℓ, ← integral_indicator_one hS]
      refine integral_congr_ae ?_
      have hac : ∀ᵐ z ∂(acceptedLaw M (fun _ : Fin 1 → ℂ => 0) (fun _ => 0) (fun x => x) (fun x => ∑ i, ‖x i‖) par.delta (normalLaw 1)
          (laplaceRow par.mu)), (fun i => store par.complex (z i)) = z :=
        ((withDensity_absolutelyContinuous _ _).smul_left _).ae_le hst
      filter_upwards [hac] with z hz
      exact congrArg _ hz
    rw [hint] at hlim
    refine tendsto_of_tendsto_of_tendsto_of_le_of_le tendsto_const_nhds hlim (fun _ => zero_le) fun N => measure_mono fun ω hω => ?_
    have hω : |(∑ k, S.indicator 1 (rows N ω k)) / N - (laplaceRow par.mu).real S| < |ℓ - (laplaceRow par.mu).real S| / 2 := hω
    show |ℓ - (laplaceRow par.mu).real S| / 2 ≤ |(∑ k, S.indicator 1 (rows N ω k)) / N - ℓ|
    have h3 := abs_sub_le ℓ ((∑ k, S.indicator 1 (rows N ω k)) / N) ((laplaceRow par.mu).real S)
    rw [abs_sub_comm ℓ ((∑ k, S.indicator 1 (rows N ω k)) / N)] at h3
    linarith

/-- The hypotheses of C137 are met, and the runs of `C137_refuted` exist, for every number of samples: three data, standard deviations 0.1, the
sampler parameters of tests/test_mcmc.py:27-29, the default start. -/
example : ∃ (M : Sampler 3) (fuel : ℕ → _ → ℕ) (st : ℕ → _ → _) (rows : (N : ℕ) → _ → Fin N → Fin 1 → ℂ),
    Total M 1 (fun _ => 0) (fun _ => 0) (fun x => x) (fun x => ∑ i, ‖x i‖) ∧ 0 < M.par.delta ∧ normalNoise M.par.complex 1 = normalLaw 1 ∧
    (∀ (x : Fin 1 → ℂ) (i : Fin 1), (gradVec (n := 3) M.par.lmda (fun _ : Fin 1 → ℂ => 0) (fun _ => 0) (fun x => x) x i).im = 0) ∧
    KeepsLaw M (fun _ : Fin 1 → ℂ => 0) (fun _ => 0) (fun x => x) (fun x => ∑ i, ‖x i‖) M.par.delta (normalLaw 1) (laplaceRow 1) ∧
    (∀ᵐ z ∂(laplaceRow 1), ∀ i, (z i).im = 0) ∧
    (∀ N, MalaRuns (M.resched N (10 : ℕ) (5 : ℕ) 100 ["logposterior", "L2", "prior", "chain"]) (startRng 1) (fun _ => 0) M.par.delta
      (initArrays (M.resched N (10 : ℕ) (5 : ℕ) 100 ["logposterior", "L2", "prior", "chain"])) 10 5
      (startLaw (Measure.pi fun _ => laplaceLaw 1)) (fun ω => ω) (fun ω => ω)
      (fun _ => .none) (fun ω i => ((ω.1 i : ℝ) : ℂ)) (normalLaw 1) (fuel N) (st N) (rows N)) := by
  obtain ⟨F, L, -, -, -, tot⟩ := walk_total (n := 3) ⟨false, fun _ => 1⟩ rfl (.num ((1 / 10 : ℝ) : ℂ) false) (fun _ => 1 / 10) (.scalar _ (by norm_num))
  have tot := tot ⟨3 / 100000, 1 / 100000, 1, 5, 100, 10, 5, false, 0, ["logposterior", "L2", "prior", "chain"]⟩ (by norm_num)
  have hp := laplaceLaw_prob one_pos
  set M : Sampler 3 := ⟨F, L.toPrior, ⟨3 / 100000, 1 / 100000, 1, 5, 100, 10, 5, false, 0, ["logposterior", "L2", "prior", "chain"]⟩, 1⟩ with hM
  have hex : ∀ N, ∃ fuel st rows, MalaRuns (M.resched N (10 : ℕ) (5 : ℕ) 100 ["logposterior", "L2", "prior", "chain"]) (startRng 1) (fun _ => 0) M.par.delta
      (initArrays (M.resched N (10 : ℕ) (5 : ℕ) 100 ["logposterior", "L2", "prior", "chain"])) 10 5
      (startLaw (Measure.pi fun _ => laplaceLaw 1)) (fun ω => ω) (fun ω => ω)
      (fun _ => .none) (fun ω i => ((ω.1 i : ℝ) : ℂ)) (normalLaw 1) fuel st rows := fun N =>
    walk_runs (M := M.resched N (10 : ℕ) (5 : ℕ) 100 ["logposterior", "L2", "prior", "chain"])
      ⟨tot.nparams, tot.forward, tot.gradg, tot.proxf, tot.prior, tot.lmda⟩ rfl (by simp [Sampler.resched]) 10 5 rfl rfl M.par.delta _
  choose fuel st rows h using hex
  refine ⟨M, fuel, st, rows, tot, by norm_num [hM], rfl, fun x i => by rw [walk_grad]; rfl, walk_keeps (M := M) one_pos _, ?_, h⟩
  filter_upwards [laplaceRow_real (m := 1)] with z hz i
  rw [← hz]
  simp [store]

end Refuted
end Pxmcmc
