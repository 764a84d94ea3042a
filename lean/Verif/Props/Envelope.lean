import Verif.Props.ChainStable
import Mathlib.Analysis.Calculus.Deriv.Basic
import Mathlib.Analysis.Calculus.LocalExtr.Basic

/-!
# The smoothed posterior (C80, C81) and concavity of the log-posterior (C82)
-/

namespace Pxmcmc
variable {n p : ℕ}

/-! ## C80: the prior drift is the gradient of the Moreau envelope -/

theorem distSq_rip (u x : Fin p → ℂ) : Spec.distSq u x = rip (u - x) (u - x) := (rip_sub u x).symm

/-- The proximal point of `lmda * g` attains the Moreau envelope of `g`. -/
theorem moreau_eq (g : (Fin p → ℂ) → ℝ) (lmda : ℝ) (hl : 0 < lmda) (x a : Fin p → ℂ)
    (ha : Spec.IsProx (fun u => lmda * g u) x a) :
    Spec.moreau g lmda x = g a + Spec.distSq a x / (2 * lmda) ∧
      ∀ u, g a + Spec.distSq a x / (2 * lmda) ≤ g u + Spec.distSq u x / (2 * lmda) := by
  have key : ∀ u, g a + Spec.distSq a x / (2 * lmda) ≤ g u + Spec.distSq u x / (2 * lmda) := by
    intro u
    by_cases h : u = a
    · rw [h]
    · have h1 := (ha u h).le
      simp only at h1
      have e : ∀ v, g v + Spec.distSq v x / (2 * lmda) = (Spec.distSq v x / 2 + lmda * g v) / lmda := by
        intro v
        field_simp
        ring
      rw [e, e]
      exact div_le_div_of_nonneg_right h1 hl.le
  refine ⟨le_antisymm (ciInf_le ⟨g a + Spec.distSq a x / (2 * lmda), ?_⟩ a) (le_ciInf key), key⟩
  rintro _ ⟨u, rfl⟩
  exact key u

/-- The envelope is convex and smooth, with gradient `(x - prox x)/lmda`. -/
theorem moreau_bounds (g : (Fin p → ℂ) → ℝ) (hg : ConvexOn ℝ Set.univ g) (lmda : ℝ) (hl : 0 < lmda)
    (x y a b : Fin p → ℂ) (ha : Spec.IsProx (fun u => lmda * g u) x a) (hb : Spec.IsProx (fun u => lmda * g u) y b) :
    rip (x - a) (y - x) / lmda ≤ Spec.moreau g lmda y - Spec.moreau g lmda x ∧
    Spec.moreau g lmda y - Spec.moreau g lmda x ≤ rip (x - a) (y - x) / lmda + Spec.distSq y x / (2 * lmda) := by
  obtain ⟨ex, -⟩ := moreau_eq g lmda hl x a ha
  obtain ⟨ey, hy⟩ := moreau_eq g lmda hl y b hb
  have hgl : ConvexOn ℝ Set.univ (fun u => lmda * g u) := by
    have := hg.smul hl.le
    simpa [Pi.smul_def] using this
  rw [ex, ey]
  constructor
  · have h := prox_half _ hgl x a b ha
    have e : rip (x - a) (y - x) ≤ rip (x - a) (b - a) + (Spec.distSq b y - Spec.distSq a x) / 2 := by
      have h0 := rip_self_nonneg ((y - b) - (x - a))
      have : rip (x - a) (b - a) + (Spec.distSq b y - Spec.distSq a x) / 2 - rip (x - a) (y - x) =
          rip ((y - b) - (x - a)) ((y - b) - (x - a)) / 2 := by
        rw [distSq_rip, distSq_rip]
        unfold rip
        rw [← Finset.sum_sub_distrib, Finset.sum_div, Finset.sum_div, ← Finset.sum_add_distrib, ← Finset.sum_sub_distrib]
        exact Finset.sum_congr rfl fun i _ => by simp; ring
      linarith
    have e2 : rip (a - x) (b - a) = -rip (x - a) (b - a) := by
      unfold rip
      rw [← Finset.sum_neg_distrib]
      exact Finset.sum_congr rfl fun i _ => by simp; ring
    rw [e2] at h
    rw [div_le_iff₀ hl]
    have e3 : (g b + Spec.distSq b y / (2 * lmda) - (g a + Spec.distSq a x / (2 * lmda))) * lmda =
        lmda * g b - lmda * g a + (Spec.distSq b y - Spec.distSq a x) / 2 := by
      field_simp
      ring
    rw [e3]
    linarith
  · have h := hy a
    have e : Spec.distSq a y = Spec.distSq a x + 2 * rip (x - a) (y - x) + Spec.distSq y x := by
      rw [distSq_rip, distSq_rip, distSq_rip]
      unfold rip
      rw [Finset.mul_sum, ← Finset.sum_add_distrib, ← Finset.sum_add_distrib]
      exact Finset.sum_congr rfl fun i _ => by simp; ring
    rw [e] at h
    have e3 : g a + (Spec.distSq a x + 2 * rip (x - a) (y - x) + Spec.distSq y x) / (2 * lmda) =
        g a + Spec.distSq a x / (2 * lmda) + rip (x - a) (y - x) / lmda + Spec.distSq y x / (2 * lmda) := by
      field_simp
      ring
    linarith

/-- A function with a two-sided quadratic bound is differentiable along lines. -/
theorem hasDerivAt_of_quadratic_bound (f : ℝ → ℝ) (d c : ℝ) (h : ∀ t, |f t - f 0 - t * d| ≤ c * t ^ 2) :
    HasDerivAt f d 0 := by
  rw [hasDerivAt_iff_isLittleO_nhds_zero]
  have hO : (fun t => f (0 + t) - f 0 - t • d) =O[nhds 0] fun t : ℝ => t ^ 2 := by
    refine Asymptotics.IsBigO.of_bound c (Filter.Eventually.of_forall fun t => ?_)
    rw [zero_add, Real.norm_eq_abs, Real.norm_eq_abs, abs_of_nonneg (sq_nonneg t), smul_eq_mul]
    exact h t
  exact hO.trans_isLittleO (by
    have := Asymptotics.isLittleO_pow_id (𝕜 := ℝ) (n := 2) (by norm_num)
    simpa using this)

theorem distSq_line (x v : Fin p → ℂ) (t : ℝ) : Spec.distSq (x + (t : ℂ) • v) x = t ^ 2 * Spec.distSq v 0 := by
  unfold Spec.distSq
  rw [Finset.mul_sum]
  refine Finset.sum_congr rfl fun i _ => ?_
  simp [mul_pow]

theorem rip_line (g x v : Fin p → ℂ) (t : ℝ) : rip g (x + (t : ℂ) • v - x) = t * rip g v := by
  unfold rip
  rw [Finset.mul_sum]
  exact Finset.sum_congr rfl fun i _ => by simp; ring

/-- C80: let `proxf` be the proximal map of `lmda*mu` times the (convex) prior, as C07 and C10 show for thresholds
`T = lmda*mu`.  Then the vector `(X - proxf(X))/lmda` that all samplers use for the prior is the gradient, at every `X`, of
the Moreau envelope of `mu*prior`: the envelope lies above its tangent and at most `‖Y - X‖²/(2 lmda)` above it. -/
theorem C80_envelope_gradient (P : PriorObj) (lmda mu : ℝ) (hl : 0 < lmda) (hmu : 0 ≤ mu) (pri : (Fin p → ℂ) → ℝ)
    (hconv : ConvexOn ℝ Set.univ pri) (_hpri : ∀ x, P.prior (List.ofFn x) = .ok (pri x))
    (hprox : ∀ x : Fin p → ℂ, ∃ a, P.proxf (List.ofFn x) = .ok (List.ofFn a) ∧
      Spec.IsProx (fun u => lmda * mu * pri u) x a) (X : Fin p → ℂ) :
    ∃ g : Fin p → ℂ, gradf P lmda (List.ofFn X) = .ok (List.ofFn g) ∧
      (∀ Y, 0 ≤ Spec.moreau (fun u => mu * pri u) lmda Y - Spec.moreau (fun u => mu * pri u) lmda X
          - (Spec.inner g (Y - X)).re ∧
        Spec.moreau (fun u => mu * pri u) lmda Y - Spec.moreau (fun u => mu * pri u) lmda X
          - (Spec.inner g (Y - X)).re ≤ Spec.distSq Y X / (2 * lmda)) ∧
      ∀ V : Fin p → ℂ, HasDerivAt (fun t : ℝ => Spec.moreau (fun u => mu * pri u) lmda (X + (t : ℂ) • V))
        (Spec.inner g V).re 0 := by
  have hprox' : ∀ x : Fin p → ℂ, ∃ a, P.proxf (List.ofFn x) = .ok (List.ofFn a) ∧
      Spec.IsProx (fun u => lmda * (mu * pri u)) x a := by
    intro x
    obtain ⟨a, h1, h2⟩ := hprox x
    refine ⟨a, h1, ?_⟩
    simpa only [mul_assoc] using h2
  have hg : ConvexOn ℝ Set.univ (fun u => mu * pri u) := by
    have := hconv.smul hmu
    simpa [Pi.smul_def] using this
  obtain ⟨a, h1, h2⟩ := hprox' X
  have e : ∀ V, (Spec.inner (fun i => (X i - a i) / (lmda : ℂ)) V).re = rip (X - a) V / lmda := by
    intro V
    rw [← rip_eq_inner]
    have : (fun i => (X i - a i) / (lmda : ℂ)) = fun i => ((lmda⁻¹ : ℝ) : ℂ) * (X - a) i := by
      funext i
      rw [Pi.sub_apply, Complex.ofReal_inv]
      ring
    rw [this, rip_smul_left]
    ring
  have hb : ∀ Y, 0 ≤ Spec.moreau (fun u => mu * pri u) lmda Y - Spec.moreau (fun u => mu * pri u) lmda X
          - (Spec.inner (fun i => (X i - a i) / (lmda : ℂ)) (Y - X)).re ∧
        Spec.moreau (fun u => mu * pri u) lmda Y - Spec.moreau (fun u => mu * pri u) lmda X
          - (Spec.inner (fun i => (X i - a i) / (lmda : ℂ)) (Y - X)).re ≤ Spec.distSq Y X / (2 * lmda) := by
    intro Y
    obtain ⟨b, -, hb⟩ := hprox' Y
    obtain ⟨k1, k2⟩ := moreau_bounds _ hg lmda hl X Y a b h2 hb
    rw [e]
    constructor <;> linarith
  refine ⟨fun i => (X i - a i) / (lmda : ℂ), ?_, hb, fun V => ?_⟩
  · unfold gradf
    rw [h1]
    simp only [bind, Except.bind]
    rw [npSub_ofFn]
    simp only [map_ofFn']
  · refine hasDerivAt_of_quadratic_bound _ _ (Spec.distSq V 0 / (2 * lmda)) fun t => ?_
    obtain ⟨k1, k2⟩ := hb (X + (t : ℂ) • V)
    rw [← rip_eq_inner, rip_line] at k1 k2
    rw [distSq_line] at k2
    rw [← rip_eq_inner]
    have h0 : X + ((0 : ℝ) : ℂ) • V = X := by simp
    rw [h0, abs_le]
    have : Spec.distSq V 0 / (2 * lmda) * t ^ 2 = t ^ 2 * Spec.distSq V 0 / (2 * lmda) := by ring
    have hnn : 0 ≤ t ^ 2 * Spec.distSq V 0 / (2 * lmda) := le_trans k1 k2
    rw [this]
    constructor <;> linarith

/-- C80, closeness ("tuned to make proxf arbitrarily close to f"): the envelope of a weighted l1 norm with parameter `lmda`
lies below the norm by at most `lmda/2` times the sum of the squared weights. -/
theorem C80_close (w : Fin p → ℝ) (hw : ∀ i, 0 ≤ w i) (lmda : ℝ) (hl : 0 < lmda) (X : Fin p → ℂ) :
    0 ≤ Spec.wl1 w X - Spec.moreau (Spec.wl1 w) lmda X ∧
      Spec.wl1 w X - Spec.moreau (Spec.wl1 w) lmda X ≤ lmda / 2 * ∑ i, w i ^ 2 := by
  have hlow : ∀ u : Fin p → ℂ, Spec.wl1 w X - lmda / 2 * ∑ i, w i ^ 2 ≤ Spec.wl1 w u + Spec.distSq u X / (2 * lmda) := by
    intro u
    unfold Spec.wl1 Spec.distSq
    rw [Finset.mul_sum, ← Finset.sum_sub_distrib, Finset.sum_div, ← Finset.sum_add_distrib]
    refine Finset.sum_le_sum fun i _ => ?_
    have h1 : ‖X i‖ ≤ ‖u i‖ + ‖u i - X i‖ := by
      have := norm_sub_norm_le (X i) (u i)
      rw [norm_sub_rev] at this
      linarith
    have h2 : w i * ‖u i - X i‖ ≤ lmda / 2 * w i ^ 2 + ‖u i - X i‖ ^ 2 / (2 * lmda) := by
      have : lmda / 2 * w i ^ 2 + ‖u i - X i‖ ^ 2 / (2 * lmda) - w i * ‖u i - X i‖ =
          (lmda * w i - ‖u i - X i‖) ^ 2 / (2 * lmda) := by
        field_simp
        ring
      have h3 : 0 ≤ (lmda * w i - ‖u i - X i‖) ^ 2 / (2 * lmda) := by positivity
      linarith
    nlinarith [mul_le_mul_of_nonneg_left h1 (hw i)]
  have hup : Spec.moreau (Spec.wl1 w) lmda X ≤ Spec.wl1 w X := by
    refine (ciInf_le ⟨Spec.wl1 w X - lmda / 2 * ∑ i, w i ^ 2, ?_⟩ X).trans (by simp [Spec.distSq])
    rintro _ ⟨u, rfl⟩
    exact hlow u
  have := le_ciInf hlow
  unfold Spec.moreau at *
  constructor <;> linarith

/-- C80 for the `L1` prior in the synthesis setting with the threshold `lmda*mu` that the experiments use. -/
theorem C80_l1 (fwd adj : List ℂ → Py (List ℂ)) (lmda mu : ℝ) (hl : 0 < lmda) (hmu : 0 ≤ mu) :
    ∃ P : L1 ℂ, L1.init "synthesis" fwd adj (.scalar (lmda * mu)) = .ok P ∧ ∀ X : Fin p → ℂ,
      ∃ g : Fin p → ℂ, gradf P.toPrior lmda (List.ofFn X) = .ok (List.ofFn g) ∧
        (∀ V : Fin p → ℂ, HasDerivAt (fun t : ℝ => Spec.moreau (fun u => mu * P.prior (List.ofFn u)) lmda (X + (t : ℂ) • V))
          (Spec.inner g V).re 0) ∧
        |mu * P.prior (List.ofFn X) - Spec.moreau (fun u => mu * P.prior (List.ofFn u)) lmda X| ≤ lmda * mu ^ 2 * p / 2 := by
  refine ⟨⟨.synthesis, fwd, adj, .scalar (lmda * mu)⟩, rfl, fun X => ?_⟩
  set P : L1 ℂ := ⟨.synthesis, fwd, adj, .scalar (lmda * mu)⟩ with hP
  have epri : ∀ (c : ℝ) (u : Fin p → ℂ), c * P.prior (List.ofFn u) = Spec.wl1 (fun _ => c) u := by
    intro c u
    unfold L1.prior Spec.wl1
    rw [norm_sum_ofFn, Finset.mul_sum]
  have hconv : ConvexOn ℝ Set.univ fun u : Fin p → ℂ => P.prior (List.ofFn u) := by
    have h := wl1_convex (p := p) (fun _ => 1) (fun _ => zero_le_one)
    have e : (fun u : Fin p → ℂ => P.prior (List.ofFn u)) = Spec.wl1 fun _ => 1 := by
      funext u
      rw [← epri, one_mul]
    rwa [e]
  obtain ⟨g, h1, -, h3⟩ := C80_envelope_gradient P.toPrior lmda mu hl hmu (fun u : Fin p → ℂ => P.prior (List.ofFn u)) hconv
    (fun _ => rfl) (fun x => by
      obtain ⟨P', a, e1, e2, e3⟩ := C07_synthesis_prox fwd adj (lmda * mu) (by positivity) x
      obtain rfl : P = P' := Except.ok.inj e1
      exact ⟨a, e2, e3⟩) X
  refine ⟨g, h1, h3, ?_⟩
  have e : (fun u : Fin p → ℂ => mu * P.prior (List.ofFn u)) = Spec.wl1 fun _ => mu := funext fun u => epri mu u
  obtain ⟨k1, k2⟩ := C80_close (fun _ : Fin p => mu) (fun _ => hmu) lmda hl X
  rw [e, epri, abs_of_nonneg k1]
  refine k2.trans (le_of_eq ?_)
  simp
  ring

example : (0 : ℝ) < 1e-6 ∧ (0 : ℝ) ≤ 1 := by norm_num

/-! ## C81: the drift of MYULA -/

/-- The smoothed negative log-posterior: half the weighted misfit plus the Moreau envelope of `mu` times the prior. -/
noncomputable def smoothed (σ : Fin n → ℝ) (d : Fin n → ℂ) (A : (Fin p → ℂ) →ₗ[ℂ] (Fin n → ℂ)) (pri : (Fin p → ℂ) → ℝ)
    (mu lmda : ℝ) (x : Fin p → ℂ) : ℝ :=
  misfit σ d (A x) / 2 + Spec.moreau (fun u => mu * pri u) lmda x

/-- The misfit is quadratic: exact expansion around `x`. -/
theorem misfit_expand (σ : Fin n → ℝ) (d : Fin n → ℂ) (A : (Fin p → ℂ) →ₗ[ℂ] (Fin n → ℂ)) (At : (Fin n → ℂ) → (Fin p → ℂ))
    (hadj : Spec.IsAdjointPair A At) (x y : Fin p → ℂ) :
    misfit σ d (A y) / 2 = misfit σ d (A x) / 2 +
      rip (At ((Matrix.diagonal fun i => ((1 / σ i ^ 2 : ℝ) : ℂ)).mulVec (A x - d))) (y - x) +
      misfit σ 0 (A (y - x)) / 2 := by
  rw [rip_eq_inner, ← hadj, ← rip_eq_inner, map_sub]
  unfold misfit rip
  rw [Finset.sum_div, Finset.sum_div, Finset.sum_div, ← Finset.sum_add_distrib, ← Finset.sum_add_distrib]
  refine Finset.sum_congr rfl fun i _ => ?_
  rw [Matrix.mulVec_diagonal, Complex.re_ofReal_mul, Complex.im_ofReal_mul]
  simp only [Complex.sq_norm, Complex.normSq_apply, Pi.sub_apply, Pi.zero_apply, Complex.sub_re, Complex.sub_im,
    Complex.zero_re, Complex.zero_im]
  ring

/-- C81: for real data, linear operators with correct adjoints and `proxf` the proximal map of `lmda*mu*prior` with a convex
prior, one MYULA step goes from `x` to `x - delta*G + sqrt(2 delta) w`, where `w` is the noise drawn and `G` is the gradient
of the smoothed negative log-posterior at `x`; the drift vanishes exactly at its minimisers; and, if
`misfit(A v) ≤ Lf*‖v‖²`, a step without noise lowers it by at least `delta*(1 - delta*(1/lmda + Lf)/2)*‖G‖²`. -/
theorem C81_drift (M : Sampler n) (R : Rng) (data : DataVec n) (hd : data.cplx = false) (sig : SigD) (σ : Fin n → ℝ)
    (hσ : IsSigma n sig σ) (s : String) (t m : Option OpPair) (np : Option ℕ)
    (hF : ForwardOp.init data sig s t m np = .ok M.F) (A : (Fin p → ℂ) →ₗ[ℂ] (Fin n → ℂ)) (At : (Fin n → ℂ) → (Fin p → ℂ))
    (hA : LinModel M.F A At) (hnp : M.nparams = p) (hl : 0 < M.par.lmda) (hmu : 0 ≤ M.par.mu) (pri : (Fin p → ℂ) → ℝ)
    (hconv : ConvexOn ℝ Set.univ pri) (hpri : ∀ x, M.P.prior (List.ofFn x) = .ok (pri x))
    (hprox : ∀ x : Fin p → ℂ, ∃ a, M.P.proxf (List.ofFn x) = .ok (List.ofFn a) ∧
      Spec.IsProx (fun u => M.par.lmda * M.par.mu * pri u) x a) (x : Fin p → ℂ) (r : R.σ) :
    ∃ (G w : Fin p → ℂ) (y : Fin p → ℂ) (r' : R.σ),
      noise R R.randn M.par.complex r p = (List.ofFn w, r') ∧
      myulaStep M R ⟨List.ofFn x, List.ofFn (A x), r⟩ = .ok ⟨List.ofFn y, List.ofFn (A y), r'⟩ ∧
      (∀ i, y i = x i - (M.par.delta : ℂ) * G i + ((√(2 * M.par.delta) : ℝ) : ℂ) * w i) ∧
      (∀ V : Fin p → ℂ, HasDerivAt (fun t : ℝ => smoothed σ data.vals A pri M.par.mu M.par.lmda (x + (t : ℂ) • V))
        (Spec.inner G V).re 0) ∧
      (G = 0 ↔ ∀ u, smoothed σ data.vals A pri M.par.mu M.par.lmda x ≤ smoothed σ data.vals A pri M.par.mu M.par.lmda u) ∧
      (∀ Lf, (∀ v, misfit σ 0 (A v) ≤ Lf * Spec.distSq v 0) → w = 0 →
        smoothed σ data.vals A pri M.par.mu M.par.lmda y ≤ smoothed σ data.vals A pri M.par.mu M.par.lmda x
          - M.par.delta * (1 - M.par.delta * (1 / M.par.lmda + Lf) / 2) * Spec.distSq G 0) := by
  obtain ⟨W, hW, -, rfl⟩ := C35_diagonal data hd sig σ hσ
  have hFd : M.F.data = data ∧ M.F.invcov = Matrix.diagonal fun i => ((1 / σ i ^ 2 : ℝ) : ℂ) := by
    unfold ForwardOp.init at hF
    rw [hW] at hF
    simp only [bind, Except.bind] at hF
    split at hF
    · cases hF
    · rw [← Except.ok.inj hF]
      exact ⟨rfl, rfl⟩
  choose prox hprox1 hprox2 using hprox
  have tot : Total M p A (fun y => At (M.F.invcov.mulVec (y - M.F.data.vals))) prox pri :=
    ⟨hnp, hA.fwd, hA.grad, hprox1, hpri, hl.ne'⟩
  have hstep := myulaStep_vec M R tot x r
  obtain ⟨G, hG⟩ : ∃ G : Fin p → ℂ, G = -gradVec M.par.lmda A (fun y => At (M.F.invcov.mulVec (y - M.F.data.vals))) prox x :=
    ⟨_, rfl⟩
  obtain ⟨y, hy⟩ : ∃ y : Fin p → ℂ, y = ulaStep M.par.delta (gradVec M.par.lmda A
    (fun y => At (M.F.invcov.mulVec (y - M.F.data.vals))) prox) x (drawVec R R.randn M.par.complex r p).1 := ⟨_, rfl⟩
  have hyG : ∀ i, y i = x i - (M.par.delta : ℂ) * G i +
      ((√(2 * M.par.delta) : ℝ) : ℂ) * (drawVec R R.randn M.par.complex r p).1 i := by
    intro i
    rw [hy, hG, ulaStep, Pi.neg_apply]
    ring
  have hconv' : ConvexOn ℝ Set.univ (fun u => M.par.mu * pri u) := by
    have := hconv.smul hmu
    simpa [Pi.smul_def] using this
  have hprox3 : ∀ u, Spec.IsProx (fun u => M.par.lmda * (M.par.mu * pri u)) u (prox u) := by
    intro u
    simpa only [mul_assoc] using hprox2 u
  have hGrip : ∀ v, rip G v = rip (x - prox x) v / M.par.lmda +
      rip (At ((Matrix.diagonal fun i => ((1 / σ i ^ 2 : ℝ) : ℂ)).mulVec (A x - data.vals))) v := by
    intro v
    have : G = (fun i => ((M.par.lmda⁻¹ : ℝ) : ℂ) * (x - prox x) i) +
        At ((Matrix.diagonal fun i => ((1 / σ i ^ 2 : ℝ) : ℂ)).mulVec (A x - data.vals)) := by
      funext i
      rw [hG, Pi.neg_apply, Pi.add_apply, gradVec, hFd.1, hFd.2, Pi.sub_apply, Complex.ofReal_inv]
      ring
    rw [this, rip_add_left, rip_smul_left]
    ring
  have hbd : ∀ u, rip G (u - x) ≤ smoothed σ data.vals A pri M.par.mu M.par.lmda u
        - smoothed σ data.vals A pri M.par.mu M.par.lmda x ∧
      smoothed σ data.vals A pri M.par.mu M.par.lmda u - smoothed σ data.vals A pri M.par.mu M.par.lmda x ≤
        rip G (u - x) + Spec.distSq u x / (2 * M.par.lmda) + misfit σ 0 (A (u - x)) / 2 := by
    intro u
    obtain ⟨k1, k2⟩ := moreau_bounds _ hconv' M.par.lmda hl x u _ _ (hprox3 x) (hprox3 u)
    have k3 := misfit_expand σ data.vals A At hA.adj x u
    have k4 := misfit_nonneg σ 0 (A (u - x))
    rw [hGrip]
    unfold smoothed
    constructor <;> linarith
  have hder : ∀ V : Fin p → ℂ, HasDerivAt (fun t : ℝ => smoothed σ data.vals A pri M.par.mu M.par.lmda (x + (t : ℂ) • V))
        (Spec.inner G V).re 0 := by
    intro V
    refine hasDerivAt_of_quadratic_bound _ _ (Spec.distSq V 0 / (2 * M.par.lmda) + misfit σ 0 (A V) / 2) fun t => ?_
    obtain ⟨k1, k2⟩ := hbd (x + (t : ℂ) • V)
    have e : misfit σ 0 (A (x + (t : ℂ) • V - x)) = t ^ 2 * misfit σ 0 (A V) := by
      rw [add_sub_cancel_left, map_smul]
      unfold misfit
      rw [Finset.mul_sum]
      refine Finset.sum_congr rfl fun i _ => ?_
      simp [mul_pow]
      ring
    rw [rip_line] at k1 k2
    rw [distSq_line, e] at k2
    rw [← rip_eq_inner]
    have h0 : x + ((0 : ℝ) : ℂ) • V = x := by simp
    rw [h0, abs_le]
    have : (Spec.distSq V 0 / (2 * M.par.lmda) + misfit σ 0 (A V) / 2) * t ^ 2 =
        t ^ 2 * Spec.distSq V 0 / (2 * M.par.lmda) + t ^ 2 * misfit σ 0 (A V) / 2 := by ring
    rw [this]
    constructor <;> linarith
  refine ⟨G, _, y, _, noise_eq R R.randn M.par.complex r p, ?_, hyG, hder, ?_, ?_⟩
  · rw [hstep, hy]
  · constructor
    · intro h u
      have := (hbd u).1
      have h0 : rip G (u - x) = 0 := by
        rw [h]
        simp [rip]
      linarith
    · intro hmin
      have hd := hder G
      have hm : IsLocalMin (fun t : ℝ => smoothed σ data.vals A pri M.par.mu M.par.lmda (x + (t : ℂ) • G)) 0 := by
        refine Filter.Eventually.of_forall fun t => ?_
        simp only [Complex.ofReal_zero, zero_smul, add_zero]
        exact hmin _
      have h0 := hm.hasDerivAt_eq_zero hd
      rw [← rip_eq_inner, rip_self] at h0
      unfold Spec.distSq at h0
      rw [Finset.sum_eq_zero_iff_of_nonneg fun i _ => sq_nonneg _] at h0
      funext i
      simpa using h0 i (Finset.mem_univ i)
  · intro Lf hLf hw
    have e : y - x = fun i => ((-M.par.delta : ℝ) : ℂ) * G i := by
      funext i
      rw [Pi.sub_apply, hyG i, hw]
      simp
    have k := (hbd y).2
    have k5 := hLf (y - x)
    have e1 : rip G (y - x) = -M.par.delta * Spec.distSq G 0 := by
      rw [e, rip_comm, rip_smul_left, rip_self]
    have e2 : Spec.distSq y x = M.par.delta ^ 2 * Spec.distSq G 0 := by
      rw [← rip_sub, e, rip_smul_left, rip_comm, rip_smul_left, rip_self]
      ring
    have e3 : Spec.distSq (y - x) 0 = Spec.distSq y x := by
      rw [← rip_self, rip_sub]
    rw [e3, e2] at k5
    rw [e1, e2] at k
    have : M.par.delta * (1 - M.par.delta * (1 / M.par.lmda + Lf) / 2) * Spec.distSq G 0 =
        M.par.delta * Spec.distSq G 0 - M.par.delta ^ 2 * Spec.distSq G 0 / (2 * M.par.lmda)
          - Lf * (M.par.delta ^ 2 * Spec.distSq G 0) / 2 := by
      field_simp
      ring
    linarith

/-- The hypotheses of C81 are met: one real pixel observed directly with unit noise, l1 prior, `lmda = 1`, `mu = 3`. -/
example : ∃ (M : Sampler 1) (A : (Fin 1 → ℂ) →ₗ[ℂ] (Fin 1 → ℂ)) (At : (Fin 1 → ℂ) → (Fin 1 → ℂ)) (pri : (Fin 1 → ℂ) → ℝ)
    (m : OpPair),
    ForwardOp.init (⟨false, fun _ => 1⟩ : DataVec 1) (.num ((1 : ℝ) : ℂ) false) "analysis" none (some m) (some 1) = .ok M.F ∧
    LinModel M.F A At ∧ M.nparams = 1 ∧ 0 < M.par.lmda ∧ 0 ≤ M.par.mu ∧ ConvexOn ℝ Set.univ pri ∧
    (∀ x, M.P.prior (List.ofFn x) = .ok (pri x)) ∧
    (∀ x : Fin 1 → ℂ, ∃ a, M.P.proxf (List.ofFn x) = .ok (List.ofFn a) ∧
      Spec.IsProx (fun u => M.par.lmda * M.par.mu * pri u) x a) ∧
    ∀ v, misfit (fun _ => 1) 0 (A v) ≤ 1 * Spec.distSq v 0 := by
  set W : Matrix (Fin 1) (Fin 1) ℂ := Matrix.diagonal fun _ => ((1 / (1 : ℝ) ^ 2 : ℝ) : ℂ) with hWdef
  obtain ⟨W', hW, -, e⟩ := C35_diagonal (⟨false, fun _ => 1⟩ : DataVec 1) rfl _ _ (IsSigma.scalar (n := 1) 1 one_pos)
  obtain rfl : W' = W := e
  have epri : ∀ (c : ℝ) (u : Fin 1 → ℂ), c * ∑ i, ‖u i‖ = Spec.wl1 (fun _ => c) u := by
    intro c u
    unfold Spec.wl1
    rw [Finset.mul_sum]
  refine ⟨⟨idOp false 1 W, (demoL1 3 ⟨1, 1, 3, 1, 4, 3, 2, true, 0, ["chain"]⟩).P,
    ⟨1, 1, 3, 1, 4, 3, 2, true, 0, ["chain"]⟩, 1⟩, LinearMap.id, fun y => y, fun u => ∑ i, ‖u i‖,
    ⟨identityForward 1 1, identityAdjoint 1 1⟩, ?_, linModel_analysis _ rfl _ _ (idOp_linear false 1 W), rfl, one_pos,
    by norm_num, ?_, fun x => ?_, fun x => ⟨fun i => softEntry (x i) 3, soft_scalar x 3, ?_⟩, fun v => ?_⟩
  · unfold ForwardOp.init
    rw [hW]
    rfl
  · have h := wl1_convex (p := 1) (fun _ => 1) fun _ => zero_le_one
    have e : (fun u : Fin 1 → ℂ => ∑ i, ‖u i‖) = Spec.wl1 fun _ => 1 := by
      funext u
      rw [← epri, one_mul]
    rwa [e]
  · show Except.ok _ = _
    rw [L1.prior, norm_sum_ofFn]
  · have e : (fun u : Fin 1 → ℂ => (1 : ℝ) * 3 * ∑ i, ‖u i‖) = Spec.wl1 fun _ => 3 := by
      funext u
      rw [← epri, one_mul]
    show Spec.IsProx (fun u : Fin 1 → ℂ => (1 : ℝ) * 3 * ∑ i, ‖u i‖) _ _
    rw [e]
    exact softEntry_isProx x (fun _ => 3) fun _ => by norm_num
  · simp [misfit, Spec.distSq]

/-! ## C82: the log-posterior is concave -/

/-- The misfit along a segment. -/
theorem misfit_segment (σ : Fin n → ℝ) (d a b : Fin n → ℂ) (s t : ℝ) (h : s + t = 1) :
    misfit σ d (s • a + t • b) = s * misfit σ d a + t * misfit σ d b - s * t * misfit σ a b := by
  unfold misfit
  rw [Finset.mul_sum, Finset.mul_sum, Finset.mul_sum, ← Finset.sum_add_distrib, ← Finset.sum_sub_distrib]
  refine Finset.sum_congr rfl fun i _ => ?_
  obtain rfl : s = 1 - t := by linarith
  simp only [Complex.sq_norm, Complex.normSq_apply, Pi.add_apply, Pi.smul_apply, Complex.sub_re, Complex.sub_im,
    Complex.add_re, Complex.add_im, Complex.real_smul, Complex.re_ofReal_mul, Complex.im_ofReal_mul]
  ring

/-- C82: for real data with standard deviations, linear operators with correct adjoints and a convex prior, the log-posterior
that `logpi` reports is a concave function of the parameters; it is strictly concave, so has at most one maximiser, if
the forward map is injective. -/
theorem C82_log_concave (data : DataVec n) (hd : data.cplx = false) (sig : SigD) (σ : Fin n → ℝ)
    (hσ : IsSigma n sig σ) (s : String) (t m : Option OpPair) (np : Option ℕ) (F : ForwardOp n)
    (hF : ForwardOp.init data sig s t m np = .ok F) (A : (Fin p → ℂ) →ₗ[ℂ] (Fin n → ℂ)) (At : (Fin n → ℂ) → (Fin p → ℂ))
    (hA : LinModel F A At) (P : PriorObj) (mu : ℝ) (hmu : 0 ≤ mu) (pri : (Fin p → ℂ) → ℝ) (hpos : ∀ x, 0 ≤ pri x)
    (hconv : ConvexOn ℝ Set.univ pri) (hpri : ∀ x, P.prior (List.ofFn x) = .ok (pri x)) :
    ∃ f : (Fin p → ℂ) → ℝ,
      (∀ x, ∃ preds L2 pr, F.forward (List.ofFn x) = .ok preds ∧ logpi F P mu (List.ofFn x) preds = .ok ((f x : ℂ), L2, pr)) ∧
      ConcaveOn ℝ Set.univ f ∧ (Function.Injective A → StrictConcaveOn ℝ Set.univ f) := by
  have hσ0 : ∀ i, 0 < σ i := by
    cases hσ with
    | scalar s hs => intro _; exact hs
    | vector s hs => exact hs
  have hmis : ∀ x y a b, a + b = 1 → misfit σ data.vals (A (a • x + b • y)) =
      a * misfit σ data.vals (A x) + b * misfit σ data.vals (A y) - a * b * misfit σ (A x) (A y) := by
    intro x y a b hab
    rw [map_add, LinearMap.map_smul_of_tower, LinearMap.map_smul_of_tower, misfit_segment _ _ _ _ _ _ hab]
  refine ⟨fun x => -mu * pri x - misfit σ data.vals (A x), fun x => ?_, ⟨convex_univ, ?_⟩, fun hinj => ⟨convex_univ, ?_⟩⟩
  · obtain ⟨lp, L2, h1, h2, h3, -⟩ := C36_logpi_real data hd sig σ hσ s t m np F hF P mu hmu (List.ofFn x) (pri x)
      (hpri x) (hpos x) (A x)
    refine ⟨List.ofFn (A x), (L2 : ℂ), pri x, hA.fwd x, ?_⟩
    rw [h1, h2, h3]
  · intro x _ y _ a b ha hb hab
    have k1 := hconv.2 (Set.mem_univ x) (Set.mem_univ y) ha hb hab
    have k2 := misfit_nonneg σ (A x) (A y)
    have k3 := mul_nonneg (mul_nonneg ha hb) k2
    have k4 := mul_le_mul_of_nonneg_left k1 hmu
    simp only [smul_eq_mul] at *
    rw [hmis x y a b hab]
    linarith
  · intro x _ y _ hxy a b ha hb hab
    have k1 := hconv.2 (Set.mem_univ x) (Set.mem_univ y) ha.le hb.le hab
    have k2 : 0 < misfit σ (A x) (A y) := by
      refine lt_of_le_of_ne (misfit_nonneg _ _ _) fun h => hxy ?_
      exact (hinj ((misfit_eq_zero σ hσ0 _ _).mp h.symm)).symm
    have k3 := mul_pos (mul_pos ha hb) k2
    have k4 := mul_le_mul_of_nonneg_left k1 hmu
    simp only [smul_eq_mul] at *
    rw [hmis x y a b hab]
    linarith

/-- The example after C81 meets the hypotheses of C82; there the l1 prior is non-negative and the forward map injective. -/
example : (∀ u : Fin 1 → ℂ, 0 ≤ ∑ i, ‖u i‖) ∧ Function.Injective (LinearMap.id : (Fin 1 → ℂ) →ₗ[ℂ] (Fin 1 → ℂ)) :=
  ⟨fun _ => Finset.sum_nonneg fun _ _ => norm_nonneg _, Function.injective_id⟩

end Pxmcmc
