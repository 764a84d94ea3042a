import Verif.Model.RoundedOps
import Verif.Props.Rounded
import Verif.Props.DenoiseLimit

/-! # Denoising in floating-point arithmetic -/

namespace Pxmcmc
open MeasureTheory ProbabilityTheory

variable {n p : ℕ}

/-- C163, one entry: soft thresholding in floating point is off by at most `(1+u)^4 - 1` times the modulus of its argument, although numbers near
the threshold may be cut where exact arithmetic keeps them and the other way round. -/
theorem C163_soft_entry (fl : Rounding) (u : ℝ) (h : RoundsWithin fl u) (x : ℂ) (t : ℝ) (ht : 0 ≤ t) :
    ‖softEntryFl fl x t - softEntry x t‖ ≤ ((1 + u) ^ 4 - 1) * ‖x‖ ∧ ‖softEntryFl fl x t‖ ≤ (1 + u) ^ 3 * ‖x‖ := by
  have hu := h.nonneg
  have hr := norm_nonneg x
  have ha := h.re ‖x‖
  rw [abs_of_nonneg hr, abs_le] at ha
  have hE1 : u ≤ (1 + u) ^ 4 - 1 := by nlinarith [pow_nonneg hu 2, pow_nonneg hu 3, pow_nonneg hu 4]
  unfold softEntryFl
  simp only
  split_ifs with hat
  · -- cut
    refine ⟨?_, by rw [norm_zero]; positivity⟩
    rw [zero_sub, norm_neg]
    have h1 : ‖softEntry x t‖ ≤ u * ‖x‖ := by
      unfold softEntry
      simp only
      split_ifs with hx
      · rw [norm_zero]; positivity
      · have hx0 : ‖x‖ ≠ 0 := fun e => hx (by rw [e]; exact ht)
        rw [norm_mul, signEntry, if_neg hx0, if_neg hx0, norm_div]
        simp only [RCLike.norm_ofReal, abs_norm]
        rw [div_self hx0, one_mul, abs_of_pos (by linarith)]
        linarith
    exact h1.trans (mul_le_mul_of_nonneg_right hE1 hr)
  · -- kept
    push Not at hat
    set a := fl.re ‖x‖ with hadef
    have ha0 : 0 < a := lt_of_le_of_lt ht hat
    have hr0 : 0 < ‖x‖ := by
      by_contra hc
      have : ‖x‖ = 0 := le_antisymm (not_lt.mp hc) hr
      rw [this] at ha
      linarith [ha.2]
    have haC : (a : ℂ) ≠ 0 := by exact_mod_cast ha0.ne'
    rw [signEntryFl, if_neg ha0.ne']
    -- the exact product of the rounded modulus
    set y : ℂ := x / (a : ℂ) * ((a - t : ℝ) : ℂ) with hy
    have hyn : ‖y‖ = ‖x‖ * ((a - t) / a) := by
      rw [hy, norm_mul, norm_div, Complex.norm_real, Complex.norm_real, Real.norm_of_nonneg ha0.le, Real.norm_of_nonneg (by linarith)]
      ring
    have hfrac : (a - t) / a ≤ 1 := by rw [div_le_one ha0]; linarith
    have hfrac0 : 0 ≤ (a - t) / a := div_nonneg (by linarith) ha0.le
    have hyle : ‖y‖ ≤ ‖x‖ := by rw [hyn]; nlinarith
    have h1 := h.cx (x / (a : ℂ))
    have h2 := h.re (a - t)
    rw [abs_of_nonneg (by linarith : 0 ≤ a - t)] at h2
    set s := fl.cx (x / (a : ℂ)) with hs
    set d := fl.re (a - t) with hd
    have hxa : ‖x / (a : ℂ)‖ = ‖x‖ / a := by rw [norm_div, Complex.norm_real, Real.norm_of_nonneg ha0.le]
    rw [hxa] at h1
    have hsn : ‖s‖ ≤ (1 + u) * (‖x‖ / a) := by
      have := norm_le_norm_add_norm_sub' s (x / (a : ℂ))
      rw [hxa] at this
      linarith
    have hm : ‖s * (d : ℂ) - y‖ ≤ ((1 + u) ^ 2 - 1) * ‖y‖ := by
      have e : s * (d : ℂ) - y = s * ((d - (a - t) : ℝ) : ℂ) + (s - x / (a : ℂ)) * ((a - t : ℝ) : ℂ) := by
        rw [hy]; push_cast; ring
      rw [e]
      refine (norm_add_le _ _).trans ?_
      rw [norm_mul, norm_mul, Complex.norm_real, Complex.norm_real, Real.norm_eq_abs, Real.norm_of_nonneg (by linarith : 0 ≤ a - t), hyn]
      have h3 := mul_le_mul hsn h2 (abs_nonneg _) (by positivity)
      have h4 := mul_le_mul_of_nonneg_right h1 (by linarith : 0 ≤ a - t)
      refine (add_le_add h3 h4).trans (le_of_eq ?_)
      ring
    have h5 := h.cx (s * (d : ℂ))
    have hsd : ‖s * (d : ℂ)‖ ≤ (1 + u) ^ 2 * ‖y‖ := by
      have := norm_le_norm_add_norm_sub' (s * (d : ℂ)) y
      linarith
    set v := fl.cx (s * (d : ℂ)) with hv
    have hvy : ‖v - y‖ ≤ ((1 + u) ^ 3 - 1) * ‖y‖ := by
      have e : v - y = (v - s * (d : ℂ)) + (s * (d : ℂ) - y) := by ring
      rw [e]
      refine (norm_add_le _ _).trans ?_
      have := mul_le_mul_of_nonneg_left hsd hu
      nlinarith [norm_nonneg y]
    have hE3 : 0 ≤ (1 + u) ^ 3 - 1 := sub_nonneg.mpr (one_le_pow₀ (by linarith))
    have hys : ‖y - softEntry x t‖ ≤ u * ‖x‖ := by
      unfold softEntry
      simp only
      split_ifs with hx
      · rw [sub_zero, hyn]
        have h6 : (a - t) / a ≤ u := by
          rw [div_le_iff₀ ha0]
          nlinarith [ha.2]
        nlinarith
      · push Not at hx
        have hxC : ((‖x‖ : ℝ) : ℂ) ≠ 0 := by exact_mod_cast hr0.ne'
        have e : y - signEntry x * ((‖x‖ - t : ℝ) : ℂ) = x * (((t * (a - ‖x‖) / (a * ‖x‖) : ℝ)) : ℂ) := by
          rw [hy, signEntry, if_neg hr0.ne', if_neg hr0.ne']
          push_cast
          have hC' : (RCLike.ofReal ‖x‖ : ℂ) = ((‖x‖ : ℝ) : ℂ) := rfl
          try rw [hC']
          field_simp
          ring
        erw [e]
        rw [norm_mul, Complex.norm_real, Real.norm_eq_abs, abs_div, abs_mul, abs_mul, abs_of_nonneg ht, abs_of_pos ha0, abs_of_pos hr0]
        have h7 : |a - ‖x‖| ≤ u * ‖x‖ := abs_le.mpr ha
        have h8 : ‖x‖ * (t * |a - ‖x‖| / (a * ‖x‖)) = t / a * |a - ‖x‖| := by field_simp
        rw [h8]
        have h9 : t / a ≤ 1 := by rw [div_le_one ha0]; exact hat.le
        have h10 : 0 ≤ t / a := by positivity
        nlinarith [abs_nonneg (a - ‖x‖)]
    constructor
    · have e : v - softEntry x t = (v - y) + (y - softEntry x t) := by ring
      rw [e]
      refine (norm_add_le _ _).trans ?_
      have h11 := mul_le_mul_of_nonneg_left hyle hE3
      have h12 : u ≤ u * (1 + u) ^ 3 := le_mul_of_one_le_right hu (one_le_pow₀ (by linarith))
      have h13 : ((1 + u) ^ 4 - 1) = ((1 + u) ^ 3 - 1) + u * (1 + u) ^ 3 := by ring
      rw [h13]
      nlinarith
    · have := norm_le_norm_add_norm_sub' v y
      have h11 := mul_le_mul_of_nonneg_left hyle hE3
      linarith

theorem signEntryFl_zero (fl : Rounding) (z : ℂ) : signEntryFl fl z 0 = 0 := if_pos rfl

/-- One entry of the proximal map in the analysis setting with identity handles: `X + (soft(X) - X)`. -/
noncomputable def softBackFl (fl : Rounding) (x : ℂ) (t : ℝ) : ℂ := fl.cx (x + fl.cx (softEntryFl fl x t - x))

theorem softBackFl_error (fl : Rounding) (u : ℝ) (h : RoundsWithin fl u) (x : ℂ) (t : ℝ) (ht : 0 ≤ t) :
    ‖softBackFl fl x t - softEntry x t‖ ≤ ((1 + u) ^ 7 - 1) * ‖x‖ := by
  have hu := h.nonneg
  have hr := norm_nonneg x
  obtain ⟨h1, h2⟩ := C163_soft_entry fl u h x t ht
  unfold softBackFl
  set s := softEntryFl fl x t
  have h3 := h.cx (s - x)
  set d := fl.cx (s - x)
  have h4 := h.cx (x + d)
  have h5 := norm_sub_le s x
  have h6 : ‖d - (s - x)‖ ≤ u * ((1 + u) ^ 3 * ‖x‖ + ‖x‖) := h3.trans (mul_le_mul_of_nonneg_left (by linarith) hu)
  have h7 : ‖x + d‖ ≤ (1 + u) ^ 3 * ‖x‖ + u * ((1 + u) ^ 3 * ‖x‖ + ‖x‖) := by
    have := norm_add_le s (d - (s - x))
    rw [show s + (d - (s - x)) = x + d by ring] at this
    linarith
  have h8 := mul_le_mul_of_nonneg_left h7 hu
  have e : fl.cx (x + d) - softEntry x t = (fl.cx (x + d) - (x + d)) + ((d - (s - x)) + (s - softEntry x t)) := by ring
  rw [e]
  refine (norm_add_le _ _).trans ((add_le_add (h4.trans h8) ((norm_add_le _ _).trans (add_le_add h6 h1))).trans ?_)
  have h9 : (u * ((1 + u) ^ 3 + u * ((1 + u) ^ 3 + 1)) + (u * ((1 + u) ^ 3 + 1) + ((1 + u) ^ 4 - 1))) ≤ (1 + u) ^ 7 - 1 := by
    have e2 : (1 + u) ^ 7 - 1 - (u * ((1 + u) ^ 3 + u * ((1 + u) ^ 3 + 1)) + (u * ((1 + u) ^ 3 + 1) + ((1 + u) ^ 4 - 1))) =
        7 * u ^ 2 + 22 * u ^ 3 + 29 * u ^ 4 + 20 * u ^ 5 + 7 * u ^ 6 + u ^ 7 := by ring
    have : 0 ≤ 7 * u ^ 2 + 22 * u ^ 3 + 29 * u ^ 4 + 20 * u ^ 5 + 7 * u ^ 6 + u ^ 7 := by positivity
    linarith
  have h10 := mul_le_mul_of_nonneg_right h9 hr
  linarith

/-! ## Vectors -/

theorem dist_le_of_entries {E : ℝ} (hE : 0 ≤ E) {a b v : Fin p → ℂ} (h : ∀ i, ‖b i - a i‖ ≤ E * ‖v i‖) :
    √(Spec.distSq a b) ≤ E * √(Spec.distSq v 0) := by
  simp only [← enorm2_eq_sqrt, sub_zero]
  have h1 : enorm2 (a - b) ≤ enorm2 (fun i => (E : ℂ) * v i) := enorm2_entries fun i => by
    rw [Pi.sub_apply, norm_sub_rev, norm_mul, Complex.norm_real, Real.norm_of_nonneg hE]
    exact h i
  rwa [enorm2_smul, abs_of_nonneg hE] at h1

theorem softFl_scalar (fl : Rounding) (x : Fin p → ℂ) (t : ℝ) :
    softFl fl (List.ofFn x) (.scalar t) = .ok (List.ofFn fun i => softEntryFl fl (x i) t) := by
  unfold softFl Thresh.arr
  rw [bcast_singleton]
  show Except.ok _ = _
  simp [Function.comp_def]

theorem softFl_vector (fl : Rounding) (x : Fin p → ℂ) (t : Fin p → ℝ) :
    softFl fl (List.ofFn x) (.vector (List.ofFn t)) = .ok (List.ofFn fun i => softEntryFl fl (x i) (t i)) := by
  unfold softFl Thresh.arr bcast
  rw [if_pos (by simp)]
  show Except.ok _ = _
  congr 1
  refine List.ext_getElem (by simp) fun i h1 h2 => by simp

/-- C163, `soft` on arrays: with a threshold per entry the result in floating point differs from the exact one, in every entry, by at most
`(1+u)^4 - 1` times the modulus of the entry; so does the Euclidean distance. -/
theorem C163_soft (fl : Rounding) (u : ℝ) (h : RoundsWithin fl u) (x : Fin p → ℂ) (t : Fin p → ℝ) (ht : ∀ i, 0 ≤ t i) :
    ∃ s s' : Fin p → ℂ, soft (List.ofFn x) (.vector (List.ofFn t)) = .ok (List.ofFn s) ∧
      softFl fl (List.ofFn x) (.vector (List.ofFn t)) = .ok (List.ofFn s') ∧ (∀ i, ‖s' i - s i‖ ≤ ((1 + u) ^ 4 - 1) * ‖x i‖) ∧
      √(Spec.distSq s s') ≤ ((1 + u) ^ 4 - 1) * √(Spec.distSq x 0) := by
  have he := fun i => (C163_soft_entry fl u h (x i) (t i) (ht i)).1
  refine ⟨_, _, ?_, softFl_vector fl x t, he, dist_le_of_entries (sub_nonneg.mpr (one_le_pow₀ (by linarith [h.nonneg]))) he⟩
  unfold soft Thresh.arr bcast
  rw [if_pos (by simp)]
  show Except.ok _ = _
  congr 1
  refine List.ext_getElem (by simp) fun i h1 h2 => by simp

variable {M : Sampler n} {fwd : (Fin p → ℂ) → (Fin n → ℂ)} {grad grad' : (Fin n → ℂ) → (Fin p → ℂ)}
  {prox prox' : (Fin p → ℂ) → (Fin p → ℂ)} {pri g : (Fin p → ℂ) → ℝ} {Q : Matrix (Fin p) (Fin p) ℂ} {c Lf : ℝ}

theorem myulaStepOps_vec (fl : Rounding) (R : Rng) (h : Total M p fwd grad prox pri) {gf pf : List ℂ → Py (List ℂ)} (hgf : ActsAs gf grad')
    (hpf : ActsAs pf prox') (x : Fin p → ℂ) (r : R.σ) : myulaStepOps fl M R gf pf ⟨List.ofFn x, List.ofFn (fwd x), r⟩ =
      .ok ⟨List.ofFn (flStep fl M.par.delta M.par.lmda fwd grad' prox' x (drawVec R R.randn M.par.complex r p).1),
        List.ofFn (fwd (flStep fl M.par.delta M.par.lmda fwd grad' prox' x (drawVec R R.randn M.par.complex r p).1)),
        (drawVec R R.randn M.par.complex r p).2⟩ := by
  have hn := h.nparams
  subst hn
  unfold myulaStepOps
  have h1 := hgf (fwd x)
  have h2 := hpf x
  simp only [h1, h2, bind, Except.bind]
  unfold chainStepFl
  rw [noise_eq]
  simp only [pyDiv, if_neg h.lmda, bind, Except.bind, map_ofFn']
  rw [npAdd_ofFn]
  simp only [map_ofFn']
  rw [npSub_ofFn]
  simp only [map_ofFn']
  rw [npAdd_ofFn]
  simp only [map_ofFn']
  have e : (fun i => fl.cx (fl.cx (fl.cx (fl.cx (((fl.re (1 - fl.re (M.par.delta / M.par.lmda)) : ℝ) : ℂ) * x i) +
      fl.cx (((fl.re (M.par.delta / M.par.lmda) : ℝ) : ℂ) * prox' x i)) - fl.cx ((M.par.delta : ℂ) * grad' (fwd x) i)) +
      fl.cx (((fl.re (√(fl.re (2 * M.par.delta))) : ℝ) : ℂ) * (drawVec R R.randn M.par.complex r M.nparams).1 i))) =
      flStep fl M.par.delta M.par.lmda fwd grad' prox' x (drawVec R R.randn M.par.complex r M.nparams).1 := rfl
  simp only [e]
  rw [h.forward]

theorem myulaBodyOps_eq (fl : Rounding) (M : Sampler n) (R : Rng) (gf pf : List ℂ → Py (List ℂ)) (A0 : Arrays) :
    myulaBodyOps fl M R gf pf A0 = genBody M A0 (myulaStepOps fl M R gf pf) (myulaProg M A0) := by
  funext st
  unfold myulaBodyOps genBody
  simp only [myulaBook_eq]

/-- A run with all operations rounded returns after the same number of iterations, with these rows. -/
theorem ops_returns (fl : Rounding) (R : Rng) (tot : Total M p fwd grad prox pri) {gf pf : List ℂ → Py (List ℂ)} (hgf : ActsAs gf grad')
    (hpf : ActsAs pf prox') (A : Arrays) (hA : A.Shaped M.par.nsamples) (hv : CanPrint M A) (b gap : ℕ) (hb : M.par.nburn = b)
    (hg : M.par.ngap = gap) (r : R.σ) (x0 : Fin p → ℂ) (N : ℕ)
    (hN : N = if M.par.nsamples = 0 then 0 else b + (M.par.nsamples - 1) * max gap 1 + 1) :
    (∀ fuel < N, myulaRunOps fl M R gf pf A r (.array1 (List.ofFn x0)) fuel = .ok none) ∧
    ∃ st, (∀ fuel ≥ N, myulaRunOps fl M R gf pf A r (.array1 (List.ofFn x0)) fuel = .ok (some st)) ∧ st.i = N ∧
      A.applyAll st.ev = A.ofRows M.par.nsamples fun k => rowOf M fwd pri
        (fwState (flStep fl M.par.delta M.par.lmda fwd grad' prox') x0 (noiseSeq R M.par.complex p r) (b + k * max gap 1 + 1)) := by
  have hNn : N = numIter M.par.nsamples b (spacing M.par) := by rw [hN, spacing_nat _ gap hg]; rfl
  rw [hNn]
  have hrun := vec_run M A (myulaStepOps fl M R gf pf) (myulaProg M A) (myulaProg_noWrites M A) tot b hb hA
    (fwState (flStep fl M.par.delta M.par.lmda fwd grad' prox') x0 (noiseSeq R M.par.complex p r))
    (rngSeq R M.par.complex p r) (fun k => myulaStepOps_vec fl R tot hgf hpf _ _)
    (fun st hj hns => myulaProg_total M A hA hv st hj hns)
  obtain ⟨h1, st, h2, h3, h4⟩ := hrun
  have hstart := start_array R tot r x0
  constructor
  · intro fuel hf
    unfold myulaRunOps
    rw [hstart, myulaBodyOps_eq]
    simp only [bind, Except.bind]
    have := h1 fuel hf
    simp only [fwState, rngSeq] at this
    rw [this]
    rfl
  · refine ⟨{ st with ev := st.ev ++ [Event.done] }, ?_, h3, ?_⟩
    · intro fuel hf
      unfold myulaRunOps
      rw [hstart, myulaBodyOps_eq]
      simp only [bind, Except.bind]
      have := h2 fuel hf
      simp only [fwState, rngSeq] at this
      rw [this]
      rfl
    · rw [applyAll_append, h4, spacing_nat _ gap hg]
      rfl

/-- C163, random starts: a run that draws its start is the run from the array drawn and the random state after drawing it; so what is said about
starts given as arrays holds for it too. -/
theorem C163_random_start (fl : Rounding) (R : Rng) (tot : Total M p fwd grad prox pri) (gf pf : List ℂ → Py (List ℂ)) (A : Arrays) (r : R.σ) :
    ∃ (x0 : Fin p → ℂ) (r0 : R.σ), noise R R.laplace M.par.complex r p = (List.ofFn x0, r0) ∧ ∀ fuel,
      myulaRun M R A r .none fuel = myulaRun M R A r0 (.array1 (List.ofFn x0)) fuel ∧
      myulaRunOps fl M R gf pf A r .none fuel = myulaRunOps fl M R gf pf A r0 (.array1 (List.ofFn x0)) fuel := by
  refine ⟨_, _, noise_eq R R.laplace M.par.complex r p, fun fuel => ?_⟩
  have h1 : initialSample M R r .none = initialSample M R (drawVec R R.laplace M.par.complex r p).2
      (.array1 (List.ofFn (drawVec R R.laplace M.par.complex r p).1)) := by
    rw [start_array R tot]
    unfold initialSample startVector
    rw [tot.nparams, noise_eq]
    simp only [bind, Except.bind]
    rw [tot.forward]
  unfold myulaRun myulaRunOps
  rw [h1]
  exact ⟨rfl, rfl⟩

/-- The states of a chain whose operators have relative error `ε` and whose steps round with relative error `u`. -/
theorem ops_states (fl : Rounding) (u : ℝ) (hfl : RoundsWithin fl u) (h : Identifiable M fwd grad prox g Q c Lf) (x0 : Fin p → ℂ)
    (w : ℕ → Fin p → ℂ) (K : ℕ) (W ε E a β B : ℝ) (hε : 0 ≤ ε)
    (hgr : ∀ x, √(Spec.distSq (grad (fwd x)) (grad' (fwd x))) ≤ ε * √(Spec.distSq (grad (fwd x)) 0))
    (hpr : ∀ x, √(Spec.distSq (prox x) (prox' x)) ≤ ε * √(Spec.distSq x 0))
    (hW : ∀ j < K, √(Spec.distSq (w j) 0) ≤ W) (hE : E = (1 + u) ^ 6 * (1 + ε) - 1)
    (ha : a = 1 + 2 * (M.par.delta / M.par.lmda) + M.par.delta * Lf)
    (hβ : β = M.par.delta / M.par.lmda * √(Spec.distSq (prox 0) 0) + M.par.delta * √(Spec.distSq (grad (fwd 0)) 0) + √(2 * M.par.delta) * W)
    (hprec : 2 * E * a ≤ M.par.delta * c) (hB0 : √(Spec.distSq x0 0) ≤ B) (hB : 2 * (1 + E) * β ≤ M.par.delta * c * B) (hK : 0 < K) :
    √(Spec.distSq (fwState (ulaStep M.par.delta (gradVec M.par.lmda fwd grad prox)) x0 w K)
      (fwState (flStep fl M.par.delta M.par.lmda fwd grad' prox') x0 w K)) ≤ E * (a * B + β) / (M.par.delta * c) := by
  have hd := h.delta
  have hl := h.lmda
  have hc := h.pos
  have hq : 0 ≤ M.par.delta / M.par.lmda := div_nonneg hd.le hl.le
  have hL : 0 ≤ Lf := hc.le.trans h.le
  have hS := Real.sqrt_nonneg (2 * M.par.delta)
  set E6 := (1 + u) ^ 6 - 1 with hE6
  have hE60 : 0 ≤ E6 := sub_nonneg.mpr (one_le_pow₀ (by linarith [hfl.nonneg]))
  have hEE : E = E6 + ε + E6 * ε := by rw [hE, hE6]; ring
  have hE0 : 0 ≤ E := by rw [hEE]; positivity
  obtain ⟨hr0, hr1⟩ := h.rate
  have hW0 : 0 ≤ W := (Real.sqrt_nonneg _).trans (hW 0 hK)
  have ha0 : 0 ≤ a := by rw [ha]; positivity
  have hβ0 : 0 ≤ β := by rw [hβ]; positivity
  have hB00 : 0 ≤ B := (Real.sqrt_nonneg _).trans hB0
  set y := fwState (flStep fl M.par.delta M.par.lmda fwd grad' prox') x0 w with hydef
  have hsymm : ∀ v z : Fin p → ℂ, √(Spec.distSq v z) = √(Spec.distSq z v) := fun v z => by
    simp only [Spec.distSq, norm_sub_rev]
  have herr : ∀ (x : Fin p → ℂ) (j : ℕ), j < K → √(Spec.distSq (ulaStep M.par.delta (gradVec M.par.lmda fwd grad prox) x (w j))
      (flStep fl M.par.delta M.par.lmda fwd grad' prox' x (w j))) ≤ E * (a * √(Spec.distSq x 0) + β) := by
    intro x j hj
    refine (fl_step_total hfl hd.le hl _ _ _ x (w j) (hgr x) (hpr x) le_rfl).trans ?_
    have h1 := (dist_tri (prox x) (prox 0) 0).trans (add_le_add (prox_isProx_lipschitz g h.convex x 0 _ _ (h.prox x) (h.prox 0)) le_rfl)
    have h2 := (dist_tri (grad (fwd x)) (grad (fwd 0)) 0).trans (add_le_add (grad_lipschitz h x 0) le_rfl)
    have h3 := dist_tri (prox' x) (prox x) 0
    have h4 := dist_tri (grad' (fwd x)) (grad (fwd x)) 0
    rw [hsymm (prox' x) (prox x)] at h3
    rw [hsymm (grad' (fwd x)) (grad (fwd x))] at h4
    have h3' := h3.trans (add_le_add (hpr x) h1)
    have h4' := h4.trans (add_le_add (hgr x) le_rfl)
    have h5 := hW j hj
    have hX := Real.sqrt_nonneg (Spec.distSq x 0)
    have hG := Real.sqrt_nonneg (Spec.distSq (grad (fwd x)) 0)
    have hP0 := Real.sqrt_nonneg (Spec.distSq (prox 0) 0)
    rw [← hE6]
    generalize √(Spec.distSq x 0) = X at *
    generalize √(Spec.distSq (prox' x) 0) = P' at *
    generalize √(Spec.distSq (grad' (fwd x)) 0) = G' at *
    generalize √(Spec.distSq (grad (fwd x)) 0) = G at *
    generalize √(Spec.distSq (prox 0) 0) = P0 at *
    generalize √(Spec.distSq (grad (fwd 0)) 0) = G0 at *
    generalize √(Spec.distSq (w j) 0) = w' at *
    generalize √(2 * M.par.delta) = S at *
    have e1 : M.par.delta * (ε * G + ε * X / M.par.lmda) = M.par.delta * ε * G + M.par.delta / M.par.lmda * ε * X := by
      field_simp
    rw [e1]
    generalize M.par.delta / M.par.lmda = q at *
    have m1 : E6 * ((1 + q) * X + q * P' + M.par.delta * G' + S * w') ≤
        E6 * ((1 + q) * X + q * (ε * X + (X + P0)) + M.par.delta * (ε * G + G) + S * W) :=
      mul_le_mul_of_nonneg_left (add_le_add (add_le_add (add_le_add le_rfl (mul_le_mul_of_nonneg_left h3' hq))
        (mul_le_mul_of_nonneg_left h4' hd.le)) (mul_le_mul_of_nonneg_left h5 hS)) hE60
    have m2 : M.par.delta * E * G ≤ M.par.delta * E * (Lf * X + G0) := mul_le_mul_of_nonneg_left h2 (mul_nonneg hd.le hE0)
    have m3 : 0 ≤ (ε + E6 * ε) * ((1 + q) * X + q * P0 + S * W) := by positivity
    have e2 : E * (a * X + β) - (M.par.delta * ε * G + q * ε * X +
        E6 * ((1 + q) * X + q * (ε * X + (X + P0)) + M.par.delta * (ε * G + G) + S * W)) =
        (ε + E6 * ε) * ((1 + q) * X + q * P0 + S * W) + (M.par.delta * E * (Lf * X + G0) - M.par.delta * E * G) := by
      rw [ha, hβ, hEE]
      ring
    linarith
  have hbd : ∀ j ≤ K, √(Spec.distSq (y j) 0) ≤ B := by
    intro j
    induction j with
    | zero => exact fun _ => hB0
    | succ j ih =>
      intro hj
      have ih := ih (by omega)
      have h2 := herr (y j) j (by omega)
      have h3 := Real.sqrt_le_sqrt (strong_contract h (y j) 0 (w j))
      rw [Real.sqrt_mul (sq_nonneg _), Real.sqrt_sq hr0.le] at h3
      have h4 := ulaStep_zero (fwd := fwd) (grad := grad) (prox := prox) hd.le hl (w j)
      have h5 := mul_le_mul_of_nonneg_left (hW j (by omega)) hS
      have h6 := dist_tri (y (j + 1)) (ulaStep M.par.delta (gradVec M.par.lmda fwd grad prox) (y j) (w j)) 0
      have h7 := dist_tri (ulaStep M.par.delta (gradVec M.par.lmda fwd grad prox) (y j) (w j))
        (ulaStep M.par.delta (gradVec M.par.lmda fwd grad prox) 0 (w j)) 0
      rw [hsymm] at h2
      have h9 : (1 - M.par.delta * c + E * a) * √(Spec.distSq (y j) 0) ≤ (1 - M.par.delta * c + E * a) * B := by
        have : 0 ≤ E * a := mul_nonneg hE0 ha0
        exact mul_le_mul_of_nonneg_left ih (by linarith)
      have h11 := mul_le_mul_of_nonneg_right hprec hB00
      have h12 : y (j + 1) = flStep fl M.par.delta M.par.lmda fwd grad' prox' (y j) (w j) := rfl
      rw [← h12] at h2
      linarith
  have hfin := seq_diff (ulaStep M.par.delta (gradVec M.par.lmda fwd grad prox)) (fun x y => √(Spec.distSq x y)) (1 - M.par.delta * c)
    (E * (a * B + β)) hr0.le dist_tri
    (fun x y w => by
      have h2 := Real.sqrt_le_sqrt (strong_contract h x y w)
      rwa [Real.sqrt_mul (sq_nonneg _), Real.sqrt_sq hr0.le] at h2) x0 w y K
    (fun j hj => (herr (y j) j hj).trans (mul_le_mul_of_nonneg_left
      (add_le_add (mul_le_mul_of_nonneg_left (hbd j hj.le) ha0) le_rfl) hE0))
  have e0 : √(Spec.distSq x0 (y 0)) = 0 := by simp [hydef, fwState, Spec.distSq]
  simp only [e0, mul_zero, zero_add] at hfin
  refine hfin.trans ?_
  rw [geom_rate _ hr1, show 1 - (1 - M.par.delta * c) = M.par.delta * c by ring, ← mul_div_assoc]
  have hm0 : 0 ≤ E * (a * B + β) := by positivity
  refine div_le_div_of_nonneg_right ?_ (mul_pos hd hc).le
  exact mul_le_of_le_one_right hm0 (sub_le_self 1 (pow_nonneg hr0.le _))

/-! ## Denoising -/

theorem proxfFl_identity (fl : Rounding) (P : L1 ℂ) (hf : P.fwd = identityTransform.op) (ha : P.adj = identityTransform.adj) (t : ℝ)
    (hT : P.T = .scalar t) : ActsAs (P.proxfFl fl) fun (x : Fin n → ℂ) i =>
      match P.setting with | .synthesis => softEntryFl fl (x i) t | .analysis => softBackFl fl (x i) t := by
  obtain ⟨S, f, a, T⟩ := P
  obtain rfl : f = identityTransform.op := hf
  obtain rfl : a = identityTransform.adj := ha
  obtain rfl : T = .scalar t := hT
  intro x
  cases S with
  | synthesis => exact softFl_scalar fl x t
  | analysis =>
    simp only [L1.proxfFl, identityTransform, bind, Except.bind]
    rw [softFl_scalar]
    simp only
    rw [npSub_ofFn]
    simp only [map_ofFn']
    rw [npAdd_ofFn]
    simp only [map_ofFn']
    rfl

theorem calcGradgFl_identity (fl : Rounding) (F : ForwardOp n) (hm : F.measurement = some (identityMeasurement n n))
    (ht : F.transform = some identityTransform) (w : Fin n → ℝ) (hw : F.invcov = Matrix.diagonal fun i => ((w i : ℝ) : ℂ)) :
    ActsAs (F.calcGradgFl fl) fun (y : Fin n → ℂ) i => fl.cx ((w i : ℂ) * fl.cx (y i - F.data.vals i)) := by
  have hgr : ∀ y : Fin n → ℂ, F.gradgAnalysisFl fl (List.ofFn y) =
      .ok (List.ofFn fun i => fl.cx ((w i : ℂ) * fl.cx (y i - F.data.vals i))) := by
    intro y
    unfold ForwardOp.gradgAnalysisFl
    simp only [hm, attr, bind, Except.bind]
    rw [npSub_ofFn]
    simp only [map_ofFn']
    rw [matDot_ofFn]
    simp only [map_ofFn']
    rw [identity_acts.2]
    congr 2
    funext i
    rw [hw]
    show fl.cx ((Matrix.diagonal _).mulVec _ i) = _
    rw [Matrix.mulVec_diagonal]
  intro y
  unfold ForwardOp.calcGradgFl
  cases F.setting with
  | analysis => exact hgr y
  | synthesis =>
    simp only [ht, attr, bind, Except.bind]
    rw [hgr y]
    rfl

/-- `denoise_identifiable` with the constants given. -/
theorem denoise_identifiable_const (d : Fin n → ℂ) (σ : Fin n → ℝ) (t : ℝ) (ht : 0 ≤ t) (M : Sampler n) (hl : 0 < M.par.lmda)
    (hd : 0 < M.par.delta) (c Lf : ℝ) (hc : 0 < c) (hcL : c ≤ Lf) (h1 : ∀ i, c ≤ 1 / σ i ^ 2) (h2 : ∀ i, 1 / σ i ^ 2 ≤ Lf)
    (hstep : M.par.delta * (1 / M.par.lmda + Lf + c) ≤ 2) :
    Identifiable M (fun x => x) (fun y i => (y i - d i) / ((σ i ^ 2 : ℝ) : ℂ)) (fun x i => softEntry (x i) t)
      (Spec.wl1 fun _ => t) (Matrix.diagonal fun i => ((1 / σ i ^ 2 : ℝ) : ℂ)) c Lf := by
  have hform : ∀ v : Fin n → ℂ, (Spec.inner v ((Matrix.diagonal fun i => ((1 / σ i ^ 2 : ℝ) : ℂ)).mulVec v)).re =
      ∑ i, 1 / σ i ^ 2 * ‖v i‖ ^ 2 := by
    intro v
    rw [inner_diagonal, Complex.re_sum]
    exact Finset.sum_congr rfl fun i _ => by rw [← Complex.ofReal_mul, Complex.ofReal_re]
  have hdist : ∀ v : Fin n → ℂ, Spec.distSq v 0 = ∑ i, ‖v i‖ ^ 2 := fun v => by simp [Spec.distSq]
  refine ⟨wl1_convex _ fun _ => ht, fun x => softEntry_isProx x (fun _ => t) fun _ => ht, ?_, fun v => ?_,
    fun v => ?_, fun x y => ?_, hc, hcL, hl, hd, hstep⟩
  · rw [Matrix.IsHermitian, Matrix.diagonal_conjTranspose]
    congr 1
    funext i
    simp
  · rw [hform, hdist, Finset.mul_sum]
    exact Finset.sum_le_sum fun i _ => mul_le_mul_of_nonneg_right (h1 i) (sq_nonneg _)
  · rw [hform, hdist, Finset.mul_sum]
    exact Finset.sum_le_sum fun i _ => mul_le_mul_of_nonneg_right (h2 i) (sq_nonneg _)
  · funext i
    rw [Matrix.mulVec_diagonal]
    simp only [Pi.sub_apply]
    push_cast
    ring

/-- C163: the denoising set-up (identity transform and measurement, `L1` prior, either setting) from the constructor arguments, with every
operation of the data gradient, the thresholding and the step rounded with relative error `u`.  The exact run and the rounded run from the
same start and random state both return and fill the `chain`; and if the noise vectors drawn up to the `k`-th saved sample are bounded by
`W` and the precision is good enough, the two `k`-th saved samples differ by at most `E * (a*B + β) / (delta*c)`, which does not depend on
how long the runs are. -/
theorem C163_denoising (data : DataVec n) (hd : data.cplx = false) (sig : SigD) (σ : Fin n → ℝ) (hσ : IsSigma n sig σ)
    (s : String) (hs : s = "analysis" ∨ s = "synthesis") (t : ℝ) (ht : 0 ≤ t) (par : Params) (b gap : ℕ) (hb : par.nburn = b)
    (hg : par.ngap = gap) (hl : 0 < par.lmda) (hdel : 0 < par.delta) (c Lf : ℝ) (hc : 0 < c) (hcL : c ≤ Lf) (h1 : ∀ i, c ≤ 1 / σ i ^ 2)
    (h2 : ∀ i, 1 / σ i ^ 2 ≤ Lf) (hstep : par.delta * (1 / par.lmda + Lf + c) ≤ 2)
    (hv : par.verbosity ≤ 0 ∨ ("logposterior" ∈ par.track ∧ "L2" ∈ par.track ∧ "prior" ∈ par.track)) (htr : "chain" ∈ par.track)
    (fl : Rounding) (u : ℝ) (hfl : RoundsWithin fl u) (R : Rng) (r : R.σ) (x0 : Fin n → ℂ) :
    ∃ (F : ForwardOp n) (P : L1 ℂ) (M : Sampler n) (A : Arrays) (N : ℕ) (st st' : St R) (rows rows' : Fin par.nsamples → Fin n → ℂ),
      ForwardOp.init data sig s (some identityTransform) (some (identityMeasurement n n)) (some n) = .ok F ∧
      L1.init s identityTransform.op identityTransform.adj (.scalar t) = .ok P ∧
      samplerInit F P.toPrior par = .ok (M, A) ∧
      (∀ fuel ≥ N, myulaRun M R A r (.array1 (List.ofFn x0)) fuel = .ok (some st)) ∧
      (∀ fuel ≥ N, myulaRunOps fl M R (F.calcGradgFl fl) (P.proxfFl fl) A r (.array1 (List.ofFn x0)) fuel = .ok (some st')) ∧
      (A.applyAll st.ev).chain = some (List.ofFn fun k => List.ofFn (rows k)) ∧
      (A.applyAll st'.ev).chain = some (List.ofFn fun k => List.ofFn (rows' k)) ∧
      ∀ (k : Fin par.nsamples) (W E a β B : ℝ),
        (∀ j < b + k * max gap 1 + 1, √(Spec.distSq (noiseSeq R par.complex n r j) 0) ≤ W) → E = (1 + u) ^ 13 - 1 →
        a = 1 + 2 * (par.delta / par.lmda) + par.delta * Lf →
        β = par.delta * √(∑ i, (‖data.vals i‖ / σ i ^ 2) ^ 2) + √(2 * par.delta) * W →
        2 * E * a ≤ par.delta * c → √(∑ i, ‖x0 i‖ ^ 2) ≤ B → 2 * (1 + E) * β ≤ par.delta * c * B →
        √(Spec.distSq (rows k) (rows' k)) ≤ E * (a * B + β) / (par.delta * c) := by
  have hu := hfl.nonneg
  have h1u : 1 ≤ 1 + u := by linarith
  obtain ⟨F, P, hF, hP, hFd, hFi, hnp, tot⟩ := denoise_total data hd sig σ hσ s hs t
  have hFF : F.measurement = some (identityMeasurement n n) ∧ F.transform = some identityTransform := by
    unfold ForwardOp.init at hF
    obtain ⟨W, -, hF⟩ := bind_ok hF
    rcases hs with rfl | rfl <;> obtain rfl := Except.ok.inj hF <;> exact ⟨rfl, rfl⟩
  have hPP : P.fwd = identityTransform.op ∧ P.adj = identityTransform.adj ∧ P.T = .scalar t := by
    rcases hs with rfl | rfl <;> obtain rfl := Except.ok.inj hP <;> exact ⟨rfl, rfl, rfl⟩
  set M : Sampler n := ⟨F, P.toPrior, par, n⟩ with hM
  have tot : Total M n _ _ _ _ := tot par hl.ne'
  have hid := denoise_identifiable_const data.vals σ t ht M hl hdel c Lf hc hcL h1 h2 hstep
  have hgf := calcGradgFl_identity fl F hFF.1 hFF.2 _ hFi
  have hpf := proxfFl_identity (n := n) fl P hPP.1 hPP.2.1 t hPP.2.2
  obtain ⟨N, st, rows, hrun, hrows⟩ := myula_returns_rows R tot b gap hb hg hv htr r x0
  obtain ⟨-, st', hrun', -, hev⟩ := ops_returns fl R tot hgf hpf (initArrays M) (initArrays_shaped M)
    (hv.imp id fun h => by simp [initArrays, hM, h.1, h.2.1, h.2.2]) b gap hb hg r x0 _ rfl
  obtain ⟨l, hl'⟩ : ∃ l, (initArrays M).chain = some l := ⟨_, if_pos (e := (none : Option (List (List ℂ)))) htr⟩
  refine ⟨F, P, M, initArrays M, max N _, st, st', rows, _, hF, hP, by simp [samplerInit, hnp, hM],
    fun fuel hf => hrun fuel ((le_max_left _ _).trans hf), fun fuel hf => hrun' fuel ((le_max_right _ _).trans hf), hrows,
    (congrArg Arrays.chain hev).trans (ofRows_chain hl' _ _), ?_⟩
  intro k W E a β B hW hE ha hβ hprec hB0 hB
  rw [myula_chain_rows R tot _ (initArrays_shaped M) b gap hb hg r x0 N st (hrun N le_rfl) rows hrows k]
  refine (Real.sqrt_le_sqrt (distSq_store _ _ _)).trans ?_
  have hz : (fun i => softEntry ((0 : Fin n → ℂ) i) t) = (0 : Fin n → ℂ) := by
    funext i
    simp [softEntry, ht]
  have hg0 : √(Spec.distSq (fun i => ((0 : Fin n → ℂ) i - data.vals i) / ((σ i ^ 2 : ℝ) : ℂ)) 0) = √(∑ i, (‖data.vals i‖ / σ i ^ 2) ^ 2) := by
    congr 1
    unfold Spec.distSq
    refine Finset.sum_congr rfl fun i _ => ?_
    simp only [Pi.zero_apply, zero_sub, sub_zero, norm_div, norm_neg, Complex.norm_real]
    rw [Real.norm_of_nonneg (sq_nonneg _)]
  refine ops_states (ε := (1 + u) ^ 7 - 1) fl u hfl hid x0 _ (b + k * max gap 1 + 1) W E a β B
    (sub_nonneg.mpr (one_le_pow₀ h1u)) (fun x => ?_) (fun x => ?_) hW (by rw [hE]; ring) ha ?_ hprec ?_ hB (Nat.succ_pos _)
  · refine dist_le_of_entries (sub_nonneg.mpr (one_le_pow₀ h1u)) fun i => ?_
    have e : (x i - data.vals i) / ((σ i ^ 2 : ℝ) : ℂ) = ((1 / σ i ^ 2 : ℝ) : ℂ) * (x i - data.vals i) := by
      push_cast
      rw [one_div, div_eq_inv_mul]
    rw [hFd, e]
    refine err_mono hu (show 2 ≤ 7 by norm_num) (norm_nonneg _) (fl_cx hfl ?_ le_rfl)
    rw [← mul_sub, norm_mul, norm_mul, pow_one, add_sub_cancel_left]
    have := mul_le_mul_of_nonneg_left (hfl.cx (x i - data.vals i)) (norm_nonneg ((1 / σ i ^ 2 : ℝ) : ℂ))
    linarith
  · refine dist_le_of_entries (sub_nonneg.mpr (one_le_pow₀ h1u)) fun i => ?_
    cases P.setting with
    | synthesis => exact err_mono hu (show 4 ≤ 7 by norm_num) (norm_nonneg _) (C163_soft_entry fl u hfl _ t ht).1
    | analysis => exact softBackFl_error fl u hfl _ t ht
  · rw [hβ, hz, hg0]
    simp [Spec.distSq, hM]
  · simpa [Spec.distSq] using hB0

/-- Without rounding the operators are those of the exact model. -/
theorem C163_no_rounding (F : ForwardOp n) (P : L1 ℂ) (X : List ℂ) :
    F.calcGradgFl ⟨id, id⟩ X = F.calcGradg X ∧ P.proxfFl ⟨id, id⟩ X = P.proxf X := by
  have hg : ∀ Y, F.gradgAnalysisFl ⟨id, id⟩ Y = F.gradgAnalysis Y := fun Y => by
    simp [ForwardOp.gradgAnalysisFl, ForwardOp.gradgAnalysis]
  have he : ∀ (x : ℂ) (t : ℝ), softEntryFl ⟨id, id⟩ x t = softEntry x t := fun x t => by
    unfold softEntryFl softEntry signEntryFl signEntry
    simp only [id]
    split_ifs <;> simp
  have hs : ∀ Y T, softFl ⟨id, id⟩ Y T = soft Y T := fun Y T => by
    unfold softFl soft
    simp only [he]
  constructor
  · unfold ForwardOp.calcGradgFl ForwardOp.calcGradg
    simp only [hg]
    cases F.setting <;> rfl
  · unfold L1.proxfFl L1.proxf L1.proxfAnalysis L1.proxfSynthesis
    simp only [hs, List.map_id]
    cases P.setting with
    | synthesis => rfl
    | analysis =>
      have e : ∀ y : Py (List ℂ), (y >>= fun v => Except.ok v) = y := fun y => by cases y <;> rfl
      simp only [e]

/-- The error cannot be bounded by the size of the result instead: rounding can cut an entry that exact arithmetic keeps, and keep one that
exact arithmetic cuts. -/
theorem C163_switch (u : ℝ) (hu : 0 < u) (hu1 : u < 1) :
    (∃ (fl : Rounding) (x : ℂ) (t : ℝ), RoundsWithin fl u ∧ 0 ≤ t ∧ softEntry x t ≠ 0 ∧ softEntryFl fl x t = 0) ∧
    ∃ (fl : Rounding) (x : ℂ) (t : ℝ), RoundsWithin fl u ∧ 0 ≤ t ∧ softEntry x t = 0 ∧ softEntryFl fl x t ≠ 0 := by
  constructor
  · refine ⟨⟨fun x => (1 - u) * x, id⟩, 1, 1 - u, ⟨hu.le, fun x => ?_, fun z => ?_⟩, by linarith, ?_, ?_⟩
    · rw [show (1 - u) * x - x = -(u * x) by ring, abs_neg, abs_mul, abs_of_pos hu]
    · simp only [id, sub_self, norm_zero]
      positivity
    · have : ¬ (1 : ℝ) ≤ 1 - u := by linarith
      simp [softEntry, signEntry, hu.ne', this]
    · simp [softEntryFl]
  · have h1u : (1 + u : ℝ) ≠ 0 := by linarith
    refine ⟨⟨fun x => (1 + u) * x, id⟩, 1, 1, ⟨hu.le, fun x => ?_, fun z => ?_⟩, zero_le_one, ?_, ?_⟩
    · rw [show (1 + u) * x - x = u * x by ring, abs_mul, abs_of_pos hu]
    · simp only [id, sub_self, norm_zero]
      positivity
    · simp [softEntry]
    · have h2 : ¬ (1 + u) * ‖(1 : ℂ)‖ ≤ 1 := by simp [hu]
      simp only [softEntryFl, if_neg h2, signEntryFl, id]
      have h3 : (1 + u) * ‖(1 : ℂ)‖ ≠ 0 := by simpa using h1u
      rw [if_neg h3]
      refine mul_ne_zero (div_ne_zero one_ne_zero (by exact_mod_cast h3)) ?_
      have h4 : (1 + u) * ((1 + u) * ‖(1 : ℂ)‖ - 1) ≠ 0 := by simp [h1u, hu.ne']
      exact_mod_cast h4

/-! ## Normal noise -/

theorem gauss_exp_sq : Integrable (fun x : ℝ => Real.exp (1 / 4 * x ^ 2)) (gaussianReal 0 1) ∧
    ∫ x, Real.exp (1 / 4 * x ^ 2) ∂(gaussianReal 0 1) = √2 := by
  have e : ∀ x : ℝ, gaussianPDFReal 0 1 x * Real.exp (1 / 4 * x ^ 2) = (√(2 * Real.pi))⁻¹ * Real.exp (-(1 / 4) * x ^ 2) := by
    intro x
    rw [gaussianPDFReal, mul_assoc, ← Real.exp_add]
    simp
    left
    ring
  have hi : Integrable fun x : ℝ => gaussianPDFReal 0 1 x * Real.exp (1 / 4 * x ^ 2) := by
    simp only [e]
    exact (integrable_exp_neg_mul_sq (by norm_num)).const_mul _
  constructor
  · rw [gaussianReal_of_var_ne_zero _ one_ne_zero, integrable_withDensity_iff_integrable_smul' (measurable_gaussianPDF 0 1)
      (ae_of_all _ fun x => gaussianPDF_lt_top)]
    simpa only [toReal_gaussianPDF, smul_eq_mul] using hi
  · rw [integral_gaussianReal_eq_integral_smul one_ne_zero]
    simp only [smul_eq_mul, e]
    rw [integral_const_mul, integral_gaussian, ← Real.sqrt_inv, ← Real.sqrt_mul (by positivity)]
    congr 1
    field_simp
    norm_num

/-- The norm of a vector of independent standard normals. -/
theorem gauss_tail (W : ℝ) (hW : 0 ≤ W) :
    (Measure.pi fun _ : Fin n => gaussianReal 0 1).real {x | W < √(∑ i, x i ^ 2)} ≤ √2 ^ n * Real.exp (-(W ^ 2) / 4) := by
  have hint : Integrable (fun x : Fin n → ℝ => Real.exp (1 / 4 * ∑ i, x i ^ 2)) (Measure.pi fun _ : Fin n => gaussianReal 0 1) := by
    have := Integrable.fintype_prod (f := fun (_ : Fin n) (x : ℝ) => Real.exp (1 / 4 * x ^ 2)) (μ := fun _ : Fin n => gaussianReal 0 1)
      fun _ => gauss_exp_sq.1
    simpa only [← Real.exp_sum, ← Finset.mul_sum] using this
  have h1 := measure_ge_le_exp_mul_mgf (μ := Measure.pi fun _ : Fin n => gaussianReal 0 1) (X := fun x : Fin n → ℝ => ∑ i, x i ^ 2)
    (t := 1 / 4) (W ^ 2) (by norm_num) hint
  have h2 : mgf (fun x : Fin n → ℝ => ∑ i, x i ^ 2) (Measure.pi fun _ : Fin n => gaussianReal 0 1) (1 / 4) = √2 ^ n := by
    unfold mgf
    have := integral_fintype_prod_eq_prod (μ := fun _ : Fin n => gaussianReal 0 1) (fun (_ : Fin n) (x : ℝ) => Real.exp (1 / 4 * x ^ 2))
    simp only [← Real.exp_sum, ← Finset.mul_sum, gauss_exp_sq.2, Finset.prod_const, Finset.card_univ, Fintype.card_fin] at this
    exact this
  rw [h2] at h1
  refine (measureReal_mono fun x hx => ?_).trans (h1.trans (le_of_eq ?_))
  · show W ^ 2 ≤ ∑ i, x i ^ 2
    exact (Real.lt_sqrt hW).mp hx |>.le
  · rw [mul_comm]
    congr 2
    ring

/-- C163 with standard normal noise: however the arithmetic rounds, the probability that the `k`-th saved sample of the rounded run is further
than `E * (a*B + β) / (delta*c)` from that of the exact run is at most `K * 2^(n/2) * exp(-W²/4)`, where `K` is the number of iterations up to
that sample. -/
theorem C163_probability (data : DataVec n) (hd : data.cplx = false) (sig : SigD) (σ : Fin n → ℝ) (hσ : IsSigma n sig σ)
    (s : String) (hs : s = "analysis" ∨ s = "synthesis") (t : ℝ) (ht : 0 ≤ t) (par : Params) (b gap : ℕ) (hb : par.nburn = b)
    (hg : par.ngap = gap) (hreal : par.complex = false) (hl : 0 < par.lmda) (hdel : 0 < par.delta) (c Lf : ℝ) (hc : 0 < c) (hcL : c ≤ Lf)
    (h1 : ∀ i, c ≤ 1 / σ i ^ 2) (h2 : ∀ i, 1 / σ i ^ 2 ≤ Lf) (hstep : par.delta * (1 / par.lmda + Lf + c) ≤ 2)
    (hv : par.verbosity ≤ 0 ∨ ("logposterior" ∈ par.track ∧ "L2" ∈ par.track ∧ "prior" ∈ par.track)) (htr : "chain" ∈ par.track)
    (fl : Rounding) (u : ℝ) (hfl : RoundsWithin fl u) (R : Rng) {Ω : Type} [MeasurableSpace Ω] (μ : Measure Ω) [IsProbabilityMeasure μ]
    (r : Ω → R.σ) (hr : NormalStream R n μ r) (x0 : Fin n → ℂ) :
    ∃ (F : ForwardOp n) (P : L1 ℂ) (M : Sampler n) (A : Arrays) (N : Ω → ℕ) (st st' : Ω → St R)
      (rows rows' : Ω → Fin par.nsamples → Fin n → ℂ),
      ForwardOp.init data sig s (some identityTransform) (some (identityMeasurement n n)) (some n) = .ok F ∧
      L1.init s identityTransform.op identityTransform.adj (.scalar t) = .ok P ∧
      samplerInit F P.toPrior par = .ok (M, A) ∧
      (∀ ω, ∀ fuel ≥ N ω, myulaRun M R A (r ω) (.array1 (List.ofFn x0)) fuel = .ok (some (st ω))) ∧
      (∀ ω, ∀ fuel ≥ N ω, myulaRunOps fl M R (F.calcGradgFl fl) (P.proxfFl fl) A (r ω) (.array1 (List.ofFn x0)) fuel = .ok (some (st' ω))) ∧
      (∀ ω, (A.applyAll (st ω).ev).chain = some (List.ofFn fun k => List.ofFn (rows ω k))) ∧
      (∀ ω, (A.applyAll (st' ω).ev).chain = some (List.ofFn fun k => List.ofFn (rows' ω k))) ∧
      ∀ (k : Fin par.nsamples) (W E a β B : ℝ), 0 ≤ W → E = (1 + u) ^ 13 - 1 →
        a = 1 + 2 * (par.delta / par.lmda) + par.delta * Lf →
        β = par.delta * √(∑ i, (‖data.vals i‖ / σ i ^ 2) ^ 2) + √(2 * par.delta) * W →
        2 * E * a ≤ par.delta * c → √(∑ i, ‖x0 i‖ ^ 2) ≤ B → 2 * (1 + E) * β ≤ par.delta * c * B →
        μ.real {ω | E * (a * B + β) / (par.delta * c) < √(Spec.distSq (rows ω k) (rows' ω k))} ≤
          (b + k * max gap 1 + 1 : ℕ) * (√2 ^ n * Real.exp (-(W ^ 2) / 4)) := by
  have hall := fun ω => C163_denoising data hd sig σ hσ s hs t ht par b gap hb hg hl hdel c Lf hc hcL h1 h2 hstep hv htr fl u hfl R (r ω) x0
  have hne : Nonempty Ω := (μ.nonempty_of_neZero)
  obtain ⟨ω0⟩ := hne
  obtain ⟨F, P, M, A, -, -, -, -, -, hF, hP, hM, -⟩ := hall ω0
  have hall' : ∀ ω, ∃ (N : ℕ) (st st' : St R) (rows rows' : Fin par.nsamples → Fin n → ℂ),
      (∀ fuel ≥ N, myulaRun M R A (r ω) (.array1 (List.ofFn x0)) fuel = .ok (some st)) ∧
      (∀ fuel ≥ N, myulaRunOps fl M R (F.calcGradgFl fl) (P.proxfFl fl) A (r ω) (.array1 (List.ofFn x0)) fuel = .ok (some st')) ∧
      (A.applyAll st.ev).chain = some (List.ofFn fun k => List.ofFn (rows k)) ∧
      (A.applyAll st'.ev).chain = some (List.ofFn fun k => List.ofFn (rows' k)) ∧
      ∀ (k : Fin par.nsamples) (W E a β B : ℝ),
        (∀ j < b + k * max gap 1 + 1, √(Spec.distSq (noiseSeq R par.complex n (r ω) j) 0) ≤ W) → E = (1 + u) ^ 13 - 1 →
        a = 1 + 2 * (par.delta / par.lmda) + par.delta * Lf →
        β = par.delta * √(∑ i, (‖data.vals i‖ / σ i ^ 2) ^ 2) + √(2 * par.delta) * W →
        2 * E * a ≤ par.delta * c → √(∑ i, ‖x0 i‖ ^ 2) ≤ B → 2 * (1 + E) * β ≤ par.delta * c * B →
        √(Spec.distSq (rows k) (rows' k)) ≤ E * (a * B + β) / (par.delta * c) := by
    intro ω
    obtain ⟨F', P', M', A', N, st, st', rows, rows', hF', hP', hM', h⟩ := hall ω
    obtain rfl := Except.ok.inj (hF.symm.trans hF')
    obtain rfl := Except.ok.inj (hP.symm.trans hP')
    obtain ⟨rfl, rfl⟩ := Prod.mk.inj (Except.ok.inj (hM.symm.trans hM'))
    exact ⟨N, st, st', rows, rows', h⟩
  choose N st st' rows rows' hrun hrun' hrows hrows' hbound using hall'
  refine ⟨F, P, M, A, N, st, st', rows, rows', hF, hP, hM, hrun, hrun', hrows, hrows', ?_⟩
  intro k W E a β B hW hE ha hβ hprec hB0 hB
  set K := b + k * max gap 1 + 1 with hK
  set bad : ℕ → Set Ω := fun j => {ω | W < √(∑ i, ((R.randn (rngSeq R false n (r ω) j) n).1 i) ^ 2)} with hbad
  have hsub : {ω | E * (a * B + β) / (par.delta * c) < √(Spec.distSq (rows ω k) (rows' ω k))} ⊆ ⋃ j ∈ Finset.range K, bad j := by
    intro ω hω
    by_contra hnot
    refine absurd (hbound ω k W E a β B (fun j hj => ?_) hE ha hβ hprec hB0 hB) (not_le.mpr hω)
    by_contra hgt
    refine hnot (Set.mem_biUnion (Finset.mem_range.mpr hj) ?_)
    show W < _
    rw [not_le, hreal] at hgt
    have e : Spec.distSq (noiseSeq R false n (r ω) j) 0 = ∑ i, ((R.randn (rngSeq R false n (r ω) j) n).1 i) ^ 2 := by
      unfold Spec.distSq
      refine Finset.sum_congr rfl fun i _ => ?_
      show ‖(((R.randn (rngSeq R false n (r ω) j) n).1 i : ℝ) : ℂ) - 0‖ ^ 2 = _
      rw [sub_zero, Complex.norm_real, Real.norm_eq_abs, sq_abs]
    rwa [e] at hgt
  have hone : ∀ j, μ.real (bad j) ≤ √2 ^ n * Real.exp (-(W ^ 2) / 4) := by
    intro j
    refine le_trans (le_of_eq ?_) (gauss_tail (n := n) W hW)
    have hmeas : MeasurableSet {x : Fin n → ℝ | W < √(∑ i, x i ^ 2)} := measurableSet_lt measurable_const (by fun_prop)
    rw [← hr.law j, map_measureReal_apply (hr.meas j) hmeas]
    rfl
  refine (measureReal_mono hsub (measure_ne_top μ _)).trans ((measureReal_biUnion_finset_le _ _).trans ((Finset.sum_le_sum fun j _ => hone j).trans (le_of_eq ?_)))
  rw [Finset.sum_const, Finset.card_range, nsmul_eq_mul]

/-! ## The hypotheses are met -/

/-- Two pixels with data 3 and 4, threshold 2, noise of size below 3/2, relative errors of one part in a thousand in every operation, ten saved
samples after a burn-in of 3: the rounded samples are within 2 of the exact ones, in either setting. -/
example (s : String) (hs : s = "analysis" ∨ s = "synthesis") (fl : Rounding) (hfl : RoundsWithin fl (1 / 1000)) :
    ∃ (F : ForwardOp 2) (P : L1 ℂ) (M : Sampler 2) (A : Arrays) (N : ℕ) (st st' : St (constRng 1 0)) (rows rows' : Fin 10 → Fin 2 → ℂ),
      L1.init s identityTransform.op identityTransform.adj (.scalar 2) = .ok P ∧
      (myulaRun M (constRng 1 0) A () (.array1 (List.ofFn fun _ : Fin 2 => (2 : ℂ))) N = .ok (some st)) ∧
      myulaRunOps fl M (constRng 1 0) (F.calcGradgFl fl) (P.proxfFl fl) A () (.array1 (List.ofFn fun _ : Fin 2 => (2 : ℂ))) N = .ok (some st') ∧
      (A.applyAll st.ev).chain = some (List.ofFn fun k => List.ofFn (rows k)) ∧
      (A.applyAll st'.ev).chain = some (List.ofFn fun k => List.ofFn (rows' k)) ∧ ∀ k, √(Spec.distSq (rows k) (rows' k)) ≤ 2 := by
  obtain ⟨F, P, M, A, N, st, st', rows, rows', -, h2, -, h4, h5, h6, h7, h8⟩ := C163_denoising (n := 2) ⟨false, ![3, 4]⟩ rfl
    (.num ((1 : ℝ) : ℂ) false) (fun _ => 1) (.scalar 1 one_pos) s hs 2 (by norm_num)
    ⟨1, 1 / 2, 1, 1, 10, (3 : ℕ), (2 : ℕ), false, 0, ["chain"]⟩ 3 2 rfl rfl one_pos (by norm_num) 1 1 one_pos le_rfl (fun _ => by norm_num)
    (fun _ => by norm_num) (by norm_num) (.inl le_rfl) (by simp) fl (1 / 1000) hfl (constRng 1 0) () (fun _ => 2)
  refine ⟨F, P, M, A, N, st, st', rows, rows', h2, h4 N le_rfl, h5 N le_rfl, h6, h7, fun k => ?_⟩
  refine (h8 k (3 / 2) ((1 + 1 / 1000) ^ 13 - 1) (5 / 2) 4 17 (fun j _ => ?_) rfl (by norm_num) ?_ (by norm_num) ?_ (by norm_num)).trans
    (by norm_num)
  · have : noiseSeq (constRng 1 0) false 2 () j = fun _ => 1 := by
      funext i
      show ((1 : ℝ) : ℂ) = 1
      simp
    simp only [this]
    refine (Real.sqrt_le_left (by norm_num)).mpr ?_
    norm_num [Spec.distSq]
  · have : ∑ i : Fin 2, (‖(![3, 4] : Fin 2 → ℂ) i‖ / (1 : ℝ) ^ 2) ^ 2 = 5 ^ 2 := by
      simp [Fin.sum_univ_two]
      norm_num
    simp only [this]
    rw [Real.sqrt_sq (by norm_num)]
    norm_num
  · refine (Real.sqrt_le_left (by norm_num)).mpr ?_
    norm_num

/-- The same set-up in double precision with independent standard normals: with probability at least `1 - 44 * exp(-100)` the `k`-th of the ten saved
samples agrees with that of the exact run within `10^-12`. -/
example (s : String) (hs : s = "analysis" ∨ s = "synthesis") (fl : Rounding) (hfl : RoundsWithin fl (1 / 2 ^ 53)) :
    ∃ (F : ForwardOp 2) (P : L1 ℂ) (M : Sampler 2) (A : Arrays) (N : (ℕ → Fin 2 → ℝ) → ℕ) (st st' : (ℕ → Fin 2 → ℝ) → St (vecRng 2))
      (rows rows' : (ℕ → Fin 2 → ℝ) → Fin 10 → Fin 2 → ℂ),
      (∀ ω, myulaRun M (vecRng 2) A ω (.array1 (List.ofFn fun _ : Fin 2 => (2 : ℂ))) (N ω) = .ok (some (st ω))) ∧
      (∀ ω, myulaRunOps fl M (vecRng 2) (F.calcGradgFl fl) (P.proxfFl fl) A ω (.array1 (List.ofFn fun _ : Fin 2 => (2 : ℂ))) (N ω) =
        .ok (some (st' ω))) ∧
      (∀ ω, (A.applyAll (st ω).ev).chain = some (List.ofFn fun k => List.ofFn (rows ω k))) ∧
      (∀ ω, (A.applyAll (st' ω).ev).chain = some (List.ofFn fun k => List.ofFn (rows' ω k))) ∧
      ∀ k, (Measure.infinitePi fun _ : ℕ => Measure.pi fun _ : Fin 2 => gaussianReal 0 1).real
        {ω | 1 / 10 ^ 12 < √(Spec.distSq (rows ω k) (rows' ω k))} ≤ 44 * Real.exp (-100) := by
  obtain ⟨F, P, M, A, N, st, st', rows, rows', -, -, -, h4, h5, h6, h7, h8⟩ := C163_probability (n := 2) ⟨false, ![3, 4]⟩ rfl
    (.num ((1 : ℝ) : ℂ) false) (fun _ => 1) (.scalar 1 one_pos) s hs 2 (by norm_num)
    ⟨1, 1 / 2, 1, 1, 10, (3 : ℕ), (2 : ℕ), false, 0, ["chain"]⟩ 3 2 rfl rfl rfl one_pos (by norm_num) 1 1 one_pos le_rfl (fun _ => by norm_num)
    (fun _ => by norm_num) (by norm_num) (.inl le_rfl) (by simp) fl (1 / 2 ^ 53) hfl (vecRng 2)
    (Measure.infinitePi fun _ : ℕ => Measure.pi fun _ : Fin 2 => gaussianReal 0 1) (fun ω => ω) vecRng_normal (fun _ => 2)
  refine ⟨F, P, M, A, N, st, st', rows, rows', fun ω => h4 ω _ le_rfl, fun ω => h5 ω _ le_rfl, h6, h7, fun k => ?_⟩
  have hb := h8 k 20 ((1 + 1 / 2 ^ 53) ^ 13 - 1) (5 / 2) (45 / 2) 91 (by norm_num) rfl (by norm_num) ?_ (by norm_num) ?_ (by norm_num)
  · refine le_trans (measureReal_mono (fun ω hω => ?_) (measure_ne_top _ _)) (hb.trans ?_)
    · show (_ : ℝ) < _
      refine lt_of_le_of_lt ?_ (show 1 / 10 ^ 12 < √(Spec.distSq (rows ω k) (rows' ω k)) from hω)
      norm_num
    · have hk : ((3 + (k : ℕ) * max 2 1 + 1 : ℕ) : ℝ) ≤ 22 := by
        have := k.2
        have h9 : 3 + (k : ℕ) * max 2 1 + 1 ≤ 22 := by simp at this ⊢; omega
        exact_mod_cast h9
      have h10 : √2 ^ 2 = (2 : ℝ) := Real.sq_sqrt (by norm_num)
      rw [h10, show (-(20 : ℝ) ^ 2) / 4 = -100 by norm_num]
      nlinarith [Real.exp_pos (-100)]
  · have : ∑ i : Fin 2, (‖(![3, 4] : Fin 2 → ℂ) i‖ / (1 : ℝ) ^ 2) ^ 2 = 5 ^ 2 := by
      simp [Fin.sum_univ_two]
      norm_num
    simp only [this]
    rw [Real.sqrt_sq (by norm_num)]
    norm_num
  · refine (Real.sqrt_le_left (by norm_num)).mpr ?_
    norm_num

/-- Some arithmetic with rounding errors meets the hypothesis of the example above and of `C163_soft_entry`. -/
example : RoundsWithin (enlarge (1 / 1000)) (1 / 1000) ∧ softEntryFl (enlarge (1 / 1000)) 3 1 ≠ softEntry 3 1 := by
  refine ⟨enlarge_within _ (by norm_num), fun h => ?_⟩
  have h3 : ¬ (3 : ℝ) ≤ 1 := by norm_num
  simp [softEntryFl, softEntry, signEntryFl, signEntry, enlarge, h3] at h
  have h4 := congrArg Complex.re h
  norm_num at h4

end Pxmcmc
