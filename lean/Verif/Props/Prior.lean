import Verif.Model.Prior
import Verif.Lemmas.Arrays
import Verif.Props.Quadrature
import Verif.Props.Threshold
import Verif.Props.Areas
import Mathlib.LinearAlgebra.Matrix.ToLin

/-! # Properties C07–C12: priors (`pxmcmc/prior.py`) -/

namespace Pxmcmc
open RCLike

variable {𝕜 : Type} [RCLike 𝕜] {n m : ℕ}

/-! ## Helper lemmas -/

theorem isProx_unique {g : (Fin n → 𝕜) → ℝ} {x p q : Fin n → 𝕜} (hp : Spec.IsProx g x p)
    (hq : Spec.IsProx g x q) : p = q := by
  by_contra h
  have h1 := hp q (fun e => h e.symm)
  have h2 := hq p h
  exact lt_irrefl _ (h1.trans h2)

theorem npAdd_ofFn (x y : Fin n → 𝕜) : npAdd (List.ofFn x) (List.ofFn y) = .ok (List.ofFn fun i => x i + y i) := by
  unfold npAdd
  rw [bcast_eq _ _ (by simp), zip_ofFn]
  show Except.ok _ = _
  rw [map_ofFn']

theorem npSub_ofFn (x y : Fin n → 𝕜) : npSub (List.ofFn x) (List.ofFn y) = .ok (List.ofFn fun i => x i - y i) := by
  unfold npSub
  rw [bcast_eq _ _ (by simp), zip_ofFn]
  show Except.ok _ = _
  rw [map_ofFn']

theorem wmul_ofFn (w : Fin n → ℝ) (y : Fin n → 𝕜) :
    wmul (List.ofFn w) (List.ofFn y) = .ok (List.ofFn fun i => (w i : 𝕜) * y i) := by
  unfold wmul
  rw [bcast_eq _ _ (by simp), zip_ofFn]
  show Except.ok _ = _
  rw [map_ofFn']

theorem norm_sum_ofFn (x : Fin n → 𝕜) : ((List.ofFn x).map fun a => ‖a‖).sum = ∑ i, ‖x i‖ := by
  rw [map_ofFn', List.sum_ofFn]

/-! ## C07 -/

/-- C07: in the synthesis setting `proxf` is the proximal map of `T·prior`. -/
theorem C07_synthesis_prox (fwd adj : List 𝕜 → Py (List 𝕜)) (t : ℝ) (ht : 0 ≤ t) (X : Fin n → 𝕜) :
    ∃ (P : L1 𝕜) (p : Fin n → 𝕜), L1.init "synthesis" fwd adj (.scalar t) = .ok P ∧
      P.proxf (List.ofFn X) = .ok (List.ofFn p) ∧
      Spec.IsProx (fun u => t * P.prior (List.ofFn u)) X p := by
  refine ⟨⟨.synthesis, fwd, adj, .scalar t⟩, _, rfl, soft_scalar X t, ?_⟩
  have := softEntry_isProx X (fun _ => t) (fun _ => ht)
  have e : (fun u : Fin n → 𝕜 => t * L1.prior ⟨.synthesis, fwd, adj, .scalar t⟩ (List.ofFn u)) =
      Spec.wl1 (fun _ => t) := by
    funext u
    unfold L1.prior Spec.wl1
    rw [norm_sum_ofFn, Finset.mul_sum]
  rw [e]; exact this

omit [RCLike 𝕜] in
/-- C07: any other setting string than the two allowed ones fails. -/
theorem C07_setting_checked (s : String) (fwd adj : List 𝕜 → Py (List 𝕜)) (T : Thresh)
    (h1 : s ≠ "analysis") (h2 : s ≠ "synthesis") : L1.init s fwd adj T = .error .AssertionError := by
  simp [L1.init, Setting.parse, h1, h2]

example : (0 : ℝ) ≤ 3 ∧ "Synthesis" ≠ "analysis" ∧ "Synthesis" ≠ "synthesis" := by
  refine ⟨by norm_num, by decide, by decide⟩

/-! ## C08 -/

theorem inner_add_left' (x y z : Fin n → 𝕜) :
    Spec.inner (fun i => x i + y i) z = Spec.inner x z + Spec.inner y z := by
  unfold Spec.inner
  rw [← Finset.sum_add_distrib]
  apply Finset.sum_congr rfl
  intros; rw [map_add]; ring

theorem re_inner_self (x : Fin n → 𝕜) : re (Spec.inner x x) = ∑ i, ‖x i‖ ^ 2 := by
  unfold Spec.inner
  rw [map_sum]
  apply Finset.sum_congr rfl
  intro i _
  rw [RCLike.conj_mul]
  norm_cast

theorem distSq_eq_inner (u x : Fin n → 𝕜) : Spec.distSq u x = re (Spec.inner (u - x) (u - x)) := by
  rw [re_inner_self]; rfl

/-- Pythagoras for a co-isometry: `‖v‖² = ‖A v‖² + ‖v - A* A v‖²`. -/
theorem coisometry_norm (A : (Fin n → 𝕜) →ₗ[𝕜] (Fin m → 𝕜)) (F : (Fin m → 𝕜) →ₗ[𝕜] (Fin n → 𝕜))
    (hadj : Spec.IsAdjointPair A F) (hpar : ∀ c, A (F c) = c) (v : Fin n → 𝕜) :
    ∑ i, ‖v i‖ ^ 2 = ∑ i, ‖A v i‖ ^ 2 + ∑ i, ‖(v - F (A v)) i‖ ^ 2 := by
  have hsub : ∀ (a b c : Fin n → 𝕜), Spec.inner (a - b) c = Spec.inner a c - Spec.inner b c := by
    intro a b c
    unfold Spec.inner
    rw [← Finset.sum_sub_distrib]
    apply Finset.sum_congr rfl
    intros; rw [Pi.sub_apply, map_sub]; ring
  have hsub' : ∀ (a b c : Fin n → 𝕜), Spec.inner c (a - b) = Spec.inner c a - Spec.inner c b := by
    intro a b c
    unfold Spec.inner
    rw [← Finset.sum_sub_distrib]
    apply Finset.sum_congr rfl
    intros; rw [Pi.sub_apply]; ring
  have hconj : ∀ (a b : Fin n → 𝕜), Spec.inner a b = (starRingEnd 𝕜) (Spec.inner b a) := by
    intro a b
    unfold Spec.inner
    rw [map_sum]
    apply Finset.sum_congr rfl
    intros; rw [map_mul, RCLike.conj_conj]; ring
  rw [← re_inner_self, ← re_inner_self, ← re_inner_self, hsub, hsub', hsub']
  have e1 : Spec.inner (F (A v)) v = Spec.inner (A v) (A v) := (hadj v (A v)).symm
  have e2 : Spec.inner (F (A v)) (F (A v)) = Spec.inner (A v) (A v) := by
    rw [← hadj (F (A v)) (A v), hpar]
  have e3 : re (Spec.inner v (F (A v))) = re (Spec.inner (A v) (A v)) := by
    rw [hconj, RCLike.conj_re, e1]
  simp only [map_sub, e1, e2, e3]
  ring

/-- The prox of `T‖A·‖₁` for a co-isometry `A` with adjoint `F`. -/
theorem analysis_prox (A : (Fin n → 𝕜) →ₗ[𝕜] (Fin m → 𝕜)) (F : (Fin m → 𝕜) →ₗ[𝕜] (Fin n → 𝕜))
    (hadj : Spec.IsAdjointPair A F) (hpar : ∀ c, A (F c) = c) (T : Fin m → ℝ) (hT : ∀ i, 0 ≤ T i)
    (X : Fin n → 𝕜) :
    Spec.IsProx (fun u => ∑ i, T i * ‖A u i‖) X
      (X + F ((fun i => softEntry (A X i) (T i)) - A X)) := by
  set s : Fin m → 𝕜 := fun i => softEntry (A X i) (T i) with hs
  set p := X + F (s - A X) with hp
  have hAp : A p = s := by rw [hp, map_add, hpar]; abel
  have hprox := softEntry_isProx (A X) T hT
  have hd : ∀ u : Fin n → 𝕜, Spec.distSq u X =
      Spec.distSq (A u) (A X) + ∑ i, ‖((u - X) - F (A (u - X))) i‖ ^ 2 := by
    intro u
    have := coisometry_norm A F hadj hpar (u - X)
    have e : ∑ i, ‖A (u - X) i‖ ^ 2 = Spec.distSq (A u) (A X) := by rw [map_sub]; rfl
    rw [← e, ← this]
    rfl
  have hdp : Spec.distSq p X = Spec.distSq s (A X) := by
    rw [hd p, hAp]
    have : (p - X) - F (A (p - X)) = 0 := by
      have e : p - X = F (s - A X) := by rw [hp]; abel
      rw [e, hpar]; abel
    rw [this]; simp
  intro u hu
  rw [hdp, hd u]
  simp only [hAp]
  by_cases hAu : A u = s
  · have hne : (u - X) - F (A (u - X)) ≠ 0 := by
      intro h0
      apply hu
      rw [map_sub, hAu] at h0
      have : u = X + F (s - A X) := by
        have := sub_eq_zero.mp h0
        rw [← this]; abel
      rw [this]
    obtain ⟨j, hj⟩ := Function.ne_iff.mp hne
    have hpos : 0 < ∑ i, ‖((u - X) - F (A (u - X))) i‖ ^ 2 :=
      Finset.sum_pos' (fun i _ => sq_nonneg _)
        ⟨j, Finset.mem_univ j, pow_pos (norm_pos_iff.mpr (by simpa using hj)) 2⟩
    rw [hAu]
    linarith
  · have h1 := hprox (A u) hAu
    unfold Spec.wl1 at h1
    have h2 : 0 ≤ ∑ i, ‖((u - X) - F (A (u - X))) i‖ ^ 2 := Finset.sum_nonneg fun i _ => sq_nonneg _
    linarith

theorem proxfAnalysis_eq (P : L1 𝕜) (A : (Fin n → 𝕜) →ₗ[𝕜] (Fin m → 𝕜))
    (F : (Fin m → 𝕜) →ₗ[𝕜] (Fin n → 𝕜)) (hP : P.setting = .analysis)
    (hA : ∀ x, P.adj (List.ofFn x) = .ok (List.ofFn (A x)))
    (hF : ∀ c, P.fwd (List.ofFn c) = .ok (List.ofFn (F c))) (t : ℝ) (hT : P.T = .scalar t)
    (X : Fin n → 𝕜) :
    P.proxf (List.ofFn X) = .ok (List.ofFn (X + F ((fun i => softEntry (A X i) t) - A X))) := by
  unfold L1.proxf
  rw [hP]
  simp only [L1.proxfAnalysis, hA, hT, bind, Except.bind]
  rw [soft_scalar]
  simp only [npSub_ofFn, hF, npAdd_ofFn]
  rfl

/-- C08: for handles that act as linear maps `A = adj`, `F = fwd` with `F` the adjoint of `A` and
`A(F c) = c`, `proxf` in the analysis setting is the proximal map of `T‖adj(·)‖₁`. -/
theorem C08_analysis_prox (P : L1 𝕜) (A : (Fin n → 𝕜) →ₗ[𝕜] (Fin m → 𝕜))
    (F : (Fin m → 𝕜) →ₗ[𝕜] (Fin n → 𝕜)) (hP : P.setting = .analysis)
    (hA : ∀ x, P.adj (List.ofFn x) = .ok (List.ofFn (A x)))
    (hF : ∀ c, P.fwd (List.ofFn c) = .ok (List.ofFn (F c))) (t : ℝ) (hT : P.T = .scalar t) (ht : 0 ≤ t)
    (hadj : Spec.IsAdjointPair A F) (hpar : ∀ c, A (F c) = c) (X : Fin n → 𝕜) :
    ∃ p : Fin n → 𝕜, P.proxf (List.ofFn X) = .ok (List.ofFn p) ∧
      Spec.IsProx (fun u => t * ∑ i, ‖A u i‖) X p := by
  refine ⟨_, proxfAnalysis_eq P A F hP hA hF t hT X, ?_⟩
  have := analysis_prox A F hadj hpar (fun _ => t) (fun _ => ht) X
  simpa only [← Finset.mul_sum] using this

/-- C08: with identity handles the analysis prox is `soft(X, T)`. -/
theorem C08_identity_handles (P : L1 𝕜) (hP : P.setting = .analysis) (hA : ∀ x, P.adj x = .ok x)
    (hF : ∀ x, P.fwd x = .ok x) (t : ℝ) (hT : P.T = .scalar t) (X : Fin n → 𝕜) :
    P.proxf (List.ofFn X) = soft (List.ofFn X) (.scalar t) := by
  rw [proxfAnalysis_eq P LinearMap.id LinearMap.id hP (fun x => hA _) (fun x => hF _) t hT X, soft_scalar]
  congr 2
  funext i
  simp

/-- The 3-4-5 rotation of the plane. -/
noncomputable def rot : (Fin 2 → ℝ) →ₗ[ℝ] (Fin 2 → ℝ) :=
  Matrix.toLin' !![3 / 5, 4 / 5; -4 / 5, 3 / 5]
/-- Its inverse. -/
noncomputable def rotT : (Fin 2 → ℝ) →ₗ[ℝ] (Fin 2 → ℝ) :=
  Matrix.toLin' !![3 / 5, -4 / 5; 4 / 5, 3 / 5]

theorem rot_apply (x : Fin 2 → ℝ) : rot x = ![3 / 5 * x 0 + 4 / 5 * x 1, -4 / 5 * x 0 + 3 / 5 * x 1] := by
  funext i; fin_cases i <;> simp [rot, Matrix.toLin'_apply, Matrix.mulVec, dotProduct, Fin.sum_univ_two]
theorem rotT_apply (x : Fin 2 → ℝ) : rotT x = ![3 / 5 * x 0 + -4 / 5 * x 1, 4 / 5 * x 0 + 3 / 5 * x 1] := by
  funext i; fin_cases i <;> simp [rotT, Matrix.toLin'_apply, Matrix.mulVec, dotProduct, Fin.sum_univ_two]

theorem rot_adjoint : Spec.IsAdjointPair rot rotT := by
  intro x y
  simp only [Spec.inner, rot_apply, rotT_apply, Fin.sum_univ_two]
  simp
  ring

theorem rot_parseval (c : Fin 2 → ℝ) : rot (rotT c) = c := by
  rw [rot_apply, rotT_apply]
  funext i; fin_cases i <;> simp <;> ring

/-- An array handle acting as a linear map on arrays of length `n` (anything else raises). -/
noncomputable def handle (A : (Fin n → 𝕜) →ₗ[𝕜] (Fin m → 𝕜)) (l : List 𝕜) : Py (List 𝕜) :=
  if h : l.length = n then .ok (List.ofFn (A fun i => l[i])) else .error .ValueError

theorem handle_ofFn (A : (Fin n → 𝕜) →ₗ[𝕜] (Fin m → 𝕜)) (x : Fin n → 𝕜) :
    handle A (List.ofFn x) = .ok (List.ofFn (A x)) := by
  unfold handle
  rw [dif_pos (by simp)]
  congr 3
  funext i
  simp

/-- Hypotheses of C08 are met by a rotation of the plane (not the identity). -/
example : Spec.IsAdjointPair rot rotT ∧ (∀ c, rot (rotT c) = c) ∧
    (∀ x, handle rot (List.ofFn x) = .ok (List.ofFn (rot x))) ∧ rot ![1, 0] ≠ ![1, 0] := by
  refine ⟨rot_adjoint, rot_parseval, handle_ofFn rot, ?_⟩
  rw [rot_apply]
  intro h
  have := congrFun h 0
  norm_num at this

/-! ## C09 -/

/-- C09 is violated: in the analysis setting `proxf` is in general *not* the proximal map of `T·prior`, because
`prior` still is `sum|X|`; witness: a rotation of the plane (a Parseval transform). -/
theorem C09_analysis_prior_refuted :
    ¬ ∀ (P : L1 ℝ) (A F : (Fin 2 → ℝ) →ₗ[ℝ] (Fin 2 → ℝ)) (t : ℝ) (X p : Fin 2 → ℝ),
      P.setting = .analysis → (∀ x, P.adj (List.ofFn x) = .ok (List.ofFn (A x))) →
      (∀ c, P.fwd (List.ofFn c) = .ok (List.ofFn (F c))) → P.T = .scalar t → 0 ≤ t →
      Spec.IsAdjointPair A F → (∀ c, A (F c) = c) → P.proxf (List.ofFn X) = .ok (List.ofFn p) →
      Spec.IsProx (fun u => t * P.prior (List.ofFn u)) X p := by
  intro H
  set P : L1 ℝ := ⟨.analysis, handle rotT, handle rot, .scalar (7 / 10)⟩ with hPdef
  have hprox := proxfAnalysis_eq P rot rotT rfl (handle_ofFn rot) (handle_ofFn rotT) (7 / 10) rfl ![1, 0]
  have h1 := H P rot rotT (7 / 10) ![1, 0] _ rfl (handle_ofFn rot) (handle_ofFn rotT) rfl (by norm_num)
    rot_adjoint rot_parseval hprox
  have h2 := softEntry_isProx (𝕜 := ℝ) ![1, 0] (fun _ => 7 / 10) (fun _ => by norm_num)
  have e : (fun u : Fin 2 → ℝ => 7 / 10 * P.prior (List.ofFn u)) = Spec.wl1 (fun _ => 7 / 10) := by
    funext u
    unfold L1.prior Spec.wl1
    rw [norm_sum_ofFn, Finset.mul_sum]
  rw [e] at h1
  have h3 := congrFun (isProx_unique h1 h2) 1
  have s0 : softEntry (3 / 5 : ℝ) (7 / 10) = 0 := softEntry_of_le (by norm_num [abs_of_pos])
  have s1 : softEntry (-4 / 5 : ℝ) (7 / 10) = -1 / 10 := by
    rw [softEntry_of_lt (by norm_num [abs_of_neg]) (by norm_num)]
    norm_num [abs_of_neg]
  have s2 : softEntry (0 : ℝ) (7 / 10) = 0 := softEntry_zero_left _
  have r : rot ![1, 0] = ![3 / 5, -4 / 5] := by
    rw [rot_apply]; funext i; fin_cases i <;> simp
  rw [r, rotT_apply] at h3
  simp [s0, s1, s2] at h3
  norm_num at h3

/-- C09 (partial): for Parseval transforms that preserve the l1 norm, `proxf` is the proximal map of
`T·prior`.  Missing: general transforms, for which it is false. -/
theorem C09_analysis_prior_partial (P : L1 𝕜) (A : (Fin n → 𝕜) →ₗ[𝕜] (Fin m → 𝕜))
    (F : (Fin m → 𝕜) →ₗ[𝕜] (Fin n → 𝕜)) (hP : P.setting = .analysis)
    (hA : ∀ x, P.adj (List.ofFn x) = .ok (List.ofFn (A x)))
    (hF : ∀ c, P.fwd (List.ofFn c) = .ok (List.ofFn (F c))) (t : ℝ) (hT : P.T = .scalar t) (ht : 0 ≤ t)
    (hadj : Spec.IsAdjointPair A F) (hpar : ∀ c, A (F c) = c) (hl1 : ∀ u, ∑ i, ‖A u i‖ = ∑ i, ‖u i‖)
    (X : Fin n → 𝕜) :
    ∃ p : Fin n → 𝕜, P.proxf (List.ofFn X) = .ok (List.ofFn p) ∧
      Spec.IsProx (fun u => t * P.prior (List.ofFn u)) X p := by
  obtain ⟨p, h1, h2⟩ := C08_analysis_prox P A F hP hA hF t hT ht hadj hpar X
  refine ⟨p, h1, ?_⟩
  have e : (fun u : Fin n → 𝕜 => t * P.prior (List.ofFn u)) = fun u => t * ∑ i, ‖A u i‖ := by
    funext u; unfold L1.prior; rw [norm_sum_ofFn, hl1]
  rw [e]; exact h2

/-- The identity meets the hypotheses of the partial theorem. -/
example : Spec.IsAdjointPair (LinearMap.id : (Fin 2 → ℝ) →ₗ[ℝ] (Fin 2 → ℝ))
      (LinearMap.id : (Fin 2 → ℝ) →ₗ[ℝ] (Fin 2 → ℝ)) ∧
    ∀ u : Fin 2 → ℝ, ∑ i, ‖(LinearMap.id : (Fin 2 → ℝ) →ₗ[ℝ] (Fin 2 → ℝ)) u i‖ = ∑ i, ‖u i‖ :=
  ⟨fun _ _ => rfl, fun _ => rfl⟩

/-! ## C10 -/

theorem weights_pos (bls : List ℕ) (hb : ∀ b ∈ bls, 1 ≤ b) : ∀ w ∈ bls.flatMap mwMapWeights, 0 < w := by
  intro w hw
  obtain ⟨b, hb1, hb2⟩ := List.mem_flatMap.mp hw
  exact (C25_weights b (hb b hb1)).2.1 w hb2

theorem list_eq_ofFn {α : Type} (l : List α) : l = List.ofFn fun i : Fin l.length => l[i] := by
  apply List.ext_getElem <;> simp

theorem prior_ofFn (P : S2L1) (w : Fin n → ℝ) (hw : P.mapWeights = List.ofFn w) (u : Fin n → 𝕜) :
    P.prior (List.ofFn u) = .ok (∑ i, |w i| * ‖u i‖) := by
  unfold S2L1.prior
  rw [hw, wmul_ofFn]
  show Except.ok _ = _
  rw [norm_sum_ofFn]
  congr 1
  apply Finset.sum_congr rfl
  intro i _
  rw [norm_mul, norm_ofReal]

/-- C10: `S2_Wavelets_L1("synthesis", T, …)` succeeds for every list of bandlimits and float `T ≥ 0`, `prior` is a
weighted l1 norm with one positive weight per coefficient, and `proxf` is the proximal map of `T·prior`. -/
theorem C10_wavelet_prox (h : Heap ℝ) (bls : List ℕ) (hb : ∀ b ∈ bls, 1 ≤ b) (t : ℝ) (ht : 0 ≤ t)
    (fresh : ℕ) :
    ∃ h' P, S2L1.init h "synthesis" (.float t) bls fresh = .ok (h', P) ∧
      ∃ N, N = (bls.map fun b => b * (2 * b - 1)).sum ∧
      ∃ g : (Fin N → 𝕜) → ℝ, (∀ u, P.prior (List.ofFn u) = .ok (g u)) ∧ (∀ u, u ≠ 0 → 0 < g u) ∧
      ∀ X : Fin N → 𝕜, ∃ p, P.proxf h' (List.ofFn X) = .ok (List.ofFn p) ∧
        Spec.IsProx (fun u => t * g u) X p := by
  set w := bls.flatMap mwMapWeights with hw
  refine ⟨h.write fresh (w.map fun x => t * x), ⟨.arr fresh, w⟩, rfl, ?_⟩
  have hlen : w.length = (bls.map fun b => b * (2 * b - 1)).sum := by
    rw [hw, List.length_flatMap]
    congr 1
    exact List.map_congr_left fun b _ => mwMapWeights_length b
  refine ⟨w.length, hlen, fun u => ∑ i, |w[i]| * ‖u i‖, ?_, ?_, ?_⟩
  · intro u
    exact prior_ofFn ⟨.arr fresh, w⟩ (fun i : Fin w.length => w[i]) (list_eq_ofFn w) u
  · intro u hu
    obtain ⟨j, hj⟩ := Function.ne_iff.mp hu
    refine Finset.sum_pos' (fun i _ => by positivity) ⟨j, Finset.mem_univ j, ?_⟩
    have : 0 < w[j] := weights_pos bls hb _ (List.getElem_mem _)
    exact mul_pos (abs_pos.mpr this.ne') (norm_pos_iff.mpr (by simpa using hj))
  · intro X
    refine ⟨fun i => softEntry (X i) (t * w[i]), ?_, ?_⟩
    · unfold S2L1.proxf TObj.value
      simp only [Heap.write, if_true, Option.map_some]
      have : w.map (fun x => t * x) = List.ofFn fun i : Fin w.length => t * w[i] := by
        apply List.ext_getElem <;> simp
      rw [this, soft_vector]
    · have hpos : ∀ i : Fin w.length, 0 < w[i] := fun i => weights_pos bls hb _ (List.getElem_mem _)
      have := softEntry_isProx X (fun i => t * w[i]) (fun i => mul_nonneg ht (hpos i).le)
      have e : (fun u : Fin w.length → 𝕜 => t * ∑ i, |w[i]| * ‖u i‖) = Spec.wl1 fun i => t * w[i] := by
        funext u
        unfold Spec.wl1
        rw [Finset.mul_sum]
        apply Finset.sum_congr rfl
        intro i _
        rw [abs_of_pos (hpos i)]; ring
      rw [e]; exact this

/-- C10: the analysis setting raises `NotImplementedError`, other strings fail the assertion. -/
theorem C10_analysis_not_implemented (h : Heap ℝ) (T : TObj) (bls : List ℕ) (fresh : ℕ) :
    S2L1.init h "analysis" T bls fresh = .error .NotImplementedError ∧
    ∀ s, s ≠ "analysis" → s ≠ "synthesis" → S2L1.init h s T bls fresh = .error .AssertionError := by
  refine ⟨by simp [S2L1.init, Setting.parse], fun s h1 h2 => by simp [S2L1.init, Setting.parse, h1, h2]⟩

/-- Three scales with bandlimits 1, 2, 4. -/
example : (∀ b ∈ [1, 2, 4], 1 ≤ b) ∧ ([1, 2, 4].map fun b => b * (2 * b - 1)).sum = 35 := by decide

/-! ## C11 -/

theorem imul_arr (h : Heap ℝ) (a : ℕ) (v w : Fin n → ℝ) (ha : h a = some (List.ofFn v)) (f : ℕ) :
    imul h (.arr a) (List.ofFn w) f = .ok (h.write a (List.ofFn fun i => v i * w i), .arr a) := by
  unfold imul
  simp only [ha, List.length_ofFn, if_true, zip_ofFn]
  rw [map_ofFn']

/-- The state a power-weighted prior ends up in when base and power weights have equal length:
`T = t·w_b·w_p`, weights `w_p`. -/
theorem initPower_eq (h : Heap ℝ) (t : ℝ) (phi : List ℂ) (psis : List (List ℂ)) (bls bls1 peaks : List ℕ) (eta : ℝ)
    (fresh : ℕ) (wb wp : Fin n → ℝ) (hb : bls.flatMap mwMapWeights = List.ofFn wb) (s : List ℝ)
    (hs : scalingWeights phi = .ok s) (ww : List ℝ) (hww : waveletWeights bls1 psis peaks eta = .ok ww)
    (hp : s ++ ww = List.ofFn wp) :
    ∃ h', S2L1.initPower h "synthesis" (.float t) phi psis bls bls1 peaks eta fresh =
        .ok (h', ⟨.arr fresh, List.ofFn wp⟩) ∧ h' fresh = some (List.ofFn fun i => t * wb i * wp i) := by
  have e1 : S2L1.init h "synthesis" (.float t) bls fresh =
      .ok (h.write fresh (List.ofFn fun i => t * wb i), ⟨.arr fresh, List.ofFn wb⟩) := by
    simp only [S2L1.init, Setting.parse, hb, imul, map_ofFn']
    rfl
  refine ⟨(h.write fresh (List.ofFn fun i => t * wb i)).write fresh
    (List.ofFn fun i => t * wb i * wp i), ?_, ?_⟩
  · unfold S2L1.initPower
    rw [e1]
    simp only [bind, Except.bind, hs, hww, hp]
    rw [imul_arr _ fresh (fun i => t * wb i) wp (by simp [Heap.write])]
  · simp [Heap.write]

/-- C11, exact criterion: for `t > 0` and weights of equal length, `proxf` is the proximal map of `t·prior` for all
`X` **iff** at every coefficient the power weight is zero or equals the base (quadrature) weight. -/
theorem C11_power_prox_iff (h : Heap ℝ) (t : ℝ) (ht : 0 < t) (phi : List ℂ) (psis : List (List ℂ))
    (bls bls1 peaks : List ℕ) (eta : ℝ) (fresh : ℕ) (wb wp : Fin n → ℝ)
    (hb : bls.flatMap mwMapWeights = List.ofFn wb) (s : List ℝ)
    (hs : scalingWeights phi = .ok s) (ww : List ℝ) (hww : waveletWeights bls1 psis peaks eta = .ok ww)
    (hp : s ++ ww = List.ofFn wp)
    (hwb : ∀ i, 0 ≤ wb i) (hwp : ∀ i, 0 ≤ wp i) :
    ∃ h' P, S2L1.initPower h "synthesis" (.float t) phi psis bls bls1 peaks eta fresh = .ok (h', P) ∧
      ∃ g : (Fin n → 𝕜) → ℝ, (∀ u, P.priorPower (List.ofFn u) = .ok (g u)) ∧
      ∃ prox : (Fin n → 𝕜) → (Fin n → 𝕜), (∀ X, P.proxf h' (List.ofFn X) = .ok (List.ofFn (prox X))) ∧
        ((∀ X, Spec.IsProx (fun u => t * g u) X (prox X)) ↔ ∀ i, wp i = 0 ∨ wb i = wp i) := by
  obtain ⟨h', h1, h2⟩ := initPower_eq h t phi psis bls bls1 peaks eta fresh wb wp hb s hs ww hww hp
  refine ⟨h', _, h1, fun u => ∑ i, wp i * (wp i * ‖u i‖), ?_, fun X i => softEntry (X i) (t * wb i * wp i),
    ?_, ?_⟩
  · intro u
    unfold S2L1.priorPower
    simp only [wmul_ofFn, bind, Except.bind]
    rw [prior_ofFn _ wp rfl]
    congr 1
    apply Finset.sum_congr rfl
    intro i _
    rw [norm_mul, norm_ofReal, abs_of_nonneg (hwp i)]
  · intro X
    unfold S2L1.proxf TObj.value
    simp only [h2, Option.map_some]
    exact soft_vector X _
  · have e : (fun u : Fin n → 𝕜 => t * ∑ i, wp i * (wp i * ‖u i‖)) =
        Spec.wl1 fun i => t * wp i * wp i := by
      funext u
      unfold Spec.wl1
      rw [Finset.mul_sum]
      apply Finset.sum_congr rfl
      intros; ring
    rw [e]
    have hc : ∀ i, 0 ≤ t * wp i * wp i := fun i => mul_nonneg (mul_nonneg ht.le (hwp i)) (hwp i)
    have hd : ∀ i, 0 ≤ t * wb i * wp i := fun i => mul_nonneg (mul_nonneg ht.le (hwb i)) (hwp i)
    constructor
    · intro H i
      -- test point whose i-th entry exceeds both thresholds
      set M : ℝ := t * wp i * wp i + t * wb i * wp i + 1 with hM
      have hMpos : 0 < M := by have := hc i; have := hd i; linarith
      have hnorm : ‖((M : ℝ) : 𝕜)‖ = M := by rw [norm_ofReal, abs_of_pos hMpos]
      have h3 := congrFun (isProx_unique (H fun _ => ((M : ℝ) : 𝕜))
        (softEntry_isProx (fun _ => ((M : ℝ) : 𝕜)) _ hc)) i
      have h4 := congrArg (fun z => ‖z‖) h3
      simp only at h4
      rw [norm_softEntry (hd i), norm_softEntry (hc i), hnorm,
        max_eq_left (by rw [hM]; linarith [hc i]), max_eq_left (by rw [hM]; linarith [hd i])] at h4
      have h5 : t * (wp i * (wb i - wp i)) = 0 := by linarith
      rcases mul_eq_zero.mp ((mul_eq_zero.mp h5).resolve_left ht.ne') with h6 | h6
      · exact Or.inl h6
      · exact Or.inr (by linarith)
    · intro H X
      have : (fun i => softEntry (X i) (t * wb i * wp i)) = fun i => softEntry (X i) (t * wp i * wp i) := by
        funext i
        rcases H i with h0 | h0
        · rw [h0]; simp
        · rw [h0]
      show Spec.IsProx _ X (fun i => softEntry (X i) (t * wb i * wp i))
      rw [this]
      exact softEntry_isProx X _ hc

/-- C11 (partial): what does hold is that `proxf` is the proximal map of the norm with weights
`t·w_b·w_p`. Missing: that this norm is `t·prior` — false, see `C11_power_prox_iff` and
`C11_power_prox_refuted`. -/
theorem C11_power_prox_partial (h : Heap ℝ) (t : ℝ) (ht : 0 ≤ t) (phi : List ℂ) (psis : List (List ℂ))
    (bls bls1 peaks : List ℕ) (eta : ℝ) (fresh : ℕ) (wb wp : Fin n → ℝ)
    (hb : bls.flatMap mwMapWeights = List.ofFn wb) (s : List ℝ)
    (hs : scalingWeights phi = .ok s) (ww : List ℝ) (hww : waveletWeights bls1 psis peaks eta = .ok ww)
    (hp : s ++ ww = List.ofFn wp)
    (hwb : ∀ i, 0 ≤ wb i) (hwp : ∀ i, 0 ≤ wp i) (X : Fin n → 𝕜) :
    ∃ h' P p, S2L1.initPower h "synthesis" (.float t) phi psis bls bls1 peaks eta fresh = .ok (h', P) ∧
      P.proxf h' (List.ofFn X) = .ok (List.ofFn p) ∧
      Spec.IsProx (fun u => ∑ i, (t * wb i * wp i) * ‖u i‖) X p := by
  obtain ⟨h', h1, h2⟩ := initPower_eq h t phi psis bls bls1 peaks eta fresh wb wp hb s hs ww hww hp
  refine ⟨h', _, fun i => softEntry (X i) (t * wb i * wp i), h1, ?_, ?_⟩
  · unfold S2L1.proxf TObj.value
    simp only [h2, Option.map_some]
    exact soft_vector X _
  · exact softEntry_isProx X _ fun i => mul_nonneg (mul_nonneg ht (hwb i)) (hwp i)

theorem qEntry_two_zero : qEntry 2 0 = 8 * Real.pi / 9 := by
  unfold qEntry
  rw [if_pos (by norm_num), weightsTheta_getD (by norm_num) 0 (by norm_num),
    weightsTheta_getD (by norm_num) (2 * 2 - 2 - 0) (by norm_num), node_reflect (by norm_num) (by norm_num),
    ← mul_add, ← Complex.add_re, specSum_add_reflect]
  have : cosSum 2 (node (2 * 2 - 1) 0) = 2 := by
    unfold cosSum
    rw [show 2 * 2 - 1 = 3 by norm_num, Finset.sum_range_succ, Finset.sum_range_succ, Finset.sum_range_one]
    simp only [freq, mwWeights]
    norm_num
    ring
  rw [this]
  norm_num
  ring

/-- A tiling at bandlimit 2: scaling function `(1,1)`, two wavelets. -/
theorem tiling_bandlimits : multiresBandlimits 2 [1, 1] [[1, 0, 0, 0], [0, 0, 1, 0]] = .ok [2, 1, 2] := by
  have b1 : bandlimitOf [1, 1] = .ok 2 := by simp [bandlimitOf, nonzeroIdx, List.range_succ]
  have b2 : bandlimitOf [1, 0] = .ok 1 := by simp [bandlimitOf, nonzeroIdx, List.range_succ]
  have b3 : bandlimitOf [0, 1] = .ok 2 := by simp [bandlimitOf, nonzeroIdx, List.range_succ]
  have d1 : degreeZeroPart 2 [1, 0, 0, 0] = .ok [1, 0] := rfl
  have d2 : degreeZeroPart 2 [0, 0, 1, 0] = .ok [0, 1] := rfl
  simp [multiresBandlimits, d1, d2, b1, b2, b3, bind, Except.bind, pure, Except.pure]

theorem sinWeights_length (b : ℕ) (c : ℝ) : (sinWeights b c).length = b * (2 * b - 1) := by
  simp [sinWeights, mwThetas, List.length_flatMap, Function.comp_def]

theorem sinWeights_nonneg {b : ℕ} (hb : 1 ≤ b) {c : ℝ} (hc : 0 ≤ c) : ∀ x ∈ sinWeights b c, 0 ≤ x := by
  intro x hx
  unfold sinWeights at hx
  obtain ⟨th, hth, hx⟩ := List.mem_flatMap.mp hx
  rw [List.mem_replicate] at hx
  rw [hx.2]
  obtain ⟨h0, h1⟩ := mwThetas_range hb hth
  exact mul_nonneg hc (Real.sin_nonneg_of_nonneg_of_le_pi h0.le h1)

/-- C11 is violated, for every threshold.  Witness: the tiling above. -/
theorem C11_power_prox_refuted (t : ℝ) (ht : 0 < t) :
    ¬ ∀ (L : ℕ) (phi : List ℂ) (psis : List (List ℂ)) (bls peaks : List ℕ) (eta : ℝ) (h h' : Heap ℝ) (P : S2L1)
      (N : ℕ) (g : (Fin N → ℝ) → ℝ) (X p : Fin N → ℝ), multiresBandlimits L phi psis = .ok bls →
      S2L1.initPower h "synthesis" (.float t) phi psis bls bls peaks eta 0 = .ok (h', P) →
      (∀ u, P.priorPower (List.ofFn u) = .ok (g u)) → P.proxf h' (List.ofFn X) = .ok (List.ofFn p) →
      Spec.IsProx (fun u => t * g u) X p := by
  intro H
  have hpi := Real.pi_pos
  set s := sinWeights 2 (2 * Real.pi ^ 2 / (power [1, 1] * mwLength 2)) with hsdef
  have hs : scalingWeights [1, 1] = .ok s := by
    have b1 : bandlimitOf [1, 1] = .ok 2 := by simp [bandlimitOf, nonzeroIdx, List.range_succ]
    unfold scalingWeights
    rw [b1]; rfl
  set ww := sinWeights 1 (2 * Real.pi ^ 2 * (0 : ℕ) ^ (1 : ℝ) / (power [1, 0, 0, 0] * mwLength 1)) ++
    sinWeights 2 (2 * Real.pi ^ 2 * (1 : ℕ) ^ (1 : ℝ) / (power [0, 0, 1, 0] * mwLength 2)) with hwwdef
  have hww : waveletWeights [2, 1, 2] [[1, 0, 0, 0], [0, 0, 1, 0]] [0, 1] 1 = .ok ww := by
    simp [waveletWeights, waveletScales, hwwdef]
  have hlen : (s ++ ww).length = 13 := by simp [hsdef, hwwdef, sinWeights_length]
  have hblen : ([2, 1, 2].flatMap mwMapWeights).length = 13 := by simp [mwMapWeights_length]
  have getD_ofFn : ∀ l : List ℝ, l.length = 13 → l = List.ofFn fun i : Fin 13 => l.getD i 0 := by
    intro l hl
    apply List.ext_getElem
    · rw [hl, List.length_ofFn]
    · intro i h1 h2
      rw [List.getElem_ofFn]
      simp only [List.getD, List.getElem?_eq_getElem h1, Option.getD_some]
  have getD_nonneg : ∀ l : List ℝ, (∀ x ∈ l, 0 ≤ x) → ∀ i, 0 ≤ l.getD i 0 := by
    intro l hl i
    by_cases hi : i < l.length
    · simp only [List.getD, List.getElem?_eq_getElem hi, Option.getD_some]
      exact hl _ (List.getElem_mem hi)
    · simp [List.getD, List.getElem?_eq_none (not_lt.mp hi)]
  have hwp0 : ∀ x ∈ s ++ ww, 0 ≤ x := by
    intro x hx
    rw [List.mem_append, hwwdef, List.mem_append] at hx
    have hpow : ∀ l : List ℂ, 0 ≤ power l := by
      intro l
      exact List.sum_nonneg (by simp)
    have := hpow [1, 1]
    have := hpow [1, 0, 0, 0]
    have := hpow [0, 0, 1, 0]
    rcases hx with hx | hx | hx
    · exact sinWeights_nonneg (by norm_num) (by positivity) x hx
    · exact sinWeights_nonneg (by norm_num) (by positivity) x hx
    · exact sinWeights_nonneg (by norm_num) (by positivity) x hx
  obtain ⟨h', P, hi, g, hg, prox, hprox, hiff⟩ := C11_power_prox_iff (𝕜 := ℝ) (fun _ => none) t ht
    [1, 1] [[1, 0, 0, 0], [0, 0, 1, 0]] [2, 1, 2] [2, 1, 2] [0, 1] 1 0 _ _ (getD_ofFn _ hblen) _ hs ww hww
    (getD_ofFn _ hlen)
    (fun i => getD_nonneg _ (fun x hx => (weights_pos [2, 1, 2] (by decide) x hx).le) i)
    (fun i => getD_nonneg _ hwp0 i)
  have hall := hiff.mp fun X => H 2 [1, 1] _ [2, 1, 2] _ 1 _ h' P 13 g X (prox X) tiling_bandlimits hi hg (hprox X)
  have h0 := hall 0
  have ewb : ([2, 1, 2].flatMap mwMapWeights).getD 0 0 = 8 * Real.pi / 9 := by
    rw [List.flatMap_cons, mwMapWeights_eq]
    simp [List.range_succ, List.replicate, qEntry_two_zero]
  have ewp : (s ++ ww).getD 0 0 = 2 * Real.pi ^ 2 / (2 * 6) * Real.sin (Real.pi / 3) := by
    simp [hsdef, sinWeights, mwThetas, List.range_succ, List.replicate, power, mwLength]
    norm_num
  simp only [Fin.val_zero] at h0
  rw [ewb, ewp, Real.sin_pi_div_three] at h0
  have hpi4 := Real.pi_le_four
  have h3 : (0 : ℝ) < Real.sqrt 3 := Real.sqrt_pos.mpr (by norm_num)
  have h32 : Real.sqrt 3 < 2 := by
    rw [Real.sqrt_lt' (by norm_num)]; norm_num
  rcases h0 with h0 | h0
  · have : 0 < 2 * Real.pi ^ 2 / (2 * 6) * (Real.sqrt 3 / 2) := by positivity
    linarith
  · have e : Real.pi * (8 / 9 - Real.pi * Real.sqrt 3 / 12) = 0 := by linarith
    rcases mul_eq_zero.mp e with h1 | h1
    · linarith
    · nlinarith

/-- C11, extra: with fewer than two different wavelet bandlimits the power-weighted prior cannot be built at all. -/
theorem C11_single_bandlimit_raises (h : Heap ℝ) (s : String) (T : TObj) (phi : List ℂ) (psis : List (List ℂ))
    (bls bls1 peaks : List ℕ) (eta : ℝ) (fresh b : ℕ) (hb : ∀ x ∈ bls1.tail, x = b) :
    ∃ e, S2L1.initPower h s T phi psis bls bls1 peaks eta fresh = .error e := by
  have hw : ∃ e, waveletWeights bls1 psis peaks eta = .error e := by
    unfold waveletWeights
    have hall : ∀ x ∈ waveletScales bls1 psis peaks, x.1.1 = b := by
      intro x hx
      exact hb _ (List.of_mem_zip (List.of_mem_zip hx).1).1
    split
    · exact ⟨_, rfl⟩
    · rename_i x xs hx
      rw [hx] at hall
      rw [if_pos]
      · exact ⟨_, rfl⟩
      · intro y hy
        rw [hall y (by simp [hy]), hall x (by simp)]
  obtain ⟨e, he⟩ := hw
  unfold S2L1.initPower
  cases h1 : S2L1.init h s T bls fresh with
  | error e' => exact ⟨e', rfl⟩
  | ok r =>
    cases h2 : scalingWeights phi with
    | error e' => exact ⟨e', rfl⟩
    | ok sw => exact ⟨e, by simp [bind, Except.bind, he]⟩

example : ∀ x ∈ ([3, 2, 2] : List ℕ).tail, x = 2 := by decide

/-! ## C12 -/

/-- C12 for float thresholds: nothing the caller can see changes, for both classes. -/
theorem C12_float_threshold_kept (h : Heap ℝ) (s : String) (t : ℝ) (bls : List ℕ) (fresh : ℕ)
    (hf : h fresh = none) (hf' : h (fresh + 1) = none) :
    (∀ h' P, S2L1.init h s (.float t) bls fresh = .ok (h', P) → ∀ b, h b ≠ none → h' b = h b) ∧
    (∀ phi psis bls1 peaks eta h' P, S2L1.initPower h s (.float t) phi psis bls bls1 peaks eta fresh = .ok (h', P) →
      ∀ b, h b ≠ none → h' b = h b) := by
  have key : ∀ h' P, S2L1.init h s (.float t) bls fresh = .ok (h', P) →
      (∀ b, h b ≠ none → h' b = h b) ∧ P.T = .arr fresh := by
    intro h' P hi
    unfold S2L1.init at hi
    split at hi
    · cases hi
    · cases hi
    · simp only [imul, bind, Except.bind, Except.ok.injEq, Prod.mk.injEq] at hi
      obtain ⟨rfl, rfl⟩ := hi
      refine ⟨fun b hb => ?_, rfl⟩
      have : b ≠ fresh := by rintro rfl; exact hb hf
      simp [Heap.write, this]
  refine ⟨fun h' P hi => (key h' P hi).1, ?_⟩
  intro phi psis bls1 peaks eta h' P hi b hb
  unfold S2L1.initPower at hi
  cases hi1 : S2L1.init h s (.float t) bls fresh with
  | error e => rw [hi1] at hi; cases hi
  | ok r =>
    obtain ⟨h1, P1⟩ := r
    obtain ⟨hk, hT⟩ := key h1 P1 hi1
    rw [hi1] at hi
    simp only [bind, Except.bind] at hi
    cases hs : scalingWeights phi with
    | error e => rw [hs] at hi; cases hi
    | ok sw =>
      rw [hs] at hi
      simp only at hi
      cases hww : waveletWeights bls1 psis peaks eta with
      | error e => rw [hww] at hi; cases hi
      | ok ww =>
      rw [hww] at hi
      simp only [hT, imul] at hi
      have hne : b ≠ fresh := by rintro rfl; exact hb hf
      split at hi
      · cases hi
      · rename_i r hr
        simp only [Except.ok.injEq, Prod.mk.injEq] at hi
        obtain ⟨rfl, -⟩ := hi
        split at hr
        · cases hr
        · split at hr
          · injection hr with hr
            rw [← hr]; simp [Heap.write, hne, hk b hb]
          · split at hr
            · injection hr with hr
              rw [← hr]; simp [Heap.write, hne, hk b hb]
            · cases hr

/-- C12 is violated for array thresholds: the caller's array is multiplied in place. -/
theorem C12_array_threshold_refuted :
    ¬ ∀ (h h' : Heap ℝ) (a : ℕ) (bls : List ℕ) (P : S2L1),
      S2L1.init h "synthesis" (.arr a) bls 1 = .ok (h', P) → h' a = h a := by
  intro H
  have h1 : [1].flatMap mwMapWeights = List.ofFn fun _ : Fin 1 => (mwMapWeights 1).sum := by
    simp only [List.flatMap_cons, List.flatMap_nil, List.append_nil]
    have := mwMapWeights_length 1
    match hm : mwMapWeights 1, this with
    | [w], _ => simp
  have h2 : S2L1.init (fun b => if b = 0 then some [1] else none) "synthesis" (.arr 0) [1] 1 =
      .ok (Heap.write (fun b => if b = 0 then some [1] else none) 0 (List.ofFn fun _ : Fin 1 => 1 * (4 * Real.pi)),
        ⟨.arr 0, List.ofFn fun _ : Fin 1 => 4 * Real.pi⟩) := by
    rw [(C25_weights 1 le_rfl).2.2] at h1
    simp only [S2L1.init, Setting.parse, h1]
    have := imul_arr (n := 1) (fun b => if b = 0 then some [1] else none) 0 (fun _ => 1)
      (fun _ => 4 * Real.pi) (by simp) 1
    simp only [bind, Except.bind]
    simp only [show ("synthesis" = "analysis") = False by simp, if_false, if_true]
    rw [this]
  have h3 := H _ _ 0 [1] _ h2
  simp [Heap.write] at h3
  have := Real.two_le_pi
  linarith

/-- C12, what happens instead (partial): building two priors from the same threshold array leaves
`T·w²` in it, and both priors share that array; other arrays are untouched. -/
theorem C12_array_threshold_partial (h : Heap ℝ) (a : ℕ) (bls : List ℕ) (f f' : ℕ) (v w : Fin n → ℝ)
    (ha : h a = some (List.ofFn v)) (hw : bls.flatMap mwMapWeights = List.ofFn w) :
    ∃ h1 P1 h2 P2, S2L1.init h "synthesis" (.arr a) bls f = .ok (h1, P1) ∧
      S2L1.init h1 "synthesis" (.arr a) bls f' = .ok (h2, P2) ∧
      h1 a = some (List.ofFn fun i => v i * w i) ∧ h2 a = some (List.ofFn fun i => v i * w i * w i) ∧
      P1.T.value h2 = P2.T.value h2 ∧ ∀ b, b ≠ a → h2 b = h b := by
  have hi : ∀ (g : Heap ℝ) (u : Fin n → ℝ) (f : ℕ), g a = some (List.ofFn u) →
      S2L1.init g "synthesis" (.arr a) bls f =
        .ok (g.write a (List.ofFn fun i => u i * w i), ⟨.arr a, List.ofFn w⟩) := by
    intro g u f hg
    simp only [S2L1.init, Setting.parse, hw]
    simp only [show ("synthesis" = "analysis") = False by simp, if_false, if_true, bind, Except.bind]
    rw [imul_arr g a u w hg]
  refine ⟨_, _, _, _, hi h v f ha, hi _ (fun i => v i * w i) f' (by simp [Heap.write]), ?_, ?_, rfl, ?_⟩
  · simp [Heap.write]
  · simp [Heap.write]
  · intro b hb; simp [Heap.write, hb]

/-- The hypotheses of the partial theorem hold for one scale of bandlimit 1. -/
example : ∃ w : Fin 1 → ℝ, [1].flatMap mwMapWeights = List.ofFn w := by
  have := mwMapWeights_length 1
  match hm : mwMapWeights 1, this with
  | [w], _ => exact ⟨fun _ => w, by simp [hm]⟩

end Pxmcmc
