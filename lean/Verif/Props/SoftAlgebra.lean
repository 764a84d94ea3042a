import Verif.Props.Prior

/-! # Properties C100–C101: algebra of thresholding; priors as norms and integrals -/

namespace Pxmcmc
open RCLike

variable {𝕜 : Type} [RCLike 𝕜] {n : ℕ}

/-! ## C100 -/

theorem softEntry_semigroup (x : 𝕜) {s t : ℝ} (hs : 0 ≤ s) (ht : 0 ≤ t) :
    softEntry (softEntry x s) t = softEntry x (s + t) := by
  by_cases h1 : ‖x‖ ≤ s
  · rw [softEntry_of_le h1, softEntry_zero_left, softEntry_of_le (by linarith)]
  push Not at h1
  have hx : x ≠ 0 := by rintro rfl; rw [norm_zero] at h1; linarith
  have hp : 0 < ‖x‖ := norm_pos_iff.mpr hx
  have hn : ‖softEntry x s‖ = ‖x‖ - s := by rw [norm_softEntry hs, max_eq_left (by linarith)]
  by_cases h2 : ‖x‖ ≤ s + t
  · rw [softEntry_of_le h2, softEntry_of_le (by rw [hn]; linarith)]
  push Not at h2
  have hy : softEntry x s ≠ 0 := by rw [← norm_pos_iff, hn]; linarith
  rw [softEntry_of_lt (x := softEntry x s) (by rw [hn]; linarith) hy, softEntry_of_lt h2 hx, hn,
    softEntry_of_lt h1 hx, ← mul_assoc, ← ofReal_mul]
  congr 2
  have : ‖x‖ - s ≠ 0 := by linarith
  field_simp
  ring

theorem softEntry_scale (x c : 𝕜) (t : ℝ) (ht : 0 ≤ t) : softEntry (c * x) (‖c‖ * t) = c * softEntry x t := by
  by_cases hc : c = 0
  · subst hc; simp [softEntry_zero_left]
  have hcp : 0 < ‖c‖ := norm_pos_iff.mpr hc
  by_cases h1 : ‖x‖ ≤ t
  · rw [softEntry_of_le h1, softEntry_of_le, mul_zero]
    rw [norm_mul]; exact mul_le_mul_of_nonneg_left h1 hcp.le
  push Not at h1
  have hx : x ≠ 0 := by rintro rfl; rw [norm_zero] at h1; linarith
  rw [softEntry_of_lt h1 hx, softEntry_of_lt (by rw [norm_mul]; exact mul_lt_mul_of_pos_left h1 hcp)
    (mul_ne_zero hc hx), norm_mul, ← mul_sub, mul_div_mul_left _ _ hcp.ne']
  ring

/-- C100: thresholding twice is thresholding once with the sum of the thresholds. -/
theorem C100_semigroup (X : Fin n → 𝕜) (S T : Fin n → ℝ) (hS : ∀ i, 0 ≤ S i) (hT : ∀ i, 0 ≤ T i) :
    (soft (List.ofFn X) (.vector (List.ofFn S)) >>= fun Y => soft Y (.vector (List.ofFn T))) =
      soft (List.ofFn X) (.vector (List.ofFn fun i => S i + T i)) := by
  rw [soft_vector, soft_vector]
  show soft _ _ = _
  rw [soft_vector]
  congr 2
  funext i
  exact softEntry_semigroup _ (hS i) (hT i)

/-- C100: thresholding commutes with multiplication by a scalar (real or complex), the threshold being multiplied by its
modulus.  With `‖c‖ = 1` this is invariance under a common phase, with `c = -1` oddness. -/
theorem C100_scale (X : Fin n → 𝕜) (T : Fin n → ℝ) (hT : ∀ i, 0 ≤ T i) (c : 𝕜) :
    soft (List.ofFn fun i => c * X i) (.vector (List.ofFn fun i => ‖c‖ * T i)) =
      (soft (List.ofFn X) (.vector (List.ofFn T))).map (List.map fun y => c * y) := by
  rw [soft_vector, soft_vector]
  show _ = Except.ok _
  rw [List.map_ofFn]
  congr 2
  funext i
  exact softEntry_scale _ _ _ (hT i)

/-- C100: a permutation of the entries of vector and threshold permutes the result. -/
theorem C100_permute (X : Fin n → 𝕜) (T : Fin n → ℝ) (σ : Equiv.Perm (Fin n)) :
    ∃ p : Fin n → 𝕜, soft (List.ofFn X) (.vector (List.ofFn T)) = .ok (List.ofFn p) ∧
      soft (List.ofFn (X ∘ σ)) (.vector (List.ofFn (T ∘ σ))) = .ok (List.ofFn (p ∘ σ)) :=
  ⟨_, soft_vector X T, soft_vector (X ∘ σ) (T ∘ σ)⟩

/-- C100: a larger threshold gives smaller moduli, and the modulus of each entry is non-decreasing in that of the input. -/
theorem C100_monotone (X Y : Fin n → 𝕜) (S T : Fin n → ℝ) (hS : ∀ i, 0 ≤ S i) (hST : ∀ i, S i ≤ T i)
    (hXY : ∀ i, ‖Y i‖ ≤ ‖X i‖) :
    ∃ p q : Fin n → 𝕜, soft (List.ofFn X) (.vector (List.ofFn S)) = .ok (List.ofFn p) ∧
      soft (List.ofFn Y) (.vector (List.ofFn T)) = .ok (List.ofFn q) ∧ ∀ i, ‖q i‖ ≤ ‖p i‖ := by
  refine ⟨_, _, soft_vector X S, soft_vector Y T, fun i => ?_⟩
  rw [norm_softEntry (hS i), norm_softEntry ((hS i).trans (hST i))]
  exact max_le_max (by linarith [hST i, hXY i]) le_rfl

/-- A complex vector with entries on both sides of the thresholds, and a scalar that rotates. -/
example : ∃ (X : Fin 2 → ℂ) (S T : Fin 2 → ℝ) (c : ℂ), (∀ i, 0 ≤ S i) ∧ (∀ i, S i ≤ T i) ∧ ‖X 0‖ < S 0 ∧ T 1 < ‖X 1‖ ∧
    ‖c‖ = 1 ∧ c ≠ 1 :=
  ⟨![1, 5 * Complex.I], ![2, 1], ![2, 3], Complex.I, by intro i; fin_cases i <;> norm_num,
    by intro i; fin_cases i <;> norm_num, by simp, by simp; norm_num, by simp, by
      intro h; have := congrArg Complex.re h; simp at this⟩

/-! ## C101 -/

/-- A real function of vectors is a norm. -/
def Spec.IsNorm (g : (Fin n → 𝕜) → ℝ) : Prop :=
  (∀ u, 0 ≤ g u) ∧ (∀ u, g u = 0 → u = 0) ∧ (∀ (c : 𝕜) u, g (fun i => c * u i) = ‖c‖ * g u) ∧
    ∀ u v, g (fun i => u i + v i) ≤ g u + g v

theorem wl1_isNorm (w : Fin n → ℝ) (hw : ∀ i, 0 < w i) : Spec.IsNorm fun u : Fin n → 𝕜 => ∑ i, w i * ‖u i‖ := by
  refine ⟨fun u => Finset.sum_nonneg fun i _ => mul_nonneg (hw i).le (norm_nonneg _), fun u hu => ?_, fun c u => ?_,
    fun u v => ?_⟩
  · funext i
    have h := (Finset.sum_eq_zero_iff_of_nonneg (fun i _ => mul_nonneg (hw i).le (norm_nonneg (u i)))).mp hu i
      (Finset.mem_univ i)
    rcases mul_eq_zero.mp h with h | h
    · exact absurd h (hw i).ne'
    · exact norm_eq_zero.mp h
  · rw [Finset.mul_sum]
    refine Finset.sum_congr rfl fun i _ => ?_
    rw [norm_mul]; ring
  · rw [← Finset.sum_add_distrib]
    refine Finset.sum_le_sum fun i _ => ?_
    rw [← mul_add]
    exact mul_le_mul_of_nonneg_left (norm_add_le _ _) (hw i).le

/-- C101: `L1.prior` is a norm, in both settings. -/
theorem C101_l1_norm (P : L1 𝕜) : Spec.IsNorm fun u : Fin n → 𝕜 => P.prior (List.ofFn u) := by
  have h := wl1_isNorm (𝕜 := 𝕜) (fun _ : Fin n => 1) fun _ => one_pos
  have e : (fun u : Fin n → 𝕜 => P.prior (List.ofFn u)) = fun u => ∑ i, 1 * ‖u i‖ := by
    funext u
    unfold L1.prior
    rw [norm_sum_ofFn]
    simp
  rw [e]; exact h

/-- C101: the prior of the wavelet coefficients is a norm. -/
theorem C101_wavelet_norm (h : Heap ℝ) (T : TObj) (bls : List ℕ) (hb : ∀ b ∈ bls, 1 ≤ b) (fresh : ℕ) (h' : Heap ℝ)
    (P : S2L1) (hP : S2L1.init h "synthesis" T bls fresh = .ok (h', P)) (hn : n = (bls.map fun b => b * (2 * b - 1)).sum) :
    ∃ g : (Fin n → 𝕜) → ℝ, (∀ u, P.prior (List.ofFn u) = .ok (g u)) ∧ Spec.IsNorm g := by
  have hw : P.mapWeights = bls.flatMap mwMapWeights := by
    unfold S2L1.init at hP
    simp only [Setting.parse, bind, Except.bind] at hP
    simp only [show ("synthesis" : String) ≠ "analysis" by decide, if_false, if_true] at hP
    cases hi : imul h T (bls.flatMap mwMapWeights) fresh with
    | error e => rw [hi] at hP; simp at hP
    | ok r =>
      rw [hi] at hP
      simp only [Except.ok.injEq, Prod.mk.injEq] at hP
      rw [← hP.2]
  have hl : (bls.flatMap mwMapWeights).length = n := by
    rw [hn, List.length_flatMap]
    congr 1
    exact List.map_congr_left fun b _ => mwMapWeights_length b
  subst hl
  have hw2 := list_eq_ofFn (bls.flatMap mwMapWeights)
  have hpos : ∀ i : Fin (bls.flatMap mwMapWeights).length, 0 < (bls.flatMap mwMapWeights)[i] := fun i =>
    weights_pos bls hb _ (List.getElem_mem _)
  refine ⟨fun u => ∑ i, |(bls.flatMap mwMapWeights)[i]| * ‖u i‖, fun u => prior_ofFn P _ (hw.trans hw2) u, ?_⟩
  exact wl1_isNorm _ fun i => abs_pos.mpr (hpos i).ne'

/-- C101: `S2_Wavelets_L1.prior` is the sum over scales of the quadrature integral of the modulus of the scale's map, when
the vector is the concatenation of one map of MW samples per scale. -/
theorem C101_wavelet_integral (h : Heap ℝ) (T : TObj) (bls : List ℕ) (hb : ∀ b ∈ bls, 1 ≤ b) (fresh : ℕ) (h' : Heap ℝ)
    (P : S2L1) (hP : S2L1.init h "synthesis" T bls fresh = .ok (h', P)) (maps : List (List 𝕜))
    (hm : List.Forall₂ (fun b m => m.length = b * (2 * b - 1)) bls maps) :
    ∃ ints : List ℂ, List.Forall₂ (fun (bm : ℕ × List 𝕜) (v : ℂ) =>
        s2Integrate (bm.2.map fun x => ((‖x‖ : ℝ) : ℂ)) bm.1 = .ok v) (bls.zip maps) ints ∧
      ∃ v, P.prior maps.flatten = .ok v ∧ (v : ℂ) = ints.sum := by
  have hw : P.mapWeights = bls.flatMap mwMapWeights := by
    unfold S2L1.init at hP
    simp only [Setting.parse, bind, Except.bind] at hP
    simp only [show ("synthesis" : String) ≠ "analysis" by decide, if_false, if_true] at hP
    cases hi : imul h T (bls.flatMap mwMapWeights) fresh with
    | error e => rw [hi] at hP; simp at hP
    | ok r =>
      rw [hi] at hP
      simp only [Except.ok.injEq, Prod.mk.injEq] at hP
      rw [← hP.2]
  have hlen : (bls.flatMap mwMapWeights).length = maps.flatten.length := by
    rw [List.length_flatMap, List.length_flatten]
    clear hP hw hb
    induction hm with
    | nil => rfl
    | cons h1 _ ih =>
      rw [List.map_cons, List.sum_cons, List.map_cons, List.sum_cons, ih, mwMapWeights_length, h1]
  have hpr : P.prior maps.flatten =
      .ok (((bls.flatMap mwMapWeights).zip maps.flatten).map fun p => ‖(p.1 : 𝕜) * p.2‖).sum := by
    unfold S2L1.prior wmul bcast
    rw [hw, if_pos hlen]
    simp only [bind, Except.bind, List.map_map]
    rfl
  refine ⟨(bls.zip maps).map fun bm => (((mwMapWeights bm.1).zip bm.2).map fun p => ((p.1 * ‖p.2‖ : ℝ) : ℂ)).sum, ?_, _,
    hpr, ?_⟩
  · rw [List.forall₂_map_right_iff, List.forall₂_same]
    rintro ⟨b, m⟩ hbm
    have hl : m.length = b * (2 * b - 1) := by
      clear hP hw hb hlen hpr
      induction hm with
      | nil => simp at hbm
      | cons h1 _ ih =>
        rw [List.zip_cons_cons, List.mem_cons] at hbm
        rcases hbm with hbm | hbm
        · cases hbm; exact h1
        · exact ih hbm
    unfold s2Integrate bcast
    rw [if_pos (by rw [mwMapWeights_length, List.length_map, hl])]
    simp only [bind, Except.bind, List.zip_map_right, List.map_map]
    congr 2
    refine List.map_congr_left fun p _ => ?_
    simp
  · have hnn : ∀ w ∈ bls.flatMap mwMapWeights, 0 ≤ w := fun w hw => (weights_pos bls hb w hw).le
    clear hpr hw hP hlen hb
    induction hm with
    | nil => simp
    | @cons b m bls maps h1 _ ih =>
      rw [List.flatMap_cons, List.flatten_cons, List.zip_append (by rw [mwMapWeights_length, h1]), List.map_append,
        List.sum_append, Complex.ofReal_add, ih fun w hw => hnn w (by rw [List.flatMap_cons]; exact List.mem_append_right _ hw)]
      rw [List.zip_cons_cons, List.map_cons, List.sum_cons]
      congr 1
      rw [show ((((mwMapWeights b).zip m).map fun p => ‖(p.1 : 𝕜) * p.2‖).sum : ℂ) = Complex.ofRealHom
        (((mwMapWeights b).zip m).map fun p => ‖(p.1 : 𝕜) * p.2‖).sum from rfl, map_list_sum, List.map_map]
      congr 1
      refine List.map_congr_left fun p hp => ?_
      have : 0 ≤ p.1 := hnn _ (by rw [List.flatMap_cons]; exact List.mem_append_left _ (List.of_mem_zip hp).1)
      simp [abs_of_nonneg this]

/-- Two scales of bandlimits 1 and 2 with a threshold given as a float. -/
example : ∃ (P : S2L1) (h' : Heap ℝ) (maps : List (List ℝ)), S2L1.init (fun _ => none) "synthesis" (.float 1) [1, 2] 0 =
    .ok (h', P) ∧ List.Forall₂ (fun b m => m.length = b * (2 * b - 1)) [1, 2] maps :=
  ⟨_, _, [[3], [1, -1, 2, 0, 5, 1]], rfl, .cons rfl (.cons rfl .nil)⟩

end Pxmcmc
