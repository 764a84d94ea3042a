import Verif.Lemmas.Quantile
import Verif.Lemmas.Packing
import Mathlib.Tactic.NormNum

/-! # Properties C60–C64, C74: credible intervals and regions (`pxmcmc/uncertainty.py`) -/

namespace Pxmcmc

/-! ## Helper lemmas -/

section
variable {K : Type} [AddCommGroup K] [Module ℝ K] (le : K → K → Prop) [DecidableRel le]

theorem mapM_ok_map {β γ : Type} (f : β → Py γ) (g : β → γ) (l : List β) (h : ∀ a ∈ l, f a = .ok (g a)) :
    l.mapM f = .ok (l.map g) := by
  rw [mapM_ok_iff]
  induction l with
  | nil => exact .nil
  | cons a l ih => exact .cons (h a (by simp)) (ih fun b hb => h b (by simp [hb]))

theorem ciRange_unfold (C : SampleArr K) (alpha : ℝ) (h0 : 0 ≤ alpha) (h2 : alpha ≤ 2) (hn : 0 < C.nsamples) :
    credibleIntervalRange le C alpha = C.cols.mapM fun c => do
      let lo ← npQuantile le c (alpha / 2)
      let hi ← npQuantile le c (1 - alpha / 2)
      return hi - lo := by
  unfold credibleIntervalRange
  rw [if_neg (by push Not; refine ⟨⟨?_, ?_⟩, ?_, ?_⟩ <;> linarith), if_neg (by omega)]

theorem ciRange_ok (C : SampleArr K) (alpha : ℝ) (r : List K) (h : credibleIntervalRange le C alpha = .ok r) :
    0 ≤ alpha ∧ alpha ≤ 2 ∧ 0 < C.nsamples := by
  unfold credibleIntervalRange at h
  by_cases h1 : ¬ (0 ≤ alpha / 2 ∧ alpha / 2 ≤ 1) ∨ ¬ (0 ≤ 1 - alpha / 2 ∧ 1 - alpha / 2 ≤ 1)
  · rw [if_pos h1] at h
    cases h
  · rw [if_neg h1] at h
    by_cases h2 : C.nsamples = 0
    · rw [if_pos h2] at h
      cases h
    · push Not at h1
      exact ⟨by linarith [h1.1.1], by linarith [h1.1.2], by omega⟩

end

/-- The width of the interval of one parameter. -/
noncomputable def colWidth (c : List ℝ) (N : ℕ) (alpha : ℝ) : ℝ :=
  tele (ostat c) N (N * (1 - alpha / 2)) - tele (ostat c) N (N * (alpha / 2))

theorem ciRange_real (C : SampleArr ℝ) (hwf : C.WF) (N : ℕ) (hN : C.nsamples = N + 1) (alpha : ℝ) (h0 : 0 ≤ alpha)
    (h2 : alpha ≤ 2) : credibleIntervalRange (· ≤ ·) C alpha = .ok (C.cols.map fun c => colWidth c N alpha) := by
  rw [ciRange_unfold _ C alpha h0 h2 (by omega)]
  apply mapM_ok_map
  intro c hc
  have hl := (hwf c hc).trans hN
  rw [npQuantile_real c N hl _ (by linarith) (by linarith), npQuantile_real c N hl _ (by linarith) (by linarith)]
  rfl

theorem colWidth_antitone (c : List ℝ) (N : ℕ) (hl : c.length = N + 1) {a b : ℝ} (h : a ≤ b) :
    colWidth c N b ≤ colWidth c N a := by
  unfold colWidth
  have hm : ∀ i < N, ostat c i ≤ ostat c (i + 1) := fun i hi => ostat_mono c (by omega) (by omega)
  have hN : (0 : ℝ) ≤ N := Nat.cast_nonneg N
  have h1 := tele_mono (ostat c) N hm (h := N * (1 - b / 2)) (h' := N * (1 - a / 2))
    (mul_le_mul_of_nonneg_left (by linarith) hN)
  have h2 := tele_mono (ostat c) N hm (h := N * (a / 2)) (h' := N * (b / 2)) (mul_le_mul_of_nonneg_left (by linarith) hN)
  linarith

theorem colWidth_one (c : List ℝ) (N : ℕ) : colWidth c N 1 = 0 := by
  unfold colWidth
  rw [show (1 : ℝ) - 1 / 2 = 1 / 2 by norm_num, sub_self]

theorem colWidth_zero (c : List ℝ) (N : ℕ) : colWidth c N 0 = ostat c N - ostat c 0 := by
  unfold colWidth
  rw [zero_div, sub_zero, mul_one, mul_zero, tele_zero, tele_last _ _ _ le_rfl]

/-! ## C60 -/

/-- C60: for `0 ≤ alpha ≤ 1` and a real chain with at least one sample there is one width per parameter, it is non-negative
and at most the largest minus the smallest sample of that parameter (attained by samples `a`, `b`). -/
theorem C60_width (C : SampleArr ℝ) (hwf : C.WF) (hn : 0 < C.nsamples) (alpha : ℝ) (h0 : 0 ≤ alpha) (h1 : alpha ≤ 1) :
    ∃ r, credibleIntervalRange (· ≤ ·) C alpha = .ok r ∧ List.Forall₂ (fun c w =>
      0 ≤ w ∧ ∃ a ∈ c, ∃ b ∈ c, (∀ x ∈ c, a ≤ x ∧ x ≤ b) ∧ w ≤ b - a) C.cols r := by
  obtain ⟨N, hN⟩ : ∃ N, C.nsamples = N + 1 := ⟨C.nsamples - 1, by omega⟩
  refine ⟨_, ciRange_real C hwf N hN alpha h0 (by linarith), ?_⟩
  rw [List.forall₂_map_right_iff, List.forall₂_same]
  intro c hc
  have hl := (hwf c hc).trans hN
  refine ⟨?_, ostat c 0, ostat_mem c (by omega), ostat c N, ostat_mem c (by omega), fun x hx => ?_, ?_⟩
  · rw [← colWidth_one c N]
    exact colWidth_antitone c N hl h1
  · obtain ⟨i, hi, rfl⟩ := mem_ostat c hx
    exact ⟨ostat_mono c (by omega) hi, ostat_mono c (by omega) (by omega)⟩
  · rw [← colWidth_zero]
    exact colWidth_antitone c N hl h0

/-- C60: `alpha = 0` gives the full spread of the samples and `alpha = 1` gives zero. -/
theorem C60_ends (C : SampleArr ℝ) (hwf : C.WF) (hn : 0 < C.nsamples) :
    credibleIntervalRange (· ≤ ·) C 1 = .ok (C.cols.map fun _ => 0) ∧
    ∃ r, credibleIntervalRange (· ≤ ·) C 0 = .ok r ∧ List.Forall₂ (fun c w =>
      ∃ a ∈ c, ∃ b ∈ c, (∀ x ∈ c, a ≤ x ∧ x ≤ b) ∧ w = b - a) C.cols r := by
  obtain ⟨N, hN⟩ : ∃ N, C.nsamples = N + 1 := ⟨C.nsamples - 1, by omega⟩
  refine ⟨?_, _, ciRange_real C hwf N hN 0 le_rfl (by norm_num), ?_⟩
  · rw [ciRange_real C hwf N hN 1 (by norm_num) (by norm_num)]
    simp only [colWidth_one]
  · rw [List.forall₂_map_right_iff, List.forall₂_same]
    intro c hc
    have hl := (hwf c hc).trans hN
    refine ⟨ostat c 0, ostat_mem c (by omega), ostat c N, ostat_mem c (by omega), fun x hx => ?_, colWidth_zero c N⟩
    obtain ⟨i, hi, rfl⟩ := mem_ostat c hx
    exact ⟨ostat_mono c (by omega) hi, ostat_mono c (by omega) (by omega)⟩

/-- C60: the widths do not grow with `alpha` (on the whole range `[0,2]` that is accepted). -/
theorem C60_antitone (C : SampleArr ℝ) (hwf : C.WF) (alpha beta : ℝ) (hab : alpha ≤ beta) (r r' : List ℝ)
    (hr : credibleIntervalRange (· ≤ ·) C alpha = .ok r) (hr' : credibleIntervalRange (· ≤ ·) C beta = .ok r') :
    List.Forall₂ (fun w w' => w' ≤ w) r r' := by
  obtain ⟨a0, a2, hn⟩ := ciRange_ok _ _ _ _ hr
  obtain ⟨b0, b2, -⟩ := ciRange_ok _ _ _ _ hr'
  obtain ⟨N, hN⟩ : ∃ N, C.nsamples = N + 1 := ⟨C.nsamples - 1, by omega⟩
  rw [ciRange_real C hwf N hN alpha a0 a2] at hr
  rw [ciRange_real C hwf N hN beta b0 b2] at hr'
  rw [← Except.ok.inj hr, ← Except.ok.inj hr', List.forall₂_map_left_iff, List.forall₂_map_right_iff, List.forall₂_same]
  intro c hc
  exact colWidth_antitone c N ((hwf c hc).trans hN) hab

/-- C60: exactly the levels outside `[0,2]` are rejected with `ValueError`; without samples the call raises `IndexError`.
(Levels between 1 and 2 are accepted and give the negated widths of `2 - alpha`.) -/
theorem C60_alpha_checked {K : Type} [AddCommGroup K] [Module ℝ K] (le : K → K → Prop) [DecidableRel le] (C : SampleArr K)
    (alpha : ℝ) : (alpha < 0 ∨ 2 < alpha → credibleIntervalRange le C alpha = .error .ValueError) ∧
    (0 ≤ alpha → alpha ≤ 2 → C.nsamples = 0 → credibleIntervalRange le C alpha = .error .IndexError) := by
  unfold credibleIntervalRange
  constructor
  · intro h
    rw [if_pos (by rcases h with h | h; exacts [.inl fun h' => by linarith [h'.1], .inl fun h' => by linarith [h'.2]])]
    rfl
  · intro h0 h2 hn
    rw [if_neg (by push Not; refine ⟨⟨?_, ?_⟩, ?_, ?_⟩ <;> linarith), if_pos hn]
    rfl

/-- C60: the negative "widths" for levels above 1. -/
theorem C60_above_one (C : SampleArr ℝ) (hwf : C.WF) (hn : 0 < C.nsamples) (alpha : ℝ) (h0 : 0 ≤ alpha) (h2 : alpha ≤ 2) :
    ∃ r, credibleIntervalRange (· ≤ ·) C alpha = .ok r ∧
      credibleIntervalRange (· ≤ ·) C (2 - alpha) = .ok (r.map fun w => -w) := by
  obtain ⟨N, hN⟩ : ∃ N, C.nsamples = N + 1 := ⟨C.nsamples - 1, by omega⟩
  refine ⟨_, ciRange_real C hwf N hN alpha h0 h2, ?_⟩
  rw [ciRange_real C hwf N hN (2 - alpha) (by linarith) (by linarith), List.map_map]
  congr 1
  apply List.map_congr_left
  intro c _
  simp only [Function.comp, colWidth]
  rw [show (1 : ℝ) - (2 - alpha) / 2 = alpha / 2 by ring, show (2 - alpha) / 2 = 1 - alpha / 2 by ring]
  ring

/-- The hypotheses of C60 are met: three samples of two parameters. -/
example : (⟨3, [[1, 5, 2], [0, -1, -4]]⟩ : SampleArr ℝ).WF ∧ 0 < (⟨3, [[1, 5, 2], [0, -1, -4]]⟩ : SampleArr ℝ).nsamples := by
  refine ⟨fun c hc => ?_, by norm_num⟩
  simp only [List.mem_cons, List.not_mem_nil, or_false] at hc
  rcases hc with rfl | rfl <;> rfl

/-! ## C61 -/

theorem insertionSort_perm_eq {l l' : List ℝ} (h : l.Perm l') :
    l.insertionSort (· ≤ ·) = l'.insertionSort (· ≤ ·) :=
  (((List.perm_insertionSort _ l).trans h).trans (List.perm_insertionSort _ l').symm).eq_of_pairwise'
    (List.pairwise_insertionSort _ l) (List.pairwise_insertionSort _ l')

/-- C61: permuting the samples (of every parameter in any way, in particular all alike) does not change the result, and
whether the call is rejected. -/
theorem C61_permute (C C' : SampleArr ℝ) (hn : C.nsamples = C'.nsamples) (hp : List.Forall₂ List.Perm C.cols C'.cols)
    (alpha : ℝ) : credibleIntervalRange (· ≤ ·) C alpha = credibleIntervalRange (· ≤ ·) C' alpha := by
  unfold credibleIntervalRange
  have : (C.cols.mapM fun c => (do
        let lo ← npQuantile (· ≤ ·) c (alpha / 2)
        let hi ← npQuantile (· ≤ ·) c (1 - alpha / 2)
        return hi - lo : Py ℝ)) = C'.cols.mapM fun c => do
        let lo ← npQuantile (· ≤ ·) c (alpha / 2)
        let hi ← npQuantile (· ≤ ·) c (1 - alpha / 2)
        return hi - lo := by
    generalize C.cols = l at hp
    generalize C'.cols = l' at hp
    induction hp with
    | nil => rfl
    | cons h _ ih =>
      rw [List.mapM_cons, List.mapM_cons, ih]
      congr 1
      unfold npQuantile
      rw [insertionSort_perm_eq h]
  rw [hn]
  simp only [this]

theorem ostat_map_mono (f : ℝ → ℝ) (hf : ∀ a b, a ≤ b → f a ≤ f b) (c : List ℝ) {i : ℕ} (hi : i < c.length) :
    ostat (c.map f) i = f (ostat c i) := by
  have : (c.map f).insertionSort (· ≤ ·) = (c.insertionSort (· ≤ ·)).map f := by
    refine List.Perm.eq_of_pairwise' (r := (· ≤ ·)) (List.pairwise_insertionSort _ _) ?_ ?_
    · exact List.pairwise_map.mpr ((List.pairwise_insertionSort (· ≤ ·) c).imp fun {a b} h => hf a b h)
    · exact (List.perm_insertionSort _ _).trans ((List.perm_insertionSort _ c).symm.map f)
  unfold ostat
  rw [this, getD_lt (by simpa using hi), List.getElem_map, getD_lt (by simpa using hi)]

theorem ostat_map_anti (f : ℝ → ℝ) (hf : ∀ a b, a ≤ b → f b ≤ f a) (c : List ℝ) (N : ℕ) (hl : c.length = N + 1) {i : ℕ}
    (hi : i ≤ N) : ostat (c.map f) i = f (ostat c (N - i)) := by
  have : (c.map f).insertionSort (· ≤ ·) = ((c.insertionSort (· ≤ ·)).map f).reverse := by
    refine List.Perm.eq_of_pairwise' (r := (· ≤ ·)) (List.pairwise_insertionSort _ _) ?_ ?_
    · rw [List.pairwise_reverse]
      exact List.pairwise_map.mpr ((List.pairwise_insertionSort (· ≤ ·) c).imp fun {a b} h => hf a b h)
    · exact ((List.perm_insertionSort _ _).trans ((List.perm_insertionSort _ c).symm.map f)).trans (List.reverse_perm _).symm
  unfold ostat
  rw [this, getD_lt (by simp [hl]; omega), List.getElem_reverse, List.getElem_map, getD_lt (by simp [hl])]
  congr 2
  simp [hl]

theorem tele_congr (f g : ℕ → ℝ) (N : ℕ) (h : ∀ i ≤ N, f i = g i) (x : ℝ) : tele f N x = tele g N x := by
  unfold tele
  rw [h 0 (by omega)]
  congr 1
  refine Finset.sum_congr rfl fun i hi => ?_
  have := Finset.mem_range.mp hi
  rw [h i (by omega), h (i + 1) (by omega)]

theorem tele_affine (f : ℕ → ℝ) (a b : ℝ) (N : ℕ) (x : ℝ) : tele (fun i => a * f i + b) N x = a * tele f N x + b := by
  unfold tele
  have : ∀ i ∈ Finset.range N, (a * f (i + 1) + b - (a * f i + b)) * clamp01 (x - i) =
      a * ((f (i + 1) - f i) * clamp01 (x - i)) := fun i _ => by ring
  beta_reduce
  rw [Finset.sum_congr rfl this, ← Finset.mul_sum]
  ring

theorem colWidth_affine (c : List ℝ) (N : ℕ) (hl : c.length = N + 1) (k b alpha : ℝ) :
    colWidth (c.map fun x => k * x + b) N alpha = |k| * colWidth c N alpha := by
  rcases le_total 0 k with hk | hk
  · have : ∀ x, tele (ostat (c.map fun x => k * x + b)) N x = k * tele (ostat c) N x + b := by
      intro x
      rw [← tele_affine]
      exact tele_congr _ _ N (fun i hi => ostat_map_mono (fun x => k * x + b)
        (fun u v h => by have := mul_le_mul_of_nonneg_left h hk; linarith) c (by omega)) x
    unfold colWidth
    rw [this, this, abs_of_nonneg hk]
    ring
  · have : ∀ x, tele (ostat (c.map fun x => k * x + b)) N (N - x) = k * tele (ostat c) N x + b := by
      intro x
      have h1 : ∀ i ≤ N, ostat (c.map fun x => k * x + b) i = (fun i => -((-k) * ostat c (N - i)) + b) i := by
        intro i hi
        rw [ostat_map_anti (fun x => k * x + b)
          (fun u v h => by have := mul_le_mul_of_nonpos_left h hk; linarith) c N hl hi]
        ring
      rw [tele_congr _ _ N h1]
      have h2 := tele_neg (fun i => (-k) * ostat c i + (-b)) N x
      rw [tele_affine] at h2
      have h3 : (fun i => -((-k) * ostat c (N - i)) + b) = fun i => -((-k) * ostat c (N - i) + -b) := by
        funext i; ring
      rw [h3, h2]
      ring
    unfold colWidth
    have e1 : (N : ℝ) * (1 - alpha / 2) = N - N * (alpha / 2) := by ring
    have e2 : (N : ℝ) * (alpha / 2) = N - N * (1 - alpha / 2) := by ring
    rw [show tele (ostat (c.map fun x => k * x + b)) N (N * (1 - alpha / 2)) =
        tele (ostat (c.map fun x => k * x + b)) N (N - N * (alpha / 2)) by rw [e1], this]
    rw [show tele (ostat (c.map fun x => k * x + b)) N (N * (alpha / 2)) =
        tele (ostat (c.map fun x => k * x + b)) N (N - N * (1 - alpha / 2)) by rw [← e2], this, abs_of_nonpos hk]
    ring

/-- C61: adding a constant to the samples of a parameter (one constant `k` per parameter) does not change the widths. -/
theorem C61_shift (C : SampleArr ℝ) (hwf : C.WF) (alpha : ℝ) (ks : List ℝ) (hk : ks.length = C.cols.length) :
    credibleIntervalRange (· ≤ ·) ⟨C.nsamples, List.zipWith (fun c k => c.map fun x => x + k) C.cols ks⟩ alpha =
      credibleIntervalRange (· ≤ ·) C alpha := by
  have hwf' : (⟨C.nsamples, List.zipWith (fun c k => c.map fun x => x + k) C.cols ks⟩ : SampleArr ℝ).WF := by
    intro c hc
    obtain ⟨i, hi, rfl⟩ := List.mem_iff_getElem.mp hc
    rw [List.getElem_zipWith, List.length_map]
    exact hwf _ (List.getElem_mem _)
  by_cases hb : alpha < 0 ∨ 2 < alpha
  · rw [(C60_alpha_checked _ _ alpha).1 hb, (C60_alpha_checked _ _ alpha).1 hb]
  push Not at hb
  by_cases hn : C.nsamples = 0
  · rw [(C60_alpha_checked _ C alpha).2 hb.1 hb.2 hn]
    exact (C60_alpha_checked _ _ alpha).2 hb.1 hb.2 hn
  obtain ⟨N, hN⟩ : ∃ N, C.nsamples = N + 1 := ⟨C.nsamples - 1, by omega⟩
  rw [ciRange_real _ hwf' N hN alpha hb.1 hb.2, ciRange_real C hwf N hN alpha hb.1 hb.2]
  congr 1
  apply List.ext_getElem
  · simp [hk]
  · intro i h1 h2
    simp only [List.getElem_map, List.getElem_zipWith]
    have hi : i < C.cols.length := by simpa using h2
    have := colWidth_affine C.cols[i] N ((hwf _ (List.getElem_mem _)).trans hN) 1 (ks[i]'(by omega)) alpha
    simp only [one_mul, abs_one] at this
    exact this

/-- C61: multiplying all samples by `k` multiplies the widths by `|k|`. -/
theorem C61_scale (C : SampleArr ℝ) (hwf : C.WF) (alpha k : ℝ) :
    credibleIntervalRange (· ≤ ·) ⟨C.nsamples, C.cols.map fun c => c.map fun x => k * x⟩ alpha =
      (credibleIntervalRange (· ≤ ·) C alpha).map fun r => r.map fun w => |k| * w := by
  have hwf' : (⟨C.nsamples, C.cols.map fun c => c.map fun x => k * x⟩ : SampleArr ℝ).WF := by
    intro c hc
    obtain ⟨d, hd, rfl⟩ := List.mem_map.mp hc
    rw [List.length_map]
    exact hwf d hd
  by_cases hb : alpha < 0 ∨ 2 < alpha
  · rw [(C60_alpha_checked _ _ alpha).1 hb, (C60_alpha_checked _ _ alpha).1 hb]
    rfl
  push Not at hb
  by_cases hn : C.nsamples = 0
  · rw [(C60_alpha_checked _ C alpha).2 hb.1 hb.2 hn]
    exact (C60_alpha_checked _ _ alpha).2 hb.1 hb.2 hn
  obtain ⟨N, hN⟩ : ∃ N, C.nsamples = N + 1 := ⟨C.nsamples - 1, by omega⟩
  rw [ciRange_real _ hwf' N hN alpha hb.1 hb.2, ciRange_real C hwf N hN alpha hb.1 hb.2]
  simp only [Except.map, List.map_map]
  congr 1
  apply List.map_congr_left
  intro c hc
  have := colWidth_affine c N ((hwf _ hc).trans hN) k 0 alpha
  simp only [add_zero] at this
  exact this

/-- C61 is not vacuous: a reordered chain with shifted parameters. -/
example : List.Forall₂ List.Perm [[1, 5, 2], [0, -1, -4]] [[(5 : ℝ), 2, 1], [-1, -4, 0]] ∧
    [(3 : ℝ), -7].length = [[(1 : ℝ), 5, 2], [0, -1, -4]].length := by
  refine ⟨.cons ?_ (.cons ?_ .nil), rfl⟩
  · exact (List.perm_append_comm (l₁ := [(1 : ℝ)]) (l₂ := [5, 2]))
  · exact (List.perm_append_comm (l₁ := [(0 : ℝ)]) (l₂ := [-1, -4]))

/-! ## C62 -/

section
variable {K : Type} [AddCommGroup K] [Module ℝ K] (le : K → K → Prop) [DecidableRel le]

theorem slice_eq {α : Type} (l : List α) (a b : ℕ) : slice l a (a + b) = (l.drop a).take b := by
  unfold slice
  rw [List.drop_take]
  congr 1
  omega

theorem ciRange_slice (C : SampleArr K) (alpha : ℝ) (r : List K) (h : credibleIntervalRange le C alpha = .ok r) (a b : ℕ) :
    credibleIntervalRange le ⟨C.nsamples, slice C.cols a (a + b)⟩ alpha = .ok ((r.drop a).take b) := by
  obtain ⟨h0, h2, hn⟩ := ciRange_ok le C alpha r h
  rw [ciRange_unfold le _ alpha h0 h2 hn, mapM_ok_iff] at h
  rw [ciRange_unfold le ⟨C.nsamples, slice C.cols a (a + b)⟩ alpha h0 h2 hn, mapM_ok_iff]
  simp only
  rw [slice_eq]
  exact List.forall₂_take b (List.forall₂_drop a h)

theorem ciRange_length (C : SampleArr K) (alpha : ℝ) (r : List K) (h : credibleIntervalRange le C alpha = .ok r) :
    r.length = C.cols.length := by
  obtain ⟨h0, h2, hn⟩ := ciRange_ok le C alpha r h
  rw [ciRange_unfold le _ alpha h0 h2 hn, mapM_ok_iff] at h
  exact h.length_eq.symm

theorem wavCILoop_ok (C : SampleArr K) (alpha : ℝ) (r : List K) (h : credibleIntervalRange le C alpha = .ok r)
    (bls : List ℕ) (start : ℕ) (hlen : start + (bls.map mwLength).sum ≤ C.cols.length) :
    ∃ maps, wavCILoop le C alpha bls start = .ok maps ∧
      List.Forall₂ (fun bl (m : NdArr K) => m.shape = [bl, 2 * bl - 1] ∧ m.data.length = bl * (2 * bl - 1)) bls maps ∧
      (maps.map NdArr.data).flatten = (r.drop start).take (bls.map mwLength).sum := by
  induction bls generalizing start with
  | nil => exact ⟨[], rfl, .nil, by simp⟩
  | cons bl bls ih =>
    simp only [List.map_cons, List.sum_cons] at hlen ⊢
    have hr := ciRange_length le C alpha r h
    obtain ⟨maps, h1, h2, h3⟩ := ih (start + mwLength bl) (by omega)
    have hlen1 : ((r.drop start).take (mwLength bl)).length = bl * (2 * bl - 1) := by
      rw [List.length_take, List.length_drop, min_eq_left (by omega)]
      rfl
    refine ⟨⟨[bl, 2 * bl - 1], (r.drop start).take (mwLength bl)⟩ :: maps, ?_, .cons ⟨rfl, hlen1⟩ h2, ?_⟩
    · unfold wavCILoop
      simp only [ciRange_slice le C alpha r h, bind, Except.bind, h1, npReshape]
      rw [if_pos (by rw [hlen1]; simp)]
      rfl
    · rw [List.map_cons, List.flatten_cons, h3, List.take_add, List.drop_drop]

theorem wavCILoop_short (C : SampleArr K) (alpha : ℝ) (r : List K) (h : credibleIntervalRange le C alpha = .ok r)
    (bls : List ℕ) (start : ℕ) (hs : start ≤ C.cols.length) (hlen : C.cols.length < start + (bls.map mwLength).sum) :
    wavCILoop le C alpha bls start = .error .ValueError := by
  induction bls generalizing start with
  | nil => simp at hlen; omega
  | cons bl bls ih =>
    simp only [List.map_cons, List.sum_cons] at hlen
    have hr := ciRange_length le C alpha r h
    unfold wavCILoop
    simp only [ciRange_slice le C alpha r h, bind, Except.bind, npReshape]
    by_cases hb : start + mwLength bl ≤ C.cols.length
    · have hlen1 : ((r.drop start).take (mwLength bl)).length = bl * (2 * bl - 1) := by
        rw [List.length_take, List.length_drop, min_eq_left (by omega)]
        rfl
      rw [if_pos (by rw [hlen1]; simp), ih (start + mwLength bl) hb (by omega)]
    · rw [if_neg]
      rw [List.length_take, List.length_drop, min_eq_right (by omega)]
      have : [bl, 2 * bl - 1].prod = mwLength bl := by simp [mwLength]
      rw [this]
      omega

/-- C62: if the chain has at least `Σ bl(2bl-1)` parameters, there is one `(bl, 2bl-1)` map per bandlimit and their
row-major concatenation is the beginning of `credible_interval_range` of the whole chain: all of it when the sizes add up,
parameters beyond are ignored. -/
theorem C62_partition (C : SampleArr K) (alpha : ℝ) (r : List K) (h : credibleIntervalRange le C alpha = .ok r)
    (bls : List ℕ) (hlen : (bls.map fun bl => bl * (2 * bl - 1)).sum ≤ C.cols.length) :
    ∃ maps, waveletCredibleIntervalRange le C bls alpha = .ok maps ∧
      List.Forall₂ (fun bl (m : NdArr K) => m.shape = [bl, 2 * bl - 1] ∧ m.data.length = bl * (2 * bl - 1)) bls maps ∧
      (maps.map NdArr.data).flatten = r.take (bls.map fun bl => bl * (2 * bl - 1)).sum ∧
      ((bls.map fun bl => bl * (2 * bl - 1)).sum = C.cols.length → (maps.map NdArr.data).flatten = r) := by
  obtain ⟨maps, h1, h2, h3⟩ := wavCILoop_ok le C alpha r h bls 0 (by rw [Nat.zero_add]; exact hlen)
  refine ⟨maps, h1, h2, by rw [h3]; rfl, fun he => ?_⟩
  rw [h3, List.drop_zero]
  exact List.take_of_length_le (by rw [ciRange_length le C alpha r h]; exact he.symm.le)

/-- C62: too few parameters raise `ValueError`; a level or sample count that `credible_interval_range` rejects is rejected
in the same way (when there is at least one scale). -/
theorem C62_rejects (C : SampleArr K) (alpha : ℝ) (bls : List ℕ) :
    (∀ r, credibleIntervalRange le C alpha = .ok r → C.cols.length < (bls.map fun bl => bl * (2 * bl - 1)).sum →
      waveletCredibleIntervalRange le C bls alpha = .error .ValueError) ∧
    (bls ≠ [] → alpha < 0 ∨ 2 < alpha → waveletCredibleIntervalRange le C bls alpha = .error .ValueError) ∧
    (bls ≠ [] → 0 ≤ alpha → alpha ≤ 2 → C.nsamples = 0 →
      waveletCredibleIntervalRange le C bls alpha = .error .IndexError) := by
  refine ⟨fun r h hlt => wavCILoop_short le C alpha r h bls 0 (Nat.zero_le _) (by rw [Nat.zero_add]; exact hlt), ?_, ?_⟩
  · intro hb ha
    obtain ⟨bl, bls, rfl⟩ := List.exists_cons_of_ne_nil hb
    unfold waveletCredibleIntervalRange wavCILoop
    simp only [(C60_alpha_checked le _ alpha).1 ha, bind, Except.bind]
  · intro hb h0 h2 hn
    obtain ⟨bl, bls, rfl⟩ := List.exists_cons_of_ne_nil hb
    unfold waveletCredibleIntervalRange wavCILoop
    simp only [(C60_alpha_checked le ⟨C.nsamples, slice C.cols 0 (0 + mwLength bl)⟩ alpha).2 h0 h2 hn, bind, Except.bind]

end

/-- C62 is not vacuous: bandlimits 1 and 2 need 1 + 6 = 7 parameters; a chain of two samples has them. -/
example : ∃ r, credibleIntervalRange (· ≤ ·) (⟨2, List.replicate 7 [1, 3]⟩ : SampleArr ℝ) (1 / 2) = .ok r ∧
    ([1, 2].map fun bl => bl * (2 * bl - 1)).sum = (⟨2, List.replicate 7 [1, 3]⟩ : SampleArr ℝ).cols.length :=
  ⟨_, ciRange_real _ (fun c hc => by rw [List.eq_of_mem_replicate hc]; rfl) 1 rfl _ (by norm_num) (by norm_num), by simp⟩

/-! ## C63 -/

/-- C63: at least `⌊(1-alpha)(n-1)⌋ + 1` of the `n` samples are in the region, and at most `⌈(1-alpha)(n-1)⌉` are strictly
below the threshold. -/
theorem C63_coverage (logpis : List ℝ) (hne : logpis ≠ []) (alpha : ℝ) (h0 : 0 ≤ alpha) (h1 : alpha ≤ 1) :
    ∃ t, credibleRegionThreshold logpis alpha = .ok t ∧
      ⌊(1 - alpha) * (logpis.length - 1)⌋₊ + 1 ≤ logpis.countP (fun x => inCredibleRegion x t) ∧
      logpis.countP (fun x => decide (x < t)) ≤ ⌈(1 - alpha) * (logpis.length - 1)⌉₊ := by
  have hpos := List.length_pos_iff.mpr hne
  obtain ⟨N, hN⟩ : ∃ N, logpis.length = N + 1 := ⟨logpis.length - 1, by omega⟩
  have hc : (1 - alpha) * ((logpis.length : ℝ) - 1) = N * (1 - alpha) := by rw [hN]; push_cast; ring
  have hm : ∀ i < N, ostat logpis i ≤ ostat logpis (i + 1) := fun i hi => ostat_mono _ (by omega) (by omega)
  have hh0 : 0 ≤ (N : ℝ) * (1 - alpha) := mul_nonneg (Nat.cast_nonneg N) (by linarith)
  have hhN : (N : ℝ) * (1 - alpha) ≤ N := by
    have : (0 : ℝ) ≤ N := Nat.cast_nonneg N
    nlinarith
  have hat : ∀ i ≤ N, tele (ostat logpis) N i = ostat logpis i := by
    intro i hi
    rcases hi.eq_or_lt with rfl | hi
    · exact tele_last _ _ _ le_rfl
    · rw [tele_mid _ N i _ hi le_rfl (by linarith), sub_self, mul_zero, add_zero]
  refine ⟨_, npQuantile_real logpis N hN (1 - alpha) (by linarith) (by linarith), ?_, ?_⟩
  · rw [hc, countP_ostat]
    have hfl : ⌊(N : ℝ) * (1 - alpha)⌋₊ ≤ N := by
      have := Nat.floor_le_floor hhN
      rwa [Nat.floor_natCast] at this
    apply countP_range_lt
    · omega
    · intro i hi
      unfold inCredibleRegion
      rw [if_pos]
      rw [← hat i (by omega)]
      refine tele_mono _ N hm ?_
      exact (Nat.cast_le.mpr (by omega)).trans (Nat.floor_le hh0)
  · rw [hc, countP_ostat]
    apply countP_range_le
    intro i hi hk
    rw [decide_eq_false_iff_not, not_lt, ← hat i (by omega)]
    exact tele_mono _ N hm ((Nat.le_ceil _).trans (Nat.cast_le.mpr hk))

/-- C63: the threshold does not grow with `alpha`. -/
theorem C63_antitone (logpis : List ℝ) (alpha beta : ℝ) (hab : alpha ≤ beta) (t t' : ℝ)
    (ht : credibleRegionThreshold logpis alpha = .ok t) (ht' : credibleRegionThreshold logpis beta = .ok t') : t' ≤ t := by
  unfold credibleRegionThreshold at ht ht'
  by_cases ha : 0 ≤ 1 - alpha ∧ 1 - alpha ≤ 1
  swap
  · rw [npQuantile_bad _ _ _ ha] at ht
    cases ht
  by_cases hb : 0 ≤ 1 - beta ∧ 1 - beta ≤ 1
  swap
  · rw [npQuantile_bad _ _ _ hb] at ht'
    cases ht'
  cases logpis with
  | nil =>
    rw [npQuantile_eq _ _ _ ha.1 ha.2] at ht
    exfalso
    unfold sortedQuantile at ht
    simp only [List.insertionSort_nil, List.length_nil] at ht
    have hg : ∀ k : ℤ, pyGet ([] : List ℝ) k = .error .IndexError := by
      intro k
      simp [pyGet]
    rw [hg] at ht
    cases ht
  | cons x xs =>
    rw [npQuantile_real (x :: xs) xs.length rfl _ ha.1 ha.2] at ht
    rw [npQuantile_real (x :: xs) xs.length rfl _ hb.1 hb.2] at ht'
    rw [← Except.ok.inj ht, ← Except.ok.inj ht']
    exact tele_mono _ _ (fun i hi => ostat_mono _ (by omega) (by simp; omega))
      (mul_le_mul_of_nonneg_left (by linarith) (Nat.cast_nonneg _))

/-- C63: levels outside `[0,1]` are rejected. -/
theorem C63_alpha_checked (logpis : List ℝ) (alpha : ℝ) (h : alpha < 0 ∨ 1 < alpha) :
    credibleRegionThreshold logpis alpha = .error .ValueError := by
  unfold credibleRegionThreshold
  rw [npQuantile_bad]
  rintro ⟨h1, h2⟩
  rcases h with h | h <;> linarith

example : [(3 : ℝ), 1, 2] ≠ [] ∧ (0 : ℝ) ≤ 1 / 20 ∧ (1 / 20 : ℝ) ≤ 1 := ⟨by simp, by norm_num, by norm_num⟩

/-! ## C64 -/

/-- What goes wrong with C64, in general: when the most probable sample is unique among at least two and `alpha > 0`, it is
*never* in the credible region. -/
theorem C64_best_excluded (logpis : List ℝ) (best : ℝ) (hlen : 2 ≤ logpis.length) (hmax : ∀ x ∈ logpis, x ≤ best)
    (hone : logpis.count best = 1) (alpha : ℝ) (h0 : 0 < alpha) (h1 : alpha ≤ 1) (t : ℝ)
    (ht : credibleRegionThreshold logpis alpha = .ok t) : inCredibleRegion best t = false := by
  obtain ⟨N, hN⟩ : ∃ N, logpis.length = (N + 1) + 1 := ⟨logpis.length - 2, by omega⟩
  unfold credibleRegionThreshold at ht
  rw [npQuantile_real logpis (N + 1) hN _ (by linarith) (by linarith)] at ht
  have hm : ∀ i < N + 1, ostat logpis i ≤ ostat logpis (i + 1) := fun i hi => ostat_mono _ (by omega) (by omega)
  have hbest : best ∈ logpis := List.count_pos_iff.mp (by omega)
  have htop : ostat logpis (N + 1) = best := by
    apply le_antisymm (hmax _ (ostat_mem _ (by omega)))
    obtain ⟨i, hi, rfl⟩ := mem_ostat _ hbest
    exact ostat_mono _ (by omega) (by omega)
  have hlt : ostat logpis N < best := by
    refine lt_of_le_of_ne (hmax _ (ostat_mem _ (by omega))) fun he => ?_
    have hc := countP_ostat logpis (fun x => x == best)
    have : logpis.countP (fun x => x == best) = 1 := hone
    rw [this, hN, List.range_succ, List.range_succ, List.countP_append, List.countP_append] at hc
    simp [htop, he] at hc
  have hlast : t < best := by
    rw [← Except.ok.inj ht]
    have hNN : (0 : ℝ) < ((N + 1 : ℕ) : ℝ) := by exact_mod_cast Nat.succ_pos N
    have hh : ((N + 1 : ℕ) : ℝ) * (1 - alpha) < ((N + 1 : ℕ) : ℝ) := by nlinarith
    set h := ((N + 1 : ℕ) : ℝ) * (1 - alpha)
    rcases le_total h N with hc | hc
    · refine lt_of_le_of_lt (tele_mono _ _ hm hc) ?_
      rw [tele_mid _ (N + 1) N _ (by omega) le_rfl (by linarith), sub_self, mul_zero, add_zero]
      exact hlt
    · push_cast at hh
      rw [tele_mid _ (N + 1) N _ (by omega) hc hh.le, htop]
      nlinarith
  unfold inCredibleRegion
  rw [if_neg (not_le.mpr hlast)]

/-- C64 refuted: with log-posteriors `-1` and `-2` at the default level 0.05 the best sample is outside the region. -/
theorem C64_best_in_region_refuted : ¬ ∀ (logpis : List ℝ) (alpha : ℝ) (best t : ℝ), 0 ≤ alpha → alpha ≤ 1 → best ∈ logpis →
    (∀ x ∈ logpis, x ≤ best) → credibleRegionThreshold logpis alpha = .ok t → inCredibleRegion best t = true := by
  intro h
  have hq := npQuantile_real [-1, -2] 1 rfl (1 - 1 / 20) (by norm_num) (by norm_num)
  have hmax : ∀ x ∈ [(-1 : ℝ), -2], x ≤ -1 := by
    intro x hx
    simp only [List.mem_cons, List.not_mem_nil, or_false] at hx
    rcases hx with rfl | rfl <;> norm_num
  have h1 := h [-1, -2] (1 / 20) (-1) _ (by norm_num) (by norm_num) (by simp) hmax hq
  have h2 := C64_best_excluded [-1, -2] (-1) (by simp) hmax (by norm_num [List.count_cons]) (1 / 20) (by norm_num)
    (by norm_num) _ hq
  rw [h1] at h2
  cases h2

/-- C64, the part that holds: the *least* probable sample is in the region at every level (the comparison is the wrong way
round), and the most probable one at level `alpha = 0`, where the region is everything. -/
theorem C64_region_partial (logpis : List ℝ) (alpha t : ℝ) (h0 : 0 ≤ alpha) (h1 : alpha ≤ 1)
    (ht : credibleRegionThreshold logpis alpha = .ok t) :
    (∀ worst ∈ logpis, (∀ x ∈ logpis, worst ≤ x) → inCredibleRegion worst t = true) ∧
    (alpha = 0 → ∀ x ∈ logpis, inCredibleRegion x t = true) := by
  unfold credibleRegionThreshold at ht
  cases hxs : logpis with
  | nil => simp
  | cons y ys =>
    have hN : logpis.length = ys.length + 1 := by rw [hxs]; rfl
    rw [← hxs]
    rw [npQuantile_real logpis ys.length hN _ (by linarith) (by linarith)] at ht
    have hm : ∀ i < ys.length, ostat logpis i ≤ ostat logpis (i + 1) := fun i hi => ostat_mono _ (by omega) (by omega)
    refine ⟨fun w hw hmin => ?_, fun ha x hx => ?_⟩
    · unfold inCredibleRegion
      rw [if_pos]
      refine (hmin _ (ostat_mem logpis (i := 0) (by omega))).trans ?_
      rw [← Except.ok.inj ht, ← tele_zero (ostat logpis) ys.length]
      exact tele_mono _ _ hm (mul_nonneg (Nat.cast_nonneg _) (by linarith))
    · unfold inCredibleRegion
      rw [if_pos]
      obtain ⟨i, hi, rfl⟩ := mem_ostat _ hx
      rw [← Except.ok.inj ht, ha, sub_zero, mul_one, tele_last _ _ _ le_rfl]
      exact ostat_mono _ (by omega) (by omega)

example : ∃ t, credibleRegionThreshold [-3, -1, -2] (1 / 20) = .ok t ∧ [(-3 : ℝ), -1, -2].count (-1) = 1 :=
  ⟨_, npQuantile_real _ 2 rfl _ (by norm_num) (by norm_num), by norm_num [List.count_cons]⟩

/-! ## C74 -/

instance : Std.Total lexLe where
  total a b := by
    unfold lexLe
    rcases lt_trichotomy a.re b.re with h | h | h
    · exact .inl (.inl h)
    · rcases le_total a.im b.im with h2 | h2
      · exact .inl (.inr ⟨h, h2⟩)
      · exact .inr (.inr ⟨h.symm, h2⟩)
    · exact .inr (.inl h)

instance : IsTrans ℂ lexLe where
  trans a b c := by
    rintro (h | ⟨h1, h2⟩) (h' | ⟨h1', h2'⟩)
    · exact .inl (h.trans h')
    · exact .inl (h1' ▸ h)
    · exact .inl (h1 ▸ h')
    · exact .inr ⟨h1.trans h1', h2.trans h2'⟩

theorem lexLe_re {a b : ℂ} (h : lexLe a b) : a.re ≤ b.re := by
  rcases h with h | h
  · exact h.le
  · exact h.1.le

theorem npQuantile_complex_re (xs : List ℂ) (q : ℝ) :
    npQuantile (· ≤ ·) (xs.map Complex.re) q = (npQuantile lexLe xs q).map Complex.re := by
  by_cases hq : 0 ≤ q ∧ q ≤ 1
  · rw [npQuantile_eq _ _ _ hq.1 hq.2, npQuantile_eq _ _ _ hq.1 hq.2]
    have : (xs.map Complex.re).insertionSort (· ≤ ·) = (xs.insertionSort lexLe).map Complex.re := by
      refine List.Perm.eq_of_pairwise' (r := (· ≤ ·)) (List.pairwise_insertionSort _ _) ?_ ?_
      · exact List.pairwise_map.mpr ((List.pairwise_insertionSort lexLe xs).imp fun {a b} h => lexLe_re h)
      · exact (List.perm_insertionSort _ _).trans ((List.perm_insertionSort lexLe xs).symm.map _)
    rw [this, sortedQuantile_map]
    intro a b t
    simp
  · rw [npQuantile_bad _ _ _ hq, npQuantile_bad _ _ _ hq]
    rfl

/-- C74, the part that holds: for a complex chain the real part of the result is the result for the real parts. -/
theorem C74_real_part_partial (C : SampleArr ℂ) (alpha : ℝ) :
    credibleIntervalRange (· ≤ ·) ⟨C.nsamples, C.cols.map fun c => c.map Complex.re⟩ alpha =
      (credibleIntervalRange lexLe C alpha).map fun r => r.map Complex.re := by
  unfold credibleIntervalRange
  by_cases h1 : ¬ (0 ≤ alpha / 2 ∧ alpha / 2 ≤ 1) ∨ ¬ (0 ≤ 1 - alpha / 2 ∧ 1 - alpha / 2 ≤ 1)
  · rw [if_pos h1, if_pos h1]
    rfl
  rw [if_neg h1, if_neg h1]
  by_cases h2 : C.nsamples = 0
  · rw [if_pos h2, if_pos h2]
    rfl
  rw [if_neg h2, if_neg h2]
  simp only [bind, Except.bind, pure, Except.pure]
  induction C.cols with
  | nil => rfl
  | cons c cs ih =>
    rw [List.map_cons, List.mapM_cons, List.mapM_cons, npQuantile_complex_re, npQuantile_complex_re]
    cases npQuantile lexLe c (alpha / 2) with
    | error e => rfl
    | ok lo =>
      cases npQuantile lexLe c (1 - alpha / 2) with
      | error e => rfl
      | ok hi =>
        simp only [Except.map, bind, Except.bind, pure, Except.pure] at ih ⊢
        rw [ih]
        cases List.mapM (m := Py) _ cs with
        | error e => rfl
        | ok r => simp

/-- C74 refuted: the two samples `i` and `1 - i` of one parameter have "width" `1 - 2i` at level 0. -/
theorem C74_complex_width_refuted : ∃ (C : SampleArr ℂ) (w : ℂ), C.WF ∧ 0 < C.nsamples ∧
    credibleIntervalRange lexLe C 0 = .ok [w] ∧ w.im ≠ 0 := by
  refine ⟨⟨2, [[Complex.I, 1 - Complex.I]]⟩, 1 - 2 * Complex.I, fun c hc => ?_, by norm_num, ?_, by simp⟩
  · rw [List.mem_singleton.mp hc]
    rfl
  · rw [ciRange_unfold _ _ _ le_rfl (by norm_num) (by norm_num)]
    have hs : [Complex.I, 1 - Complex.I].insertionSort lexLe = [Complex.I, 1 - Complex.I] := by
      apply List.Pairwise.insertionSort_eq
      simp [lexLe]
    have hlo : npQuantile lexLe [Complex.I, 1 - Complex.I] (0 / 2) = .ok Complex.I := by
      rw [npQuantile_eq _ _ _ (by norm_num) (by norm_num), hs]
      unfold sortedQuantile
      norm_num [pyGet, npLerp, bind, Except.bind, pure, Except.pure]
    have hhi : npQuantile lexLe [Complex.I, 1 - Complex.I] (1 - 0 / 2) = .ok (1 - Complex.I) := by
      rw [npQuantile_eq _ _ _ (by norm_num) (by norm_num), hs]
      unfold sortedQuantile
      norm_num [pyGet, npLerp, bind, Except.bind, pure, Except.pure]
    simp only [List.mapM_cons, List.mapM_nil, hlo, hhi, bind, Except.bind, pure, Except.pure]
    congr 2
    ring

end Pxmcmc
