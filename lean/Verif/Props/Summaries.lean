import Verif.Model.Scripts
import Verif.Props.MassSheet
import Verif.Props.Areas
import Verif.Props.Uncertainty
import Verif.Props.Saving
import Verif.Lemmas.Soft

/-! # C105, C107, C108: summaries printed by the plot scripts, result files, wavelet intervals -/

namespace Pxmcmc
open Real

/-! ## C105: relative squared error -/

theorem relSqError_eq {n : ℕ} (p o : Fin n → ℂ) : relSqError (List.ofFn p) (List.ofFn o) =
    .ok ((npNorm (List.ofFn fun i => p i - o i) / npNorm (List.ofFn o)) ^ 2) := by
  unfold relSqError npSub
  rw [bcast_eq _ _ (by simp), zip_ofFn]
  simp only [bind, Except.bind]
  rw [map_ofFn']

theorem npNorm_ofFn {n : ℕ} (x : Fin n → ℂ) : npNorm (List.ofFn x) = √(∑ i, ‖x i‖ ^ 2) := by
  unfold npNorm
  rw [map_ofFn', List.sum_ofFn]

theorem npNorm_eq_zero {n : ℕ} (x : Fin n → ℂ) : npNorm (List.ofFn x) = 0 ↔ x = 0 := by
  rw [npNorm_ofFn, Real.sqrt_eq_zero (Finset.sum_nonneg fun i _ => by positivity),
    Finset.sum_eq_zero_iff_of_nonneg fun i _ => by positivity]
  constructor
  · intro h
    funext i
    simpa using h i (Finset.mem_univ i)
  · rintro rfl
    simp

/-- C105: the printed relative squared error is `Σ|p-o|² / Σ|o|²`; it is zero exactly for exact predictions, one for the zero
prediction, and in decibels it is the negated signal-to-noise ratio of the residual. -/
theorem C105_relative_error {n : ℕ} (p o : Fin n → ℂ) (ho : o ≠ 0) :
    ∃ r, relSqError (List.ofFn p) (List.ofFn o) = .ok r ∧ r = (∑ i, ‖p i - o i‖ ^ 2) / ∑ i, ‖o i‖ ^ 2 ∧
      0 ≤ r ∧ (r = 0 ↔ p = o) ∧ (p = 0 → r = 1) ∧
      (p ≠ o → snr (List.ofFn o) (List.ofFn fun i => p i - o i) = -(10 * logb 10 r)) := by
  have hs : 0 < ∑ i, ‖o i‖ ^ 2 := by
    refine lt_of_le_of_ne (Finset.sum_nonneg fun i _ => by positivity) fun h => ?_
    apply ho
    rw [← npNorm_eq_zero, npNorm_ofFn, ← h, Real.sqrt_zero]
  have hd : 0 ≤ ∑ i, ‖p i - o i‖ ^ 2 := Finset.sum_nonneg fun i _ => by positivity
  have e : (npNorm (List.ofFn fun i => p i - o i) / npNorm (List.ofFn o)) ^ 2 =
      (∑ i, ‖p i - o i‖ ^ 2) / ∑ i, ‖o i‖ ^ 2 := by
    rw [npNorm_ofFn, npNorm_ofFn, div_pow, Real.sq_sqrt hd, Real.sq_sqrt hs.le]
  refine ⟨_, relSqError_eq p o, e, by positivity, ?_, ?_, ?_⟩
  · rw [pow_eq_zero_iff (by norm_num), div_eq_zero_iff, npNorm_eq_zero, npNorm_eq_zero]
    constructor
    · rintro (h | h)
      · funext i
        exact sub_eq_zero.mp (congrFun h i)
      · exact absurd h ho
    · rintro rfl
      left
      funext i
      simp
  · rintro rfl
    rw [e]
    simp only [Pi.zero_apply, zero_sub, norm_neg]
    exact div_self hs.ne'
  · intro hne
    have h1 : npNorm (List.ofFn o) ≠ 0 := fun h => ho ((npNorm_eq_zero o).mp h)
    have h2 : npNorm (List.ofFn fun i => p i - o i) ≠ 0 := by
      intro h
      apply hne
      funext i
      exact sub_eq_zero.mp (congrFun ((npNorm_eq_zero _).mp h) i)
    unfold snr
    rw [← Real.rpow_natCast, Real.logb_rpow_eq_mul_logb_of_pos, Real.logb_div h1 h2, Real.logb_div h2 h1]
    · push_cast; ring
    · exact div_pos (lt_of_le_of_ne (npNorm_nonneg _) h2.symm) (lt_of_le_of_ne (npNorm_nonneg _) h1.symm)

theorem relSqError_scale (c : ℂ) (hc : c ≠ 0) {n : ℕ} (p o : Fin n → ℂ) :
    relSqError (List.ofFn fun i => c * p i) (List.ofFn fun i => c * o i) = relSqError (List.ofFn p) (List.ofFn o) := by
  rw [relSqError_eq, relSqError_eq]
  have h1 : (List.ofFn fun i => c * p i - c * o i) = (List.ofFn fun i => p i - o i).map fun a => c * a := by
    rw [map_ofFn']; congr 1; funext i; ring
  have h2 : (List.ofFn fun i => c * o i) = (List.ofFn o).map fun a => c * a := by rw [map_ofFn']
  rw [h1, h2, npNorm_smul, npNorm_smul, mul_div_mul_left _ _ (norm_ne_zero_iff.mpr hc)]

/-- The weights of the two operators: without counts they are one, with `N` galaxies everywhere they are `√(2N/var_e)`. -/
theorem WL_const (L : ℤ) (mask : Option (NdArr Bool)) (hm : ∀ m, mask = some m → m.WF) (N : ℝ) (w w1 : WL)
    (h : WL.init L mask (some ⟨[L.toNat, 2 * L.toNat - 1], List.replicate (L.toNat * (2 * L.toNat - 1)) N⟩) = .ok w)
    (h1 : WL.init L mask none = .ok w1) : w.L = w1.L ∧ w.kernel = w1.kernel ∧ w.mask = w1.mask ∧
      w1.invCov = List.replicate (w1.mask.data.count true) 1 ∧
      w.invCov = List.replicate (w1.mask.data.count true) √(2 * N / varE) := by
  have hs := WL_init_spec L mask _ w hm (by rintro g ⟨rfl⟩; simp [NdArr.WF]) h
  have hs1 := WL_init_spec L mask none w1 hm (by simp) h1
  unfold WL.init at h h1
  obtain ⟨k, hk, h⟩ := bind_ok h
  obtain ⟨ic, hic, h⟩ := bind_ok h
  obtain ⟨k', hk', h1⟩ := bind_ok h1
  obtain ⟨ic', hic', h1⟩ := bind_ok h1
  rw [hk] at hk'
  injection hk' with hk'
  subst hk'
  split at h
  · cases h
  rename_i hsh
  rw [if_neg hsh] at h1
  injection h with h
  injection h1 with h1
  subst h h1
  rw [not_not] at hsh
  simp only at hs hs1 ⊢
  have hwf := hs1.2.2.1
  have hml : (wlMask L.toNat mask).data.length = L.toNat * (2 * L.toNat - 1) := by
    unfold NdArr.WF at hwf
    rw [hwf, hsh]; simp
  have hrep : ∀ (v : ℝ), ∀ x ∈ keep (List.replicate (L.toNat * (2 * L.toNat - 1)) v) (wlMask L.toNat mask).data, x = v := by
    intro v x hx
    unfold keep at hx
    obtain ⟨q, hq, rfl⟩ := List.mem_map.mp hx
    exact List.eq_of_mem_replicate (List.of_mem_zip (List.mem_filter.mp hq).1).1
  refine ⟨trivial, trivial, trivial, ?_, ?_⟩
  · refine List.eq_replicate_iff.mpr ⟨hs1.2.2.2, fun x hx => ?_⟩
    simp only [wlInvCov] at hic'
    rw [maskForward_eq _ _ hwf hsh _ (by simp [hml])] at hic'
    injection hic' with hic'
    rw [← hic'] at hx
    exact hrep 1 x hx
  · refine List.eq_replicate_iff.mpr ⟨hs.2.2.2, fun x hx => ?_⟩
    simp only [wlInvCov, ngalToInvCov] at hic
    rw [maskForward_eq _ _ hwf hsh _ (by simp [hml])] at hic
    simp only [bind, Except.bind] at hic
    injection hic with hic
    rw [← hic] at hx
    obtain ⟨y, hy, rfl⟩ := List.mem_map.mp hx
    rw [hrep N y hy]

/-- C105: leaving out constant galaxy counts, as the plot script does, does not change the relative squared error of the
weak-lensing predictions. -/
theorem C105_constant_counts (L : ℤ) (mask : Option (NdArr Bool)) (hm : ∀ m, mask = some m → m.WF) (N : ℝ) (hN : 0 < N)
    (w w1 : WL)
    (h : WL.init L mask (some ⟨[L.toNat, 2 * L.toNat - 1], List.replicate (L.toNat * (2 * L.toNat - 1)) N⟩) = .ok w)
    (h1 : WL.init L mask none = .ok w1) (T : Ssht)
    (hi : ∀ f, f.length = w1.L ^ 2 → (T.inv2 f).length = w1.L * (2 * w1.L - 1))
    (hf : ∀ f, f.length = w1.L * (2 * w1.L - 1) → (T.fwd0 f).length = w1.L ^ 2)
    (k k' : List ℂ) (hk : k.length = w1.L * (2 * w1.L - 1)) (hk' : k'.length = w1.L * (2 * w1.L - 1)) :
    ∃ p o p1 o1, w.forward T k = .ok p ∧ w.forward T k' = .ok o ∧ w1.forward T k = .ok p1 ∧ w1.forward T k' = .ok o1 ∧
      relSqError p o = relSqError p1 o1 := by
  obtain ⟨eL, eK, eM, c1, c⟩ := WL_const L mask hm N w w1 h h1
  obtain ⟨hker, hshape, hwf, hic⟩ := WL_init_spec L mask none w1 hm (by simp) h1
  have hml : w1.mask.data.length = w1.L * (2 * w1.L - 1) := by
    unfold NdArr.WF at hwf
    rw [hwf, hshape]; simp [WL.shape]
  obtain ⟨κ, hκ, -, H1⟩ := WL_forward_eq L mask none w1 hm (by simp) h1 T hi
  have H : ∀ kappa : List ℂ, kappa.length = w1.L * (2 * w1.L - 1) → ∃ s : Fin (w1.mask.data.count true) → ℂ,
      w1.forward T kappa = .ok (List.ofFn s) ∧ w.forward T kappa = .ok (List.ofFn fun i => (√(2 * N / varE) : ℂ) * s i) := by
    intro kappa hkap
    obtain ⟨x, hx⟩ := exists_ofFn _ (hf kappa hkap)
    have e1 := H1 kappa hkap x hx
    have l3 : (T.inv2 (List.ofFn fun i => if i.val < 4 then 0 else x i * (κ i : ℂ))).length = w1.mask.data.length := by
      rw [hi _ (by simp), hml]
    obtain ⟨s, hs⟩ := exists_ofFn (keep (T.inv2 (List.ofFn fun i => if i.val < 4 then 0 else x i * (κ i : ℂ)))
      w1.mask.data) (keep_length _ _ l3)
    have hr : ∀ v : ℝ, List.replicate (w1.mask.data.count true) v = List.ofFn fun _ : Fin (w1.mask.data.count true) => v :=
      fun v => (List.ofFn_const _ v).symm
    refine ⟨s, ?_, ?_⟩
    · rw [e1, hs, c1, hr, zip_ofFn, map_ofFn']
      congr 2
      funext i
      simp
    · unfold WL.forward
      rw [eL, if_neg (not_not.mpr hkap), hx]
      have hM : harmonicMapping (List.ofFn κ) (List.ofFn x) =
        .ok (List.ofFn fun i => if i.val < 4 then 0 else x i * (κ i : ℂ)) := harmonicMapping_ofFn κ x
      have esh : w.shape = w1.shape := by simp only [WL.shape, eL]
      simp only [wlHarmonicForward, eK, hκ, hM, bind, Except.bind, eM, esh]
      rw [maskForward_eq _ _ hwf hshape _ l3]
      simp only
      rw [hs, covWeight_ofFn w (fun _ => √(2 * N / varE)) (by rw [c, hr])]
      congr 2
      funext i
      ring
  obtain ⟨p1, a1, a2⟩ := H k hk
  obtain ⟨o1, b1, b2⟩ := H k' hk'
  refine ⟨_, _, _, _, a2, b2, a1, b1, relSqError_scale _ ?_ p1 o1⟩
  have : 0 < 2 * N / varE := by unfold varE; positivity
  exact_mod_cast (Real.sqrt_pos.mpr this).ne'

/-- C105 is not vacuous: two data, one predicted wrongly. -/
example : (![1, 2] : Fin 2 → ℂ) ≠ 0 ∧ (![1, 0] : Fin 2 → ℂ) ≠ ![1, 2] := by
  constructor <;> intro h
  · have := congrFun h 0; simp at this
  · have := congrFun h 1; simp at this

/-! ## C107: names of result files -/

theorem digitChar_inj (a b : ℕ) (ha : a < 10) (hb : b < 10) (h : Nat.digitChar a = Nat.digitChar b) : a = b := by
  have key : ∀ a : Fin 10, ∀ b : Fin 10, Nat.digitChar a = Nat.digitChar b → a = b := by decide
  exact congrArg Fin.val (key ⟨a, ha⟩ ⟨b, hb⟩ h)

/-- The fields of a `datetime`. -/
def Stamp.Valid (t : Stamp) : Prop := t.day < 100 ∧ t.month < 100 ∧ t.hour < 100 ∧ t.minute < 100 ∧ t.second < 100

/-- Two moments in the same second of the same day, up to the century. -/
def Spec.sameSecond (t u : Stamp) : Prop :=
  t.day = u.day ∧ t.month = u.month ∧ t.year % 100 = u.year % 100 ∧ t.hour = u.hour ∧ t.minute = u.minute ∧ t.second = u.second

theorem format_inj (t u : Stamp) (ht : t.Valid) (hu : u.Valid) (x y : List Char)
    (h : t.format ++ '_' :: x = u.format ++ '_' :: y) : Spec.sameSecond t u ∧ x = y := by
  obtain ⟨t1, t2, t3, t4, t5⟩ := ht
  obtain ⟨u1, u2, u3, u4, u5⟩ := hu
  simp only [Stamp.format, two, List.cons_append, List.nil_append, List.cons.injEq, true_and] at h
  obtain ⟨a1, a2, a3, a4, a5, a6, a7, a8, a9, b1, b2, b3, e⟩ := h
  have H : ∀ m n : ℕ, m < 100 → n < 100 → Nat.digitChar (m / 10 % 10) = Nat.digitChar (n / 10 % 10) →
      Nat.digitChar (m % 10) = Nat.digitChar (n % 10) → m = n := by
    intro m n hm hn h1 h2
    have e1 := digitChar_inj _ _ (by omega) (by omega) h1
    have e2 := digitChar_inj _ _ (by omega) (by omega) h2
    omega
  exact ⟨⟨H _ _ t1 u1 a1 a2, H _ _ t2 u2 a3 a4, H _ _ (by omega) (by omega) a5 a6, H _ _ t3 u3 a7 a8, H _ _ t4 u4 a9 b1,
    H _ _ t5 u5 b2 b3⟩, e⟩

/-- The values the scripts accept for `--algo` and `--setting`. -/
def Spec.knownRun (algo setting : String) : Prop :=
  (algo = "myula" ∨ algo = "pxmala" ∨ algo = "skrock") ∧ (setting = "analysis" ∨ setting = "synthesis")

/-- C107: two runs have the same file name exactly if they agree in algorithm, setting and job id and were started in the same
second (of some century). -/
theorem C107_name_unique (a a' s s' j j' : String) (t t' : Stamp) (h : Spec.knownRun a s) (h' : Spec.knownRun a' s')
    (ht : t.Valid) (ht' : t'.Valid) :
    runName a s t j = runName a' s' t' j' ↔ a = a' ∧ s = s' ∧ j = j' ∧ Spec.sameSecond t t' := by
  constructor
  · intro e
    have e := String.ofList_injective e
    have hj : ∀ x y : String, x.toList = y.toList → x = y := fun x y hxy => String.toList_injective hxy
    obtain ⟨ha, hs⟩ := h
    obtain ⟨ha', hs'⟩ := h'
    have key : a = a' ∧ s = s' ∧ t.format ++ '_' :: j.toList = t'.format ++ '_' :: j'.toList := by
      rcases ha with rfl | rfl | rfl <;> rcases ha' with rfl | rfl | rfl <;> rcases hs with rfl | rfl <;>
        rcases hs' with rfl | rfl <;> simp at e <;> exact ⟨rfl, rfl, by simpa using e⟩
    obtain ⟨k1, k2⟩ := format_inj t t' ht ht' _ _ key.2.2
    exact ⟨key.1, key.2.1, hj _ _ k2, k1⟩
  · rintro ⟨rfl, rfl, rfl, h1, h2, h3, h4, h5, h6⟩
    unfold runName Stamp.format
    rw [h1, h2, h3, h4, h5, h6]

theorem savePath_inj (out n n' : String) (h : ¬ "/".toList <+: n.toList) (h' : ¬ "/".toList <+: n'.toList)
    (e : savePath out n = savePath out n') : n = n' := by
  have hsl : ∀ m : String, ¬ "/".toList <+: m.toList → (m ++ ".hdf5").startsWith "/" = false := by
    intro m hm
    rw [String.startsWith_string_eq_false_iff, String.toList_append]
    intro hp
    apply hm
    cases hl : m.toList with
    | nil =>
      rw [hl] at hp
      exact absurd hp (by decide)
    | cons c l =>
      rw [hl] at hp
      obtain ⟨r, hr⟩ := hp
      have hc : '/' = c := by
        have := congrArg List.head? hr
        simpa using this
      subst hc
      exact ⟨l, rfl⟩
  unfold savePath pathJoin at e
  simp only [hsl n h, hsl n' h', Bool.false_eq_true, if_false] at e
  split at e
  · have e := congrArg String.toList e
    simp only [String.toList_append] at e
    exact String.toList_injective (List.append_cancel_right (List.append_cancel_left e))
  · have e := congrArg String.toList e
    simp only [String.toList_append] at e
    exact String.toList_injective (List.append_cancel_right (List.append_cancel_left e))

theorem runName_no_slash (a s j : String) (t : Stamp) (h : Spec.knownRun a s) :
    ¬ "/".toList <+: (runName a s t j).toList := by
  obtain ⟨ha, -⟩ := h
  unfold runName
  rw [String.toList_ofList]
  rintro ⟨r, hr⟩
  have := congrArg List.head? hr
  rcases ha with rfl | rfl | rfl <;> simp at this

/-- C107 (partial): the results of a run stay as they are when a later run saves into the same directory, unless algorithm,
setting, job id and second agree.  Missing: runs that agree in all four, see `C107_overwritten_refuted`. -/
theorem C107_preserved_partial {V : Type} (st : V → Bool) (openable : String → Bool) (D : Disk V) (m m' : McmcObj)
    (params params' kwargs kwargs' : List (String × V)) (out a a' s s' j j' : String) (t t' : Stamp)
    (h : Spec.knownRun a s) (h' : Spec.knownRun a' s') (ht : t.Valid) (ht' : t'.Valid)
    (hne : ¬ (a = a' ∧ s = s' ∧ j = j' ∧ Spec.sameSecond t t')) :
    let D1 := (saveMcmc st openable D m params out (runName a s t j) kwargs).1
    let D2 := (saveMcmc st openable D1 m' params' out (runName a' s' t' j') kwargs').1
    D2 (savePath out (runName a s t j)) = D1 (savePath out (runName a s t j)) := by
  intro D1 D2
  refine (C66_preserved_partial st openable D1 m' params' kwargs' out (runName a' s' t' j')).2.1 _ fun e => hne ?_
  exact (C107_name_unique a a' s s' j j' t t' h h' ht ht').mp
    (savePath_inj out _ _ (runName_no_slash a s j t h) (runName_no_slash a' s' j' t' h') e)

/-- C107 is false in general: two runs started within one second with the same job id (say the default) write the same file, and
only the later chain is left. -/
theorem C107_overwritten_refuted : ∃ (t : Stamp) (m m' : McmcObj), t.Valid ∧
    let D1 := (saveMcmc (fun _ : ℕ => true) (fun _ => true) (fun _ => none) m [] "." (runName "myula" "synthesis" t "0") []).1
    let D2 := (saveMcmc (fun _ : ℕ => true) (fun _ => true) D1 m' [] "." (runName "myula" "synthesis" t "0") []).1
    (D1 (savePath "." (runName "myula" "synthesis" t "0"))).bind (fun f => f.ds "chain") = some (.mat [[1]]) ∧
    (D2 (savePath "." (runName "myula" "synthesis" t "0"))).bind (fun f => f.ds "chain") = some (.mat [[2]]) := by
  refine ⟨⟨16, 11, 2026, 5, 30, 0⟩, ⟨⟨none, none, none, none, some [[1]]⟩, none, none⟩,
    ⟨⟨none, none, none, none, some [[2]]⟩, none, none⟩, by simp [Stamp.Valid], ?_⟩
  simp [saveMcmc, saveOps, optOp, runOps, FileOp.run, H5File.empty]

example : Spec.knownRun "myula" "synthesis" ∧ Spec.knownRun "skrock" "analysis" ∧ (⟨16, 11, 2026, 5, 30, 0⟩ : Stamp).Valid ∧
    ¬ ("0" = "1" ∧ True) :=
  ⟨⟨Or.inl rfl, Or.inr rfl⟩, ⟨Or.inr (Or.inr rfl), Or.inl rfl⟩, by simp [Stamp.Valid], by simp⟩

/-! ## C108: per-scale credible intervals in the phase-velocity plots -/

/-- C108 is false in the analysis setting: a chain of images has `L(2L-1)` columns, but the scales need more (the finest one
alone needs all of them), so `experiments/phasevel/plot.py:119-121` raises `ValueError` for every chain. -/
theorem C108_analysis_refuted (C : SampleArr ℝ) (L : ℕ) (hw : C.WF) (hc : C.cols.length = L * (2 * L - 1)) (N : ℕ)
    (hn : C.nsamples = N + 1) (b0 : ℕ) (bs : List ℕ) (hb0 : 1 ≤ b0) (hL : L ∈ bs) :
    waveletCredibleIntervalRange (· ≤ ·) C (b0 :: bs) (1 / 20) = .error .ValueError := by
  refine (C62_rejects _ C (1 / 20) (b0 :: bs)).1 _ (ciRange_real C hw N hn _ (by norm_num) (by norm_num)) ?_
  rw [hc, List.map_cons, List.sum_cons]
  have h1 : L * (2 * L - 1) ≤ (bs.map fun bl => bl * (2 * bl - 1)).sum :=
    List.single_le_sum (by simp) _ (List.mem_map.mpr ⟨L, hL, rfl⟩)
  have h2 : 1 ≤ b0 * (2 * b0 - 1) := Nat.one_le_iff_ne_zero.mpr (by
    rw [Nat.mul_ne_zero_iff]; omega)
  omega

/-- C108 (partial): in the synthesis setting, where a row is the scaling coefficients followed by the wavelet coefficients, there
is one map per scale; the first holds the ranges of the scaling coefficients, and together they hold all ranges in order.
Missing: the analysis setting. -/
theorem C108_synthesis_partial (C : SampleArr ℝ) (hw : C.WF) (N : ℕ) (hn : C.nsamples = N + 1) (b0 : ℕ) (bs : List ℕ)
    (scal wav : List (List ℝ)) (hc : C.cols = scal ++ wav) (hs : scal.length = b0 * (2 * b0 - 1))
    (hwv : wav.length = (bs.map fun b => b * (2 * b - 1)).sum) :
    ∃ m0 ms rs rw, waveletCredibleIntervalRange (· ≤ ·) C (b0 :: bs) (1 / 20) = .ok (m0 :: ms) ∧ ms.length = bs.length ∧
      credibleIntervalRange (· ≤ ·) (⟨C.nsamples, scal⟩ : SampleArr ℝ) (1 / 20) = .ok rs ∧
      credibleIntervalRange (· ≤ ·) (⟨C.nsamples, wav⟩ : SampleArr ℝ) (1 / 20) = .ok rw ∧
      m0.data = rs ∧ (ms.map NdArr.data).flatten = rw := by
  have hr := ciRange_real C hw N hn (1 / 20) (by norm_num) (by norm_num)
  obtain ⟨maps, h1, h2, -, h4⟩ := C62_partition (fun a b : ℝ => a ≤ b) C (1 / 20) _ hr (b0 :: bs) (by
    rw [hc, List.length_append, hs, hwv]; simp)
  have h4 := h4 (by rw [hc, List.length_append, hs, hwv]; simp)
  cases h2 with
  | cons ha hb =>
    rename_i m0 ms _
    have hrs := ciRange_real ⟨C.nsamples, scal⟩ (fun c hcm => hw c (by rw [hc]; exact List.mem_append_left _ hcm)) N hn (1 / 20)
      (by norm_num) (by norm_num)
    have hrw := ciRange_real ⟨C.nsamples, wav⟩ (fun c hcm => hw c (by rw [hc]; exact List.mem_append_right _ hcm)) N hn (1 / 20)
      (by norm_num) (by norm_num)
    refine ⟨m0, ms, _, _, h1, hb.length_eq.symm, hrs, hrw, ?_⟩
    rw [List.map_cons, List.flatten_cons] at h4
    simp only [hc, List.map_append] at h4
    refine List.append_inj h4 ?_
    rw [ha.2, List.length_map, hs]

example : ∃ C : SampleArr ℝ, C.WF ∧ C.nsamples = 1 + 1 ∧ C.cols.length = 2 * (2 * 2 - 1) ∧ (2 : ℕ) ∈ [2] :=
  ⟨⟨2, List.replicate 6 [1, 3]⟩, fun c hc => by rw [List.eq_of_mem_replicate hc]; rfl, rfl, rfl, by simp⟩

example : ∃ (C : SampleArr ℝ) (scal wav : List (List ℝ)), C.WF ∧ C.nsamples = 1 + 1 ∧ C.cols = scal ++ wav ∧
    scal.length = 1 * (2 * 1 - 1) ∧ wav.length = ([2].map fun b => b * (2 * b - 1)).sum :=
  ⟨⟨2, List.replicate 7 [1, 3]⟩, List.replicate 1 [1, 3], List.replicate 6 [1, 3],
    fun c hc => by rw [List.eq_of_mem_replicate hc]; rfl, rfl, rfl, rfl, rfl⟩

end Pxmcmc
