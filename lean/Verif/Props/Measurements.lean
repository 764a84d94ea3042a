import Verif.Model.Measurements
import Verif.Spec
import Verif.Lemmas.Arrays
import Verif.Lemmas.PyLemmas

/-! # Properties C27–C34: measurement operators (`pxmcmc/measurements.py`) -/

namespace Pxmcmc
open ComplexConjugate

/-! ## Helper lemmas -/

section
variable {𝕜 : Type} [RCLike 𝕜] {n m : ℕ}

theorem exists_ofFn {α : Type} (l : List α) (h : l.length = n) : ∃ f : Fin n → α, l = List.ofFn f := by
  subst h
  exact ⟨fun i => l[i], by apply List.ext_getElem <;> simp⟩

theorem listInner_ofFn (x y : Fin n → 𝕜) : Spec.listInner (List.ofFn x) (List.ofFn y) = Spec.inner x y := by
  unfold Spec.listInner Spec.inner
  rw [zip_ofFn, map_ofFn', List.sum_ofFn]

theorem matDot_ofFn (A : Matrix (Fin n) (Fin m) 𝕜) (x : Fin m → 𝕜) :
    matDot A (List.ofFn x) = .ok (List.ofFn (A.mulVec x)) := by
  unfold matDot
  rw [dif_pos (by simp)]
  congr 3
  funext j
  simp

/-- `⟨y, A x⟩ = ⟨Aᴴ y, x⟩`. -/
theorem inner_mulVec (A : Matrix (Fin n) (Fin m) 𝕜) (x : Fin m → 𝕜) (y : Fin n → 𝕜) :
    Spec.inner y (A.mulVec x) = Spec.inner (A.conjTranspose.mulVec y) x := by
  unfold Spec.inner Matrix.mulVec dotProduct
  simp only [Finset.mul_sum, map_sum, Finset.sum_mul, Matrix.conjTranspose_apply]
  rw [Finset.sum_comm]
  apply Finset.sum_congr rfl
  intro j _
  apply Finset.sum_congr rfl
  intro i _
  simp only [map_mul, RCLike.star_def, RCLike.conj_conj]
  ring

/-! ## C27 -/

/-- C27: forward keeps the first entries and pads with zeros. -/
theorem C27_forward (ndata npix : ℕ) (X : Fin npix → 𝕜) :
    identityForward ndata npix (List.ofFn X) =
      .ok (List.ofFn fun i : Fin ndata => if h : i.val < npix then X ⟨i, h⟩ else 0) := by
  unfold identityForward
  rw [if_pos (by simp), matDot_ofFn]
  congr 2
  funext i
  simp only [Matrix.mulVec, dotProduct, eye, ite_mul, one_mul, zero_mul]
  split
  · rename_i h
    rw [Finset.sum_eq_single (⟨i, h⟩ : Fin npix)]
    · simp
    · intro j _ hj
      rw [if_neg]
      intro h'; apply hj; ext; exact h'.symm
    · simp
  · rename_i h
    apply Finset.sum_eq_zero
    intro j _
    rw [if_neg]
    have := j.2; omega

/-- C27: `forward` and `adjoint` form an adjoint pair. -/
theorem C27_adjoint (ndata npix : ℕ) (X : Fin npix → 𝕜) (Y : Fin ndata → 𝕜) :
    ∃ (a : Fin ndata → 𝕜) (b : Fin npix → 𝕜), identityForward ndata npix (List.ofFn X) = .ok (List.ofFn a) ∧
      identityAdjoint ndata npix (List.ofFn Y) = .ok (List.ofFn b) ∧ Spec.inner Y a = Spec.inner b X := by
  refine ⟨_, _, ?_, ?_, inner_mulVec (eye ndata npix) X Y⟩
  · unfold identityForward; rw [if_pos (by simp), matDot_ofFn]
  · unfold identityAdjoint; rw [if_pos (by simp), matDot_ofFn]

/-- C27: with equal sizes both maps are the identity. -/
theorem C27_square (N : ℕ) (X : List 𝕜) (hX : X.length = N) :
    identityForward N N X = .ok X ∧ identityAdjoint N N X = .ok X := by
  obtain ⟨x, rfl⟩ := exists_ofFn X hX
  have h1 : identityForward N N (List.ofFn x) = .ok (List.ofFn x) := by
    rw [C27_forward]
    congr 2
    funext i
    simp
  refine ⟨h1, ?_⟩
  have e : (eye N N : Matrix (Fin N) (Fin N) 𝕜).conjTranspose = eye N N := by
    ext i j
    simp only [Matrix.conjTranspose_apply, eye]
    by_cases h : j.val = i.val
    · simp [h]
    · have : i.val ≠ j.val := fun h' => h h'.symm
      simp [h, this]
  unfold identityAdjoint
  rw [if_pos (by simp), e]
  unfold identityForward at h1
  rwa [if_pos (by simp)] at h1

/-- C27: wrong lengths are rejected. -/
theorem C27_wrong_length (ndata npix : ℕ) (X : List 𝕜) :
    (X.length ≠ npix → identityForward ndata npix X = .error .AssertionError) ∧
    (X.length ≠ ndata → identityAdjoint ndata npix X = .error .AssertionError) :=
  ⟨fun h => by simp [identityForward, h], fun h => by simp [identityAdjoint, h]⟩

example : identityForward 3 2 ([5, 7] : List ℝ) = .ok [5, 7, 0] := by
  have := C27_forward 3 2 (![5, 7] : Fin 2 → ℝ)
  simpa [List.ofFn_succ] using this

/-! ## C28 -/

/-- C28: `forward`/`adjoint` of `PathIntegral` are adjoint, for every complex (or real) matrix. -/
theorem C28_adjoint (A : Matrix (Fin n) (Fin m) 𝕜) (X : Fin m → 𝕜) (Y : Fin n → 𝕜) :
    ∃ (a : Fin n → 𝕜) (b : Fin m → 𝕜), pathForward A (List.ofFn X) = .ok (List.ofFn a) ∧
      (∀ i, a i = ∑ j, A i j * X j) ∧
      pathAdjoint A (List.ofFn Y) = .ok (List.ofFn b) ∧ Spec.inner Y a = Spec.inner b X := by
  refine ⟨A.mulVec X, _, ?_, fun i => rfl, ?_, inner_mulVec A X Y⟩
  · unfold pathForward; rw [if_pos (by simp), matDot_ofFn]
  · unfold pathAdjoint; rw [if_pos (by simp), matDot_ofFn]

/-- C28: wrong lengths are rejected. -/
theorem C28_wrong_length (A : Matrix (Fin n) (Fin m) 𝕜) (X : List 𝕜) :
    (X.length ≠ m → pathForward A X = .error .AssertionError) ∧
    (X.length ≠ n → pathAdjoint A X = .error .AssertionError) :=
  ⟨fun h => by simp [pathForward, h], fun h => by simp [pathAdjoint, h]⟩

example : ([1, 2] : List ℝ).length ≠ 3 := by decide

end

/-! ## C29 -/

theorem fold_set (f : ℕ × ℤ → ℝ) : ∀ (vals : List (ℕ × ℤ)) (k : List ℝ) (i : ℕ), i + vals.length ≤ k.length →
    vals.foldlM (init := (k, i)) (fun s lm => do
      let k ← pySet s.1 s.2 (f lm)
      (.ok (k, s.2 + 1) : Py (List ℝ × ℕ))) =
    .ok (k.take i ++ vals.map f ++ k.drop (i + vals.length), i + vals.length) := by
  intro vals
  induction vals with
  | nil => intro k i _; simp [pure, Except.pure]
  | cons v vs ih =>
    intro k i h
    simp only [List.length_cons] at h
    rw [List.foldlM_cons]
    have h1 : pySet k i (f v) = .ok (k.set i (f v)) := by simp [pySet]; omega
    simp only [h1, bind, Except.bind]
    have := ih (k.set i (f v)) (i + 1) (by simp; omega)
    simp only [bind, Except.bind] at this
    rw [this]
    have h2 : (k.set i (f v)).take (i + 1) = k.take i ++ [f v] := by
      rw [List.take_add_one]
      simp [List.take_set_of_le, show i < k.length by omega]
    have h3 : (k.set i (f v)).drop (i + 1 + vs.length) = k.drop (i + (vs.length + 1)) := by
      rw [List.drop_set_of_lt (by omega)]
      congr 1; omega
    rw [h2, h3]
    simp only [List.length_cons, List.map_cons, List.append_assoc, List.cons_append, List.nil_append]
    congr 2
    omega

/-- The values written by the loop. -/
noncomputable def kernelVals (d : ℕ) : List ℝ :=
  (List.range' 2 d).flatMap fun (l : ℕ) => List.replicate (2 * l + 1) (kernelValue l)

theorem kernelVals_succ (d : ℕ) : kernelVals (d + 1) =
    kernelVals d ++ List.replicate (2 * (d + 2) + 1) (kernelValue (d + 2)) := by
  unfold kernelVals
  rw [List.range'_concat]
  simp [add_comm]

theorem kernelVals_length (d : ℕ) : (kernelVals d).length + 4 = (d + 2) ^ 2 := by
  induction d with
  | zero => simp [kernelVals]
  | succ d ih =>
    rw [kernelVals_succ, List.length_append, List.length_replicate]
    nlinarith

theorem kernelVals_get (d p l : ℕ) (h2 : 2 ≤ l) (hl : l < d + 2) (h1 : l ^ 2 ≤ p + 4) (h3 : p + 4 < (l + 1) ^ 2) :
    (kernelVals d)[p]? = some (kernelValue l) := by
  induction d with
  | zero => omega
  | succ d ih =>
    rw [kernelVals_succ]
    have hlen := kernelVals_length d
    rcases Nat.lt_or_ge l (d + 2) with h | h
    · have : (l + 1) ^ 2 ≤ (d + 2) ^ 2 := Nat.pow_le_pow_left h 2
      rw [List.getElem?_append_left (by omega)]
      exact ih h
    · obtain rfl : l = d + 2 := by omega
      have e : (d + 2 + 1) ^ 2 = (d + 2) ^ 2 + (2 * (d + 2) + 1) := by ring
      rw [List.getElem?_append_right (by omega), List.getElem?_replicate_of_lt (by omega)]

theorem kernelIters_map (L : ℕ) : (kernelIters L).map (fun lm => kernelValue lm.1) = kernelVals (L - 2) := by
  unfold kernelIters kernelVals
  rw [List.map_flatMap]
  congr 1
  funext l
  rw [List.map_map]
  apply List.ext_getElem <;> simp

theorem harmonicKernel_eq (L : ℕ) (hL : 1 ≤ L) :
    harmonicKernel L = .ok (if L = 1 then [1] else List.replicate 4 1 ++ kernelVals (L - 2)) := by
  unfold harmonicKernel
  rcases Nat.lt_or_ge L 2 with h | h
  · obtain rfl : L = 1 := by omega
    simp [kernelIters, bind, Except.bind, pure, Except.pure]
  · have hlen : 4 + (kernelIters L).length = L ^ 2 := by
      have e := congrArg List.length (kernelIters_map L)
      rw [List.length_map] at e
      have := kernelVals_length (L - 2)
      rw [show L - 2 + 2 = L by omega] at this
      omega
    rw [fold_set (fun lm => kernelValue lm.1) _ _ _ (by rw [List.length_replicate, hlen])]
    simp only [bind, Except.bind]
    rw [if_neg (by omega), kernelIters_map, hlen]
    congr 1
    rw [List.drop_of_length_le (by simp), List.append_nil, List.take_replicate, min_eq_left (by omega)]

/-- C29: the kernel's layout. -/
theorem C29_kernel (L : ℕ) (hL : 1 ≤ L) : ∃ k, wlHarmonicInit L = .ok k ∧ k.length = L ^ 2 ∧
    (∀ i, i < 4 → i < L ^ 2 → k[i]? = some 1) ∧
    ∀ (l : ℕ) (m : ℤ), 2 ≤ l → l < L → |m| ≤ l → k[((l : ℤ) ^ 2 + l + m).toNat]? =
      some (-√((((l : ℝ) + 2) * (l - 1)) / ((l + 1) * l))) := by
  refine ⟨if L = 1 then [1] else List.replicate 4 1 ++ kernelVals (L - 2), ?_, ?_, ?_, ?_⟩
  · unfold wlHarmonicInit
    rw [if_neg (by omega), Int.toNat_natCast]
    exact harmonicKernel_eq L hL
  · split
    · subst L; rfl
    · have := kernelVals_length (L - 2)
      rw [show L - 2 + 2 = L by omega] at this
      rw [List.length_append, List.length_replicate]; omega
  · intro i hi hi2
    split
    · subst L
      obtain rfl : i = 0 := by omega
      rfl
    · rw [List.getElem?_append_left (by simpa), List.getElem?_replicate_of_lt hi]
  · intro l m h2 hl hm
    rw [if_neg (by omega)]
    rw [abs_le] at hm
    have hidx : (((l : ℤ) ^ 2 + l + m).toNat : ℤ) = (l : ℤ) ^ 2 + l + m := Int.toNat_of_nonneg (by nlinarith)
    set p := ((l : ℤ) ^ 2 + l + m).toNat with hp
    have hp1 : l ^ 2 ≤ p := by zify; rw [hidx]; linarith
    have hp2 : p < (l + 1) ^ 2 := by zify; rw [hidx]; nlinarith
    have h4 : 4 ≤ l ^ 2 := by nlinarith
    rw [List.getElem?_append_right (by simp; omega), List.length_replicate,
      kernelVals_get (L - 2) (p - 4) l h2 (by omega) (by omega) (by omega)]
    simp [kernelValue]

/-- C29: non-positive bandlimits are rejected. -/
theorem C29_rejects (L : ℤ) (hL : L < 1) : wlHarmonicInit L = .error .ValueError := by
  simp [wlHarmonicInit, hL]

/-- For `L = 3` the entry of `(l,m) = (2,-2)` sits at index 4. -/
example : (1 : ℕ) ≤ 3 ∧ ((2 : ℤ) ^ 2 + 2 + -2).toNat = 4 ∧ |(-2 : ℤ)| ≤ 2 := by decide

/-! ## C30 -/

section
variable {𝕜 : Type} [RCLike 𝕜] {n : ℕ}

theorem kernelValue_bounds (l : ℕ) (hl : 2 ≤ l) : kernelValue l < 0 ∧ |kernelValue l| ≤ 1 := by
  have h : (2 : ℝ) ≤ l := by exact_mod_cast hl
  have h1 : 0 < (((l : ℝ) + 2) * ((l : ℝ) - 1)) / (((l : ℝ) + 1) * (l : ℝ)) := by
    apply div_pos <;> nlinarith
  have h2 : (((l : ℝ) + 2) * ((l : ℝ) - 1)) / (((l : ℝ) + 1) * (l : ℝ)) ≤ 1 := by
    rw [div_le_one (by positivity)]; nlinarith
  unfold kernelValue
  have h3 := Real.sqrt_pos.mpr h1
  have h4 : √((((l : ℝ) + 2) * ((l : ℝ) - 1)) / (((l : ℝ) + 1) * (l : ℝ))) ≤ 1 := Real.sqrt_le_one.mpr h2
  constructor
  · linarith
  · rw [abs_le]; constructor <;> linarith

theorem kernel_bounds (L : ℕ) (k : List ℝ) (hk : wlHarmonicInit L = .ok k) (x : ℝ) (hx : x ∈ k) :
    x ≠ 0 ∧ |x| ≤ 1 := by
  unfold wlHarmonicInit at hk
  split at hk
  · cases hk
  · rename_i h
    rw [Int.toNat_natCast, harmonicKernel_eq L (by omega)] at hk
    injection hk with hk
    rw [← hk] at hx
    split at hx
    · simp at hx; subst hx; simp
    · rw [List.mem_append] at hx
      rcases hx with hx | hx
      · rw [List.mem_replicate] at hx
        rw [hx.2]; simp
      · unfold kernelVals at hx
        obtain ⟨l, hl, hx⟩ := List.mem_flatMap.mp hx
        rw [List.mem_replicate] at hx
        have := kernelValue_bounds l (List.mem_range'_1.mp hl).1
        rw [hx.2]
        exact ⟨this.1.ne, this.2⟩

theorem zeroFirst4_ofFn (f : Fin n → 𝕜) : zeroFirst4 (List.ofFn f) =
    List.ofFn fun i => if i.val < 4 then 0 else f i := by
  unfold zeroFirst4
  apply List.ext_getElem
  · simp; omega
  · intro i h1 h2
    rw [List.getElem_ofFn]
    by_cases hi : i < 4
    · have hin : i < n := by simpa using h2
      rw [List.getElem_append_left (by simp; omega)]
      simp [hi]
    · rw [List.getElem_append_right (by simp; omega)]
      have hin : i < n := by simpa using h2
      have e : min 4 n = 4 := by omega
      simp [hi, e, show 4 + (i - 4) = i by omega]

theorem harmonicMapping_ofFn (κ : Fin n → ℝ) (x : Fin n → 𝕜) : harmonicMapping (List.ofFn κ) (List.ofFn x) =
    .ok (List.ofFn fun i => if i.val < 4 then 0 else x i * (κ i : 𝕜)) := by
  unfold harmonicMapping
  rw [bcast_eq _ _ (by simp), zip_ofFn]
  show Except.ok _ = _
  rw [map_ofFn', zeroFirst4_ofFn]

theorem harmonicInverseMapping_ofFn (κ : Fin n → ℝ) (x : Fin n → 𝕜) :
    harmonicInverseMapping (List.ofFn κ) (List.ofFn x) =
    .ok (List.ofFn fun i => if i.val < 4 then 0 else x i / (κ i : 𝕜)) := by
  unfold harmonicInverseMapping
  rw [bcast_eq _ _ (by simp), zip_ofFn]
  show Except.ok _ = _
  rw [map_ofFn', zeroFirst4_ofFn]

/-- C30: all the laws of the harmonic lensing operator, for every bandlimit and all coefficient vectors. -/
theorem C30_harmonic_operator (L : ℕ) (k : List ℝ) (hk : wlHarmonicInit L = .ok k)
    (x y : Fin (L ^ 2) → 𝕜) :
    ∃ fx ay sx : Fin (L ^ 2) → 𝕜, wlHarmonicForward k (List.ofFn x) = .ok (List.ofFn fx) ∧
      wlHarmonicAdjoint k (List.ofFn y) = .ok (List.ofFn ay) ∧
      sksEstimate k (List.ofFn x) = .ok (List.ofFn sx) ∧
      Spec.inner y fx = Spec.inner ay x ∧
      sksEstimate k (List.ofFn fx) = .ok (List.ofFn fun i => if i.val < 4 then 0 else x i) ∧
      wlHarmonicForward k (List.ofFn sx) = .ok (List.ofFn fun i => if i.val < 4 then 0 else x i) ∧
      ∑ i, ‖fx i‖ ^ 2 ≤ ∑ i, ‖x i‖ ^ 2 := by
  have hL : 1 ≤ L := by
    by_contra h
    rw [C29_rejects _ (by omega)] at hk
    cases hk
  obtain ⟨k', hk', hlen, -⟩ := C29_kernel L hL
  obtain rfl : k' = k := by rw [hk'] at hk; exact Except.ok.inj hk
  obtain ⟨κ, rfl⟩ := exists_ofFn k' hlen
  have hb : ∀ i, κ i ≠ 0 ∧ |κ i| ≤ 1 := fun i =>
    kernel_bounds L _ hk _ (List.mem_ofFn.mpr ⟨i, rfl⟩)
  refine ⟨_, _, _, harmonicMapping_ofFn κ x, harmonicMapping_ofFn κ y, harmonicInverseMapping_ofFn κ x, ?_, ?_, ?_, ?_⟩
  · unfold Spec.inner
    apply Finset.sum_congr rfl
    intro i _
    by_cases h : i.val < 4
    · simp [h]
    · simp only [h, if_false, map_mul, RCLike.conj_ofReal]; ring
  · unfold sksEstimate
    rw [harmonicInverseMapping_ofFn]
    congr 2
    funext i
    have : ((κ i : ℝ) : 𝕜) ≠ 0 := by exact_mod_cast (hb i).1
    by_cases h : i.val < 4
    · simp [h]
    · simp only [h, if_false]; rw [mul_div_assoc, div_self this, mul_one]
  · unfold wlHarmonicForward
    rw [harmonicMapping_ofFn]
    congr 2
    funext i
    have : ((κ i : ℝ) : 𝕜) ≠ 0 := by exact_mod_cast (hb i).1
    by_cases h : i.val < 4
    · simp [h]
    · simp only [h, if_false]; rw [div_mul_cancel₀ _ this]
  · apply Finset.sum_le_sum
    intro i _
    by_cases h : i.val < 4
    · simp only [h, if_true, norm_zero]
      rw [zero_pow two_ne_zero]; exact sq_nonneg _
    · simp only [h, if_false, norm_mul, RCLike.norm_ofReal]
      have := (hb i).2
      have h0 := abs_nonneg (κ i)
      have h1 := norm_nonneg (x i)
      apply pow_le_pow_left₀ (by positivity)
      nlinarith

example : ∃ k, wlHarmonicInit ((3 : ℕ) : ℤ) = .ok k := let ⟨k, hk, _⟩ := C29_kernel 3 (by norm_num); ⟨k, hk⟩

end

/-! ## C31 -/

/-- Entries of `f` where the mask is true, in order (specification of `f[mask]`). -/
def keep {α : Type} (f : List α) (mask : List Bool) : List α :=
  ((f.zip mask).filter fun p => p.2).map fun p => p.1

theorem selectBlocks_one {α : Type} : ∀ (f : List α) (mask : List Bool), f.length = mask.length →
    selectBlocks 1 f mask = keep f mask
  | [], [], _ => rfl
  | x :: xs, m :: ms, h => by
    have ih := selectBlocks_one xs ms (by simpa using h)
    cases m <;> simp [selectBlocks, keep, ih]

theorem keep_length {α : Type} : ∀ (f : List α) (mask : List Bool), f.length = mask.length →
    (keep f mask).length = mask.count true
  | [], [], _ => rfl
  | x :: xs, m :: ms, h => by
    have ih := keep_length xs ms (by simpa using h)
    simp only [keep] at ih
    cases m <;> simp [keep, ih]

theorem scatter_length {α : Type} [Zero α] : ∀ (mask : List Bool) (x : List α),
    (scatter mask x).length = mask.length
  | [], _ => rfl
  | true :: ms, [] => by simp [scatter, scatter_length ms]
  | true :: ms, x :: xs => by simp [scatter, scatter_length ms]
  | false :: ms, x => by simp [scatter, scatter_length ms]

theorem keep_scatter {α : Type} [Zero α] : ∀ (mask : List Bool) (x : List α), x.length = mask.count true →
    keep (scatter mask x) mask = x
  | [], x, h => by simp at h; subst h; rfl
  | true :: ms, [], h => by simp at h
  | true :: ms, x :: xs, h => by
    have ih := keep_scatter ms xs (by simpa using h)
    simp only [keep] at ih
    simp [scatter, keep, ih]
  | false :: ms, x, h => by
    have ih := keep_scatter ms x (by simpa using h)
    simp only [keep] at ih
    simp [scatter, keep, ih]

theorem scatter_keep {α : Type} [Zero α] : ∀ (f : List α) (mask : List Bool), f.length = mask.length →
    scatter mask (keep f mask) = (f.zip mask).map fun p => if p.2 then p.1 else 0
  | [], [], _ => rfl
  | x :: xs, m :: ms, h => by
    have ih := scatter_keep xs ms (by simpa using h)
    simp only [keep] at ih
    cases m <;> simp [scatter, keep, ih]

theorem listInner_cons {𝕜 : Type} [RCLike 𝕜] (a b : 𝕜) (x y : List 𝕜) :
    Spec.listInner (a :: x) (b :: y) = conj a * b + Spec.listInner x y := by
  simp [Spec.listInner]

theorem mask_adjoint_inner {𝕜 : Type} [RCLike 𝕜] : ∀ (mask : List Bool) (f x : List 𝕜), f.length = mask.length →
    x.length = mask.count true → Spec.listInner x (keep f mask) = Spec.listInner (scatter mask x) f
  | [], [], x, _, h => by simp at h; subst h; simp [Spec.listInner, keep, scatter]
  | m :: ms, a :: f, x, hf, hx => by
    cases m with
    | true =>
      match x with
      | [] => simp at hx
      | b :: x =>
        have ih := mask_adjoint_inner ms f x (by simpa using hf) (by simpa using hx)
        have e : keep (a :: f) (true :: ms) = a :: keep f ms := by simp [keep]
        rw [e, scatter, listInner_cons, listInner_cons, ih]
    | false =>
      have ih := mask_adjoint_inner ms f x (by simpa using hf) (by simpa using hx)
      have e : keep (a :: f) (false :: ms) = keep f ms := by simp [keep]
      rw [e, scatter, listInner_cons, ih]
      simp

theorem maskForward_eq {α : Type} (shape : List ℕ) (mask : NdArr Bool) (_hm : mask.WF) (hs : mask.shape = shape)
    (f : List α) (hf : f.length = mask.data.length) :
    maskForward shape mask ⟨shape, f⟩ = .ok (keep f mask.data) := by
  unfold maskForward boolIndex
  simp only [Bool.false_eq_true, if_false, ne_eq, not_true_eq_false, hs, List.prefix_refl, if_true, List.drop_length,
    List.prod_nil]
  rw [selectBlocks_one _ _ hf]

/-- C31: `mask_forward` keeps the unmasked pixels in order, `mask_adjoint` is its adjoint, a right inverse, and
masking twice zeroes the masked pixels. -/
theorem C31_mask {𝕜 : Type} [RCLike 𝕜] (shape : List ℕ) (mask : NdArr Bool) (hm : mask.WF)
    (hs : mask.shape = shape) (f x : List 𝕜) (hf : f.length = shape.prod) (hx : x.length = mask.data.count true) :
    ∃ mf ax, maskForward shape mask ⟨shape, f⟩ = .ok mf ∧ mf = keep f mask.data ∧
      maskAdjoint mask.data x = .ok ax ∧ ax.length = shape.prod ∧
      Spec.listInner x mf = Spec.listInner ax f ∧
      maskForward shape mask ⟨shape, ax⟩ = .ok x ∧
      maskAdjoint mask.data mf = .ok ((f.zip mask.data).map fun p => if p.2 then p.1 else 0) := by
  have hlen : f.length = mask.data.length := by
    unfold NdArr.WF at hm; rw [hf, hm, hs]
  have ha : ∀ y : List 𝕜, y.length = mask.data.count true → maskAdjoint mask.data y = .ok (scatter mask.data y) := by
    intro y hy
    simp [maskAdjoint, hy]
  have hsl : (scatter mask.data x).length = mask.data.length := scatter_length _ _
  refine ⟨_, _, maskForward_eq shape mask hm hs f hlen, rfl, ha x hx, ?_, mask_adjoint_inner _ _ _ hlen hx, ?_, ?_⟩
  · rw [hsl, ← hlen, hf]
  · rw [maskForward_eq shape mask hm hs _ hsl, keep_scatter _ _ hx]
  · rw [ha _ (keep_length _ _ hlen), scatter_keep _ _ hlen]

/-- C31: a wrong number of observations (other than a single, broadcast, value) and a wrongly shaped map are
rejected. -/
theorem C31_rejects {𝕜 : Type} [RCLike 𝕜] (shape : List ℕ) (mask : NdArr Bool) (f : NdArr 𝕜) (x : List 𝕜) :
    (f.shape ≠ shape → maskForward shape mask f = .error .ValueError) ∧
    (x.length ≠ mask.data.count true → x.length ≠ 1 → maskAdjoint mask.data x = .error .ValueError) := by
  constructor
  · intro h; simp [maskForward, h]
  · intro h h1
    unfold maskAdjoint
    simp only [Bool.false_eq_true, if_false, h]
    split
    · simp at h1
    · rfl

/-- C31: the exception: a single observation is silently copied to every unmasked pixel. -/
theorem C31_single_broadcast {𝕜 : Type} [RCLike 𝕜] (mask : List Bool) (a : 𝕜) :
    maskAdjoint mask [a] = .ok (mask.map fun b => if b then a else 0) := by
  have hsc : ∀ mask : List Bool, scatter mask (List.replicate (mask.count true) a) =
      mask.map fun b => if b then a else 0 := by
    intro mask
    induction mask with
    | nil => rfl
    | cons b ms ih => cases b <;> simp [scatter, List.replicate_succ, ih]
  unfold maskAdjoint
  simp only [Bool.false_eq_true, if_false, List.length_singleton]
  split
  · rename_i h
    rw [← hsc mask, ← h]; rfl
  · rw [hsc]

/-- A 2×3 mask with four true entries. -/
example : (⟨[2, 3], [true, false, true, true, false, true]⟩ : NdArr Bool).WF ∧
    ([true, false, true, true, false, true] : List Bool).count true = 4 ∧
    keep [10, 11, 12, 13, 14, 15] [true, false, true, true, false, true] = [10, 12, 13, 15] := by
  refine ⟨rfl, rfl, rfl⟩

/-! ## C32 -/

theorem bind_ok {α β : Type} {x : Py α} {f : α → Py β} {r : β} (h : (x >>= f) = .ok r) :
    ∃ a, x = .ok a ∧ f a = .ok r := by
  cases x with
  | error e => simp [bind, Except.bind] at h
  | ok a => exact ⟨a, rfl, h⟩

theorem WL_init_spec (L : ℤ) (mask : Option (NdArr Bool)) (ngal : Option (NdArr ℝ)) (w : WL)
    (hm : ∀ m, mask = some m → m.WF) (hg : ∀ g, ngal = some g → g.WF)
    (h : WL.init L mask ngal = .ok w) :
    wlHarmonicInit w.L = .ok w.kernel ∧ w.mask.shape = w.shape ∧ w.mask.WF ∧
      w.invCov.length = w.mask.data.count true := by
  unfold WL.init at h
  obtain ⟨k, hk, h⟩ := bind_ok h
  have hL : ¬ L < 1 := by
    intro hL; rw [C29_rejects L hL] at hk; cases hk
  have hLn : ((L.toNat : ℕ) : ℤ) = L := Int.toNat_of_nonneg (by omega)
  set m := wlMask L.toNat mask with hmdef
  have hmwf : m.WF := by
    rw [hmdef]
    cases mask with
    | none => simp [NdArr.WF, wlMask]
    | some m' => exact hm m' rfl
  obtain ⟨ic, hic, h⟩ := bind_ok h
  split at h
  · cases h
  · rename_i hshape
    injection h with h
    subst h
    rw [not_not] at hshape
    simp only
    refine ⟨by rw [hLn]; exact hk, hshape, hmwf, ?_⟩
    have hlen : m.data.length = L.toNat * (2 * L.toNat - 1) := by
      unfold NdArr.WF at hmwf
      rw [hmwf, hshape]; simp
    cases ngal with
    | none =>
      simp only [wlInvCov] at hic
      rw [maskForward_eq _ m hmwf hshape _ (by simp [hlen])] at hic
      injection hic with hic
      rw [← hic, keep_length _ _ (by simp [hlen])]
    | some g =>
      simp only [wlInvCov, ngalToInvCov] at hic
      obtain ⟨mg, hmg, hic⟩ := bind_ok hic
      injection hic with hic
      have hgs : g.shape = [L.toNat, 2 * L.toNat - 1] := by
        by_contra hne
        simp [maskForward, hne] at hmg
      have hgl : g.data.length = m.data.length := by
        have := hg g rfl
        unfold NdArr.WF at this
        rw [this, hgs, hlen]; simp
      have : g = ⟨[L.toNat, 2 * L.toNat - 1], g.data⟩ := by
        cases g; simp at hgs; simp [hgs]
      rw [this, maskForward_eq _ m hmwf hshape _ hgl] at hmg
      injection hmg with hmg
      rw [← hic, List.length_map, ← hmg, keep_length _ _ hgl]

theorem covWeight_ofFn {n : ℕ} (w : WL) (c : Fin n → ℝ) (hc : w.invCov = List.ofFn c) (x : Fin n → ℂ) :
    covWeight w (List.ofFn x) = .ok (List.ofFn fun i => x i * (c i : ℂ)) := by
  unfold covWeight
  rw [hc, bcast_eq _ _ (by simp), zip_ofFn]
  show Except.ok _ = _
  rw [map_ofFn']

theorem harmonic_adjoint_list (L : ℕ) (k : List ℝ) (hk : wlHarmonicInit L = .ok k) (x y : List ℂ)
    (hx : x.length = L ^ 2) (hy : y.length = L ^ 2) : ∃ fx ay, wlHarmonicForward k x = .ok fx ∧
      fx.length = L ^ 2 ∧ wlHarmonicAdjoint k y = .ok ay ∧ ay.length = L ^ 2 ∧
      Spec.listInner y fx = Spec.listInner ay x := by
  obtain ⟨x, rfl⟩ := exists_ofFn x hx
  obtain ⟨y, rfl⟩ := exists_ofFn y hy
  obtain ⟨fx, ay, -, h1, h2, -, h3, -⟩ := C30_harmonic_operator L k hk x y
  exact ⟨_, _, h1, by simp, h2, by simp, by rw [listInner_ofFn, listInner_ofFn, h3]⟩

/-- pyssht's transforms at bandlimit `L`: sizes, and the `_adjoint` routines are the adjoints. -/
structure SshtAdjoint (T : Ssht) (L : ℕ) : Prop where
  fwd0_len : ∀ f, f.length = L * (2 * L - 1) → (T.fwd0 f).length = L ^ 2
  inv2_len : ∀ f, f.length = L ^ 2 → (T.inv2 f).length = L * (2 * L - 1)
  invAdj2_len : ∀ f, f.length = L * (2 * L - 1) → (T.invAdj2 f).length = L ^ 2
  fwdAdj0_len : ∀ f, f.length = L ^ 2 → (T.fwdAdj0 f).length = L * (2 * L - 1)
  fwd_adj : ∀ f g, f.length = L * (2 * L - 1) → g.length = L ^ 2 →
    Spec.listInner g (T.fwd0 f) = Spec.listInner (T.fwdAdj0 g) f
  inv_adj : ∀ f g, f.length = L ^ 2 → g.length = L * (2 * L - 1) →
    Spec.listInner g (T.inv2 f) = Spec.listInner (T.invAdj2 g) f

/-- C32: for every constructed `WeakLensing` object (any mask, any galaxy counts) forward and adjoint are adjoint. -/
theorem C32_adjoint (L : ℤ) (mask : Option (NdArr Bool)) (ngal : Option (NdArr ℝ)) (w : WL)
    (hm : ∀ m, mask = some m → m.WF) (hg : ∀ g, ngal = some g → g.WF ∧ ∀ x ∈ g.data, 0 ≤ x)
    (h : WL.init L mask ngal = .ok w) (T : Ssht) (hT : SshtAdjoint T w.L) (kappa gamma : List ℂ)
    (hk : kappa.length = w.L * (2 * w.L - 1)) (hgm : gamma.length = w.mask.data.count true) :
    ∃ a b, w.forward T kappa = .ok a ∧ a.length = w.mask.data.count true ∧ w.adjoint T gamma = .ok b ∧
      b.length = w.L * (2 * w.L - 1) ∧ Spec.listInner gamma a = Spec.listInner b kappa := by
  obtain ⟨hker, hshape, hwf, hic⟩ := WL_init_spec L mask ngal w hm (fun g e => (hg g e).1) h
  have hml : w.mask.data.length = w.L * (2 * w.L - 1) := by
    unfold NdArr.WF at hwf
    rw [hwf, hshape]; simp [WL.shape]
  obtain ⟨c, hc⟩ := exists_ofFn w.invCov hic
  obtain ⟨g, rfl⟩ := exists_ofFn gamma hgm
  -- the weighted, scattered observation
  set g1 : Fin (w.mask.data.count true) → ℂ := fun i => g i * (c i : ℂ) with hg1
  set g2 := scatter w.mask.data (List.ofFn g1) with hg2
  have hg2l : g2.length = w.L * (2 * w.L - 1) := by rw [hg2, scatter_length, hml]
  obtain ⟨glm, klm, e1, l1, e2, l2, e3⟩ := harmonic_adjoint_list w.L w.kernel hker (T.fwd0 kappa) (T.invAdj2 g2)
    (hT.fwd0_len _ hk) (hT.invAdj2_len _ hg2l)
  have l3 : (T.inv2 glm).length = w.mask.data.length := by rw [hT.inv2_len _ l1, hml]
  obtain ⟨mf, hmf⟩ := exists_ofFn (keep (T.inv2 glm) w.mask.data) (keep_length _ _ l3)
  have hfwd : w.forward T kappa = .ok (List.ofFn fun i => mf i * (c i : ℂ)) := by
    unfold WL.forward
    rw [if_neg (not_not.mpr hk)]
    simp only [e1, bind, Except.bind]
    rw [maskForward_eq _ _ hwf hshape _ l3]
    simp only
    rw [hmf, covWeight_ofFn w c hc]
  have hadj : w.adjoint T (List.ofFn g) = .ok (T.fwdAdj0 klm) := by
    unfold WL.adjoint
    rw [covWeight_ofFn w c hc]
    simp only [bind, Except.bind]
    have : maskAdjoint w.mask.data (List.ofFn g1) = .ok g2 := by simp [maskAdjoint, hg2]
    rw [this]
    simp only [e2]
  refine ⟨_, _, hfwd, by simp, hadj, hT.fwdAdj0_len _ l2, ?_⟩
  rw [← hT.fwd_adj kappa klm hk l2, ← e3, ← hT.inv_adj glm g2 l1 hg2l, hg2,
    ← mask_adjoint_inner w.mask.data (T.inv2 glm) (List.ofFn g1) l3 (by simp), hmf, listInner_ofFn, listInner_ofFn]
  unfold Spec.inner
  apply Finset.sum_congr rfl
  intro i _
  rw [hg1]
  simp only [map_mul, Complex.conj_ofReal]
  ring

/-- A non-zero stand-in for pyssht at `L = 2`: the "transform" keeps the first four of the six pixels, its inverse pads
with zeros; it satisfies the hypotheses of `C32_adjoint`. -/
example : SshtAdjoint ⟨fun f => f.take 4, fun g => g ++ [0, 0], fun f => f.take 4, fun g => g ++ [0, 0]⟩ 2 where
  fwd0_len := by intro f hf; simp [hf]
  inv2_len := by intro f hf; simp [hf]
  invAdj2_len := by intro f hf; simp [hf]
  fwdAdj0_len := by intro f hf; simp [hf]
  fwd_adj := by
    intro f g hf hg
    match f, g, hf, hg with
    | [a, b, c, d, e, f], [p, q, r, s], _, _ => simp [Spec.listInner]
  inv_adj := by
    intro f g hf hg
    match g, f, hf, hg with
    | [a, b, c, d, e, f], [p, q, r, s], _, _ => simp [Spec.listInner]

/-- and such an object can be built with a mask hiding two of the six pixels. -/
example : ∃ w, WL.init 2 (some ⟨[2, 3], [true, false, true, true, false, true]⟩) none = .ok w := by
  obtain ⟨k, hk, -⟩ := C29_kernel 2 (by norm_num)
  have hk : wlHarmonicInit 2 = .ok k := hk
  exact ⟨⟨2, k, ⟨[2, 3], [true, false, true, true, false, true]⟩, [1, 1, 1, 1]⟩, by
    simp [WL.init, wlMask, wlInvCov, hk, bind, Except.bind, maskForward, boolIndex, selectBlocks]
    rfl⟩

/-! ## C33 -/

/-- Which error (if any) the constructor raises for a mask, without galaxy counts. -/
theorem WL_init_mask (L : ℕ) (hL : 1 ≤ L) (m : NdArr Bool) :
    (m.shape = [L, 2 * L - 1] → ∃ w, WL.init L (some m) none = .ok w ∧ w.mask = m ∧ w.L = L) ∧
    (m.shape ≠ [L, 2 * L - 1] → m.shape <+: [L, 2 * L - 1] → WL.init L (some m) none = .error .ValueError) ∧
    (¬ m.shape <+: [L, 2 * L - 1] → WL.init L (some m) none = .error .IndexError) := by
  obtain ⟨k, hk, -⟩ := C29_kernel L hL
  refine ⟨?_, ?_, ?_⟩
  · intro hs
    have : WL.init L (some m) none = .ok ⟨L, k, m, selectBlocks 1 (List.replicate (L * (2 * L - 1)) 1) m.data⟩ := by
      simp [WL.init, wlMask, wlInvCov, hk, bind, Except.bind, maskForward, boolIndex, hs]
    exact ⟨_, this, rfl, rfl⟩
  · intro hs hp
    simp [WL.init, wlMask, wlInvCov, hk, bind, Except.bind, maskForward, boolIndex, hs, hp]
  · intro hp
    simp [WL.init, wlMask, wlInvCov, hk, bind, Except.bind, maskForward, boolIndex, hp]

/-- C33 is violated: the documented `ValueError` is not what most wrong shapes raise. -/
theorem C33_error_kind_refuted : ¬ ∀ (L : ℕ) (m : NdArr Bool), 1 ≤ L → m.WF → m.shape ≠ [L, 2 * L - 1] →
    WL.init L (some m) none = .error .ValueError := by
  intro H
  have h := H 2 ⟨[3, 3], List.replicate 9 true⟩ (by norm_num) (by simp [NdArr.WF]) (by simp)
  rw [((WL_init_mask 2 (by norm_num) _).2.2 (by simp [List.cons_prefix_cons]))] at h
  cases h

/-- C33 (partial): every wrong shape does raise, with `ValueError` exactly when the mask's shape is a leading part of
`(L, 2L-1)`; the right shape is accepted and stored.  Missing: the documented kind of error, which is false. -/
theorem C33_wrong_shape_raises_partial (L : ℕ) (hL : 1 ≤ L) (m : NdArr Bool) :
    (m.shape ≠ [L, 2 * L - 1] → ∃ e, WL.init L (some m) none = .error e ∧
      (e = .ValueError ∨ e = .IndexError) ∧ (e = .ValueError ↔ m.shape = [] ∨ m.shape = [L])) ∧
    (m.shape = [L, 2 * L - 1] → ∃ w, WL.init L (some m) none = .ok w ∧ w.mask = m) := by
  obtain ⟨h1, h2, h3⟩ := WL_init_mask L hL m
  have hpre : m.shape <+: [L, 2 * L - 1] ↔ m.shape = [] ∨ m.shape = [L] ∨ m.shape = [L, 2 * L - 1] := by
    rw [List.prefix_iff_eq_take]
    constructor
    · intro h
      have hl : m.shape.length = 0 ∨ m.shape.length = 1 ∨ 2 ≤ m.shape.length := by omega
      rcases hl with hl | hl | hl
      · rw [hl] at h; exact Or.inl h
      · rw [hl] at h; exact Or.inr (Or.inl h)
      · rw [List.take_of_length_le (by simpa using hl)] at h; exact Or.inr (Or.inr h)
    · rintro (h | h | h) <;> rw [h] <;> rfl
  constructor
  · intro hs
    by_cases hp : m.shape <+: [L, 2 * L - 1]
    · refine ⟨_, h2 hs hp, Or.inl rfl, ?_⟩
      simp only [true_iff]
      rcases hpre.mp hp with h | h | h
      · exact Or.inl h
      · exact Or.inr h
      · exact absurd h hs
    · refine ⟨_, h3 hp, Or.inr rfl, ?_⟩
      constructor
      · intro h; cases h
      · intro h
        exfalso; apply hp; rw [hpre]
        rcases h with h | h
        · exact Or.inl h
        · exact Or.inr (Or.inl h)
  · intro hs
    obtain ⟨w, hw, hm, -⟩ := h1 hs
    exact ⟨w, hw, hm⟩

example : (1 : ℕ) ≤ 2 ∧ ([3, 3] : List ℕ) ≠ [2, 2 * 2 - 1] := by decide

/-! ## C34 -/

/-- A float: a real number or NaN. -/
inductive F64 where
  | nan
  | num (x : ℝ)

/-- C34 is violated: a map that contains NaN passes both mask operators without an error. -/
theorem C34_nan_rejected_refuted :
    (¬ ∀ (shape : List ℕ) (mask : NdArr Bool) (f : NdArr F64), mask.WF → mask.shape = shape → f.WF → f.shape = shape →
      F64.nan ∈ f.data → maskForward shape mask f = .error .ValueError) ∧
    (letI : Zero F64 := ⟨.num 0⟩
     ¬ ∀ (mask : List Bool) (x : List F64), x.length = mask.count true → F64.nan ∈ x →
      maskAdjoint mask x = .error .ValueError) := by
  constructor
  · intro H
    have h := H [1, 1] ⟨[1, 1], [true]⟩ ⟨[1, 1], [.nan]⟩ rfl rfl rfl rfl (by simp)
    simp [maskForward, boolIndex] at h
  · intro H
    have h := H [true] [.nan] rfl (by simp)
    simp [maskAdjoint] at h

/-- C34 (partial): what does hold is that no signal is ever rejected because of its values, so every NaN at an unmasked
pixel is passed on.  Missing: the documented `ValueError`. -/
theorem C34_nan_passes_partial (mask : NdArr Bool) (hm : mask.WF) (f : List F64)
    (hf : f.length = mask.data.length) :
    ∃ r, maskForward mask.shape mask ⟨mask.shape, f⟩ = .ok r ∧
      (F64.nan ∈ r ↔ (F64.nan, true) ∈ f.zip mask.data) := by
  refine ⟨_, maskForward_eq _ mask hm rfl f hf, ?_⟩
  simp [keep]

example : (⟨[1, 1], [true]⟩ : NdArr Bool).WF := rfl

end Pxmcmc
