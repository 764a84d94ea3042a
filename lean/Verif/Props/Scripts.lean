import Verif.Model.Experiments
import Verif.Lemmas.PyLemmas

/-!
# The plot scripts and the data reader of the experiments (C87–C93)
-/

namespace Pxmcmc

/-! ## C87: input formats of the earth-topography script -/

/-- C87: HEALPix input works for every bandlimit, with and without noise; MW input works for `L = 1`. -/
theorem C87_formats_partial (L : ℕ) (noise : Bool) :
    (∀ size, topoResidualShape L size .hpx noise = .ok [L * (2 * L - 1)]) ∧
    topoResidualShape 1 1 .mw noise = .ok [1, 1] := by
  constructor
  · intro size
    cases noise <;>
      simp [topoResidualShape, topoShape, iaddShape, bcastShape, bcastRev, bind, Except.bind]
  · cases noise <;> rfl

/-- C87: MW input of the right size fails for every bandlimit above 1, with and without noise. -/
theorem C87_mw_fails (L : ℕ) (hL : 2 ≤ L) (noise : Bool) :
    topoResidualShape L (L * (2 * L - 1)) .mw noise = .error .ValueError := by
  have h1 : L ≠ 2 * L - 1 := by omega
  have h2 : L ≠ 1 := by omega
  have h3 : 2 * L - 1 ≠ 1 := by omega
  have h4 : 2 * L - 1 ≠ L * (2 * L - 1) := by
    intro h
    have : 2 * (2 * L - 1) ≤ L * (2 * L - 1) := Nat.mul_le_mul_right _ hL
    omega
  have h5 : L * (2 * L - 1) ≠ 1 := by
    intro h
    have : 2 * (2 * L - 1) ≤ L * (2 * L - 1) := Nat.mul_le_mul_right _ hL
    omega
  cases noise
  · simp [topoResidualShape, topoShape, bcastShape, bcastRev, bind, Except.bind, h1, h2, h3]
  · simp [topoResidualShape, topoShape, iaddShape, bcastShape, bcastRev, bind, Except.bind, h3, h4, h5]

/-- C87 is false: the script does not work with both formats. -/
theorem C87_formats_refuted : ¬ ∀ (L : ℕ) (fmt : TopoFormat) (noise : Bool), 1 ≤ L →
    ∃ s, topoResidualShape L (L * (2 * L - 1)) fmt noise = .ok s := by
  intro H
  obtain ⟨s, hs⟩ := H 2 .mw false (by omega)
  rw [C87_mw_fails 2 le_rfl] at hs
  cases hs

/-! ## C88: `--save_npy` -/

/-- C88 is false for the earth-topography script: `--save_npy` always raises `TypeError`, whatever is saved. -/
theorem C88_topo_refuted {α : Type} (dir suffix : String) (mean MAP ci diff diffMean : α) :
    saveNpy (topoFilename dir suffix) mean MAP ci diff diffMean = .error .TypeError := rfl

/-- C88: the other two scripts write five files with different names, each holding its own map. -/
theorem C88_files_partial {α : Type} (dir suffix : String) (mean MAP ci diff diffMean : α) :
    ∃ files, saveNpy (plotFilename dir suffix) mean MAP ci diff diffMean = .ok files ∧
      (files.map Prod.fst).Nodup ∧ files.map Prod.snd = [mean, MAP, ci, diff, diffMean] ∧
      files.map Prod.fst = ["mean", "MAP", "CI", "diff", "diff_mean"].map fun s => dir ++ "/" ++ s ++ suffix ++ ".npy" := by
  refine ⟨[(dir ++ "/" ++ "mean" ++ suffix ++ "." ++ "npy", mean), (dir ++ "/" ++ "MAP" ++ suffix ++ "." ++ "npy", MAP),
    (dir ++ "/" ++ "CI" ++ suffix ++ "." ++ "npy", ci), (dir ++ "/" ++ "diff" ++ suffix ++ "." ++ "npy", diff),
    (dir ++ "/" ++ "diff_mean" ++ suffix ++ "." ++ "npy", diffMean)], rfl, ?_, rfl, ?_⟩
  · simp
  · have e : ∀ s : String, s ++ "." ++ "npy" = s ++ ".npy" := fun s => by rw [String.append_assoc]; rfl
    simp only [List.map_cons, List.map_nil, e]

/-! ## C89: samples as images -/

theorem fillRows_eq (cplx : Bool) (npix : ℕ) (toPix : List ℂ → Py (List ℂ)) (img : List ℂ → List ℂ) (z : List ℂ) :
    ∀ (ss : List (List ℂ)) (pre : List (List ℂ)) (m : ℕ), ss.length ≤ m →
      (∀ s ∈ ss, toPix s = .ok (img s) ∧ (img s).length = npix) →
      fillRows cplx npix toPix (pre ++ List.replicate m z) pre.length ss =
        .ok (pre ++ (ss.map fun s => (img s).map (store cplx)) ++ List.replicate (m - ss.length) z)
  | [], pre, m, _, _ => by simp [fillRows]
  | s :: ss, pre, m, hm, h => by
    obtain ⟨m', rfl⟩ : ∃ m', m = m' + 1 := ⟨m - 1, by simp at hm; omega⟩
    have hs := h s (by simp)
    have ih := fillRows_eq cplx npix toPix img z ss (pre ++ [(img s).map (store cplx)]) m' (by simpa using hm)
      (fun t ht => h t (by simp [ht]))
    have hset : (pre ++ List.replicate (m' + 1) z).set pre.length ((img s).map (store cplx)) =
        (pre ++ [(img s).map (store cplx)]) ++ List.replicate m' z := by
      simp [List.replicate_succ]
    simp only [fillRows, hs.1, bind, Except.bind, setRow, rowAssign, hs.2, if_true]
    rw [if_pos (by simp), hset]
    simp only [List.length_append, List.length_singleton] at ih
    refine ih.trans ?_
    simp

/-- C89: for a complete chain and `0 ≤ burn ≤ nsamples` the rows are the images of the samples from number `burn` on, in
order and one per sample; the real parts only unless the array is complex. -/
theorem C89_rows (cplx : Bool) (npix : ℕ) (toPix : List ℂ → Py (List ℂ)) (img : List ℂ → List ℂ) (chain : List (List ℂ))
    (h : ∀ s ∈ chain, toPix s = .ok (img s) ∧ (img s).length = npix) (burn : ℕ) (hb : burn ≤ chain.length) :
    ∃ rows, chainPix cplx chain.length burn npix toPix chain = .ok rows ∧ rows.length = chain.length - burn ∧
      ∀ i (hi : burn + i < chain.length),
        rows[i]? = some ((img chain[burn + i]).map fun z => if cplx then z else (z.re : ℂ)) := by
  have hs : sliceFrom chain burn = chain.drop burn := by
    unfold sliceFrom
    congr 1
    unfold sliceBound
    split_ifs <;> omega
  have h1 : ((chain.length : ℤ) - burn).toNat = chain.length - burn := by omega
  have := fillRows_eq cplx npix toPix img (List.replicate npix 0) (chain.drop burn) [] (chain.length - burn) (by simp)
    (fun s hs => h s (List.mem_of_mem_drop hs))
  refine ⟨(chain.drop burn).map fun s => (img s).map (store cplx), ?_, by simp, ?_⟩
  · unfold chainPix
    rw [if_neg (by omega), hs, h1]
    simpa using this
  · intro i hi
    have : i < (chain.drop burn).length := by simp; omega
    rw [List.getElem?_map, List.getElem?_eq_getElem this]
    simp [store]

/-- C89: a negative burn-in `-k` keeps the last `k` samples, followed by one all-zero image per sample of the chain, which the
mean and the credible intervals then include. -/
theorem C89_negative_burn (cplx : Bool) (npix : ℕ) (toPix : List ℂ → Py (List ℂ)) (img : List ℂ → List ℂ)
    (chain : List (List ℂ)) (h : ∀ s ∈ chain, toPix s = .ok (img s) ∧ (img s).length = npix) (k : ℕ) (hk : 1 ≤ k)
    (hk' : k ≤ chain.length) :
    chainPix cplx chain.length (-k) npix toPix chain =
      .ok (((chain.drop (chain.length - k)).map fun s => (img s).map (store cplx)) ++
        List.replicate chain.length (List.replicate npix 0)) := by
  have hs : sliceFrom chain (-k) = chain.drop (chain.length - k) := by
    unfold sliceFrom
    congr 1
    unfold sliceBound
    split_ifs <;> omega
  have h1 : ((chain.length : ℤ) - -k).toNat = chain.length + k := by omega
  have := fillRows_eq cplx npix toPix img (List.replicate npix 0) (chain.drop (chain.length - k)) [] (chain.length + k)
    (by simp; omega) (fun s hs => h s (List.mem_of_mem_drop hs))
  unfold chainPix
  rw [if_neg (by omega), hs, h1]
  have e : chain.length + k - (chain.drop (chain.length - k)).length = chain.length := by simp; omega
  rw [e] at this
  simpa using this

/-! ## C90, C91: reading paths -/

/-- C90: with at least two rows every column is read in order, the errors become their absolute values, and there is a
warning exactly if some error is negative. -/
theorem C90_read_partial (rows : List PathRow) (h : 2 ≤ rows.length) :
    ∃ D, readDatafile rows = .ok D ∧ D.start = rows.map (fun r => (r.startLat, r.startLon)) ∧
      D.stop = rows.map (fun r => (r.stopLat, r.stopLon)) ∧ D.data = rows.map PathRow.datum ∧
      D.sig = rows.map (fun r => |r.err|) ∧ D.mima = rows.map PathRow.mima ∧ D.nsim = rows.map PathRow.nsim ∧
      (D.warned = true ↔ ∃ r ∈ rows, r.err < 0) := by
  obtain ⟨a, b, rs, rfl⟩ : ∃ a b rs, rows = a :: b :: rs := by
    match rows, h with
    | a :: b :: rs, _ => exact ⟨a, b, rs, rfl⟩
  refine ⟨_, rfl, rfl, rfl, rfl, ?_, rfl, rfl, ?_⟩
  · generalize a :: b :: rs = rows
    by_cases hn : ∃ s ∈ rows.map PathRow.err, s < 0
    · simp only [hn, decide_true, if_true, List.map_map]
      rfl
    · simp only [hn, decide_false, Bool.false_eq_true, if_false]
      refine List.map_congr_left fun r hr => ?_
      exact (abs_of_nonneg (not_lt.mp fun hlt => hn ⟨_, List.mem_map_of_mem hr, hlt⟩)).symm
  · generalize a :: b :: rs = rows
    simp

/-- C90 is false for a file with a single path: reading it fails. -/
theorem C90_single_refuted : ¬ ∀ rows : List PathRow, rows ≠ [] → ∃ D, readDatafile rows = .ok D := by
  intro H
  obtain ⟨D, hD⟩ := H [⟨0, 0, 10, 10, 1, 1, 1, 1⟩] (by simp)
  cases hD

/-- C91: the path matrix has one row per line of the file, in order, built from that line's end points, so that it matches
the data and the errors. -/
theorem C91_path_matrix {α : Type} (buildPath : ℝ × ℝ → ℝ × ℝ → ℕ → α) (rows : List PathRow) (D : PathData)
    (h : readDatafile rows = .ok D) (L : ℕ) :
    getPathMatrix buildPath D.start D.stop L =
        rows.map (fun r => buildPath (r.startLat, r.startLon) (r.stopLat, r.stopLon) L) ∧
      (getPathMatrix buildPath D.start D.stop L).length = D.data.length ∧ D.sig.length = D.data.length := by
  have h2 : 2 ≤ rows.length := by
    match rows, h with
    | a :: b :: rs, _ => simp
  obtain ⟨D', hD', h1, h2, h3, h4, -⟩ := C90_read_partial rows h2
  obtain rfl : D' = D := Except.ok.inj (hD'.symm.trans h)
  have e : getPathMatrix buildPath D'.start D'.stop L =
      rows.map (fun r => buildPath (r.startLat, r.startLon) (r.stopLat, r.stopLon) L) := by
    unfold getPathMatrix
    rw [h1, h2, List.zip_map', List.map_map]
    rfl
  refine ⟨e, ?_, ?_⟩
  · rw [e, h3]; simp
  · rw [h3, h4]; simp

/-- C91: with `--nsim`, `K` similar paths with the same datum, error and prediction, each marked with `K` similar paths,
contribute to the misfit like a single one. -/
theorem C91_nsim (K : ℕ) (hK : 1 ≤ K) (s r : ℝ) :
    ((applyNsim (List.replicate K s) (List.replicate K (K : ℝ))).map fun σ => r ^ 2 / σ ^ 2).sum = r ^ 2 / s ^ 2 := by
  have hK' : (0 : ℝ) < K := by exact_mod_cast hK
  simp only [applyNsim, List.zipWith_replicate, List.map_replicate, List.sum_replicate, min_self, nsmul_eq_mul]
  rw [mul_pow, Real.sq_sqrt hK'.le]
  by_cases hs : s = 0
  · simp [hs]
  · field_simp

/-- C91: in general an error bar is multiplied by the square root of the number of similar paths. -/
theorem C91_nsim_errors (rows : List PathRow) (D : PathData) (h : readDatafile rows = .ok D)
    (hn : ∀ r ∈ rows, 0 ≤ r.nsim) :
    (applyNsim D.sig D.nsim).map (· ^ 2) = rows.map fun r => r.err ^ 2 * r.nsim := by
  have h2 : 2 ≤ rows.length := by
    match rows, h with
    | a :: b :: rs, _ => simp
  obtain ⟨D', hD', -, -, -, h4, -, h6, -⟩ := C90_read_partial rows h2
  obtain rfl : D' = D := Except.ok.inj (hD'.symm.trans h)
  rw [h4, h6]
  unfold applyNsim
  rw [List.zipWith_map, List.zipWith_self, List.map_map]
  refine List.map_congr_left fun r hr => ?_
  simp only [Function.comp_apply]
  rw [mul_pow, Real.sq_sqrt (hn r hr), sq_abs]

/-- Two paths, one with a negative error. -/
example : ∃ D, readDatafile [⟨0, 0, 10, 10, 1, -2, 1, 4⟩, ⟨5, 5, 20, 20, 3, 1, 1, 9⟩] = .ok D ∧ D.sig = [2, 1] ∧
    D.warned = true := by
  obtain ⟨D, hD, -, -, -, h4, -, -, h7⟩ := C90_read_partial [⟨0, 0, 10, 10, 1, -2, 1, 4⟩, ⟨5, 5, 20, 20, 3, 1, 1, 9⟩] (by simp)
  exact ⟨D, hD, by simp [h4], h7.mpr ⟨_, List.mem_cons_self, by norm_num⟩⟩

/-! ## C92: the maximum a posteriori sample -/

theorem pyMax_fold (xs : List NFloat) : ∀ v : ℝ, ∃ u : ℝ,
    xs.foldl (fun m y => if y.gt m then y else m) (some v) = some u ∧ v ≤ u ∧ (∀ y, some y ∈ xs → y ≤ u) ∧
      (u = v ∨ some u ∈ xs) := by
  induction xs with
  | nil => intro v; exact ⟨v, rfl, le_rfl, by simp, Or.inl rfl⟩
  | cons x xs ih =>
    intro v
    rw [List.foldl_cons]
    cases x with
    | none =>
      obtain ⟨u, h1, h2, h3, h4⟩ := ih v
      refine ⟨u, by simpa [NFloat.gt] using h1, h2, ?_, ?_⟩
      · intro y hy; exact h3 y (by simpa using hy)
      · rcases h4 with h | h
        · exact Or.inl h
        · exact Or.inr (by simp [h])
    | some y =>
      by_cases hy : v < y
      · obtain ⟨u, h1, h2, h3, h4⟩ := ih y
        refine ⟨u, by simpa [NFloat.gt, hy] using h1, hy.le.trans h2, ?_, ?_⟩
        · intro y' hy'
          rcases List.mem_cons.mp hy' with h | h
          · rw [Option.some.inj h]; exact h2
          · exact h3 y' h
        · rcases h4 with h | h
          · exact Or.inr (by simp [h])
          · exact Or.inr (by simp [h])
      · obtain ⟨u, h1, h2, h3, h4⟩ := ih v
        refine ⟨u, by simpa [NFloat.gt, hy] using h1, h2, ?_, ?_⟩
        · intro y' hy'
          rcases List.mem_cons.mp hy' with h | h
          · rw [Option.some.inj h]; exact (not_lt.mp hy).trans h2
          · exact h3 y' h
        · rcases h4 with h | h
          · exact Or.inl h
          · exact Or.inr (by simp [h])

theorem select_first {α : Type} (u : ℝ) : ∀ (lp : List NFloat) (chain : List α), lp.length = chain.length →
    some u ∈ lp → ∃ (x : α) (xs : List α) (j : ℕ), (((lp.zip chain).filter fun p => p.1.eq (some u)).map fun p => p.2) = x :: xs ∧
      chain[j]? = some x ∧ lp[j]? = some (some u) ∧ ∀ i < j, lp[i]? ≠ some (some u)
  | l :: ls, c :: cs, h, hm => by
    by_cases hl : l = some u
    · subst hl
      refine ⟨c, ((ls.zip cs).filter fun p => p.1.eq (some u)).map fun p => p.2, 0, ?_, rfl, rfl, by simp⟩
      simp [NFloat.eq]
    · obtain ⟨x, xs, j, h1, h2, h3, h4⟩ := select_first u ls cs (by simpa using h)
        (by rcases List.mem_cons.mp hm with e | e; exact absurd e.symm hl; exact e)
      refine ⟨x, xs, j + 1, ?_, by simpa using h2, by simpa using h3, ?_⟩
      · have : l.eq (some u) = false := by
          cases l with
          | none => rfl
          | some y => simpa [NFloat.eq] using hl
        rw [List.zip_cons_cons, List.filter_cons, if_neg (by simp [this])]
        exact h1
      · intro i hi
        cases i with
        | zero => simpa using hl
        | succ i => simpa using h4 i (by omega)

/-- C92: if the first log-posterior is not NaN, the plotted MAP sample is the first one whose log-posterior is at least all the
others (ignoring NaNs). -/
theorem C92_map_partial {α : Type} (v : ℝ) (lp : List NFloat) (chain : List α) (h : lp.length + 1 = chain.length) :
    ∃ (x : α) (j : ℕ) (u : ℝ), mapSample (some v :: lp) chain = .ok x ∧ chain[j]? = some x ∧ (some v :: lp)[j]? = some (some u) ∧
      (∀ y, some y ∈ some v :: lp → y ≤ u) ∧ ∀ i < j, ∀ y, (some v :: lp)[i]? = some (some y) → y < u := by
  obtain ⟨u, h1, h2, h3, h4⟩ := pyMax_fold lp v
  have hmem : some u ∈ some v :: lp := by
    rcases h4 with h | h
    · simp [h]
    · simp [h]
  have hmax : ∀ y, some y ∈ some v :: lp → y ≤ u := by
    intro y hy
    rcases List.mem_cons.mp hy with e | e
    · rw [Option.some.inj e]; exact h2
    · exact h3 y e
  obtain ⟨x, xs, j, e1, e2, e3, e4⟩ := select_first u (some v :: lp) chain (by simpa using h) hmem
  refine ⟨x, j, u, ?_, e2, e3, hmax, ?_⟩
  · have hp : pyMax (some v :: lp) = .ok (some u) := by
      show Except.ok _ = _
      rw [h1]
    simp only [mapSample, hp, bind, Except.bind]
    rw [e1]
  · intro i hi y hy
    refine lt_of_le_of_ne (hmax y (List.mem_of_getElem? hy)) ?_
    rintro rfl
    exact e4 i hi hy

/-- C92: if the first log-posterior is NaN there is no MAP sample, however good the others are. -/
theorem C92_nan_first {α : Type} (lp : List NFloat) (chain : List α) :
    mapSample (none :: lp) chain = .error .IndexError := by
  have hp : pyMax (none :: lp) = .ok none := by
    show Except.ok _ = _
    congr 1
    induction lp with
    | nil => rfl
    | cons x xs ih => rw [List.foldl_cons]; cases x <;> simpa [NFloat.gt] using ih
  simp only [mapSample, hp, bind, Except.bind]
  have : (((none :: lp : List NFloat).zip chain).filter fun p => p.1.eq none) = [] := by
    rw [List.filter_eq_nil_iff]
    rintro ⟨a, b⟩ -
    cases a <;> simp [NFloat.eq]
  rw [this]
  rfl

/-- C92 is false in general: a single NaN at the start hides the best sample. -/
theorem C92_map_refuted : ¬ ∀ (lp : List NFloat) (chain : List ℕ), lp.length = chain.length → (∃ v, some v ∈ lp) →
    ∃ x, mapSample lp chain = .ok x := by
  intro H
  obtain ⟨x, hx⟩ := H [none, some 1] [0, 1] rfl ⟨1, by simp⟩
  rw [C92_nan_first] at hx
  cases hx

/-! ## C93: plotting the noise -/

/-- C93 is false: results with the noise array of two or more pixels make the script fail. -/
theorem C93_noise_refuted (L : ℕ) (hL : 2 ≤ L) (noise : List ℝ) (h : noise.length = L * (2 * L - 1)) :
    plotsNoise (some (.inr noise)) = .error .ValueError := by
  have : 2 * (2 * L - 1) ≤ L * (2 * L - 1) := Nat.mul_le_mul_right _ hL
  match noise, h with
  | [], h => simp at h; omega
  | [x], h => simp at h; omega
  | _ :: _ :: _, _ => rfl

/-- C93: without added noise (no attribute, or the scalar 0) nothing is plotted and nothing fails. -/
theorem C93_no_noise_partial : plotsNoise none = .ok false ∧ plotsNoise (some (.inl 0)) = .ok false := by
  constructor
  · rfl
  · simp [plotsNoise, arrTruth]

/-- A NaN in the middle does not matter; the first of two equal maxima is taken. -/
example : ∃ x, mapSample [some (-3), none, some (-1), some (-1)] ["a", "b", "c", "d"] = .ok x := by
  obtain ⟨x, -, -, h, -⟩ := C92_map_partial (-3) [none, some (-1), some (-1)] ["a", "b", "c", "d"] rfl
  exact ⟨x, h⟩

/-- Three samples with two pixels, the first dropped. -/
example : ∃ rows, chainPix false 3 1 2 (fun s => .ok (s.map (2 * ·))) [[1, 2], [3, 4], [5, 6]] = .ok rows ∧
    rows.length = 2 := by
  obtain ⟨rows, h, hl, -⟩ := C89_rows false 2 (fun s => .ok (s.map (2 * ·))) (fun s => s.map (2 * ·))
    [[1, 2], [3, 4], [5, 6]] (by simp) 1 (by simp)
  exact ⟨rows, by simpa using h, hl⟩

end Pxmcmc
