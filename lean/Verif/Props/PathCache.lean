import Verif.Model.Scripts
import Verif.Props.Measurements

/-! # C103: the cached path matrix of `experiments/phasevel/main.py` -/

namespace Pxmcmc

/-- The great-circle matrix of a data file: one row per line, built from that line's coordinates. -/
def Spec.pathRows (buildPath : ℝ × ℝ → ℝ × ℝ → ℕ → List ℝ) (rows : List PathRow) (L : ℕ) : List (List ℝ) :=
  rows.map fun r => buildPath (r.startLat, r.startLon) (r.stopLat, r.stopLon) L

theorem readDatafile_ok (rows : List PathRow) (h : 2 ≤ rows.length) :
    ∃ d, readDatafile rows = .ok d ∧ d.start = rows.map (fun r => (r.startLat, r.startLon)) ∧
      d.stop = rows.map (fun r => (r.stopLat, r.stopLon)) ∧ d.data.length = rows.length := by
  match rows, h with
  | a :: b :: l, _ => exact ⟨_, rfl, rfl, rfl, by simp⟩

theorem getPathMatrix_rows (buildPath : ℝ × ℝ → ℝ × ℝ → ℕ → List ℝ) (rows : List PathRow) (L : ℕ) :
    getPathMatrix buildPath (rows.map fun r => (r.startLat, r.startLon)) (rows.map fun r => (r.stopLat, r.stopLon)) L =
      Spec.pathRows buildPath rows L := by
  unfold getPathMatrix Spec.pathRows
  rw [List.zip_map']
  simp

section
variable (buildPath : ℝ × ℝ → ℝ × ℝ → ℕ → List ℝ) (D : NpzDisk) (file : String) (rows : List PathRow) (L : ℕ)

theorem phasevelPaths_hit (h : 2 ≤ rows.length) (A : SparseMat) (hA : D file = some A) :
    phasevelPaths buildPath D file rows L = (if A.rows.length = rows.length then .ok A else .error .AssertionError, D) := by
  obtain ⟨d, hd, -, -, h3⟩ := readDatafile_ok rows h
  unfold phasevelPaths
  rw [hd]
  simp only [cachedPaths, hA, h3]
  split <;> rfl

theorem phasevelPaths_miss (h : 2 ≤ rows.length) (hA : D file = none) :
    phasevelPaths buildPath D file rows L = (.ok (csrMatrix (Spec.pathRows buildPath rows L)),
      fun s => if s = npzName file then some (csrMatrix (Spec.pathRows buildPath rows L)) else D s) := by
  obtain ⟨d, hd, h1, h2, h3⟩ := readDatafile_ok rows h
  unfold phasevelPaths
  rw [hd]
  simp only [cachedPaths, hA, h1, h2, h3, getPathMatrix_rows]
  rw [if_pos (by simp [csrMatrix, Spec.pathRows])]

/-- C103: without a stored matrix, the matrix of the data file is built (row `i` from line `i`, as many columns as a path has
pixels), and stored; if the given name ends in `.npz` it is stored under that name, and a second run with the same arguments
finds it, uses the same matrix and leaves the disk alone. -/
theorem C103_fresh (h : 2 ≤ rows.length) (hA : D file = none) (npix : ℕ) (hb : ∀ a b, (buildPath a b L).length = npix) :
    ∃ A D', phasevelPaths buildPath D file rows L = (.ok A, D') ∧ A.rows = Spec.pathRows buildPath rows L ∧
      A.ncols = npix ∧ (∃ name, D' name = some A ∧ ∀ s, s ≠ name → D' s = D s) ∧
      (".npz".toList <:+ file.toList → D' file = some A ∧ phasevelPaths buildPath D' file rows L = (.ok A, D')) := by
  refine ⟨_, _, phasevelPaths_miss buildPath D file rows L h hA, rfl, ?_, ⟨npzName file, by simp, fun s hs => by simp [hs]⟩, ?_⟩
  · match rows, h with
    | a :: b :: l, _ => simp [csrMatrix, Spec.pathRows, hb]
  · intro hn
    have e : npzName file = file := by simp only [npzName, if_pos hn]
    refine ⟨by simp [e], ?_⟩
    rw [phasevelPaths_hit _ _ _ _ _ h (csrMatrix (Spec.pathRows buildPath rows L)) (by simp [e])]
    rw [if_pos (by simp [csrMatrix, Spec.pathRows])]

/-- C103: a stored matrix with another number of rows than the data file has lines is noticed at once. -/
theorem C103_row_count (h : 2 ≤ rows.length) (A : SparseMat) (hA : D file = some A) (hr : A.rows.length ≠ rows.length) :
    phasevelPaths buildPath D file rows L = (.error .AssertionError, D) := by
  rw [phasevelPaths_hit _ _ _ _ _ h A hA, if_neg hr]

/-- C103: a data file of fewer than two lines raises, whatever is stored, and nothing is written. -/
theorem C103_short_file (h : rows.length < 2) : ∃ e, phasevelPaths buildPath D file rows L = (.error e, D) := by
  match rows, h with
  | [], _ => exact ⟨_, rfl⟩
  | [_], _ => exact ⟨_, rfl⟩

/-- A data file of one line. -/
example : ([⟨0, 0, 10, 10, 1, 2, 1, 4⟩] : List PathRow).length < 2 := by decide

/-- C103: a stored matrix built for another bandlimit is noticed when the first image is measured. -/
theorem C103_other_bandlimit (A : SparseMat) (L' : ℕ) (hA : A.ncols = L' * (2 * L' - 1)) (hL : L ≠ L') (hL1 : 1 ≤ L)
    (hL1' : 1 ≤ L') (X : List ℂ) (hX : X.length = L * (2 * L - 1)) :
    pathForward A.toMatrix X = .error .AssertionError := by
  refine (C28_wrong_length A.toMatrix X).1 ?_
  rw [hX, hA]
  intro e
  rcases lt_or_gt_of_ne hL with hlt | hlt
  · exact absurd e (Nat.mul_lt_mul_of_le_of_lt hlt.le (by omega) (by omega)).ne
  · exact absurd e (Nat.mul_lt_mul_of_le_of_lt hlt.le (by omega) (by omega)).ne'

/-- C103 (partial): runs that keep the name for one set of paths and one bandlimit always get the right matrix: if what is stored
under the name (if anything) is the matrix of these paths, that matrix is used, and it is still so afterwards. Data, errors and
counts may differ between the runs.  Missing: the stored matrix is not compared with the data file, see
`C103_stale_refuted`. -/
theorem C103_same_paths_partial (h : 2 ≤ rows.length)
    (hD : D file = none ∨ D file = some (csrMatrix (Spec.pathRows buildPath rows L))) (rows' : List PathRow)
    (hr : rows'.map (fun r => (r.startLat, r.startLon, r.stopLat, r.stopLon)) =
      rows.map (fun r => (r.startLat, r.startLon, r.stopLat, r.stopLon))) :
    ∃ D', phasevelPaths buildPath D file rows' L = (.ok (csrMatrix (Spec.pathRows buildPath rows' L)), D') ∧
      (D' file = none ∨ D' file = some (csrMatrix (Spec.pathRows buildPath rows L))) := by
  have hlen : rows'.length = rows.length := by simpa using congrArg List.length hr
  have hs : Spec.pathRows buildPath rows' L = Spec.pathRows buildPath rows L := by
    have := congrArg (List.map fun (p : ℝ × ℝ × ℝ × ℝ) => buildPath (p.1, p.2.1) (p.2.2.1, p.2.2.2) L) hr
    simpa only [Spec.pathRows, List.map_map, Function.comp_def] using this
  rcases hD with hD | hD
  · refine ⟨_, phasevelPaths_miss buildPath D file rows' L (by omega) hD, ?_⟩
    by_cases e : file = npzName file
    · right
      simp only [← e, if_true, hs]
    · left
      simp only [e, if_false, hD]
  · refine ⟨D, ?_, Or.inr hD⟩
    rw [phasevelPaths_hit _ _ _ _ _ (by omega) _ hD, hs, if_pos (by simp [csrMatrix, Spec.pathRows, hlen])]

/-- C103: a name without `.npz` is not the name the matrix is saved under, and the next run builds everything again. -/
theorem C103_saved_here_refuted (h : 2 ≤ rows.length) (hA : D file = none) (hn : ¬ ".npz".toList <:+ file.toList) :
    ∃ A D', phasevelPaths buildPath D file rows L = (.ok A, D') ∧ D' file = none ∧ D' (file ++ ".npz") = some A := by
  have e : npzName file = file ++ ".npz" := by simp only [npzName, if_neg hn]
  refine ⟨_, _, phasevelPaths_miss buildPath D file rows L h hA, ?_, by simp [e]⟩
  have hne : file ≠ file ++ ".npz" := by
    intro hh
    have := congrArg String.length hh
    simp at this
  simp [e, hne, hA]

end

/-- Two files with two paths each; a path is represented by one pixel holding its start latitude. -/
def pathFileA : List PathRow := [⟨0, 0, 1, 1, 5, 1, 1, 1⟩, ⟨0, 0, 1, 1, 6, 1, 1, 1⟩]
/-- See `pathFileA`. -/
def pathFileB : List PathRow := [⟨7, 0, 1, 1, 5, 1, 1, 1⟩, ⟨8, 0, 1, 1, 6, 1, 1, 1⟩]

/-- C103 is false: after a run on one data file, a run on another one with as many lines and the same name silently uses the
first file's paths. -/
theorem C103_stale_refuted : ∃ (buildPath : ℝ × ℝ → ℝ × ℝ → ℕ → List ℝ) (D : NpzDisk) (A : SparseMat),
    phasevelPaths buildPath (phasevelPaths buildPath (fun _ => none) "p.npz" pathFileA 1).2 "p.npz" pathFileB 1 = (.ok A, D) ∧
    A.rows = Spec.pathRows buildPath pathFileA 1 ∧ A.rows ≠ Spec.pathRows buildPath pathFileB 1 := by
  have hn : ".npz".toList <:+ "p.npz".toList := by decide
  refine ⟨fun a _ _ => [a.1], fun s => if s = npzName "p.npz" then
    some (csrMatrix (Spec.pathRows (fun a _ _ => [a.1]) pathFileA 1)) else none,
    csrMatrix (Spec.pathRows (fun a _ _ => [a.1]) pathFileA 1), ?_, rfl, ?_⟩
  · rw [phasevelPaths_miss _ (fun _ => none) "p.npz" pathFileA 1 (by simp [pathFileA]) rfl]
    rw [phasevelPaths_hit _ _ _ _ _ (by simp [pathFileB]) (csrMatrix (Spec.pathRows (fun a _ _ => [a.1]) pathFileA 1))
      (by simp only [npzName, if_pos hn, if_true])]
    rw [if_pos (by simp [csrMatrix, Spec.pathRows, pathFileA, pathFileB])]
  · simp [csrMatrix, Spec.pathRows, pathFileA, pathFileB]

example : 2 ≤ pathFileA.length ∧ ".npz".toList <:+ "0S254L28.npz".toList ∧ ¬ ".npz".toList <:+ "paths".toList :=
  ⟨by simp [pathFileA], by decide, by decide⟩

example : ∃ A : SparseMat, A.rows.length ≠ pathFileA.length ∧ A.ncols = 2 * (2 * 2 - 1) :=
  ⟨⟨[[0, 0, 0, 0, 0, 0]], 6⟩, by simp [pathFileA], rfl⟩

example : pathFileA.map (fun r => (r.startLat, r.startLon, r.stopLat, r.stopLon)) =
    [(⟨0, 0, 1, 1, 9, 2, 1, 3⟩ : PathRow), ⟨0, 0, 1, 1, 8, 1, 1, 1⟩].map
      (fun r => (r.startLat, r.startLon, r.stopLat, r.stopLon)) := by
  simp [pathFileA]

end Pxmcmc
