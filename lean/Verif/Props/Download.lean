import Verif.Model.Download
import Verif.Props.Reader
import Mathlib.Tactic.Linarith
import Mathlib.Tactic.Ring

/-! # Property C123: interrupted runs of the download script -/

namespace Pxmcmc
variable {W : Type}

/-! ## Names and address -/

theorem split_at {c : Char} {l1 l2 r1 r2 : List Char} (h1 : c ∉ l1) (h2 : c ∉ l2) (h : l1 ++ c :: r1 = l2 ++ c :: r2) : l1 = l2 ∧ r1 = r2 := by
  induction l1 generalizing l2 with
  | nil =>
    cases l2 with
    | nil => simpa using h
    | cons b l2 => simp at h h2; exact absurd h.1 h2.1
  | cons a l1 ih =>
    cases l2 with
    | nil => simp at h h1; exact absurd h.1.symm h1.1
    | cons b l2 =>
      simp only [List.cons_append, List.cons.injEq] at h
      simp only [List.mem_cons, not_or] at h1 h2
      obtain ⟨h3, h4⟩ := ih h1.2 h2.2 h.2
      exact ⟨by rw [h.1, h3], h4⟩

theorem not_mem_digits (c : Char) (hc : c.isDigit = false) (k : ℕ) : c ∉ Nat.toDigits 10 k := by
  intro h
  have := Nat.isDigit_of_mem_toDigits (by norm_num) le_rfl h
  rw [hc] at this
  exact Bool.false_ne_true this

theorem toDigits_inj {a b : ℕ} (h : Nat.toDigits 10 a = Nat.toDigits 10 b) : a = b := by
  rw [← Nat.ofDigitChars_ten_toDigits (n := a), h, Nat.ofDigitChars_ten_toDigits]

theorem not_mem_pad3 (c : Char) (hc : c.isDigit = false) (k : ℕ) : c ∉ pad3 k := by
  unfold pad3
  rw [List.mem_append, not_or]
  refine ⟨fun h => ?_, not_mem_digits c hc k⟩
  rw [List.eq_of_mem_replicate h] at hc
  exact absurd hc (by decide)

theorem pad3_value (k : ℕ) : Nat.ofDigitChars 10 (pad3 k) 0 = k := by
  unfold pad3
  generalize 3 - (Nat.toDigits 10 k).length = m
  induction m with
  | zero => simp [Nat.ofDigitChars_ten_toDigits]
  | succ m ih =>
    rw [List.replicate_succ, List.cons_append, Nat.ofDigitChars_cons]
    exact ih

theorem pad3_inj {a b : ℕ} (h : pad3 a = pad3 b) : a = b := by
  rw [← pad3_value a, h, pad3_value]

/-- C123, the files: different settings never share a file, neither the downloaded nor the converted one, so a file the script finds
belongs to its settings. -/
theorem C123_names : Function.Injective binName ∧ Function.Injective fitsName := by
  constructor
  · rintro ⟨a, b, c⟩ ⟨a', b', c'⟩ h
    have h := List.append_cancel_left h
    obtain ⟨h1, h⟩ := split_at (not_mem_digits 'r' rfl _) (not_mem_digits 'r' rfl _) h
    simp only [List.append_assoc, List.cons_append, List.nil_append] at h
    obtain ⟨h2, h⟩ := split_at (not_mem_pad3 '.' rfl _) (not_mem_pad3 '.' rfl _) h
    simp only [List.cons.injEq, true_and] at h
    obtain ⟨h3, -⟩ := split_at (not_mem_digits '.' rfl _) (not_mem_digits '.' rfl _) h
    rw [SimSettings.mk.injEq]
    exact ⟨toDigits_inj h1, pad3_inj h2, toDigits_inj h3⟩
  · rintro ⟨a, b, c⟩ ⟨a', b', c'⟩ h
    have h := List.append_cancel_left h
    obtain ⟨h1, h⟩ := split_at (not_mem_digits '_' rfl _) (not_mem_digits '_' rfl _) h
    simp only [List.append_assoc, List.cons_append, List.nil_append] at h
    obtain ⟨h2, h⟩ := split_at (not_mem_pad3 '_' rfl _) (not_mem_pad3 '_' rfl _) h
    simp only [List.cons.injEq, true_and] at h
    obtain ⟨h3, -⟩ := split_at (not_mem_digits '_' rfl _) (not_mem_digits '_' rfl _) h
    rw [SimSettings.mk.injEq]
    exact ⟨Nat.pow_right_injective le_rfl (toDigits_inj h1), pad3_inj h2, toDigits_inj h3⟩

/-- The simulations that exist on the server (comments in download_takahasi.py:115-124). -/
def SimExists (nres realisation redshift : ℤ) : Prop :=
  ((nres = 12 ∨ nres = 13) ∧ 0 ≤ realisation ∧ realisation ≤ 107 ∨ nres = 14 ∧ realisation = 0) ∧ 1 ≤ redshift ∧ redshift ≤ 66

/-- C123 (refuted), the checks: the simulation with `nres` 14, which the comments offer, is refused whatever the other numbers. -/
theorem C123_checks_refuted (realisation redshift : ℤ) :
    checkSettings 14 realisation redshift = .error .AssertionError ∧ SimExists 14 0 16 := by
  refine ⟨?_, Or.inr ⟨rfl, rfl⟩, by norm_num, by norm_num⟩
  unfold checkSettings
  norm_num

/-- C123 (part that holds), the checks: for `nres` other than 14 exactly the existing simulations pass, with their numbers unchanged, and
everything else is refused. -/
theorem C123_checks_partial (nres realisation redshift : ℤ) (h : nres ≠ 14) :
    (SimExists nres realisation redshift → ∃ s, checkSettings nres realisation redshift = .ok s ∧ (s.nres : ℤ) = nres ∧
      (s.realisation : ℤ) = realisation ∧ (s.redshift : ℤ) = redshift ∧ 10 ≤ s.nres ∧ s.nres < 100) ∧
    (¬ SimExists nres realisation redshift → checkSettings nres realisation redshift = .error .AssertionError) := by
  unfold SimExists checkSettings
  constructor
  · rintro ⟨hn | hn, hz⟩
    · obtain ⟨hn, hr⟩ := hn
      rw [if_neg (by omega), if_pos hn, if_neg (by omega), if_neg (by omega)]
      exact ⟨_, rfl, by simp only; omega, by simp only; omega, by simp only; omega, by simp only; omega, by simp only; omega⟩
    · exact absurd hn.1 h
  · intro hne
    split_ifs <;> first | rfl | (exfalso; omega)

example : SimExists 12 0 16 ∧ ¬ SimExists 12 108 16 := by
  unfold SimExists
  constructor
  · norm_num
  · norm_num

/-- `str.find` returns the first position of the substring, and -1 if there is none. -/
theorem pyFind_spec (sub : List Char) : ∀ s : List Char,
    (pyFind sub s = -1 ∧ ∀ k ≤ s.length, ¬ sub <+: s.drop k) ∨
    ∃ k : ℕ, pyFind sub s = k ∧ k ≤ s.length ∧ sub <+: s.drop k ∧ ∀ l < k, ¬ sub <+: s.drop l
  | [] => by
    by_cases h : sub = []
    · subst h
      exact .inr ⟨0, by simp [pyFind], le_rfl, by simp, fun l hl => absurd hl (by omega)⟩
    · exact .inl ⟨by simp [pyFind, h], fun k _ => by simpa using h⟩
  | c :: s => by
    by_cases h : sub <+: c :: s
    · exact .inr ⟨0, by simp [pyFind, h], by omega, h, fun l hl => absurd hl (by omega)⟩
    · rcases pyFind_spec sub s with ⟨h1, h2⟩ | ⟨k, h1, h2, h3, h4⟩
      · refine .inl ⟨by simp [pyFind, h, h1], fun k hk => ?_⟩
        cases k with
        | zero => exact h
        | succ k => exact h2 k (by simpa using hk)
      · refine .inr ⟨k + 1, ?_, by simpa using h2, h3, fun l hl => ?_⟩
        · have : (k : ℤ) ≠ -1 := by omega
          simp [pyFind, h, h1, this]
        · cases l with
          | zero => exact h
          | succ l => exact h4 l (by omega)

/-- C123, the address: for every two-digit `nres` (the checks allow 12 and 13) the file is asked for in the directory of that `nres`. -/
theorem C123_url (s : SimSettings) (h1 : 10 ≤ s.nres) (h2 : s.nres < 100) :
    downloadUrl (binName s) = .ok ("http://cosmo.phys.hirosaki-u.ac.jp/takahasi/allsky_raytracing/sub1/nres".toList ++
      (Nat.toDigits 10 s.nres ++ '/' :: binName s)) := by
  have hlen : (Nat.toDigits 10 s.nres).length = 2 := by
    have a := (Nat.length_toDigits_le_iff (b := 10) (n := s.nres) (k := 2) (by norm_num) (by norm_num)).mpr h2
    have b := (Nat.length_toDigits_le_iff (b := 10) (n := s.nres) (k := 1) (by norm_num) (by norm_num)).not.mpr (by simpa using h1)
    omega
  have hfind : pyFind ['n', 'r', 'e', 's'] (binName s) = 10 := by
    unfold binName
    simp [pyFind, List.cons_prefix_cons]
  unfold downloadUrl
  simp only [hfind]
  have hslice : slice (binName s) ((10 : ℤ) + 4).toNat ((10 : ℤ) + 6).toNat = Nat.toDigits 10 s.nres := by
    have e1 : ((10 : ℤ) + 4).toNat = 14 := by decide
    have e2 : ((10 : ℤ) + 6).toNat = 16 := by decide
    rw [e1, e2]
    unfold slice binName
    generalize 'r' :: (pad3 s.realisation ++ ['.', 'z', 's'] ++
      (Nat.toDigits 10 s.redshift ++ ['.', 'm', 'a', 'g', '.', 'd', 'a', 't'])) = rest
    rw [List.drop_take]
    simp [hlen]
  rw [hslice]
  have hd : pyIntDigits (Nat.toDigits 10 s.nres) = .ok s.nres := by
    unfold pyIntDigits
    rw [if_pos ⟨Nat.toDigits_ne_nil, fun c hc => Nat.isDigit_of_mem_toDigits (by norm_num) le_rfl hc⟩, Nat.ofDigitChars_ten_toDigits]
  rw [hd]
  rfl

/-! ## The disk -/

theorem bin_ne_fits (s : SimSettings) : binName s ≠ fitsName s := by simp [binName, fitsName]
theorem bin_ne_output (s : SimSettings) : binName s ≠ outputName := by simp [binName, outputName]
theorem output_literal : outputName = "output.fits".toList := rfl
theorem fits_ne_output (s : SimSettings) : fitsName s ≠ outputName := by simp [fitsName, outputName]

/-- A server that delivers `S` completely for every address. -/
def goodServer (S : List W) : List Char → Py (Response W) := fun _ => .ok ⟨true, S, none⟩

/-- The disk after further runs of the script, with whatever answers from the network. -/
noncomputable def reruns (int64 : W → W → ℤ) (s : SimSettings) : List (List Char → Py (Response W)) → SimDisk W → SimDisk W
  | [], D => D
  | f :: fs, D => reruns int64 s fs ((simScript int64 f s D).final D)

theorem DiskRun.next_ok (r : DiskRun W) (D : SimDisk W) (k : SimDisk W → DiskRun W) (h : r.result = .ok ()) :
    r.next D k = ⟨r.states ++ (k (r.final D)).states, (k (r.final D)).result⟩ := by
  unfold DiskRun.next
  rw [h]

theorem DiskRun.next_error (r : DiskRun W) (D : SimDisk W) (k : SimDisk W → DiskRun W) (e : PyErr) (h : r.result = .error e) :
    r.next D k = ⟨r.states, .error e⟩ := by
  unfold DiskRun.next
  rw [h]

/-- Converting a complete file. -/
theorem convert_good (int64 : W → W → ℤ) (s : SimSettings) (D : SimDisk W) (l kappa g1 g2 om : List W) (hb : D (binName s) = some (.words l))
    (ho : D outputName = none) (hr : binaryToFits int64 l = .ok (kappa, g1, g2, om)) (hk : HealpixSize kappa.length) :
    (convertFile int64 (binName s) D).next D (fun D2 => ⟨[D2.rename outputName (fitsName s)], .ok ()⟩) =
      ⟨[D.put outputName .cutFits, D.put outputName (.fits kappa), (D.put outputName (.fits kappa)).rename outputName (fitsName s)], .ok ()⟩ := by
  unfold convertFile DiskRun.next
  rw [hb]
  simp [hr, ho, hk, DiskRun.final]

/-- C123, an undisturbed run: with a working server and none of the three files present, the script ends without an exception and leaves
the downloaded file and the converted map; `output.fits` is gone and all other files are as before. -/
theorem C123_fresh (int64 : W → W → ℤ) (s : SimSettings) (hs : 10 ≤ s.nres ∧ s.nres < 100) (S kappa g1 g2 om : List W) (D : SimDisk W)
    (hf : D (fitsName s) = none) (hb : D (binName s) = none) (ho : D "output.fits".toList = none)
    (hr : binaryToFits int64 S = .ok (kappa, g1, g2, om)) (hk : ∃ m, 0 < m ∧ kappa.length = 12 * m ^ 2) :
    (simScript int64 (goodServer S) s D).result = .ok () ∧
    ((simScript int64 (goodServer S) s D).final D) (fitsName s) = some (.fits kappa) ∧
    ((simScript int64 (goodServer S) s D).final D) (binName s) = some (.words S) ∧
    ∀ f, f ≠ fitsName s → f ≠ binName s → ((simScript int64 (goodServer S) s D).final D) f = D f := by
  rw [← output_literal] at ho
  have hdl : downloadBinary (goodServer S) (binName s) D =
      ⟨(List.range (S.length + 1)).map fun k => D.put (binName s) (.words (S.take k)), .ok ()⟩ := by
    unfold downloadBinary
    rw [C123_url s hs.1 hs.2]
    rfl
  have hfin : (DiskRun.final ⟨(List.range (S.length + 1)).map fun k => D.put (binName s) (.words (S.take k)), .ok ()⟩ D) =
      D.put (binName s) (.words S) := by
    simp [DiskRun.final, List.range_succ]
  have hD1 : ∀ f, f ≠ binName s → (D.put (binName s) (.words S)) f = D f := fun f h => if_neg h
  have hc := convert_good int64 s (D.put (binName s) (.words S)) S kappa g1 g2 om (if_pos rfl)
    (by rw [hD1 _ (bin_ne_output s).symm]; exact ho) hr hk
  have hrun : simScript int64 (goodServer S) s D = ⟨((List.range (S.length + 1)).map fun k => D.put (binName s) (.words (S.take k))) ++
      [(D.put (binName s) (.words S)).put outputName .cutFits, (D.put (binName s) (.words S)).put outputName (.fits kappa),
      ((D.put (binName s) (.words S)).put outputName (.fits kappa)).rename outputName (fitsName s)], .ok ()⟩ := by
    unfold simScript
    simp only [hf, hb, Option.isSome_none, Bool.false_eq_true, if_false, hdl]
    rw [DiskRun.next_ok _ _ _ rfl, hfin, hc]
  rw [hrun]
  refine ⟨rfl, ?_, ?_, fun f h1 h2 => ?_⟩
  · simp [DiskRun.final, SimDisk.rename, SimDisk.put]
  · simp [DiskRun.final, SimDisk.rename, SimDisk.put, bin_ne_fits, bin_ne_output]
  · by_cases h3 : f = outputName
    · subst h3
      simp [DiskRun.final, SimDisk.rename, (fits_ne_output s).symm, ho]
    · simp [DiskRun.final, SimDisk.rename, SimDisk.put, h1, h2, h3]

/-- C123, a finished run is not repeated: if the converted map is there, nothing is asked for and nothing changes. -/
theorem C123_found (int64 : W → W → ℤ) (fetch : List Char → Py (Response W)) (s : SimSettings) (D : SimDisk W)
    (h : (D (fitsName s)).isSome) : simScript int64 fetch s D = ⟨[], .ok ()⟩ := by
  unfold simScript
  rw [if_pos h]

/-- With the downloaded file present and no map, the script does not ask the network. -/
theorem script_uses_file (int64 : W → W → ℤ) (fetch : List Char → Py (Response W)) (s : SimSettings) (D : SimDisk W)
    (hf : D (fitsName s) = none) (hb : (D (binName s)).isSome) :
    simScript int64 fetch s D =
      (convertFile int64 (binName s) D).next D (fun D2 => ⟨[D2.rename outputName (fitsName s)], .ok ()⟩) := by
  unfold simScript
  simp only [hf, Option.isSome_none, Bool.false_eq_true, if_false, hb, if_true]
  rw [DiskRun.next_ok _ _ _ rfl]
  rfl

/-- C123 (part that holds). If the process was killed or the connection lost before the file was opened, or after the download and before
the conversion began to write, the next run with a working server ends as an undisturbed one. -/
theorem C123_recovers_partial (int64 : W → W → ℤ) (s : SimSettings) (hs : 10 ≤ s.nres ∧ s.nres < 100) (S kappa g1 g2 om : List W)
    (D : SimDisk W) (hf : D (fitsName s) = none) (hb : D (binName s) = none ∨ D (binName s) = some (.words S)) (ho : D "output.fits".toList = none)
    (hr : binaryToFits int64 S = .ok (kappa, g1, g2, om)) (hk : ∃ m, 0 < m ∧ kappa.length = 12 * m ^ 2) :
    (simScript int64 (goodServer S) s D).result = .ok () ∧
    ((simScript int64 (goodServer S) s D).final D) (fitsName s) = some (.fits kappa) ∧
    ∀ f, f ≠ fitsName s → f ≠ binName s → ((simScript int64 (goodServer S) s D).final D) f = D f := by
  rw [← output_literal] at ho
  rcases hb with hb | hb
  · obtain ⟨h1, h2, -, h3⟩ := C123_fresh int64 s hs S kappa g1 g2 om D hf hb ho hr hk
    exact ⟨h1, h2, h3⟩
  · rw [script_uses_file int64 _ s D hf (by rw [hb]; rfl), convert_good int64 s D S kappa g1 g2 om hb ho hr hk]
    refine ⟨rfl, ?_, fun f h1 h2 => ?_⟩
    · simp [DiskRun.final, SimDisk.rename, SimDisk.put]
    · by_cases h3 : f = outputName
      · subst h3
        simp [DiskRun.final, SimDisk.rename, (fits_ne_output s).symm, ho]
      · simp [DiskRun.final, SimDisk.rename, SimDisk.put, h1, h3]

/-- The disks a run leaves if it is killed: all the states it goes through. -/
def KilledDisk (r : DiskRun W) (D D' : SimDisk W) : Prop := D' = D ∨ D' ∈ r.states

/-- C123 (refuted), killed while converting: a run killed after `output.fits` was begun and before it was renamed leaves a disk on which
every later run raises and changes nothing. -/
theorem C123_leftover_refuted (int64 : W → W → ℤ) (s : SimSettings) (S kappa g1 g2 om : List W) (D : SimDisk W)
    (hf : D (fitsName s) = none) (hb : D (binName s) = some (.words S)) (ho : D "output.fits".toList = none)
    (hr : binaryToFits int64 S = .ok (kappa, g1, g2, om)) (hk : ∃ m, 0 < m ∧ kappa.length = 12 * m ^ 2) (fetch : List Char → Py (Response W)) :
    ∃ D1 D2, D1 ≠ D2 ∧ KilledDisk (simScript int64 fetch s D) D D1 ∧ KilledDisk (simScript int64 fetch s D) D D2 ∧
      ∀ D' ∈ [D1, D2], D' (fitsName s) = none ∧ (D' "output.fits".toList).isSome ∧ ∀ fs, reruns int64 s fs D' = D' ∧
        ∀ f, ∃ e, (simScript int64 f s D').result = .error e := by
  rw [← output_literal] at ho
  have hrun : simScript int64 fetch s D = _ :=
    (script_uses_file int64 fetch s D hf (by rw [hb]; rfl)).trans (convert_good int64 s D S kappa g1 g2 om hb ho hr hk)
  refine ⟨D.put outputName .cutFits, D.put outputName (.fits kappa), fun h => ?_, .inr (by rw [hrun]; simp), .inr (by rw [hrun]; simp),
    fun D' hD' => ?_⟩
  · have := congrFun h outputName
    simp [SimDisk.put] at this
  have h1 : D' (fitsName s) = none ∧ D' (binName s) = some (.words S) ∧ (D' outputName).isSome := by
    simp only [List.mem_cons, List.not_mem_nil, or_false] at hD'
    rcases hD' with rfl | rfl <;> simp [SimDisk.put, fits_ne_output, bin_ne_output, hf, hb]
  have hstuck : ∀ f, simScript int64 f s D' = ⟨[], .error (.Other "OSError")⟩ := by
    intro f
    rw [script_uses_file int64 f s D' h1.1 (by rw [h1.2.1]; rfl)]
    have hc : convertFile int64 (binName s) D' = ⟨[], .error (.Other "OSError")⟩ := by
      unfold convertFile
      rw [h1.2.1]
      simp [hr, h1.2.2]
    rw [hc]
    exact DiskRun.next_error _ _ _ _ rfl
  refine ⟨h1.1, h1.2.2, fun fs => ⟨?_, fun f => ⟨_, by rw [hstuck f]⟩⟩⟩
  induction fs with
  | nil => rfl
  | cons f fs ih =>
    rw [reruns, hstuck f]
    exact ih

/-- Reading a file that ends within the first field. -/
theorem binaryToFits_cut (int64 : W → W → ℤ) (a b lo hi c d : W) (body : List W) (N : ℕ) (hN : int64 lo hi = N) (hN1 : N ≤ 536870908)
    (j : ℕ) (hj : j ≤ N) : ∃ g1 g2 om, binaryToFits int64 (a :: b :: lo :: hi :: c :: d :: body.take j) = .ok (body.take j, g1, g2, om) := by
  have hl : loadBlocks = 536870908 :: loadBlocks.tail := by decide
  have hk : (readField loadBlocks (N : ℤ) (body.take j)).1 = body.take j := by
    rw [hl]
    unfold readField
    have hm : min (536870908 : ℤ) (N : ℤ) = N := min_eq_right (by exact_mod_cast hN1)
    simp only [hm, sub_self, if_true, fromFile_nat]
    rw [List.take_take, min_eq_right hj]
  unfold binaryToFits
  simp only [hN]
  rw [hk]
  exact ⟨_, _, _, rfl⟩

/-- C123 (refuted), killed while downloading: let the server's file have a header with `npix` (at most one block, as for `nres` 12) and a
first field of `npix` values.  A run killed (or cut off from the server) before the first field is complete leaves a disk from which the
map is never produced: every later run works on the truncated file and never asks the server, whatever the network does. -/
theorem C123_truncated_refuted (int64 : W → W → ℤ) (s : SimSettings) (hs : 10 ≤ s.nres ∧ s.nres < 100)
    (a b lo hi c d : W) (body : List W) (N : ℕ) (hN : int64 lo hi = N) (hN1 : N ≤ 536870908) (hlen : N ≤ body.length)
    (D : SimDisk W) (hf : D (fitsName s) = none) (hb : D (binName s) = none) (ho : D "output.fits".toList = none) (k : ℕ) (hk : k < 6 + N) :
    ∃ D', KilledDisk (simScript int64 (goodServer (a :: b :: lo :: hi :: c :: d :: body)) s D) D D' ∧
      D' (binName s) = some (.words ((a :: b :: lo :: hi :: c :: d :: body).take k)) ∧
      ∀ fs, (reruns int64 s fs D') (fitsName s) ≠ some (.fits (body.take N)) ∧
        ((¬ ∃ m, 0 < m ∧ k - 6 = 12 * m ^ 2) → reruns int64 s fs D' = D' ∧ ∀ f, ∃ e, (simScript int64 f s D').result = .error e) := by
  rw [← output_literal] at ho
  set S := a :: b :: lo :: hi :: c :: d :: body with hS
  set D' := D.put (binName s) (.words (S.take k)) with hD'
  have hkS : k < S.length + 1 := by simp [hS]; omega
  refine ⟨D', .inr ?_, if_pos rfl, ?_⟩
  · have hdl : downloadBinary (goodServer S) (binName s) D =
        ⟨(List.range (S.length + 1)).map fun k => D.put (binName s) (.words (S.take k)), .ok ()⟩ := by
      unfold downloadBinary
      rw [C123_url s hs.1 hs.2]
      rfl
    unfold simScript
    simp only [hf, hb, Option.isSome_none, Bool.false_eq_true, if_false, hdl]
    rw [DiskRun.next_ok _ _ _ rfl]
    exact List.mem_append_left _ (List.mem_map.mpr ⟨k, List.mem_range.mpr hkS, rfl⟩)
  have hf' : D' (fitsName s) = none := by simp [hD', SimDisk.put, (bin_ne_fits s).symm, hf]
  have hb' : D' (binName s) = some (.words (S.take k)) := if_pos rfl
  have ho' : D' outputName = none := by simp [hD', SimDisk.put, (bin_ne_output s).symm, ho]
  have hstuck : ∀ fs, (∃ e, convertFile int64 (binName s) D' = ⟨[], .error e⟩) →
      reruns int64 s fs D' = D' ∧ ∀ f, ∃ e, (simScript int64 f s D').result = .error e := by
    rintro fs ⟨e, he⟩
    have hst : ∀ f, simScript int64 f s D' = ⟨[], .error e⟩ := fun f => by
      rw [script_uses_file int64 f s D' hf' (by rw [hb']; rfl), he]
      exact DiskRun.next_error _ _ _ _ rfl
    refine ⟨?_, fun f => ⟨e, by rw [hst f]⟩⟩
    induction fs with
    | nil => rfl
    | cons f fs ih => rw [reruns, hst f]; exact ih
  intro fs
  by_cases h6 : k < 6
  · have he : ∃ e, convertFile int64 (binName s) D' = ⟨[], .error e⟩ := by
      unfold convertFile
      rw [hb']
      refine ⟨.IndexError, ?_⟩
      have : binaryToFits int64 (S.take k) = .error .IndexError := by
        have : k = 0 ∨ k = 1 ∨ k = 2 ∨ k = 3 ∨ k = 4 ∨ k = 5 := by omega
        rcases this with rfl | rfl | rfl | rfl | rfl | rfl <;> rfl
      simp only [this]
    refine ⟨?_, fun _ => hstuck fs he⟩
    rw [(hstuck fs he).1, hf']
    exact fun h => nomatch h
  · obtain ⟨j, rfl⟩ : ∃ j, k = j + 6 := ⟨k - 6, by omega⟩
    have hj : j < N := by omega
    have hSt : S.take (j + 6) = a :: b :: lo :: hi :: c :: d :: body.take j := by simp [hS]
    obtain ⟨g1, g2, om, hr⟩ := binaryToFits_cut int64 a b lo hi c d body N hN hN1 j hj.le
    rw [← hSt] at hr
    have hlj : (body.take j).length = j := by simp; omega
    rw [Nat.add_sub_cancel]
    by_cases hp : HealpixSize j
    · refine ⟨?_, fun h => absurd hp h⟩
      have hc := convert_good int64 s D' _ _ _ _ _ hb' ho' hr (by rw [hlj]; exact hp)
      have hst : ∀ f, simScript int64 f s D' = _ := fun f => (script_uses_file int64 f s D' hf' (by rw [hb']; rfl)).trans hc
      have hne : (some (FileData.fits (body.take j)) : Option (FileData W)) ≠ some (.fits (body.take N)) := by
        intro h
        have h1 := FileData.fits.inj (Option.some.inj h)
        have h2 := congrArg List.length h1
        rw [hlj, List.length_take, min_eq_left hlen] at h2
        omega
      cases fs with
      | nil => rw [reruns, hf']; exact fun h => nomatch h
      | cons f fs =>
        rw [reruns, hst f]
        set D2 := DiskRun.final _ D' with hD2
        have h1 : D2 (fitsName s) = some (.fits (body.take j)) := by
          rw [hD2]
          simp [DiskRun.final, SimDisk.rename, SimDisk.put]
        have h2 : ∀ fs, reruns int64 s fs D2 = D2 := by
          intro fs
          induction fs with
          | nil => rfl
          | cons f fs ih =>
            rw [reruns, C123_found int64 f s D2 (by rw [h1]; rfl)]
            exact ih
        rw [h2, h1]
        exact hne
    · have he : ∃ e, convertFile int64 (binName s) D' = ⟨[], .error e⟩ := by
        unfold convertFile
        rw [hb']
        refine ⟨.TypeError, ?_⟩
        simp only [hr, ho', Option.isSome_none, Bool.false_eq_true, if_false, hlj, hp, not_false_iff, if_true]
      refine ⟨?_, fun _ => hstuck fs he⟩
      rw [(hstuck fs he).1, hf']
      exact fun h => nomatch h

/-- C123 (refuted), an error page: the status of the answer is not looked at.  If the server answers once with something that is no
simulation file, it is stored under the name of the file and every later run raises and changes nothing, although the server works. -/
theorem C123_error_page_refuted (int64 : W → W → ℤ) (s : SimSettings) (hs : 10 ≤ s.nres ∧ s.nres < 100) (page : List W) (e : PyErr)
    (hp : binaryToFits int64 page = .error e) (D : SimDisk W) (hf : D (fitsName s) = none) (hb : D (binName s) = none) :
    ∀ fs, reruns int64 s (goodServer page :: fs) D = D.put (binName s) (.words page) ∧
      ∀ f, (simScript int64 f s (reruns int64 s (goodServer page :: fs) D)).result = .error e := by
  have hdl : downloadBinary (goodServer page) (binName s) D =
      ⟨(List.range (page.length + 1)).map fun k => D.put (binName s) (.words (page.take k)), .ok ()⟩ := by
    unfold downloadBinary
    rw [C123_url s hs.1 hs.2]
    rfl
  have hfin : (DiskRun.final ⟨(List.range (page.length + 1)).map fun k => D.put (binName s) (.words (page.take k)), .ok ()⟩ D) =
      D.put (binName s) (.words page) := by
    simp [DiskRun.final, List.range_succ]
  set D1 := D.put (binName s) (.words page) with hD1
  have hb1 : D1 (binName s) = some (.words page) := if_pos rfl
  have hf1 : D1 (fitsName s) = none := by simp [hD1, SimDisk.put, (bin_ne_fits s).symm, hf]
  have hc : convertFile int64 (binName s) D1 = ⟨[], .error e⟩ := by
    unfold convertFile
    rw [hb1]
    simp only [hp]
  have hst : ∀ f, simScript int64 f s D1 = ⟨[], .error e⟩ := fun f => by
    rw [script_uses_file int64 f s D1 hf1 (by rw [hb1]; rfl), hc]
    exact DiskRun.next_error _ _ _ _ rfl
  have hfirst : (simScript int64 (goodServer page) s D).final D = D1 := by
    unfold simScript
    simp only [hf, hb, Option.isSome_none, Bool.false_eq_true, if_false, hdl]
    rw [DiskRun.next_ok _ _ _ rfl, hfin, DiskRun.next_error _ _ _ e (by rw [hc]), hc]
    simp only [List.append_nil]
    exact hfin
  have hall : ∀ fs, reruns int64 s (goodServer page :: fs) D = D1 := by
    intro fs
    rw [reruns, hfirst]
    induction fs with
    | nil => rfl
    | cons f fs ih => rw [reruns, hst f]; exact ih
  intro fs
  rw [hall fs]
  exact ⟨rfl, fun f => by rw [hst f]⟩

/-- The hypotheses are met by `nres = 12` and a file with 48 values per field (the header words are numbers): the undisturbed run, a run
killed after 20 words (all later runs raise) and one killed after 18 words (a map of 12 values is installed). -/
example : (∃ kappa g1 g2 om, binaryToFits (fun lo _ : ℕ => (lo : ℤ)) (0 :: 2 :: 48 :: 0 :: 0 :: 0 :: List.replicate 200 7) =
      .ok (kappa, g1, g2, om) ∧ HealpixSize kappa.length) ∧ (10 ≤ (SimSettings.mk 12 0 16).nres ∧ (SimSettings.mk 12 0 16).nres < 100) ∧
    20 < 6 + 48 ∧ ¬ HealpixSize (20 - 6) ∧ 18 < 6 + 48 ∧ HealpixSize (18 - 6) ∧
    binaryToFits (fun lo _ : ℕ => (lo : ℤ)) [1, 2, 3] = .error .IndexError := by
  refine ⟨?_, by norm_num, by norm_num, ?_, by norm_num, ⟨1, one_pos, rfl⟩, rfl⟩
  · refine ⟨List.replicate 48 7, _, _, _, rfl, 2, two_pos, rfl⟩
  · rintro ⟨m, hm, h⟩
    have : m = 1 ∨ 2 ≤ m := by omega
    rcases this with rfl | h2
    · omega
    · have := Nat.pow_le_pow_left h2 2
      omega

end Pxmcmc
