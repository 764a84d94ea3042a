import Verif.Lemmas.Recur
import Verif.Lemmas.Coupling
import Mathlib.Data.Nat.Count

/-! # The law of the accepted states of a chain on a grid -/

namespace Pxmcmc
open MeasureTheory ProbabilityTheory Filter
open scoped ENNReal Topology
set_option linter.unusedSectionVars false

section Ops
variable {E V : Type} [MeasurableSpace E] [MeasurableSpace V]

/-- The mean of `φ` after one step, on the steps in `A`. -/
noncomputable def accF (κ : Measure V) (f : E → V → E) (A : Set (E × V)) (φ : E → ℝ≥0∞) (x : E) : ℝ≥0∞ :=
  ∫⁻ v, A.indicator (fun q => φ (f q.1 q.2)) (x, v) ∂κ

/-- The mean of `φ` after one step. -/
noncomputable def fullF (κ : Measure V) (f : E → V → E) (φ : E → ℝ≥0∞) (x : E) : ℝ≥0∞ := ∫⁻ v, φ (f x v) ∂κ

variable {κ : Measure V} [IsProbabilityMeasure κ] {f : E → V → E} {A : Set (E × V)} {φ ψ : E → ℝ≥0∞}

theorem accF_meas (hf : Measurable (Function.uncurry f)) (hA : MeasurableSet A) (hφ : Measurable φ) : Measurable (accF κ f A φ) :=
  ((hφ.comp hf).indicator hA).lintegral_prod_right'

theorem fullF_meas (hf : Measurable (Function.uncurry f)) (hφ : Measurable φ) : Measurable (fullF κ f φ) :=
  (hφ.comp hf).lintegral_prod_right'

theorem accF_add (hf : Measurable (Function.uncurry f)) (hA : MeasurableSet A) (hφ : Measurable φ) (x : E) :
    accF κ f A φ x + accF κ f Aᶜ φ x = fullF κ f φ x := by
  unfold accF fullF
  have hm : Measurable fun v => A.indicator (fun q : E × V => φ (f q.1 q.2)) (x, v) :=
    ((hφ.comp hf).indicator hA).comp measurable_prodMk_left
  rw [← lintegral_add_left hm]
  refine lintegral_congr fun v => ?_
  by_cases h : (x, v) ∈ A
  · simp [h]
  · simp [h]

theorem accF_mono (h : ∀ x, φ x ≤ ψ x) (x : E) : accF κ f A φ x ≤ accF κ f A ψ x :=
  lintegral_mono fun _ => Set.indicator_le_indicator (h _)

theorem fullF_mono (h : ∀ x, φ x ≤ ψ x) (x : E) : fullF κ f φ x ≤ fullF κ f ψ x := lintegral_mono fun _ => h _

theorem fullF_le_one (h : ∀ x, φ x ≤ 1) (x : E) : fullF κ f φ x ≤ 1 := by
  refine (lintegral_mono fun _ => h _).trans ?_
  simp

theorem accF_iSup (hf : Measurable (Function.uncurry f)) (hA : MeasurableSet A) (u : ℕ → E → ℝ≥0∞) (hu : ∀ n, Measurable (u n))
    (hm : Monotone u) (x : E) : accF κ f A (fun y => ⨆ n, u n y) x = ⨆ n, accF κ f A (u n) x := by
  unfold accF
  have hi : ∀ n, Measurable fun v => A.indicator (fun q : E × V => u n (f q.1 q.2)) (x, v) := fun n =>
    (((hu n).comp hf).indicator hA).comp measurable_prodMk_left
  rw [← lintegral_iSup hi (fun i j hij v => Set.indicator_le_indicator (hm hij _))]
  refine lintegral_congr fun v => ?_
  by_cases h : (x, v) ∈ A
  · simp [h]
  · simp [h]

theorem fullF_iSup (hf : Measurable (Function.uncurry f)) (u : ℕ → E → ℝ≥0∞) (hu : ∀ n, Measurable (u n))
    (hm : Monotone u) (x : E) : fullF κ f (fun y => ⨆ n, u n y) x = ⨆ n, fullF κ f (u n) x := by
  unfold fullF
  exact lintegral_iSup (fun n => ((hu n).comp hf).comp measurable_prodMk_left) (fun i j hij v => hm hij _)

theorem iter_meas (hf : Measurable (Function.uncurry f)) (hφ : Measurable φ) (k : ℕ) : Measurable ((fullF κ f)^[k] φ) := by
  induction k with
  | zero => exact hφ
  | succ k ih => rw [Function.iterate_succ_apply']; exact fullF_meas hf ih

theorem iter_mono (k : ℕ) (h : ∀ x, φ x ≤ ψ x) (x : E) : (fullF κ f)^[k] φ x ≤ (fullF κ f)^[k] ψ x := by
  induction k generalizing x with
  | zero => exact h x
  | succ k ih => rw [Function.iterate_succ_apply', Function.iterate_succ_apply']; exact fullF_mono ih x

theorem iter_le_one (h : ∀ x, φ x ≤ 1) (k : ℕ) (x : E) : (fullF κ f)^[k] φ x ≤ 1 := by
  induction k generalizing x with
  | zero => exact h x
  | succ k ih => rw [Function.iterate_succ_apply']; exact fullF_le_one ih x

theorem iter_iSup (hf : Measurable (Function.uncurry f)) (k : ℕ) (u : ℕ → E → ℝ≥0∞) (hu : ∀ n, Measurable (u n))
    (hm : Monotone u) (x : E) : (fullF κ f)^[k] (fun y => ⨆ n, u n y) x = ⨆ n, (fullF κ f)^[k] (u n) x := by
  induction k generalizing x with
  | zero => rfl
  | succ k ih =>
    rw [Function.iterate_succ_apply']
    have e : (fullF κ f)^[k] (fun y => ⨆ n, u n y) = fun y => ⨆ n, (fullF κ f)^[k] (u n) y := funext ih
    rw [e, fullF_iSup hf _ (fun n => iter_meas hf (hu n) k) (fun i j hij y => iter_mono k (hm hij) y)]
    simp only [Function.iterate_succ_apply']

variable (κ f A) in
/-- The mean of `φ` at the first step in `A` on the grid of spacing `s + 1`, within `N` grid points. -/
noncomputable def potN (s : ℕ) (φ : E → ℝ≥0∞) : ℕ → E → ℝ≥0∞
  | 0 => fun _ => 0
  | N + 1 => fun x => accF κ f A φ x + accF κ f Aᶜ ((fullF κ f)^[s] (potN s φ N)) x

variable (κ f A) in
/-- The mean of `φ` at the first step in `A` on the grid of spacing `s + 1`. -/
noncomputable def pot (s : ℕ) (φ : E → ℝ≥0∞) (x : E) : ℝ≥0∞ := ⨆ N, potN κ f A s φ N x

theorem potN_meas (hf : Measurable (Function.uncurry f)) (hA : MeasurableSet A) (hφ : Measurable φ) (s N : ℕ) :
    Measurable (potN κ f A s φ N) := by
  induction N with
  | zero => exact measurable_const
  | succ N ih => exact (accF_meas hf hA hφ).add (accF_meas hf hA.compl (iter_meas hf ih s))

theorem potN_mono (s : ℕ) : Monotone (potN κ f A s φ) := by
  refine monotone_nat_of_le_succ fun N => ?_
  induction N with
  | zero => intro x; exact zero_le
  | succ N ih =>
    intro x
    exact add_le_add le_rfl (accF_mono (fun y => iter_mono s ih y) x)

theorem potN_le_one (hf : Measurable (Function.uncurry f)) (hA : MeasurableSet A) (h : ∀ x, φ x ≤ 1) (s N : ℕ) (x : E) :
    potN κ f A s φ N x ≤ 1 := by
  induction N generalizing x with
  | zero => exact zero_le
  | succ N ih =>
    refine (add_le_add (accF_mono (ψ := fun _ => 1) h x) (accF_mono (ψ := fun _ => 1) (iter_le_one ih s) x)).trans ?_
    rw [accF_add hf hA measurable_const]
    exact fullF_le_one (fun _ => le_rfl) x

theorem pot_meas (hf : Measurable (Function.uncurry f)) (hA : MeasurableSet A) (hφ : Measurable φ) (s : ℕ) : Measurable (pot κ f A s φ) :=
  Measurable.iSup fun N => potN_meas hf hA hφ s N

theorem pot_le_one (hf : Measurable (Function.uncurry f)) (hA : MeasurableSet A) (h : ∀ x, φ x ≤ 1) (s : ℕ) (x : E) : pot κ f A s φ x ≤ 1 :=
  iSup_le fun N => potN_le_one hf hA h s N x

theorem pot_eq (hf : Measurable (Function.uncurry f)) (hA : MeasurableSet A) (hφ : Measurable φ) (s : ℕ) (x : E) :
    pot κ f A s φ x = accF κ f A φ x + accF κ f Aᶜ ((fullF κ f)^[s] (pot κ f A s φ)) x := by
  have hm := potN_mono (κ := κ) (f := f) (A := A) (φ := φ) s
  have e1 : (fullF κ f)^[s] (pot κ f A s φ) = fun y => ⨆ N, (fullF κ f)^[s] (potN κ f A s φ N) y :=
    funext fun y => iter_iSup hf s _ (potN_meas hf hA hφ s) hm y
  rw [e1, accF_iSup hf hA.compl _ (fun N => iter_meas hf (potN_meas hf hA hφ s N) s) (fun i j hij y => iter_mono s (hm hij) y),
    ENNReal.add_iSup]
  have e2 : pot κ f A s φ x = ⨆ N, potN κ f A s φ (N + 1) x := by
    unfold pot
    refine le_antisymm (iSup_le fun N => le_iSup_of_le N (hm (Nat.le_succ N) x)) (iSup_le fun N => le_iSup (fun N => potN κ f A s φ N x) (N + 1))
  rw [e2]
  rfl

end Ops

theorem count_unbounded (Q : ℕ → Prop) [DecidablePred Q] (h : ∀ N, ∃ k, N ≤ k ∧ Q k) (m : ℕ) : ∃ N, m ≤ Nat.count Q N := by
  induction m with
  | zero => exact ⟨0, Nat.zero_le _⟩
  | succ m ih =>
    obtain ⟨N, hN⟩ := ih
    obtain ⟨k, hk, hQ⟩ := h N
    refine ⟨k + 1, ?_⟩
    rw [Nat.count_succ, if_pos hQ]
    have := Nat.count_monotone Q hk
    omega

section Rows
variable {E V Ω : Type} [MeasurableSpace E] [MeasurableSpace V] [MeasurableSpace Ω] {κ : Measure V} [IsProbabilityMeasure κ] {f : E → V → E}
  {A : Set (E × V)} {P : Measure Ω} [IsProbabilityMeasure P] {x0 : Ω → E} {w : ℕ → Ω → V} {φ : E → ℝ≥0∞}

open Classical in
/-- The number of acceptances on the grid `b, b + h, b + 2h, …` before iteration `k`. -/
noncomputable def hits (f : E → V → E) (A : Set (E × V)) (b h : ℕ) (s : E) (v : ℕ → V) (k : ℕ) : ℕ :=
  Nat.count (fun i => b ≤ i ∧ h ∣ i - b ∧ (fwState f s v i, v i) ∈ A) k

omit [MeasurableSpace E] [MeasurableSpace V] in
theorem hits_free {b h : ℕ} {s : E} {v : ℕ → V} {k : ℕ} (hk : ¬ (b ≤ k ∧ h ∣ k - b)) : hits f A b h s v (k + 1) = hits f A b h s v k := by
  unfold hits
  rw [Nat.count_succ, if_neg (fun hh => hk ⟨hh.1, hh.2.1⟩), add_zero]

omit [MeasurableSpace E] [MeasurableSpace V] in
open Classical in
theorem hits_grid {b h : ℕ} {s : E} {v : ℕ → V} {k : ℕ} (hk : b ≤ k ∧ h ∣ k - b) :
    hits f A b h s v (k + 1) = hits f A b h s v k + if (fwState f s v k, v k) ∈ A then 1 else 0 := by
  unfold hits
  rw [Nat.count_succ]
  congr 1
  by_cases h1 : (fwState f s v k, v k) ∈ A
  · rw [if_pos ⟨hk.1, hk.2, h1⟩, if_pos h1]
  · rw [if_neg (fun hh => h1 hh.2.2), if_neg h1]

omit [MeasurableSpace E] [MeasurableSpace V] in
theorem hits_start {b h : ℕ} {s : E} {v : ℕ → V} {k : ℕ} (hk : k ≤ b) : hits f A b h s v k = 0 := by
  induction k with
  | zero => simp [hits]
  | succ k ih => rw [hits_free (by omega), ih (by omega)]

theorem hits_prefix (hf : Measurable (Function.uncurry f)) (hA : MeasurableSet A) (b h k : ℕ) :
    ∃ C : E × (Fin k → V) → ℕ, Measurable C ∧ ∀ (s : E) (v : ℕ → V), hits f A b h s v k = C (s, fun i : Fin k => v i) := by
  classical
  induction k with
  | zero => exact ⟨fun _ => 0, measurable_const, fun s v => by simp [hits]⟩
  | succ k ih =>
    obtain ⟨C, hC, hCe⟩ := ih
    obtain ⟨G, hG, hGe⟩ := state_prefix (f := f) hf k
    have hcm : Measurable fun q : E × (Fin (k + 1) → V) => (q.1, fun i : Fin k => q.2 i.castSucc) :=
      measurable_fst.prodMk (measurable_pi_lambda _ fun i => (measurable_pi_apply i.castSucc).comp measurable_snd)
    by_cases hk : b ≤ k ∧ h ∣ k - b
    · have hlm : Measurable fun q : E × (Fin (k + 1) → V) => (G (q.1, fun i : Fin k => q.2 i.castSucc), q.2 (Fin.last k)) :=
        (hG.comp hcm).prodMk ((measurable_pi_apply _).comp measurable_snd)
      refine ⟨fun q => C (q.1, fun i : Fin k => q.2 i.castSucc) +
        if (G (q.1, fun i : Fin k => q.2 i.castSucc), q.2 (Fin.last k)) ∈ A then 1 else 0, ?_, fun s v => ?_⟩
      · exact (hC.comp hcm).add (Measurable.ite (hlm hA) measurable_const measurable_const)
      · rw [hits_grid hk, hCe, hGe]
        rfl
    · refine ⟨fun q => C (q.1, fun i : Fin k => q.2 i.castSucc), hC.comp hcm, fun s v => ?_⟩
      rw [hits_free hk, hCe]
      rfl

/-- The state before iteration `k`. -/
noncomputable abbrev stAt (f : E → V → E) (x0 : Ω → E) (w : ℕ → Ω → V) (k : ℕ) (ω : Ω) : E := fwState f (x0 ω) (fun i => w i ω) k

/-- The number of acceptances on the grid before iteration `k`. -/
noncomputable abbrev hitsAt (f : E → V → E) (A : Set (E × V)) (b h : ℕ) (x0 : Ω → E) (w : ℕ → Ω → V) (k : ℕ) (ω : Ω) : ℕ :=
  hits f A b h (x0 ω) (fun i => w i ω) k

theorem hitsAt_meas (hs : SeqIndep P x0 w κ) (hf : Measurable (Function.uncurry f)) (hA : MeasurableSet A) (b h k : ℕ) :
    Measurable (hitsAt f A b h x0 w k) := by
  obtain ⟨C, hC, hCe⟩ := hits_prefix hf hA b h k
  have e : hitsAt f A b h x0 w k = fun ω => C (x0 ω, fun i : Fin k => w i ω) := funext fun ω => hCe _ _
  rw [e]
  exact hC.comp (hs.pre_meas k)

/-- A fresh draw is independent of the state and of the number of acceptances. -/
theorem peel_hits (hs : SeqIndep P x0 w κ) (hf : Measurable (Function.uncurry f)) (hA : MeasurableSet A) (b h k j : ℕ)
    (ψ : E × V → ℝ≥0∞) (hψ : Measurable ψ) :
    ∫⁻ ω, (if hitsAt f A b h x0 w k ω = j then ψ (stAt f x0 w k ω, w k ω) else 0) ∂P =
      ∫⁻ ω, (if hitsAt f A b h x0 w k ω = j then ∫⁻ v, ψ (stAt f x0 w k ω, v) ∂κ else 0) ∂P := by
  obtain ⟨C, hC, hCe⟩ := hits_prefix hf hA b h k
  obtain ⟨G, hG, hGe⟩ := state_prefix (f := f) hf k
  have hm : Measurable fun q : (E × (Fin k → V)) × V => if C q.1 = j then ψ (G q.1, q.2) else 0 :=
    Measurable.ite ((hC.comp measurable_fst) (measurableSet_singleton j)) (hψ.comp ((hG.comp measurable_fst).prodMk measurable_snd))
      measurable_const
  have h1 := hs.peel k _ hm
  simp only [hitsAt, stAt, hCe, hGe]
  rw [h1]
  refine lintegral_congr fun ω => ?_
  by_cases hj : C (x0 ω, fun i : Fin k => w i ω) = j
  · simp [hj]
  · simp [hj]

/-- The mean of `φ` at the state before iteration `k`, when `j` states have been accepted on the grid so far. -/
noncomputable def qAt (P : Measure Ω) (f : E → V → E) (A : Set (E × V)) (b h : ℕ) (x0 : Ω → E) (w : ℕ → Ω → V) (k j : ℕ)
    (φ : E → ℝ≥0∞) : ℝ≥0∞ := ∫⁻ ω, (if hitsAt f A b h x0 w k ω = j then φ (stAt f x0 w k ω) else 0) ∂P

theorem qAt_free (hs : SeqIndep P x0 w κ) (hf : Measurable (Function.uncurry f)) (hA : MeasurableSet A) {b h k : ℕ} (j : ℕ)
    (hφ : Measurable φ) (hk : ¬ (b ≤ k ∧ h ∣ k - b)) : qAt P f A b h x0 w (k + 1) j φ = qAt P f A b h x0 w k j (fullF κ f φ) := by
  have h1 := peel_hits hs hf hA b h k j (fun q => φ (f q.1 q.2)) (hφ.comp hf)
  unfold qAt
  simp only [hitsAt, hits_free hk]
  exact h1

theorem ite_meas (hs : SeqIndep P x0 w κ) (hf : Measurable (Function.uncurry f)) (hA : MeasurableSet A) (b h k j : ℕ)
    (ψ : E × V → ℝ≥0∞) (hψ : Measurable ψ) :
    Measurable fun ω => if hitsAt f A b h x0 w k ω = j then ψ (stAt f x0 w k ω, w k ω) else 0 :=
  Measurable.ite (hitsAt_meas hs hf hA b h k (measurableSet_singleton j)) (hψ.comp ((hs.state_meas hf k).prodMk (hs.meas k))) measurable_const

theorem qAt_acc (hs : SeqIndep P x0 w κ) (hf : Measurable (Function.uncurry f)) (hA : MeasurableSet A) (b h k j : ℕ)
    (hφ : Measurable φ) :
    ∫⁻ ω, (if hitsAt f A b h x0 w k ω = j then A.indicator (fun q => φ (f q.1 q.2)) (stAt f x0 w k ω, w k ω) else 0) ∂P =
      qAt P f A b h x0 w k j (accF κ f A φ) :=
  peel_hits hs hf hA b h k j _ ((hφ.comp hf).indicator hA)

theorem qAt_rej (hs : SeqIndep P x0 w κ) (hf : Measurable (Function.uncurry f)) (hA : MeasurableSet A) (b h k j : ℕ)
    (hφ : Measurable φ) :
    ∫⁻ ω, (if hitsAt f A b h x0 w k ω = j then Aᶜ.indicator (fun q => φ (f q.1 q.2)) (stAt f x0 w k ω, w k ω) else 0) ∂P =
      qAt P f A b h x0 w k j (accF κ f Aᶜ φ) :=
  peel_hits hs hf hA b h k j _ ((hφ.comp hf).indicator hA.compl)

theorem qAt_grid_zero (hs : SeqIndep P x0 w κ) (hf : Measurable (Function.uncurry f)) (hA : MeasurableSet A) {b h k : ℕ}
    (hφ : Measurable φ) (hk : b ≤ k ∧ h ∣ k - b) : qAt P f A b h x0 w (k + 1) 0 φ = qAt P f A b h x0 w k 0 (accF κ f Aᶜ φ) := by
  classical
  rw [← qAt_rej hs hf hA b h k 0 hφ]
  unfold qAt
  refine lintegral_congr fun ω => ?_
  simp only [hitsAt, hits_grid hk]
  by_cases hm : (stAt f x0 w k ω, w k ω) ∈ A
  · simp [hm]
  · simp [hm]
    rfl

theorem qAt_grid_succ (hs : SeqIndep P x0 w κ) (hf : Measurable (Function.uncurry f)) (hA : MeasurableSet A) {b h k : ℕ} (j : ℕ)
    (hφ : Measurable φ) (hk : b ≤ k ∧ h ∣ k - b) : qAt P f A b h x0 w (k + 1) (j + 1) φ =
      qAt P f A b h x0 w k (j + 1) (accF κ f Aᶜ φ) + qAt P f A b h x0 w k j (accF κ f A φ) := by
  classical
  have hm : Measurable fun ω => if hitsAt f A b h x0 w k ω = j + 1 then Aᶜ.indicator (fun q => φ (f q.1 q.2)) (stAt f x0 w k ω, w k ω) else 0 :=
    ite_meas hs hf hA b h k (j + 1) _ ((hφ.comp hf).indicator hA.compl)
  rw [← qAt_rej hs hf hA b h k (j + 1) hφ, ← qAt_acc hs hf hA b h k j hφ, ← lintegral_add_left hm]
  unfold qAt
  refine lintegral_congr fun ω => ?_
  simp only [hitsAt, hits_grid hk]
  by_cases hm : (stAt f x0 w k ω, w k ω) ∈ A
  · simp [hm]
    rfl
  · simp [hm]
    rfl

theorem qAt_run (hs : SeqIndep P x0 w κ) (hf : Measurable (Function.uncurry f)) (hA : MeasurableSet A) {b h k : ℕ} (j m : ℕ)
    (hφ : Measurable φ) (hk : ∀ i, k ≤ i → i < k + m → ¬ (b ≤ i ∧ h ∣ i - b)) :
    qAt P f A b h x0 w (k + m) j φ = qAt P f A b h x0 w k j ((fullF κ f)^[m] φ) := by
  induction m generalizing φ with
  | zero => rfl
  | succ m ih =>
    rw [← add_assoc, qAt_free hs hf hA j hφ (hk _ (by omega) (by omega)), ih (fullF_meas hf hφ) fun i h1 h2 => hk i h1 (by omega)]
    rfl

theorem grid_gap (b h m i : ℕ) (h1 : b + m * h + 1 ≤ i) (h2 : i < b + (m + 1) * h) : ¬ (b ≤ i ∧ h ∣ i - b) := by
  rintro ⟨h3, c, hc⟩
  have h4 : m * h < h * c := by omega
  have h5 : h * c < (m + 1) * h := by omega
  rw [mul_comm m h] at h4
  rw [mul_comm (m + 1) h] at h5
  have := lt_of_mul_lt_mul_left h4 (Nat.zero_le _)
  have := lt_of_mul_lt_mul_left h5 (Nat.zero_le _)
  omega

theorem qAt_block_zero (hs : SeqIndep P x0 w κ) (hf : Measurable (Function.uncurry f)) (hA : MeasurableSet A) (b s m : ℕ)
    (hφ : Measurable φ) : qAt P f A b (s + 1) x0 w (b + (m + 1) * (s + 1)) 0 φ =
      qAt P f A b (s + 1) x0 w (b + m * (s + 1)) 0 (accF κ f Aᶜ ((fullF κ f)^[s] φ)) := by
  have e : b + (m + 1) * (s + 1) = b + m * (s + 1) + 1 + s := by ring
  rw [e, qAt_run hs hf hA 0 s hφ fun i h1 h2 => grid_gap b (s + 1) m i h1 (by rw [e]; exact h2),
    qAt_grid_zero hs hf hA (iter_meas hf hφ s) ⟨by omega, ⟨m, by rw [Nat.add_sub_cancel_left, mul_comm]⟩⟩]

theorem qAt_block_succ (hs : SeqIndep P x0 w κ) (hf : Measurable (Function.uncurry f)) (hA : MeasurableSet A) (b s m j : ℕ)
    (hφ : Measurable φ) : qAt P f A b (s + 1) x0 w (b + (m + 1) * (s + 1)) (j + 1) φ =
      qAt P f A b (s + 1) x0 w (b + m * (s + 1)) (j + 1) (accF κ f Aᶜ ((fullF κ f)^[s] φ)) +
      qAt P f A b (s + 1) x0 w (b + m * (s + 1)) j (accF κ f A ((fullF κ f)^[s] φ)) := by
  have e : b + (m + 1) * (s + 1) = b + m * (s + 1) + 1 + s := by ring
  rw [e, qAt_run hs hf hA (j + 1) s hφ fun i h1 h2 => grid_gap b (s + 1) m i h1 (by rw [e]; exact h2),
    qAt_grid_succ hs hf hA j (iter_meas hf hφ s) ⟨by omega, ⟨m, by rw [Nat.add_sub_cancel_left, mul_comm]⟩⟩]

theorem qAt_add (hs : SeqIndep P x0 w κ) (hf : Measurable (Function.uncurry f)) (hA : MeasurableSet A) (b h k j : ℕ) {φ ψ : E → ℝ≥0∞}
    (hφ : Measurable φ) : qAt P f A b h x0 w k j (fun x => φ x + ψ x) = qAt P f A b h x0 w k j φ + qAt P f A b h x0 w k j ψ := by
  unfold qAt
  rw [← lintegral_add_left (ite_meas hs hf hA b h k j (fun q => φ q.1) (hφ.comp measurable_fst))]
  refine lintegral_congr fun ω => ?_
  split <;> simp

theorem qAt_le (k j b h : ℕ) (hφ1 : ∀ x, φ x ≤ 1) :
    qAt P f A b h x0 w k j φ ≤ P {ω | hitsAt f A b h x0 w k ω ≤ j} := by
  unfold qAt
  refine le_trans (lintegral_mono (g := Set.indicator {ω | hitsAt f A b h x0 w k ω ≤ j} 1) fun ω => ?_) (lintegral_indicator_one_le _)
  by_cases hj : hitsAt f A b h x0 w k ω = j
  · rw [if_pos hj, Set.indicator_of_mem (show ω ∈ {ω | hitsAt f A b h x0 w k ω ≤ j} from hj.le)]
    exact hφ1 _
  · rw [if_neg hj]
    exact zero_le

/-- The mean of `φ` at the `j`-th accepted state (counted from 0) on the grid. -/
noncomputable def rowMean (κ : Measure V) (P : Measure Ω) (f : E → V → E) (A : Set (E × V)) (b h : ℕ) (x0 : Ω → E) (w : ℕ → Ω → V) (j : ℕ)
    (φ : E → ℝ≥0∞) : ℝ≥0∞ := ∑' m, qAt P f A b h x0 w (b + m * h) j (accF κ f A φ)

/-- Acceptances happen infinitely often: the number of accepted states grows beyond every bound. -/
theorem hits_limit (hs : SeqIndep P x0 w κ) (hf : Measurable (Function.uncurry f)) (hA : MeasurableSet A)
    (hrej : ∀ s v, (s, v) ∉ A → f s v = s) (hpos : ∀ s, κ {v | (s, v) ∈ A} ≠ 0) (b s j : ℕ) :
    Tendsto (fun M => P {ω | hitsAt f A b (s + 1) x0 w (b + M * (s + 1)) ω ≤ j}) atTop (𝓝 0) := by
  classical
  have hio := hs.grid_infinitely_often (f := f) hf hA hrej hpos b (s + 1) (by omega)
  have hz : P (⋂ M, {ω | hitsAt f A b (s + 1) x0 w (b + M * (s + 1)) ω ≤ j}) = 0 := by
    rw [← compl_compl (⋂ M, {ω | hitsAt f A b (s + 1) x0 w (b + M * (s + 1)) ω ≤ j}), ← mem_ae_iff]
    filter_upwards [hio] with ω hω
    intro hmem
    rw [Set.mem_iInter] at hmem
    obtain ⟨N, hN⟩ := count_unbounded _ hω (j + 1)
    have h1 := hmem N
    have h2 : j + 1 ≤ hitsAt f A b (s + 1) x0 w (b + N * (s + 1)) ω := by
      refine hN.trans ?_
      unfold hitsAt hits
      convert Nat.count_monotone (fun i => b ≤ i ∧ s + 1 ∣ i - b ∧ (fwState f (x0 ω) (fun i => w i ω) i, w i ω) ∈ A)
        (show N ≤ b + N * (s + 1) by nlinarith)
    have h3 : hitsAt f A b (s + 1) x0 w (b + N * (s + 1)) ω ≤ j := h1
    omega
  rw [← hz]
  refine tendsto_measure_iInter_atTop (fun M => (measurableSet_le (hitsAt_meas hs hf hA _ _ _) measurable_const).nullMeasurableSet)
    (fun i k hik ω hω => ?_) ⟨0, measure_ne_top _ _⟩
  have h2 : hitsAt f A b (s + 1) x0 w (b + i * (s + 1)) ω ≤ hitsAt f A b (s + 1) x0 w (b + k * (s + 1)) ω :=
    Nat.count_monotone _ (by nlinarith)
  have h3 : hitsAt f A b (s + 1) x0 w (b + k * (s + 1)) ω ≤ j := hω
  exact h2.trans h3

theorem qAt_pot_limit (hs : SeqIndep P x0 w κ) (hf : Measurable (Function.uncurry f)) (hA : MeasurableSet A)
    (hrej : ∀ s v, (s, v) ∉ A → f s v = s) (hpos : ∀ s, κ {v | (s, v) ∈ A} ≠ 0) (b s j : ℕ) (hφ1 : ∀ x, φ x ≤ 1) :
    Tendsto (fun M => qAt P f A b (s + 1) x0 w (b + M * (s + 1)) j (pot κ f A s φ)) atTop (𝓝 0) :=
  tendsto_of_tendsto_of_tendsto_of_le_of_le tendsto_const_nhds (hits_limit hs hf hA hrej hpos b s j) (fun _ => zero_le)
    fun _ => qAt_le _ _ _ _ (pot_le_one hf hA hφ1 s)

theorem qAt_pot (hs : SeqIndep P x0 w κ) (hf : Measurable (Function.uncurry f)) (hA : MeasurableSet A) (b s k j : ℕ) (hφ : Measurable φ) :
    qAt P f A b (s + 1) x0 w k j (pot κ f A s φ) = qAt P f A b (s + 1) x0 w k j (accF κ f A φ) +
      qAt P f A b (s + 1) x0 w k j (accF κ f Aᶜ ((fullF κ f)^[s] (pot κ f A s φ))) := by
  rw [← qAt_add hs hf hA b (s + 1) k j (accF_meas hf hA hφ)]
  congr 1
  funext x
  exact pot_eq hf hA hφ s x

/-- The first accepted state on the grid. -/
theorem rowMean_zero (hs : SeqIndep P x0 w κ) (hf : Measurable (Function.uncurry f)) (hA : MeasurableSet A)
    (hrej : ∀ s v, (s, v) ∉ A → f s v = s) (hpos : ∀ s, κ {v | (s, v) ∈ A} ≠ 0) (b s : ℕ) (hφ : Measurable φ) (hφ1 : ∀ x, φ x ≤ 1) :
    rowMean κ P f A b (s + 1) x0 w 0 φ = ∫⁻ x, pot κ f A s φ x ∂((stepLaw f κ)^[b] (P.map x0)) := by
  have hVm := pot_meas (κ := κ) hf hA hφ s
  have hsum : ∀ M, qAt P f A b (s + 1) x0 w (b + M * (s + 1)) 0 (pot κ f A s φ) +
      ∑ m ∈ Finset.range M, qAt P f A b (s + 1) x0 w (b + m * (s + 1)) 0 (accF κ f A φ) = qAt P f A b (s + 1) x0 w b 0 (pot κ f A s φ) := by
    intro M
    induction M with
    | zero => simp
    | succ M ih =>
      rw [← ih, qAt_block_zero hs hf hA b s M hVm, qAt_pot hs hf hA b s (b + M * (s + 1)) 0 hφ, Finset.sum_range_succ]
      ring
  have h1 := (qAt_pot_limit hs hf hA hrej hpos b s 0 hφ1).add
    (ENNReal.tendsto_nat_tsum fun m => qAt P f A b (s + 1) x0 w (b + m * (s + 1)) 0 (accF κ f A φ))
  simp only [hsum, zero_add] at h1
  have h2 := tendsto_nhds_unique h1 tendsto_const_nhds
  unfold rowMean
  rw [h2, ← hs.law_state hf b, lintegral_map hVm (hs.state_meas hf b)]
  unfold qAt
  refine lintegral_congr fun ω => ?_
  rw [if_pos (hits_start le_rfl)]

/-- Every later accepted state on the grid, from the one before. -/
theorem rowMean_succ (hs : SeqIndep P x0 w κ) (hf : Measurable (Function.uncurry f)) (hA : MeasurableSet A)
    (hrej : ∀ s v, (s, v) ∉ A → f s v = s) (hpos : ∀ s, κ {v | (s, v) ∈ A} ≠ 0) (b s j : ℕ) (hφ : Measurable φ) (hφ1 : ∀ x, φ x ≤ 1) :
    rowMean κ P f A b (s + 1) x0 w (j + 1) φ = rowMean κ P f A b (s + 1) x0 w j ((fullF κ f)^[s] (pot κ f A s φ)) := by
  have hVm := pot_meas (κ := κ) hf hA hφ s
  have h0 : qAt P f A b (s + 1) x0 w b (j + 1) (pot κ f A s φ) = 0 := by
    unfold qAt
    have e : ∀ ω, (if hitsAt f A b (s + 1) x0 w b ω = j + 1 then pot κ f A s φ (stAt f x0 w b ω) else 0) = 0 := fun ω => by
      rw [if_neg]
      rw [hitsAt, hits_start le_rfl]
      omega
    simp only [e, lintegral_zero]
  have hsum : ∀ M, qAt P f A b (s + 1) x0 w (b + M * (s + 1)) (j + 1) (pot κ f A s φ) +
      ∑ m ∈ Finset.range M, qAt P f A b (s + 1) x0 w (b + m * (s + 1)) (j + 1) (accF κ f A φ) =
      ∑ m ∈ Finset.range M, qAt P f A b (s + 1) x0 w (b + m * (s + 1)) j (accF κ f A ((fullF κ f)^[s] (pot κ f A s φ))) := by
    intro M
    induction M with
    | zero => simpa using h0
    | succ M ih =>
      rw [Finset.sum_range_succ _ M, Finset.sum_range_succ _ M, ← ih, qAt_block_succ hs hf hA b s M j hVm,
        qAt_pot hs hf hA b s (b + M * (s + 1)) (j + 1) hφ]
      ring
  have h1 := (qAt_pot_limit hs hf hA hrej hpos b s (j + 1) hφ1).add
    (ENNReal.tendsto_nat_tsum fun m => qAt P f A b (s + 1) x0 w (b + m * (s + 1)) (j + 1) (accF κ f A φ))
  simp only [hsum, zero_add] at h1
  exact tendsto_nhds_unique h1
    (ENNReal.tendsto_nat_tsum fun m => qAt P f A b (s + 1) x0 w (b + m * (s + 1)) j (accF κ f A ((fullF κ f)^[s] (pot κ f A s φ))))

/-- The probability that the `j`-th accepted state on the grid lies in a set. -/
theorem rowMean_event (hs : SeqIndep P x0 w κ) (hf : Measurable (Function.uncurry f)) (hA : MeasurableSet A) (b s j : ℕ) (S : Set E)
    (hS : MeasurableSet S) :
    P {ω | ∃ t, b ≤ t ∧ s + 1 ∣ t - b ∧ (stAt f x0 w t ω, w t ω) ∈ A ∧ hitsAt f A b (s + 1) x0 w t ω = j ∧ stAt f x0 w (t + 1) ω ∈ S} =
      rowMean κ P f A b (s + 1) x0 w j (S.indicator 1) := by
  classical
  set D : ℕ → Set Ω := fun m => {ω | (stAt f x0 w (b + m * (s + 1)) ω, w (b + m * (s + 1)) ω) ∈ A ∧
    hitsAt f A b (s + 1) x0 w (b + m * (s + 1)) ω = j ∧ stAt f x0 w (b + m * (s + 1) + 1) ω ∈ S} with hD
  have e : {ω | ∃ t, b ≤ t ∧ s + 1 ∣ t - b ∧ (stAt f x0 w t ω, w t ω) ∈ A ∧ hitsAt f A b (s + 1) x0 w t ω = j ∧
      stAt f x0 w (t + 1) ω ∈ S} = ⋃ m, D m := by
    ext ω
    rw [Set.mem_iUnion]
    constructor
    · rintro ⟨t, h1, ⟨c, hc⟩, h3⟩
      refine ⟨c, ?_⟩
      obtain rfl : t = b + c * (s + 1) := by rw [mul_comm c]; omega
      exact h3
    · rintro ⟨m, hm⟩
      exact ⟨b + m * (s + 1), by omega, ⟨m, by rw [Nat.add_sub_cancel_left, mul_comm]⟩, hm⟩
  have hDm : ∀ m, MeasurableSet (D m) := fun m =>
    (((hs.state_meas hf _).prodMk (hs.meas _)) hA).inter ((hitsAt_meas hs hf hA _ _ _ (measurableSet_singleton j)).inter
      ((hs.state_meas hf _) hS))
  have hlt : ∀ m m' ω, m < m' → ω ∈ D m → ω ∉ D m' := by
    intro m m' ω hmm h1 h2
    have h3 : hitsAt f A b (s + 1) x0 w (b + m * (s + 1) + 1) ω = j + 1 := by
      rw [hitsAt, hits_grid ⟨by omega, ⟨m, by rw [Nat.add_sub_cancel_left, mul_comm]⟩⟩, if_pos h1.1]
      exact congrArg (· + 1) h1.2.1
    have h4 : hitsAt f A b (s + 1) x0 w (b + m * (s + 1) + 1) ω ≤ hitsAt f A b (s + 1) x0 w (b + m' * (s + 1)) ω :=
      Nat.count_monotone _ (by nlinarith)
    have h5 := h2.2.1
    omega
  rw [e, measure_iUnion (fun m m' hmm => Set.disjoint_left.mpr fun ω h1 h2 => ?_) hDm]
  · refine tsum_congr fun m => ?_
    rw [← qAt_acc hs hf hA b (s + 1) _ j (measurable_one.indicator hS), ← lintegral_indicator_one (hDm m)]
    refine lintegral_congr fun ω => ?_
    have hst : stAt f x0 w (b + m * (s + 1) + 1) ω = f (stAt f x0 w (b + m * (s + 1)) ω) (w (b + m * (s + 1)) ω) := rfl
    by_cases h1 : (stAt f x0 w (b + m * (s + 1)) ω, w (b + m * (s + 1)) ω) ∈ A
    · by_cases h2 : hitsAt f A b (s + 1) x0 w (b + m * (s + 1)) ω = j
      · rw [if_pos h2, Set.indicator_of_mem h1]
        by_cases h3 : stAt f x0 w (b + m * (s + 1) + 1) ω ∈ S
        · rw [Set.indicator_of_mem (show ω ∈ D m from ⟨h1, h2, h3⟩), ← hst, Set.indicator_of_mem h3]
          rfl
        · rw [Set.indicator_of_notMem (fun h : ω ∈ D m => h3 h.2.2), ← hst, Set.indicator_of_notMem h3]
      · rw [if_neg h2, Set.indicator_of_notMem (fun h : ω ∈ D m => h2 h.2.1)]
    · rw [Set.indicator_of_notMem (fun h : ω ∈ D m => h1 h.1), Set.indicator_of_notMem h1, ite_self]
  · rcases lt_or_gt_of_ne hmm with h | h
    · exact hlt m m' ω h h1 h2
    · exact hlt m' m ω h h2 h1

end Rows

section Weighted
variable {E V : Type} [MeasurableSpace E] [MeasurableSpace V] {κ : Measure V} [IsProbabilityMeasure κ] {f : E → V → E}
  {A : Set (E × V)} {ρ : Measure E} [IsProbabilityMeasure ρ] {φ : E → ℝ≥0∞}

theorem full_invariant (hf : Measurable (Function.uncurry f)) (hinv : stepLaw f κ ρ = ρ) (hφ : Measurable φ) :
    ∫⁻ x, fullF κ f φ x ∂ρ = ∫⁻ x, φ x ∂ρ := by
  have h1 : ∫⁻ x, φ x ∂(stepLaw f κ ρ) = ∫⁻ q, φ (Function.uncurry f q) ∂(ρ.prod κ) := lintegral_map hφ hf
  rw [hinv] at h1
  rw [h1, lintegral_prod _ (show Measurable fun q => φ (Function.uncurry f q) from hφ.comp hf).aemeasurable]
  rfl

theorem iter_invariant (hf : Measurable (Function.uncurry f)) (hinv : stepLaw f κ ρ = ρ) (k : ℕ) (hφ : Measurable φ) :
    ∫⁻ x, (fullF κ f)^[k] φ x ∂ρ = ∫⁻ x, φ x ∂ρ := by
  induction k with
  | zero => rfl
  | succ k ih => rw [Function.iterate_succ_apply', full_invariant hf hinv (iter_meas hf hφ k), ih]

/-- The rejected steps keep the state. -/
theorem rej_eq (hA : MeasurableSet A) (hrej : ∀ s v, (s, v) ∉ A → f s v = s) (x : E) :
    accF κ f Aᶜ φ x = φ x * κ {v | (x, v) ∉ A} := by
  have hm : MeasurableSet {v | (x, v) ∉ A} := (measurable_prodMk_left hA).compl
  have e : ∀ v, Aᶜ.indicator (fun q : E × V => φ (f q.1 q.2)) (x, v) = Set.indicator {v | (x, v) ∉ A} (fun _ => φ x) v := by
    intro v
    by_cases h : (x, v) ∈ A
    · rw [Set.indicator_of_notMem (fun hh : (x, v) ∈ Aᶜ => hh h), Set.indicator_of_notMem (fun hh : v ∈ {v | (x, v) ∉ A} => hh h)]
    · rw [Set.indicator_of_mem h, Set.indicator_of_mem (show v ∈ {v | (x, v) ∉ A} from h)]
      exact congrArg φ (hrej x v h)
  unfold accF
  simp only [e]
  rw [lintegral_indicator_const hm]

/-- In equilibrium the accepted states are distributed with the acceptance probability as a weight. -/
theorem acc_weighted (hf : Measurable (Function.uncurry f)) (hA : MeasurableSet A) (hrej : ∀ s v, (s, v) ∉ A → f s v = s)
    (hinv : stepLaw f κ ρ = ρ) (hφ : Measurable φ) (hφ1 : ∀ x, φ x ≤ 1) :
    ∫⁻ x, accF κ f A φ x ∂ρ = ∫⁻ x, φ x * κ {v | (x, v) ∈ A} ∂ρ := by
  have h1 : ∫⁻ x, accF κ f A φ x ∂ρ + ∫⁻ x, accF κ f Aᶜ φ x ∂ρ = ∫⁻ x, φ x ∂ρ := by
    rw [← lintegral_add_left (accF_meas hf hA hφ), ← full_invariant hf hinv hφ]
    exact lintegral_congr fun x => accF_add hf hA hφ x
  have h2 : ∫⁻ x, φ x * κ {v | (x, v) ∈ A} ∂ρ + ∫⁻ x, accF κ f Aᶜ φ x ∂ρ = ∫⁻ x, φ x ∂ρ := by
    have hm : Measurable fun x => φ x * κ {v | (x, v) ∈ A} := hφ.mul (measurable_measure_prodMk_left hA)
    rw [← lintegral_add_left hm]
    refine lintegral_congr fun x => ?_
    rw [rej_eq hA hrej, ← mul_add]
    have : κ {v | (x, v) ∈ A} + κ {v | (x, v) ∉ A} = 1 := prob_add_prob_compl (measurable_prodMk_left hA)
    rw [this, mul_one]
  have hfin : ∫⁻ x, accF κ f Aᶜ φ x ∂ρ ≠ ∞ := by
    refine ne_top_of_le_ne_top ENNReal.one_ne_top (le_trans (le_of_le_of_eq le_add_self h1) ?_)
    refine (lintegral_mono hφ1).trans ?_
    simp
  exact (ENNReal.add_left_inj hfin).mp (h1.trans h2.symm)

/-- A grid step, and then the first accepted state on the grid: in equilibrium the weighted law stays. -/
theorem weighted_fixed (hf : Measurable (Function.uncurry f)) (hA : MeasurableSet A)
    (hinv : stepLaw f κ ρ = ρ) (s : ℕ) (hφ : Measurable φ) (hφ1 : ∀ x, φ x ≤ 1) :
    ∫⁻ x, accF κ f A ((fullF κ f)^[s] (pot κ f A s φ)) x ∂ρ = ∫⁻ x, accF κ f A φ x ∂ρ := by
  have hVm := pot_meas (κ := κ) hf hA hφ s
  have hTm := iter_meas (κ := κ) hf hVm s
  have h1 : ∫⁻ x, accF κ f A ((fullF κ f)^[s] (pot κ f A s φ)) x ∂ρ + ∫⁻ x, accF κ f Aᶜ ((fullF κ f)^[s] (pot κ f A s φ)) x ∂ρ =
      ∫⁻ x, pot κ f A s φ x ∂ρ := by
    rw [← lintegral_add_left (accF_meas hf hA hTm), ← iter_invariant hf hinv s hVm, ← full_invariant hf hinv hTm]
    exact lintegral_congr fun x => accF_add hf hA hTm x
  have h2 : ∫⁻ x, accF κ f A φ x ∂ρ + ∫⁻ x, accF κ f Aᶜ ((fullF κ f)^[s] (pot κ f A s φ)) x ∂ρ = ∫⁻ x, pot κ f A s φ x ∂ρ := by
    rw [← lintegral_add_left (accF_meas hf hA hφ)]
    exact lintegral_congr fun x => (pot_eq hf hA hφ s x).symm
  have hfin : ∫⁻ x, accF κ f Aᶜ ((fullF κ f)^[s] (pot κ f A s φ)) x ∂ρ ≠ ∞ := by
    refine ne_top_of_le_ne_top ENNReal.one_ne_top (le_trans (le_of_le_of_eq le_add_self h1) ?_)
    refine (lintegral_mono (pot_le_one hf hA hφ1 s)).trans ?_
    simp
  exact (ENNReal.add_left_inj hfin).mp (h1.trans h2.symm)

end Weighted

end Pxmcmc
