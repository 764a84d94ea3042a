import Verif.Lemmas.Ergodic
import Mathlib.Probability.Independence.Basic
import Mathlib.MeasureTheory.Integral.Lebesgue.Add
import Mathlib.MeasureTheory.Integral.Lebesgue.Sub
import Mathlib.MeasureTheory.Measure.Prod
import Mathlib.Algebra.Order.Ring.Pow

/-! # Chains driven by random numbers: events that cannot be avoided for ever -/

namespace Pxmcmc
open MeasureTheory ProbabilityTheory
open scoped ENNReal

section
variable {E V Ω : Type} [MeasurableSpace E] [MeasurableSpace V] [MeasurableSpace Ω]

open Classical in
/-- One step of the chain on a function, with value 0 where the event `D` happens. -/
noncomputable def killStep (ν : Measure V) (f : E → V → E) (D : Set (E × V)) (φ : E → ℝ≥0∞) (s : E) : ℝ≥0∞ :=
  ∫⁻ v, (if (s, v) ∈ D then 0 else φ (f s v)) ∂ν

/-- The steps `k, …, k+m-1`. -/
noncomputable def avoid (ν : Measure V) (f : E → V → E) (B : ℕ → Set (E × V)) (φ : E → ℝ≥0∞) : ℕ → ℕ → E → ℝ≥0∞
  | 0, _, s => φ s
  | m + 1, k, s => killStep ν f (B k) (avoid ν f B φ m (k + 1)) s

variable {ν : Measure V} [IsProbabilityMeasure ν] {f : E → V → E} {B : ℕ → Set (E × V)}

omit [MeasurableSpace E] [IsProbabilityMeasure ν] in
theorem killStep_mono (D : Set (E × V)) {φ ψ : E → ℝ≥0∞} (h : ∀ s, φ s ≤ ψ s) (s : E) : killStep ν f D φ s ≤ killStep ν f D ψ s := by
  refine lintegral_mono fun v => ?_
  dsimp only
  split
  · exact le_rfl
  · exact h _

theorem killStep_measurable (hf : Measurable fun q : E × V => f q.1 q.2) {D : Set (E × V)} (hD : MeasurableSet D) {φ : E → ℝ≥0∞}
    (hφ : Measurable φ) : Measurable (killStep ν f D φ) := by
  classical
  refine Measurable.lintegral_prod_right' (f := fun q : E × V => if q ∈ D then (0 : ℝ≥0∞) else φ (f q.1 q.2)) ?_
  exact Measurable.ite hD measurable_const (hφ.comp hf)

theorem avoid_measurable (hf : Measurable fun q : E × V => f q.1 q.2) (hB : ∀ k, MeasurableSet (B k)) {φ : E → ℝ≥0∞}
    (hφ : Measurable φ) (m k : ℕ) : Measurable (avoid ν f B φ m k) := by
  induction m generalizing k with
  | zero => exact hφ
  | succ m ih => exact killStep_measurable hf (hB k) (ih (k + 1))

omit [MeasurableSpace E] in
theorem avoid_anti (m k : ℕ) (s : E) : avoid ν f B (fun _ => 1) (m + 1) k s ≤ avoid ν f B (fun _ => 1) m k s := by
  induction m generalizing k s with
  | zero =>
    show ∫⁻ v, _ ∂ν ≤ 1
    refine (lintegral_mono (g := fun _ => 1) fun v => ?_).trans (by simp)
    dsimp only
    split
    · exact zero_le
    · exact le_rfl
  | succ m ih => exact killStep_mono _ (fun s => ih (k + 1) s) s

omit [MeasurableSpace E] in
theorem avoid_antitone (k : ℕ) (s : E) : Antitone fun m => avoid ν f B (fun _ => 1) m k s :=
  antitone_nat_of_succ_le fun m => avoid_anti m k s

omit [MeasurableSpace E] in
theorem avoid_le_one (m k : ℕ) (s : E) : avoid ν f B (fun _ => 1) m k s ≤ 1 := avoid_antitone k s (Nat.zero_le m)

omit [MeasurableSpace E] [IsProbabilityMeasure ν] in
theorem avoid_last (φ : E → ℝ≥0∞) (m k : ℕ) (s : E) :
    avoid ν f B φ (m + 1) k s = avoid ν f B (killStep ν f (B (k + m)) φ) m k s := by
  induction m generalizing k s with
  | zero => rfl
  | succ m ih =>
    show killStep ν f (B k) (avoid ν f B φ (m + 1) (k + 1)) s = killStep ν f (B k) (avoid ν f B _ m (k + 1)) s
    congr 1
    funext s'
    rw [ih, show k + 1 + m = k + (m + 1) by omega]

/-- Random numbers, each independent of the start and of the earlier ones and with law `ν`. -/
structure SeqIndep (P : Measure Ω) (S0 : Ω → E) (v : ℕ → Ω → V) (ν : Measure V) : Prop where
  meas_start : Measurable S0
  meas : ∀ k, Measurable (v k)
  law : ∀ k, P.map (v k) = ν
  indep : ∀ k, IndepFun (fun ω => (S0 ω, fun i : Fin k => v i ω)) (v k) P

theorem state_prefix (hf : Measurable fun q : E × V => f q.1 q.2) (k : ℕ) :
    ∃ G : E × (Fin k → V) → E, Measurable G ∧ ∀ (s : E) (v : ℕ → V), fwState f s v k = G (s, fun i : Fin k => v i) := by
  induction k with
  | zero => exact ⟨fun q => q.1, measurable_fst, fun _ _ => rfl⟩
  | succ k ih =>
    obtain ⟨G, hG, hGe⟩ := ih
    refine ⟨fun q => f (G (q.1, fun i : Fin k => q.2 i.castSucc)) (q.2 (Fin.last k)), ?_, fun s v => ?_⟩
    · have h1 : Measurable fun q : E × (Fin (k + 1) → V) => (q.1, fun i : Fin k => q.2 i.castSucc) :=
        measurable_fst.prodMk (measurable_pi_lambda _ fun i => (measurable_pi_apply i.castSucc).comp measurable_snd)
      exact hf.comp ((hG.comp h1).prodMk ((measurable_pi_apply (Fin.last k)).comp measurable_snd))
    · show f (fwState f s v k) (v k) = _
      rw [hGe]
      rfl

variable {P : Measure Ω} [IsProbabilityMeasure P] {S0 : Ω → E} {v : ℕ → Ω → V}

omit [IsProbabilityMeasure ν] [IsProbabilityMeasure P] in
theorem SeqIndep.pre_meas (h : SeqIndep P S0 v ν) (k : ℕ) : Measurable fun ω => (S0 ω, fun i : Fin k => v i ω) :=
  h.meas_start.prodMk (measurable_pi_lambda _ fun i => h.meas i)

theorem SeqIndep.peel (h : SeqIndep P S0 v ν) (k : ℕ) (ψ : (E × (Fin k → V)) × V → ℝ≥0∞) (hψ : Measurable ψ) :
    ∫⁻ ω, ψ ((S0 ω, fun i : Fin k => v i ω), v k ω) ∂P = ∫⁻ ω, ∫⁻ u, ψ ((S0 ω, fun i : Fin k => v i ω), u) ∂ν ∂P := by
  have h1 := (indepFun_iff_map_prod_eq_prod_map_map (h.pre_meas k).aemeasurable (h.meas k).aemeasurable).mp (h.indep k)
  rw [h.law] at h1
  have h2 : ∫⁻ ω, ψ ((S0 ω, fun i : Fin k => v i ω), v k ω) ∂P =
      ∫⁻ q, ψ q ∂(P.map fun ω => ((S0 ω, fun i : Fin k => v i ω), v k ω)) :=
    (lintegral_map hψ ((h.pre_meas k).prodMk (h.meas k))).symm
  rw [h2, h1, lintegral_prod _ hψ.aemeasurable, lintegral_map hψ.lintegral_prod_right' (h.pre_meas k)]

/-- None of the events happened in the steps `N, …, N+m-1`. -/
def noneBefore (f : E → V → E) (B : ℕ → Set (E × V)) (s : E) (v : ℕ → V) (N m : ℕ) : Prop :=
  ∀ i < m, (fwState f s v (N + i), v (N + i)) ∉ B (N + i)

theorem noneBefore_prefix (hf : Measurable fun q : E × V => f q.1 q.2) (hB : ∀ k, MeasurableSet (B k)) (N m : ℕ) :
    ∃ D : Set (E × (Fin (N + m) → V)), MeasurableSet D ∧
      ∀ (s : E) (v : ℕ → V), noneBefore f B s v N m ↔ (s, fun i : Fin (N + m) => v i) ∈ D := by
  induction m with
  | zero => exact ⟨Set.univ, MeasurableSet.univ, fun s v => ⟨fun _ => trivial, fun _ i hi => absurd hi (by omega)⟩⟩
  | succ m ih =>
    obtain ⟨D, hD, hDe⟩ := ih
    obtain ⟨G, hG, hGe⟩ := state_prefix (f := f) hf (N + m)
    set c : E × (Fin (N + (m + 1)) → V) → E × (Fin (N + m) → V) := fun q => (q.1, fun i => q.2 (Fin.castSucc i)) with hc
    have hcm : Measurable c :=
      measurable_fst.prodMk (measurable_pi_lambda _ fun i => (measurable_pi_apply _).comp measurable_snd)
    have hlm : Measurable fun q : E × (Fin (N + (m + 1)) → V) => (G (c q), q.2 (Fin.last (N + m))) :=
      (hG.comp hcm).prodMk ((measurable_pi_apply _).comp measurable_snd)
    refine ⟨c ⁻¹' D ∩ ((fun q => (G (c q), q.2 (Fin.last (N + m)))) ⁻¹' (B (N + m)))ᶜ,
      (hcm hD).inter (hlm (hB _)).compl, fun s v => ?_⟩
    have h1 : noneBefore f B s v N (m + 1) ↔ noneBefore f B s v N m ∧ (fwState f s v (N + m), v (N + m)) ∉ B (N + m) := by
      constructor
      · exact fun h => ⟨fun i hi => h i (by omega), h m (by omega)⟩
      · rintro ⟨h1, h2⟩ i hi
        rcases Nat.lt_or_ge i m with h3 | h3
        · exact h1 i h3
        · obtain rfl : i = m := by omega
          exact h2
    rw [h1, hDe, hGe]
    rfl

open Classical in
theorem SeqIndep.avoid_integral (h : SeqIndep P S0 v ν) (hf : Measurable fun q : E × V => f q.1 q.2) (hB : ∀ k, MeasurableSet (B k))
    (N m : ℕ) (φ : E → ℝ≥0∞) (hφ : Measurable φ) :
    ∫⁻ ω, (if noneBefore f B (S0 ω) (fun i => v i ω) N m then φ (fwState f (S0 ω) (fun i => v i ω) (N + m)) else 0) ∂P =
      ∫⁻ ω, avoid ν f B φ m N (fwState f (S0 ω) (fun i => v i ω) N) ∂P := by
  induction m generalizing φ with
  | zero =>
    refine lintegral_congr fun ω => ?_
    rw [if_pos (show noneBefore f B (S0 ω) (fun i => v i ω) N 0 from fun i hi => absurd hi (by omega))]
    rfl
  | succ m ih =>
    simp only [avoid_last φ m N]
    rw [← ih (killStep ν f (B (N + m)) φ) (killStep_measurable hf (hB _) hφ)]
    obtain ⟨D, hD, hDe⟩ := noneBefore_prefix (f := f) hf hB N m
    obtain ⟨G, hG, hGe⟩ := state_prefix (f := f) hf (N + m)
    have key := h.peel (N + m) (fun q => if q.1 ∈ D then (if (G q.1, q.2) ∈ B (N + m) then 0 else φ (f (G q.1) q.2)) else 0) (by
      refine Measurable.ite (measurable_fst hD) ?_ measurable_const
      have h1 : Measurable fun q : (E × (Fin (N + m) → V)) × V => (G q.1, q.2) := (hG.comp measurable_fst).prodMk measurable_snd
      exact Measurable.ite (h1 (hB _)) measurable_const (hφ.comp (hf.comp h1)))
    have hD' : ∀ ω, (S0 ω, fun i : Fin (N + m) => v i ω) ∈ D ↔ noneBefore f B (S0 ω) (fun i => v i ω) N m :=
      fun ω => (hDe (S0 ω) (fun i => v i ω)).symm
    have hG' : ∀ ω, G (S0 ω, fun i : Fin (N + m) => v i ω) = fwState f (S0 ω) (fun i => v i ω) (N + m) :=
      fun ω => (hGe (S0 ω) (fun i => v i ω)).symm
    refine Eq.trans (lintegral_congr fun ω => ?_) (key.trans (lintegral_congr fun ω => ?_))
    · dsimp only
      simp only [hD', hG']
      have h1 : noneBefore f B (S0 ω) (fun i => v i ω) N (m + 1) ↔ noneBefore f B (S0 ω) (fun i => v i ω) N m ∧
          (fwState f (S0 ω) (fun i => v i ω) (N + m), v (N + m) ω) ∉ B (N + m) := by
        constructor
        · exact fun h => ⟨fun i hi => h i (by omega), h m (by omega)⟩
        · rintro ⟨h1, h2⟩ i hi
          rcases Nat.lt_or_ge i m with h3 | h3
          · exact h1 i h3
          · obtain rfl : i = m := by omega
            exact h2
      by_cases h2 : noneBefore f B (S0 ω) (fun i => v i ω) N m
      · by_cases h3 : (fwState f (S0 ω) (fun i => v i ω) (N + m), v (N + m) ω) ∈ B (N + m)
        · rw [if_neg (fun h => (h1.mp h).2 h3), if_pos h2, if_pos h3]
        · rw [if_pos (h1.mpr ⟨h2, h3⟩), if_pos h2, if_neg h3]
          rfl
      · rw [if_neg (fun h => h2 (h1.mp h).1), if_neg h2]
    · dsimp only
      simp only [hD', hG']
      split
      · rfl
      · simp

/-- If no start state lets the events be avoided for ever, then almost surely one of them happens. -/
theorem SeqIndep.unavoidable (h : SeqIndep P S0 v ν) (hf : Measurable fun q : E × V => f q.1 q.2) (hB : ∀ k, MeasurableSet (B k))
    (N : ℕ) (hz : ∀ s, ⨅ m, avoid ν f B (fun _ => 1) m N s = 0) :
    ∀ᵐ ω ∂P, ∃ i, (fwState f (S0 ω) (fun i => v i ω) (N + i), v (N + i) ω) ∈ B (N + i) := by
  classical
  rw [ae_iff]
  have hS : Measurable fun ω => fwState f (S0 ω) (fun i => v i ω) N := by
    obtain ⟨G, hG, hGe⟩ := state_prefix (f := f) hf N
    simp only [hGe]
    exact hG.comp (h.pre_meas N)
  have hle : ∀ m, P {ω | ¬ ∃ i, (fwState f (S0 ω) (fun i => v i ω) (N + i), v (N + i) ω) ∈ B (N + i)} ≤
      ∫⁻ ω, avoid ν f B (fun _ => 1) m N (fwState f (S0 ω) (fun i => v i ω) N) ∂P := by
    intro m
    rw [← h.avoid_integral hf hB N m (fun _ => 1) measurable_const]
    obtain ⟨D, hD, hDe⟩ := noneBefore_prefix (f := f) hf hB N m
    have hm : MeasurableSet {ω | noneBefore f B (S0 ω) (fun i => v i ω) N m} := by
      simp only [hDe]
      exact h.pre_meas (N + m) hD
    have h1 : ∫⁻ ω, (if noneBefore f B (S0 ω) (fun i => v i ω) N m then (1 : ℝ≥0∞) else 0) ∂P =
        P {ω | noneBefore f B (S0 ω) (fun i => v i ω) N m} := by
      rw [← lintegral_indicator_one hm]
      rfl
    rw [h1]
    exact measure_mono fun ω hω i _ hi => hω ⟨i, hi⟩
  have h2 : ∫⁻ ω, ⨅ m, avoid ν f B (fun _ => 1) m N (fwState f (S0 ω) (fun i => v i ω) N) ∂P =
      ⨅ m, ∫⁻ ω, avoid ν f B (fun _ => 1) m N (fwState f (S0 ω) (fun i => v i ω) N) ∂P := by
    refine lintegral_iInf (fun m => (avoid_measurable hf hB measurable_const m N).comp hS)
      (fun a b hab ω => avoid_antitone N _ hab) ?_
    refine ((lintegral_mono (g := fun _ => 1) fun ω => avoid_le_one 0 N _).trans_lt (by simp)).ne
  refine le_antisymm ((le_iInf hle).trans ?_) zero_le
  rw [← h2]
  simp [hz]

/-- The probability of avoiding the events for ever. -/
noncomputable def avoidInf (ν : Measure V) (f : E → V → E) (B : ℕ → Set (E × V)) (k : ℕ) (s : E) : ℝ≥0∞ :=
  ⨅ m, avoid ν f B (fun _ => 1) m k s

omit [MeasurableSpace E] in
theorem avoidInf_le_one (k : ℕ) (s : E) : avoidInf ν f B k s ≤ 1 := (iInf_le _ 0).trans (avoid_le_one 0 k s)

theorem avoidInf_step (hf : Measurable fun q : E × V => f q.1 q.2) (hB : ∀ k, MeasurableSet (B k)) (k : ℕ) (s : E) :
    avoidInf ν f B k s ≤ killStep ν f (B k) (avoidInf ν f B (k + 1)) s := by
  classical
  have hfs : Measurable (f s) := hf.comp (measurable_const.prodMk measurable_id)
  have hDs : MeasurableSet {u | (s, u) ∈ B k} := (measurable_const.prodMk measurable_id) (hB k)
  have h1 : killStep ν f (B k) (avoidInf ν f B (k + 1)) s =
      ∫⁻ u, ⨅ m, (if (s, u) ∈ B k then 0 else avoid ν f B (fun _ => 1) m (k + 1) (f s u)) ∂ν := by
    refine lintegral_congr fun u => ?_
    split
    · simp
    · rfl
  rw [h1, lintegral_iInf]
  · exact le_iInf fun m => iInf_le (fun m => avoid ν f B (fun _ => 1) m k s) (m + 1)
  · intro m
    exact Measurable.ite hDs measurable_const ((avoid_measurable hf hB measurable_const m (k + 1)).comp hfs)
  · intro a b hab u
    dsimp only
    split
    · exact le_rfl
    · exact avoid_antitone (k + 1) _ hab
  · refine ((lintegral_mono (g := fun _ => 1) fun u => ?_).trans_lt (by simp)).ne
    dsimp only
    split
    · exact zero_le
    · exact le_rfl

omit [MeasurableSpace E] [IsProbabilityMeasure ν] in
theorem avoid_period (g k : ℕ) (hper : ∀ j, B (k + j + g) = B (k + j)) (φ : E → ℝ≥0∞) (m : ℕ) (s : E) :
    avoid ν f B φ m (k + g) s = avoid ν f B φ m k s := by
  induction m generalizing k s with
  | zero => rfl
  | succ m ih =>
    show killStep ν f (B (k + g)) (avoid ν f B φ m (k + g + 1)) s = killStep ν f (B k) (avoid ν f B φ m (k + 1)) s
    rw [show B (k + g) = B k by simpa using hper 0]
    congr 1
    funext s'
    rw [show k + g + 1 = k + 1 + g by omega]
    exact ih (k + 1) (fun j => by rw [show k + 1 + j = k + (j + 1) by omega]; exact hper (j + 1)) s'

end

end Pxmcmc
