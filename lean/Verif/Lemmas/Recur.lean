import Verif.Lemmas.Avoid

/-! # Accept/reject chains: acceptances on a periodic grid happen infinitely often -/

namespace Pxmcmc
open MeasureTheory ProbabilityTheory
open scoped ENNReal

section
variable {E V Ω : Type} [MeasurableSpace E] [MeasurableSpace V] [MeasurableSpace Ω]
variable {ν : Measure V} [IsProbabilityMeasure ν] {f : E → V → E} {A : Set (E × V)}

/-- The event `A` at the times `b, b+g, b+2g, …`. -/
def onGrid (A : Set (E × V)) (b g k : ℕ) : Set (E × V) := {q | (b ≤ k ∧ g ∣ k - b) ∧ q ∈ A}

theorem onGrid_measurable (hA : MeasurableSet A) (b g k : ℕ) : MeasurableSet (onGrid A b g k) := by
  by_cases h : b ≤ k ∧ g ∣ k - b
  · have : onGrid A b g k = A := by ext q; simp [onGrid, h]
    rw [this]; exact hA
  · have : onGrid A b g k = ∅ := by ext q; simp [onGrid, h]
    rw [this]; exact MeasurableSet.empty

omit [MeasurableSpace E] [MeasurableSpace V] in
theorem onGrid_period (b g : ℕ) (j i : ℕ) : onGrid A b g (b + i + j * g) = onGrid A b g (b + i) := by
  have : (b ≤ b + i + j * g ∧ g ∣ b + i + j * g - b) ↔ (b ≤ b + i ∧ g ∣ b + i - b) := by
    rw [show b + i + j * g - b = i + j * g by omega, show b + i - b = i by omega,
      Nat.dvd_add_left (Dvd.intro_left j rfl)]
    simp; omega
  unfold onGrid
  rw [this]

theorem real_recur (c : ℝ) (g : ℕ) (hg : 1 ≤ g) (hc : 0 ≤ c) (β : ℝ) (h0 : 0 ≤ β) (h1 : β < 1) (h : ℕ → ℝ)
    (hstep : ∀ t, 0 < t → t < g → h t ≤ (1 - β) * c + β * h (t + 1)) (hfirst : h 0 ≤ β * h 1) (hper : h g = h 0) :
    (g : ℝ) * h 0 ≤ ((g : ℝ) - 1) * c := by
  have key : ∀ d, d < g → h (g - d) ≤ β ^ d * h 0 + (1 - β ^ d) * c := by
    intro d
    induction d with
    | zero => intro _; simp [hper]
    | succ d ih =>
      intro hd
      have h2 := hstep (g - (d + 1)) (by omega) (by omega)
      rw [show g - (d + 1) + 1 = g - d by omega] at h2
      have h3 := mul_le_mul_of_nonneg_left (ih (by omega)) h0
      rw [pow_succ]
      nlinarith
  have h2 := key (g - 1) (by omega)
  rw [show g - (g - 1) = 1 by omega] at h2
  have h3 := mul_le_mul_of_nonneg_left h2 h0
  have hpow : β * β ^ (g - 1) = β ^ g := by rw [← pow_succ', show g - 1 + 1 = g by omega]
  have hlt : β ^ g < 1 := pow_lt_one₀ h0 h1 (by omega)
  have hB : 1 + (g : ℝ) * (β - 1) ≤ (1 + (β - 1)) ^ g := one_add_mul_le_pow (by linarith) g
  rw [show 1 + (β - 1) = β by ring] at hB
  have h4 : h 0 * (1 - β ^ g) ≤ (β - β ^ g) * c := by
    have e : β * (β ^ (g - 1) * h 0 + (1 - β ^ (g - 1)) * c) = (β * β ^ (g - 1)) * h 0 + (β - β * β ^ (g - 1)) * c := by ring
    rw [e, hpow] at h3
    linarith
  have h5 : (g : ℝ) * (β - β ^ g) ≤ ((g : ℝ) - 1) * (1 - β ^ g) := by nlinarith
  have h6 := mul_le_mul_of_nonneg_right h5 hc
  have h7 : ((g : ℝ) * h 0) * (1 - β ^ g) ≤ (((g : ℝ) - 1) * c) * (1 - β ^ g) := by
    have := mul_le_mul_of_nonneg_left h4 (Nat.cast_nonneg g : (0 : ℝ) ≤ g)
    nlinarith
  exact le_of_mul_le_mul_right h7 (by linarith)

omit [IsProbabilityMeasure ν] in
open Classical in
theorem lintegral_two (hA : MeasurableSet A) (s : E) (a c : ℝ≥0∞) :
    ∫⁻ v, (if (s, v) ∈ A then a else c) ∂ν = a * ν {v | (s, v) ∈ A} + c * ν {v | (s, v) ∉ A} := by
  have hAs : MeasurableSet {u | (s, u) ∈ A} := (measurable_const.prodMk measurable_id) hA
  have : (fun v => if (s, v) ∈ A then a else c) =
      fun v => {u | (s, u) ∈ A}.indicator (fun _ => a) v + {u | (s, u) ∈ A}ᶜ.indicator (fun _ => c) v := by
    funext v
    by_cases h : (s, v) ∈ A
    · rw [if_pos h, Set.indicator_of_mem (show v ∈ {u | (s, u) ∈ A} from h), Set.indicator_of_notMem (show v ∉ {u | (s, u) ∈ A}ᶜ from fun hh => hh h), add_zero]
    · rw [if_neg h, Set.indicator_of_notMem (show v ∉ {u | (s, u) ∈ A} from h), Set.indicator_of_mem (show v ∈ {u | (s, u) ∈ A}ᶜ from h), zero_add]
  rw [this, lintegral_add_left (measurable_const.indicator hAs), lintegral_indicator_const hAs, lintegral_indicator_const hAs.compl]
  rfl

/-- A chain that stays where it is unless `A` happens, with `A` never of probability zero: `A` cannot be avoided on a grid. -/
theorem avoidInf_grid (hf : Measurable fun q : E × V => f q.1 q.2) (hA : MeasurableSet A)
    (hrej : ∀ s v, (s, v) ∉ A → f s v = s) (hpos : ∀ s, ν {v | (s, v) ∈ A} ≠ 0) (b g : ℕ) (hg : 1 ≤ g) (s : E) :
    avoidInf ν f (onGrid A b g) b s = 0 := by
  classical
  set H : ℕ → E → ℝ≥0∞ := fun t s => avoidInf ν f (onGrid A b g) (b + t) s with hH
  have hB := onGrid_measurable hA b g
  have hH1 : ∀ t s, H t s ≤ 1 := fun t s => avoidInf_le_one _ _
  set C : ℝ≥0∞ := ⨆ s, H 0 s with hC
  have hC1 : C ≤ 1 := iSup_le fun s => hH1 0 s
  have hper : ∀ s, H g s = H 0 s := by
    intro s
    simp only [hH, avoidInf]
    refine iInf_congr fun m => avoid_period g b (fun j => ?_) _ m s
    simpa using onGrid_period (A := A) b g 1 j
  have hst : ∀ t s, H t s ≤ killStep ν f (onGrid A b g (b + t)) (H (t + 1)) s := fun t s => avoidInf_step hf hB (b + t) s
  have hfree : ∀ t s, 0 < t → t < g → H t s ≤ ∫⁻ v, H (t + 1) (f s v) ∂ν := by
    intro t s h0 hg
    refine (hst t s).trans (lintegral_mono fun v => ?_)
    dsimp only
    split
    · exact zero_le
    · exact le_rfl
  have hle : ∀ d, d < g → ∀ s, H (g - d) s ≤ C := by
    intro d
    induction d with
    | zero => intro _ s; rw [Nat.sub_zero, hper]; exact le_iSup (H 0) s
    | succ d ih =>
      intro hd s
      refine (hfree (g - (d + 1)) s (by omega) (by omega)).trans ?_
      rw [show g - (d + 1) + 1 = g - d by omega]
      exact (lintegral_mono fun v => ih (by omega) _).trans (by simp)
  have hle' : ∀ t, 0 < t → t ≤ g → ∀ s, H t s ≤ C := fun t h0 h1 s => by
    have := hle (g - t) (by omega) s
    rwa [show g - (g - t) = t by omega] at this
  have hfin : ∀ t s, H t s ≠ ∞ := fun t s => ((hH1 t s).trans_lt (by simp)).ne
  have hCf : C ≠ ∞ := (hC1.trans_lt (by simp)).ne
  have hbound : ∀ s, (g : ℝ) * (H 0 s).toReal ≤ ((g : ℝ) - 1) * C.toReal := by
    intro s
    have hAs : MeasurableSet {u | (s, u) ∈ A} := (measurable_const.prodMk measurable_id) hA
    set α := ν {v | (s, v) ∈ A} with hα
    set β := ν {v | (s, v) ∉ A} with hβ
    have hsum : α + β = 1 := by
      have := measure_add_measure_compl (μ := ν) hAs
      rw [measure_univ] at this
      exact this
    have hαf : α ≠ ∞ := measure_ne_top _ _
    have hβf : β ≠ ∞ := measure_ne_top _ _
    have hsumr : α.toReal + β.toReal = 1 := by rw [← ENNReal.toReal_add hαf hβf, hsum]; simp
    have hαp : 0 < α.toReal := ENNReal.toReal_pos (hpos s) hαf
    refine real_recur C.toReal g hg ENNReal.toReal_nonneg β.toReal ENNReal.toReal_nonneg (by linarith)
      (fun t => (H t s).toReal) ?_ ?_ (by simp only [hper])
    · intro t h0 hg
      have h2 : H t s ≤ C * α + H (t + 1) s * β := by
        rw [← lintegral_two hA s C (H (t + 1) s)]
        refine (hfree t s h0 hg).trans (lintegral_mono fun v => ?_)
        dsimp only
        split
        · exact hle' (t + 1) (by omega) (by omega) _
        · rename_i hn
          rw [hrej s v hn]
      have h3 := ENNReal.toReal_mono (by
        exact ENNReal.add_ne_top.mpr ⟨ENNReal.mul_ne_top hCf hαf, ENNReal.mul_ne_top (hfin _ _) hβf⟩) h2
      rw [ENNReal.toReal_add (ENNReal.mul_ne_top hCf hαf) (ENNReal.mul_ne_top (hfin _ _) hβf), ENNReal.toReal_mul,
        ENNReal.toReal_mul] at h3
      rw [show 1 - β.toReal = α.toReal by linarith]
      linarith
    · have h2 : H 0 s ≤ 0 * α + H 1 s * β := by
        rw [← lintegral_two hA s 0 (H 1 s)]
        refine (hst 0 s).trans (lintegral_mono fun v => ?_)
        dsimp only
        by_cases hv : (s, v) ∈ A
        · rw [if_pos (show (s, v) ∈ onGrid A b g (b + 0) from ⟨by simp, hv⟩)]
          exact zero_le
        · rw [if_neg (show (s, v) ∉ onGrid A b g (b + 0) from fun h => hv h.2), if_neg hv, hrej s v hv]
      rw [zero_mul, zero_add] at h2
      have h3 := ENNReal.toReal_mono (ENNReal.mul_ne_top (hfin _ _) hβf) h2
      rw [ENNReal.toReal_mul] at h3
      show (H 0 s).toReal ≤ β.toReal * (H 1 s).toReal
      linarith
  have hgpos : (0 : ℝ) < g := by exact_mod_cast hg
  have hC0 : C = 0 := by
    have h2 : ∀ s, H 0 s ≤ ENNReal.ofReal (((g : ℝ) - 1) / g * C.toReal) := by
      intro s
      rw [← ENNReal.ofReal_toReal (hfin 0 s)]
      refine ENNReal.ofReal_le_ofReal ?_
      rw [div_mul_eq_mul_div, le_div_iff₀ hgpos]
      linarith [hbound s]
    have h3 : C ≤ ENNReal.ofReal (((g : ℝ) - 1) / g * C.toReal) := iSup_le h2
    have h4 := ENNReal.toReal_mono ENNReal.ofReal_ne_top h3
    have h1g : (1 : ℝ) ≤ g := by exact_mod_cast hg
    rw [ENNReal.toReal_ofReal (mul_nonneg (div_nonneg (by linarith) hgpos.le) ENNReal.toReal_nonneg)] at h4
    rw [div_mul_eq_mul_div, le_div_iff₀ hgpos] at h4
    have h5 : C.toReal = 0 := le_antisymm (by nlinarith) ENNReal.toReal_nonneg
    rcases (ENNReal.toReal_eq_zero_iff C).mp h5 with h | h
    · exact h
    · exact absurd h hCf
  refine le_antisymm ?_ zero_le
  rw [← hC0]
  exact le_iSup (H 0) s

/-- A chain moved by `ρ` unless `A` happens, with `A` of probability at least `c > 0` along each orbit of `ρ`. -/
theorem avoid_orbit (hA : MeasurableSet A) (ρ : E → E) (hrej : ∀ s v, (s, v) ∉ A → f s v = ρ s)
    (hpos : ∀ s, ∃ c, c ≠ 0 ∧ ∀ j, c ≤ ν {v | (ρ^[j] s, v) ∈ A}) (B : ℕ → Set (E × V)) (k : ℕ) (hB : ∀ j, B (k + j) = A) (s : E) :
    ⨅ m, avoid ν f B (fun _ => 1) m k s = 0 := by
  classical
  obtain ⟨c, hc0, hc⟩ := hpos s
  have key : ∀ m k s, (∀ j, B (k + j) = A) → (∀ j, c ≤ ν {v | (ρ^[j] s, v) ∈ A}) → avoid ν f B (fun _ => 1) m k s ≤ (1 - c) ^ m := by
    intro m
    induction m with
    | zero => intro k s _ _; simp [avoid]
    | succ m ih =>
      intro k s hB hc
      have hAs : MeasurableSet {u | (s, u) ∈ A} := (measurable_const.prodMk measurable_id) hA
      have h1 : avoid ν f B (fun _ => 1) (m + 1) k s ≤ ∫⁻ v, (if (s, v) ∈ A then 0 else (1 - c) ^ m) ∂ν := by
        refine lintegral_mono fun v => ?_
        dsimp only
        have e : B k = A := by simpa using hB 0
        rw [e]
        split
        · exact le_rfl
        · rename_i hn
          rw [hrej s v hn]
          refine ih (k + 1) (ρ s) (fun j => ?_) (fun j => hc (j + 1))
          have := hB (j + 1)
          rwa [show k + 1 + j = k + (j + 1) by omega]
      refine h1.trans ?_
      rw [lintegral_two hA, zero_mul, zero_add, pow_succ]
      refine mul_le_mul' le_rfl ?_
      have h2 := prob_compl_eq_one_sub (μ := ν) hAs
      refine (show ν {v | (s, v) ∉ A} = 1 - ν {u | (s, u) ∈ A} from h2).le.trans ?_
      exact tsub_le_tsub_left (hc 0) 1
  have hlt : 1 - c < 1 := ENNReal.sub_lt_self (by simp) (by simp) hc0
  have hlim := ENNReal.tendsto_pow_atTop_nhds_zero_of_lt_one hlt
  refine le_antisymm (ge_of_tendsto' hlim fun m => ?_) zero_le
  exact (iInf_le _ m).trans (key m k s hB hc)

variable {P : Measure Ω} [IsProbabilityMeasure P] {S0 : Ω → E} {v : ℕ → Ω → V}

/-- On a grid, acceptances happen infinitely often. -/
theorem SeqIndep.grid_infinitely_often (h : SeqIndep P S0 v ν) (hf : Measurable fun q : E × V => f q.1 q.2) (hA : MeasurableSet A)
    (hrej : ∀ s v, (s, v) ∉ A → f s v = s) (hpos : ∀ s, ν {v | (s, v) ∈ A} ≠ 0) (b g : ℕ) (hg : 1 ≤ g) :
    ∀ᵐ ω ∂P, ∀ N, ∃ k, N ≤ k ∧ b ≤ k ∧ g ∣ k - b ∧ (fwState f (S0 ω) (fun i => v i ω) k, v k ω) ∈ A := by
  rw [ae_all_iff]
  intro N
  have h1 := h.unavoidable hf (onGrid_measurable hA b g) (b + N * g) (fun s => by
    have h2 := avoidInf_grid hf hA hrej hpos b g hg s
    rw [← h2]
    refine iInf_congr fun m => avoid_period (N * g) b (fun j => onGrid_period b g N j) _ m s)
  filter_upwards [h1] with ω hω
  obtain ⟨i, hi⟩ := hω
  exact ⟨b + N * g + i, by nlinarith, hi.1.1, hi.1.2, hi.2⟩

/-- Acceptances happen infinitely often. -/
theorem SeqIndep.orbit_infinitely_often (h : SeqIndep P S0 v ν) (hf : Measurable fun q : E × V => f q.1 q.2) (hA : MeasurableSet A)
    (ρ : E → E) (hrej : ∀ s v, (s, v) ∉ A → f s v = ρ s)
    (hpos : ∀ s, ∃ c, c ≠ 0 ∧ ∀ j, c ≤ ν {v | (ρ^[j] s, v) ∈ A}) :
    ∀ᵐ ω ∂P, ∀ N, ∃ k, N ≤ k ∧ (fwState f (S0 ω) (fun i => v i ω) k, v k ω) ∈ A := by
  rw [ae_all_iff]
  intro N
  have h1 := h.unavoidable (B := fun _ => A) hf (fun _ => hA) N (fun s => avoid_orbit hA ρ hrej hpos _ N (fun _ => rfl) s)
  filter_upwards [h1] with ω hω
  obtain ⟨i, hi⟩ := hω
  exact ⟨N + i, by omega, hi⟩

end

end Pxmcmc
