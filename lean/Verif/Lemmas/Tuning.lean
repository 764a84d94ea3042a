import Mathlib.Analysis.SpecialFunctions.Pow.Real
import Mathlib.Analysis.SpecialFunctions.Log.Basic
import Mathlib.Analysis.Complex.ExponentialBounds
import Mathlib.Algebra.BigOperators.Intervals
import Mathlib.Tactic.NormNum
import Mathlib.Tactic.Linarith
import Mathlib.Tactic.FieldSimp
import Mathlib.Tactic.Positivity

/-! # Real sequences behind the step-size tuning of PxMALA -/

namespace Pxmcmc
open Finset

/-- The decay `(j+1)^0.75`. -/
noncomputable def decay (j : ℕ) : ℝ := ((j : ℝ) + 1) ^ (3 / 4 : ℝ)

theorem decay_one_le (j : ℕ) : 1 ≤ decay j :=
  Real.one_le_rpow (by have : (0 : ℝ) ≤ j := Nat.cast_nonneg _; linarith) (by norm_num)

theorem decay_mono {i j : ℕ} (h : i ≤ j) : decay i ≤ decay j := by
  have : (i : ℝ) ≤ j := by exact_mod_cast h
  exact Real.rpow_le_rpow (by positivity) (by linarith) (by norm_num)

theorem decay_sq (j : ℕ) : decay j ^ 2 = √((j : ℝ) + 1) ^ 3 := by
  unfold decay
  rw [Real.sqrt_eq_rpow, ← Real.rpow_natCast, ← Real.rpow_natCast, ← Real.rpow_mul (by positivity),
    ← Real.rpow_mul (by positivity)]
  norm_num

/-- `Σ (j+1)^-1.5 ≤ 3`. -/
theorem sum_decay_sq (m : ℕ) : ∑ j ∈ range (m + 1), 1 / decay j ^ 2 ≤ 3 - 2 / √((m : ℝ) + 1) := by
  induction m with
  | zero => simp [decay]; norm_num
  | succ m ih =>
    rw [sum_range_succ]
    have hs : 0 < √((m : ℝ) + 1) := Real.sqrt_pos.mpr (by positivity)
    have ht : 0 < √(((m + 1 : ℕ) : ℝ) + 1) := Real.sqrt_pos.mpr (by positivity)
    have h1 : √((m : ℝ) + 1) ^ 2 = m + 1 := Real.sq_sqrt (by positivity)
    have h2 : √(((m + 1 : ℕ) : ℝ) + 1) ^ 2 = m + 2 := by rw [Real.sq_sqrt (by positivity)]; push_cast; ring
    rw [decay_sq]
    generalize √((m : ℝ) + 1) = s at *
    generalize √(((m + 1 : ℕ) : ℝ) + 1) = t at *
    have hst : s < t := by nlinarith
    have key : 1 / t ^ 3 ≤ 2 / s - 2 / t := by
      rw [div_sub_div _ _ hs.ne' ht.ne', div_le_div_iff₀ (by positivity) (by positivity)]
      have h3 : (t - s) * (t + s) = 1 := by nlinarith
      have h4 : 1 ≤ 2 * t * (t - s) := by nlinarith
      nlinarith [mul_pos hs ht, mul_le_mul_of_nonneg_left h4 (mul_pos ht ht).le, mul_pos ht ht]
    linarith

theorem sum_decay_sq_Ico (k m : ℕ) : ∑ j ∈ Ico k m, 1 / decay j ^ 2 ≤ 3 := by
  have h1 : ∑ j ∈ Ico k m, 1 / decay j ^ 2 ≤ ∑ j ∈ range (m + 1), 1 / decay j ^ 2 := by
    apply sum_le_sum_of_subset_of_nonneg
    · intro j hj
      rw [mem_Ico] at hj
      rw [mem_range]; omega
    · intro j _ _; positivity
  have h2 := sum_decay_sq m
  have h3 : 0 ≤ 2 / √((m : ℝ) + 1) := by positivity
  linarith

theorem log_lower {x : ℝ} (h : -(1 / 2) ≤ x) : x - 2 * x ^ 2 ≤ Real.log (1 + x) := by
  have hp : 0 < 1 + x := by linarith
  refine le_trans ?_ (Real.one_sub_inv_le_log_of_pos hp)
  have : 1 - (1 + x)⁻¹ - (x - 2 * x ^ 2) = x ^ 2 * (1 + 2 * x) / (1 + x) := by field_simp; ring
  have h2 : 0 ≤ x ^ 2 * (1 + 2 * x) / (1 + x) := div_nonneg (mul_nonneg (sq_nonneg _) (by linarith)) hp.le
  linarith

theorem log_upper {x : ℝ} (h : -(1 / 2) ≤ x) : Real.log (1 + x) ≤ x := by
  have := Real.log_le_sub_one_of_pos (show 0 < 1 + x by linarith)
  linarith

theorem log_range {lam : ℝ} (h : 0 < lam) : Real.log (lam / 2) - Real.log (lam * 1e-8) ≤ 18 := by
  rw [← Real.log_div (by positivity) (by positivity)]
  have e : lam / 2 / (lam * 1e-8) = 50000000 := by field_simp; norm_num
  rw [e, Real.log_le_iff_le_exp (by norm_num)]
  have h1 : (2.7 : ℝ) ≤ Real.exp 1 := by have := Real.exp_one_gt_d9; linarith
  have h2 : Real.exp 18 = Real.exp 1 ^ 18 := by rw [← Real.exp_nat_mul]; norm_num
  rw [h2]
  calc (50000000 : ℝ) ≤ 2.7 ^ 18 := by norm_num
    _ ≤ Real.exp 1 ^ 18 := pow_le_pow_left₀ (by norm_num) h1 18

/-- The recursion of the step size over the iterations `k ≤ j < m`. -/
structure TuneRec (lam : ℝ) (d a : ℕ → ℝ) (k m : ℕ) : Prop where
  pos : 0 < lam
  flag : ∀ j, k ≤ j → j < m → a j = 0 ∨ a j = 1
  lo : lam * 1e-8 ≤ d k
  hi : d k ≤ lam / 2
  step : ∀ j, k ≤ j → j < m →
    d (j + 1) = min (max (d j * (1 + (a j - 1 / 2) / decay j)) (lam * 1e-8)) (lam / 2)

variable {lam : ℝ} {d a : ℕ → ℝ} {k m : ℕ}

theorem TuneRec.le (h : TuneRec lam d a k m) {m' : ℕ} (hm : m' ≤ m) : TuneRec lam d a k m' :=
  ⟨h.pos, fun j h1 h2 => h.flag j h1 (by omega), h.lo, h.hi, fun j h1 h2 => h.step j h1 (by omega)⟩

theorem TuneRec.range (h : TuneRec lam d a k m) : ∀ j, k ≤ j → j ≤ m → lam * 1e-8 ≤ d j ∧ d j ≤ lam / 2 := by
  intro j h1 h2
  rcases Nat.eq_or_lt_of_le h1 with rfl | h3
  · exact ⟨h.lo, h.hi⟩
  · obtain ⟨i, rfl⟩ : ∃ i, j = i + 1 := ⟨j - 1, by omega⟩
    rw [h.step i (by omega) (by omega)]
    have := h.pos
    exact ⟨le_min (le_max_right _ _) (by norm_num; linarith), min_le_right _ _⟩

theorem TuneRec.from (h : TuneRec lam d a k m) {k' : ℕ} (h1 : k ≤ k') (h2 : k' ≤ m) : TuneRec lam d a k' m :=
  ⟨h.pos, fun j h1 h2 => h.flag j (by omega) h2, (h.range k' h1 h2).1, (h.range k' h1 h2).2,
    fun j h1 h2 => h.step j (by omega) h2⟩

theorem TuneRec.dpos (h : TuneRec lam d a k m) : ∀ j, k ≤ j → j ≤ m → 0 < d j := fun j h1 h2 =>
  lt_of_lt_of_le (mul_pos h.pos (by norm_num)) (h.range j h1 h2).1

theorem TuneRec.factor (h : TuneRec lam d a k m) (j : ℕ) (h1 : k ≤ j) (h2 : j < m) :
    -(1 / 2) ≤ (a j - 1 / 2) / decay j ∧ ((a j - 1 / 2) / decay j) ^ 2 = 1 / 4 * (1 / decay j ^ 2) := by
  have hd := decay_one_le j
  constructor
  · rw [le_div_iff₀ (by linarith)]
    rcases h.flag j h1 h2 with e | e <;> rw [e] <;> linarith
  · rw [div_pow]
    rcases h.flag j h1 h2 with e | e <;> rw [e] <;> ring

/-- Never at the upper bound: the weighted excess of acceptances is bounded. -/
theorem tune_upper (h : TuneRec lam d a k m) (hkm : k ≤ m) (hne : ∀ j, k ≤ j → j < m → d (j + 1) ≠ lam / 2) :
    ∑ j ∈ Ico k m, (a j - 1 / 2) / decay j ≤ 20 := by
  have h1 : ∀ m', k ≤ m' → m' ≤ m →
      Real.log (d k) + ∑ j ∈ Ico k m', Real.log (1 + (a j - 1 / 2) / decay j) ≤ Real.log (d m') := by
    intro m' hk
    induction m', hk using Nat.le_induction with
    | base => intro _; simp
    | succ j hj ih =>
      intro hm
      have h2 := ih (by omega)
      rw [sum_Ico_succ_top hj]
      have hf := (h.factor j hj (by omega)).1
      have hdp := h.dpos j hj (by omega)
      have hge : d j * (1 + (a j - 1 / 2) / decay j) ≤ d (j + 1) := by
        have hs := h.step j hj (by omega)
        have hn := hne j hj (by omega)
        rcases min_choice (max (d j * (1 + (a j - 1 / 2) / decay j)) (lam * 1e-8)) (lam / 2) with e | e
        · rw [hs, e]; exact le_max_left _ _
        · exact absurd (hs.trans e) hn
      have hp : 0 < 1 + (a j - 1 / 2) / decay j := by linarith
      have h3 := Real.log_le_log (mul_pos hdp hp) hge
      rw [Real.log_mul hdp.ne' hp.ne'] at h3
      linarith
  have h2 := h1 m hkm le_rfl
  have h3 : ∑ j ∈ Ico k m, (a j - 1 / 2) / decay j ≤
      ∑ j ∈ Ico k m, (Real.log (1 + (a j - 1 / 2) / decay j) + 1 / 2 * (1 / decay j ^ 2)) := by
    refine sum_le_sum fun j hj => ?_
    rw [mem_Ico] at hj
    have hf := h.factor j hj.1 hj.2
    have := log_lower hf.1
    rw [hf.2] at this
    linarith
  rw [sum_add_distrib, ← mul_sum] at h3
  have h4 := sum_decay_sq_Ico k m
  have h5 := log_range h.pos
  have h6 := Real.log_le_log (by have := h.pos; positivity) h.lo
  have h7 := Real.log_le_log (h.dpos m hkm le_rfl) (h.range m hkm le_rfl).2
  linarith

/-- Never at the lower bound: the weighted excess of rejections is bounded. -/
theorem tune_lower (h : TuneRec lam d a k m) (hkm : k ≤ m) (hne : ∀ j, k ≤ j → j < m → d (j + 1) ≠ lam * 1e-8) :
    -20 ≤ ∑ j ∈ Ico k m, (a j - 1 / 2) / decay j := by
  have h1 : ∀ m', k ≤ m' → m' ≤ m →
      Real.log (d m') ≤ Real.log (d k) + ∑ j ∈ Ico k m', Real.log (1 + (a j - 1 / 2) / decay j) := by
    intro m' hk
    induction m', hk using Nat.le_induction with
    | base => intro _; simp
    | succ j hj ih =>
      intro hm
      have h2 := ih (by omega)
      rw [sum_Ico_succ_top hj]
      have hf := (h.factor j hj (by omega)).1
      have hdp := h.dpos j hj (by omega)
      have hge : d (j + 1) ≤ d j * (1 + (a j - 1 / 2) / decay j) := by
        have hs := h.step j hj (by omega)
        have hn := hne j hj (by omega)
        have hl := h.pos
        rcases max_choice (d j * (1 + (a j - 1 / 2) / decay j)) (lam * 1e-8) with e | e
        · rw [hs, e]; exact min_le_left _ _
        · exact absurd (hs.trans (by rw [e]; exact min_eq_left (by norm_num; linarith))) hn
      have hp : 0 < 1 + (a j - 1 / 2) / decay j := by linarith
      have h3 := Real.log_le_log (h.dpos (j + 1) (by omega) hm) hge
      rw [Real.log_mul hdp.ne' hp.ne'] at h3
      linarith
  have h2 := h1 m hkm le_rfl
  have h3 : ∑ j ∈ Ico k m, Real.log (1 + (a j - 1 / 2) / decay j) ≤ ∑ j ∈ Ico k m, (a j - 1 / 2) / decay j := by
    refine sum_le_sum fun j hj => ?_
    rw [mem_Ico] at hj
    exact log_upper (h.factor j hj.1 hj.2).1
  have h5 := log_range h.pos
  have h6 := Real.log_le_log (by have := h.pos; positivity) (h.range m hkm le_rfl).1
  have h7 := Real.log_le_log (h.dpos k le_rfl hkm) h.hi
  linarith

/-- Abel summation: bounded tail sums and growing weights. -/
theorem abel_bound (y b : ℕ → ℝ) (hb : ∀ i j, i ≤ j → b i ≤ b j) (hb0 : 0 ≤ b 0) (C : ℝ) (m : ℕ)
    (hC : ∀ j ≤ m, ∑ i ∈ Ico j (m + 1), y i ≤ C) : ∑ i ∈ range (m + 1), y i * b i ≤ C * b m := by
  have key : ∀ t, ∀ j, j + t = m → ∑ i ∈ Ico j (m + 1), y i * (b i - b j) ≤ C * (b m - b j) := by
    intro t
    induction t with
    | zero =>
      intro j hj
      obtain rfl : j = m := by omega
      rw [show Ico j (j + 1) = {j} by ext; simp]
      simp
    | succ t ih =>
      intro j hj
      have h1 := ih (j + 1) (by omega)
      have h2 := hC (j + 1) (by omega)
      have h3 : ∑ i ∈ Ico j (m + 1), y i * (b i - b j) =
          ∑ i ∈ Ico (j + 1) (m + 1), y i * (b i - b (j + 1)) + (b (j + 1) - b j) * ∑ i ∈ Ico (j + 1) (m + 1), y i := by
        rw [sum_eq_sum_Ico_succ_bot (by omega), sub_self, mul_zero, zero_add, mul_sum, ← sum_add_distrib]
        exact sum_congr rfl fun i _ => by ring
      have h4 := mul_le_mul_of_nonneg_left h2 (sub_nonneg.mpr (hb j (j + 1) (by omega)))
      rw [h3]
      nlinarith
  have h1 := key m 0 (by omega)
  have h2 := mul_le_mul_of_nonneg_left (hC 0 (by omega)) hb0
  have h3 : ∑ i ∈ range (m + 1), y i * b i = ∑ i ∈ Ico 0 (m + 1), y i * (b i - b 0) + b 0 * ∑ i ∈ Ico 0 (m + 1), y i := by
    rw [mul_sum, ← sum_add_distrib, range_eq_Ico]
    exact sum_congr rfl fun i _ => by ring
  rw [h3]
  nlinarith

theorem decay_pred (m : ℕ) : decay m = ((m + 1 : ℕ) : ℝ) / ((m + 1 : ℕ) : ℝ) ^ (1 / 4 : ℝ) := by
  have h : (0 : ℝ) < ((m + 1 : ℕ) : ℝ) := by positivity
  rw [eq_div_iff (Real.rpow_pos_of_pos h _).ne']
  unfold decay
  rw [show ((m : ℝ) + 1) = ((m + 1 : ℕ) : ℝ) by push_cast; rfl, ← Real.rpow_add h]
  norm_num

theorem tune_rate_upper (h : TuneRec lam d a 0 m) (hm : 0 < m) (hne : ∀ j, j < m → d (j + 1) ≠ lam / 2) :
    (∑ j ∈ range m, a j) / m ≤ 1 / 2 + 20 / (m : ℝ) ^ (1 / 4 : ℝ) := by
  obtain ⟨m, rfl⟩ : ∃ q, m = q + 1 := ⟨m - 1, by omega⟩
  have h1 := abel_bound (fun j => (a j - 1 / 2) / decay j) decay (fun _ _ h => decay_mono h)
    (zero_le_one.trans (decay_one_le 0)) 20 m fun j hj =>
      tune_upper (h.from (by omega) (by omega)) (by omega) fun i _ h2 => hne i h2
  have h2 : ∑ i ∈ range (m + 1), (a i - 1 / 2) / decay i * decay i = ∑ i ∈ range (m + 1), a i - ((m + 1 : ℕ) : ℝ) / 2 := by
    rw [sum_congr rfl fun i _ => div_mul_cancel₀ (a i - 1 / 2) (zero_lt_one.trans_le (decay_one_le i)).ne',
      sum_sub_distrib]
    simp; ring
  rw [h2, decay_pred] at h1
  have hp : (0 : ℝ) < ((m + 1 : ℕ) : ℝ) := by positivity
  have hq := Real.rpow_pos_of_pos hp (1 / 4)
  rw [div_le_iff₀ hp]
  have : (1 / 2 + 20 / ((m + 1 : ℕ) : ℝ) ^ (1 / 4 : ℝ)) * ((m + 1 : ℕ) : ℝ) =
      ((m + 1 : ℕ) : ℝ) / 2 + 20 * (((m + 1 : ℕ) : ℝ) / ((m + 1 : ℕ) : ℝ) ^ (1 / 4 : ℝ)) := by ring
  linarith

theorem tune_rate_lower (h : TuneRec lam d a 0 m) (hm : 0 < m) (hne : ∀ j, j < m → d (j + 1) ≠ lam * 1e-8) :
    1 / 2 - 20 / (m : ℝ) ^ (1 / 4 : ℝ) ≤ (∑ j ∈ range m, a j) / m := by
  obtain ⟨m, rfl⟩ : ∃ q, m = q + 1 := ⟨m - 1, by omega⟩
  have h1 := abel_bound (fun j => -((a j - 1 / 2) / decay j)) decay (fun _ _ h => decay_mono h)
    (zero_le_one.trans (decay_one_le 0)) 20 m fun j hj => by
      have := tune_lower (h.from (by omega) (show j ≤ m + 1 by omega)) (by omega) fun i _ h2 => hne i h2
      rw [sum_neg_distrib]; linarith
  have h2 : ∑ i ∈ range (m + 1), -((a i - 1 / 2) / decay i) * decay i =
      ((m + 1 : ℕ) : ℝ) / 2 - ∑ i ∈ range (m + 1), a i := by
    rw [sum_congr rfl fun i _ => show -((a i - 1 / 2) / decay i) * decay i = 1 / 2 - a i by
      rw [neg_mul, div_mul_cancel₀ (a i - 1 / 2) (zero_lt_one.trans_le (decay_one_le i)).ne']; ring, sum_sub_distrib]
    simp; ring
  rw [h2, decay_pred] at h1
  have hp : (0 : ℝ) < ((m + 1 : ℕ) : ℝ) := by positivity
  have hq := Real.rpow_pos_of_pos hp (1 / 4)
  rw [le_div_iff₀ hp]
  have : (1 / 2 - 20 / ((m + 1 : ℕ) : ℝ) ^ (1 / 4 : ℝ)) * ((m + 1 : ℕ) : ℝ) =
      ((m + 1 : ℕ) : ℝ) / 2 - 20 * (((m + 1 : ℕ) : ℝ) / ((m + 1 : ℕ) : ℝ) ^ (1 / 4 : ℝ)) := by ring
  linarith

/-- Half the iterations of a long run carry much weight. -/
theorem decay_sum_large (hm : 2 * k + 50000000 ≤ m) : 20 < ∑ j ∈ Ico k m, (1 / 2) / decay j := by
  obtain ⟨m, rfl⟩ : ∃ q, m = q + 1 := ⟨m - 1, by omega⟩
  have h1 : ((m + 1 - k : ℕ) : ℝ) * ((1 / 2) / decay m) ≤ ∑ j ∈ Ico k (m + 1), (1 / 2) / decay j := by
    have : ∑ _j ∈ Ico k (m + 1), (1 / 2) / decay m ≤ ∑ j ∈ Ico k (m + 1), (1 / 2) / decay j := by
      refine sum_le_sum fun j hj => ?_
      rw [mem_Ico] at hj
      exact div_le_div_of_nonneg_left (by norm_num) (zero_lt_one.trans_le (decay_one_le j)) (decay_mono (by omega))
    simpa using this
  refine lt_of_lt_of_le ?_ h1
  have hp : (0 : ℝ) < ((m + 1 : ℕ) : ℝ) := by positivity
  have hq := Real.rpow_pos_of_pos hp (1 / 4)
  have h2 : ((m + 1 : ℕ) : ℝ) / 2 ≤ ((m + 1 - k : ℕ) : ℝ) := by
    have : ((m + 1 : ℕ) : ℝ) ≤ 2 * ((m + 1 - k : ℕ) : ℝ) := by exact_mod_cast (by omega)
    linarith
  have h3 : (80 : ℝ) < ((m + 1 : ℕ) : ℝ) ^ (1 / 4 : ℝ) := by
    have h4 : (80 : ℝ) = ((80 : ℝ) ^ (4 : ℝ)) ^ (1 / 4 : ℝ) := by
      rw [← Real.rpow_mul (by norm_num)]; norm_num
    rw [h4]
    refine Real.rpow_lt_rpow (by positivity) ?_ (by norm_num)
    have : (50000000 : ℝ) ≤ ((m + 1 : ℕ) : ℝ) := by exact_mod_cast (by omega)
    have h5 : (80 : ℝ) ^ (4 : ℝ) = 40960000 := by
      rw [show (4 : ℝ) = ((4 : ℕ) : ℝ) by norm_num, Real.rpow_natCast]; norm_num
    rw [h5]; linarith
  calc (20 : ℝ) < ((m + 1 : ℕ) : ℝ) ^ (1 / 4 : ℝ) / 4 := by linarith
    _ = ((m + 1 : ℕ) : ℝ) / 2 * ((1 / 2) / decay m) := by rw [decay_pred]; field_simp; norm_num
    _ ≤ _ := mul_le_mul_of_nonneg_right h2 (div_nonneg (by norm_num) (zero_le_one.trans (decay_one_le m)))

theorem tune_ceiling (h : TuneRec lam d a k m) (hm : 2 * k + 50000000 ≤ m) (ha : ∀ j, k ≤ j → j < m → a j = 1) :
    d m = lam / 2 := by
  by_contra hne
  have hstay : ∀ t j, j + t = m → k ≤ j → d j ≠ lam / 2 := by
    intro t
    induction t with
    | zero => intro j hj _; rw [show j = m by omega]; exact hne
    | succ t ih =>
      intro j hj hk he
      refine ih (j + 1) (by omega) (by omega) ?_
      rw [h.step j hk (by omega), ha j hk (by omega), he]
      have hl := h.pos
      have hd : 0 < (1 - 1 / 2) / decay j := div_pos (by norm_num) (zero_lt_one.trans_le (decay_one_le j))
      exact min_eq_right (le_trans (by nlinarith) (le_max_left _ _))
  have h1 := tune_upper h (by omega) fun j hk hj => hstay (m - (j + 1)) (j + 1) (by omega) (by omega)
  have h2 := decay_sum_large hm
  have h3 : ∑ j ∈ Ico k m, (a j - 1 / 2) / decay j = ∑ j ∈ Ico k m, (1 / 2) / decay j := by
    refine sum_congr rfl fun j hj => ?_
    rw [mem_Ico] at hj
    rw [ha j hj.1 hj.2, show (1 : ℝ) - 1 / 2 = 1 / 2 by norm_num]
  linarith

theorem tune_floor (h : TuneRec lam d a k m) (hm : 2 * k + 50000000 ≤ m) (ha : ∀ j, k ≤ j → j < m → a j = 0) :
    d m = lam * 1e-8 := by
  by_contra hne
  have hstay : ∀ t j, j + t = m → k ≤ j → d j ≠ lam * 1e-8 := by
    intro t
    induction t with
    | zero => intro j hj _; rw [show j = m by omega]; exact hne
    | succ t ih =>
      intro j hj hk he
      refine ih (j + 1) (by omega) (by omega) ?_
      rw [h.step j hk (by omega), ha j hk (by omega), he]
      have hl := h.pos
      have hd : 0 < (1 / 2) / decay j := div_pos (by norm_num) (zero_lt_one.trans_le (decay_one_le j))
      have hlo : 0 < lam * 1e-8 := by positivity
      rw [max_eq_right, min_eq_left (by norm_num; linarith)]
      rw [show ((0 : ℝ) - 1 / 2) / decay j = -((1 / 2) / decay j) by ring]
      nlinarith
  have h1 := tune_lower h (by omega) fun j hk hj => hstay (m - (j + 1)) (j + 1) (by omega) (by omega)
  have h2 := decay_sum_large hm
  have h3 : ∑ j ∈ Ico k m, (a j - 1 / 2) / decay j = ∑ j ∈ Ico k m, -((1 / 2) / decay j) := by
    refine sum_congr rfl fun j hj => ?_
    rw [mem_Ico] at hj
    rw [ha j hj.1 hj.2]; ring
  rw [sum_neg_distrib] at h3
  linarith

theorem tune_small (h : TuneRec lam d a k m) (j : ℕ) (h1 : k ≤ j) (h2 : j < m) :
    |d (j + 1) - d j| ≤ lam / (4 * decay j) := by
  have hr := h.range j h1 h2.le
  have hd0 := h.dpos j h1 h2.le
  have hl := h.pos
  have hp := zero_lt_one.trans_le (decay_one_le j)
  have hx : |(a j - 1 / 2) / decay j| = (1 / 2) / decay j := by
    rw [abs_div, abs_of_pos hp]
    rcases h.flag j h1 h2 with e | e <;> rw [e] <;> norm_num [abs_of_pos, abs_of_neg]
  have hxb : |d j * (1 + (a j - 1 / 2) / decay j) - d j| ≤ lam / (4 * decay j) := by
    rw [show d j * (1 + (a j - 1 / 2) / decay j) - d j = d j * ((a j - 1 / 2) / decay j) by ring, abs_mul, hx,
      abs_of_pos hd0, show lam / (4 * decay j) = lam / 2 * ((1 / 2) / decay j) by field_simp; norm_num]
    exact mul_le_mul_of_nonneg_right hr.2 (by positivity)
  refine le_trans ?_ hxb
  rw [h.step j h1 h2]
  have e : d j = min (max (d j) (lam * 1e-8)) (lam / 2) := by rw [max_eq_left hr.1, min_eq_left hr.2]
  generalize d j * (1 + (a j - 1 / 2) / decay j) = A at *
  calc |min (max A (lam * 1e-8)) (lam / 2) - d j|
      = |min (max A (lam * 1e-8)) (lam / 2) - min (max (d j) (lam * 1e-8)) (lam / 2)| := by rw [← e]
    _ ≤ |max A (lam * 1e-8) - max (d j) (lam * 1e-8)| := by
          refine (abs_min_sub_min_le_max _ _ _ _).trans ?_
          rw [sub_self, abs_zero]
          exact max_le le_rfl (abs_nonneg _)
    _ ≤ |A - d j| := abs_max_sub_max_le_abs _ _ _

end Pxmcmc
