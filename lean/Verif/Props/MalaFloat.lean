import Verif.Model.MalaFloat

/-! # Property C58: NaN in PxMALA's acceptance test -/

namespace Pxmcmc

theorem Fl.add_nan (a b : Fl) (h : a.isNaN ∨ b.isNaN) : (a.add b).isNaN := by
  cases a <;> cases b <;> simp_all [Fl.isNaN, Fl.add]

theorem Fl.neg_nan (a : Fl) (h : a.isNaN) : a.neg.isNaN := by
  cases a <;> simp_all [Fl.isNaN, Fl.neg]

theorem Fl.not_lt_nan (a b : Fl) (h : b.isNaN) : ¬ a.lt b := by
  cases b <;> simp_all [Fl.isNaN]
  cases a <;> simp [Fl.lt]

theorem Fl.not_eq_nan (a b : Fl) (h : b.isNaN) : ¬ a.eq b := by
  cases b <;> simp_all [Fl.isNaN]
  cases a <;> simp [Fl.eq]

theorem NpNum.isNaN_iff_toC (a : NpNum) : a.isNaN ↔ a.toC.isNaN := by
  cases a <;> simp [NpNum.isNaN, NpNum.toC, CFl.isNaN, Fl.isNaN]

theorem CFl.add_nan (a b : CFl) (h : a.isNaN ∨ b.isNaN) : (a.add b).isNaN := by
  rcases h with (h | h) | (h | h)
  · exact .inl (Fl.add_nan _ _ (.inl h))
  · exact .inr (Fl.add_nan _ _ (.inl h))
  · exact .inl (Fl.add_nan _ _ (.inr h))
  · exact .inr (Fl.add_nan _ _ (.inr h))

theorem CFl.sub_nan (a b : CFl) (h : a.isNaN ∨ b.isNaN) : (a.sub b).isNaN := by
  rcases h with (h | h) | (h | h)
  · exact .inl (Fl.add_nan _ _ (.inl h))
  · exact .inr (Fl.add_nan _ _ (.inl h))
  · exact .inl (Fl.add_nan _ _ (.inr (Fl.neg_nan _ h)))
  · exact .inr (Fl.add_nan _ _ (.inr (Fl.neg_nan _ h)))

theorem NpNum.add_nan (a b : NpNum) (h : a.isNaN ∨ b.isNaN) : (a.add b).isNaN := by
  cases a <;> cases b
  · exact Fl.add_nan _ _ h
  all_goals
    rw [NpNum.isNaN_iff_toC, NpNum.isNaN_iff_toC] at h
    exact CFl.add_nan _ _ h

theorem NpNum.sub_nan (a b : NpNum) (h : a.isNaN ∨ b.isNaN) : (a.sub b).isNaN := by
  cases a <;> cases b
  · exact Fl.add_nan _ _ (h.imp id (Fl.neg_nan _))
  all_goals
    rw [NpNum.isNaN_iff_toC, NpNum.isNaN_iff_toC] at h
    exact CFl.sub_nan _ _ h

theorem CFl.not_lt_nan (a b : CFl) (h : b.isNaN) : ¬ a.lt b := by
  rintro (⟨h1, -, h2⟩ | ⟨h1, h2⟩)
  · exact h.elim (fun h => Fl.not_lt_nan _ _ h h1) h2
  · exact h.elim (fun h => Fl.not_eq_nan _ _ h h1) (fun h => Fl.not_lt_nan _ _ h h2)

theorem NpNum.not_lt_nan (x : Fl) (b : NpNum) (h : b.isNaN) : ¬ NpNum.lt x b := by
  cases b
  · exact Fl.not_lt_nan _ _ h
  · exact CFl.not_lt_nan _ _ h

/-- C58, one iteration: if the proposal's log-posterior, one of the transition values or the current log-posterior is NaN,
the proposal is rejected. -/
theorem C58_nan_rejected {α : Type} (s : FState α) (p : FProp α)
    (h : p.logpi.isNaN ∨ p.transCP.isNaN ∨ p.transPC.isNaN ∨ s.logpi.isNaN) :
    floatStep s p = ⟨s.X, s.logpi, s.acc ++ [0]⟩ := by
  unfold floatStep
  apply if_neg
  apply NpNum.not_lt_nan
  rcases h with h | h | h | h
  · exact NpNum.sub_nan _ _ (.inl (NpNum.sub_nan _ _ (.inl (NpNum.add_nan _ _ (.inr h)))))
  · exact NpNum.sub_nan _ _ (.inl (NpNum.sub_nan _ _ (.inr h)))
  · exact NpNum.sub_nan _ _ (.inl (NpNum.sub_nan _ _ (.inl (NpNum.add_nan _ _ (.inl h)))))
  · exact NpNum.sub_nan _ _ (.inr h)

/-- C58, any history: a chain whose log-posterior is not NaN never gets one that is, and its current pair (sample,
log-posterior) is the start or one of the proposals. -/
theorem C58_never_nan {α : Type} (s : FState α) (ps : List (FProp α)) (h : ¬ s.logpi.isNaN) :
    ¬ (floatRun s ps).logpi.isNaN ∧ ((floatRun s ps).X, (floatRun s ps).logpi) ∈
      (s.X, s.logpi) :: ps.map fun p => (p.X, p.logpi) := by
  induction ps generalizing s with
  | nil => exact ⟨h, by simp [floatRun]⟩
  | cons p ps ih =>
    have hs : ¬ (floatStep s p).logpi.isNaN ∧ (((floatStep s p).X, (floatStep s p).logpi) = (s.X, s.logpi) ∨
        ((floatStep s p).X, (floatStep s p).logpi) = (p.X, p.logpi)) := by
      by_cases hp : p.logpi.isNaN
      · rw [C58_nan_rejected s p (.inl hp)]
        exact ⟨h, .inl rfl⟩
      · unfold floatStep
        simp only
        split
        · exact ⟨hp, .inr rfl⟩
        · exact ⟨h, .inl rfl⟩
    obtain ⟨h1, h2⟩ := ih (floatStep s p) hs.1
    refine ⟨h1, ?_⟩
    have e : floatRun s (p :: ps) = floatRun (floatStep s p) ps := rfl
    rw [e]
    rcases List.mem_cons.mp h2 with h2 | h2
    · rw [h2]
      rcases hs.2 with h3 | h3 <;> rw [h3] <;> simp
    · simp only [List.map_cons, List.mem_cons]
      exact .inr (.inr h2)

/-- C58, NaN start: every proposal is rejected, whatever it is. -/
theorem C58_nan_start {α : Type} (s : FState α) (ps : List (FProp α)) (h : s.logpi.isNaN) :
    floatRun s ps = ⟨s.X, s.logpi, s.acc ++ List.replicate ps.length 0⟩ := by
  induction ps generalizing s with
  | nil => simp [floatRun]
  | cons p ps ih =>
    have e : floatRun s (p :: ps) = floatRun (floatStep s p) ps := rfl
    rw [e, C58_nan_rejected s p (.inr (.inr (.inr h))), ih ⟨s.X, s.logpi, s.acc ++ [0]⟩ h]
    simp [List.replicate_succ]

/-- C58, infinite values (real data): a proposal of log-posterior `-inf` with finite transition values is rejected whatever the current
value, also `-inf` itself. -/
theorem C58_minus_inf_rejected {α : Type} (s : FState α) (p : FProp α) (x a b : _) (hs : s.logpi = .real x) (hp : p.logpi = .real .ninf)
    (ha : p.transPC = .real (.fin a)) (hb : p.transCP = .real (.fin b)) : floatStep s p = ⟨s.X, s.logpi, s.acc ++ [0]⟩ := by
  unfold floatStep
  apply if_neg
  rw [hs, hp, ha, hb]
  cases x <;> simp only [NpNum.add, NpNum.sub, Fl.add, Fl.neg, NpNum.lt] <;> unfold flLog <;> split <;> simp [Fl.lt]

/-- C58, infinite values (real data): a chain at log-posterior `+inf` never moves. -/
theorem C58_plus_inf_stuck {α : Type} (s : FState α) (ps : List (FProp α)) (hs : s.logpi = .real .pinf)
    (hp : ∀ p ∈ ps, ∃ x a b, p.logpi = .real x ∧ p.transPC = .real a ∧ p.transCP = .real b) :
    floatRun s ps = ⟨s.X, s.logpi, s.acc ++ List.replicate ps.length 0⟩ := by
  induction ps generalizing s with
  | nil => simp [floatRun]
  | cons p ps ih =>
    have e : floatRun s (p :: ps) = floatRun (floatStep s p) ps := rfl
    have hr : floatStep s p = ⟨s.X, s.logpi, s.acc ++ [0]⟩ := by
      obtain ⟨x, a, b, h1, h2, h3⟩ := hp p (by simp)
      unfold floatStep
      apply if_neg
      rw [hs, h1, h2, h3]
      simp only [NpNum.add, NpNum.sub, NpNum.lt]
      generalize (a.add x).add b.neg = y
      cases y <;> simp only [Fl.add, Fl.neg] <;> unfold flLog <;> split <;> simp [Fl.lt]
    rw [e, hr, ih ⟨s.X, s.logpi, s.acc ++ [0]⟩ hs fun q hq => hp q (by simp [hq])]
    simp [List.replicate_succ]

/-- C58, infinite values (real data): a chain at log-posterior `-inf` (a start outside the support of the posterior) accepts the first proposal whose values
are finite, whatever the draw. -/
theorem C58_minus_inf_leaves {α : Type} (s : FState α) (p : FProp α) (y a b : ℝ) (hs : s.logpi = .real .ninf) (hp : p.logpi = .real (.fin y))
    (ha : p.transPC = .real (.fin a)) (hb : p.transCP = .real (.fin b)) : floatStep s p = ⟨p.X, p.logpi, s.acc ++ [1]⟩ := by
  unfold floatStep
  apply if_pos
  rw [hs, hp, ha, hb]
  simp only [NpNum.add, NpNum.sub, Fl.add, Fl.neg, NpNum.lt]
  unfold flLog
  split <;> simp [Fl.lt]

/-- C58, finite values (real data): the test is the Metropolis-Hastings one for a positive uniform draw, and a draw of exactly 0
(`np.random.rand` draws from `[0, 1)`) accepts every proposal. -/
theorem C58_finite {α : Type} (s : FState α) (p : FProp α) (x y a b : ℝ) (hs : s.logpi = .real (.fin x))
    (hp : p.logpi = .real (.fin y)) (ha : p.transPC = .real (.fin a)) (hb : p.transCP = .real (.fin b)) (hu : 0 ≤ p.u) :
    (floatStep s p = ⟨p.X, p.logpi, s.acc ++ [1]⟩ ∧ p.u < Real.exp (a + y - b - x)) ∨
      (floatStep s p = ⟨s.X, s.logpi, s.acc ++ [0]⟩ ∧ Real.exp (a + y - b - x) ≤ p.u) := by
  have hlt : NpNum.lt (flLog p.u) (((p.transPC.add p.logpi).sub p.transCP).sub s.logpi) ↔ p.u < Real.exp (a + y - b - x) := by
    rw [hs, hp, ha, hb]
    simp only [NpNum.add, NpNum.sub, Fl.add, Fl.neg, NpNum.lt]
    unfold flLog
    rcases eq_or_lt_of_le hu with h | h
    · rw [if_pos h.symm, ← h]
      simp [Fl.lt, Real.exp_pos]
    · rw [if_neg h.ne']
      simp only [Fl.lt]
      rw [Real.log_lt_iff_lt_exp h]
      ring_nf
  by_cases h : p.u < Real.exp (a + y - b - x)
  · exact .inl ⟨if_pos (hlt.mpr h), h⟩
  · exact .inr ⟨if_neg (hlt.not.mpr h), not_lt.mp h⟩

/-- The value `a` of the code is the number `z`. -/
def NpNum.Is (a : NpNum) (z : ℂ) : Prop := (a = .real (.fin z.re) ∧ z.im = 0) ∨ a = .cplx ⟨.fin z.re, .fin z.im⟩

theorem NpNum.Is.add {a b : NpNum} {z w : ℂ} (h : a.Is z) (h' : b.Is w) : (a.add b).Is (z + w) := by
  rcases h with ⟨rfl, h⟩ | rfl <;> rcases h' with ⟨rfl, h'⟩ | rfl
  · exact .inl ⟨rfl, by simp [h, h']⟩
  all_goals exact .inr (by simp [NpNum.add, NpNum.toC, CFl.add, Fl.add, *])

theorem NpNum.Is.sub {a b : NpNum} {z w : ℂ} (h : a.Is z) (h' : b.Is w) : (a.sub b).Is (z - w) := by
  rcases h with ⟨rfl, h⟩ | rfl <;> rcases h' with ⟨rfl, h'⟩ | rfl
  · exact .inl ⟨by simp [NpNum.sub, Fl.add, Fl.neg, sub_eq_add_neg], by simp [h, h']⟩
  all_goals exact .inr (by simp [NpNum.sub, NpNum.toC, CFl.sub, Fl.add, Fl.neg, sub_eq_add_neg, *])

/-- C58, finite values, real or complex: the proposal is accepted exactly if the draw is 0, or its logarithm is below the real part of the
log ratio, or equals it while the imaginary part of the log ratio is positive. -/
theorem C58_finite_complex {α : Type} (s : FState α) (p : FProp α) (x y a b : ℂ) (hs : s.logpi.Is x) (hp : p.logpi.Is y)
    (ha : p.transPC.Is a) (hb : p.transCP.Is b) :
    (floatStep s p = ⟨p.X, p.logpi, s.acc ++ [1]⟩ ∧
      (p.u = 0 ∨ Real.log p.u < (a + y - b - x).re ∨ (Real.log p.u = (a + y - b - x).re ∧ 0 < (a + y - b - x).im))) ∨
    (floatStep s p = ⟨s.X, s.logpi, s.acc ++ [0]⟩ ∧
      ¬ (p.u = 0 ∨ Real.log p.u < (a + y - b - x).re ∨ (Real.log p.u = (a + y - b - x).re ∧ 0 < (a + y - b - x).im))) := by
  have hz := ((ha.add hp).sub hb).sub hs
  set z := a + y - b - x
  have hlt : NpNum.lt (flLog p.u) (((p.transPC.add p.logpi).sub p.transCP).sub s.logpi) ↔
      (p.u = 0 ∨ Real.log p.u < z.re ∨ (Real.log p.u = z.re ∧ 0 < z.im)) := by
    rcases hz with ⟨hz, h0⟩ | hz <;> rw [hz] <;> unfold flLog <;> split <;> rename_i hu
    · simp [NpNum.lt, Fl.lt, hu]
    · simp [NpNum.lt, Fl.lt, hu, h0]
    · simp [NpNum.lt, CFl.lt, Fl.lt, Fl.isNaN, hu]
    · simp [NpNum.lt, CFl.lt, Fl.lt, Fl.eq, Fl.isNaN, hu]
  by_cases h : (p.u = 0 ∨ Real.log p.u < z.re ∨ (Real.log p.u = z.re ∧ 0 < z.im))
  · exact .inl ⟨if_pos (hlt.mpr h), h⟩
  · exact .inr ⟨if_neg (hlt.not.mpr h), h⟩

/-- Equal real parts: with a draw of `exp(-1)`, from log-posterior 0 to `-1+i` is accepted, to `-1-i` is not. -/
example : floatStep (⟨0, .real (.fin 0), []⟩ : FState ℕ) ⟨1, .cplx ⟨.fin (-1), .fin 1⟩, .real (.fin 0), .real (.fin 0), Real.exp (-1)⟩ =
      ⟨1, .cplx ⟨.fin (-1), .fin 1⟩, [1]⟩ ∧
    floatStep (⟨0, .real (.fin 0), []⟩ : FState ℕ) ⟨1, .cplx ⟨.fin (-1), .fin (-1)⟩, .real (.fin 0), .real (.fin 0), Real.exp (-1)⟩ =
      ⟨0, .real (.fin 0), [0]⟩ := by
  have h0 : (NpNum.real (.fin 0)).Is 0 := .inl ⟨rfl, rfl⟩
  constructor
  · rcases C58_finite_complex (⟨0, .real (.fin 0), []⟩ : FState ℕ)
      ⟨1, .cplx ⟨.fin (-1), .fin 1⟩, .real (.fin 0), .real (.fin 0), Real.exp (-1)⟩ 0 ⟨-1, 1⟩ 0 0 h0 (.inr rfl) h0 h0 with h | h
    · exact h.1
    · exact absurd (.inr (.inr (by simp))) h.2
  · rcases C58_finite_complex (⟨0, .real (.fin 0), []⟩ : FState ℕ)
      ⟨1, .cplx ⟨.fin (-1), .fin (-1)⟩, .real (.fin 0), .real (.fin 0), Real.exp (-1)⟩ 0 ⟨-1, -1⟩ 0 0 h0 (.inr rfl) h0 h0 with h | h
    · have := h.2
      simp at this
      norm_num at this
    · exact h.1

/-- A draw of 0 accepts a proposal of much lower log-posterior; a draw of 1/2 rejects it. -/
example : floatStep (⟨0, .real (.fin 0), []⟩ : FState ℕ) ⟨1, .real (.fin (-1000)), .real (.fin 0), .real (.fin 0), 0⟩ =
      ⟨1, .real (.fin (-1000)), [1]⟩ ∧
    floatStep (⟨0, .real (.fin 0), []⟩ : FState ℕ) ⟨1, .real (.fin (-1000)), .real (.fin 0), .real (.fin 0), 1 / 2⟩ =
      ⟨0, .real (.fin 0), [0]⟩ := by
  constructor
  · rcases C58_finite (⟨0, .real (.fin 0), []⟩ : FState ℕ) ⟨1, .real (.fin (-1000)), .real (.fin 0), .real (.fin 0), 0⟩ _ _ _ _
      rfl rfl rfl rfl le_rfl with h | h
    · exact h.1
    · exact absurd h.2 (not_le.mpr (Real.exp_pos _))
  · rcases C58_finite (⟨0, .real (.fin 0), []⟩ : FState ℕ) ⟨1, .real (.fin (-1000)), .real (.fin 0), .real (.fin 0), 1 / 2⟩ _ _ _ _
      rfl rfl rfl rfl (by norm_num) with h | h
    · have h1 := Real.add_one_le_exp (1000 : ℝ)
      have h2 : Real.exp (0 + -1000 - 0 - 0) * Real.exp 1000 = 1 := by
        rw [← Real.exp_add]
        norm_num
      have h3 := mul_lt_mul_of_pos_right h.2 (Real.exp_pos 1000)
      rw [h2] at h3
      simp only at h3
      linarith
    · exact h.1

/-- Both hypotheses are met, with the proposal and the current value both infinite. -/
example : floatStep (⟨0, .real .ninf, []⟩ : FState ℕ) ⟨1, .real .ninf, .real (.fin 2), .real (.fin 3), 1 / 2⟩ =
      ⟨0, .real .ninf, [0]⟩ ∧
    floatRun (⟨0, .real .pinf, []⟩ : FState ℕ) [⟨1, .real .pinf, .real (.fin 2), .real .ninf, 0⟩] = ⟨0, .real .pinf, [0]⟩ :=
  ⟨C58_minus_inf_rejected _ _ _ _ _ rfl rfl rfl rfl,
    C58_plus_inf_stuck _ _ rfl fun p hp => by
      obtain rfl := List.mem_singleton.mp hp
      exact ⟨_, _, _, rfl, rfl, rfl⟩⟩

/-- A chain started at log-posterior `-inf` moves to the first finite proposal, also with a draw close to 1. -/
example : floatStep (⟨0, .real .ninf, []⟩ : FState ℕ) ⟨1, .real (.fin (-7)), .real (.fin 2), .real (.fin (-3)), 99 / 100⟩ =
    ⟨1, .real (.fin (-7)), [1]⟩ :=
  C58_minus_inf_leaves _ _ _ _ _ rfl rfl rfl rfl

/-- C58 is not vacuous: a finite history in which a finite proposal is accepted (from -2 to -1 with `u = 1/2`), then a NaN
one is rejected. -/
example : floatRun (⟨0, .real (.fin (-2)), []⟩ : FState ℕ)
    [⟨1, .real (.fin (-1)), .real (.fin 0), .real (.fin 0), 1 / 2⟩,
     ⟨2, .real .nan, .real (.fin 0), .real (.fin 0), 0⟩] = ⟨1, .real (.fin (-1)), [1, 0]⟩ := by
  have h : floatStep (⟨0, .real (.fin (-2)), []⟩ : FState ℕ)
      ⟨1, .real (.fin (-1)), .real (.fin 0), .real (.fin 0), 1 / 2⟩ = ⟨1, .real (.fin (-1)), [1]⟩ := by
    unfold floatStep
    apply if_pos
    have : Real.log (1 / 2) < 1 := by
      have := Real.log_nonpos (x := 1 / 2) (by norm_num) (by norm_num)
      linarith
    norm_num [NpNum.lt, NpNum.add, NpNum.sub, Fl.add, Fl.neg, flLog, Fl.lt]
    norm_num at this
    exact this
  have e : ∀ (s : FState ℕ) p q, floatRun s [p, q] = floatStep (floatStep s p) q := fun _ _ _ => rfl
  rw [e, h, C58_nan_rejected _ ⟨2, .real .nan, .real (.fin 0), .real (.fin 0), 0⟩ (.inl trivial)]
  rfl

end Pxmcmc
