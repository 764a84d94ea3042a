import Verif.Py

/-! # Lemmas on `while` loops -/

namespace Pxmcmc
variable {σ : Type} {cond : σ → Bool} {body : σ → Py σ}

/-- States at the head of the loop: those reached by finitely many complete iterations. -/
inductive Reach (cond : σ → Bool) (body : σ → Py σ) (s0 : σ) : ℕ → σ → Prop where
  | refl : Reach cond body s0 0 s0
  | step {m : ℕ} {s s' : σ} (h : Reach cond body s0 m s) (hc : cond s = true) (hb : body s = .ok s') :
      Reach cond body s0 (m + 1) s'

/-- After reaching `s` in `m` iterations, the loop continues from `s`. -/
theorem Reach.whileFuel_add {s0 s : σ} {m : ℕ} (h : Reach cond body s0 m s) (k : ℕ) :
    whileFuel cond body (m + k) s0 = whileFuel cond body k s := by
  induction h generalizing k with
  | refl => simp
  | @step m s s' _ hc hb ih =>
    rw [show m + 1 + k = m + (k + 1) by omega, ih]
    show (if cond s = true then _ else _) = _
    rw [if_pos hc, hb]

/-- While the loop is running after `m` iterations, fuel `m` is not enough. -/
theorem Reach.running {s0 s : σ} {m : ℕ} (h : Reach cond body s0 m s) (hc : cond s = true) :
    whileFuel cond body m s0 = .ok none := by
  have := h.whileFuel_add 0
  simp only [Nat.add_zero] at this
  rw [this]
  simp [whileFuel, hc]

/-- When the condition is false after `m` iterations, the loop returns. -/
theorem Reach.returns {s0 s : σ} {m : ℕ} (h : Reach cond body s0 m s) (hc : cond s = false) (k : ℕ) :
    whileFuel cond body (m + k) s0 = .ok (some s) := by
  rw [h.whileFuel_add k]
  cases k <;> simp [whileFuel, hc]

/-- What the possible outcomes of a loop mean. -/
theorem whileFuel_cases (cond : σ → Bool) (body : σ → Py σ) (fuel : ℕ) (s0 : σ) :
    (∃ m s, m ≤ fuel ∧ Reach cond body s0 m s ∧ cond s = false ∧ whileFuel cond body fuel s0 = .ok (some s)) ∨
    (∃ s, Reach cond body s0 fuel s ∧ cond s = true ∧ whileFuel cond body fuel s0 = .ok none) ∨
    (∃ m s e, m < fuel ∧ Reach cond body s0 m s ∧ cond s = true ∧ body s = .error e ∧
      whileFuel cond body fuel s0 = .error e) := by
  induction fuel with
  | zero =>
    cases hc : cond s0
    · exact .inl ⟨0, s0, le_refl _, .refl, hc, by simp [whileFuel, hc]⟩
    · exact .inr (.inl ⟨s0, .refl, hc, by simp [whileFuel, hc]⟩)
  | succ fuel ih =>
    rcases ih with ⟨m, s, hm, hr, hc, hw⟩ | ⟨s, hr, hc, hw⟩ | ⟨m, s, e, hm, hr, hc, hb, hw⟩
    · left
      refine ⟨m, s, by omega, hr, hc, ?_⟩
      rw [show fuel + 1 = m + (fuel + 1 - m) by omega]
      exact hr.returns hc _
    · have hstep := hr.whileFuel_add 1
      rw [hstep]
      cases hb : body s with
      | error e =>
        right; right
        exact ⟨fuel, s, e, by omega, hr, hc, hb, by simp [whileFuel, hc, hb]⟩
      | ok s' =>
        have hr' := Reach.step hr hc hb
        cases hc' : cond s'
        · exact .inl ⟨fuel + 1, s', le_refl _, hr', hc', by simp [whileFuel, hc, hb, hc']⟩
        · exact .inr (.inl ⟨s', hr', hc', by simp [whileFuel, hc, hb, hc']⟩)
    · right; right
      refine ⟨m, s, e, by omega, hr, hc, hb, ?_⟩
      rw [show fuel + 1 = m + ((fuel - m) + 1) by omega, hr.whileFuel_add]
      simp [whileFuel, hc, hb]

/-- The loop returns exactly the reachable states in which the condition is false. -/
theorem whileFuel_some {fuel : ℕ} {s0 r : σ} (h : whileFuel cond body fuel s0 = .ok (some r)) :
    ∃ m ≤ fuel, Reach cond body s0 m r ∧ cond r = false := by
  rcases whileFuel_cases cond body fuel s0 with ⟨m, s, hm, hr, hc, hw⟩ | ⟨s, -, -, hw⟩ | ⟨_, s, e, -, -, -, -, hw⟩
  · rw [hw] at h
    obtain rfl := Option.some.inj (Except.ok.inj h)
    exact ⟨m, hm, hr, hc⟩
  · rw [hw] at h; cases h
  · rw [hw] at h; cases h

/-- Reachability is deterministic. -/
theorem Reach.unique {s0 s t : σ} {m : ℕ} (h : Reach cond body s0 m s) (h' : Reach cond body s0 m t) : s = t := by
  induction h generalizing t with
  | refl => cases h'; rfl
  | step h hc hb ih =>
    cases h' with
    | step g gc gb =>
      obtain rfl := ih g
      rw [hb] at gb
      exact Except.ok.inj gb

/-- Earlier states of a reachable state are reachable. -/
theorem Reach.prefix {s0 s : σ} {m : ℕ} (h : Reach cond body s0 m s) (k : ℕ) (hk : k ≤ m) :
    ∃ t, Reach cond body s0 k t := by
  induction h with
  | refl => obtain rfl : k = 0 := by omega
            exact ⟨_, .refl⟩
  | @step m s s' h hc hb ih =>
    rcases Nat.lt_or_ge k (m + 1) with h1 | h1
    · exact ih (by omega)
    · obtain rfl : k = m + 1 := by omega
      exact ⟨_, .step h hc hb⟩

/-- Invariants hold at every loop head. -/
theorem Reach.invariant {s0 s : σ} {m : ℕ} (h : Reach cond body s0 m s) (Inv : ℕ → σ → Prop) (h0 : Inv 0 s0)
    (hstep : ∀ k s s', Inv k s → cond s = true → body s = .ok s' → Inv (k + 1) s') : Inv m s := by
  induction h with
  | refl => exact h0
  | step h hc hb ih => exact hstep _ _ _ ih hc hb

/-- If each iteration up to the `N`-th succeeds and keeps the invariant, the `N`-th loop head is reached. -/
theorem reach_of_progress (Inv : ℕ → σ → Prop) (N : ℕ) (s0 : σ) (h0 : Inv 0 s0)
    (hstep : ∀ k s, k < N → Inv k s → cond s = true ∧ ∃ s', body s = .ok s' ∧ Inv (k + 1) s') :
    ∃ s, Reach cond body s0 N s ∧ Inv N s := by
  induction N with
  | zero => exact ⟨s0, .refl, h0⟩
  | succ N ih =>
    obtain ⟨s, hr, hi⟩ := ih fun k s hk => hstep k s (by omega)
    obtain ⟨hc, s', hb, hi'⟩ := hstep N s (by omega) hi
    exact ⟨s', .step hr hc hb, hi'⟩

end Pxmcmc
