import Verif.Model.Transforms
import Verif.Props.Packing

/-!
# C68: the wavelet transform wrapper
-/

namespace Pxmcmc

open ComplexConjugate

/-- The inner product `x.conj().T.dot(y)`. -/
noncomputable def cdot (x y : List ℂ) : ℂ := (List.zipWith (fun a b => conj a * b) x y).sum

theorem cdot_append (a b c d : List ℂ) (h : a.length = c.length) : cdot (a ++ b) (c ++ d) = cdot a c + cdot b d := by
  simp [cdot, List.zipWith_append h]

/-- Analysis of `n` values into `w` wavelet and `s` scaling coefficients, inverted by synthesis. -/
def S2Routines.RoundTrip (r : S2Routines) (n w s : ℕ) : Prop :=
  ∀ X : List ℂ, X.length = n → ∃ wav scal, r.fwd X = .ok (wav, scal) ∧ wav.length = w ∧ scal.length = s ∧
    r.inv wav scal = .ok X

/-- The adjoint routines are the adjoints of analysis and synthesis. -/
def S2Routines.Adjoints (r : S2Routines) (n w s : ℕ) : Prop :=
  ∀ X wav scal : List ℂ, X.length = n → wav.length = w → scal.length = s →
    (∃ wav' scal' Y, r.fwd X = .ok (wav', scal') ∧ wav'.length = w ∧ scal'.length = s ∧ r.fwdAdj wav scal = .ok Y ∧
      cdot wav wav' + cdot scal scal' = cdot Y X) ∧
    (∃ wav' scal' Y, r.invAdj X = .ok (wav', scal') ∧ wav'.length = w ∧ scal'.length = s ∧ r.inv wav scal = .ok Y ∧
      cdot X Y = cdot wav' wav + cdot scal' scal)

theorem inverse_pack (T : WaveletTransform) (wav scal : List ℂ) (h : scal.length = T.nscal) :
    T.inverse (flattenMlm (.d1 wav) scal) = T.r.inv wav scal := by
  have := C13_expand_flatten wav scal false
  rw [h] at this
  simp [WaveletTransform.inverse, this, bind, Except.bind, WavArr.ravelF]

theorem forwardAdjoint_pack (T : WaveletTransform) (wav scal : List ℂ) (h : scal.length = T.nscal) :
    T.forwardAdjoint (flattenMlm (.d1 wav) scal) = T.r.fwdAdj wav scal := by
  have := C13_expand_flatten wav scal false
  rw [h] at this
  simp [WaveletTransform.forwardAdjoint, this, bind, Except.bind, WavArr.ravelF]

theorem split_vec (c : List ℂ) (w s : ℕ) (h : c.length = w + s) :
    ∃ wav scal : List ℂ, c = flattenMlm (.d1 wav) scal ∧ wav.length = w ∧ scal.length = s :=
  ⟨c.drop s, c.take s, by simp [flattenMlm, WavArr.ravelF], by simp; omega, by simp; omega⟩

/-- C68, the part that holds: the object counts the coefficients of the pixel analysis.  If the routines it uses (those of
the setting) have as many coefficients, which is so for `harmonic=False`, then `inverse(forward(X)) = X` whenever this
holds for pys2let, and `forward` returns `ncoefs` numbers. -/
theorem C68_round_trip_partial (px lm : S2Routines) (harmonic : Bool) (empty : List ℂ) (n m w s : ℕ)
    (he : empty.length = m) (hpx : px.RoundTrip m w s)
    (hr : (if harmonic then lm else px).RoundTrip n w s) :
    ∃ T, WaveletTransform.init px lm harmonic empty = .ok T ∧ T.ncoefs = w + s ∧
      ∀ X : List ℂ, X.length = n → ∃ c, T.forward X = .ok c ∧ c.length = T.ncoefs ∧ T.inverse c = .ok X := by
  obtain ⟨w0, s0, h0, hw0, hs0, -⟩ := hpx empty he
  refine ⟨⟨if harmonic then lm else px, w, s⟩, by simp [WaveletTransform.init, h0, bind, Except.bind, hw0, hs0], rfl, ?_⟩
  intro X hX
  obtain ⟨wav, scal, hf, hw, hs, hi⟩ := hr X hX
  refine ⟨flattenMlm (.d1 wav) scal, by simp only [WaveletTransform.forward, hf, bind, Except.bind], ?_, ?_⟩
  · simp [flattenMlm, WavArr.ravelF, WaveletTransform.ncoefs, hw, hs]; omega
  · rw [inverse_pack _ _ _ hs, hi]

/-- C68, the part that holds: under the same condition on the counts, `forward_adjoint` and `inverse_adjoint` are the adjoints
of `forward` and `inverse` whenever the pys2let routines are. -/
theorem C68_adjoints_partial (px lm : S2Routines) (harmonic : Bool) (empty : List ℂ) (n m w s : ℕ)
    (he : empty.length = m) (hpx : px.RoundTrip m w s)
    (hr : (if harmonic then lm else px).Adjoints n w s) :
    ∃ T, WaveletTransform.init px lm harmonic empty = .ok T ∧
      ∀ X c : List ℂ, X.length = n → c.length = T.ncoefs →
        (∃ y g, T.forward X = .ok y ∧ T.forwardAdjoint c = .ok g ∧ cdot c y = cdot g X) ∧
        (∃ y g, T.inverse c = .ok y ∧ T.inverseAdjoint X = .ok g ∧ cdot X y = cdot g c) := by
  obtain ⟨w0, s0, h0, hw0, hs0, -⟩ := hpx empty he
  refine ⟨⟨if harmonic then lm else px, w, s⟩, by simp [WaveletTransform.init, h0, bind, Except.bind, hw0, hs0], ?_⟩
  intro X c hX hc
  obtain ⟨wav, scal, rfl, hw, hs⟩ := split_vec c w s hc
  obtain ⟨⟨w1, s1, Y, hf, hw1, hs1, ha, hd⟩, ⟨w2, s2, Y', hf', hw2, hs2, ha', hd'⟩⟩ := hr X wav scal hX hw hs
  refine ⟨⟨flattenMlm (.d1 w1) s1, Y, by simp only [WaveletTransform.forward, hf, bind, Except.bind],
    by rw [forwardAdjoint_pack _ _ _ hs, ha], ?_⟩,
    ⟨Y', flattenMlm (.d1 w2) s2, by rw [inverse_pack _ _ _ hs, ha'],
      by simp only [WaveletTransform.inverseAdjoint, hf', bind, Except.bind], ?_⟩⟩
  · simp only [flattenMlm, WavArr.ravelF]
    rw [cdot_append _ _ _ _ (by rw [hs, hs1]), ← hd, add_comm]
  · simp only [flattenMlm, WavArr.ravelF]
    rw [cdot_append _ _ _ _ (by rw [hs, hs2]), hd', add_comm]

/-- A toy pair of routines: the `n` values themselves are the wavelet coefficients, the first `s` the scaling ones, and
synthesis checks the sizes. -/
def toyRoutines (n s : ℕ) : S2Routines where
  fwd X := if X.length = n then .ok (X, X.take s) else .error .ValueError
  fwdAdj w c := .ok (List.zipWith (· + ·) w (c ++ List.replicate (n - s) 0))
  inv w c := if w.length = n ∧ c.length = s then .ok w else .error .ValueError
  invAdj X := .ok (X, List.replicate s 0)

theorem toy_roundTrip (n s : ℕ) (h : s ≤ n) : (toyRoutines n s).RoundTrip n n s := by
  intro X hX
  refine ⟨X, X.take s, by simp [toyRoutines, hX], hX, by simp [hX, h], by simp [toyRoutines, hX, h]⟩

/-- C68 refuted for `harmonic=True`: the scaling coefficients of a function of bandlimit `b` are `b(2b-1)` pixels but `b²`
harmonic coefficients, and the object always counts pixels.  Here `L = b = 2` (6 pixels, 4 harmonic coefficients): both sets of
routines round-trip, yet `inverse(forward(X))` fails for every `X`. -/
theorem C68_harmonic_refuted : ∃ (px lm : S2Routines) (T : WaveletTransform), px.RoundTrip 6 6 6 ∧ lm.RoundTrip 4 4 4 ∧
    WaveletTransform.init px lm true (List.replicate 6 0) = .ok T ∧
    ∀ X : List ℂ, X.length = 4 → ∃ c, T.forward X = .ok c ∧ c.length = 8 ∧ T.ncoefs ≠ 8 ∧ T.inverse c ≠ .ok X := by
  refine ⟨toyRoutines 6 6, toyRoutines 4 4, ⟨toyRoutines 4 4, 6, 6⟩, toy_roundTrip 6 6 le_rfl, toy_roundTrip 4 4 le_rfl, ?_, ?_⟩
  · simp [WaveletTransform.init, toyRoutines, bind, Except.bind]
  · intro X hX
    refine ⟨X.take 4 ++ X, ?_, by simp [hX], by simp [WaveletTransform.ncoefs], ?_⟩
    · simp [WaveletTransform.forward, toyRoutines, hX, bind, Except.bind, flattenMlm, WavArr.ravelF]
    · simp [WaveletTransform.inverse, expandMlm, toyRoutines, bind, Except.bind, WavArr.ravelF, sliceFrom, sliceTo, sliceBound, hX]

/-- The hypotheses of C68 are met by routines with scaling and wavelet coefficients. -/
example : (toyRoutines 6 1).RoundTrip 6 6 1 := toy_roundTrip 6 1 (by norm_num)

/-- The adjoint hypotheses are met: one pixel, one wavelet coefficient `2x`, one scaling coefficient `3x`; synthesis averages
half of the one and a third of the other. -/
example : S2Routines.Adjoints
    ⟨fun X => .ok (X.map (2 * ·), X.map (3 * ·)), fun w s => .ok (List.zipWith (fun a b => 2 * a + 3 * b) w s),
      fun w s => .ok (List.zipWith (fun a b => a / 4 + b / 6) w s), fun X => .ok (X.map (· / 4), X.map (· / 6))⟩ 1 1 1 := by
  intro X wav scal hX hw hs
  obtain ⟨x, rfl⟩ := List.length_eq_one_iff.mp hX
  obtain ⟨a, rfl⟩ := List.length_eq_one_iff.mp hw
  obtain ⟨b, rfl⟩ := List.length_eq_one_iff.mp hs
  refine ⟨⟨_, _, _, rfl, rfl, rfl, rfl, ?_⟩, ⟨_, _, _, rfl, rfl, rfl, rfl, ?_⟩⟩ <;>
    simp [cdot, Complex.conj_ofNat] <;> ring

end Pxmcmc
