import Verif.Lemmas.Recur
import Verif.Lemmas.MalaVec
import Verif.Props.MalaBalance
import Mathlib.MeasureTheory.Constructions.BorelSpace.Complex
import Mathlib.MeasureTheory.Function.SpecialFunctions.Basic
import Mathlib.Analysis.SpecialFunctions.Pow.Continuity
import Mathlib.MeasureTheory.Constructions.BorelSpace.Basic

/-! # PxMALA as a chain driven by pairs (noise vector, uniform number) -/

namespace Pxmcmc
open MeasureTheory ProbabilityTheory
open scoped ENNReal

variable {n p : ℕ}

/-- The generator state at the start of iteration `k`, each iteration drawing a noise vector and one uniform number. -/
noncomputable def malaRngSeq (R : Rng) (cplx : Bool) (p : ℕ) (r : R.σ) : ℕ → R.σ
  | 0 => r
  | k + 1 => (R.rand (drawVec R R.randn cplx (malaRngSeq R cplx p r k) p).2).2

/-- The noise vector and the uniform number of iteration `k`. -/
noncomputable def malaDraws (R : Rng) (cplx : Bool) (p : ℕ) (r : R.σ) (k : ℕ) : (Fin p → ℂ) × ℝ :=
  ((drawVec R R.randn cplx (malaRngSeq R cplx p r k) p).1,
    (R.rand (drawVec R R.randn cplx (malaRngSeq R cplx p r k) p).2).1)

section
variable (M : Sampler n) (fwd : (Fin p → ℂ) → (Fin n → ℂ)) (grad : (Fin n → ℂ) → (Fin p → ℂ))
    (prox : (Fin p → ℂ) → (Fin p → ℂ)) (pri : (Fin p → ℂ) → ℝ)

/-- The log acceptance ratio of the proposal made from `x` with the step size `δ` and the noise `w`. -/
noncomputable def propAlpha (q : (Fin p → ℂ) × ℝ × (Fin p → ℂ)) : ℂ :=
  logAlphaVec M fwd grad prox pri q.2.1 q.1 (ulaStep q.2.1 (gradVec M.par.lmda fwd grad prox) q.1 q.2.2)

theorem logAlphaVec_expand (delta : ℝ) (x y : Fin p → ℂ) : logAlphaVec M fwd grad prox pri delta x y =
    logtransVec delta (gradVec M.par.lmda fwd grad prox) y x + (((-M.par.mu * pri y : ℝ) : ℂ) - misfitOf M fwd y)
      - logtransVec delta (gradVec M.par.lmda fwd grad prox) x y - (((-M.par.mu * pri x : ℝ) : ℂ) - misfitOf M fwd x) := rfl

variable {M fwd grad prox pri}

theorem propAlpha_measurable (hf : Measurable fwd) (hg : Measurable grad) (hp : Measurable prox) (hq : Measurable pri) :
    Measurable (propAlpha M fwd grad prox pri) := by
  have hG : Measurable (gradVec M.par.lmda fwd grad prox) := by
    unfold gradVec
    refine measurable_pi_lambda _ fun i => ?_
    have h1 : Measurable fun x => prox x i := (measurable_pi_apply i).comp hp
    have h2 : Measurable fun x => grad (fwd x) i := (measurable_pi_apply i).comp (hg.comp hf)
    fun_prop
  have hy : Measurable fun q : (Fin p → ℂ) × ℝ × (Fin p → ℂ) => ulaStep q.2.1 (gradVec M.par.lmda fwd grad prox) q.1 q.2.2 := by
    unfold ulaStep
    refine measurable_pi_lambda _ fun i => ?_
    have h1 : Measurable fun q : (Fin p → ℂ) × ℝ × (Fin p → ℂ) => gradVec M.par.lmda fwd grad prox q.1 i :=
      (measurable_pi_apply i).comp (hG.comp measurable_fst)
    fun_prop
  have hm : Measurable (misfitOf M fwd) := by
    unfold misfitOf Spec.inner Matrix.mulVec dotProduct
    have h1 : ∀ i, Measurable fun x => fwd x i := fun i => (measurable_pi_apply i).comp hf
    have h2 : ∀ i, Measurable fun x => star (fwd x i) := fun i => continuous_star.measurable.comp (h1 i)
    simp only [Pi.sub_apply]
    refine Finset.measurable_sum _ fun i _ => ?_
    refine Measurable.mul (continuous_star.measurable.comp (measurable_const.sub (h1 i))) ?_
    exact Finset.measurable_sum _ fun j _ => measurable_const.mul (measurable_const.sub (h1 j))
  have hl : Measurable fun q : ℝ × (Fin p → ℂ) × (Fin p → ℂ) => logtransVec q.1 (gradVec M.par.lmda fwd grad prox) q.2.1 q.2.2 := by
    unfold logtransVec
    have h1 : ∀ i, Measurable fun q : ℝ × (Fin p → ℂ) × (Fin p → ℂ) => gradVec M.par.lmda fwd grad prox q.2.1 i :=
      fun i => (measurable_pi_apply i).comp (hG.comp (measurable_fst.comp measurable_snd))
    fun_prop
  have e : propAlpha M fwd grad prox pri = fun q => logtransVec q.2.1 (gradVec M.par.lmda fwd grad prox)
        (ulaStep q.2.1 (gradVec M.par.lmda fwd grad prox) q.1 q.2.2) q.1 +
      (((-M.par.mu * pri (ulaStep q.2.1 (gradVec M.par.lmda fwd grad prox) q.1 q.2.2) : ℝ) : ℂ) -
        misfitOf M fwd (ulaStep q.2.1 (gradVec M.par.lmda fwd grad prox) q.1 q.2.2)) -
      logtransVec q.2.1 (gradVec M.par.lmda fwd grad prox) q.1 (ulaStep q.2.1 (gradVec M.par.lmda fwd grad prox) q.1 q.2.2) -
      (((-M.par.mu * pri q.1 : ℝ) : ℂ) - misfitOf M fwd q.1) := rfl
  rw [e]
  have hδ : Measurable fun q : (Fin p → ℂ) × ℝ × (Fin p → ℂ) => q.2.1 := measurable_fst.comp measurable_snd
  have t1 := hl.comp (hδ.prodMk (hy.prodMk measurable_fst))
  have t2 := hl.comp (hδ.prodMk (measurable_fst.prodMk hy))
  have t3 := Complex.measurable_ofReal.comp ((hq.comp hy).const_mul (-M.par.mu))
  have t4 := hm.comp hy
  have hx : Measurable fun q : (Fin p → ℂ) × ℝ × (Fin p → ℂ) => q.1 := measurable_fst
  have t5 := Complex.measurable_ofReal.comp ((hq.comp hx).const_mul (-M.par.mu))
  have t6 := hm.comp hx
  exact ((t1.add (t3.sub t4)).sub t2).sub (t5.sub t6)

theorem propAlpha_continuous (hf : Continuous fwd) (hg : Continuous grad) (hp : Continuous prox) (hq : Continuous pri) :
    Continuous (propAlpha M fwd grad prox pri) := by
  have hG : Continuous (gradVec M.par.lmda fwd grad prox) := by
    unfold gradVec
    refine continuous_pi fun i => ?_
    have h1 : Continuous fun x => prox x i := (continuous_apply i).comp hp
    have h2 : Continuous fun x => grad (fwd x) i := (continuous_apply i).comp (hg.comp hf)
    fun_prop
  have hy : Continuous fun q : (Fin p → ℂ) × ℝ × (Fin p → ℂ) => ulaStep q.2.1 (gradVec M.par.lmda fwd grad prox) q.1 q.2.2 := by
    unfold ulaStep
    refine continuous_pi fun i => ?_
    have h1 : Continuous fun q : (Fin p → ℂ) × ℝ × (Fin p → ℂ) => gradVec M.par.lmda fwd grad prox q.1 i :=
      (continuous_apply i).comp (hG.comp continuous_fst)
    fun_prop
  have hm : Continuous (misfitOf M fwd) := by
    unfold misfitOf Spec.inner Matrix.mulVec dotProduct
    have h1 : ∀ i, Continuous fun x => fwd x i := fun i => (continuous_apply i).comp hf
    simp only [Pi.sub_apply]
    refine continuous_finsetSum _ fun i _ => ?_
    refine Continuous.mul (continuous_star.comp (continuous_const.sub (h1 i))) ?_
    exact continuous_finsetSum _ fun j _ => continuous_const.mul (continuous_const.sub (h1 j))
  have hl : Continuous fun q : ℝ × (Fin p → ℂ) × (Fin p → ℂ) => logtransVec q.1 (gradVec M.par.lmda fwd grad prox) q.2.1 q.2.2 := by
    unfold logtransVec
    have h1 : ∀ i, Continuous fun q : ℝ × (Fin p → ℂ) × (Fin p → ℂ) => gradVec M.par.lmda fwd grad prox q.2.1 i :=
      fun i => (continuous_apply i).comp (hG.comp (continuous_fst.comp continuous_snd))
    fun_prop
  have e : propAlpha M fwd grad prox pri = fun q => logtransVec q.2.1 (gradVec M.par.lmda fwd grad prox)
        (ulaStep q.2.1 (gradVec M.par.lmda fwd grad prox) q.1 q.2.2) q.1 +
      (((-M.par.mu * pri (ulaStep q.2.1 (gradVec M.par.lmda fwd grad prox) q.1 q.2.2) : ℝ) : ℂ) -
        misfitOf M fwd (ulaStep q.2.1 (gradVec M.par.lmda fwd grad prox) q.1 q.2.2)) -
      logtransVec q.2.1 (gradVec M.par.lmda fwd grad prox) q.1 (ulaStep q.2.1 (gradVec M.par.lmda fwd grad prox) q.1 q.2.2) -
      (((-M.par.mu * pri q.1 : ℝ) : ℂ) - misfitOf M fwd q.1) := rfl
  rw [e]
  have hδ : Continuous fun q : (Fin p → ℂ) × ℝ × (Fin p → ℂ) => q.2.1 := continuous_fst.comp continuous_snd
  have t1 := hl.comp (hδ.prodMk (hy.prodMk continuous_fst))
  have t2 := hl.comp (hδ.prodMk (continuous_fst.prodMk hy))
  have t3 := Complex.continuous_ofReal.comp (continuous_const (y := -M.par.mu) |>.mul (hq.comp hy))
  have t4 := hm.comp hy
  have t5 := Complex.continuous_ofReal.comp (continuous_const (y := -M.par.mu) |>.mul (hq.comp (continuous_fst (X := Fin p → ℂ) (Y := ℝ × (Fin p → ℂ)))))
  have t6 := hm.comp (continuous_fst (X := Fin p → ℂ) (Y := ℝ × (Fin p → ℂ)))
  exact ((t1.add (t3.sub t4)).sub t2).sub (t5.sub t6)

theorem acceptTest_measurable {X : Type} [MeasurableSpace X] {u : X → ℝ} {a : X → ℂ} (hu : Measurable u) (ha : Measurable a) :
    MeasurableSet {q | acceptTest (u q) (a q)} := by
  have e : {q | acceptTest (u q) (a q)} = {q | u q = 0} ∪ ({q | Real.log (u q) < (a q).re} ∪
      ({q | Real.log (u q) = (a q).re} ∩ {q | 0 < (a q).im})) := by
    ext q; rfl
  rw [e]
  have hl := Real.measurable_log.comp hu
  have hre := Complex.measurable_re.comp ha
  have him := Complex.measurable_im.comp ha
  exact (hu (measurableSet_singleton 0)).union ((measurableSet_lt hl hre).union
    ((measurableSet_eq_fun hl hre).inter (measurableSet_lt measurable_const him)))

variable (M fwd grad prox pri)

/-- The state (sample, step size, iteration number) and the draws of an iteration with an acceptance. -/
def malaAccepts : Set (((Fin p → ℂ) × ℝ × ℕ) × ((Fin p → ℂ) × ℝ)) :=
  {q | acceptTest q.2.2 (propAlpha M fwd grad prox pri (q.1.1, q.1.2.1, q.2.1))}

/-- `_tune_delta` after an acceptance (`a = 1`) or a rejection (`a = 0`). -/
noncomputable def tuneVec (δ : ℝ) (i a : ℕ) : ℝ :=
  min (max (δ * (1 + ((a : ℝ) - 1 / 2) / ((i : ℝ) + 1) ^ (3 / 4 : ℝ))) (M.par.lmda * 1e-8)) (M.par.lmda / 2)

open Classical in
/-- One iteration. -/
noncomputable def malaNext (tune : Bool) (s : (Fin p → ℂ) × ℝ × ℕ) (v : (Fin p → ℂ) × ℝ) : (Fin p → ℂ) × ℝ × ℕ :=
  if (s, v) ∈ malaAccepts M fwd grad prox pri then
    (ulaStep s.2.1 (gradVec M.par.lmda fwd grad prox) s.1 v.1, if tune then tuneVec M s.2.1 s.2.2 1 else s.2.1, s.2.2 + 1)
  else (s.1, if tune then tuneVec M s.2.1 s.2.2 0 else s.2.1, s.2.2 + 1)

variable {M fwd grad prox pri}

open Classical in
/-- The loop of PxMALA follows the chain: the cached sample and the acceptances. -/
theorem mala_follows_cur (R : Rng) (tot : Total M p fwd grad prox pri) (tune : Bool) (A0 : Arrays) (delta : ℝ) (x0 : Fin p → ℂ) (r : R.σ)
    (s0 : MalaSt R) (h0 : s0 = ⟨0, 0, cacheOf M fwd grad prox pri x0, r, delta, [], [delta], []⟩) (m : ℕ) (s : MalaSt R)
    (hr : Reach (malaCond M) (malaBody M R tune A0) s0 m s) :
    s.cur = cacheOf M fwd grad prox pri (fwState (malaNext M fwd grad prox pri tune) (x0, delta, 0) (malaDraws R M.par.complex p r) m).1 ∧
    s.acc = (List.range m).map fun k => if (fwState (malaNext M fwd grad prox pri tune) (x0, delta, 0)
      (malaDraws R M.par.complex p r) k, malaDraws R M.par.complex p r k) ∈ malaAccepts M fwd grad prox pri then 1 else 0 := by
  set f := malaNext M fwd grad prox pri tune with hf
  set S := fwState f (x0, delta, 0) (malaDraws R M.par.complex p r) with hS
  have hSs : ∀ k, S (k + 1) = f (S k) (malaDraws R M.par.complex p r k) := fun k => rfl
  have hi : ∀ k, (S k).2.2 = k := by
    intro k
    induction k with
    | zero => rfl
    | succ k ih =>
      rw [hSs, hf]
      unfold malaNext
      split <;> simp [ih]
  have key := hr.invariant (fun m s => s.i = m ∧ s.cur = cacheOf M fwd grad prox pri (S m).1 ∧ s.delta = (S m).2.1 ∧
      s.rng = malaRngSeq R M.par.complex p r m ∧
      s.acc = (List.range m).map fun k => if (S k, malaDraws R M.par.complex p r k) ∈ malaAccepts M fwd grad prox pri then 1 else 0)
    (by subst h0; exact ⟨rfl, rfl, rfl, rfl, rfl⟩) ?_
  · exact ⟨key.2.1, key.2.2.2.2⟩
  · rintro k s s' ⟨e1, e2, e3, e4, e5⟩ - hb
    obtain ⟨hstep, -, -⟩ := malaBody_ok M R tune A0 s s' hb
    have hprop := propose_vec M R tot s.delta s.rng (S k).1
    have hal := logAlpha_vec M (fwd := fwd) (grad := grad) (prox := prox) (pri := pri) s.delta (S k).1
      (ulaStep s.delta (gradVec M.par.lmda fwd grad prox) (S k).1 (drawVec R R.randn M.par.complex s.rng p).1)
    unfold coreStep at hstep
    simp only [MalaSt.core, e2] at hstep
    rw [hprop] at hstep
    simp only [bind, Except.bind] at hstep
    rw [hal] at hstep
    simp only at hstep
    have hiff : acceptTest (R.rand (drawVec R R.randn M.par.complex s.rng p).2).1
        (logtransVec s.delta (gradVec M.par.lmda fwd grad prox)
          (ulaStep s.delta (gradVec M.par.lmda fwd grad prox) (S k).1 (drawVec R R.randn M.par.complex s.rng p).1) (S k).1 +
          (cacheOf M fwd grad prox pri (ulaStep s.delta (gradVec M.par.lmda fwd grad prox) (S k).1
            (drawVec R R.randn M.par.complex s.rng p).1)).logpi -
          logtransVec s.delta (gradVec M.par.lmda fwd grad prox) (S k).1
            (ulaStep s.delta (gradVec M.par.lmda fwd grad prox) (S k).1 (drawVec R R.randn M.par.complex s.rng p).1) -
          (cacheOf M fwd grad prox pri (S k).1).logpi) ↔
        (S k, malaDraws R M.par.complex p r k) ∈ malaAccepts M fwd grad prox pri := by
      rw [e3, e4]
      rfl
    simp only [hiff] at hstep
    have hlen : s.acc.length = k := by rw [e5]; simp
    have hget : ∀ a : ℕ, pyGet (s.acc ++ [a]) (s.i : ℤ) = .ok a := fun a => by
      apply pyGet_nat
      rw [e1, ← hlen, List.getElem?_concat_length]
    have htd : ∀ a : ℕ, tuneDelta M s.delta (s.acc ++ [a]) s.i = .ok (tuneVec M (S k).2.1 (S k).2.2 a) := fun a => by
      unfold tuneDelta
      rw [hget, hi, e3, e1]
      rfl
    simp only [htd] at hstep
    have hrng : (R.rand (drawVec R R.randn M.par.complex s.rng p).2).2 = malaRngSeq R M.par.complex p r (k + 1) := by
      rw [e4]; rfl
    have hdraw : (drawVec R R.randn M.par.complex s.rng p).1 = (malaDraws R M.par.complex p r k).1 := by
      rw [e4]; rfl
    rw [hrng, hdraw, e3] at hstep
    rw [hSs, hf]
    unfold malaNext
    rw [List.range_succ, List.map_append, ← e5]
    by_cases hm : (S k, malaDraws R M.par.complex p r k) ∈ malaAccepts M fwd grad prox pri
    · simp only [if_pos hm] at hstep ⊢
      cases tune
      · simp only [Bool.false_eq_true, if_false, Except.ok.injEq, Core.mk.injEq] at hstep ⊢
        obtain ⟨f1, f2, f3, f4, f5, -⟩ := hstep
        exact ⟨by omega, f2.symm, f4.symm, f3.symm, by simp [← f5, hm]⟩
      · simp only [if_true, Except.ok.injEq, Core.mk.injEq] at hstep ⊢
        obtain ⟨f1, f2, f3, f4, f5, -⟩ := hstep
        exact ⟨by omega, f2.symm, f4.symm, f3.symm, by simp [← f5, hm]⟩
    · simp only [if_neg hm] at hstep ⊢
      cases tune
      · simp only [Bool.false_eq_true, if_false, Except.ok.injEq, Core.mk.injEq] at hstep ⊢
        obtain ⟨f1, f2, f3, f4, f5, -⟩ := hstep
        exact ⟨by omega, f2.symm, f4.symm, f3.symm, by simp [← f5, hm]⟩
      · simp only [if_true, Except.ok.injEq, Core.mk.injEq] at hstep ⊢
        obtain ⟨f1, f2, f3, f4, f5, -⟩ := hstep
        exact ⟨by omega, f2.symm, f4.symm, f3.symm, by simp [← f5, hm]⟩

open Classical in
/-- The loop of PxMALA follows the chain. -/
theorem mala_follows (R : Rng) (tot : Total M p fwd grad prox pri) (tune : Bool) (A0 : Arrays) (delta : ℝ) (x0 : Fin p → ℂ) (r : R.σ)
    (s0 : MalaSt R) (h0 : s0 = ⟨0, 0, cacheOf M fwd grad prox pri x0, r, delta, [], [delta], []⟩) (m : ℕ) (s : MalaSt R)
    (hr : Reach (malaCond M) (malaBody M R tune A0) s0 m s) :
    s.acc = (List.range m).map fun k => if (fwState (malaNext M fwd grad prox pri tune) (x0, delta, 0)
      (malaDraws R M.par.complex p r) k, malaDraws R M.par.complex p r k) ∈ malaAccepts M fwd grad prox pri then 1 else 0 :=
  (mala_follows_cur R tot tune A0 delta x0 r s0 h0 m s hr).2

theorem filter_range_unbounded (Q : ℕ → Prop) [DecidablePred Q] (h : ∀ N, ∃ k, N ≤ k ∧ Q k) (m : ℕ) :
    ∃ N, m ≤ ((List.range N).filter fun k => decide (Q k)).length := by
  induction m with
  | zero => exact ⟨0, by simp⟩
  | succ m ih =>
    obtain ⟨N, hN⟩ := ih
    obtain ⟨k, hk, hQ⟩ := h N
    refine ⟨k + 1, ?_⟩
    rw [List.range_succ, List.filter_append, List.length_append]
    have h1 : ((List.range N).filter fun k => decide (Q k)).length ≤ ((List.range k).filter fun k => decide (Q k)).length := by
      obtain ⟨d, rfl⟩ := Nat.exists_eq_add_of_le hk
      rw [List.range_add, List.filter_append, List.length_append]
      omega
    have h2 : ((List.filter (fun k => decide (Q k)) [k])).length = 1 := by simp [hQ]
    omega

/-- If acceptances on the thinning grid happen infinitely often, the run returns. -/
theorem mala_returns (R : Rng) (tot : Total M p fwd grad prox pri) (tune : Bool) (A0 : Arrays) (hA : A0.Shaped M.par.nsamples)
    (b g : ℕ) (hb : M.par.nburn = b) (hg : M.par.ngap = g) (delta : ℝ) (r r1 : R.σ) (sp : StartPoint) (x0 : Fin p → ℂ)
    (hstart : initialSample M R r sp = .ok (List.ofFn x0, List.ofFn (fwd x0), r1))
    (hio : ∀ N, ∃ k, N ≤ k ∧ b ≤ k ∧ max g 1 ∣ k - b ∧ (fwState (malaNext M fwd grad prox pri tune) (x0, delta, 0)
      (malaDraws R M.par.complex p r1) k, malaDraws R M.par.complex p r1 k) ∈ malaAccepts M fwd grad prox pri) :
    ∃ fuel st, malaRun M R tune delta A0 r sp fuel = .ok (some st) := by
  classical
  obtain ⟨-, h2, h3⟩ := C54_stops_partial M R tune delta A0 hA b g hb hg r sp
  obtain ⟨N, hN⟩ := filter_range_unbounded _ hio M.par.nsamples
  rcases h3 p fwd grad prox pri x0 r1 tot hstart N with h | ⟨st, h⟩
  · exfalso
    obtain ⟨s, hr, hl, hlt⟩ := h2 N _ (init_vec M R tot delta r r1 sp x0 hstart) h
    have hacc := mala_follows R tot tune A0 delta x0 r1 _ rfl N s hr
    unfold acceptedThinned at hlt
    rw [hl] at hlt
    have e : ((List.range N).filter fun i => decide (s.acc[i]? = some 1 ∧ b ≤ i ∧ max g 1 ∣ i - b)) =
        (List.range N).filter fun k => decide (b ≤ k ∧ max g 1 ∣ k - b ∧ (fwState (malaNext M fwd grad prox pri tune) (x0, delta, 0)
          (malaDraws R M.par.complex p r1) k, malaDraws R M.par.complex p r1 k) ∈ malaAccepts M fwd grad prox pri) := by
      refine List.filter_congr fun k hk => ?_
      have hk' := List.mem_range.mp hk
      rw [hacc, List.getElem?_map, List.getElem?_range hk']
      simp only [Option.map_some, Option.some.injEq, decide_eq_decide]
      constructor
      · rintro ⟨a, b, c⟩
        refine ⟨b, c, ?_⟩
        by_contra hn
        rw [if_neg hn] at a
        omega
      · rintro ⟨a, b, c⟩
        exact ⟨if_pos c, a, b⟩
    rw [e] at hlt
    omega
  · exact ⟨N, st, h⟩

end

end Pxmcmc
