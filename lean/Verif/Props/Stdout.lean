import Verif.Model.Stdout
import Mathlib.Tactic.Linarith

/-!
# C70: `suppress_stdout`
-/

namespace Pxmcmc

/-- C70: whatever the body does, including printing, replacing `sys.stdout`, raising, and nested use, and also if the null device
cannot be opened, `sys.stdout` is afterwards the object it was before. -/
theorem C70_restored (openFails : Bool) (p : Prog) (w : Streams) : ((Prog.suppress openFails p).run w).1.stdout = w.stdout := by
  cases openFails <;> simp [Prog.run]

/-- C70: exceptions of the body are passed on, and there are no others except that of opening the null device. -/
theorem C70_exception (p : Prog) (w : Streams) :
    ((Prog.suppress false p).run w).2 = (p.run { w with next := w.next + 1, stdout := w.next }).2 ∧
    (Prog.suppress true p).run w = (w, some (.Other "OSError")) := by
  simp [Prog.run]

/-- Programs that do not assign `sys.stdout` themselves. -/
def Prog.NoSet : Prog → Prop
  | .setStdout _ => False
  | .seq p q => p.NoSet ∧ q.NoSet
  | .tryExcept p q => p.NoSet ∧ q.NoSet
  | .suppress _ p => p.NoSet
  | _ => True

/-- A program that does not assign `sys.stdout` leaves it as it was, writes nothing to other existing streams, and closes none
of the existing ones. -/
theorem NoSet_run (p : Prog) : p.NoSet → ∀ w : Streams, w.stdout < w.next →
    (p.run w).1.stdout = w.stdout ∧ w.next ≤ (p.run w).1.next ∧
    (∀ i, i < w.next → i ≠ w.stdout → (p.run w).1.out i = w.out i) ∧ (∀ i, i < w.next → (p.run w).1.closed i = w.closed i) := by
  induction p with
  | skip => intro _ w _; simp [Prog.run]
  | print s =>
    intro _ w _
    simp only [Prog.run]
    split_ifs with h
    · simp
    · refine ⟨rfl, le_rfl, fun i _ hi => by simp [hi], fun i _ => rfl⟩
  | setStdout i => intro h; exact h.elim
  | raise e => intro _ w _; simp [Prog.run]
  | seq p q ihp ihq =>
    intro h w hw
    obtain ⟨a1, a2, a3, a4⟩ := ihp h.1 w hw
    simp only [Prog.run]
    rcases hr : p.run w with ⟨w', _ | e⟩
    · rw [hr] at a1 a2 a3 a4
      simp only at a1 a2 a3 a4 ⊢
      obtain ⟨b1, b2, b3, b4⟩ := ihq h.2 w' (by omega)
      refine ⟨by rw [b1, a1], by omega, fun i hi hne => ?_, fun i hi => ?_⟩
      · rw [b3 i (by omega) (by rwa [a1]), a3 i hi hne]
      · rw [b4 i (by omega), a4 i hi]
    · rw [hr] at a1 a2 a3 a4
      exact ⟨a1, a2, a3, a4⟩
  | tryExcept p q ihp ihq =>
    intro h w hw
    obtain ⟨a1, a2, a3, a4⟩ := ihp h.1 w hw
    simp only [Prog.run]
    rcases hr : p.run w with ⟨w', _ | e⟩
    · rw [hr] at a1 a2 a3 a4
      exact ⟨a1, a2, a3, a4⟩
    · rw [hr] at a1 a2 a3 a4
      simp only at a1 a2 a3 a4 ⊢
      obtain ⟨b1, b2, b3, b4⟩ := ihq h.2 w' (by omega)
      refine ⟨by rw [b1, a1], by omega, fun i hi hne => ?_, fun i hi => ?_⟩
      · rw [b3 i (by omega) (by rwa [a1]), a3 i hi hne]
      · rw [b4 i (by omega), a4 i hi]
  | suppress f p ih =>
    intro h w hw
    cases f with
    | true => simp [Prog.run]
    | false =>
      obtain ⟨a1, a2, a3, a4⟩ := ih h { w with next := w.next + 1, stdout := w.next } (by simp)
      simp only at a1 a2 a3 a4
      simp only [Prog.run, Bool.false_eq_true, if_false]
      refine ⟨trivial, by omega, fun i hi _ => a3 i (by omega) (by omega), fun i hi => ?_⟩
      rw [if_neg (by omega), a4 i (by omega)]

/-- C70: nothing that the body prints reaches any stream that existed before (in particular the old `sys.stdout`), also in
nested use and when it raises; the existing streams stay open. -/
theorem C70_silent (p : Prog) (hp : p.NoSet) (w : Streams) (i : ℕ) (hi : i < w.next) :
    ((Prog.suppress false p).run w).1.out i = w.out i ∧ ((Prog.suppress false p).run w).1.closed i = w.closed i := by
  obtain ⟨a1, a2, a3, a4⟩ := NoSet_run p hp { w with next := w.next + 1, stdout := w.next } (by simp)
  simp only at a1 a2 a3 a4
  simp only [Prog.run, Bool.false_eq_true, if_false]
  exact ⟨a3 i (by omega) (by omega), by rw [if_neg (by omega), a4 i (by omega)]⟩

/-- No stream is reopened, and the streams that a program opens are closed when it is done, whether it raises or not. -/
theorem run_closed (p : Prog) : ∀ w : Streams, w.next ≤ (p.run w).1.next ∧ (∀ i, w.closed i = true → (p.run w).1.closed i = true) ∧
    ∀ i, w.next ≤ i → i < (p.run w).1.next → (p.run w).1.closed i = true := by
  have two : ∀ w w' w'' : Streams, (w.next ≤ w'.next ∧ (∀ i, w.closed i = true → w'.closed i = true) ∧
      ∀ i, w.next ≤ i → i < w'.next → w'.closed i = true) → (w'.next ≤ w''.next ∧ (∀ i, w'.closed i = true → w''.closed i = true) ∧
      ∀ i, w'.next ≤ i → i < w''.next → w''.closed i = true) → w.next ≤ w''.next ∧ (∀ i, w.closed i = true → w''.closed i = true) ∧
      ∀ i, w.next ≤ i → i < w''.next → w''.closed i = true := by
    rintro w w' w'' ⟨a1, a2, a3⟩ ⟨b1, b2, b3⟩
    refine ⟨le_trans a1 b1, fun i hi => b2 i (a2 i hi), fun i h1 h2 => ?_⟩
    rcases lt_or_ge i w'.next with h | h
    · exact b2 i (a3 i h1 h)
    · exact b3 i h h2
  induction p with
  | skip => intro w; exact ⟨le_rfl, fun _ h => h, fun i h1 h2 => absurd h2 (by simp only [Prog.run]; omega)⟩
  | print s =>
    intro w
    simp only [Prog.run]
    split_ifs <;> exact ⟨le_rfl, fun _ h => h, fun i h1 h2 => absurd h2 (by simp only; omega)⟩
  | setStdout i => intro w; exact ⟨le_rfl, fun _ h => h, fun i h1 h2 => absurd h2 (by simp only [Prog.run]; omega)⟩
  | raise e => intro w; exact ⟨le_rfl, fun _ h => h, fun i h1 h2 => absurd h2 (by simp only [Prog.run]; omega)⟩
  | seq p q ihp ihq =>
    intro w
    have a := ihp w
    simp only [Prog.run]
    rcases hr : p.run w with ⟨w', _ | e⟩
    · rw [hr] at a
      exact two _ _ _ a (ihq w')
    · rw [hr] at a
      exact a
  | tryExcept p q ihp ihq =>
    intro w
    have a := ihp w
    simp only [Prog.run]
    rcases hr : p.run w with ⟨w', _ | e⟩
    · rw [hr] at a
      exact a
    · rw [hr] at a
      exact two _ _ _ a (ihq w')
  | suppress f p ih =>
    intro w
    cases f with
    | true => exact ⟨le_rfl, fun _ h => h, fun i h1 h2 => absurd h2 (by simp only [Prog.run, if_true]; omega)⟩
    | false =>
      obtain ⟨a1, a2, a3⟩ := ih { w with next := w.next + 1, stdout := w.next }
      simp only at a1 a2 a3
      simp only [Prog.run, Bool.false_eq_true, if_false]
      refine ⟨by omega, fun i hi => ?_, fun i h1 h2 => ?_⟩
      · split_ifs
        · rfl
        · exact a2 i hi
      · split_ifs with h
        · rfl
        · exact a3 i (by omega) h2

/-- C70: whatever the body does, every stream that has been opened on the way, by nested use too, is closed afterwards. -/
theorem C70_closed (openFails : Bool) (p : Prog) (w : Streams) (i : ℕ) (h1 : w.next ≤ i) (h2 : i < ((Prog.suppress openFails p).run w).1.next) :
    ((Prog.suppress openFails p).run w).1.closed i = true :=
  (run_closed _ w).2.2 i h1 h2

/-- C70: `map2alm` and `alm2map` return healpy's result or exception and leave `sys.stdout` as it was. -/
theorem C70_healpy {α : Type} (openFails : Bool) (call : Prog) (result : α) (w : Streams) :
    (suppressed openFails call result w).1.stdout = w.stdout ∧
    (openFails = false → ((suppressed openFails call result w).2 = .ok result ↔
      (call.run { w with next := w.next + 1, stdout := w.next }).2 = none)) := by
  have h := C70_restored openFails call w
  unfold suppressed
  rcases hr : (Prog.suppress openFails call).run w with ⟨w', _ | e⟩
  · rw [hr] at h
    refine ⟨h, ?_⟩
    rintro rfl
    have := (C70_exception call w).1
    rw [hr] at this
    simp [← this]
  · rw [hr] at h
    refine ⟨h, ?_⟩
    rintro rfl
    have := (C70_exception call w).1
    rw [hr] at this
    simp [← this]

/-- C70 is not vacuous: a body that prints, uses `suppress_stdout` itself around a failing part, catches that, prints again
and raises. -/
example : (Prog.seq (.print "a") (.seq (.tryExcept (.suppress false (.seq (.print "b") (.raise .ValueError))) (.print "c"))
    (.raise .KeyError))).NoSet ∧
    ((Prog.suppress false (.seq (.print "a") (.seq (.tryExcept (.suppress false (.seq (.print "b") (.raise .ValueError)))
      (.print "c")) (.raise .KeyError)))).run ⟨0, 1, fun _ => [], fun _ => false⟩).2 = some .KeyError ∧
    ((Prog.suppress false (.seq (.print "a") (.seq (.tryExcept (.suppress false (.seq (.print "b") (.raise .ValueError)))
      (.print "c")) (.raise .KeyError)))).run ⟨0, 1, fun _ => [], fun _ => false⟩).1.next = 3 := by
  refine ⟨?_, ?_, ?_⟩
  · simp [Prog.NoSet]
  · simp [Prog.run]
  · simp [Prog.run]

end Pxmcmc
