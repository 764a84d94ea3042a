import Verif.Model.Reorder
import Mathlib.Data.Fintype.EquivFin
import Mathlib.Data.List.FinRange
import Mathlib.Data.List.Rotate

/-!
# Maps on the sphere with another zero meridian

Not code of the repository: the definitions say what the flattened arrays that the code works on (MW maps, utils.py:278-283; wavelet
coefficients, one map per scale, prior.py:77-78) are when longitudes are counted from another meridian.
-/

namespace Pxmcmc

/-- The array read ring by ring (`rings`: number of pixels and shift of each ring), every ring started at another pixel.  Entries after the
last ring stay where they are. -/
def turnRings {α : Type _} : List (ℕ × ℕ) → List α → List α
  | [], l => l
  | (w, k) :: rs, l => (l.take w).rotate k ++ turnRings rs (l.drop w)

/-- The rings of a sequence of MW maps, given by bandlimit `b` and shift: `b` rings of `2b - 1` pixels for each map. -/
def mapRings (maps : List (ℕ × ℕ)) : List (ℕ × ℕ) := maps.flatMap fun m => List.replicate m.1 (2 * m.1 - 1, m.2)

theorem turn_perm {α : Type _} : ∀ (rs : List (ℕ × ℕ)) (l : List α), (turnRings rs l).Perm l
  | [], l => .refl l
  | (w, k) :: rs, l => by
    have h := (List.rotate_perm (l.take w) k).append (turn_perm rs (l.drop w))
    rwa [List.take_append_drop] at h

theorem turn_length {α : Type _} (rs : List (ℕ × ℕ)) (l : List α) : (turnRings rs l).length = l.length := (turn_perm rs l).length_eq

theorem turn_map {α β : Type _} (f : α → β) : ∀ (rs : List (ℕ × ℕ)) (l : List α), turnRings rs (l.map f) = (turnRings rs l).map f
  | [], _ => rfl
  | (w, k) :: rs, l => by
    simp only [turnRings, List.map_append, List.map_rotate, ← List.map_take, ← List.map_drop, turn_map f rs]

/-- The same renumbering as permutations of the positions. -/
noncomputable def turnOrder (rs : List (ℕ × ℕ)) : Order := fun N =>
  Equiv.ofBijective (fun i : Fin N => (turnRings rs (List.finRange N))[(i : ℕ)]'(by rw [turn_length]; simp))
    (Finite.injective_iff_bijective.1 fun i j h => by
      have hn : (turnRings rs (List.finRange N)).Nodup := (turn_perm rs _).nodup_iff.2 (List.nodup_finRange N)
      exact Fin.ext (hn.getElem_inj_iff.1 h))

theorem reord_turn {α : Type _} (rs : List (ℕ × ℕ)) (l : List α) : reord (turnOrder rs) l = turnRings rs l := by
  have e : turnRings rs l = (turnRings rs (List.finRange l.length)).map fun i => l[i] := by
    rw [← turn_map]
    congr 1
    exact List.ext_getElem (by simp) fun i h1 h2 => by simp
  rw [e]
  refine List.ext_getElem (by simp [reord, turn_length]) fun i h1 h2 => ?_
  simp [reord, turnOrder]

end Pxmcmc
