import Mathlib.Data.List.Basic
import Mathlib.Data.Int.Basic
import Mathlib.Order.Basic

/-!
# Python / numpy fragments shared by the model

Exceptions are values (`Except PyErr`).  One-dimensional arrays are `List`s.
-/

namespace Pxmcmc

/-- The Python exceptions that the modelled code (or the numpy/scipy calls in it) can raise. -/
inductive PyErr where
  | ValueError | TypeError | IndexError | AttributeError | ZeroDivisionError
  | NotImplementedError | AssertionError | KeyError
  | Other (tag : String)
  deriving DecidableEq, Repr

/-- A Python computation that may raise. -/
abbrev Py (α : Type _) := Except PyErr α

/-- Python's normalisation of a slice bound `k` on a sequence of length `len`
(negative bounds count from the end, everything is clamped to `[0,len]`). -/
def sliceBound (len : ℕ) (k : ℤ) : ℕ :=
  if k < 0 then ((len : ℤ) + k).toNat else min k.toNat len

/-- `l[:k]` -/
def sliceTo {α : Type _} (l : List α) (k : ℤ) : List α := l.take (sliceBound l.length k)

/-- `l[k:]` -/
def sliceFrom {α : Type _} (l : List α) (k : ℤ) : List α := l.drop (sliceBound l.length k)

/-- `l[a:b]` for `0 ≤ a` (the only case that occurs). -/
def slice {α : Type _} (l : List α) (a b : ℕ) : List α := (l.take b).drop a

/-- `l[k]` with Python's negative indexing; out of range raises `IndexError`. -/
def pyGet {α : Type _} (l : List α) (k : ℤ) : Py α :=
  let i : ℤ := if k < 0 then (l.length : ℤ) + k else k
  if 0 ≤ i then
    match l[i.toNat]? with
    | some x => .ok x
    | none => .error .IndexError
  else .error .IndexError

/-- numpy broadcasting of two one-dimensional arrays: equal lengths are paired, a length-one array is
repeated, anything else raises `ValueError`. -/
def bcast {α β : Type _} (x : List α) (y : List β) : Py (List (α × β)) :=
  if x.length = y.length then .ok (x.zip y)
  else match x, y with
    | x, [b] => .ok (x.map fun a => (a, b))
    | [a], y => .ok (y.map fun b => (a, b))
    | _, _ => .error .ValueError

/-- A `while cond: body` loop, cut off after `fuel` iterations (`none` = still running).
`body` may raise. -/
def whileFuel {σ : Type _} (cond : σ → Bool) (body : σ → Py σ) : ℕ → σ → Py (Option σ)
  | 0, s => if cond s then .ok none else .ok (some s)
  | fuel + 1, s => if cond s then
      match body s with
      | .ok s' => whileFuel cond body fuel s'
      | .error e => .error e
    else .ok (some s)

/-- The loop terminates normally in state `r` (for some, hence all larger, fuel). -/
def LoopReturns {σ : Type _} (cond : σ → Bool) (body : σ → Py σ) (s r : σ) : Prop :=
  ∃ fuel, whileFuel cond body fuel s = .ok (some r)

end Pxmcmc
