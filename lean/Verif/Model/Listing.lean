import Verif.Model.Construct

/-!
# The same observations listed differently

Not code of the repository: the definitions say what the arguments of `ForwardOperator.__init__` (`forward.py:21-34`) and the recorded
results are when the observations are listed in another order or several times.  `φ j` is the observation that stands at position `j` of
the new list.
-/

namespace Pxmcmc
variable {n n' : ℕ}

/-- How often observation `i` occurs in the new list. -/
def copies (φ : Fin n' → Fin n) (i : Fin n) : ℕ := (Finset.univ.filter fun j => φ j = i).card

/-- An array with one entry per observation, for the new list. -/
def relist (φ : Fin n' → Fin n) (Y : List ℂ) : List ℂ :=
  if h : Y.length = n then List.ofFn fun j => Y[φ j] else Y

/-- The data (`data`, forward.py:21). -/
def DataVec.relist (φ : Fin n' → Fin n) (data : DataVec n) : DataVec n' := ⟨data.cplx, fun j => data.vals (φ j)⟩

/-- The standard deviations (`sig_d`, forward.py:21): those of an observation that occurs `k` times are `√k` times as large. -/
noncomputable def sigmas (φ : Fin n' → Fin n) (σ : Fin n → ℂ) (j : Fin n') : ℂ := ((√(copies φ (φ j) : ℝ) : ℝ) : ℂ) * σ (φ j)

/-- The measurement operator `o'` predicts the observations of the new list, with the adjoint that belongs to it. -/
structure Relisted (φ : Fin n' → Fin n) (o o' : OpPair) : Prop where
  op : ∀ X, o'.op X = (o.op X).map (relist φ)
  adj : ∀ v : Fin n' → ℂ, o'.adj (List.ofFn v) = o.adj (List.ofFn fun i => ∑ j ∈ Finset.univ.filter (fun j => φ j = i), v j)
  len : ∀ X Y, o.op X = .ok Y → Y.length = n

/-- The recorded results: only the predictions have one entry per observation. -/
def Arrays.mapPreds (q : List ℂ → List ℂ) (A : Arrays) : Arrays := { A with preds := A.preds.map fun l => l.map q }

/-- One effect of the run. -/
def Event.mapPreds (q : List ℂ → List ℂ) : Event → Event
  | .preds j row => .preds j (q row)
  | e => e

/-- The current sample. -/
def Cur.mapPreds {R : Rng} (q : List ℂ → List ℂ) (x : Cur R) : Cur R := ⟨x.X, q x.preds, x.rng⟩

/-- The loop variables of `MYULA.run`, `SKROCK.run`. -/
def St.mapPreds {R : Rng} (q : List ℂ → List ℂ) (st : St R) : St R := ⟨st.i, st.j, st.cur.mapPreds q, st.ev.map (Event.mapPreds q)⟩

/-- The cached quantities of PxMALA. -/
def Cache.mapPreds (q : List ℂ → List ℂ) (x : Cache) : Cache := { x with preds := q x.preds }

/-- The loop variables of `PxMALA.run`. -/
def MalaSt.mapPreds {R : Rng} (q : List ℂ → List ℂ) (st : MalaSt R) : MalaSt R :=
  { st with cur := st.cur.mapPreds q, ev := st.ev.map (Event.mapPreds q) }

/-! ## Observations that do not depend on the parameters -/

/-- The data followed by further data. -/
def DataVec.extend {m : ℕ} (data : DataVec n) (d₂ : Fin m → ℂ) : DataVec (n + m) := ⟨data.cplx, Fin.append data.vals d₂⟩

/-- The measurement operator `o'` predicts the same as `o`, followed by the numbers `e` whatever the parameters are; accordingly its adjoint
ignores the further entries. -/
structure Extended {m : ℕ} (n : ℕ) (e : Fin m → ℂ) (o o' : OpPair) : Prop where
  op : ∀ X, o'.op X = (o.op X).map fun Y => Y ++ List.ofFn e
  adj : ∀ (v : Fin n → ℂ) (u : Fin m → ℂ), o'.adj (List.ofFn (Fin.append v u)) = o.adj (List.ofFn v)
  len : ∀ X Y, o.op X = .ok Y → Y.length = n

/-- The cached quantities of PxMALA when every misfit is larger by `c`. -/
def Cache.shift (q : List ℂ → List ℂ) (c : ℂ) (x : Cache) : Cache := { x with preds := q x.preds, logpi := x.logpi - c, L2 := x.L2 + c }

end Pxmcmc
