import Verif.Model.Construct

/-!
# Two problems sampled together

Not code of the repository: the definitions say what the arguments of the constructors (`forward.py:21-34`, `prior.py:21-26`), the random
numbers and the recorded results are when two problems with `p₁`, `p₂` parameters and `n₁`, `n₂` data that have nothing in common are
written one behind the other.
-/

namespace Pxmcmc

/-- `z` returns only if `a` and `b` do, and then it returns their results, of lengths `l₁` and `l₂`, one behind the other. -/
def Joins (l₁ l₂ : ℕ) (z a b : Py (List ℂ)) : Prop :=
  ∀ v, z = .ok v → ∃ x y, a = .ok x ∧ b = .ok y ∧ v = x ++ y ∧ x.length = l₁ ∧ y.length = l₂

/-- Some entries of an array: entry `i` of the result is entry `e i`. -/
def pick {k k' : ℕ} (e : Fin k' → Fin k) (l : List ℂ) : List ℂ := List.ofFn fun i => l.getD (e i) 0

/-- The generator that a part of a problem sees: where the part asks for `k` numbers (mcmc.py:100-102, 193-195, 344-346) the whole asks for
`len k` numbers, of which the part gets those with the indices `e k`. -/
def Rng.part (R : Rng) (len : ℕ → ℕ) (e : ∀ k, Fin k → Fin (len k)) : Rng where
  σ := R.σ
  randn := fun r k => (fun i => (R.randn r (len k)).1 (e k i), (R.randn r (len k)).2)
  laplace := fun r k => (fun i => (R.laplace r (len k)).1 (e k i), (R.laplace r (len k)).2)
  rand := R.rand

/-- The generator that the first problem sees: the entries in front of the last `p₂`. -/
def Rng.left (R : Rng) (p₂ : ℕ) : Rng := R.part (fun k => k + p₂) fun _ => Fin.castAdd p₂

/-- The generator that the second problem sees: the entries behind the first `p₁`. -/
def Rng.right (R : Rng) (p₁ : ℕ) : Rng := R.part (fun k => p₁ + k) fun _ => Fin.natAdd p₁

/-- The data (`data`, forward.py:21); both problems have real data or both have complex data. -/
def DataVec.join {n₁ n₂ : ℕ} (d₁ : DataVec n₁) (d₂ : DataVec n₂) : DataVec (n₁ + n₂) := ⟨d₁.cplx, Fin.append d₁.vals d₂.vals⟩

/-- The standard deviations (`sig_d`, forward.py:21): one number for both problems, or an array for each. -/
inductive SigJoin (n₁ n₂ : ℕ) : SigD → SigD → SigD → Prop where
  | num (x : ℂ) (cplx : Bool) : SigJoin n₁ n₂ (.num x cplx) (.num x cplx) (.num x cplx)
  | vec (σ₁ : Fin n₁ → ℂ) (σ₂ : Fin n₂ → ℂ) (cplx : Bool) :
      SigJoin n₁ n₂ (.vec (List.ofFn σ₁) cplx) (.vec (List.ofFn σ₂) cplx) (.vec (List.ofFn (Fin.append σ₁ σ₂)) cplx)

/-- An operator (and its adjoint) that applies `o₁` to the first `a₁` entries and `o₂` to the last `a₂` ones. -/
structure Beside (a₁ a₂ b₁ b₂ : ℕ) (o₁ o₂ o : OpPair) : Prop where
  op : ∀ x y, x.length = a₁ → y.length = a₂ → Joins b₁ b₂ (o.op (x ++ y)) (o₁.op x) (o₂.op y)
  adj : ∀ x y, x.length = b₁ → y.length = b₂ → Joins a₁ a₂ (o.adj (x ++ y)) (o₁.adj x) (o₂.adj y)

/-- Optional operators (`transform`, `measurement`, forward.py:21-34): none for both, or one that applies both. -/
inductive BesideOpt (a₁ a₂ b₁ b₂ : ℕ) : Option OpPair → Option OpPair → Option OpPair → Prop where
  | none : BesideOpt a₁ a₂ b₁ b₂ .none .none .none
  | some (o₁ o₂ o : OpPair) (h : Beside a₁ a₂ b₁ b₂ o₁ o₂ o) : BesideOpt a₁ a₂ b₁ b₂ (.some o₁) (.some o₂) (.some o)

/-- The thresholds (`T`, prior.py:21): one number for both problems, or an array for each. -/
inductive ThreshJoin (q₁ q₂ : ℕ) : Thresh → Thresh → Thresh → Prop where
  | scalar (t : ℝ) : ThreshJoin q₁ q₂ (.scalar t) (.scalar t) (.scalar t)
  | vector (t₁ t₂ : List ℝ) (h₁ : t₁.length = q₁) (h₂ : t₂.length = q₂) : ThreshJoin q₁ q₂ (.vector t₁) (.vector t₂) (.vector (t₁ ++ t₂))

/-- A prior of which the proximal map acts on the two problems separately and the value is the sum of the two values. -/
structure PriorJoin (p₁ p₂ : ℕ) (P₁ P₂ P : PriorObj) : Prop where
  prox : ∀ x y, x.length = p₁ → y.length = p₂ → Joins p₁ p₂ (P.proxf (x ++ y)) (P₁.proxf x) (P₂.proxf y)
  prior : ∀ x y, x.length = p₁ → y.length = p₂ → ∀ v, P.prior (x ++ y) = .ok v → ∃ v₁ v₂, P₁.prior x = .ok v₁ ∧ P₂.prior y = .ok v₂ ∧ v = v₁ + v₂

/-- The start argument (mcmc.py:97): none for both, or an array for each. -/
inductive StartJoin (p₁ p₂ : ℕ) : StartPoint → StartPoint → StartPoint → Prop where
  | none : StartJoin p₁ p₂ .none .none .none
  | array (x y : List ℂ) (h₁ : x.length = p₁) (h₂ : y.length = p₂) : StartJoin p₁ p₂ (.array1 x) (.array1 y) (.array1 (x ++ y))

/-- The recorded results: samples and predictions stand one behind the other; log-posteriors, misfits and priors are added. -/
noncomputable def Arrays.join (A B : Arrays) : Arrays where
  logPi := Option.map₂ (List.zipWith (· + ·)) A.logPi B.logPi
  L2s := Option.map₂ (List.zipWith (· + ·)) A.L2s B.L2s
  priors := Option.map₂ (List.zipWith (· + ·)) A.priors B.priors
  preds := Option.map₂ (List.zipWith (· ++ ·)) A.preds B.preds
  chain := Option.map₂ (List.zipWith (· ++ ·)) A.chain B.chain

/-- The path matrix of two networks of which none crosses a pixel of the other. -/
def blockMatrix {n₁ n₂ p₁ p₂ : ℕ} (W₁ : Matrix (Fin n₁) (Fin p₁) ℂ) (W₂ : Matrix (Fin n₂) (Fin p₂) ℂ) :
    Matrix (Fin (n₁ + n₂)) (Fin (p₁ + p₂)) ℂ :=
  Matrix.of (Fin.append (fun i => Fin.append (W₁ i) 0) (fun i => Fin.append 0 (W₂ i)))

end Pxmcmc
