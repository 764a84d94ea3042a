import Verif.Model.Experiments

/-!
# Model of the African block of `experiments/earthtopography/main.py`

`pyssht.theta_to_index` and `pyssht.phi_to_index` are parameters.
-/

namespace Pxmcmc

/-- `np.linspace(a, b, n)` for `n ≥ 2`. -/
noncomputable def linspace (a b : ℝ) (n : ℕ) : List ℝ := (List.range n).map fun (i : ℕ) => a + i * ((b - a) / (n - 1))

/-- The position that an integer index means in an axis of length `n`: negative indices count from the end. -/
def axisIndex (i : ℤ) (n : ℕ) : Py ℕ :=
  if 0 ≤ i ∧ i < n then .ok i.toNat else if -n ≤ i ∧ i < 0 then .ok (i + n).toNat else .error .IndexError

/-- experiments/earthtopography/main.py:94-95: the angles (radians) at which the block is marked. -/
noncomputable def africaGrid : List (ℝ × ℝ) :=
  (linspace 60 120 100).flatMap fun t => (linspace (-30) 30 100).map fun p => (t * Real.pi / 180, p * Real.pi / 180)

/-- experiments/earthtopography/main.py:96-101: `block`, flattened. -/
noncomputable def africaBlock (thetaIdx phiIdx : ℝ → ℤ) (L : ℕ) : Py (List Bool) :=
  africaGrid.foldlM (init := List.replicate (mwLength L) false) fun block tp => do
    let t ← axisIndex (thetaIdx tp.1) L
    let p ← axisIndex (phiIdx tp.2) (2 * L - 1)
    .ok (block.set (t * (2 * L - 1) + p) true)

/-- experiments/earthtopography/main.py:91-103: `sig_d` with the block, which is only built if the factor is not zero. -/
noncomputable def topoLevels (thetaIdx phiIdx : ℝ → ℤ) (L : ℕ) (sigma : ℝ) (scale : ℤ) (areas : List ℝ) : Py (List ℝ) :=
  if scale = 0 then .ok (topoSig sigma 0 areas (List.replicate areas.length false))
  else do
    let block ← africaBlock thetaIdx phiIdx L
    .ok (topoSig sigma scale areas block)

end Pxmcmc
