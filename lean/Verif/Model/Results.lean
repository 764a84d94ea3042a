import Verif.Model.Scripts

/-!
# What the example scripts save as attributes, and what the plot scripts read back

HDF5 keeps an attribute in the object header, where a message takes less than 64 KiB.  The exact overhead is not modelled; see
`H5Limit` in the properties.
-/

namespace Pxmcmc

/-- An attribute value as h5py stores it: a number (64 bits), a bool, a string, a list of strings or a float64 array. -/
inductive AttrVal where
  | num (x : ℝ)
  | flag (b : Bool)
  | text (s : String)
  | texts (l : List String)
  | arr (v : List ℝ)

/-- The bytes of the value in the file; strings have variable length, so the attribute holds 16-byte references to them. -/
def AttrVal.bytes : AttrVal → ℕ
  | .num _ => 8
  | .flag _ => 1
  | .text _ => 16
  | .texts l => 16 * l.length
  | .arr v => 8 * v.length

/-- mcmc.py:34-43: the items of `params.__dict__` in order. -/
def paramAttrs (p : Params) : List (String × AttrVal) :=
  [("lmda", .num p.lmda), ("delta", .num p.delta), ("mu", .num p.mu), ("s", .num p.s), ("nsamples", .num p.nsamples),
    ("nburn", .num p.nburn), ("ngap", .num p.ngap), ("complex", .flag p.complex), ("verbosity", .num p.verbosity), ("track", .texts p.track)]

/-- experiments/earthtopography/main.py:104, 109: `noise` is the array added to the data, or 0 without `--makenoise`. -/
def topoNoiseAttr (makenoise : Bool) (noise : List ℝ) : AttrVal := if makenoise then .arr noise else .num 0

/-- experiments/earthtopography/main.py:170-184: the keyword arguments of `save_mcmc`. -/
def topoKwargs (L J nparams : ℕ) (B : ℝ) (noise : AttrVal) (setting : String) (sigma : ℝ) (scaleafrica : ℤ) (time : String) :
    List (String × AttrVal) :=
  [("L", .num L), ("B", .num B), ("J_min", .num J), ("nparams", .num nparams), ("noise", noise), ("setting", .text setting),
    ("sigma", .num sigma), ("scaleafrica", .num scaleafrica), ("time", .text time)]

/-- experiments/phasevel/main.py:192-205. -/
def phasevelKwargs (L J nparams : ℕ) (B : ℝ) (setting time : String) (nsim : Bool) (eta : ℝ) : List (String × AttrVal) :=
  [("L", .num L), ("B", .num B), ("J_min", .num J), ("nparams", .num nparams), ("setting", .text setting), ("time", .text time),
    ("nsim", .flag nsim), ("eta", .num eta)]

/-- experiments/weaklensing/main.py:151-162. -/
def wlKwargs (L J nparams : ℕ) (B : ℝ) (setting time : String) : List (String × AttrVal) :=
  [("L", .num L), ("B", .num B), ("J_min", .num J), ("nparams", .num nparams), ("setting", .text setting), ("time", .text time)]

/-- `params[name]` on the dictionary of all attributes. -/
def attrGet (f : H5File AttrVal) (name : String) : Py AttrVal :=
  match f.attrs name with
  | some v => .ok v
  | none => .error .KeyError

/-- What a plot script reads first: `L`, `B`, `J_min`, the setting and whether it asked the user for the setting. -/
structure PlotHeader where
  L : AttrVal
  B : AttrVal
  J : AttrVal
  setting : AttrVal
  asked : Bool

/-- experiments/phasevel/plot.py:46-47, experiments/weaklensing/plot.py:51-52. -/
def plotHeader (f : H5File AttrVal) : Py PlotHeader := do
  let L ← attrGet f "L"
  let B ← attrGet f "B"
  let J ← attrGet f "J_min"
  let s ← attrGet f "setting"
  .ok ⟨L, B, J, s, false⟩

/-- experiments/earthtopography/plot.py:46-51: a missing setting is asked for; `answer` is what the user types. -/
def topoPlotHeader (f : H5File AttrVal) (answer : String) : Py PlotHeader := do
  let L ← attrGet f "L"
  let B ← attrGet f "B"
  let J ← attrGet f "J_min"
  .ok (match attrGet f "setting" with
    | .ok s => ⟨L, B, J, s, false⟩
    | .error _ => ⟨L, B, J, .text answer, true⟩)

end Pxmcmc
