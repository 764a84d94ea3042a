import Verif.Model.Sampler

/-!
# Model of `pxmcmc/saving.py`

An HDF5 file is a finite map of datasets and one of attributes, the disk a map from paths to files.  What h5py can store as an
attribute is a parameter (`storable`), and so is whether a path can be opened for writing.  Buffering inside HDF5 is not
modelled: the content at an intermediate moment is the best case, everything written so far.
-/

namespace Pxmcmc

/-- The value of a dataset: a real vector, a matrix (rows) or a vector of small integers. -/
inductive DVal where
  | vec (v : List ℝ)
  | mat (rows : List (List ℂ))
  | i1 (v : List ℕ)

/-- An HDF5 file with attribute values in `V`. -/
structure H5File (V : Type) where
  ds : String → Option DVal
  attrs : String → Option V

/-- A new file. -/
def H5File.empty {V : Type} : H5File V := ⟨fun _ => none, fun _ => none⟩

/-- One write. -/
inductive FileOp (V : Type) where
  | dataset (name : String) (v : DVal)
  | attr (name : String) (v : V)

/-- `f.create_dataset(name, data=v)` (raises if the name is taken) and `f.attrs[name] = v` (raises `TypeError` if h5py has no
representation for `v`, replaces an older value). -/
def FileOp.run {V : Type} (storable : V → Bool) (f : H5File V) : FileOp V → Py (H5File V)
  | .dataset name v => if (f.ds name).isSome then .error .ValueError
      else .ok { f with ds := fun s => if s = name then some v else f.ds s }
  | .attr name v => if storable v then .ok { f with attrs := fun s => if s = name then some v else f.attrs s }
      else .error .TypeError

/-- A sampler object as `save_mcmc` sees it: the tracking arrays and, after `PxMALA.run`, its two traces. -/
structure McmcObj where
  arrays : Arrays
  acceptanceTrace : Option (List ℕ)
  deltasTrace : Option (List ℝ)

/-- The write for an attribute of the sampler, if the sampler has it (`hasattr`). -/
def optOp {V : Type} (name : String) : Option DVal → List (FileOp V)
  | none => []
  | some v => [.dataset name v]

/-- saving.py:18-36: the writes in order.  `params` are the items of `params.__dict__`, `kwargs` the keyword arguments. -/
def saveOps {V : Type} (m : McmcObj) (params kwargs : List (String × V)) : List (FileOp V) :=
  optOp "logposterior" (m.arrays.logPi.map .vec) ++ optOp "predictions" (m.arrays.preds.map .mat) ++
  optOp "chain" (m.arrays.chain.map .mat) ++ optOp "L2s" (m.arrays.L2s.map .vec) ++
  optOp "priors" (m.arrays.priors.map .vec) ++ optOp "acceptances" (m.acceptanceTrace.map .i1) ++
  optOp "deltas" (m.deltasTrace.map .vec) ++ params.map (fun p => .attr p.1 p.2) ++ kwargs.map (fun p => .attr p.1 p.2)

/-- Writes until one raises: the file as it is then, and the exception if any. -/
def runOps {V : Type} (storable : V → Bool) : List (FileOp V) → H5File V → H5File V × Option PyErr
  | [], f => (f, none)
  | o :: os, f => match o.run storable f with
    | .ok f' => runOps storable os f'
    | .error e => (f, some e)

/-- The files on disk. -/
abbrev Disk (V : Type) := String → Option (H5File V)

/-- Posix `os.path.join(a, b)`. -/
def pathJoin (a b : String) : String :=
  if b.startsWith "/" then b else if a.isEmpty || a.endsWith "/" then a ++ b else a ++ "/" ++ b

/-- saving.py:17: the name of the file. -/
def savePath (outpath filename : String) : String := pathJoin outpath (filename ++ ".hdf5")

/-- saving.py:5-36 `save_mcmc`: opening with mode `"w"` truncates an older file, the `with` block closes it also when a write
raises.  Returns the disk afterwards and the exception, if any. -/
def saveMcmc {V : Type} (storable : V → Bool) (openable : String → Bool) (D : Disk V) (m : McmcObj)
    (params : List (String × V)) (outpath filename : String) (kwargs : List (String × V)) : Disk V × Option PyErr :=
  let path := savePath outpath filename
  if openable path then
    let r := runOps storable (saveOps m params kwargs) H5File.empty
    (fun s => if s = path then some r.1 else D s, r.2)
  else (D, some (.Other "OSError"))

/-- The disk when the process dies after the file has been opened and `k` writes have been made. -/
def saveInterrupted {V : Type} (storable : V → Bool) (D : Disk V) (m : McmcObj)
    (params : List (String × V)) (outpath filename : String) (kwargs : List (String × V)) (k : ℕ) : Disk V :=
  let path := savePath outpath filename
  fun s => if s = path then some (runOps storable ((saveOps m params kwargs).take k) H5File.empty).1 else D s

end Pxmcmc
