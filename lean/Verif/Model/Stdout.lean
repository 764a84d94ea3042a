import Verif.Py

/-!
# Model of `suppress_stdout`, `map2alm` and `alm2map` (utils.py:91-113)

Streams are objects with an identity and a content.  A body is an arbitrary program that may print, assign `sys.stdout`, raise,
catch exceptions and use `suppress_stdout` itself.  Threads are not modelled.
-/

namespace Pxmcmc

/-- `sys.stdout` and all stream objects created so far: `next` is the identity of the next one, `out` what has been written to
each, `closed` which are closed. -/
structure Streams where
  stdout : ℕ
  next : ℕ
  out : ℕ → List String
  closed : ℕ → Bool

/-- Programs run inside `with suppress_stdout():`. -/
inductive Prog where
  | skip
  | print (s : String)
  | setStdout (i : ℕ)
  | raise (e : PyErr)
  | seq (p q : Prog)
  | tryExcept (p q : Prog)
  | suppress (openFails : Bool) (p : Prog)

/-- Running a program: the streams afterwards and the exception, if any.  Printing to a closed stream raises `ValueError`.
The last clause is utils.py:91-103: opening `os.devnull` can fail; then nothing has been changed.  `finally` restores
`sys.stdout` in any case and the exception goes on; leaving the outer `with` closes the new stream. -/
def Prog.run : Prog → Streams → Streams × Option PyErr
  | .skip, w => (w, none)
  | .print s, w => if w.closed w.stdout then (w, some .ValueError)
      else ({ w with out := fun i => if i = w.stdout then w.out i ++ [s] else w.out i }, none)
  | .setStdout i, w => ({ w with stdout := i }, none)
  | .raise e, w => (w, some e)
  | .seq p q, w => match p.run w with
      | (w', none) => q.run w'
      | r => r
  | .tryExcept p q, w => match p.run w with
      | (w', some _) => q.run w'
      | r => r
  | .suppress openFails p, w =>
      if openFails then (w, some (.Other "OSError"))
      else
        let devnull := w.next
        let oldStdout := w.stdout
        let w1 : Streams := { w with next := w.next + 1, stdout := devnull }
        let r := p.run w1
        ({ r.1 with stdout := oldStdout, closed := fun i => if i = devnull then true else r.1.closed i }, r.2)

/-- utils.py:106-113 `map2alm`, `alm2map`: the healpy call, a program with a result, under `suppress_stdout`. -/
def suppressed {α : Type} (openFails : Bool) (call : Prog) (result : α) (w : Streams) : Streams × Py α :=
  match (Prog.suppress openFails call).run w with
  | (w', none) => (w', .ok result)
  | (w', some e) => (w', .error e)

end Pxmcmc
