import Verif.Model.Experiments

/-!
# Model of the command lines of the example scripts

The tables are the `add_argument` calls of the six scripts; `parseArgs` is what `argparse` (an external library) does with them.
A command line is the list of its words without the name of the script.
-/

namespace Pxmcmc

/-- The value of an argument; the integers and floats of the scripts are all numbers here (`default=1` with `type=float` is the integer 1). -/
inductive ArgVal where
  | text (s : String)
  | num (x : ℝ)
  | flag (b : Bool)

/-- `type=str`, `type=int`, `type=float`, `action="store_true"`, and the `--help` that every parser has. -/
inductive ArgKind where
  | str | int | float | flag | help
  deriving DecidableEq

/-- One optional argument: name with dashes, kind, default. -/
structure ArgSpec where
  name : String
  kind : ArgKind
  default : ArgVal

/-- A parser: the positional arguments (all with `type=str`, one word each) with the `default` they were given, and the optional ones. -/
structure ArgParser where
  pos : List (String × Option String)
  opts : List ArgSpec

/-- The result of `parse_args`: the positional arguments in order, the optional ones by name. -/
structure ArgNs where
  pos : List String
  opt : String → ArgVal

/-- Python's `int(s)` and `float(s)`; `none` if they raise.  `neg` tells the words that `argparse` takes for negative numbers. -/
structure PyConv where
  int : String → Option ℤ
  float : String → Option ℝ
  neg : String → Bool

/-- `argparse` prints a message and leaves the script with `SystemExit` (also for `--help`). -/
def exitErr : PyErr := .Other "SystemExit"

/-- How a word is understood: as positional argument or value, as an option (with the part after `=`), or not at all. -/
inductive ArgTok where
  | word
  | opt (o : ArgSpec) (val : Option String)
  | bad

/-- The option `--help`. -/
def helpSpec : ArgSpec := ⟨"--help", .help, .flag false⟩

/-- `ArgumentParser._parse_optional`: full names, `--name=value`, unambiguous beginnings of names; other words starting with a dash are
values only if they look like negative numbers or have a space in them.  The word `--` is not modelled (it counts as an error). -/
def ArgParser.classify (P : ArgParser) (neg : String → Bool) (t : String) : ArgTok :=
  match P.opts.find? fun o => o.name = t with
  | some o => .opt o none
  | none =>
    match t.toList with
    | '-' :: '-' :: cs =>
      let nm := '-' :: '-' :: cs.takeWhile (· ≠ '=')
      let val := if '=' ∈ cs then some (String.ofList ((cs.dropWhile (· ≠ '=')).drop 1)) else none
      match (helpSpec :: P.opts).find? fun o => o.name.toList = nm with
      | some o => .opt o val
      | none =>
        match (helpSpec :: P.opts).filter fun o => nm <+: o.name.toList with
        | [o] => .opt o val
        | [] => if ' ' ∈ cs then .word else .bad
        | _ => .bad
    | '-' :: 'h' :: _ => .bad
    | '-' :: _ :: cs => if neg t || ' ' ∈ cs then .word else .bad
    | _ => .word

/-- The conversion of a value by its `type`. -/
def ArgSpec.convert (o : ArgSpec) (c : PyConv) (v : String) : Py ArgVal :=
  match o.kind with
  | .str => .ok (.text v)
  | .int => match c.int v with
    | some k => .ok (.num k)
    | none => .error exitErr
  | .float => match c.float v with
    | some x => .ok (.num x)
    | none => .error exitErr
  | _ => .error exitErr

/-- `setattr(namespace, dest, value)`. -/
def ArgNs.set (ns : ArgNs) (name : String) (x : ArgVal) : ArgNs := ⟨ns.pos, fun s => if s = name then x else ns.opt s⟩

/-- The words from left to right. -/
def ArgParser.loop (P : ArgParser) (c : PyConv) : List String → ArgNs → Py ArgNs
  | [], ns => .ok ns
  | t :: ts, ns =>
    match P.classify c.neg t with
    | .word => P.loop c ts ⟨ns.pos ++ [t], ns.opt⟩
    | .bad => .error exitErr
    | .opt o (some v) => do
      let x ← o.convert c v
      P.loop c ts (ns.set o.name x)
    | .opt o none =>
      match o.kind with
      | .help => .error exitErr
      | .flag => P.loop c ts (ns.set o.name (.flag true))
      | _ =>
        match ts with
        | [] => .error exitErr
        | v :: ts' =>
          match P.classify c.neg v with
          | .word => do
            let x ← o.convert c v
            P.loop c ts' (ns.set o.name x)
          | _ => .error exitErr

/-- The namespace before the first word. -/
def ArgParser.start (P : ArgParser) : ArgNs :=
  ⟨[], fun s => match P.opts.find? fun o => o.name = s with
    | some o => o.default
    | none => .flag false⟩

/-- `parser.parse_args()`: positional arguments of one word are required, whatever their `default`. -/
def ArgParser.parseArgs (P : ArgParser) (c : PyConv) (argv : List String) : Py ArgNs := do
  let ns ← P.loop c argv P.start
  if ns.pos.length = P.pos.length then .ok ns else .error exitErr

/-- experiments/earthtopography/main.py:21-69. -/
noncomputable def topoMainParser : ArgParser :=
  ⟨[], [⟨"--infile", .str, .text "ETOPO1_Ice_hpx_256.fits"⟩, ⟨"--outdir", .str, .text "."⟩, ⟨"--jobid", .str, .text "0"⟩,
    ⟨"--algo", .str, .text "myula"⟩, ⟨"--setting", .str, .text "synthesis"⟩, ⟨"--delta", .float, .num (1 / 10 ^ 6)⟩, ⟨"--mu", .float, .num 1⟩,
    ⟨"--L", .int, .num 32⟩, ⟨"--makenoise", .flag, .flag false⟩, ⟨"--sigma", .float, .num 1⟩, ⟨"--scaleafrica", .int, .num 0⟩]⟩

/-- experiments/phasevel/main.py:63-122. -/
noncomputable def phasevelMainParser : ArgParser :=
  ⟨[("infile", some "synthetic_GDM40_0S254_L28.txt"), ("pathsfile", some "0S254L28.npz")],
    [⟨"--outdir", .str, .text "."⟩, ⟨"--jobid", .str, .text "0"⟩, ⟨"--algo", .str, .text "myula"⟩, ⟨"--setting", .str, .text "synthesis"⟩,
    ⟨"--delta", .float, .num (1 / 10 ^ 6)⟩, ⟨"--mu", .float, .num 1⟩, ⟨"--L", .int, .num 28⟩, ⟨"--eta", .float, .num 1⟩,
    ⟨"--nsim", .flag, .flag false⟩]⟩

/-- experiments/weaklensing/main.py:43-84. -/
noncomputable def wlMainParser : ArgParser :=
  ⟨[("infile", none)],
    [⟨"--outdir", .str, .text "."⟩, ⟨"--jobid", .str, .text "0"⟩, ⟨"--algo", .str, .text "myula"⟩, ⟨"--setting", .str, .text "synthesis"⟩,
    ⟨"--delta", .float, .num (1 / 10 ^ 6)⟩, ⟨"--mu", .float, .num 1⟩, ⟨"--L", .int, .num 512⟩]⟩

/-- experiments/earthtopography/plot.py:18-37. -/
noncomputable def topoPlotParser : ArgParser :=
  ⟨[("datafile", none), ("directory", none)],
    [⟨"--suffix", .str, .text ""⟩, ⟨"--burn", .int, .num 0⟩, ⟨"--save_npy", .flag, .flag false⟩]⟩

/-- experiments/phasevel/plot.py:19-38. -/
noncomputable def phasevelPlotParser : ArgParser :=
  ⟨[("datafile", none), ("directory", none)],
    [⟨"--suffix", .str, .text ""⟩, ⟨"--burn", .int, .num 1000⟩, ⟨"--save_npy", .flag, .flag false⟩]⟩

/-- experiments/weaklensing/plot.py:20-42. -/
noncomputable def wlPlotParser : ArgParser :=
  ⟨[("datafile", none), ("directory", none)],
    [⟨"--suffix", .str, .text ""⟩, ⟨"--burn", .int, .num 1000⟩, ⟨"--save_npy", .flag, .flag false⟩,
    ⟨"--no-mask", .flag, .flag false⟩]⟩

end Pxmcmc
