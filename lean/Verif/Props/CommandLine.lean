import Verif.Model.CommandLine
import Verif.Model.Operators
import Verif.Props.Scripts
import Verif.Props.Measurements
import Std.Data.String.ToNat

/-!
# Command lines of the example scripts (C152)
-/

namespace Pxmcmc

/-! ## Specification -/

/-- The six example scripts. -/
inductive ExScript where
  | topoMain | phasevelMain | wlMain | topoPlot | phasevelPlot | wlPlot

/-- Their parsers. -/
noncomputable def ExScript.parser : ExScript → ArgParser
  | topoMain => topoMainParser
  | phasevelMain => phasevelMainParser
  | wlMain => wlMainParser
  | topoPlot => topoPlotParser
  | phasevelPlot => phasevelPlotParser
  | wlPlot => wlPlotParser

/-- The defaults that the README files and the help texts name, as they stand there.  The README of the topography example and the help
text of its plot script name different values for `--burn`. -/
def ExScript.documented : ExScript → List (String × String)
  | topoMain => [("--outdir", "."), ("--jobid", "0"), ("--algo", "myula"), ("--setting", "myula"), ("--delta", "1e-6"), ("--mu", "1"),
      ("--L", "32")]
  | phasevelMain => [("--outdir", "."), ("--jobid", "0"), ("--algo", "myula"), ("--setting", "myula"), ("--delta", "1e-6"), ("--mu", "1"),
      ("--L", "28"), ("--eta", "1")]
  | wlMain => [("--outdir", "."), ("--jobid", "0"), ("--algo", "myula"), ("--setting", "myula"), ("--delta", "1e-6"), ("--mu", "1"),
      ("--L", "512")]
  | topoPlot => [("--burn", "0"), ("--burn", "100")]
  | phasevelPlot => [("--burn", "100")]
  | wlPlot => [("--burn", "100")]

/-- Python reads decimal numbers. -/
structure PyConv.Decimal (c : PyConv) : Prop where
  int : ∀ n : ℕ, c.int (toString n) = some (n : ℤ)
  float : ∀ n : ℕ, c.float (toString n) = some (n : ℝ)
  micro : c.float "1e-6" = some (1 / 10 ^ 6)

/-- No word of the command line is (an abbreviation of) the option. -/
def NotGiven (P : ArgParser) (c : PyConv) (name : String) (argv : List String) : Prop :=
  ∀ t ∈ argv, ∀ o v, P.classify c.neg t = .opt o v → o.name ≠ name

/-- Giving the option this value is the same as leaving it out. -/
def SameAsOmitted (P : ArgParser) (c : PyConv) (name value : String) : Prop :=
  ∀ argv ns, NotGiven P c name argv → P.parseArgs c argv = .ok ns →
    P.parseArgs c (name :: value :: argv) = .ok ns ∧ P.parseArgs c (argv ++ [name, value]) = .ok ns

/-- The full property: this holds for every documented default. -/
def DocumentedDefaults (c : PyConv) : Prop := ∀ S : ExScript, ∀ p ∈ S.documented, SameAsOmitted S.parser c p.1 p.2

/-- A word that does not start with a dash. -/
def Plain (t : String) : Prop := t.toList.head? ≠ some '-'

/-- An option on the command line as the usage lines show it. -/
inductive ArgGiven where
  | value (o : ArgSpec) (v : String) (x : ArgVal)
  | flag (o : ArgSpec)

/-- The name of the option. -/
def ArgGiven.name : ArgGiven → String
  | value o _ _ => o.name
  | flag o => o.name

/-- Its words. -/
def ArgGiven.words : ArgGiven → List String
  | value o v _ => [o.name, v]
  | flag o => [o.name]

/-- What it stands for. -/
def ArgGiven.val : ArgGiven → ArgVal
  | value _ _ x => x
  | flag _ => .flag true

/-- The option exists and the value is one of its kind. -/
def ArgGiven.Valid (P : ArgParser) (c : PyConv) : ArgGiven → Prop
  | value o v x => o ∈ P.opts ∧ Plain v ∧ match o.kind with
    | .str => x = .text v
    | .int => ∃ k : ℤ, c.int v = some k ∧ x = .num k
    | .float => ∃ y : ℝ, c.float v = some y ∧ x = .num y
    | _ => False
  | flag o => o ∈ P.opts ∧ o.kind = .flag

/-! ## Lemmas -/

theorem ExScript.names (S : ExScript) : ∀ o ∈ S.parser.opts, o.name.toList.head? = some '-' := by
  cases S <;> simp [ExScript.parser, topoMainParser, phasevelMainParser, wlMainParser, topoPlotParser, phasevelPlotParser, wlPlotParser]

theorem ExScript.nodup (S : ExScript) : (S.parser.opts.map ArgSpec.name).Nodup := by
  cases S <;> simp [ExScript.parser, topoMainParser, phasevelMainParser, wlMainParser, topoPlotParser, phasevelPlotParser, wlPlotParser]

theorem find_name {l : List ArgSpec} (h : (l.map ArgSpec.name).Nodup) {o : ArgSpec} (ho : o ∈ l) :
    l.find? (fun o' => o'.name = o.name) = some o := by
  induction l with
  | nil => simp at ho
  | cons a l ih =>
    simp only [List.map_cons, List.nodup_cons] at h
    rcases List.mem_cons.1 ho with rfl | ho'
    · simp
    · have : a.name ≠ o.name := fun e => h.1 (e ▸ List.mem_map_of_mem ho')
      rw [List.find?_cons_of_neg (by simpa using this), ih h.2 ho']

theorem ExScript.classify_name (S : ExScript) (neg : String → Bool) {o : ArgSpec} (ho : o ∈ S.parser.opts) :
    S.parser.classify neg o.name = .opt o none := by
  unfold ArgParser.classify
  rw [find_name S.nodup ho]

theorem ExScript.classify_plain (S : ExScript) (neg : String → Bool) {v : String} (hv : Plain v) : S.parser.classify neg v = .word := by
  have : S.parser.opts.find? (fun o => o.name = v) = none := by
    rw [List.find?_eq_none]
    intro o ho h
    have h := of_decide_eq_true h
    exact hv (h ▸ S.names o ho)
  unfold ArgParser.classify
  rw [this]
  unfold Plain at hv
  rcases hl : v.toList with _ | ⟨a, as⟩
  · rfl
  · rw [hl] at hv
    simp only [List.head?_cons, ne_eq, Option.some.injEq] at hv
    split <;> simp_all

theorem ArgParser.loop_word (P : ArgParser) (c : PyConv) {t : String} (ts : List String) (ns : ArgNs) (h : P.classify c.neg t = .word) :
    P.loop c (t :: ts) ns = P.loop c ts ⟨ns.pos ++ [t], ns.opt⟩ := by
  rw [ArgParser.loop.eq_def]
  simp only [h]

theorem ArgParser.loop_bad (P : ArgParser) (c : PyConv) {t : String} (ts : List String) (ns : ArgNs) (h : P.classify c.neg t = .bad) :
    P.loop c (t :: ts) ns = .error exitErr := by
  rw [ArgParser.loop.eq_def]
  simp only [h]

theorem ArgParser.loop_eqval (P : ArgParser) (c : PyConv) {t v : String} {o : ArgSpec} (ts : List String) (ns : ArgNs)
    (h : P.classify c.neg t = .opt o (some v)) :
    P.loop c (t :: ts) ns = (do let x ← o.convert c v; P.loop c ts (ns.set o.name x)) := by
  rw [ArgParser.loop.eq_def]
  simp only [h]

theorem ArgParser.loop_flag (P : ArgParser) (c : PyConv) {t : String} {o : ArgSpec} (ts : List String) (ns : ArgNs)
    (h : P.classify c.neg t = .opt o none) (hk : o.kind = .flag) :
    P.loop c (t :: ts) ns = P.loop c ts (ns.set o.name (.flag true)) := by
  rw [ArgParser.loop.eq_def]
  simp only [h, hk]

theorem ArgParser.loop_help (P : ArgParser) (c : PyConv) {t : String} {o : ArgSpec} (ts : List String) (ns : ArgNs)
    (h : P.classify c.neg t = .opt o none) (hk : o.kind = .help) : P.loop c (t :: ts) ns = .error exitErr := by
  rw [ArgParser.loop.eq_def]
  simp only [h, hk]

theorem ArgParser.loop_last (P : ArgParser) (c : PyConv) {t : String} {o : ArgSpec} (ns : ArgNs)
    (h : P.classify c.neg t = .opt o none) (hk : o.kind ≠ .flag) : P.loop c [t] ns = .error exitErr := by
  rw [ArgParser.loop.eq_def]
  simp only [h]
  cases ho : o.kind <;> simp_all

theorem ArgParser.loop_value (P : ArgParser) (c : PyConv) {t v : String} {o : ArgSpec} (ts : List String) (ns : ArgNs)
    (h : P.classify c.neg t = .opt o none) (hh : o.kind ≠ .help) (hk : o.kind ≠ .flag) (hv : P.classify c.neg v = .word) :
    P.loop c (t :: v :: ts) ns = (do let x ← o.convert c v; P.loop c ts (ns.set o.name x)) := by
  rw [ArgParser.loop.eq_def]
  simp only [h]
  cases ho : o.kind <;> simp_all

theorem ArgParser.loop_novalue (P : ArgParser) (c : PyConv) {t v : String} {o : ArgSpec} (ts : List String) (ns : ArgNs)
    (h : P.classify c.neg t = .opt o none) (hh : o.kind ≠ .help) (hk : o.kind ≠ .flag) (hv : P.classify c.neg v ≠ .word) :
    P.loop c (t :: v :: ts) ns = .error exitErr := by
  rw [ArgParser.loop.eq_def]
  simp only [h]

/-- What a complete first part of a command line does to the rest. -/
theorem ArgParser.loop_append (P : ArgParser) (c : PyConv) (a b : List String) (ns ns' : ArgNs) (h : P.loop c a ns = .ok ns') :
    P.loop c (a ++ b) ns = P.loop c b ns' := by
  induction a, ns using ArgParser.loop.induct P c with
  | case1 ns => simp [ArgParser.loop] at h; subst h; rfl
  | case2 ns t ts ht ih =>
    rw [P.loop_word c _ _ ht] at h
    rw [List.cons_append, P.loop_word c _ _ ht]
    exact ih h
  | case3 t ts ns ht => rw [P.loop_bad c _ _ ht] at h; exact absurd h (by simp)
  | case4 t ts ns o v ht ih =>
    rw [P.loop_eqval c _ _ ht] at h
    rw [List.cons_append, P.loop_eqval c _ _ ht]
    obtain ⟨x, hx, h⟩ := bind_ok h
    rw [hx]
    exact ih x h
  | case5 t ts ns o ht hk => rw [P.loop_help c _ _ ht hk] at h; exact absurd h (by simp)
  | case6 t ts ns o ht hk ih =>
    rw [P.loop_flag c _ _ ht hk] at h
    rw [List.cons_append, P.loop_flag c _ _ ht hk]
    exact ih h
  | case7 t ns o ht hh hk => rw [P.loop_last c _ ht hk] at h; exact absurd h (by simp)
  | case8 t ns o ht v ts hv hh hk ih =>
    rw [P.loop_value c _ _ ht hh hk hv] at h
    rw [List.cons_append, List.cons_append, P.loop_value c _ _ ht hh hk hv]
    obtain ⟨x, hx, h⟩ := bind_ok h
    rw [hx]
    exact ih x h
  | case9 t ns o ht v ts hh hk hv => rw [P.loop_novalue c _ _ ht hh hk hv] at h; exact absurd h (by simp)

theorem ArgNs.set_comm (ns : ArgNs) {m n : String} (h : m ≠ n) (x y : ArgVal) : (ns.set m x).set n y = (ns.set n y).set m x := by
  simp only [ArgNs.set, ArgNs.mk.injEq, true_and]
  funext s
  split_ifs <;> simp_all

theorem ArgNs.set_self (ns : ArgNs) {m : String} {x : ArgVal} (h : ns.opt m = x) : ns.set m x = ns := by
  cases ns
  simp only [ArgNs.set, ArgNs.mk.injEq, true_and]
  funext s
  split_ifs with hs
  · rw [hs]; exact h.symm
  · rfl

/-- Words that do not name an option do not care about its value, and keep it. -/
theorem ArgParser.loop_keep (P : ArgParser) (c : PyConv) (a : List String) (m : String) (y : ArgVal) (ns ns' : ArgNs)
    (hm : NotGiven P c m a) (h : P.loop c a ns = .ok ns') :
    P.loop c a (ns.set m y) = .ok (ns'.set m y) ∧ ns'.opt m = ns.opt m := by
  induction a, ns using ArgParser.loop.induct P c with
  | case1 ns => simp [ArgParser.loop] at h ⊢; subst h; exact ⟨rfl, rfl⟩
  | case2 ns t ts ht ih =>
    rw [P.loop_word c _ _ ht] at h ⊢
    exact ih (fun t ht => hm t (List.mem_cons_of_mem _ ht)) h
  | case3 t ts ns ht => rw [P.loop_bad c _ _ ht] at h; exact absurd h (by simp)
  | case4 t ts ns o v ht ih =>
    rw [P.loop_eqval c _ _ ht] at h ⊢
    obtain ⟨x, hx, h⟩ := bind_ok h
    have hne := hm t List.mem_cons_self o _ ht
    have := ih x (fun t ht => hm t (List.mem_cons_of_mem _ ht)) h
    rw [hx]
    simp only [bind, Except.bind]
    rw [ns.set_comm hne.symm]
    refine ⟨this.1, this.2.trans ?_⟩
    simp [ArgNs.set, hne.symm]
  | case5 t ts ns o ht hk => rw [P.loop_help c _ _ ht hk] at h; exact absurd h (by simp)
  | case6 t ts ns o ht hk ih =>
    rw [P.loop_flag c _ _ ht hk] at h ⊢
    have hne := hm t List.mem_cons_self o _ ht
    have := ih (fun t ht => hm t (List.mem_cons_of_mem _ ht)) h
    rw [ns.set_comm hne.symm]
    refine ⟨this.1, this.2.trans ?_⟩
    simp [ArgNs.set, hne.symm]
  | case7 t ns o ht hh hk => rw [P.loop_last c _ ht hk] at h; exact absurd h (by simp)
  | case8 t ns o ht v ts hv hh hk ih =>
    rw [P.loop_value c _ _ ht hh hk hv] at h ⊢
    obtain ⟨x, hx, h⟩ := bind_ok h
    have hne := hm t List.mem_cons_self o _ ht
    have := ih x (fun t ht => hm t (List.mem_cons_of_mem _ (List.mem_cons_of_mem _ ht))) h
    rw [hx]
    simp only [bind, Except.bind]
    rw [ns.set_comm hne.symm]
    refine ⟨this.1, this.2.trans ?_⟩
    simp [ArgNs.set, hne.symm]
  | case9 t ns o ht v ts hh hk hv => rw [P.loop_novalue c _ _ ht hh hk hv] at h; exact absurd h (by simp)

theorem ArgParser.parse_ok {P : ArgParser} {c : PyConv} {argv : List String} {ns : ArgNs} (h : P.parseArgs c argv = .ok ns) :
    P.loop c argv P.start = .ok ns ∧ ns.pos.length = P.pos.length := by
  obtain ⟨ns', h', h⟩ := bind_ok h
  split_ifs at h with hl
  · cases h; exact ⟨h', hl⟩

theorem ExScript.start_opt (S : ExScript) {o : ArgSpec} (ho : o ∈ S.parser.opts) : S.parser.start.opt o.name = o.default := by
  simp only [ArgParser.start, find_name S.nodup ho]

/-- An omitted option has its default. -/
theorem ExScript.omitted (S : ExScript) (c : PyConv) {o : ArgSpec} (ho : o ∈ S.parser.opts) {argv : List String} {ns : ArgNs}
    (hg : NotGiven S.parser c o.name argv) (h : S.parser.parseArgs c argv = .ok ns) : ns.opt o.name = o.default := by
  obtain ⟨h1, h2⟩ := ArgParser.parse_ok h
  rw [(S.parser.loop_keep c argv o.name (.flag false) _ _ hg h1).2, S.start_opt ho]

/-- What giving an option (for the first time) does. -/
theorem ExScript.given (S : ExScript) (c : PyConv) {o : ArgSpec} (ho : o ∈ S.parser.opts) {v : String} {x : ArgVal} (hv : Plain v)
    (hx : o.convert c v = .ok x) {argv : List String} {ns : ArgNs}
    (hg : NotGiven S.parser c o.name argv) (h : S.parser.parseArgs c argv = .ok ns) :
    S.parser.parseArgs c (o.name :: v :: argv) = .ok (ns.set o.name x) ∧ S.parser.parseArgs c (argv ++ [o.name, v]) = .ok (ns.set o.name x) := by
  obtain ⟨h1, h2⟩ := ArgParser.parse_ok h
  have hh : o.kind ≠ .help := by intro e; simp [ArgSpec.convert, e] at hx
  have hk : o.kind ≠ .flag := by intro e; simp [ArgSpec.convert, e] at hx
  have hc := S.classify_name c.neg ho
  have hw := S.classify_plain c.neg hv
  unfold ArgParser.parseArgs
  rw [S.parser.loop_append c argv _ _ _ h1, S.parser.loop_value c _ _ hc hh hk hw, S.parser.loop_value c _ _ hc hh hk hw, hx]
  simp only [bind, Except.bind, ArgParser.loop]
  rw [(S.parser.loop_keep c argv o.name x _ _ hg h1).1]
  simp [ArgNs.set, h2]

theorem ExScript.same (S : ExScript) (c : PyConv) (o : ArgSpec) (ho : o ∈ S.parser.opts) (v : String) (hv : Plain v)
    (hx : o.convert c v = .ok o.default) : SameAsOmitted S.parser c o.name v := by
  intro argv ns hg h
  have := S.given c ho hv hx hg h
  rwa [ns.set_self (S.omitted c ho hg h)] at this

/-- One option as in the usage lines. -/
theorem ExScript.loop_given (S : ExScript) (c : PyConv) {g : ArgGiven} (hg : g.Valid S.parser c) (ts : List String) (ns : ArgNs) :
    S.parser.loop c (g.words ++ ts) ns = S.parser.loop c ts (ns.set g.name g.val) := by
  rcases g with ⟨o, v, x⟩ | ⟨o⟩
  · obtain ⟨ho, hv, hk⟩ := hg
    have hc : o.convert c v = .ok x ∧ o.kind ≠ .help ∧ o.kind ≠ .flag := by
      unfold ArgSpec.convert
      cases e : o.kind <;> rw [e] at hk <;> simp only [] at hk ⊢
      · simp [hk]
      · obtain ⟨k, hk, rfl⟩ := hk; simp [hk]
      · obtain ⟨k, hk, rfl⟩ := hk; simp [hk]
    simp only [ArgGiven.words, List.cons_append, List.nil_append]
    rw [S.parser.loop_value c _ _ (S.classify_name c.neg ho) hc.2.1 hc.2.2 (S.classify_plain c.neg hv), hc.1]
    rfl
  · simp only [ArgGiven.words, List.cons_append, List.nil_append]
    rw [S.parser.loop_flag c _ _ (S.classify_name c.neg hg.1) hg.2]
    rfl

theorem ExScript.loop_givens (S : ExScript) (c : PyConv) (gs : List ArgGiven) (hg : ∀ g ∈ gs, g.Valid S.parser c) (ts : List String)
    (ns : ArgNs) : S.parser.loop c (gs.flatMap ArgGiven.words ++ ts) ns = S.parser.loop c ts (gs.foldl (fun (ns : ArgNs) g => ns.set g.name g.val) ns) := by
  induction gs generalizing ns with
  | nil => rfl
  | cons g gs ih =>
    rw [List.flatMap_cons, List.append_assoc, S.loop_given c (hg g List.mem_cons_self)]
    exact ih (fun g h => hg g (List.mem_cons_of_mem _ h)) _

theorem ExScript.loop_words (S : ExScript) (c : PyConv) (ws : List String) (hw : ∀ w ∈ ws, Plain w) (ts : List String) (ns : ArgNs) :
    S.parser.loop c (ws ++ ts) ns = S.parser.loop c ts ⟨ns.pos ++ ws, ns.opt⟩ := by
  induction ws generalizing ns with
  | nil => simp
  | cons w ws ih =>
    rw [List.cons_append, S.parser.loop_word c _ _ (S.classify_plain c.neg (hw w List.mem_cons_self)),
      ih (fun w h => hw w (List.mem_cons_of_mem _ h))]
    simp

theorem foldl_set (gs : List ArgGiven) (ns : ArgNs) :
    (gs.foldl (fun (ns : ArgNs) g => ns.set g.name g.val) ns).pos = ns.pos ∧ ∀ s, (gs.foldl (fun (ns : ArgNs) g => ns.set g.name g.val) ns).opt s =
      match gs.reverse.find? fun g => g.name = s with
      | some g => g.val
      | none => ns.opt s := by
  induction gs generalizing ns with
  | nil => simp
  | cons g gs ih =>
    simp only [List.foldl_cons]
    refine ⟨(ih _).1, fun s => ?_⟩
    rw [(ih _).2, List.reverse_cons, List.find?_append]
    cases h : gs.reverse.find? fun g => g.name = s with
    | some g' => simp
    | none =>
      by_cases hs : g.name = s
      · simp [hs, ArgNs.set]
      · simp [hs, ArgNs.set, Ne.symm hs]

/-! ## Theorems -/

/-- **C152 (partial).** In the six scripts, leaving out an option is the same as giving it the default that README and help text name,
at the start or at the end of any command line that is accepted, for all options but `--setting` and (where the documented value is not
0) `--burn`. -/
theorem C152_defaults_partial (c : PyConv) (hc : c.Decimal) (S : ExScript) (p : String × String) (hp : p ∈ S.documented)
    (h1 : p.1 ≠ "--setting") (h2 : p ≠ ("--burn", "100")) : SameAsOmitted S.parser c p.1 p.2 := by
  have key : ∃ o ∈ S.parser.opts, o.name = p.1 ∧ o.convert c p.2 = .ok o.default ∧ Plain p.2 := by
    have i32 := hc.int 32
    have i28 := hc.int 28
    have i512 := hc.int 512
    have i0 := hc.int 0
    have f1 := hc.float 1
    have fm := hc.micro
    have e32 : toString 32 = "32" := by decide
    have e28 : toString 28 = "28" := by decide
    have e512 : toString 512 = "512" := by decide
    have e0 : toString 0 = "0" := by decide
    have e1 : toString 1 = "1" := by decide
    rw [e32] at i32
    rw [e28] at i28
    rw [e512] at i512
    rw [e0] at i0
    rw [e1] at f1
    cases S <;> simp only [ExScript.documented, List.mem_cons, List.not_mem_nil, or_false] at hp
    · rcases hp with rfl | rfl | rfl | rfl | rfl | rfl | rfl <;>
        simp_all [ExScript.parser, topoMainParser, ArgSpec.convert, Plain]
    · rcases hp with rfl | rfl | rfl | rfl | rfl | rfl | rfl | rfl <;>
        simp_all [ExScript.parser, phasevelMainParser, ArgSpec.convert, Plain]
    · rcases hp with rfl | rfl | rfl | rfl | rfl | rfl | rfl <;>
        simp_all [ExScript.parser, wlMainParser, ArgSpec.convert, Plain]
    · rcases hp with rfl | rfl <;> simp_all [ExScript.parser, topoPlotParser, ArgSpec.convert, Plain]
    · exact absurd hp h2
    · exact absurd hp h2
  obtain ⟨o, ho, hn, hx, hv⟩ := key
  rw [← hn]
  exact S.same c o ho p.2 hv hx

/-- **C152 (partial).** Command lines of the form that the usage texts show are accepted: the positional words are taken in their order,
an option has the value given last, and its default if it is not given. -/
theorem C152_usage_partial (c : PyConv) (S : ExScript) (gs gs' : List ArgGiven) (hg : ∀ g ∈ gs ++ gs', g.Valid S.parser c) (ws : List String)
    (hw : ∀ w ∈ ws, Plain w) (hl : ws.length = S.parser.pos.length) :
    ∃ ns, S.parser.parseArgs c (gs.flatMap ArgGiven.words ++ ws ++ gs'.flatMap ArgGiven.words) = .ok ns ∧ ns.pos = ws ∧
      (∀ g as bs, gs ++ gs' = as ++ g :: bs → (∀ g' ∈ bs, g'.name ≠ g.name) → ns.opt g.name = g.val) ∧
      ∀ o ∈ S.parser.opts, (∀ g ∈ gs ++ gs', g.name ≠ o.name) → ns.opt o.name = o.default := by
  have e : S.parser.loop c (gs.flatMap ArgGiven.words ++ ws ++ gs'.flatMap ArgGiven.words) S.parser.start =
      .ok (gs'.foldl (fun (ns : ArgNs) g => ns.set g.name g.val)
        ⟨(gs.foldl (fun (ns : ArgNs) g => ns.set g.name g.val) S.parser.start).pos ++ ws, (gs.foldl (fun (ns : ArgNs) g => ns.set g.name g.val) S.parser.start).opt⟩) := by
    rw [List.append_assoc, S.loop_givens c gs (fun g h => hg g (List.mem_append_left _ h)), S.loop_words c ws hw]
    have := S.loop_givens c gs' (fun g h => hg g (List.mem_append_right _ h)) []
      ⟨(gs.foldl (fun (ns : ArgNs) g => ns.set g.name g.val) S.parser.start).pos ++ ws, (gs.foldl (fun (ns : ArgNs) g => ns.set g.name g.val) S.parser.start).opt⟩
    rw [List.append_nil] at this
    rw [this]
    simp [ArgParser.loop]
  have hpos : (gs'.foldl (fun (ns : ArgNs) g => ns.set g.name g.val)
        (ArgNs.mk ((gs.foldl (fun (ns : ArgNs) g => ns.set g.name g.val) S.parser.start).pos ++ ws)
          (gs.foldl (fun (ns : ArgNs) g => ns.set g.name g.val) S.parser.start).opt)).pos = ws := by
    rw [(foldl_set gs' _).1]
    simp only
    rw [(foldl_set gs _).1]
    simp [ArgParser.start]
  have hopt : ∀ s, (gs'.foldl (fun (ns : ArgNs) g => ns.set g.name g.val)
        (ArgNs.mk ((gs.foldl (fun (ns : ArgNs) g => ns.set g.name g.val) S.parser.start).pos ++ ws)
          (gs.foldl (fun (ns : ArgNs) g => ns.set g.name g.val) S.parser.start).opt)).opt s =
      match (gs ++ gs').reverse.find? fun g => g.name = s with
      | some g => g.val
      | none => S.parser.start.opt s := by
    intro s
    rw [(foldl_set gs' _).2, List.reverse_append, List.find?_append]
    cases h : gs'.reverse.find? fun g => g.name = s with
    | some g' => simp
    | none => simp only [Option.none_or]; rw [(foldl_set gs _).2]
  refine ⟨_, ?_, hpos, ?_, ?_⟩
  · unfold ArgParser.parseArgs
    rw [e]
    simp only [bind, Except.bind]
    rw [if_pos (by rw [hpos, hl])]
  · intro g as bs hsplit hlast
    rw [hopt, hsplit]
    have h0 : bs.reverse.find? (fun g' => g'.name = g.name) = none := by
      rw [List.find?_eq_none]
      intro g' hg'
      simpa using hlast g' (List.mem_reverse.1 hg')
    rw [List.reverse_append, List.reverse_cons, List.append_assoc, List.find?_append, h0]
    simp
  · intro o ho hno
    rw [hopt]
    have h0 : (gs ++ gs').reverse.find? (fun g => g.name = o.name) = none := by
      rw [List.find?_eq_none]
      intro g' hg'
      simpa using hno g' (List.mem_reverse.1 hg')
    rw [h0]
    exact S.start_opt ho

/-- **C152, refuted for `--setting`.** The three `main.py` scripts take `synthesis` if the option is left out; the documented default
`myula` is accepted as a value of the option, and no operator can be built with it. -/
theorem C152_setting_refuted (c : PyConv) (S : ExScript) (hS : ("--setting", "myula") ∈ S.documented) (argv : List String) (ns : ArgNs)
    (hg : NotGiven S.parser c "--setting" argv) (h : S.parser.parseArgs c argv = .ok ns) :
    ns.opt "--setting" = .text "synthesis" ∧
      (∃ ns', S.parser.parseArgs c (argv ++ ["--setting", "myula"]) = .ok ns' ∧ ns'.opt "--setting" = .text "myula") ∧
      ∀ (n : ℕ) (data : DataVec n) (sig : SigD) (t m : Option OpPair) (k : Option ℕ) (F : ForwardOp n),
        ForwardOp.init data sig "myula" t m k ≠ .ok F := by
  have key : (⟨"--setting", .str, .text "synthesis"⟩ : ArgSpec) ∈ S.parser.opts := by
    cases S <;> simp_all [ExScript.documented, ExScript.parser, topoMainParser, phasevelMainParser, wlMainParser]
  have h3 := S.given c (v := "myula") (x := .text "myula") key (by simp [Plain]) rfl hg h
  refine ⟨S.omitted c key hg h, ⟨_, h3.2, by simp [ArgNs.set]⟩, ?_⟩
  intro n data sig t m k F hF
  obtain ⟨_, _, hF⟩ := bind_ok hF
  simp [Setting.parse] at hF

/-- **C152, refuted for `--burn`.** The README files of the other two examples and the help texts say that 100 samples are left out by
default; it is 1000, so that the scripts raise for every results file with fewer samples, for which `--burn 100` works. -/
theorem C152_burn_refuted (c : PyConv) (hc : c.Decimal) (S : ExScript) (hS : S = .phasevelPlot ∨ S = .wlPlot) (argv : List String)
    (ns : ArgNs) (hg : NotGiven S.parser c "--burn" argv) (h : S.parser.parseArgs c argv = .ok ns) (cplx : Bool) (npix : ℕ)
    (toPix : List ℂ → Py (List ℂ)) (img : List ℂ → List ℂ) (chain : List (List ℂ))
    (hi : ∀ s ∈ chain, toPix s = .ok (img s) ∧ (img s).length = npix) (h1 : 100 ≤ chain.length) (h2 : chain.length < 1000) :
    (∃ b : ℤ, ns.opt "--burn" = .num b ∧ chainPix cplx chain.length b npix toPix chain = .error .ValueError) ∧
      ∃ ns' rows, S.parser.parseArgs c (argv ++ ["--burn", "100"]) = .ok ns' ∧ ∃ b : ℤ, ns'.opt "--burn" = .num b ∧
        chainPix cplx chain.length b npix toPix chain = .ok rows ∧ rows.length = chain.length - 100 := by
  have key : (⟨"--burn", .int, .num 1000⟩ : ArgSpec) ∈ S.parser.opts := by
    rcases hS with rfl | rfl <;> simp [ExScript.parser, phasevelPlotParser, wlPlotParser]
  have i100 := hc.int 100
  have e100 : toString 100 = "100" := by decide
  rw [e100] at i100
  have h3 := S.given c (v := "100") (x := .num ((100 : ℤ) : ℝ)) key (by simp [Plain]) (by simp [ArgSpec.convert, i100]) hg h
  obtain ⟨rows, hr, hl, -⟩ := C89_rows cplx npix toPix img chain hi 100 h1
  refine ⟨⟨1000, by rw [S.omitted c key hg h]; simp, ?_⟩, _, rows, h3.2, 100, by simp [ArgNs.set], hr, hl⟩
  unfold chainPix
  rw [if_pos (by omega)]

/-- **C152, refuted for `--burn` of the topography example.** Its README says 0 and its help text 100; it is 0, and the 100 would leave
nothing of the samples of a run of the script (100). -/
theorem C152_topo_burn_refuted (c : PyConv) (hc : c.Decimal) (argv : List String) (ns : ArgNs) (hg : NotGiven topoPlotParser c "--burn" argv)
    (h : topoPlotParser.parseArgs c argv = .ok ns) :
    ns.opt "--burn" = .num 0 ∧ ∃ ns', topoPlotParser.parseArgs c (argv ++ ["--burn", "100"]) = .ok ns' ∧ ns'.opt "--burn" = .num 100 := by
  have key : (⟨"--burn", .int, .num 0⟩ : ArgSpec) ∈ ExScript.topoPlot.parser.opts := by simp [ExScript.parser, topoPlotParser]
  have i100 := hc.int 100
  have e100 : toString 100 = "100" := by decide
  rw [e100] at i100
  have h3 := ExScript.topoPlot.given c (v := "100") (x := .num ((100 : ℤ) : ℝ)) key (by simp [Plain]) (by simp [ArgSpec.convert, i100]) hg h
  exact ⟨ExScript.topoPlot.omitted c key hg h, _, h3.2, by simp [ArgNs.set]⟩

/-- **C152, refuted for positional arguments.** `phasevel/main.py` gives defaults for its two file names, but a command line that does
not have both is not accepted. -/
theorem C152_positional_refuted (c : PyConv) (gs : List ArgGiven) (hg : ∀ g ∈ gs, g.Valid phasevelMainParser c) (ws : List String)
    (hw : ∀ w ∈ ws, Plain w) (hl : ws.length < 2) :
    (∀ p ∈ phasevelMainParser.pos, p.2.isSome) ∧ phasevelMainParser.parseArgs c (gs.flatMap ArgGiven.words ++ ws) = .error exitErr := by
  refine ⟨by simp [phasevelMainParser], ?_⟩
  have e1 := ExScript.phasevelMain.loop_givens c gs hg ws phasevelMainParser.start
  have e2 := ExScript.phasevelMain.loop_words c ws hw [] (gs.foldl (fun (ns : ArgNs) g => ns.set g.name g.val) phasevelMainParser.start)
  rw [List.append_nil] at e2
  rw [e2] at e1
  unfold ArgParser.parseArgs
  erw [e1]
  simp only [ArgParser.loop, bind, Except.bind]
  rw [if_neg]
  simp only [(foldl_set gs _).1, ArgParser.start, List.nil_append]
  simp [phasevelMainParser]
  omega

/-- **C152, refuted as a whole**, whatever Python's conversions do. -/
theorem C152_refuted (c : PyConv) : ¬ DocumentedDefaults c := by
  intro hd
  have e : ∃ ns, ExScript.topoMain.parser.parseArgs c [] = .ok ns := ⟨_, rfl⟩
  obtain ⟨ns, h⟩ := e
  have hg : NotGiven ExScript.topoMain.parser c "--setting" [] := by intro t ht; simp at ht
  have h1 := C152_setting_refuted c .topoMain (by simp [ExScript.documented]) [] ns hg h
  have h2 := hd .topoMain ("--setting", "myula") (by simp [ExScript.documented]) [] ns hg h
  obtain ⟨ns', h3, h4⟩ := h1.2.1
  rw [h2.2] at h3
  cases h3
  rw [h1.1] at h4
  simp at h4

/-! ## Examples -/

/-- Conversions of decimal numbers and of `1e-6`. -/
noncomputable def smallConv : PyConv :=
  ⟨fun s => s.toNat?.map fun n => (n : ℤ), fun s => if s = "1e-6" then some (1 / 10 ^ 6) else s.toNat?.map fun n => (n : ℝ), fun _ => false⟩

theorem smallConv_decimal : smallConv.Decimal where
  int n := by
    simp only [smallConv]
    rw [show toString n = Nat.repr n from rfl, Nat.toNat?_repr]
    rfl
  float n := by
    simp only [smallConv]
    rw [show toString n = Nat.repr n from rfl, if_neg, Nat.toNat?_repr]
    · rfl
    · intro h
      have he : 'e' ∈ Nat.toDigits 10 n := by rw [← Nat.toList_repr, h]; simp
      exact absurd (Nat.isDigit_of_mem_toDigits (by omega) (by omega) he) (by decide)
  micro := by simp [smallConv]

/-- `--L 64` and the two files for the phase velocities: giving `--delta 1e-6` changes nothing. -/
example : ∃ ns, ExScript.phasevelMain.parser.parseArgs smallConv ["--L", "64", "a.txt", "b.npz"] = .ok ns ∧
    ns.pos = ["a.txt", "b.npz"] ∧ ns.opt "--L" = .num 64 ∧ ns.opt "--delta" = .num (1 / 10 ^ 6) ∧
    ExScript.phasevelMain.parser.parseArgs smallConv ["--L", "64", "a.txt", "b.npz", "--delta", "1e-6"] = .ok ns := by
  have h64 : smallConv.int "64" = some 64 := smallConv_decimal.int 64
  obtain ⟨ns, h, hp, ho, hd⟩ := C152_usage_partial smallConv .phasevelMain [.value ⟨"--L", .int, .num 28⟩ "64" (.num ((64 : ℤ) : ℝ))] []
    (by
      intro g hg
      simp only [List.append_nil, List.mem_singleton] at hg
      subst hg
      exact ⟨by simp [ExScript.parser, phasevelMainParser], by simp [Plain], 64, h64, rfl⟩)
    ["a.txt", "b.npz"] (by simp [Plain]) (by simp [ExScript.parser, phasevelMainParser])
  have h : ExScript.phasevelMain.parser.parseArgs smallConv ["--L", "64", "a.txt", "b.npz"] = .ok ns := h
  refine ⟨ns, h, hp, ?_, ?_, ?_⟩
  · simpa [ArgGiven.name, ArgGiven.val] using ho _ [] [] rfl (by simp)
  · exact hd ⟨"--delta", .float, .num (1 / 10 ^ 6)⟩ (by simp [ExScript.parser, phasevelMainParser]) (by simp [ArgGiven.name])
  · refine (C152_defaults_partial smallConv smallConv_decimal .phasevelMain ("--delta", "1e-6") (by simp [ExScript.documented])
      (by simp) (by simp) _ ns ?_ h).2
    intro t ht o v hc
    simp only [List.mem_cons, List.not_mem_nil, or_false] at ht
    rcases ht with rfl | rfl | rfl | rfl <;>
      simp [ArgParser.classify, ExScript.parser, phasevelMainParser] at hc
    rw [← hc.1]
    simp

/-- Abbreviations and `=`: `--b=5` sets the burn-in, `--s` could be two options. -/
example : (∃ ns, ExScript.wlPlot.parser.parseArgs smallConv ["r.hdf5", ".", "--b=5"] = .ok ns ∧ ns.opt "--burn" = .num 5) ∧
    ExScript.wlPlot.parser.parseArgs smallConv ["r.hdf5", ".", "--s", "x"] = .error exitErr := by
  have h5 : smallConv.int "5" = some 5 := smallConv_decimal.int 5
  constructor
  · refine ⟨⟨["r.hdf5", "."], (wlPlotParser.start.set "--burn" (.num 5)).opt⟩, ?_, by simp [ArgNs.set]⟩
    simp [ArgParser.parseArgs, ArgParser.loop, ArgParser.classify, ExScript.parser, wlPlotParser, helpSpec, ArgSpec.convert, h5, ArgNs.set,
      ArgParser.start, bind, Except.bind]
  · simp [ArgParser.parseArgs, ArgParser.loop, ArgParser.classify, ExScript.parser, wlPlotParser, helpSpec, bind, Except.bind]

/-- Plotting 500 samples with the options left out raises. -/
example : ∃ b : ℤ, (∃ ns, phasevelPlotParser.parseArgs smallConv ["r.hdf5", "."] = .ok ns ∧ ns.opt "--burn" = .num b) ∧
    chainPix false (500 : ℕ) b 1 (fun s => .ok s) (List.replicate 500 [1]) = .error .ValueError := by
  obtain ⟨ns, h, -, -, -⟩ := C152_usage_partial smallConv .phasevelPlot [] [] (by simp) ["r.hdf5", "."] (by simp [Plain])
    (by simp [ExScript.parser, phasevelPlotParser])
  have h : ExScript.phasevelPlot.parser.parseArgs smallConv ["r.hdf5", "."] = .ok ns := h
  obtain ⟨⟨b, hb, hr⟩, -⟩ := C152_burn_refuted smallConv smallConv_decimal .phasevelPlot (.inl rfl) _ ns (by
      intro t ht o v hc
      simp only [List.mem_cons, List.not_mem_nil, or_false] at ht
      rcases ht with rfl | rfl <;> simp [ArgParser.classify, ExScript.parser, phasevelPlotParser] at hc)
    h false 1 (fun s => .ok s) id (List.replicate 500 [1]) (by intro s hs; rw [List.eq_of_mem_replicate hs]; exact ⟨rfl, rfl⟩)
    (by rw [List.length_replicate]; norm_num) (by rw [List.length_replicate]; norm_num)
  rw [List.length_replicate] at hr
  exact ⟨b, ⟨ns, h, hb⟩, hr⟩

/-- The topography scripts need no argument, and one results file and a directory. -/
example : (∃ ns, topoMainParser.parseArgs smallConv [] = .ok ns) ∧ (∃ ns, topoPlotParser.parseArgs smallConv ["r.hdf5", "."] = .ok ns) ∧
    phasevelMainParser.parseArgs smallConv ["--nsim", "a.txt"] = .error exitErr := by
  obtain ⟨ns, h, -, -, -⟩ := C152_usage_partial smallConv .topoPlot [] [] (by simp) ["r.hdf5", "."] (by simp [Plain])
    (by simp [ExScript.parser, topoPlotParser])
  refine ⟨⟨_, rfl⟩, ⟨ns, h⟩, ?_⟩
  exact (C152_positional_refuted smallConv [.flag ⟨"--nsim", .flag, .flag false⟩] (by
    intro g hg
    simp only [List.mem_singleton] at hg
    subst hg
    exact ⟨by simp [phasevelMainParser], rfl⟩) ["a.txt"] (by simp [Plain]) (by simp)).2

theorem ArgSpec.convert_error {o : ArgSpec} {c : PyConv} {v : String} {e : PyErr} (h : o.convert c v = .error e) : e = exitErr := by
  unfold ArgSpec.convert at h
  split at h
  · cases h
  · split at h
    · cases h
    · exact (Except.error.inj h).symm
  · split at h
    · cases h
    · exact (Except.error.inj h).symm
  · exact (Except.error.inj h).symm

/-- Words that cannot be the value of an option and make the parser stop do so whatever comes before them. -/
theorem ArgParser.loop_stops (P : ArgParser) (c : PyConv) (t : String) (ts : List String) (ht : P.classify c.neg t ≠ .word)
    (h : ∀ ns, P.loop c (t :: ts) ns = .error exitErr) : ∀ (k : ℕ) (pre : List String) (_ : pre.length ≤ k) (ns : ArgNs),
      P.loop c (pre ++ t :: ts) ns = .error exitErr := by
  intro k
  induction k with
  | zero =>
    intro pre hk ns
    rw [List.length_eq_zero_iff.mp (Nat.le_zero.mp hk)]
    exact h ns
  | succ k ih =>
    intro pre hk ns
    cases pre with
    | nil => exact h ns
    | cons a pre =>
      have hk' : pre.length ≤ k := by simpa using hk
      rw [List.cons_append]
      cases hc : P.classify c.neg a with
      | word => rw [P.loop_word c _ _ hc]; exact ih _ hk' _
      | bad => exact P.loop_bad c _ _ hc
      | opt o v =>
        cases v with
        | some v =>
          rw [ArgParser.loop, hc]
          cases hx : o.convert c v with
          | error e => rw [ArgSpec.convert_error hx] at hx; simp only [hx, bind, Except.bind]
          | ok x => simp only [hx, bind, Except.bind]; exact ih _ hk' _
        | none =>
          by_cases hh : o.kind = .help
          · exact P.loop_help c _ _ hc hh
          by_cases hf : o.kind = .flag
          · rw [P.loop_flag c _ _ hc hf]; exact ih _ hk' _
          cases pre with
          | nil => exact P.loop_novalue c _ _ hc hh hf ht
          | cons b pre =>
            have hk2 : pre.length ≤ k := by simp at hk'; omega
            rw [List.cons_append]
            by_cases hb : P.classify c.neg b = .word
            · rw [P.loop_value c _ _ hc hh hf hb]
              cases hx : o.convert c b with
              | error e => rw [ArgSpec.convert_error hx]; rfl
              | ok x => exact ih _ hk2 _
            · exact P.loop_novalue c _ _ hc hh hf hb

theorem ExScript.name_form (S : ExScript) {o : ArgSpec} (ho : o ∈ S.parser.opts) :
    ∃ cs : List Char, o.name.toList = '-' :: '-' :: cs ∧ '=' ∉ cs ∧ o.name ≠ "--help" := by
  cases S <;> simp only [ExScript.parser, topoMainParser, phasevelMainParser, wlMainParser, topoPlotParser, phasevelPlotParser, wlPlotParser,
    List.mem_cons, List.not_mem_nil, or_false] at ho <;> casesm* _ ∨ _ <;> subst_vars <;> exact ⟨_, rfl, by decide, by decide⟩

/-- `--name=value`. -/
theorem ExScript.classify_eq (S : ExScript) (neg : String → Bool) {o : ArgSpec} (ho : o ∈ S.parser.opts) (t v : String)
    (ht : t.toList = o.name.toList ++ '=' :: v.toList) : S.parser.classify neg t = .opt o (some v) := by
  obtain ⟨cs, h1, h2, h3⟩ := S.name_form ho
  have hnone : S.parser.opts.find? (fun o => o.name = t) = none := by
    rw [List.find?_eq_none]
    intro o' ho' h
    have h := of_decide_eq_true h
    obtain ⟨cs', h1', h2', -⟩ := S.name_form ho'
    rw [h, ht, h1] at h1'
    simp only [List.cons_append, List.cons.injEq, true_and] at h1'
    exact h2' (h1' ▸ by simp)
  have htw : (cs ++ '=' :: v.toList).takeWhile (· ≠ '=') = cs := by
    rw [List.takeWhile_append_of_pos (fun a ha => by simpa using fun h : a = '=' => h2 (h ▸ ha))]
    simp
  have hdw : (cs ++ '=' :: v.toList).dropWhile (· ≠ '=') = '=' :: v.toList := by
    rw [List.dropWhile_append_of_pos (fun a ha => by simpa using fun h : a = '=' => h2 (h ▸ ha))]
    simp
  have hf : (helpSpec :: S.parser.opts).find? (fun o' => o'.name.toList = '-' :: '-' :: cs) = some o := by
    rw [List.find?_cons_of_neg]
    · rw [← find_name S.nodup ho]
      congr 1
      funext o'
      rw [← h1]
      simp only [String.toList_inj]
    · rw [← h1]
      simp only [String.toList_inj, decide_eq_true_eq, helpSpec]
      exact fun h => h3 h.symm
  unfold ArgParser.classify
  rw [hnone, ht, h1]
  simp only [List.cons_append, htw, hdw, hf]
  simp

/-- C152: what the scripts do not accept.  Values that are not numbers, options without a value, short options and unknown options make a script
stop with `SystemExit`, wherever on the command line they stand. -/
theorem C152_rejects (c : PyConv) (S : ExScript) (pre post : List String) :
    (∀ o ∈ S.parser.opts, ∀ v, (o.kind = .int ∧ c.int v = none ∨ o.kind = .float ∧ c.float v = none) →
      S.parser.parseArgs c (pre ++ o.name :: v :: post) = .error exitErr ∧
      ∀ t, t.toList = o.name.toList ++ '=' :: v.toList → S.parser.parseArgs c (pre ++ t :: post) = .error exitErr) ∧
    (∀ o ∈ S.parser.opts, o.kind ≠ .flag → S.parser.parseArgs c (pre ++ [o.name]) = .error exitErr) ∧
    (∀ (t : String) (a : Char) (cs : List Char), t.toList = '-' :: a :: cs → a ≠ '-' → ' ' ∉ cs → c.neg t = false →
      S.parser.parseArgs c (pre ++ t :: post) = .error exitErr) ∧
    ∀ (t : String) (cs : List Char), t.toList = '-' :: '-' :: cs → ' ' ∉ cs →
      (∀ o ∈ S.parser.opts, ¬ cs.takeWhile (· ≠ '=') <+: o.name.toList.drop 2) → ¬ cs.takeWhile (· ≠ '=') <+: "help".toList →
      S.parser.parseArgs c (pre ++ t :: post) = .error exitErr := by
  have key : ∀ t ts, S.parser.classify c.neg t ≠ .word → (∀ ns, S.parser.loop c (t :: ts) ns = .error exitErr) →
      S.parser.parseArgs c (pre ++ t :: ts) = .error exitErr := by
    intro t ts h1 h2
    unfold ArgParser.parseArgs
    rw [S.parser.loop_stops c t ts h1 h2 _ pre le_rfl]
    rfl
  have hbad : ∀ t ts, S.parser.classify c.neg t = .bad → S.parser.parseArgs c (pre ++ t :: ts) = .error exitErr := by
    intro t ts h
    exact key t ts (by rw [h]; simp) fun ns => S.parser.loop_bad c _ _ h
  refine ⟨fun o ho v hv => ⟨?_, fun t ht => ?_⟩, fun o ho hk => ?_, fun t a cs ht ha hcs hn => hbad t post ?_,
    fun t cs ht hcs ho hh => hbad t post ?_⟩
  · have hc := S.classify_name c.neg ho
    have hh : o.kind ≠ .help := by rcases hv with h | h <;> simp [h.1]
    have hf : o.kind ≠ .flag := by rcases hv with h | h <;> simp [h.1]
    have hx : o.convert c v = .error exitErr := by rcases hv with h | h <;> simp [ArgSpec.convert, h.1, h.2]
    refine key _ _ (by rw [hc]; simp) fun ns => ?_
    by_cases hw : S.parser.classify c.neg v = .word
    · rw [S.parser.loop_value c _ _ hc hh hf hw, hx]
      rfl
    · exact S.parser.loop_novalue c _ _ hc hh hf hw
  · have hc := S.classify_eq c.neg ho t v ht
    have hx : o.convert c v = .error exitErr := by rcases hv with h | h <;> simp [ArgSpec.convert, h.1, h.2]
    refine key _ _ (by rw [hc]; simp) fun ns => ?_
    rw [S.parser.loop_eqval c _ _ hc, hx]
    rfl
  · have hc := S.classify_name c.neg ho
    exact key _ _ (by rw [hc]; simp) fun ns => S.parser.loop_last c _ hc hk
  · have hnone : S.parser.opts.find? (fun o => o.name = t) = none := by
      rw [List.find?_eq_none]
      intro o' ho' h
      have h := of_decide_eq_true h
      obtain ⟨cs', h1', -, -⟩ := S.name_form ho'
      rw [h, ht] at h1'
      simp only [List.cons.injEq, true_and] at h1'
      exact ha h1'.1
    unfold ArgParser.classify
    rw [hnone, ht]
    by_cases h1 : a = 'h'
    · subst h1
      rfl
    · dsimp only
      split
      · rename_i h2
        simp only [List.cons.injEq, true_and] at h2
        exact absurd h2.1 ha
      · rfl
      · rename_i h2
        simp only [List.cons.injEq, true_and] at h2
        obtain ⟨rfl, rfl⟩ := h2
        simp [hn, hcs]
      · rename_i h2
        exact absurd rfl (h2 _ _)
  · have hp : ∀ o ∈ S.parser.opts, ¬ '-' :: '-' :: cs.takeWhile (· ≠ '=') <+: o.name.toList := by
      intro o ho' h
      obtain ⟨cs', h1', -, -⟩ := S.name_form ho'
      refine ho o ho' ?_
      rw [h1'] at h ⊢
      simpa using h
    have hnone : S.parser.opts.find? (fun o => o.name = t) = none := by
      rw [List.find?_eq_none]
      intro o' ho' h
      have h := of_decide_eq_true h
      refine hp o' ho' ?_
      rw [h, ht]
      simpa using List.takeWhile_prefix _
    have hhelp : ¬ '-' :: '-' :: cs.takeWhile (· ≠ '=') <+: helpSpec.name.toList := by
      intro h
      refine hh ?_
      rw [show helpSpec.name.toList = '-' :: '-' :: "help".toList from rfl] at h
      simpa using h
    have hfind : (helpSpec :: S.parser.opts).find? (fun o => o.name.toList = '-' :: '-' :: cs.takeWhile (· ≠ '=')) = none := by
      rw [List.find?_eq_none]
      intro o' ho' h
      have h := of_decide_eq_true h
      rcases List.mem_cons.mp ho' with rfl | ho'
      · exact hhelp (h ▸ List.prefix_rfl)
      · exact hp o' ho' (h ▸ List.prefix_rfl)
    have hfilter : (helpSpec :: S.parser.opts).filter (fun o => '-' :: '-' :: cs.takeWhile (· ≠ '=') <+: o.name.toList) = [] := by
      rw [List.filter_eq_nil_iff]
      intro o' ho' h
      have h := of_decide_eq_true h
      rcases List.mem_cons.mp ho' with rfl | ho'
      · exact hhelp h
      · exact hp o' ho' h
    unfold ArgParser.classify
    rw [hnone, ht]
    simp only [hfind, hfilter, if_neg hcs]

/-- Two ways of writing an option that do the same do the same anywhere. -/
theorem ArgParser.loop_congr (P : ArgParser) (c : PyConv) (t t' : String) (ts ts' : List String) (ht : P.classify c.neg t ≠ .word)
    (ht' : P.classify c.neg t' ≠ .word) (h : ∀ ns, P.loop c (t :: ts) ns = P.loop c (t' :: ts') ns) :
    ∀ (k : ℕ) (pre : List String) (_ : pre.length ≤ k) (ns : ArgNs), P.loop c (pre ++ t :: ts) ns = P.loop c (pre ++ t' :: ts') ns := by
  intro k
  induction k with
  | zero =>
    intro pre hk ns
    rw [List.length_eq_zero_iff.mp (Nat.le_zero.mp hk)]
    exact h ns
  | succ k ih =>
    intro pre hk ns
    cases pre with
    | nil => exact h ns
    | cons a pre =>
      have hk' : pre.length ≤ k := by simpa using hk
      rw [List.cons_append, List.cons_append]
      cases hc : P.classify c.neg a with
      | word => rw [P.loop_word c _ _ hc, P.loop_word c _ _ hc]; exact ih _ hk' _
      | bad => rw [P.loop_bad c _ _ hc, P.loop_bad c _ _ hc]
      | opt o v =>
        cases v with
        | some v =>
          rw [P.loop_eqval c _ _ hc, P.loop_eqval c _ _ hc]
          cases hx : o.convert c v with
          | error e => rfl
          | ok x => exact ih _ hk' _
        | none =>
          by_cases hh : o.kind = .help
          · rw [P.loop_help c _ _ hc hh, P.loop_help c _ _ hc hh]
          by_cases hf : o.kind = .flag
          · rw [P.loop_flag c _ _ hc hf, P.loop_flag c _ _ hc hf]; exact ih _ hk' _
          cases pre with
          | nil => exact (P.loop_novalue c _ _ hc hh hf ht).trans (P.loop_novalue c _ _ hc hh hf ht').symm
          | cons b pre =>
            have hk2 : pre.length ≤ k := by simp at hk'; omega
            rw [List.cons_append, List.cons_append]
            by_cases hb : P.classify c.neg b = .word
            · rw [P.loop_value c _ _ hc hh hf hb, P.loop_value c _ _ hc hh hf hb]
              cases hx : o.convert c b with
              | error e => rfl
              | ok x => exact ih _ hk2 _
            · rw [P.loop_novalue c _ _ hc hh hf hb, P.loop_novalue c _ _ hc hh hf hb]

/-- An unambiguous beginning of a name. -/
theorem ExScript.classify_short (S : ExScript) (neg : String → Bool) {o : ArgSpec} (ho : o ∈ S.parser.opts) (t : String) (cs : List Char)
    (ht : t.toList = '-' :: '-' :: cs) (hp : t.toList <+: o.name.toList) (hu : ∀ o' ∈ S.parser.opts, t.toList <+: o'.name.toList → o' = o)
    (hh : ¬ t.toList <+: "--help".toList) : S.parser.classify neg t = .opt o none := by
  by_cases he : t = o.name
  · rw [he]
    exact S.classify_name neg ho
  obtain ⟨cs', h1, h2, -⟩ := S.name_form ho
  have hcs : cs <+: cs' := by
    rw [ht, h1] at hp
    simpa using hp
  have heq : '=' ∉ cs := fun h => h2 (hcs.subset h)
  have htw : cs.takeWhile (· ≠ '=') = cs := by
    have := List.takeWhile_append_of_pos (p := (· ≠ '=')) (l₁ := cs) (l₂ := [])
      (fun a ha => by simpa using fun h : a = '=' => heq (h ▸ ha))
    simpa using this
  have hnone : ∀ o' ∈ S.parser.opts, o'.name ≠ t := by
    intro o' ho' h
    have := hu o' ho' (h ▸ List.prefix_rfl)
    exact he (this ▸ h.symm)
  have hf1 : S.parser.opts.find? (fun o => o.name = t) = none := by
    rw [List.find?_eq_none]
    exact fun o' ho' h => hnone o' ho' (of_decide_eq_true h)
  have hf2 : (helpSpec :: S.parser.opts).find? (fun o => o.name.toList = '-' :: '-' :: cs) = none := by
    rw [List.find?_eq_none]
    intro o' ho' h
    have h := of_decide_eq_true h
    rcases List.mem_cons.mp ho' with rfl | ho'
    · exact hh (by rw [ht, ← h]; exact List.prefix_rfl)
    · exact hnone o' ho' (String.toList_inj.mp (h.trans ht.symm))
  have hf3 : (helpSpec :: S.parser.opts).filter (fun o => '-' :: '-' :: cs <+: o.name.toList) = [o] := by
    have hh' : ¬ decide (t.toList <+: helpSpec.name.toList) = true := fun h => hh (of_decide_eq_true h)
    rw [← ht, List.filter_cons_of_neg (p := fun o : ArgSpec => decide (t.toList <+: o.name.toList)) hh']
    have hnd := S.nodup
    have hnd' : S.parser.opts.Nodup := List.Nodup.of_map _ hnd
    have : ∀ l : List ArgSpec, l.Nodup → o ∈ l → (∀ o' ∈ l, t.toList <+: o'.name.toList → o' = o) →
        l.filter (fun o => t.toList <+: o.name.toList) = [o] := by
      intro l hl hol hul
      induction l with
      | nil => simp at hol
      | cons a l ih =>
        rw [List.nodup_cons] at hl
        by_cases ha : t.toList <+: a.name.toList
        · obtain rfl := hul a List.mem_cons_self ha
          rw [List.filter_cons_of_pos (by simpa using ha), List.cons.injEq]
          refine ⟨rfl, List.filter_eq_nil_iff.mpr fun o' ho' h => ?_⟩
          exact hl.1 (hul o' (List.mem_cons_of_mem _ ho') (of_decide_eq_true h) ▸ ho')
        · rw [List.filter_cons_of_neg (by simpa using ha)]
          rcases List.mem_cons.mp hol with rfl | hol
          · exact absurd hp ha
          · exact ih hl.2 hol fun o' ho' => hul o' (List.mem_cons_of_mem _ ho')
    exact this _ hnd' ho hu
  unfold ArgParser.classify
  rw [hf1, ht]
  simp only [htw, hf2, hf3, if_neg heq]

/-- C152, other ways of writing: `--name=value` does what `--name value` does, and an unambiguous beginning of a name does what the name does,
wherever they stand. -/
theorem C152_forms (c : PyConv) (S : ExScript) (pre post : List String) (o : ArgSpec) (ho : o ∈ S.parser.opts) :
    (∀ (v t : String), Plain v → o.kind ≠ .flag → t.toList = o.name.toList ++ '=' :: v.toList →
      S.parser.parseArgs c (pre ++ t :: post) = S.parser.parseArgs c (pre ++ o.name :: v :: post)) ∧
    ∀ (t : String) (cs : List Char), t.toList = '-' :: '-' :: cs → t.toList <+: o.name.toList →
      (∀ o' ∈ S.parser.opts, t.toList <+: o'.name.toList → o' = o) → ¬ t.toList <+: "--help".toList →
      S.parser.parseArgs c (pre ++ t :: post) = S.parser.parseArgs c (pre ++ o.name :: post) := by
  have hc := S.classify_name c.neg ho
  constructor
  · intro v t hv hf ht
    have hc' := S.classify_eq c.neg ho t v ht
    unfold ArgParser.parseArgs
    rw [S.parser.loop_congr c t o.name post (v :: post) (by rw [hc']; simp) (by rw [hc]; simp) (fun ns => ?_) _ pre le_rfl]
    have hh : o.kind ≠ .help := by
      cases S <;> simp only [ExScript.parser, topoMainParser, phasevelMainParser, wlMainParser, topoPlotParser, phasevelPlotParser, wlPlotParser,
        List.mem_cons, List.not_mem_nil, or_false] at ho <;> casesm* _ ∨ _ <;> subst_vars <;> simp
    rw [S.parser.loop_eqval c _ _ hc', S.parser.loop_value c _ _ hc hh hf (S.classify_plain c.neg hv)]
  · intro t cs ht hp hu hh
    have hc' := S.classify_short c.neg ho t cs ht hp hu hh
    unfold ArgParser.parseArgs
    rw [S.parser.loop_congr c t o.name post post (by rw [hc']; simp) (by rw [hc]; simp) (fun ns => ?_) _ pre le_rfl]
    rw [ArgParser.loop.eq_def, ArgParser.loop.eq_def]
    simp only [hc, hc']

/-- The hypotheses are met by `--burn=5` and `--b` in the plot script of weak lensing. -/
example : ∃ o ∈ ExScript.wlPlot.parser.opts, o.name = "--burn" ∧ Plain "5" ∧ o.kind ≠ .flag ∧
    "--burn=5".toList = o.name.toList ++ '=' :: "5".toList ∧ "--b".toList <+: o.name.toList ∧
    (∀ o' ∈ ExScript.wlPlot.parser.opts, "--b".toList <+: o'.name.toList → o' = o) ∧ ¬ "--b".toList <+: "--help".toList := by
  refine ⟨⟨"--burn", .int, .num 1000⟩, by simp [ExScript.parser, wlPlotParser], rfl, by simp [Plain], by simp, rfl, by decide, fun o ho h => ?_,
    by decide⟩
  simp only [ExScript.parser, wlPlotParser, List.mem_cons, List.not_mem_nil, or_false] at ho
  casesm* _ ∨ _ <;> subst_vars <;> first | rfl | exact absurd h (by decide)

/-- C152: the options without a value are off unless given, and on if given after an accepted command line. -/
theorem C152_flags (c : PyConv) (S : ExScript) (name : String) (hn : name ∈ match S with
      | .topoMain => ["--makenoise"]
      | .phasevelMain => ["--nsim"]
      | .wlMain => []
      | .topoPlot | .phasevelPlot => ["--save_npy"]
      | .wlPlot => ["--save_npy", "--no-mask"]) (argv : List String) (ns : ArgNs) (h : S.parser.parseArgs c argv = .ok ns) :
    (NotGiven S.parser c name argv → ns.opt name = .flag false) ∧
      ∃ ns', S.parser.parseArgs c (argv ++ [name]) = .ok ns' ∧ ns'.opt name = .flag true ∧ ns'.pos = ns.pos ∧
        ∀ s ≠ name, ns'.opt s = ns.opt s := by
  have key : (⟨name, .flag, .flag false⟩ : ArgSpec) ∈ S.parser.opts := by
    cases S <;> simp only [List.mem_cons, List.not_mem_nil, or_false] at hn <;> try rcases hn with rfl | rfl
    all_goals simp_all [ExScript.parser, topoMainParser, phasevelMainParser, topoPlotParser, phasevelPlotParser, wlPlotParser]
  refine ⟨fun hg => S.omitted c key hg h, ns.set name (.flag true), ?_, by simp [ArgNs.set], rfl, fun s hs => by simp [ArgNs.set, hs]⟩
  obtain ⟨h1, h2⟩ := ArgParser.parse_ok h
  have hc := S.classify_name c.neg key
  unfold ArgParser.parseArgs
  rw [S.parser.loop_append c argv _ _ _ h1, S.parser.loop_flag c _ _ hc rfl]
  simp [ArgParser.loop, bind, Except.bind, ArgNs.set, h2]

/-- A command line that meets the hypotheses. -/
example : ∃ ns, ExScript.wlPlot.parser.parseArgs smallConv ["r.hdf5", "."] = .ok ns ∧
    NotGiven ExScript.wlPlot.parser smallConv "--no-mask" ["r.hdf5", "."] := by
  obtain ⟨ns, h, -, -, -⟩ := C152_usage_partial smallConv .wlPlot [] [] (by simp) ["r.hdf5", "."] (by simp [Plain])
    (by simp [ExScript.parser, wlPlotParser])
  refine ⟨ns, h, fun t ht o v hc => ?_⟩
  have hp : Plain t := by
    simp only [List.mem_cons, List.not_mem_nil, or_false] at ht
    rcases ht with rfl | rfl <;> simp [Plain]
  rw [ExScript.wlPlot.classify_plain _ hp] at hc
  cases hc

/-- The hypotheses are met: `--L x`, `--L=x`, a final `--mu`, `-b` and `--lmax=3` are all wrong in the script of the phase velocities. -/
example : (∃ o ∈ ExScript.phasevelMain.parser.opts, o.name = "--L" ∧ o.kind = .int ∧
      (⟨fun s => if s = "x" then none else smallConv.int s, smallConv.float, smallConv.neg⟩ : PyConv).int "x" = none ∧
      "--L=x".toList = o.name.toList ++ '=' :: "x".toList) ∧ (∃ o ∈ ExScript.phasevelMain.parser.opts, o.name = "--mu" ∧ o.kind ≠ .flag) ∧
    ("-b".toList = '-' :: 'b' :: [] ∧ smallConv.neg "-b" = false) ∧ ' ' ∉ "lmax=3".toList ∧
    (∀ o ∈ ExScript.phasevelMain.parser.opts, ¬ "lmax=3".toList.takeWhile (· ≠ '=') <+: o.name.toList.drop 2) ∧
    ¬ "lmax=3".toList.takeWhile (· ≠ '=') <+: "help".toList := by
  refine ⟨⟨⟨"--L", .int, .num 28⟩, by simp [ExScript.parser, phasevelMainParser], rfl, rfl, by simp, rfl⟩,
    ⟨⟨"--mu", .float, .num 1⟩, by simp [ExScript.parser, phasevelMainParser], rfl, by simp⟩, ⟨rfl, rfl⟩, by decide, fun o ho => ?_, by decide⟩
  simp only [ExScript.parser, phasevelMainParser, List.mem_cons, List.not_mem_nil, or_false] at ho
  casesm* _ ∨ _ <;> subst_vars <;> decide

end Pxmcmc
