import Verif.Model.Cli
import Verif.Model.PlotCmd
import Verif.Model.Lsd
import Verif.Model.Ticks

/-!
# Model of the command lines of the scripts in `starwinds_magnetogram/bin`

`generic_arguments.py`, and the beginning of `main` in `convert_magnetogram.py`, `plot_magnetogram.py` and `plot_lsd.py`.
The parser is python's `argparse`; it is modelled after `Lib/argparse.py` of Python 3.11.10 (the functions are named in the
comments), restricted to what the scripts use: options without or with one argument, one required file and one optional
file, abbreviations allowed, `-` the only prefix character, no choices, no groups, no subparsers. Later releases of python
may treat an optional file differently. The texts of messages are not modelled, nor is the debugger: the
model is that of a user who continues at once.
-/

namespace Verif
namespace Argv

/-- How the parser ends the process: `usage` is `parser.error` (exit code 2), `info` the end after printing the help or the
version (exit code 0) (`parse_args` at convert_magnetogram.py:32, plot_magnetogram.py:28, bin/plot_lsd.py:24). -/
inductive Exit
  | usage
  | info
  deriving DecidableEq, Repr

/-- An entry of `_option_string_actions`: an option string, whether the option takes an argument, and what it does with it.
An action with two option strings is two entries (`parse_args` at convert_magnetogram.py:32, plot_magnetogram.py:28,
bin/plot_lsd.py:24). -/
structure Act (σ : Type) where
  name : Text
  takes : Bool
  run : Text → σ → Except Exit σ

/-- A parser: the options, and the actions of `input_file` and of `output_file` (`nargs='?'`) (`parse_args` at
convert_magnetogram.py:32, plot_magnetogram.py:28, bin/plot_lsd.py:24). -/
structure Parser (σ : Type) where
  acts : List (Act σ)
  first : Text → σ → σ
  second : Option Text → σ → σ

/-- An option tuple: the action if there is one, and the explicit argument, with whether it was separated by `=`
(`parse_args` at convert_magnetogram.py:32, plot_magnetogram.py:28, bin/plot_lsd.py:24). -/
structure Opt (σ : Type) where
  act : Option (Act σ)
  arg : Option (Bool × Text)

/-- The letter of an argument in `arg_strings_pattern`: `O`, `A` or `-` (`parse_args` at convert_magnetogram.py:32,
plot_magnetogram.py:28, bin/plot_lsd.py:24). -/
inductive Tag (σ : Type)
  | opt (o : Opt σ)
  | word
  | dashes

variable {σ : Type}

/-- `_option_string_actions[t]` (`parse_args` at convert_magnetogram.py:32, plot_magnetogram.py:28, bin/plot_lsd.py:24). -/
def lookup (P : Parser σ) (t : Text) : Option (Act σ) := P.acts.find? fun a => a.name = t

/-- `t.partition('=')`; the second part is `none` when there is no `=` (`parse_args` at convert_magnetogram.py:32,
plot_magnetogram.py:28, bin/plot_lsd.py:24). -/
def partition (t : Text) : Text × Option Text :=
  (t.takeWhile (· ≠ '='), match t.dropWhile (· ≠ '=') with | [] => none | _ :: r => some r)

/-- `_negative_number_matcher.match`: the expression `^-\d+$|^-\d*\.\d+$`, in which `$` also matches before a final
newline (`parse_args` at convert_magnetogram.py:32, plot_magnetogram.py:28, bin/plot_lsd.py:24). -/
def negative (U : Digits) : Text → Bool
  | '-' :: r =>
    let r := if r.getLast? = some '\n' then r.dropLast else r
    (!r.isEmpty && r.all fun c => (U.val c).isSome)
      || match r.dropWhile fun c => (U.val c).isSome with
        | '.' :: f => !f.isEmpty && f.all fun c => (U.val c).isSome
        | _ => false
  | _ => false

/-- `_get_option_tuples` (`parse_args` at convert_magnetogram.py:32, plot_magnetogram.py:28, bin/plot_lsd.py:24). -/
def tuples (P : Parser σ) : Text → List (Opt σ)
  | '-' :: '-' :: t =>
    let p := partition ('-' :: '-' :: t)
    P.acts.filterMap fun a => if p.1.isPrefixOf a.name then some ⟨some a, p.2.map fun e => (true, e)⟩ else none
  | t =>
    P.acts.filterMap fun a =>
      if a.name = t.take 2 then some ⟨some a, some (false, t.drop 2)⟩
      else if t.isPrefixOf a.name then some ⟨some a, none⟩
      else none

/-- `_parse_optional`; `none` means that the argument is no option (`parse_args` at convert_magnetogram.py:32,
plot_magnetogram.py:28, bin/plot_lsd.py:24). -/
def parseOptional (U : Digits) (P : Parser σ) (t : Text) : Except Exit (Option (Opt σ)) :=
  if t.head? ≠ some '-' then .ok none
  else match lookup P t with
  | some a => .ok (some ⟨some a, none⟩)
  | none =>
    if t.length = 1 then .ok none
    else match (partition t).2.bind fun e => (lookup P (partition t).1).map fun a => (⟨some a, some (true, e)⟩ : Opt σ) with
    | some o => .ok (some o)
    | none =>
      match tuples P t with
      | _ :: _ :: _ => .error .usage
      | [o] => .ok (some o)
      | [] => .ok (if negative U t || t.contains ' ' then none else some ⟨none, none⟩)

/-- The pattern (`_parse_known_args`, first loop) (`parse_args` at convert_magnetogram.py:32, plot_magnetogram.py:28,
bin/plot_lsd.py:24). -/
def tags (U : Digits) (P : Parser σ) : List Text → Except Exit (List (Text × Tag σ))
  | [] => .ok []
  | t :: ts =>
    if t = ['-', '-'] then .ok ((t, .dashes) :: ts.map fun u => (u, .word))
    else do
      let o ← parseOptional U P t
      let r ← tags U P ts
      pure ((t, o.elim .word .opt) :: r)

/-- What the second part of `_parse_known_args` keeps: whether the files are still to come, the namespace, the extras
(`parse_args` at convert_magnetogram.py:32, plot_magnetogram.py:28, bin/plot_lsd.py:24). -/
structure St (σ : Type) where
  pending : Bool
  ns : σ
  extras : List Text

/-- How many `-` come first (`parse_args` at convert_magnetogram.py:32, plot_magnetogram.py:28, bin/plot_lsd.py:24). -/
def dashes (ts : List (Text × Tag σ)) : ℕ := (ts.takeWhile fun t => match t.2 with | .dashes => true | _ => false).length

/-- The match of `(-*A-*)`, the pattern of `input_file` (`parse_args` at convert_magnetogram.py:32,
plot_magnetogram.py:28, bin/plot_lsd.py:24). -/
def matchOne (ts : List (Text × Tag σ)) : Option ℕ :=
  match ts.drop (dashes ts) with
  | (_, .word) :: r => some (dashes ts + 1 + dashes r)
  | _ => none

/-- The match of `(-*A?-*)`, the pattern of `output_file` (`parse_args` at convert_magnetogram.py:32,
plot_magnetogram.py:28, bin/plot_lsd.py:24). -/
def matchOpt (ts : List (Text × Tag σ)) : ℕ := (matchOne ts).getD (dashes ts)

/-- `_get_values`: the first `--` is removed; the value is what is left (`parse_args` at convert_magnetogram.py:32,
plot_magnetogram.py:28, bin/plot_lsd.py:24). -/
def value (ts : List (Text × Tag σ)) : Option Text := ((ts.map Prod.fst).erase ['-', '-']).head?

/-- `consume_positionals`: the number of arguments it takes and the new state. Whenever the pattern of `input_file` matches so
does that of both files, since that of `output_file` matches nothing at all; therefore both files are dealt with at once
(`parse_args` at convert_magnetogram.py:32, plot_magnetogram.py:28, bin/plot_lsd.py:24). -/
def consumePos (P : Parser σ) (ts : List (Text × Tag σ)) (s : St σ) : ℕ × St σ :=
  if s.pending then
    match matchOne ts with
    | none => (0, s)
    | some n =>
      let m := matchOpt (ts.drop n)
      (n + m, { s with pending := false
                       ns := P.second (value ((ts.drop n).take m)) (P.first ((value (ts.take n)).getD []) s.ns) })
  else (0, s)

/-- What one argument with options amounts to: actions with their arguments, an action that looks for its argument in the
following ones, and what is left over (`parse_args` at convert_magnetogram.py:32, plot_magnetogram.py:28,
bin/plot_lsd.py:24). -/
structure Found (σ : Type) where
  done : List (Act σ × Text)
  next : Option (Act σ)
  extra : Option Text

/-- The loop of `consume_optional` while there is an explicit argument: several options without argument in one
(`parse_args` at convert_magnetogram.py:32, plot_magnetogram.py:28, bin/plot_lsd.py:24). -/
def cluster (P : Parser σ) (a : Act σ) (eq : Bool) (e : Text) : Except Exit (Found σ) :=
  if a.takes then .ok ⟨[(a, e)], none, none⟩
  else match e with
  | [] => .error .usage
  | c :: r =>
    if a.name[1]? = some '-' || eq || c = '-' then .error .usage
    else match lookup P ['-', c] with
    | none => .ok ⟨[(a, [])], none, some ('-' :: c :: r)⟩
    | some b =>
      match r with
      | [] => .ok ⟨[(a, [])], some b, none⟩
      | d :: r' => do
        let f ← (if d = '=' then cluster P b true r' else cluster P b false (d :: r'))
        pure { f with done := (a, []) :: f.done }
termination_by e.length

/-- The argument of the last option of an argument, and the arguments that follow (`parse_args` at
convert_magnetogram.py:32, plot_magnetogram.py:28, bin/plot_lsd.py:24). -/
def argument (next : Option (Act σ)) (ts : List (Text × Tag σ)) :
    Except Exit (List (Act σ × Text) × List (Text × Tag σ)) :=
  match next with
  | none => .ok ([], ts)
  | some b =>
    if b.takes then
      match ts with
      | (v, .word) :: r => .ok ([(b, v)], r)
      | _ => .error .usage
    else .ok ([(b, [])], ts)

/-- The actions in their order (`take_action`) (`parse_args` at convert_magnetogram.py:32, plot_magnetogram.py:28,
bin/plot_lsd.py:24). -/
def runs (as : List (Act σ × Text)) (ns : σ) : Except Exit σ := as.foldlM (fun ns a => a.1.run a.2 ns) ns

/-- `consume_optional` (`parse_args` at convert_magnetogram.py:32, plot_magnetogram.py:28, bin/plot_lsd.py:24). -/
def consumeOpt (P : Parser σ) (t : Text) (o : Opt σ) (ts : List (Text × Tag σ)) (s : St σ) :
    Except Exit (List (Text × Tag σ) × St σ) :=
  match o.act with
  | none => .ok (ts, { s with extras := s.extras ++ [t] })
  | some a => do
    let f ← (match o.arg with | none => .ok ⟨[], some a, none⟩ | some e => cluster P a e.1 e.2 : Except Exit (Found σ))
    let r ← argument f.next ts
    let ns ← runs (f.done ++ r.1) s.ns
    pure (r.2, { s with ns := ns, extras := s.extras ++ f.extra.toList })

/-- Is this no option? (`parse_args` at convert_magnetogram.py:32, plot_magnetogram.py:28, bin/plot_lsd.py:24) -/
def noOpt (t : Text × Tag σ) : Bool := match t.2 with | .opt _ => false | _ => true

/-- The second loop of `_parse_known_args`. The call of `consume_positionals` after the loop does what the one in the loop
does. Each round takes at least one argument, so that as many rounds as arguments are enough (`parse_args` at
convert_magnetogram.py:32, plot_magnetogram.py:28, bin/plot_lsd.py:24). -/
def loop (P : Parser σ) : ℕ → List (Text × Tag σ) → St σ → Except Exit (St σ)
  | 0, _, s => .ok s
  | _, [], s => .ok s
  | n + 1, (t, .opt o) :: ts, s => do
    let r ← consumeOpt P t o ts s
    loop P n r.1 r.2
  | n + 1, t :: ts, s =>
    let r := consumePos P (t :: ts) s
    if r.1 = 0 then
      loop P n ((t :: ts).dropWhile noOpt) { r.2 with extras := r.2.extras ++ ((t :: ts).takeWhile noOpt).map Prod.fst }
    else loop P n ((t :: ts).drop r.1) r.2

/-- `parser.parse_args()` of the arguments `argv`, from the defaults `init` (`parse_args` at convert_magnetogram.py:32,
plot_magnetogram.py:28, bin/plot_lsd.py:24). -/
def parse (U : Digits) (P : Parser σ) (init : σ) (argv : List Text) : Except Exit σ := do
  let ts ← tags U P argv
  let s ← loop P ts.length ts ⟨true, init, []⟩
  if s.pending || !s.extras.isEmpty then .error .usage else .ok s.ns

/-! ### The options of the scripts -/

/-- The levels of logging that can be chosen (generic_arguments.py:9-18). -/
inductive Level
  | debug
  | info
  | warning
  deriving DecidableEq, Repr

/-- What the generic options set (generic_arguments.py:9-18). The default of `-q` is that of `log_level`. -/
structure Common where
  level : Level := .info
  debug : Bool := false

/-- An option `action='store_const'` (generic_arguments.py:9-18, 27-31, convert_magnetogram.py:16-30). -/
def flag (name : String) (f : σ → σ) : Act σ := ⟨name.toList, false, fun _ ns => .ok (f ns)⟩

/-- An option with an argument of `type=str` (plot_magnetogram.py:17-26, bin/plot_lsd.py:15-22). -/
def stored (name : String) (f : Text → σ → σ) : Act σ := ⟨name.toList, true, fun t ns => .ok (f t ns)⟩

/-- An option with an argument of `type=int` (convert_magnetogram.py:16-30, generic_arguments.py:26-30). -/
def storedInt (U : Digits) (name : String) (f : ℤ → σ → σ) : Act σ :=
  ⟨name.toList, true, fun t ns => match Ticks.intOf U t with | .ok n => .ok (f n ns) | .error _ => .error .usage⟩

/-- An option that prints something and ends the process (convert_magnetogram.py:16-30, generic_arguments.py:9-18,
27-31). -/
def ends (name : String) : Act σ := ⟨name.toList, false, fun _ _ => .error .info⟩

/-- What every `ArgumentParser` has (convert_magnetogram.py:17, plot_magnetogram.py:17, bin/plot_lsd.py:16). -/
def helpActs : List (Act σ) := [ends "-h", ends "--help"]

/-- `generic_arguments.add` (generic_arguments.py:9-18). -/
def commonActs (f : (Common → Common) → σ → σ) : List (Act σ) :=
  [flag "-q" (f fun c => { c with level := .warning }), flag "--quiet" (f fun c => { c with level := .warning }),
   flag "-v" (f fun c => { c with level := .debug }), flag "--verbose" (f fun c => { c with level := .debug }),
   flag "--debug" (f fun c => { c with debug := true }), ends "--version"]

/-- The namespace of `convert_magnetogram` (convert_magnetogram.py:16-30, generic_arguments.py:26-30). -/
structure ConvertArgs where
  options : Cli.Options := { input := [] }
  common : Common := {}

/-- The parser of `convert_magnetogram` (convert_magnetogram.py:16-30): `defaults` (generic_arguments.py:26-30) adds the
generic options after those of the script. -/
def convertParser (U : Digits) : Parser ConvertArgs where
  acts := helpActs
    ++ [flag "--pfss-to-zdi" fun a => { a with options.pfssToZdi := true },
        storedInt U "--degree-max" fun n a => { a with options.degreeMax := some n },
        flag "--no-header" fun a => { a with options.swmfHeader := false },
        flag "--no-conversion" fun a => { a with options.noConversion := true }]
    ++ commonActs fun f a => { a with common := f a.common }
  first t a := { a with options.input := t }
  second t a := { a with options.output := t }

/-- The namespace of `plot_magnetogram` (plot_magnetogram.py:17-26). -/
structure PlotArgs where
  options : PlotCmd.Options := { input := [] }
  common : Common := {}

/-- The parser of `plot_magnetogram` (plot_magnetogram.py:17-26). -/
def plotParser : Parser PlotArgs where
  acts := helpActs
    ++ [stored "-p" fun t a => { a with options.plotType := String.ofList t },
        stored "--plot_type" fun t a => { a with options.plotType := String.ofList t },
        stored "-y" fun t a => { a with options.type := String.ofList t },
        stored "--type" fun t a => { a with options.type := String.ofList t }]
    ++ commonActs fun f a => { a with common := f a.common }
  first t a := { a with options.input := t }
  second t a := { a with options.output := t }

/-- The namespace of `plot_lsd` (bin/plot_lsd.py:15-22). -/
structure LsdArgs where
  options : Lsd.Options := { input := [] }
  common : Common := {}

/-- The parser of `plot_lsd` (bin/plot_lsd.py:15-22). -/
def lsdParser (U : Digits) : Parser LsdArgs where
  acts := helpActs
    ++ [stored "-p" fun t a => { a with options.params := t },
        stored "--params" fun t a => { a with options.params := t },
        storedInt U "-s" fun n a => { a with options.skip := n },
        storedInt U "--skip-rows" fun n a => { a with options.skip := n }]
    ++ commonActs fun f a => { a with common := f a.common }
  first t a := { a with options.input := t }
  second t a := { a with options.output := t }

/-- How a script ends (convert_magnetogram.py:16-42, plot_magnetogram.py:16-75, bin/plot_lsd.py:15-37). -/
inductive End
  | exit (e : Exit)
  | raised (e : Err)
  | done
  deriving DecidableEq, Repr

/-- `handle` (generic_arguments.py:21-23) parses the command line and sets the level of the package's logger, `main` parses it
again and runs (convert_magnetogram.py:16-42). The result: how it ends, the level that was set, the disk. -/
def convert (E : PyEnv) (F : Cli.Factors) (src : Text) (argv : List Text) (d : Cli.Disk) : End × Option Level × Cli.Disk :=
  match parse E.digits (convertParser E.digits) {} argv with
  | .error e => (.exit e, none, d)
  | .ok a =>
    match Cli.main E F src a.options d with
    | .ok _ d' => (.done, some a.common.level, d')
    | .error e d' => (.raised e, some a.common.level, d')

end Argv
end Verif
