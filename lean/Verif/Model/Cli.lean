import Mathlib.Data.List.DropRight
import Mathlib.Logic.Function.Basic
import Verif.Model.Io
import Verif.Model.Py

/-!
# Model of empymod/__main__.py

The argument parser of the standard library is modelled for the arguments which `main` declares: three optional
positional arguments, of which the first has choices, and two flags.  Two things that differ between versions of
Python are parameters (`Quirks`).  What the parser does when it is asked for help or finds an error - it prints
and ends the program - is one result, `Outcome.exit`.  Not modelled: a second `--`.

The modelling routines are parameters (`Surroundings.call`): a routine gets its keyword arguments and returns an
array or raises.  What happens is recorded: calls of routines and what is printed.
-/

namespace Verif.Cli
open Verif.Io Verif.Json Verif.Py

/-! ## The argument parser -/

/-- What depends on the version of Python: whether positional arguments may be interrupted by flags, and which
words that begin with `-` are negative numbers (and so no options). -/
structure Quirks where
  late : Bool
  negative : List Char → Bool

/-- The kinds of arguments. -/
inductive Token where
  | word (w : List Char)
  | report
  | version
  | stop
deriving DecidableEq

/-- The options: `--report` (__main__.py 66-71), `--version` (74-79), and `--help` that is always there. -/
def options : List (String × Token) := [("--report", .report), ("--version", .version), ("--help", .stop)]

/-- What an argument is, before `--`: options may be abbreviated; unknown and ambiguous options, `-h`, and options
with a value end the program. -/
def token (q : Quirks) (a : List Char) : Token :=
  match a with
  | '-' :: _ :: _ =>
    let name := a.takeWhile (· ≠ '=')
    match options.filter fun o => "--".toList.isPrefixOf name && name.isPrefixOf o.1.toList with
    | [(_, t)] => if name = a then t else .stop
    | [] =>
      if "-h".toList.isPrefixOf a then .stop
      else if q.negative a || a.contains ' ' then .word a else .stop
    | _ => .stop
  | _ => .word a

/-- All arguments; what follows `--` is taken as it is. -/
def tokenize (q : Quirks) : List (List Char) → List Token
  | [] => []
  | a :: l => if a = "--".toList then l.map .word else token q a :: tokenize q l

/-- The positional arguments. -/
def words : List Token → List (List Char)
  | [] => []
  | .word w :: l => w :: words l
  | _ :: l => words l

/-- The positional arguments follow one another. -/
def together (l : List Token) : Bool :=
  let isWord : Token → Bool := fun t => match t with | .word _ => true | _ => false
  (((l.dropWhile fun t => !isWord t).dropWhile isWord).filter isWord).isEmpty

/-- The choices of the first positional argument (__main__.py 42-48). -/
def choices : List (List Char) := ["bipole".toList, "dipole".toList, "loop".toList, "analytical".toList]

/-- `vars(parser.parse_args(args))`. -/
structure Namespace where
  routine : Option (List Char)
  input : Option (List Char)
  output : Option (List Char)
  report : Bool
  version : Bool

/-- `parser.parse_args` (__main__.py 36-82); `none`: the program ends. -/
def parseArgs (q : Quirks) (args : List (List Char)) : Option Namespace :=
  let t := tokenize q args
  if .stop ∈ t then none
  else if !q.late && !together t then none
  else
    let r := t.contains .report
    let v := t.contains .version
    match words t with
    | [] => some ⟨none, none, none, r, v⟩
    | [a] => if a ∈ choices then some ⟨some a, none, none, r, v⟩ else none
    | [a, b] => if a ∈ choices then some ⟨some a, some b, none, r, v⟩ else none
    | [a, b, c] => if a ∈ choices then some ⟨some a, some b, some c, r, v⟩ else none
    | _ => none

/-! ## Running a routine -/

/-- The routines in model.py (its `__all__`, lines 65-66). -/
inductive Routine where
  | bipole | dipole | loop | analytical | gpr | dipoleK | ipAndQ | fem | tem
deriving DecidableEq

/-- `getattr(model, name)`; names of other objects of the module are not modelled. -/
def getattr (name : List Char) : Option Routine :=
  [("bipole".toList, Routine.bipole), ("dipole".toList, .dipole), ("loop".toList, .loop),
   ("analytical".toList, .analytical), ("gpr".toList, .gpr), ("dipole_k".toList, .dipoleK),
   ("ip_and_q".toList, .ipAndQ), ("fem".toList, .fem), ("tem".toList, .tem)].lookup name

/-- Keyword arguments. -/
abbrev Kwargs (N : Type) := List Char → Option (Json N)

/-- A dictionary from its pairs; the last value of a key counts. -/
def dictOf {N : Type} (l : List (List Char × Json N)) : Kwargs N :=
  l.foldl (fun m p => Function.update m p.1 (some p.2)) fun _ => none

/-- Exceptions. -/
inductive Exc where
  | io (e : Io.Err)
  | py (e : PyErr)
deriving DecidableEq

/-- `except (AttributeError, TypeError, ValueError, FileNotFoundError)` (__main__.py 101). -/
def caught : Exc → Bool
  | .io .value | .io .type | .io .notFound => true
  | .io .index | .io .key => false
  | .py .typeError | .py .valueError | .py .attributeError => true
  | .py .keyError | .py .indexError | .py .unboundLocal => false

/-- What happened. -/
inductive Event (N : Type) where
  | computed (r : Routine) (kw : Kwargs N)
  | result (a : Io.Array N)
  | version
  | report
  | hint

/-- Files, and what happened so far (the last first). -/
structure World (N : Type) where
  fs : Fs
  log : List (Event N)

/-- Everything around. -/
structure Surroundings (N : Type) where
  env : Io.Env N
  call : Routine → Kwargs N → Except Exc (Io.Array N)

/-- `{**load_input(name), 'squeeze': False}` (__main__.py 111): `os.path.abspath(None)` and `**` of what is not a
mapping raise `TypeError`. -/
def kwargsOf {N : Type} (S : Surroundings N) (input : Option (List Char)) (fs : Fs) : Except Exc (Kwargs N) :=
  match input with
  | none => .error (.py .typeError)
  | some iname =>
    match loadInput S.env iname fs with
    | .error e => .error (.io e)
    | .ok (.obj l) => .ok (Function.update (dictOf l) "squeeze".toList (some (.bool false)))
    | .ok _ => .error (.py .typeError)

/-- The information that is stored with the result (__main__.py 116). -/
def infoText (fct iname : List Char) : List Char :=
  "Generated with <empymod.".toList ++ fct ++ "()> from input <".toList ++ iname ++ ">.".toList

/-- `run` (__main__.py 105-119). -/
def run {N : Type} (S : Surroundings N) (a : Namespace) (w : World N) : Except Exc Unit × World N :=
  match a.routine with
  | none => (.error (.py .typeError), w)
  | some fct =>
    match getattr fct with
    | none => (.error (.py .attributeError), w)
    | some r =>
      match kwargsOf S a.input w.fs with
      | .error e => (.error e, w)
      | .ok kw =>
        let w : World N := { w with log := .computed r kw :: w.log }
        match S.call r kw with
        | .error e => (.error e, w)
        | .ok out =>
          match a.output with
          | none | some [] => (.ok (), { w with log := .result out :: w.log })
          | some outfile =>
            match saveData S.env outfile out (infoText fct (a.input.getD [])) w.fs with
            | (.ok (), fs) => (.ok (), { w with fs := fs })
            | (.error e, fs) => (.error (.io e), { w with fs := fs })

/-- How `main` ends: the argument parser ends the program; it returns nothing or an exception; it raises. -/
inductive Outcome where
  | exit
  | done
  | returned (e : Exc)
  | raised (e : Exc)
deriving DecidableEq

/-- `main(args)` in a process whose `sys.argv` has `argc` entries (__main__.py 27-102). -/
def main {N : Type} (S : Surroundings N) (q : Quirks) (argc : ℕ) (args : List (List Char)) (w : World N) :
    Outcome × World N :=
  match parseArgs q args with
  | none => (.exit, w)
  | some a =>
    if a.version then (.done, { w with log := .version :: w.log })
    else if a.report then (.done, { w with log := .report :: w.log })
    else if argc < 3 then (.done, { w with log := .hint :: w.log })
    else
      match run S a w with
      | (.ok (), w) => (.done, w)
      | (.error e, w) => (if caught e then .returned e else .raised e, w)

/-- `main()` on the command line `empymod args…`: `args = sys.argv[1:]` (__main__.py 31-32). -/
def commandLine {N : Type} (S : Surroundings N) (q : Quirks) (args : List (List Char)) (w : World N) :
    Outcome × World N :=
  main S q (args.length + 1) args w

end Verif.Cli
