import Verif.Fault
import Mathlib.Data.List.Basic

/-!
# Command lines

The parts of `lib/argparse/argparse.h` that the programs of `executables/` use: optional arguments with
one value, and the arguments `--help` and `--version` that end the program.
-/

namespace Bayesmix.Program

/-- Words of a command line, names of files, contents of files. -/
abbrev Str := List Char

/-- What a `std::any` of the parser holds: a `std::string`, a `const char *` or a `bool`. -/
inductive AnyVal where
  | str (s : Str)
  | chars (s : Str)
  | bool (b : Bool)
  deriving DecidableEq

/-- `std::any_cast<std::string>`: throws `std::bad_any_cast` if anything but a `std::string` is held. -/
def AnyVal.asString : AnyVal → Except Fault Str
  | .str s => .ok s
  | .chars _ => .error .throw
  | .bool _ => .error .throw

/-! ### Words that look like options -/

/-- `is_digit`, `lib/argparse/argparse.h` 654-671. -/
def isDigit (c : Char) : Bool := c ∈ ['0', '1', '2', '3', '4', '5', '6', '7', '8', '9']

/-- `is_digit(lookahead(s))`. -/
def headDigit : Str → Bool
  | [] => false
  | c :: _ => isDigit c

/-- `consume_digits`, lines 674-677. -/
def consumeDigits (s : Str) : Str := s.dropWhile isDigit

/-- Label `post_e`, lines 750-760. -/
def postE (s : Str) : Bool :=
  let s := match s with
    | '-' :: t => t
    | '+' :: t => t
    | s => s
  headDigit s && (consumeDigits s).isEmpty

/-- Label `exponent_part_opt`, lines 737-748. -/
def exponentOpt : Str → Bool
  | [] => true
  | 'e' :: t => postE t
  | 'E' :: t => postE t
  | _ => false

/-- Label `post_decimal_point`, lines 729-735. -/
def postDecimal (s : Str) : Bool := headDigit s && exponentOpt (consumeDigits s)

/-- Label `integer_part_consumed`, lines 712-727. -/
def integerConsumed : Str → Bool
  | '.' :: t => if headDigit t then postDecimal t else exponentOpt t
  | 'e' :: t => postE t
  | 'E' :: t => postE t
  | _ => false

/-- `is_decimal_literal`, `lib/argparse/argparse.h` 653-761. -/
def isDecimalLiteral : Str → Bool
  | [] => false
  | c :: t =>
    if c = '0' then t.isEmpty || integerConsumed (consumeDigits t)
    else if isDigit c then (consumeDigits t).isEmpty || integerConsumed (consumeDigits t)
    else if c = '.' then postDecimal t
    else false

/-- `is_positional`, `lib/argparse/argparse.h` 774-787: anything that does not begin with a minus, a
lone minus, negative numbers. -/
def isPositional : Str → Bool
  | '-' :: t => t.isEmpty || isDecimalLiteral t
  | _ => true

/-! ### Arguments -/

/-- `Argument`, `lib/argparse/argparse.h` 354-856. No program uses repeatable arguments or lists of
values. `exits`: the action is `std::exit(0)` (lines 863-884). -/
structure Argument where
  names : List Str
  dflt : Option AnyVal
  required : Bool
  nargs : ℕ
  exits : Bool
  used : Bool
  values : List AnyVal

/-- Why parsing stops: an exception of type `std::runtime_error`, or `std::exit(0)`. -/
inductive Stop where
  | fail
  | exit0
  deriving DecidableEq

/-- `Argument::consume`, `lib/argparse/argparse.h` 476-519, with the words that follow. Returns the
argument and how many words it took. -/
def consume (a : Argument) (rest : List Str) : Except Stop (Argument × ℕ) :=
  if a.used then .error .fail
  else if a.nargs = 0 then
    if a.exits then .error .exit0
    else .ok ({ a with used := true, values := a.values ++ [.bool true] }, 0)
  else if a.nargs ≤ rest.length then
    if (rest.take a.nargs).any fun w => !isPositional w then .error .fail
    else .ok ({ a with used := true, values := a.values ++ (rest.take a.nargs).map .str }, a.nargs)
  else if a.dflt.isSome then .ok ({ a with used := true }, 0)
  else .error .fail

/-- `mArgumentMap.find`. -/
def findArg (args : List Argument) (name : Str) : Option Argument :=
  args.find? fun a => decide (name ∈ a.names)

/-- The arguments after the one with the given name changed. -/
def putArg (args : List Argument) (name : Str) (a : Argument) : List Argument :=
  args.map fun b => if name ∈ b.names then a else b

/-- The loop over the letters of a compound argument, `lib/argparse/argparse.h` 1116-1126. -/
def consumeLetters (rest : List Str) : List Argument → List Char → ℕ → Except Stop (List Argument × ℕ)
  | args, [], k => .ok (args, k)
  | args, c :: cs, k =>
    match findArg args ['-', c] with
    | none => .error .fail
    | some a =>
      match consume a (rest.drop k) with
      | .error e => .error e
      | .ok (a, k') => consumeLetters rest (putArg args ['-', c] a) cs (k + k')

/-- The body of the loop over the words for a word that looks like an option,
`lib/argparse/argparse.h` 1109-1129. Returns the arguments and how many of the following words were
taken. -/
def parseWord (args : List Argument) (tok : Str) (rest : List Str) : Except Stop (List Argument × ℕ) :=
  match findArg args tok with
  | some a =>
    match consume a rest with
    | .error e => .error e
    | .ok (a, k) => .ok (putArg args tok a, k)
  | none =>
    match tok with
    | '-' :: c :: cs => if c = '-' then .error .fail else consumeLetters rest args (c :: cs) 0
    | _ => .error .fail

/-- `parse_args_internal`, `lib/argparse/argparse.h` 1091-1132, without the name of the program. The
programs have no positional arguments. -/
def parseLoop (args : List Argument) : List Str → Except Stop (List Argument)
  | [] => .ok args
  | tok :: rest =>
    if isPositional tok then .error .fail
    else match parseWord args tok rest with
      | .error e => .error e
      | .ok (args, k) => parseLoop args (rest.drop k)
termination_by l => l.length
decreasing_by simp [List.length_drop]; omega

/-- `Argument::validate`, `lib/argparse/argparse.h` 524-557, for optional arguments. -/
def validArg (a : Argument) : Bool :=
  if a.used && decide (a.values.length ≠ a.nargs) && a.dflt.isNone then false
  else !(!a.used && a.dflt.isNone && a.required) && !(a.used && a.required && a.values.isEmpty)

/-- `parse_args`, `lib/argparse/argparse.h` 958-971 and 1137-1144. -/
def parseArgs (args : List Argument) (cl : List Str) : Except Stop (List Argument) :=
  match parseLoop args cl with
  | .error e => .error e
  | .ok args => if args.all validArg then .ok args else .error .fail

/-- `Argument::get<std::string>`, `lib/argparse/argparse.h` 794-806: the value given, or the default
value; an exception if that is no `std::string`. -/
def Argument.get (a : Argument) : Except Fault Str :=
  match a.values with
  | v :: _ => v.asString
  | [] => match a.dflt with
    | some v => v.asString
    | none => .error .throw

/-- `ArgumentParser::get<std::string>` and the comparison `args[name] == s`, lines 596-613, 980-985. -/
def getArg (args : List Argument) (name : Str) : Except Fault Str :=
  match findArg args name with
  | some a => a.get
  | none => .error .throw

/-! ### The parsers of the programs -/

/-- An option with one value: `add_argument(name)`, `.required()`, `.default_value(...)`. -/
structure OptSpec where
  name : Str
  required : Bool
  dflt : Option AnyVal

/-- `add_argument`, `lib/argparse/argparse.h` 908-921, for such an option. -/
def OptSpec.arg (o : OptSpec) : Argument := ⟨[o.name], o.dflt, o.required, 1, false, false, []⟩

/-- The constructor of `ArgumentParser`, lines 860-885. -/
def autoArgs : List Argument :=
  [⟨["-h".toList, "--help".toList], some (.bool false), false, 0, true, false, []⟩,
   ⟨["-v".toList, "--version".toList], some (.bool false), false, 0, true, false, []⟩]

/-- A parser with the given options. -/
def parserOf (opts : List OptSpec) : List Argument := autoArgs ++ opts.map OptSpec.arg

/-- `EMPTYSTR`: two quotation marks, `executables/run_mcmc.cc` 9, `executables/plot_mcmc.cc` 7. -/
def emptyStr : Str := ['"', '"']

/-- The options of `run_mcmc`, `executables/run_mcmc.cc` 34-128. `default_value("memory")` stores a
`const char *`: the template takes the literal by reference and `std::any` stores the decayed type
(`lib/argparse/argparse.h` 383-388). -/
def runOpts : List OptSpec :=
  [⟨"--algo-params-file".toList, true, none⟩,
   ⟨"--hier-type".toList, true, none⟩,
   ⟨"--hier-args".toList, true, none⟩,
   ⟨"--mix-type".toList, true, none⟩,
   ⟨"--mix-args".toList, true, none⟩,
   ⟨"--coll-name".toList, true, some (.chars "memory".toList)⟩,
   ⟨"--data-file".toList, true, none⟩,
   ⟨"--grid-file".toList, false, some (.str emptyStr)⟩,
   ⟨"--dens-file".toList, false, some (.str emptyStr)⟩,
   ⟨"--n-cl-file".toList, false, some (.str emptyStr)⟩,
   ⟨"--clus-file".toList, false, some (.str emptyStr)⟩,
   ⟨"--best-clus-file".toList, false, some (.str emptyStr)⟩,
   ⟨"--hier-cov-file".toList, false, some (.str emptyStr)⟩,
   ⟨"--hier-grid-cov-file".toList, false, some (.str emptyStr)⟩,
   ⟨"--mix-cov-file".toList, false, some (.str emptyStr)⟩,
   ⟨"--mix-grid-cov-file".toList, false, some (.str emptyStr)⟩]

/-- The options of `plot_mcmc`, `executables/plot_mcmc.cc` 12-43. -/
def plotOpts : List OptSpec :=
  [⟨"--grid-file".toList, false, some (.str emptyStr)⟩,
   ⟨"--dens-file".toList, false, some (.str emptyStr)⟩,
   ⟨"--n-cl-file".toList, false, some (.str emptyStr)⟩,
   ⟨"--dens-plot".toList, false, some (.str emptyStr)⟩,
   ⟨"--n-cl-trace-plot".toList, false, some (.str emptyStr)⟩,
   ⟨"--n-cl-bar-plot".toList, false, some (.str emptyStr)⟩]

end Bayesmix.Program
