import Verif.Model.ParamTables
import Mathlib.Logic.Function.Basic
/-!
Model of the reader of parameter files of include/params.h: `trim`, `set_param` and `read_params`. Strings are lists of characters, a file is the list of its lines.
The conversion of a string to a number, `iss >> x`, is not modelled: a numeric parameter holds the text it is converted from. Macros which fix parameters at compile time are not defined.
-/
namespace FleCSPH.Params

abbrev Text := List Char

/-- " \t". -/
def white (c : Char) : Bool := c == ' ' || c == '\t'

/-- `trim`, params.h:790-798. -/
def trim (s : Text) : Text := ((s.dropWhile white).reverse.dropWhile white).reverse

/-- Why a run ends here. -/
inductive Stop
  /-- `exit` with this code -/
  | exit (code : Nat)
  /-- `assert(false)` -/
  | assertion
  /-- `strcpy` writes past the end of the array -/
  | overflow
  deriving DecidableEq, Repr

/-- The value of a parameter; a keyword is the number of its enumerator. -/
inductive Value
  | flag (b : Bool)
  | number (text : Text)
  | string (text : Text)
  | keyword (n : Nat)
  deriving DecidableEq, Repr

/-- The parameters. -/
abbrev State := Text → Value

/-- Comments and quotes of a value are removed, params.h:815-825. `substr(1, length - 2)` of a string of length 1 is empty. -/
def strip (value : Text) : Text :=
  let s := if '#' ∈ value then trim (value.takeWhile (· ≠ '#')) else value
  match s with
  | [] => []
  | c :: t => if c = '\'' ∨ c = '"' then t.take (t.length - 1) else s

/-- `lparam_value`, params.h:829-831. -/
def isYes (s : Text) : Bool :=
  s = "yes".toList || s = "'yes'".toList || s = "\"yes\"".toList || s = "true".toList || s = "'true'".toList || s = "\"true\"".toList

/-- `STRING_MAXLEN`, params.h:88. -/
def stringMaxlen : Nat := 511

/-- The keywords with the number of their enumerators: params.h:894-918, 1083-1103, 1139-1143. -/
def keywords : Kind → List (Text × Nat)
  | .kernel => [("cubic_spline".toList, 0), ("quintic_spline".toList, 1), ("wendland_c2".toList, 2), ("wendland_c4".toList, 3), ("wendland_c6".toList, 4), ("gaussian".toList, 5),
      ("super_gaussian".toList, 6), ("sinc_ker".toList, 7)]
  | .eos => [("ideal_fluid".toList, 0), ("polytropic".toList, 1), ("wd".toList, 2), ("white_dwarf".toList, 2), ("ppt".toList, 3), ("piecewise_polytropic".toList, 3),
      ("no_eos".toList, 4), ("none".toList, 4)]
  | .viscosity => [("constant".toList, 0), ("cullen".toList, 1)]
  | _ => []

/-- Blanks become underscores, params.h:888-890; `boost::iequals` ignores case. -/
def normal (s : Text) : Text := (s.map fun c => if c = ' ' then '_' else c).map Char.toLower

/-- The value a parameter of some kind gets from the stripped text. -/
def convert (k : Kind) (s : Text) : Except Stop Value :=
  match k with
  | .boolean => .ok (.flag (isYes s))
  | .numeric => .ok (.number s)
  | .string => if s.length < stringMaxlen then .ok (.string s) else .error .overflow
  | .kernel => match (keywords .kernel).find? (fun e => e.1 = normal s) with
    | some e => .ok (.keyword e.2)
    | none => .error .assertion
  | .eos => match (keywords .eos).find? (fun e => e.1 = normal s) with
    | some e => .ok (.keyword e.2)
    | none => .error .assertion
  | .viscosity => match (keywords .viscosity).find? (fun e => e.1 = normal s) with
    | some e => .ok (.keyword e.2)
    | none => .error (.exit 2)

/-- `set_param`, params.h:804-1376: the tests of the name one after the other, then the test of `unknown_param`. -/
def setParam (name value : Text) (st : State) : Except Stop State :=
  let s := strip value
  let rec go : List (String × Kind) → Bool → State → Except Stop State
    | [], unknown, st => if unknown then .error (.exit 2) else .ok st
    | (n, k) :: l, unknown, st =>
      if name = n.toList then
        match convert k s with
        | .error e => .error e
        | .ok v => go l false (Function.update st name v)
      else go l unknown st
  go known true st

/-- The test for comments and blank lines, params.h:1416-1425. -/
def skipLine : Text → Bool
  | [] => true
  | c :: t => if c = '#' then true else if white c then skipLine t else false

/-- One line, params.h:1411-1446. -/
def readLine (line : Text) (st : State) : Except Stop State :=
  if skipLine line then .ok st
  else if '=' ∈ line then
    let lhs := trim (line.takeWhile (· ≠ '='))
    let rhs := trim ((line.dropWhile (· ≠ '=')).drop 1)
    if lhs = [] ∨ rhs = [] then .error (.exit 1) else setParam lhs rhs st
  else .error (.exit 1)

/-- `read_params`, params.h:1399-1449, of a file which can be opened. -/
def readParams : List Text → State → Except Stop State
  | [], st => .ok st
  | l :: f, st =>
    match readLine l st with
    | .error e => .error e
    | .ok st => readParams f st

end FleCSPH.Params
