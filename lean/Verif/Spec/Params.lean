import Verif.Model.Params
/-! The documented format of parameter files: README and params.h:1379-1397. -/
namespace FleCSPH.Params

/-- A value as it is written: bare, or in single or double quotes. -/
inductive Written
  | bare (s : Text)
  | quoted (q : Char) (s : Text)

/-- What a written value stands for. -/
def Written.text : Written → Text
  | .bare s => s
  | .quoted _ s => s

def Written.render : Written → Text
  | .bare s => s
  | .quoted q s => q :: s ++ [q]

/-- Blanks and tabs only. -/
def Blank (s : Text) : Prop := ∀ c ∈ s, c = ' ' ∨ c = '\t'

/-- A word: it is not empty and does not start or end with a blank or tab. -/
def Word (s : Text) : Prop := ∃ a ∈ s.head?, ∃ b ∈ s.getLast?, ¬Blank [a] ∧ ¬Blank [b]

/-- A value of the documented form; `#` begins a comment and does not occur, not even in quotes: see `C49_hash_violated`. -/
def Written.Ok : Written → Prop
  | .bare s => Word s ∧ '#' ∉ s ∧ s.head? ≠ some '\'' ∧ s.head? ≠ some '"'
  | .quoted q s => (q = '\'' ∨ q = '"') ∧ '#' ∉ s

/-- A line: blank, a comment, or an assignment, possibly with a comment. -/
inductive Line
  | blank (w : Text)
  | comment (w c : Text)
  | assign (w1 name w2 w3 : Text) (v : Written) (w4 : Text) (c : Option Text)

def tail : Option Text → Text
  | none => []
  | some c => '#' :: c

def Line.render : Line → Text
  | .blank w => w
  | .comment w c => w ++ '#' :: c
  | .assign w1 name w2 w3 v w4 c => w1 ++ (name ++ (w2 ++ '=' :: (w3 ++ (v.render ++ (w4 ++ tail c)))))

def Line.Ok : Line → Prop
  | .blank w => Blank w
  | .comment w _ => Blank w
  | .assign w1 name w2 w3 v w4 _ => Blank w1 ∧ Word name ∧ '=' ∉ name ∧ name.head? ≠ some '#' ∧ Blank w2 ∧ Blank w3 ∧ v.Ok ∧ Blank w4

/-- The documented keywords, in the order of the enumerators (params.h:127-152). -/
def names : Kind → List (List String)
  | .kernel => [["cubic_spline"], ["quintic_spline"], ["wendland_c2"], ["wendland_c4"], ["wendland_c6"], ["gaussian"], ["super_gaussian"], ["sinc_ker"]]
  | .eos => [["ideal_fluid"], ["polytropic"], ["wd", "white_dwarf"], ["ppt", "piecewise_polytropic"], ["no_eos", "none"]]
  | .viscosity => [["constant"], ["cullen"]]
  | _ => []

/-- Upper and lower case are the same, and blanks are the same as underscores. -/
def sameWord (s : Text) (n : String) : Prop := s.map (fun c => if c = ' ' then '_' else c.toLower) = n.toList

/-- The value a text stands for, for a parameter of some kind. -/
def Means : Kind → Text → Value → Prop
  | .boolean, s, v => (s = "yes".toList ∨ s = "true".toList) ∧ v = .flag true ∨ (s = "no".toList ∨ s = "false".toList) ∧ v = .flag false
  | .numeric, s, v => v = .number s
  | .string, s, v => s.length ≤ 510 ∧ v = .string s
  | k, s, v => ∃ i, v = .keyword i ∧ ∃ l ∈ (names k)[i]?, ∃ n ∈ l, sameWord s n

/-- The lines of a file assign known parameters values which stand for something. -/
def Line.Sets (l : Line) (name : Text) (v : Value) : Prop :=
  match l with
  | .assign _ n _ _ w _ _ => n = name ∧ ∃ k, (∃ s, (s, k) ∈ known ∧ s.toList = name) ∧ Means k w.text v
  | _ => False

/-- All lines of a file are as documented. -/
def FileOk (f : List Line) : Prop := ∀ l ∈ f, l.Ok ∧ ∀ w1 n w2 w3 v w4 c, l = .assign w1 n w2 w3 v w4 c → ∃ x, l.Sets n x

/-- `x` is the value of parameter `name` after a file, if it was `x0` before: the last line which sets it decides. -/
inductive Final (name : Text) : List Line → Value → Value → Prop
  | nil (x) : Final name [] x x
  | other (l f x0 x) : (∀ v, ¬l.Sets name v) → Final name f x0 x → Final name (l :: f) x0 x
  | set (l f x0 v x) : l.Sets name v → Final name f v x → Final name (l :: f) x0 x

end FleCSPH.Params
