import Mathlib.Data.List.Basic
/-!
What is expected of logging (include/log.h), stated without the model: texts made of characters and colour codes, what an output with and without
colours shows of them, and who is meant to see a message.
-/
namespace FleCSPH.LogSpec

/-- A piece of a text: a character, a colour `ESC [ 0|1 ; 3 n m`, or the return to plain text `ESC [ 0 m`. -/
inductive Piece
  | char (c : Char)
  | code (bold : Bool) (n : Char)
  | reset

/-- The characters are not the escape character, the colours are 0 to 7. -/
def Piece.Ok : Piece → Prop
  | char c => c ≠ '\x1b'
  | code _ n => n ∈ ['0', '1', '2', '3', '4', '5', '6', '7']
  | reset => True

/-- What is written of a piece with colours. -/
def Piece.full : Piece → List Char
  | char c => [c]
  | code b n => ['\x1b', '[', if b then '1' else '0', ';', '3', n, 'm']
  | reset => ['\x1b', '[', '0', 'm']

/-- What is written of a piece without colours. -/
def Piece.bare : Piece → List Char
  | char c => [c]
  | _ => []

/-- A text with its colour codes. -/
def full (s : List Piece) : List Char := s.flatMap Piece.full

/-- A text without its colour codes. -/
def bare (s : List Piece) : List Char := s.flatMap Piece.bare

/-- What a user does with the outputs of the log: add an output which holds `old`, switch one on or off, write. -/
inductive Op
  | add (key : String) (old : List Char) (colours : Bool)
  | enable (key : String)
  | disable (key : String)
  | write (s : List Piece)

/-- An output: switched on, with colours, its contents. -/
structure Output where
  on : Bool
  colours : Bool
  text : List Char

/-- What one operation does to the output called `key`; `none`: there is no such output yet. -/
def Op.effect (key : String) : Op → Option Output → Option Output
  | add k old c, o => if k = key then some ⟨true, c, old⟩ else o
  | enable k, o => if k = key then o.map fun o => { o with on := true } else o
  | disable k, o => if k = key then o.map fun o => { o with on := false } else o
  | write s, o => o.map fun o => if o.on then { o with text := o.text ++ if o.colours then full s else bare s } else o

/-- The output called `key` after some operations. -/
def outputOf (key : String) (ops : List Op) (o : Option Output) : Option Output := ops.foldl (fun o op => op.effect key o) o

/-- Outputs are switched only after they were added (`known`: those present at the beginning), and only proper texts are written. -/
def Proper : List String → List Op → Prop
  | _, [] => True
  | known, .add k _ _ :: ops => Proper (k :: known) ops
  | known, .enable k :: ops => k ∈ known ∧ Proper known ops
  | known, .disable k :: ops => k ∈ known ∧ Proper known ops
  | known, .write s :: ops => (∀ x ∈ s, x.Ok) ∧ Proper known ops

/-- The codes that may be taken out of a text: `ESC [ a m` and `ESC [ a ; 3 n m` with `a` 0 or 1 and `n` 0 to 7. -/
def IsCode (w : List Char) : Prop :=
  (∃ a ∈ ['0', '1'], w = ['\x1b', '[', a, 'm']) ∨
  ∃ a ∈ ['0', '1'], ∃ n ∈ ['0', '1', '2', '3', '4', '5', '6', '7'], w = ['\x1b', '[', a, ';', '3', n, 'm']

/-- `Removed x y`: `y` is the text `x` but for some codes that were taken out. -/
inductive Removed : List Char → List Char → Prop
  | nil : Removed [] []
  | char (c : Char) {x y} : Removed x y → Removed (c :: x) (c :: y)
  | code {w x y} : IsCode w → Removed x y → Removed (w ++ x) y

/-! ### Messages -/

/-- The piece of text of some characters. -/
def chars (s : List Char) : List Piece := s.map Piece.char

/-- The line printed for a message: severity in its colour, time and place, rank, then the text. -/
def line (letter col : Char) (stamp rank : List Char) (text : List Piece) : List Piece :=
  [.code false col] ++ chars ['[', letter] ++ [.reset] ++ [.code false '7'] ++ chars stamp ++ [.reset] ++
  [.code true '0'] ++ chars ([' ', 'r'] ++ rank) ++ [.reset] ++ [.code false col] ++ chars [']', ' '] ++ [.reset] ++ text

/-- A message for one rank: the rank asked for (`none`: the output rank), information or trace, time and place, the text. -/
structure Call where
  target : Option Nat
  isInfo : Bool
  stamp : List Char
  text : List Piece

/-- What rank `r` is to print for a message if the output rank is `a` and messages below `strip` are left out; `name`: the rank as printed. -/
def Call.expected (strip a r : Nat) (name : List Char) (c : Call) : List Piece :=
  if r = c.target.getD a ∧ strip < (if c.isInfo then 2 else 1) then
    (if c.isInfo then line 'I' '2' c.stamp name c.text else line 'T' '6' c.stamp name c.text)
  else []

/-- No stray escape characters. -/
def Call.Ok (c : Call) : Prop := '\x1b' ∉ c.stamp ∧ ∀ x ∈ c.text, x.Ok

/-! ### Tags -/

/-- The tags asked for when logging starts. -/
inductive Request
  | all
  | none
  | names (l : List String)

/-- How the request is written: names with commas between them. -/
def Request.text : Request → String
  | all => "all"
  | none => "none"
  | names l => String.ofList (List.intercalate [','] (l.map String.toList))

/-- Names are not empty, contain no comma, and the list is not one of the two special words. -/
def Request.Ok : Request → Prop
  | names l => (∀ n ∈ l, n ≠ "" ∧ ',' ∉ n.toList) ∧ l ≠ ["all"] ∧ l ≠ ["none"]
  | _ => True

/-- A tag was asked for. -/
def Request.Asked (n : String) : Request → Prop
  | all => True
  | none => False
  | names l => n ∈ l

/-- The guards open after entering (`some name`) and leaving (`none`) guards, innermost first; fails if one too many is left. -/
def openGuards : List (Option String) → List String → Option (List String)
  | [], st => some st
  | some n :: l, st => openGuards l (n :: st)
  | Option.none :: _, [] => Option.none
  | Option.none :: l, _ :: st => openGuards l st

/-! ### Times -/

/-- The bytes of a number, low byte first, have no zero byte below a byte which is not zero. -/
def Readable (n : Nat) : Prop := n < 256 ^ 8 ∧ ∀ i, n / 256 ^ i % 256 = 0 → n / 256 ^ i = 0

/-- Every call that received `a` came before every call that received `b`. -/
def SentBefore {α : Type} (h : List (List α)) (a b : α) : Prop := ∀ (i j : Nat) (gi gj : List α), h[i]? = some gi → h[j]? = some gj → a ∈ gi → b ∈ gj → i < j

end FleCSPH.LogSpec
