import Mathlib.Data.Real.Basic
/-!
Model of `scalar_output` (the file it writes) and `check_conservation` (how it reads that file) of include/physics/analysis.h. A file is the list of its words, separated by blanks and
ends of lines: numbers, and other words, such as those of the header. Numbers are real numbers; the last word is followed by the end of a line. Formatting of numbers with 13 digits is not
modelled.
-/
namespace FleCSPH.Conservation
noncomputable section

/-- A word of a file: a number or something else. -/
inductive Tok
  | word
  | num (x : ℝ)

/-- One line of `scalar_output`, analysis.h:376-404: the third energy is internal or gravitational energy, the angular momentum has 0, 1 or 3 components, and in 3D the coordinates of the
root node follow. -/
structure Scalars where
  iteration : Nat
  time : ℝ
  dt : ℝ
  mass : ℝ
  energy : ℝ
  kinetic : ℝ
  internal : ℝ
  momentum : List ℝ
  angular : List ℝ
  root : List ℝ

/-- The words of a line, analysis.h:376-399. -/
def Scalars.toks (r : Scalars) : List Tok :=
  (([(r.iteration : ℝ), r.time, r.dt, r.mass, r.energy, r.kinetic, r.internal] ++ r.momentum) ++ (r.angular ++ r.root)).map Tok.num

/-- The file after these outputs: at the first output of a run the file is created with the header, analysis.h:331-374, whose lines begin with `#`; the lines are appended. `header` are the words
after the first `#`. -/
def outputFile (header : List Tok) (rows : List Scalars) : List Tok :=
  Tok.word :: header ++ rows.flatMap Scalars.toks

/-- An input stream: what is left, and `good()`. -/
structure Stream where
  toks : List Tok
  good : Bool

/-- `inFile >> v` for a number: nothing if the stream is not good; at the end the stream is not good any more; a word which is not a number makes the value 0 and the stream not good.
The old value is `none` if the variable is not initialised. -/
def get (s : Stream) (v : Option ℝ) : Option ℝ × Stream :=
  if s.good then
    match s.toks with
    | [] => (v, ⟨[], false⟩)
    | Tok.word :: t => (some 0, ⟨Tok.word :: t, false⟩)
    | Tok.num x :: t => (some x, ⟨t, true⟩)
  else (v, s)

/-- Several values one after the other. -/
def gets (s : Stream) : List (Option ℝ) → List (Option ℝ) × Stream
  | [] => ([], s)
  | v :: l =>
    let r := get s v
    let q := gets r.2 l
    (r.1 :: q.1, q.2)

/-- What is read from a line: iteration, time, timestep, mass, energy, the momentum, and the angular momentum in 2D and 3D, analysis.h:466-475, 478-487. -/
def width (d : Nat) : Nat := 5 + d + (if d = 2 then 1 else if d = 3 then 3 else 0)

/-- `e_conservation`, analysis.h:35. -/
inductive Quantity | mass | energy | momentum | angMomentum
  deriving DecidableEq

/-- `tol`, analysis.h:454. -/
def tol : ℝ := 1 / 10 ^ 16

/-- `abs(base - x) < tol`; `none` if one of them is not initialised. -/
def close (base x : Option ℝ) : Option Bool :=
  base.bind fun a => x.bind fun b => open Classical in some (decide (|a - b| < tol))

/-- One test, analysis.h:490-519. For the momenta the code subtracts the addresses of two arrays, not their entries: `p` and `q` are the differences. -/
def test (p q : Int) (base row : List (Option ℝ)) : Quantity → Option Bool
  | .mass => close (base.getD 3 none) (row.getD 3 none)
  | .energy => close (base.getD 4 none) (row.getD 4 none)
  | .momentum => open Classical in some (decide (|(p : ℝ)| < tol))
  | .angMomentum => open Classical in some (decide (|(q : ℝ)| < tol))

/-- The tests of one line: `some false` at the first which fails. -/
def tests (p q : Int) (base row : List (Option ℝ)) : List Quantity → Option Bool
  | [] => some true
  | c :: l =>
    match test p q base row c with
    | none => none
    | some false => some false
    | some true => tests p q base row l

/-- The loop, analysis.h:477-520; `none` with no fuel. -/
def rows (p q : Int) (base : List (Option ℝ)) (check : List Quantity) : Nat → Stream → List (Option ℝ) → Option Bool
  | 0, _, _ => none
  | fuel + 1, s, vars =>
    if s.good then
      let r := gets s vars
      match tests p q base r.1 check with
      | none => none
      | some false => some false
      | some true => rows p q base check fuel r.2 r.1
    else some true

/-- `check_conservation`, analysis.h:430-524, for a file which exists. -/
def checkConservation (d : Nat) (p q : Int) (file : List Tok) (check : List Quantity) : Option Bool :=
  let r := gets ⟨file, true⟩ (List.replicate (width d) none)
  rows p q r.1 check (file.length + 2) r.2 (List.replicate (width d) none)

end

end FleCSPH.Conservation
