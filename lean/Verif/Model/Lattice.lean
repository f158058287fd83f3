import Mathlib.Analysis.Real.Sqrt
/-!
Model of the lattice generators of include/lattice.h: `in_domain_1d/2d/3d` and `generator_lattice_1d/2d/3d`. Coordinates are real numbers instead of `double`s;
`posid` is a natural number, and the arrays `x`, `y`, `z` are one function of the index. Loops take fuel: `none` is a loop which has not ended when the fuel is used up.
-/
namespace FleCSPH.Lattice
noncomputable section

/-- A position. -/
structure Pos where
  x : ℝ
  y : ℝ
  z : ℝ

/-- `b_tol`, lattice.h:59. -/
def bTol : ℝ := 1 / 1000000

/-- `in_domain_1d`, lattice.h:74-83. -/
def inDomain1 (lo hi : Pos) (p : Pos) : Prop :=
  let dx := bTol * (hi.x - lo.x)
  p.x > lo.x - dx ∧ p.x < hi.x - dx

/-- `in_domain_2d`, lattice.h:85-105. -/
def inDomain2 (domain : Int) (lo hi : Pos) (p : Pos) : Prop :=
  let dx := bTol * (hi.x - lo.x)
  let xmin := lo.x - dx
  let xmax := hi.x - dx
  let ymin := lo.y - dx
  let ymax := hi.y - dx
  (p.x > xmin ∧ p.x < xmax ∧ p.y > ymin ∧ p.y < ymax) ∧
    (domain = 1 →
      let r := 1 / 2 * min (xmax - xmin) (ymax - ymin)
      let x0 := 1 / 2 * (xmin + xmax)
      let y0 := 1 / 2 * (ymin + ymax)
      (p.x - x0) * (p.x - x0) + (p.y - y0) * (p.y - y0) < r * r)

/-- `in_domain_3d`, lattice.h:107-133. -/
def inDomain3 (domain : Int) (lo hi : Pos) (p : Pos) : Prop :=
  let dx := bTol * (hi.x - lo.x)
  let xmin := lo.x - dx
  let xmax := hi.x - dx
  let ymin := lo.y - dx
  let ymax := hi.y - dx
  let zmin := lo.z - dx
  let zmax := hi.z - dx
  (p.x > xmin ∧ p.x < xmax ∧ p.y > ymin ∧ p.y < ymax ∧ p.z > zmin ∧ p.z < zmax) ∧
    (domain = 1 →
      let r := 1 / 2 * min (min (xmax - xmin) (ymax - ymin)) (zmax - zmin)
      let x0 := 1 / 2 * (xmin + xmax)
      let y0 := 1 / 2 * (ymin + ymax)
      let z0 := 1 / 2 * (zmin + zmax)
      (p.x - x0) * (p.x - x0) + (p.y - y0) * (p.y - y0) + (p.z - z0) * (p.z - z0) < r * r)

/-- What a generator changes: the next particle and the arrays of positions. -/
structure State where
  posid : Nat
  pos : Nat → Pos

open Classical in
/-- The innermost statement of all generators, e.g. lattice.h:163-170 or 253-260. -/
def visit (countOnly : Bool) (dom : Pos → Prop) (p : Pos) (st : State) : State :=
  if dom p then { posid := st.posid + 1, pos := if countOnly then st.pos else Function.update st.pos st.posid p } else st

/-- The loop `for(double p = start, s = phase; p < hi; p += step, s = next(s)) body`. -/
def loop (fuel : Nat) (hi step : ℝ) (next : ℝ → ℝ) (body : ℝ → ℝ → State → Option State) (p s : ℝ) (st : State) : Option State :=
  match fuel with
  | 0 => none
  | fuel + 1 => if p < hi then (body p s st).bind (loop fuel hi step next body (p + step) (next s)) else some st

/-- `yo = 1 - yo`, `zo = 1 - zo`, lattice.h:210, 263, 265, 280. -/
def flip (s : ℝ) : ℝ := 1 - s

/-- `zl = (zl + 1) * (zl < 3)`, lattice.h:278. -/
def cycle (s : ℝ) : ℝ := (s + 1) * if s < 3 then 1 else 0

/-- `generator_lattice_1d`, lattice.h:143-173; the returned count is the growth of `posid`. -/
def generate1 (fuel : Nat) (countOnly : Bool) (lo hi : Pos) (sep : ℝ) (st : State) : Option State :=
  loop fuel hi.x sep id (fun x _ st => some (visit countOnly (inDomain1 lo hi) ⟨x, 0, 0⟩ st)) lo.x 0 st

/-- `generator_lattice_2d`, lattice.h:175-222. -/
def generate2 (fuel : Nat) (countOnly : Bool) (lattice domain : Int) (lo hi : Pos) (sep : ℝ) (st : State) : Option State :=
  let dx := sep
  let dy := sep * √3 / 2
  if lattice = 0 then
    loop fuel hi.y dx id (fun y _ =>
      loop fuel hi.x dx id (fun x _ st => some (visit countOnly (inDomain2 domain lo hi) ⟨x, y, 0⟩ st)) lo.x 0) lo.y 0 st
  else
    loop fuel hi.y dy flip (fun y yo =>
      loop fuel hi.x dx id (fun x _ st => some (visit countOnly (inDomain2 domain lo hi) ⟨x, y, 0⟩ st)) (lo.x + yo * dx / 2) 0) lo.y 0 st

/-- `generator_lattice_3d`, lattice.h:224-293. -/
def generate3 (fuel : Nat) (countOnly : Bool) (lattice domain : Int) (lo hi : Pos) (sep : ℝ) (st : State) : Option State :=
  let dx := sep
  let dy := sep * √3 / 2
  let dz := sep * √(2 / 3)
  if lattice = 0 then
    loop fuel hi.z dx id (fun z _ =>
      loop fuel hi.y dx id (fun y _ =>
        loop fuel hi.x dx id (fun x _ st => some (visit countOnly (inDomain3 domain lo hi) ⟨x, y, z⟩ st)) lo.x 0) lo.y 0) lo.z 0 st
  else if lattice = 1 then
    loop fuel hi.z dz flip (fun z zo =>
      loop fuel hi.y dy flip (fun y yo =>
        loop fuel hi.x dx id (fun x _ st => some (visit countOnly (inDomain3 domain lo hi) ⟨x, y, z⟩ st)) (lo.x + (yo - zo) * dx / 2) 0)
          (lo.y - zo * dy / 3) 0) lo.z 0 st
  else if lattice = 2 then
    loop fuel hi.z dz cycle (fun z zl =>
      loop fuel hi.y dy flip (fun y yo =>
        loop fuel hi.x dx id (fun x _ st => some (visit countOnly (inDomain3 domain lo hi) ⟨x, y, z⟩ st)) (lo.x + (yo - zl) * dx / 2) 0)
          (lo.y - zl * dy / 3) 0) lo.z 0 st
  else some st

end

end FleCSPH.Lattice
