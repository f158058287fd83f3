import Verif.Model.Lattice
import Mathlib.Analysis.SpecialFunctions.Trigonometric.Basic
import Mathlib.Analysis.SpecialFunctions.Pow.Real
/-!
Model of the icosahedral lattice of include/lattice.h: `npart_icosahedral_shell`, `npart_icosahedral_sphere` and `generator_icosahedral_lattice`. `int` arithmetic is
checked: `none` is an overflow, which is undefined in C++. Positions are real numbers instead of `double`s. The density profile is a pair of arbitrary functions, and the
criterion by which the search for the next radius stops is arbitrary as well: which `abs` is taken at lattice.h:570 depends on the headers included.
-/
namespace FleCSPH.Lattice

/-- The result of an operation on `int`s, if it is an `int`. -/
def i32 (n : Int) : Option Int := if -2147483648 ≤ n ∧ n ≤ 2147483647 then some n else none

/-- `npart_icosahedral_shell`, lattice.h:299-305: `12 + 30 * (k - 1) + 10 * (k - 1) * (k - 2)`, from left to right. -/
def npartShell (k : Int) : Option Int :=
  if k > 0 then do
    let a ← i32 (k - 1)
    let b ← i32 (30 * a)
    let c ← i32 (12 + b)
    let d ← i32 (10 * a)
    let e ← i32 (k - 2)
    let f ← i32 (d * e)
    i32 (c + f)
  else some 1

/-- `npart_icosahedral_sphere`, lattice.h:311-317: `1 + 3 * k * (5 * k - 1) + 10 * k * (k - 1) * (k - 2) / 3`, from left to right. -/
def npartSphere (k : Int) : Option Int :=
  if k > 0 then do
    let a ← i32 (3 * k)
    let b ← i32 (5 * k)
    let c ← i32 (b - 1)
    let d ← i32 (a * c)
    let e ← i32 (1 + d)
    let f ← i32 (10 * k)
    let g ← i32 (k - 1)
    let h ← i32 (f * g)
    let i ← i32 (k - 2)
    let j ← i32 (h * i)
    i32 (e + Int.tdiv j 3)
  else some 1

/-- `ico_edg` less one, lattice.h:372-375 and 448-449. -/
def icoEdges : List (Nat × Nat) :=
  [(1, 2), (1, 3), (1, 4), (1, 5), (1, 6), (2, 3), (3, 4), (4, 5), (5, 6), (6, 2), (2, 7), (7, 3), (3, 8), (8, 4), (4, 9), (9, 5), (5, 10), (10, 6), (6, 11), (11, 2),
    (7, 8), (8, 9), (9, 10), (10, 11), (11, 7), (7, 12), (8, 12), (9, 12), (10, 12), (11, 12)].map fun e => (e.1 - 1, e.2 - 1)

/-- `ico_fac` less one, lattice.h:376-379 and 493-495. -/
def icoFaces : List (Nat × Nat × Nat) :=
  [(1, 2, 3), (1, 3, 4), (1, 4, 5), (1, 5, 6), (1, 6, 2), (7, 2, 3), (8, 3, 4), (9, 4, 5), (10, 5, 6), (11, 6, 2), (3, 7, 8), (4, 8, 9), (5, 9, 10), (6, 10, 11),
    (2, 11, 7), (12, 7, 8), (12, 8, 9), (12, 9, 10), (12, 10, 11), (12, 11, 7)].map fun e => (e.1 - 1, e.2.1 - 1, e.2.2 - 1)

noncomputable section

/-- The constants of lattice.h:360-366. -/
def p5 : ℝ := Real.pi / 5
def sinb : ℝ := √(4 * Real.sin p5 ^ 2 - 1) / (2 * Real.sin p5 ^ 2)
def cosb : ℝ := √(1 - sinb ^ 2)
def sideA : ℝ := √(9 * Real.tan p5 ^ 2 - 3)
def eta : ℝ := √(5 * √3 / (4 * Real.pi)) * sideA

/-- `ico_vtx`, lattice.h:397-416. -/
def icoVtx (rk : ℝ) (v : Nat) : Pos :=
  if v = 0 then ⟨0, 0, rk⟩
  else if v = 11 then ⟨0, 0, -rk⟩
  else if v ≤ 5 then ⟨rk * sinb * Real.cos ((2 * (v - 1 : ℕ) : ℕ) * p5), rk * sinb * Real.sin ((2 * (v - 1 : ℕ) : ℕ) * p5), rk * cosb⟩
  else ⟨rk * sinb * Real.cos ((2 * (v - 6 : ℕ) + 1 : ℕ) * p5), rk * sinb * Real.sin ((2 * (v - 6 : ℕ) + 1 : ℕ) * p5), -rk * cosb⟩

/-- lattice.h:474-477 and 539-542: the point is moved to the sphere with radius `rk`, then the centre of the box is added. -/
def toShell (c : Pos) (rk : ℝ) (p : Pos) : Pos :=
  let r := √(p.x ^ 2 + p.y ^ 2 + p.z ^ 2) / rk
  ⟨c.x + p.x / r, c.y + p.y / r, c.z + p.z / r⟩

/-- The weight of the first vertex of an edge, lattice.h:463-467. -/
def edgeWeight (NN k : Nat) : ℝ :=
  let xt := ((k + 1 : ℕ) / (NN : ℝ) - 1 / 2) * sideA
  let yt := sideA / √12
  let x1t := xt * √((1 + yt ^ 2) / (1 - xt ^ 2 + 4 * yt ^ 2))
  x1t / sideA + 1 / 2

/-- lattice.h:469-477. -/
def edgePoint (c : Pos) (rk : ℝ) (NN : Nat) (e : Nat × Nat) (k : Nat) : Pos :=
  let f1 := edgeWeight NN k
  let f2 := 1 - f1
  let v1 := icoVtx rk e.1
  let v2 := icoVtx rk e.2
  toShell c rk ⟨f1 * v1.x + f2 * v2.x, f1 * v1.y + f2 * v2.y, f1 * v1.z + f2 * v2.z⟩

/-- The correction of the weights for the smallest weight `fm` and the others `fm1`, `fm2`: what is written to `ff[mm]`, `ff[m1]` and `ff[m2]`, lattice.h:516-530. -/
def tegmark (fm fm1 fm2 : ℝ) : ℝ × ℝ × ℝ :=
  let xt := sideA / 2 * (fm1 - fm2)
  let yt := sideA / √12 * (1 - 3 * fm)
  let tan3 := Real.tan (√3 / 2 * (yt / eta) ^ 2)
  let y1t := 1 / 2 * √(3 * ((1 + √3 * tan3) / (√3 - tan3)) ^ 2 - 1)
  let x1t := if y1t < 1 / 100000000 then 0 else xt * y1t * √((1 + y1t ^ 2) / (yt ^ 2 * (1 + 4 * y1t ^ 2) - (xt * y1t) ^ 2))
  let gm := (1 - y1t * √12 / sideA) / 3
  (gm, (1 - gm) / 2 + x1t / sideA, (1 - gm) / 2 - x1t / sideA)

/-- The weights `ff[0]`, `ff[1]`, `ff[2]` at the end, lattice.h:499-530; `m1 = (mm + 1) % 3`, `m2 = (mm + 2) % 3`. -/
def faceWeights (NN m n : Nat) : ℝ × ℝ × ℝ :=
  let f1 := (m : ℝ) / NN
  let f2 := (n : ℝ) / NN
  let f0 := 1 - f1 - f2
  if f1 ≤ f2 ∧ f1 ≤ f0 then
    let g := tegmark f1 f2 f0
    (g.2.2, g.1, g.2.1)
  else if f2 ≤ f1 ∧ f2 ≤ f0 then
    let g := tegmark f2 f0 f1
    (g.2.1, g.2.2, g.1)
  else
    let g := tegmark f0 f1 f2
    (g.1, g.2.1, g.2.2)

/-- lattice.h:532-542. -/
def facePoint (c : Pos) (rk : ℝ) (NN : Nat) (f : Nat × Nat × Nat) (m n : Nat) : Pos :=
  let w := faceWeights NN m n
  let v1 := icoVtx rk f.1
  let v2 := icoVtx rk f.2.1
  let v3 := icoVtx rk f.2.2
  toShell c rk ⟨w.2.1 * v1.x + w.2.2 * v2.x + w.1 * v3.x, w.2.1 * v1.y + w.2.2 * v2.y + w.1 * v3.y, w.2.1 * v1.z + w.2.2 * v2.z + w.1 * v3.z⟩

/-- One shell, lattice.h:418-554: vertices or the centre, edges, faces. -/
def placeShell (countOnly : Bool) (dom : Pos → Prop) (c : Pos) (rk : ℝ) (NN : Nat) (st : State) : State :=
  let st := if NN > 0 then
      (List.range 12).foldl (fun st i => let v := icoVtx rk i; visit countOnly dom ⟨c.x + v.x, c.y + v.y, c.z + v.z⟩ st) st
    else visit countOnly (fun _ => True) c st
  let st := icoEdges.foldl (fun st e => (List.range (NN - 1)).foldl (fun st k => visit countOnly dom (edgePoint c rk NN e k) st) st) st
  icoFaces.foldl (fun st f => (List.range (NN - 1)).foldl (fun st m =>
    (List.range (NN - 1 - (m + 1))).foldl (fun st n => visit countOnly dom (facePoint c rk NN f (m + 1) (n + 1)) st) st) st) st

/-- The search for `x1`, lattice.h:564-581, with `a = rk12p / R_shells`; the result is `x1` and `mrk12`. -/
def newton (rho mass : ℝ → ℝ) (stop : ℝ → ℝ → Prop) (a mrk12p Mk : ℝ) : Nat → ℝ → ℝ → ℝ × ℝ
  | 0, x1, mrk12 => (x1, mrk12)
  | n + 1, x1, _ =>
    let mrk12 := mass x1
    let f := mrk12 - mrk12p - Mk
    let f1 := 4 * Real.pi * (x1 * x1) * rho x1
    let x2 := x1 - f / f1
    open Classical in
    if stop x1 x2 then (x1, mrk12)
    else if x2 > a ∧ x2 < 1 then newton rho mass stop a mrk12p Mk n x2 mrk12
    else if f > 0 then newton rho mass stop a mrk12p Mk n (1 / 2 * (a + x1)) mrk12
    else newton rho mass stop a mrk12p Mk n (1 / 2 * (x1 + 1)) mrk12

/-- `rk`, `rk12p` and `mrk12p` between two shells. -/
structure Radii where
  rk : ℝ
  rk12p : ℝ
  mrk12p : ℝ

/-- lattice.h:560-587; `n` is `npart_icosahedral_shell(NN + 1)`. -/
def nextRadii (rho mass : ℝ → ℝ) (stop : ℝ → ℝ → Prop) (R m0 : ℝ) (n : Int) (r : Radii) : Radii :=
  let Mk := m0 * n
  let x1 := 1 / 2 * (r.rk12p / R + 1)
  let x := if 1 - r.mrk12p > Mk then newton rho mass stop (r.rk12p / R) r.mrk12p Mk 30 x1 1 else (x1, 1)
  let rk12 := x.1 * R
  ⟨1 / 2 * (r.rk12p + rk12), rk12, x.2⟩

/-- The loop over shells, lattice.h:391-589. -/
def shells (rho mass : ℝ → ℝ) (stop : ℝ → ℝ → Prop) (countOnly : Bool) (dom : Pos → Prop) (c : Pos) (R m0 : ℝ) : List Nat → Radii → State → Option State
  | [], _, st => some st
  | NN :: l, r, st =>
    let st := placeShell countOnly dom c r.rk NN st
    match npartShell (NN + 1) with
    | none => none
    | some n => shells rho mass stop countOnly dom c R m0 l (nextRadii rho mass stop R m0 n r) st

/-- `K_rad`, lattice.h:383. -/
def kRad (R dr : ℝ) : Option Int :=
  (i32 (if 0 ≤ R / dr then ⌊R / dr⌋ else ⌈R / dr⌉)).bind fun k => i32 (k + 1)

/-- The middle of the box, lattice.h:352-354. -/
def centre (lo hi : Pos) : Pos := ⟨1 / 2 * (lo.x + hi.x), 1 / 2 * (lo.y + hi.y), 1 / 2 * (lo.z + hi.z)⟩

/-- The radii before the first shell, lattice.h:385-389. -/
def firstRadii (rho : ℝ → ℝ) (R m0 : ℝ) : Radii :=
  let rho0 := rho 0 / (R * R * R)
  ⟨0, 12 / 10 * (3 * m0 / (4 * Real.pi * rho0)) ^ (1 / 3 : ℝ), m0⟩

/-- `generator_icosahedral_lattice`, lattice.h:330-592. -/
def generateIco (rho mass : ℝ → ℝ) (stop : ℝ → ℝ → Prop) (countOnly : Bool) (domain : Int) (lo hi : Pos) (sep : ℝ) (st : State) : Option State :=
  let R := (hi.x - lo.x) / 2
  match kRad R sep with
  | none => none
  | some K =>
    match npartSphere K with
    | none => none
    | some n =>
      let m0 := 1 / (n : ℝ)
      shells rho mass stop countOnly (inDomain3 domain lo hi) (centre lo hi) R m0 (List.range (K + 1).toNat) (firstRadii rho R m0) st

end

end FleCSPH.Lattice
