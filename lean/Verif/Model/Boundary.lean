import Verif.Model.Geometry
/-!
Model of the periodic boundary, include/physics/boundary.h, on the particles of all processes, in exact real arithmetic and with exact integers (`int64_t` in the code). `i : Fin 3` stands for
`gdimension - 1`. The collective operations are modelled by their results: a list with one entry per process. A failed assertion and a write outside an array are `none`. `abs` of the
corners is the one for `double`.
-/
namespace FleCSPH.Boundary
open FleCSPH.Geometry

/-- The fields of `body` used here; `rest` are all the others. -/
structure Body (d : Nat) (β : Type) where
  id : Int
  /-- `getType() == WALL` -/
  wall : Bool
  pos : Point d
  rest : β

/-- `pboundary_clean`, boundary.h:46-58: `stable_partition` keeps the order of the particles which are not walls; the assertion of line 51 fails when there is none. -/
def clean {d : Nat} {β : Type} (l : List (Body d β)) : Option (List (Body d β)) :=
  let start := l.filter fun b => !b.wall
  if start.length = 0 then none else some start

/-- Which components of `min` and `max` are written, boundary.h:133-143: component 1 if `gdimension >= 1` and component 2 if `gdimension >= 2`. -/
def boxWrites (d : Nat) : List Nat := 0 :: ((if d ≥ 1 then [1] else []) ++ (if d ≥ 2 then [2] else []))

/-- Whether these writes stay inside a `point_t`, which has `gdimension` components. -/
def boxDefined (d : Nat) : Bool := (boxWrites d).all fun k => k < d

noncomputable section

/-- The box and the parameters: `sides` are `box_length`, `box_width`, `box_height`. -/
structure Box (d : Nat) where
  sides : Fin d → ℝ
  periodic : Fin d → Bool
  halo : ℝ

variable {d : Nat} {β : Type}

/-- `box[0][j]`, boundary.h:134-144. -/
def Box.min (B : Box d) (j : Fin d) : ℝ := -(1 / 2) * B.sides j

/-- `box[1][j]`, boundary.h:134-144. -/
def Box.max (B : Box d) (j : Fin d) : ℝ := 1 / 2 * B.sides j

open Classical in
/-- One pass of the loop over the axes, boundary.h:150-161. -/
def teleportAxis (B : Box d) (p : Point d) (j : Fin d) : Point d :=
  if B.periodic j then
    if p j > B.max j then Function.update p j (p j - (B.max j - B.min j))
    else if p j ≤ B.min j then Function.update p j (p j + (B.max j - B.min j))
    else p
  else p

/-- Step 1 for a particle, boundary.h:149-162. -/
def teleport (B : Box d) (b : Body d β) : Body d β := { b with pos := (List.finRange d).foldl (teleportAxis B) b.pos }

open Classical in
/-- `on_edge[j]`, boundary.h:169-177. -/
def onEdge (B : Box d) (p : Point d) (j : Fin d) : Bool :=
  B.periodic j && (decide (p j + B.halo > B.max j) || decide (p j - B.halo ≤ B.min j))

open Classical in
/-- The coordinate of the copy on one axis, boundary.h:180-190. -/
def axisCopy (B : Box d) (p : Point d) (j : Fin d) : ℝ := if p j + B.halo > B.max j then p j - (B.max j - B.min j) else p j + (B.max j - B.min j)

open Classical in
/-- A coordinate of a copy in a corner, boundary.h:84-89, 108-113. -/
def cornerCopy (B : Box d) (p : Point d) (j : Fin d) : ℝ := if p j + B.halo > B.max j then B.min j - |p j + B.min j| else B.max j + |p j + B.max j|

/-- `add_corner_XX` and `add_corner_XXX`, boundary.h:72-118: the copy in the corner of these axes. -/
def addCorner (B : Box d) (b : Body d β) (axes : List (Fin d)) : List (Body d β) :=
  if axes.all (onEdge B b.pos) then [{ b with wall := true, pos := axes.foldl (fun q j => Function.update q j (cornerCopy B b.pos j)) b.pos }] else []

/-- The corners, boundary.h:196-210. -/
def corners : (i : Fin 3) → List (List (Fin (i + 1)))
  | 0 => []
  | 1 => [([0, 1] : List (Fin 2))]
  | 2 => [([0, 1] : List (Fin 3)), [0, 2], [2, 1], [0, 1, 2]]

/-- The copies of a particle, boundary.h:168-210. -/
def copies (i : Fin 3) (B : Box (i + 1)) (b : Body (i + 1) β) : List (Body (i + 1) β) :=
  ((List.finRange (i + 1)).filter (onEdge B b.pos)).map (fun j => { b with wall := true, pos := Function.update b.pos j (axisCopy B b.pos j) }) ++
    (corners i).flatMap (addCorner B b)

/-- `edge`, boundary.h:166-211. -/
def edge (i : Fin 3) (B : Box (i + 1)) (l : List (Body (i + 1) β)) : List (Body (i + 1) β) := l.flatMap (copies i B)

end

/-- New ids for the walls, in order, boundary.h:239-243. -/
def renumber {d : Nat} {β : Type} : Int → List (Body d β) → List (Body d β)
  | _, [] => []
  | n, b :: l => if b.wall then { b with id := n } :: renumber (n + 1) l else b :: renumber n l

/-- `nparticles_wall` after the prefix scan, boundary.h:223-231: one more entry than processes. -/
def prefixes : Int → List Int → List Int
  | s, [] => [s]
  | s, a :: l => s :: prefixes (s + a) l

/-- `pboundary_generate`, boundary.h:120-248, on all processes, after the construction of the box. -/
noncomputable def generate {β : Type} (i : Fin 3) (B : Box (i + 1)) (ranks : List (List (Body (i + 1) β))) : Option (List (List (Body (i + 1) β))) :=
  let original : Int := (ranks.map fun l => (l.length : Int)).sum
  let moved := ranks.map fun l => l.map (teleport B)
  let walls : List Int := prefixes 0 (moved.map fun l => ((edge i B l).length : Int))
  let all := moved.map fun l => l ++ edge i B l
  let out := all.zipWith (fun l n => renumber (original + n) l) walls
  let total : Int := original + (walls.getLast?.getD 0)
  let check : Int := (out.map fun l => (l.map Body.id).sum).sum
  if check = (total - 1) * total / 2 then some out else none

end FleCSPH.Boundary
