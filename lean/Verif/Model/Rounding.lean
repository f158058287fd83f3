import Verif.Model.SphRun
import Verif.Model.Morton
/-!
The neighbour search in floating-point arithmetic: the functions of Model/Geometry.lean, Model/Cofm.lean and Model/SphRun.lean again, with the result of every operation on `double` rounded. Minima,
maxima, comparisons and absolute values are exact. Overflow, underflow and fused operations are left out: the relative error of every single operation is bounded (`Rounding.err`).
-/
namespace FleCSPH.Rounded
open FleCSPH.Geometry FleCSPH.Cofm FleCSPH.Startup FleCSPH.SphRun

/-- Rounding to a floating-point number with unit roundoff `u` (2^-53 for `double`). -/
structure Rounding where
  fl : ℝ → ℝ
  u : ℝ
  nonneg : 0 ≤ u
  err : ∀ x, |fl x - x| ≤ u * |x|

variable {d : Nat} (R : Rounding)

/-- `x0 + x1 + ...` from left to right. -/
noncomputable def sum : List ℝ → ℝ
  | [] => 0
  | x :: l => l.foldl (fun s y => R.fl (s + y)) x

/-- The squares of the differences of coordinates. -/
noncomputable def squares (p q : Point d) : List ℝ := (List.finRange d).map fun i => R.fl (R.fl (p i - q i) * R.fl (p i - q i))

/-- `tree_geometry::distance2`, tree_geometry.h:60-62, 161-164, 265-269. -/
noncomputable def distance2 (p q : Point d) : ℝ := sum R (squares R p q)

/-- `flecsi::distance`, space_vector.h:46-58: in one dimension the absolute value, otherwise the root of the sum, which starts from zero. -/
noncomputable def distance (p q : Point d) : ℝ :=
  if d = 1 then ((List.finRange d).map fun i => |R.fl (p i - q i)|).sum else R.fl √((squares R p q).foldl (fun s y => R.fl (s + y)) 0)

/-- `within_distance2`, tree_geometry.h:65-69, 167-171, 272-276. -/
def withinDistance2 (p q : Point d) (r : ℝ) : Prop := distance2 R p q ≤ R.fl (r * r)

/-- `intersects_sphere_box`, tree_geometry.h:107-114, 219-227 and 329-342. -/
def intersectsSphereBox (tol : ℝ) (min max c : Point d) (r : ℝ) : Prop :=
  if d = 3 then distance2 R (clamp min max c) c ≤ R.fl (r * r) else R.fl (distance R (clamp min max c) c - r) ≤ tol

open Classical in
/-- `compute_cofm`, default_physics.h:59-118; `none` is the failed `assert(mass != 0.)`. The operators on points round every coordinate. -/
noncomputable def computeCofm (big : ℝ) (ents : List (Body d)) (nodes : List (Node d)) : Option (Node d) :=
  let sumc := nodes.foldl (fun (c : Point d) n => fun i => R.fl (c i + R.fl (n.mass * n.coords i))) (ents.foldl (fun (c : Point d) e => fun i => R.fl (c i + R.fl (e.mass * e.pos i))) 0)
  let mass := nodes.foldl (fun m n => R.fl (m + n.mass)) (ents.foldl (fun m e => R.fl (m + e.mass)) 0)
  let sub := nodes.foldl (fun s n => s + n.sub) (ents.foldl (fun s _ => s + 1) 0)
  let bmin := nodes.foldl (fun b n => fun i => min (b i) (n.bmin i))
    (ents.foldl (fun b e => fun i => min (b i) (R.fl (e.pos i - R.fl (e.h / 2)))) (fun _ => big))
  let bmax := nodes.foldl (fun b n => fun i => max (b i) (n.bmax i))
    (ents.foldl (fun b e => fun i => max (b i) (R.fl (e.pos i + R.fl (e.h / 2)))) (fun _ => -big))
  if mass = 0 then none
  else
    let coords : Point d := fun i => R.fl (sumc i / mass)
    let radius := nodes.foldl (fun r n => max r (R.fl (distance R coords n.coords + n.radius)))
      (ents.foldl (fun r e => max r (distance R coords e.pos)) 0)
    let lap := nodes.foldl (fun r n => max r (R.fl (R.fl (distance R coords n.coords + n.radius) + n.lap)))
      (ents.foldl (fun r e => max r (R.fl (distance R coords e.pos + e.h))) 0)
    some ⟨coords, mass, radius, bmin, bmax, sub, lap⟩

/-- `compute_cofm` on the data of the cells. -/
noncomputable def summarise (big : ℝ) (_ : Nat) (es ns : List (Data d)) : Data d :=
  .inr ((es.mapM bodyOf).bind fun es => (ns.mapM nodeOf).bind fun ns => computeCofm R big es ns)

open Classical in
/-- The test of a node for a group, tree_topology.h:323-336. The test of two boxes only compares. -/
noncomputable def accepts (tol : ℝ) (Val : Key → Data d) (a : Group) (k : Key) : Bool :=
  decide (∃ c, nodeOf (Val k) = some c ∧ (∀ n, nodeOf (Val a.cell) = some n → intersectsBoxBox c.bmin c.bmax n.bmin n.bmax) ∧
    ∃ e ∈ a.ents, ∃ b, bodyOf (Val e) = some b ∧ intersectsSphereBox R tol c.bmin c.bmax b.pos b.h)

open Classical in
/-- `neighbors[k]` of the particle `e` of a group from the leaves reached, tree_topology.h:355-379. -/
noncomputable def neighbours (Val : Key → Data d) (a : Group) (e : Key) (found : List Key) : List Key :=
  found.filter fun f => decide (∃ b g, bodyOf (Val e) = some b ∧ bodyOf (Val f) = some g ∧
    (∀ n, nodeOf (Val a.cell) = some n → withinDistance2 R g.pos n.coords (R.fl (max g.h n.lap + n.radius))) ∧ withinDistance2 R b.pos g.pos (max b.h g.h))

/-- The calls `ef(entity, neighbours)` made for the groups which were searched, tree_topology.h:401-409. -/
noncomputable def calls (Val : Key → Data d) (results : List (Group × List Key)) : List (Key × List Key) :=
  results.flatMap fun r => r.1.ents.map fun e => (e, neighbours R Val r.1 e r.2)

/-- The coordinates of a cell of a key, filling_curve.h:510-516 (see `Morton.cellCoord`); `none`: division by zero or an undefined conversion. The power of two is exact. -/
noncomputable def cellCoord (bits dim : Nat) (lo hi p : ℝ) : Option Nat :=
  let scale := R.fl (hi - lo)
  if scale = 0 then none else
    let x := R.fl (R.fl (R.fl (p - lo) / scale) * 2 ^ Key.maxDepth bits dim)
    if x ≤ -1 ∨ (2 : ℝ) ^ bits ≤ x then none else some (Nat.min (2 ^ Key.maxDepth bits dim - 1) ⌊x⌋₊)

/-- The constructor of a key at full depth, filling_curve.h:490-525: the conversion of all coordinates, then the bits (`Morton.interleave`). -/
noncomputable def encode (bits dim : Nat) (lo hi p : Nat → ℝ) : Option Nat :=
  if ∀ j < dim, (cellCoord R bits dim (lo j) (hi j) (p j)).isSome then
    some (Morton.interleave bits dim (fun j => (cellCoord R bits dim (lo j) (hi j) (p j)).getD 0) (Key.maxDepth bits dim))
  else none

end FleCSPH.Rounded
