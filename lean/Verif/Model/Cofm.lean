import Verif.Model.BuildTree
import Verif.Model.Geometry
/-!
Model of `compute_cofm` (include/physics/default_physics.h:59-118) and of its calls by `build_tree`, in exact real
arithmetic. `big` is `DBL_MAX`.
-/
namespace FleCSPH.Cofm
open FleCSPH.Geometry FleCSPH.BuildTree

/-- The data of a particle the tree uses: `coordinates()`, `mass()`, `radius()` (the smoothing length). -/
structure Body (d : Nat) where
  pos : Point d
  mass : ℝ
  h : ℝ

/-- `cofm_u`, tree_types.h:52-141. -/
structure Node (d : Nat) where
  coords : Point d
  mass : ℝ
  radius : ℝ
  bmin : Point d
  bmax : Point d
  sub : ℕ
  lap : ℝ

open Classical in
/-- `compute_cofm`, default_physics.h:59-118; `none` is the failed `assert(mass != 0.)`. -/
noncomputable def computeCofm {d : Nat} (big : ℝ) (ents : List (Body d)) (nodes : List (Node d)) : Option (Node d) :=
  let sumc := nodes.foldl (fun c n => c + n.mass • n.coords) (ents.foldl (fun c e => c + e.mass • e.pos) 0)
  let mass := nodes.foldl (fun m n => m + n.mass) (ents.foldl (fun m e => m + e.mass) 0)
  let sub := nodes.foldl (fun s n => s + n.sub) (ents.foldl (fun s _ => s + 1) 0)
  let bmin := nodes.foldl (fun b n => fun i => min (b i) (n.bmin i))
    (ents.foldl (fun b e => fun i => min (b i) (e.pos i - e.h / 2)) (fun _ => big))
  let bmax := nodes.foldl (fun b n => fun i => max (b i) (n.bmax i))
    (ents.foldl (fun b e => fun i => max (b i) (e.pos i + e.h / 2)) (fun _ => -big))
  if mass = 0 then none
  else
    let coords : Point d := mass⁻¹ • sumc
    let radius := nodes.foldl (fun r n => max r (distance coords n.coords + n.radius))
      (ents.foldl (fun r e => max r (distance coords e.pos)) 0)
    let lap := nodes.foldl (fun r n => max r (distance coords n.coords + n.radius + n.lap))
      (ents.foldl (fun r e => max r (distance coords e.pos + e.h)) 0)
    some ⟨coords, mass, radius, bmin, bmax, sub, lap⟩

/-- An index into `entities_` or `cofm_` (tree_topology.h:1003-1035, `get_entity`, `get_node`); negative indices and
indices past the end are undefined. -/
def at? {α : Type} (l : List α) (i : Int) : Option α := if 0 ≤ i then l[i.toNat]? else none

/-- The calls of `compute_cofm` in the order `build_tree` makes them, filling `cofm_` (tree_topology.h:1894-1918,
1949-1969). -/
noncomputable def evalLog {d : Nat} (big : ℝ) (bodies : List (Body d)) : List CofmCall → List (Node d) → Option (List (Node d))
  | [], acc => some acc
  | c :: calls, acc => do
    let es ← c.ents.mapM (at? bodies)
    let ns ← c.nodes.mapM (at? acc)
    let n ← computeCofm big es ns
    evalLog big bodies calls (acc ++ [n])

end FleCSPH.Cofm
