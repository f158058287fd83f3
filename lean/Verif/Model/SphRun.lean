import Verif.Model.Startup
import Verif.Model.Traversal
/-!
Model of `traversal_sph`, include/tree_topology/tree_topology.h:213-425, on several processes: the selection of the groups of particles, the tests applied to cells and leaves, and the calls of the
user's function. The search of one group and the exchange of cells between the processes is Model/Ghosts.lean, whose parameter `accept` is `accepts` here; its result is the list of leaves reached.

The groups are selected in the table before the first message. This is no restriction: what arrives later is marked as shared (`set_shared`, tree_topology.h:1489, 1522), and only entities which are
not shared are taken. The data of a cell is the same on all processes (`C17_tables_partial`), and what arrives is a copy of it, so one function `Val` gives it.
-/
namespace FleCSPH.SphRun
open FleCSPH.Startup FleCSPH.Cofm FleCSPH.Geometry FleCSPH.Traversal

abbrev Key := List Nat

variable {d : Nat}

/-- The selection of cells, tree_topology.h:221-235, below a cell; `sent` is `sub_entities_`. The first number bounds the depth, the order of the result is not modelled. -/
def selected (nch : Nat) (t : ShareTable.Table (Data d)) (sent : Nat) : Nat → Key → Option (List Key)
  | 0, _ => none
  | fuel + 1, k =>
    match t k with
    | none => none
    | some c =>
      if ShareTable.unset c then none
      else if c.node then
        match c.data.bind nodeOf with
        | none => none
        | some n =>
          if c.shared || decide (sent < n.sub) then (ShareTable.daughterKeys nch t k c).bind fun ds => (ds.mapM (selected nch t sent fuel)).map List.flatten
          else some [k]
      else some (if c.shared then [] else [k])

/-- The local entities below a cell, tree_topology.h:293-305. -/
def localEnts (nch : Nat) (t : ShareTable.Table (Data d)) : Nat → Key → Option (List Key)
  | 0, _ => none
  | fuel + 1, k =>
    match t k with
    | none => none
    | some c =>
      if ShareTable.unset c then none
      else if c.node then (ShareTable.daughterKeys nch t k c).bind fun ds => (ds.mapM (localEnts nch t fuel)).map List.flatten
      else some (if c.shared then [] else [k])

/-- `cur` and `cur_entities`, tree_topology.h:284-311. -/
structure Group where
  cell : Key
  ents : List Key

/-- The group of a selected cell, tree_topology.h:284-311. -/
def groupAt (nch : Nat) (t : ShareTable.Table (Data d)) (fuel : Nat) (k : Key) : Option Group :=
  match t k with
  | none => none
  | some c => if c.node then (localEnts nch t fuel k).map fun es => ⟨k, es⟩ else some ⟨k, [k]⟩

/-- All groups of a process, tree_topology.h:219-311. -/
def groupsOf (nch : Nat) (t : ShareTable.Table (Data d)) (sent fuel : Nat) : Option (List Group) :=
  (selected nch t sent fuel []).bind fun ks => ks.mapM (groupAt nch t fuel)

open Classical in
/-- The test of a node for a group, tree_topology.h:323-336: the boxes of the two nodes meet (if the group is a node), and the sphere of one particle of the group meets the box. -/
noncomputable def accepts (tol : ℝ) (Val : Key → Data d) (a : Group) (k : Key) : Bool :=
  decide (∃ c, nodeOf (Val k) = some c ∧ (∀ n, nodeOf (Val a.cell) = some n → intersectsBoxBox c.bmin c.bmax n.bmin n.bmax) ∧
    ∃ e ∈ a.ents, ∃ b, bodyOf (Val e) = some b ∧ intersectsSphereBox tol c.bmin c.bmax b.pos b.h)

open Classical in
/-- `neighbors[k]` of the particle `e` of a group from the leaves reached, tree_topology.h:355-379. -/
noncomputable def neighbours (Val : Key → Data d) (a : Group) (e : Key) (found : List Key) : List Key :=
  found.filter fun f => decide (∃ b g, bodyOf (Val e) = some b ∧ bodyOf (Val f) = some g ∧
    (∀ n, nodeOf (Val a.cell) = some n → withinDistance2 g.pos n.coords (max g.h n.lap + n.radius)) ∧ withinDistance2 b.pos g.pos (max b.h g.h))

/-- The calls `ef(entity, neighbours)` made for the groups which were searched, tree_topology.h:401-409. -/
noncomputable def calls (Val : Key → Data d) (results : List (Group × List Key)) : List (Key × List Key) :=
  results.flatMap fun r => r.1.ents.map fun e => (e, neighbours Val r.1 e r.2)

end FleCSPH.SphRun
