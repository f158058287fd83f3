import Verif.Model.ShareTable
import Verif.Model.BuildTree
import Verif.Model.Cofm
import Verif.Model.Ghosts
/-!
`build_tree` on all processes with the data of the nodes, followed by `share_nodes_` (include/tree_topology/tree_topology.h:879-1000): the tables of Model/BuildTree.lean (numbers as keys, indices into
`entities_` and `cofm_`) are read as the tables of Model/ShareTable.lean (paths as keys, the data itself).
-/
namespace FleCSPH.Startup
open FleCSPH.BuildTree FleCSPH.ShareTable FleCSPH.Cofm

variable {V : Type}

/-- The calls of the summary function in the order `build_tree` makes them, filling `cofm_` (tree_topology.h:1894-1918, 1949-1969); `F` gets the key of the node, the data of the entities and of the
nodes. -/
def evalCalls (F : Nat → List V → List V → V) (bodies : List V) : List CofmCall → List V → Option (List V)
  | [], acc => some acc
  | c :: calls, acc =>
    match c.ents.mapM (at? bodies), c.nodes.mapM (at? acc) with
    | some es, some ns => evalCalls F bodies calls (acc ++ [F c.key es ns])
    | _, _ => none

/-- A cell of process `r` with the data it refers to; the owner of a cell made by `build_tree` is the process (tree_types.h:169-185), and its data is `cofm_[node_idx]` or `entities_[entity_idx]`
(e.g. tree_topology.h:1799-1812). -/
def cellOf (dim r : Nat) (bodies nodes : List V) (c : HCell.Cell) : ShareTable.Cell V :=
  { ent := c.entityIdx != -1, node := c.nodeIdx != -1, kids := (Finset.range (2 ^ dim)).filter fun b => HCell.getChild c b = true, owner := r,
    shared := HCell.isShared dim c, data := if c.nodeIdx != -1 then at? nodes c.nodeIdx else at? bodies c.entityIdx }

/-- The table with paths as keys: the number `1` followed by the child numbers. -/
def tableOf (dim r : Nat) (bodies nodes : List V) (t : Tbl) : ShareTable.Table V := fun k =>
  if k.all (fun j => decide (j < 2 ^ dim)) then (t (code dim k)).map (cellOf dim r bodies nodes) else none

/-- Process `r` after `build_tree` up to the call of `share_nodes_`, tree_topology.h:879-993; `val x` is the data of the particle with key `x`. `key_t::min()` and `key_t::max()` are `1` followed by
`D * dim` zeros or ones (filling_curve.h:65-75). -/
def procOf (D dim : Nat) (F : Nat → List V → List V → V) (val : Nat → V) (ranks : List (List Nat)) (r : Nat) : Option (Proc V) :=
  match envOf D dim (2 ^ (D * dim)) (2 * 2 ^ (D * dim) - 1) ranks r with
  | none => none
  | some E =>
    match buildTree E with
    | none => none
    | some s =>
      match evalCalls F (E.ents.map val) s.cofm [] with
      | none => none
      | some nodes => some { tbl := tableOf dim r (E.ents.map val) nodes s.tbl, lo := E.lobound, hi := E.hibound }

/-- `build_tree` on all processes, tree_topology.h:879-1000, for a power of two of them. -/
def startup (D dim : Nat) (F : Nat → List V → List V → V) (val : Nat → V) (ranks : List (List Nat)) : Option (List (Proc V)) :=
  match (List.range ranks.length).mapM (procOf D dim F val ranks) with
  | none => none
  | some s => shareNodes { D := D, dim := dim, f := fun k => F (code dim k) } s

/-- What the traversals (Model/Ghosts.lean) see of a cell: nothing is requested and no number of children to receive is set (`type_ = 0` in the constructors, tree_types.h:169-185). -/
def ghostCell (c : ShareTable.Cell V) : Ghosts.Cell := { ent := c.ent, kids := c.kids, toRecv := 0, requested := false, owner := c.owner }

/-- The tables the traversals start from. -/
def ghostTables (s : List (Proc V)) (p : Nat) : Ghosts.Table := fun k =>
  match s[p]? with
  | none => none
  | some me => (me.tbl k).map ghostCell

/-- The state in which a traversal starts, tree_topology.h:213-240, 446-480: no message is under way. -/
def begin_ {τ ω : Type} (s : List (Proc V)) (tasks : Nat → List τ) : Ghosts.State τ ω :=
  { tbl := ghostTables s, tasks := tasks, results := fun _ => [], toSend := fun _ => [], trans := fun _ => [], asked := fun _ => [], sent := fun _ => false, got := fun _ _ => false }

/-- The data of a cell in the program: a particle, or the result of `compute_cofm` (nothing if an assertion failed). -/
abbrev Data (d : Nat) := Body d ⊕ Option (Node d)

def bodyOf {d : Nat} : Data d → Option (Body d)
  | .inl b => some b
  | .inr _ => none

def nodeOf {d : Nat} : Data d → Option (Node d)
  | .inl _ => none
  | .inr n => n

/-- `compute_cofm`, include/physics/default_physics.h (Model/Cofm.lean), on the data of the cells. -/
noncomputable def summarise {d : Nat} (big : ℝ) (_ : Nat) (es ns : List (Data d)) : Data d :=
  .inr ((es.mapM bodyOf).bind fun es => (ns.mapM nodeOf).bind fun ns => computeCofm big es ns)

end FleCSPH.Startup
