import Mathlib.Data.Finset.Card
import Mathlib.Data.Finset.Insert
import Mathlib.Data.Finset.Range
import Mathlib.Data.Nat.Log
/-!
Model of the exchange of the tops of the trees, `share_nodes_` with `find_nodes_`, `load_shared_entity_`, `load_shared_node_`, `add_parent_`, `cofm_update_`, `key_boundary_`,
include/tree_topology/tree_topology.h:1550-1890, 2026-2036, on the tables of all processes, for a number of processes which is a power of two (for others see Model/Share.lean).

A key is the path of the cell, last child number first, so `push` is `cons` and `pop_value` takes the head. Of the type word of a cell the child flags and `is_shared` are kept. `V` is the data of a
node or entity; the indices into `entities_`, `shared_entities_`, `cofm_`, `shared_nodes_` are replaced by the data they refer to. Undefined behaviour (a missing cell, `pop_value` of the root, data of
an unset cell) or a failed assertion is `none`. `MPI_Sendrecv` pairs are modelled by taking the state of the partner before the stage; keys do not overflow the word (cells are at most `D` deep).
-/
namespace FleCSPH.ShareTable

abbrev Key := List Nat

/-- A cell, tree_types.h:148-287: `entity_idx() != -1`, `node_idx() != -1`, child flags, `owner`, `is_shared`, and the data of the node or entity. -/
structure Cell (V : Type) where
  ent : Bool
  node : Bool
  kids : Finset Nat
  owner : Nat
  shared : Bool
  data : Option V

/-- `htable_`. -/
abbrev Table (V : Type) := Key → Option (Cell V)

variable {V : Type}

def Table.set (t : Table V) (k : Key) (c : Cell V) : Table V := fun k' => if k' = k then some c else t k'

/-- `is_unset`, tree_types.h:276-278. -/
def unset (c : Cell V) : Bool := !c.ent && !c.node

/-- The keys of the daughters, all of which are dereferenced, e.g. tree_topology.h:1761-1772. -/
def daughterKeys (nch : Nat) (t : Table V) (k : Key) (c : Cell V) : Option (List Key) :=
  ((List.range nch).filter fun j => decide (j ∈ c.kids)).mapM fun j => (t (j :: k)).map fun _ => j :: k

/-- `share_entity_t` and `share_node_t`, tree_topology.h:92-113. -/
structure Item (V : Type) where
  ent : Bool
  owner : Nat
  key : Key
  data : V

/-! ### find_nodes_ -/

/-- One cell of the queue, tree_topology.h:1797-1821: the cells for the next queue and what is listed. -/
def look (nch : Nat) (t : Table V) (k : Key) : Option (List Key × List (Item V)) :=
  match t k with
  | none => none
  | some c =>
    if unset c then (daughterKeys nch t k c).map fun ds => (ds, [])
    else c.data.map fun v => ([], [⟨!c.node, c.owner, k, v⟩])

/-- The loop over the queue, tree_topology.h:1796-1822. -/
def lookAll (nch : Nat) (t : Table V) : List Key → Option (List Key × List (Item V))
  | [] => some ([], [])
  | k :: q =>
    match look nch t k, lookAll nch t q with
    | some (a, b), some (a', b') => some (a ++ a', b ++ b')
    | _, _ => none

/-- The loop `while(!queue.empty())`, tree_topology.h:1795-1826; the first number bounds its turns. -/
def findLoop (nch : Nat) (t : Table V) : Nat → List Key → Option (List (Item V))
  | 0, q => if q = [] then some [] else none
  | fuel + 1, q =>
    if q = [] then some []
    else match lookAll nch t q with
      | none => none
      | some (next, found) => (findLoop nch t fuel next).map fun rest => found ++ rest

/-- `find_nodes_`, tree_topology.h:1788-1827: the entities and the nodes. -/
def findNodes (nch : Nat) (t : Table V) (fuel : Nat) : Option (List (Item V) × List (Item V)) :=
  (findLoop nch t fuel [[]]).map fun l => (l.filter fun x => x.ent, l.filter fun x => !x.ent)

/-! ### Loading -/

/-- `add_parent_`, tree_topology.h:1872-1890. -/
def addParent (owner : Nat) (t : Table V) (k : Key) (child : Nat) : Option (Table V) :=
  match t k, k with
  | some c, _ => some (t.set k { c with kids := insert child c.kids })
  | none, [] => none
  | none, j :: pk => addParent owner (t.set (j :: pk) { ent := false, node := false, kids := {child}, owner := owner, shared := true, data := none }) pk j

/-- `load_shared_entity_`, tree_topology.h:1834-1846. `emplace` does nothing if the cell exists. -/
def loadEnt (t : Table V) (x : Item V) : Option (Table V) :=
  match x.key with
  | [] => none
  | j :: pk =>
    let c : Cell V := match t (j :: pk) with
      | none => { ent := true, node := false, kids := ∅, owner := x.owner, shared := true, data := some x.data }
      | some c => { c with shared := true, owner := x.owner }
    addParent x.owner (t.set (j :: pk) c) pk j

/-- `load_shared_node_`, tree_topology.h:1853-1865; `set_node_idx` asserts that the cell is no entity (tree_types.h:199-202). -/
def loadNode (t : Table V) (x : Item V) : Option (Table V) :=
  match x.key with
  | [] => none
  | j :: pk =>
    match t (j :: pk) with
    | none => addParent x.owner (t.set (j :: pk) { ent := false, node := true, kids := ∅, owner := x.owner, shared := true, data := some x.data }) pk j
    | some c => if c.ent then none else addParent x.owner (t.set (j :: pk) { c with node := true, shared := true, owner := x.owner, data := some x.data }) pk j

/-- The insertion of the received entities and nodes, tree_topology.h:1618-1632. -/
def load (rank : Nat) (t : Table V) (es ns : List (Item V)) : Option (Table V) :=
  ((es.filter fun x => x.owner ≠ rank).foldlM loadEnt t).bind fun t' => (ns.filter fun x => x.owner ≠ rank).foldlM loadNode t'

/-! ### cofm_update_ -/

/-- The number which represents a key: `1` followed by the child numbers. -/
def code (dim : Nat) : Key → Nat
  | [] => 1
  | j :: k => code dim k * 2 ^ dim + j

/-- The loop of `key_boundary_`, tree_topology.h:2026-2036; the first number bounds its turns. -/
def boundLoop (dim stop : Nat) : Nat → Nat → Nat → Option (Nat × Nat)
  | 0, mn, mx => if mn < stop then none else some (mn, mx)
  | fuel + 1, mn, mx => if mn < stop then boundLoop dim stop fuel (mn * 2 ^ dim) (mx * 2 ^ dim + (2 ^ dim - 1)) else some (mn, mx)

/-- `key_boundary_`, tree_topology.h:2026-2036: the smallest and the largest key in a cell; `key_t::min()` is `1` followed by `D` zeros. -/
def keyBoundary (D dim : Nat) (k : Key) : Option (Nat × Nat) := boundLoop dim (2 ^ (D * dim)) (D + 1) (code dim k) (code dim k)

/-- The sorting of the daughters in `cofm_children_`, tree_topology.h:1950-1969: data of the entities and of the nodes. `is_entity` asserts that the cell is set. -/
def classify (t : Table V) : List Key → Option (List V × List V)
  | [] => some ([], [])
  | k :: ks =>
    match (t k).bind (fun c => if unset c then none else c.data.map fun v => (c.node, v)), classify t ks with
    | some (isNode, v), some (es, ns) => some (if isNode then (es, v :: ns) else (v :: es, ns))
    | _, _ => none

/-- `cofm_update_`, tree_topology.h:1752-1782; `f` computes the data of a node from its key and the data of its daughters, entities first. The first number bounds the depth. -/
def cofmUpdate (D dim nch lo hi : Nat) (f : Key → List V → List V → V) : Nat → Table V → Key → Option (Table V)
  | 0, _, _ => none
  | fuel + 1, t, k =>
    match t k, keyBoundary D dim k with
    | some c, some (mn, mx) =>
      if lo ≤ mn ∧ mx ≤ hi then
        if unset c then
          match daughterKeys nch t k c with
          | none => none
          | some ds =>
            match ds.foldlM (cofmUpdate D dim nch lo hi f fuel) t with
            | none => none
            | some t' =>
              match t' k, classify t' ds with
              | some c', some (es, ns) => if c'.ent then none else some (t'.set k { c' with shared := true, node := true, data := some (f k es ns) })
              | _, _ => none
        else some t
      else some t
    | _, _ => none

/-! ### share_nodes_ -/

/-- The state of a process: `htable_`, `lobound_`, `hibound_`. -/
structure Proc (V : Type) where
  tbl : Table V
  lo : Nat
  hi : Nat

/-- Constants: the depth and dimension of the keys, and the function which summarises a node. -/
structure Consts (V : Type) where
  D : Nat
  dim : Nat
  f : Key → List V → List V → V

/-- Stage `i` for process `rank`, tree_topology.h:1585-1634; `s` are the states of all processes before the stage. -/
def stageOf (C : Consts V) (i : Nat) (s : List (Proc V)) (rank : Nat) : Option (Proc V) :=
  match s[rank]? with
  | none => none
  | some me =>
    let partner := rank ^^^ 2 ^ i
    match s[partner]? with
    | none => some me
    | some q =>
      match findNodes (2 ^ C.dim) q.tbl (C.D + 1) with
      | none => none
      | some (es, ns) =>
        let lo := min q.lo me.lo
        let hi := max q.hi me.hi
        match load rank me.tbl es ns with
        | none => none
        | some t => (cofmUpdate C.D C.dim (2 ^ C.dim) lo hi C.f (C.D + 2) t []).map fun t' => { tbl := t', lo := lo, hi := hi }

/-- Stage `i` for all processes. -/
def stage (C : Consts V) (i : Nat) (s : List (Proc V)) : Option (List (Proc V)) := (List.range s.length).mapM (stageOf C i s)

/-- The stages `0, …, k - 1`. -/
def stages (C : Consts V) : Nat → List (Proc V) → Option (List (Proc V))
  | 0, s => some s
  | k + 1, s => (stages C k s).bind (stage C k)

/-- `share_nodes_`, tree_topology.h:1550-1744, when the number of processes is a power of two (`non_power_2` is false and `dim` is the exact logarithm). -/
def shareNodes (C : Consts V) (s : List (Proc V)) : Option (List (Proc V)) := stages C (Nat.log 2 s.length) s

end FleCSPH.ShareTable
