import Mathlib.Data.Nat.Log
/-!
Model of the exchange of the tops of the trees, `share_nodes_`, include/tree_topology/tree_topology.h:1550-1744.

The tree of a process is represented by the boundary nodes and entities it was made of: its own ones, and those loaded from messages. A node computed by `cofm_update_` (1753-1782) from such nodes is
represented by them, so `find_nodes_` (1788-1827), which lists the highest finished nodes, is the whole list. The two lists (nodes and entities), which are treated alike, are one. A stage consists
of two exchanges, and each process does the first before the second; all first exchanges of a stage are modelled before all second ones, which gives the same result as every schedule because the
partners of both are symmetric (see C17_matched). Integers are exact, and `log2` is the exact logarithm.
-/
namespace FleCSPH.Share

/-- A boundary node or entity, with its owner (`share_node_t`, `share_entity_t`). -/
structure Item (α : Type) where
  owner : Nat
  val : α
deriving DecidableEq

/-- The state of a process: the tree, `r_ghosts_entities_n2` with `r_ghosts_nodes_n2`, and the bounds. -/
structure Proc (α : Type) where
  tree : List (Item α)
  n2 : List (Item α)
  lo : Int
  hi : Int

/-- `non_power_2`, tree_topology.h:1561-1567. -/
def nonPower2 (size : Nat) : Bool := decide (2 ^ Nat.log 2 size < size)

/-- `dim`, tree_topology.h:1561-1568. -/
def dim (size : Nat) : Nat := if nonPower2 size then Nat.log 2 size + 1 else Nat.log 2 size

/-- `ghosts_rank`, tree_topology.h:1569-1571 (used only when `non_power_2`). -/
def ghostsRank (size rank : Nat) : Nat :=
  let g := rank + 2 ^ (dim size - 1)
  if g > 2 ^ dim size - 1 then rank else g

/-- The partner of the first exchange of stage `i`, tree_topology.h:1586-1587. -/
def partner (size i rank : Nat) : Option Nat :=
  let p := rank ^^^ 2 ^ i
  if p < size then some p else none

/-- The partner of the second exchange of stage `i`, tree_topology.h:1636-1650; `none` when it is skipped by one of the `continue`. It can be the process itself. -/
def partner2 (size i rank : Nat) : Option Nat :=
  if nonPower2 size then
    let g := ghostsRank size rank
    if rank ≠ g ∧ g ≤ size - 1 then none
    else
      let p := g ^^^ 2 ^ i
      if g = rank ∧ p < size then none
      else if g > size ∧ p > size then none
      else some (if p ≥ size then p - 2 ^ (dim size - 1) else p)
  else none

variable {α : Type}

/-- The insertion of received nodes and entities, tree_topology.h:1619-1632. -/
def load (rank : Nat) (tree items : List (Item α)) : List (Item α) := tree ++ items.filter (·.owner ≠ rank)

/-- The first exchange, tree_topology.h:1587-1635, for process `rank`. -/
def first (size i : Nat) (s : Nat → Proc α) (rank : Nat) : Proc α :=
  match partner size i rank with
  | none => s rank
  | some p => { s rank with tree := load rank (s rank).tree (s p).tree, lo := min (s p).lo (s rank).lo, hi := max (s p).hi (s rank).hi }

/-- What a process sends in the second exchange, tree_topology.h:1676-1684. -/
def sent2 (size : Nat) (s : Nat → Proc α) (rank : Nat) : List (Item α) := if ghostsRank size rank = rank then (s rank).tree else (s rank).n2

/-- The second exchange, tree_topology.h:1636-1737, for process `rank`. Lines 1731-1734 append what was sent. -/
def second (size i : Nat) (s : Nat → Proc α) (rank : Nat) : Proc α :=
  match partner2 size i rank with
  | none => s rank
  | some p =>
    if p = rank then
      let n2 := (s rank).n2 ++ (s rank).tree
      { s rank with n2 := n2, tree := load rank (s rank).tree n2 }
    else
      let q : Proc α := { s rank with lo := min (s p).lo (s rank).lo, hi := max (s p).hi (s rank).hi }
      if ghostsRank size rank = rank then { q with tree := load rank (s rank).tree (sent2 size s p) }
      else { q with n2 := (s rank).n2 ++ sent2 size s rank }

/-- The stages 0, ..., k - 1. -/
def stages (size : Nat) (s : Nat → Proc α) : Nat → Nat → Proc α
  | 0 => s
  | k + 1 => second size k (first size k (stages size s k))

/-- `share_nodes_`: the states of all processes at the end. -/
def shareNodes (size : Nat) (own : Nat → List (Item α)) (lo hi : Nat → Int) : Nat → Proc α :=
  stages size (fun r => { tree := own r, n2 := [], lo := lo r, hi := hi r }) (dim size)

end FleCSPH.Share
