import Verif.Model.Cofm
/-!
Model of the tree traversals (include/tree_topology/tree_topology.h): `traversal`, `find_in_radius`, `traversal_sph`.

A pointer to a cell is its key; a pointer to an entity is the pair of the shared flag and the index. Distances are exact
real numbers. `none` is undefined behaviour (a missing cell or index, a failed assertion) or an exhausted loop bound; the
theorems show that a large enough bound gives `some`.
-/
namespace FleCSPH.Traversal
open FleCSPH.HCell FleCSPH.BuildTree FleCSPH.Cofm FleCSPH.Geometry

/-- What the traversals read: `htable_`, `entities_`, `cofm_`, `shared_entities_`, `shared_nodes_`
(tree_topology.h:2098-2116). -/
structure Top (d : Nat) where
  dim : Nat
  tbl : Tbl
  ents : List (Body d)
  nodes : List (Node d)
  sents : List (Body d)
  snodes : List (Node d)

/-- The entity a cell points to, `get_entity` (tree_topology.h:1005-1015): shared or local, and its index. -/
def entRef {d : Nat} (T : Top d) (c : Cell) : Bool × Int := (isShared T.dim c, c.entityIdx)

/-- The data behind the pointer returned by `get_entity`, tree_topology.h:1005-1015. -/
def getEntity {d : Nat} (T : Top d) (c : Cell) : Option (Body d) :=
  if isShared T.dim c then at? T.sents c.entityIdx else at? T.ents c.entityIdx

/-- `get_node`, tree_topology.h:1021-1035. -/
def getNode {d : Nat} (T : Top d) (c : Cell) : Option (Node d) :=
  if isShared T.dim c then at? T.snodes c.nodeIdx else at? T.nodes c.nodeIdx

/-- `daughters_`, tree_topology.h:1925-1943, as the keys of the daughters. `none`: a daughter is not in the table. -/
def daughterKeys (dim : Nat) (t : Tbl) (key : Nat) (c : Cell) : Option (List Nat) :=
  ((List.range (1 <<< dim)).filter fun i => getChild c i).mapM fun i =>
    (t ((key <<< dim) ||| i)).map fun _ => (key <<< dim) ||| i

/-- `traversal`, tree_topology.h:191-208. The function answers whether to open the cell and what to append to the result.
The first number bounds the turns of the loop. -/
def traversal {d : Nat} {α : Type} (T : Top d) (func : Nat → Cell → Option (Bool × List α)) :
    Nat → List Nat → List α → Option (List α)
  | 0, _, _ => none
  | _ + 1, [], acc => some acc
  | fuel + 1, k :: stk, acc => do
    let c ← T.tbl k
    let (expand, out) ← func k c
    if expand then do
      let ds ← daughterKeys T.dim T.tbl k c
      traversal T func fuel (ds.reverse ++ stk) (acc ++ out)
    else traversal T func fuel stk (acc ++ out)

open Classical in
/-- The function given to `traversal` by `find_in_radius`, tree_topology.h:806-820. -/
noncomputable def radiusFunc {d : Nat} (T : Top d) (center : Point d) (radius : ℝ) (_ : Nat) (cur : Cell) :
    Option (Bool × List (Bool × Int)) := do
  let isN ← isNode cur
  if isN then do
    let c ← getNode T cur
    some (decide (withinDistance2 c.coords center (max c.lap radius + c.radius)), [])
  else do
    let e ← getEntity T cur
    some (false, if withinDistance2 center e.pos (max radius e.h) then [entRef T cur] else [])

/-- `find_in_radius`, tree_topology.h:799-823. -/
noncomputable def findInRadius {d : Nat} (T : Top d) (center : Point d) (radius : ℝ) (fuel : Nat) :
    Option (List (Bool × Int)) :=
  traversal T (radiusFunc T center radius) fuel [Key.root] []

/-! ### `traversal_sph` -/

/-- The selection of cells, tree_topology.h:222-235; `sent` is `sub_entities_`. -/
def cellsFunc {d : Nat} (T : Top d) (sent : Nat) (key : Nat) (cell : Cell) : Option (Bool × List Nat) := do
  let isN ← isNode cell
  if isN then
    if isShared T.dim cell then some (true, [])
    else do
      let n ← getNode T cell
      if n.sub > sent then some (true, []) else some (false, [key])
  else some (false, if isShared T.dim cell then [] else [key])

def sphCells {d : Nat} (T : Top d) (sent fuel : Nat) : Option (List Nat) :=
  traversal T (cellsFunc T sent) fuel [Key.root] []

/-- The local entities below a cell, tree_topology.h:293-305. -/
def entsFunc {d : Nat} (T : Top d) (_ : Nat) (cell : Cell) : Option (Bool × List (Bool × Int)) := do
  let isN ← isNode cell
  some (isN, if isN then [] else if isShared T.dim cell then [] else [entRef T cell])

/-- A pointer to an entity, followed. -/
def deref {d : Nat} (T : Top d) (r : Bool × Int) : Option (Body d) :=
  if r.1 then at? T.sents r.2 else at? T.ents r.2

/-- `cur_entities` and `cur_node`, tree_topology.h:284-311. -/
def curEntities {d : Nat} (T : Top d) (curkey fuel : Nat) : Option (List (Bool × Int) × Option (Node d)) := do
  let cur ← T.tbl curkey
  let isN ← isNode cur
  if isN then do
    let es ← traversal T (entsFunc T) fuel [curkey] []
    let n ← getNode T cur
    some (es, some n)
  else some ([entRef T cur], none)

/-- What one cell of the queue contributes, tree_topology.h:322-379: the cells to look at next, the cells that are not here
yet, and the entities kept for each of `cur_entities`. -/
structure Contribution where
  next : List Nat := []
  missing : List Nat := []
  found : List (List (Bool × Int))

open Classical in
/-- Body of the loop over the queue for one cell, tree_topology.h:322-379. -/
noncomputable def examine {d : Nat} (T : Top d) (tol : ℝ) (cur : List (Body d)) (curNode : Option (Node d)) (key : Nat) :
    Option Contribution := do
  let hcur ← T.tbl key
  let none' : List (List (Bool × Int)) := cur.map fun _ => []
  let isN ← isNode hcur
  if isN then do
    let c ← getNode T hcur
    if ∃ n, curNode = some n ∧ ¬ intersectsBoxBox c.bmin c.bmax n.bmin n.bmax then some { found := none' }
    else if ∃ b ∈ cur, intersectsSphereBox tol c.bmin c.bmax b.pos b.h then do
      let empty ← isEmptyNode T.dim hcur
      if empty then some { missing := [key], found := none' }
      else do
        let ds ← daughterKeys T.dim T.tbl key hcur
        some { next := ds, found := none' }
    else some { found := none' }
  else do
    let e ← getEntity T hcur
    if ∃ n, curNode = some n ∧ ¬ withinDistance2 e.pos n.coords (max e.h n.lap + n.radius) then some { found := none' }
    else some { found := cur.map fun b => if withinDistance2 b.pos e.pos (max b.h e.h) then [entRef T hcur] else [] }

/-- `neighbors[k].push_back` for every `k`. -/
def appendAll {α : Type} (a b : List (List α)) : List (List α) := List.zipWith (· ++ ·) a b

/-- One pass over the queue, tree_topology.h:319-380. -/
noncomputable def pass {d : Nat} (T : Top d) (tol : ℝ) (cur : List (Body d)) (curNode : Option (Node d)) :
    List Nat → List Nat → List Nat → List (List (Bool × Int)) → Option (List Nat × List Nat × List (List (Bool × Int)))
  | [], next, missing, found => some (next, missing, found)
  | k :: q, next, missing, found => do
    let c ← examine T tol cur curNode k
    pass T tol cur curNode q (next ++ c.next) (missing ++ c.missing) (appendAll found c.found)

/-- The loop `while(!queue->empty())`, tree_topology.h:317-400. The result is the neighbours of each of `cur_entities`, or
the keys of the cells that must be fetched first. -/
noncomputable def search {d : Nat} (T : Top d) (tol : ℝ) (cur : List (Body d)) (curNode : Option (Node d)) :
    Nat → List Nat → List (List (Bool × Int)) → Option (List Nat ⊕ List (List (Bool × Int)))
  | 0, _, _ => none
  | fuel + 1, queue, found =>
    if queue = [] then some (.inr found)
    else do
      let (next, missing, found) ← pass T tol cur curNode queue [] [] found
      if missing ≠ [] then some (.inl missing) else search T tol cur curNode fuel next found

/-- The treatment of one cell by `traversal_sph`, tree_topology.h:280-409: the calls `ef(entity, neighbours)` made for the
entities of the cell, or the keys of the missing cells, in which case the cell is treated again later. -/
noncomputable def sphCell {d : Nat} (T : Top d) (tol : ℝ) (curkey fuel : Nat) :
    Option (List Nat ⊕ List ((Bool × Int) × List (Bool × Int))) := do
  let (es, curNode) ← curEntities T curkey fuel
  let cur ← es.mapM (deref T)
  match ← search T tol cur curNode fuel [Key.root] (cur.map fun _ => []) with
  | .inl missing => some (.inl missing)
  | .inr found => some (.inr (es.zip found))

/-- On a single process no cell is missing (the owner of the missing cell would be this rank, tree_topology.h:341). -/
noncomputable def sphCellLocal {d : Nat} (T : Top d) (tol : ℝ) (curkey fuel : Nat) :
    Option (List ((Bool × Int) × List (Bool × Int))) := do
  match ← sphCell T tol curkey fuel with
  | .inl _ => none
  | .inr calls => some calls

/-- `traversal_sph` on a single process: the cells in turn, tree_topology.h:213-409. -/
noncomputable def traversalSph {d : Nat} (T : Top d) (tol : ℝ) (sent fuel : Nat) :
    Option (List ((Bool × Int) × List (Bool × Int))) := do
  let cells ← sphCells T sent fuel
  let rs ← cells.mapM fun k => sphCellLocal T tol k fuel
  some rs.flatten

end FleCSPH.Traversal
