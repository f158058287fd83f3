import Verif.Model.HCell
import Verif.Model.Key
/-!
Model of `tree_topology::build_tree` (include/tree_topology/tree_topology.h:879-997) and the functions it calls, up to
the call of `share_nodes_` (modelled separately).

`D` is `key_t::max_depth()`, `dim` the dimension. The hash table is `std::unordered_map` (tree_topology.h:2098): a partial
function from keys to cells whose references stay valid, so the pointer `parent` is the key of the cell.
`none` is undefined behaviour or a failed assertion: a shift by the word width or more, a dereferenced `end()`.
Owner and rank of the cells, timers and messages are left out.
-/
namespace FleCSPH.BuildTree
open FleCSPH.HCell

/-- `htable_`, tree_topology.h:2101. -/
abbrev Tbl := Nat → Option Cell

def Tbl.set (t : Tbl) (k : Nat) (c : Cell) : Tbl := fun k' => if k' = k then some c else t k'

/-- `std::unordered_map::emplace`: does nothing when the key is present. -/
def Tbl.emplace (t : Tbl) (k : Nat) (c : Cell) : Tbl := if (t k).isSome then t else t.set k c

/-- One call of the summary function `f_c(cofm, v_entities, v_nodes)` (tree_topology.h:1949-1969): the key of the node,
the indices of the entities and of the nodes it is computed from. -/
structure CofmCall where
  key : Nat
  ents : List Int
  nodes : List Int
deriving DecidableEq, Repr

/-- What one rank sees: the parameters of the key type, its position among the ranks, the bounds received by
`exchange_boundaries_` and the keys of its entities in order. -/
structure Env where
  D : Nat
  dim : Nat
  iam0 : Bool
  iamlast : Bool
  lobound : Nat
  hibound : Nat
  ents : List Nat

/-- `key.pop(d)`, filling_curve.h:137-140. With `D = (bits - 1) / dim` the shift `d * dim` stays below the word width
exactly when `d ≤ D`. -/
def pop (E : Env) (k c : Nat) : Option Nat := if c ≤ E.D then some (k >>> (c * E.dim)) else none

/-- The sorting of the daughters in `cofm_children_` (tree_topology.h:1954-1966), appending to the lists. `is_entity`
and `is_node` assert that the cell is set (tree_types.h:268-274). -/
def classify : List Cell → List Int → List Int → Option (List Int × List Int)
  | [], es, ns => some (es, ns)
  | c :: cs, es, ns => do
    let isN ← isNode c
    if isN then classify cs es (ns ++ [c.nodeIdx]) else classify cs (es ++ [c.entityIdx]) ns

/-- The daughters of a cell, looked up in the table (tree_topology.h:1903-1916). -/
def daughters (dim : Nat) (t : Tbl) (key : Nat) (n : Cell) : Option (List Cell) :=
  ((List.range (1 <<< dim)).filter fun j => getChild n j).mapM fun j => t ((key <<< dim) ||| j)

/-- `finish_`, tree_topology.h:1894-1918. -/
def finish (dim : Nat) (t : Tbl) (cofm : List CofmCall) (key : Nat) : Option (Tbl × List CofmCall) := do
  let n ← t key
  if n.entityIdx ≠ -1 then some (t, cofm)
  else do
    let n' ← setNodeIdx n cofm.length
    let t' := t.set key n'
    let ds ← daughters dim t' key n'
    let (es, ns) ← classify ds [] []
    some (t', cofm ++ [⟨key, es, ns⟩])

/-- The variables of the first inner loop. -/
structure Up where
  tbl : Tbl
  cofm : List CofmCall
  cd : Nat
  nkey : Nat
  lastnkey : Nat

/-- The conditional call of `finish_` in the first inner loop, tree_topology.h:931-939. -/
def tryFinish (E : Env) (loopagain : Bool) (s : Up) : Option (Tbl × List CofmCall) := do
  let lo ← pop E E.lobound s.cd
  let hi ← pop E E.hibound s.cd
  if loopagain ∧ (E.iam0 ∨ s.lastnkey > lo) ∧ (E.iamlast ∨ s.lastnkey < hi) then finish E.dim s.tbl s.cofm s.lastnkey
  else some (s.tbl, s.cofm)

/-- The first inner loop of `build_tree`, tree_topology.h:930-948. `final` is `iamlast && i == entities_.size()`.
`fuel` bounds the iterations; the loop is left or undefined after at most `D + 1` of them. -/
def ascend (E : Env) (final : Bool) (ekey lastekey : Nat) : Nat → Bool → Up → Option Up
  | 0, _, _ => none
  | fuel + 1, loopagain, s =>
    if s.nkey ≠ s.lastnkey ∨ final then do
      let (tbl, cofm) ← tryFinish E loopagain s
      if E.iamlast ∧ s.lastnkey = Key.root then some { s with tbl := tbl, cofm := cofm }
      else do
        let nkey ← pop E ekey (s.cd + 1)
        let lastnkey ← pop E lastekey (s.cd + 1)
        ascend E final ekey lastekey fuel true ⟨tbl, cofm, s.cd + 1, nkey, lastnkey⟩
    else some s

/-- The second inner loop, tree_topology.h:957-971. The first argument is `current_depth`; decrementing zero makes the
shift undefined. Returns the table, the parent, `current_depth`, `nkey` and `lastnkey`. -/
def descend (E : Env) (ekey lastekey : Nat) : Nat → Tbl → Nat → Option (Tbl × Nat × Nat × Nat × Nat)
  | 0, _, _ => none
  | cd + 1, tbl, parent => do
    let lastnkey ← pop E lastekey cd
    let nkey ← pop E ekey cd
    if nkey ≠ lastnkey then some (tbl, parent, cd, nkey, lastnkey)
    else do
      let p ← tbl parent
      let p' ← setEntityIdx (addChild p (Key.lastValue E.dim nkey)) (-1)
      descend E ekey lastekey cd ((tbl.set parent p').emplace nkey {}) nkey

/-- The variables carried from one turn of the loop over the entities to the next. -/
structure St where
  tbl : Tbl
  cofm : List CofmCall
  cd : Nat
  lastekey : Nat
  lastnkey : Nat
  maxDepth : Nat

/-- "Recover deleted entity", tree_topology.h:974-979. -/
def recover (E : Env) (i : Nat) (oldidx : Int) (parent lastnkey : Nat) (tbl : Tbl) : Option Tbl :=
  if oldidx ≠ -1 then do
    let p ← tbl parent
    let p' ← setEntityIdx (addChild p (Key.lastValue E.dim lastnkey)) (-1)
    some ((tbl.set parent p').emplace lastnkey { entityIdx := (i : Int) - 1 })
  else some tbl

/-- "Insert the new entity", tree_topology.h:981-986. -/
def addEntity (E : Env) (i parent nkey : Nat) (tbl : Tbl) : Option Tbl :=
  if i < E.ents.length then do
    let p ← tbl parent
    some ((tbl.set parent (addChild p (Key.lastValue E.dim nkey))).emplace nkey { entityIdx := i })
  else some tbl

/-- The end of a turn, tree_topology.h:953-986: insert the missing parents, the previous entity and the entity `i`.
Returns the table, `current_depth` and `nkey`. -/
def insert (E : Env) (i ekey lastekey : Nat) (u : Up) : Option (Tbl × Nat × Nat) := do
  let p ← u.tbl u.lastnkey
  let (t1, parent, cd, nkey, lastnkey) ← descend E ekey lastekey u.cd u.tbl u.lastnkey
  let t2 ← recover E i p.entityIdx parent lastnkey t1
  let t3 ← addEntity E i parent nkey t2
  some (t3, cd, nkey)

/-- Turn `i` of the loop over the entities, tree_topology.h:918-992. The flag tells that the loop was left by `break`. -/
def turn (E : Env) (i : Nat) (s : St) : Option (St × Bool) := do
  let ekey := E.ents.getD i E.hibound
  let final := E.iamlast && i == E.ents.length
  let nkey ← pop E ekey s.cd
  let u ← ascend E final ekey s.lastekey (E.D + 2) false ⟨s.tbl, s.cofm, s.cd, nkey, s.lastnkey⟩
  if final then
    some ({ s with tbl := u.tbl, cofm := u.cofm, cd := u.cd, lastnkey := u.lastnkey }, true)
  else do
    let (tbl, cd, nkey) ← insert E i ekey s.lastekey u
    some (⟨tbl, u.cofm, cd, ekey, nkey, max s.maxDepth cd⟩, false)

/-- The loop `for(i = 0; i <= entities_.size(); ++i)`, with `n` turns left. -/
def turns (E : Env) : Nat → Nat → St → Option St
  | 0, _, s => some s
  | n + 1, i, s => do
    let (s', stop) ← turn E i s
    if stop then some s' else turns E n (i + 1) s'

/-- `build_tree`, tree_topology.h:879-992, on an empty table. `entities_[0]` is read first: at least one entity. -/
def buildTree (E : Env) : Option St :=
  if E.ents = [] then none
  else
    turns E (E.ents.length + 1) 0
      ⟨Tbl.emplace (fun _ => none) Key.root {}, [], E.D, if E.iam0 then 0 else E.lobound, Key.root, 0⟩

/-- `exchange_boundaries_`, tree_topology.h:1976-2019, as seen by rank `r` of `ranks`, the sorted keys of each rank:
each rank sends its highest key up and its lowest key down; the ends use `min()` and `max()`. -/
def lowBound (minKey : Nat) (ranks : List (List Nat)) (r : Nat) : Option Nat :=
  if r = 0 then some minKey else (ranks[r - 1]?).bind List.getLast?

def highBound (maxKey : Nat) (ranks : List (List Nat)) (r : Nat) : Option Nat :=
  if r + 1 = ranks.length then some maxKey else (ranks[r + 1]?).bind List.head?

/-- What `build_tree` sees on rank `r`. -/
def envOf (D dim minKey maxKey : Nat) (ranks : List (List Nat)) (r : Nat) : Option Env := do
  let es ← ranks[r]?
  let lo ← lowBound minKey ranks r
  let hi ← highBound maxKey ranks r
  some ⟨D, dim, r == 0, r + 1 == ranks.length, lo, hi, es⟩

end FleCSPH.BuildTree
