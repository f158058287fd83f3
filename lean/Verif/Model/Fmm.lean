import Verif.Model.Traversal
/-!
Model of `traversal_fmm` (include/tree_topology/tree_topology.h:446-795) on a single process, and of the functions of
include/physics/fmm.h it is called with (mpisph/bodies_system.h:282-288).

On a single process every cell is owned by this rank (tree_types.h:169-185), so the tests of `iam_owner` are left out, and
no daughters are missing; the branch that requests them is `none`. `fmm_sub_entities_` is the constant 0
(tree_topology.h:2122), so the branches taken when a number of particles is below it are left out and the list `p2p` holds
pairs of entities only. The nodes are fresh: not affected and without coefficients (node.h:70-81).
-/
namespace FleCSPH.Fmm
open FleCSPH.HCell FleCSPH.BuildTree FleCSPH.Cofm FleCSPH.Geometry FleCSPH.Traversal

/-- One call of a function given to `traversal_fmm`; a node is named by its key, an entity by its reference. -/
inductive Call
  /-- `t_c2c(n1, n2)` -/
  | c2c (k1 k2 : Nat)
  /-- `t_p2c(n1, e2)` -/
  | p2c (k1 : Nat) (e2 : Bool × Int)
  /-- `f_p2p({e1}, n2, {})` -/
  | n2p (e1 : Bool × Int) (k2 : Nat)
  /-- `f_c2p(n, subs)` -/
  | c2p (k : Nat) (subs : List (Bool × Int))
  /-- `f_p2p({e1}, nullptr, {e2})` -/
  | p2p (e1 e2 : Bool × Int)
deriving DecidableEq

/-- `n1->set_affected(true)` follows these calls, tree_topology.h:570. -/
def Call.affects (k : Nat) : Call → Bool
  | .c2c k1 _ => k1 == k
  | .p2c k1 _ => k1 == k
  | _ => false

/-- What one pair of the queue leads to: calls, pairs appended to `p2p`, pairs appended to the next queue. -/
structure Out where
  calls : List Call := []
  p2p : List (Nat × Nat) := []
  next : List (Nat × Nat) := []

/-- The pairs made from the daughters of a node paired with itself, tree_topology.h:508-524. -/
def selfPairs : List Nat → List (Nat × Nat)
  | [] => []
  | a :: l => (a, a) :: ((l.flatMap fun b => [(a, b), (b, a)]) ++ selfPairs l)

/-- Position and radius of a cell, tree_topology.h:529-553: an entity has radius zero. -/
noncomputable def place {d : Nat} (T : Top d) (c : Cell) (isN : Bool) : Option (Point d × ℝ) :=
  if isN then (getNode T c).map fun n => (n.coords, n.radius) else (getEntity T c).map fun e => (e.pos, 0)

/-- A pair accepted by the criterion, tree_topology.h:555-580. -/
def accepted {d : Nat} (T : Top d) (k1 k2 : Nat) (c1 c2 : Cell) (n1 n2 : Bool) : Call :=
  if n1 then if n2 then .c2c k1 k2 else .p2c k1 (entRef T c2) else .n2p (entRef T c1) k2

/-- A pair that is refused, tree_topology.h:620-641: the bigger cell is split. -/
noncomputable def splitPair {d : Nat} (T : Top d) (k1 k2 : Nat) (c1 c2 : Cell) (bigger : Prop) [Decidable bigger] : Option Out :=
  if bigger then (daughterKeys T.dim T.tbl k1 c1).map fun ds => { next := ds.map fun e => (e, k2) }
  else (daughterKeys T.dim T.tbl k2 c2).map fun ds => { next := ds.map fun e => (k1, e) }

open Classical in
/-- Different cells, at least one of them a node, tree_topology.h:527-642. -/
noncomputable def different {d : Nat} (T : Top d) (mac : ℝ) (k1 k2 : Nat) (c1 c2 : Cell) (n1 n2 : Bool) : Option Out := do
  let p1 ← place T c1 n1
  let p2 ← place T c2 n2
  if Geometry.mac p1.1 p1.2 p2.1 p2.2 mac then some { calls := [accepted T k1 k2 c1 c2 n1 n2] }
  else splitPair T k1 k2 c1 c2 (p1.2 > p2.2)

/-- The body of the loop over the queue, tree_topology.h:484-662. -/
noncomputable def pair {d : Nat} (T : Top d) (mac : ℝ) (k1 k2 : Nat) : Option Out := do
  let c1 ← T.tbl k1
  let c2 ← T.tbl k2
  let empty ← isEmptyNode T.dim c2
  let n1 ← isNode c1
  let n2 ← isNode c2
  if empty then none
  else if !n1 && !n2 then some { p2p := [(k1, k2)] }
  else if k1 = k2 then (daughterKeys T.dim T.tbl k1 c1).map fun ds => { next := selfPairs ds }
  else different T mac k1 k2 c1 c2 n1 n2

/-- One pass over the queue, tree_topology.h:478-662. -/
noncomputable def pass {d : Nat} (T : Top d) (mac : ℝ) : List (Nat × Nat) → Out → Option Out
  | [], o => some o
  | (k1, k2) :: q, o => do
    let r ← pair T mac k1 k2
    pass T mac q ⟨o.calls ++ r.calls, o.p2p ++ r.p2p, o.next ++ r.next⟩

/-- The loop `while(not queue->empty())`, tree_topology.h:471-673; the first number bounds its turns. -/
noncomputable def loop {d : Nat} (T : Top d) (mac : ℝ) : Nat → List (Nat × Nat) → List Call → List (Nat × Nat) →
    Option (List Call × List (Nat × Nat))
  | 0, _, _, _ => none
  | fuel + 1, queue, calls, p2p =>
    if queue = [] then some (calls, p2p)
    else do
      let o ← pass T mac queue ⟨calls, p2p, []⟩
      loop T mac fuel o.next o.calls o.p2p

/-- The function that collects the affected nodes, tree_topology.h:683-694. -/
def affectedFunc (calls : List Call) (key : Nat) (cell : Cell) : Option (Bool × List Nat) := do
  let isN ← isNode cell
  some (true, if isN && calls.any (Call.affects key) then [key] else [])

/-- The call of `f_c2p` for one affected node, tree_topology.h:698-717. -/
def down {d : Nat} (T : Top d) (fuel k : Nat) : Option Call :=
  (traversal T (entsFunc T) fuel [k] []).map fun subs => .c2p k subs

/-- One pair of the list `p2p`, tree_topology.h:719-776. Both are entities. -/
def direct {d : Nat} (T : Top d) (p : Nat × Nat) : Option Call := do
  let c1 ← T.tbl p.1
  let c2 ← T.tbl p.2
  some (.p2p (entRef T c1) (entRef T c2))

/-- `traversal_fmm`, tree_topology.h:446-795: the calls it makes, in order. -/
noncomputable def traversalFmm {d : Nat} (T : Top d) (mac : ℝ) (fuel : Nat) : Option (List Call) := do
  let (calls, p2p) ← loop T mac fuel [(Key.root, Key.root)] [] []
  let affected ← traversal T (affectedFunc calls) fuel [Key.root] []
  let downs ← affected.mapM (down T fuel)
  let directs ← p2p.mapM (direct T)
  some (calls ++ downs ++ directs)

/-! ### The functions of fmm.h -/

/-- The fields the functions update: coefficients of the nodes, potential and acceleration of the entities. -/
structure Field (d : Nat) where
  pc : Nat → ℝ
  fc : Nat → Point d
  pot : Bool × Int → ℝ
  acc : Bool × Int → Point d

/-- `gravitation_p2p` and both `gravitation_fc`, fmm.h:38-85: potential and acceleration at `x` of a mass `m` at `y`.
`none`: division by zero. -/
noncomputable def gravitation {d : Nat} (gc : ℝ) (x y : Point d) (m : ℝ) : Option (ℝ × Point d) :=
  let dist := distance x y
  if dist = 0 then none else some (-gc * m / dist, fun i => -gc * m * (x i - y i) / (dist * dist * dist))

/-- The node behind a key. -/
def nodeAt {d : Nat} (T : Top d) (k : Nat) : Option (Node d) := (T.tbl k).bind (getNode T)

open Classical in
/-- `taylor_c2c` and `taylor_p2c`, fmm.h:145-160. -/
noncomputable def addCoeff {d : Nat} (k : Nat) (g : ℝ × Point d) (F : Field d) : Field d :=
  { F with pc := fun k' => if k' = k then F.pc k' + g.1 else F.pc k',
           fc := fun k' => if k' = k then F.fc k' + g.2 else F.fc k' }

/-- `setGPotential` and `setGAcceleration` after adding. -/
noncomputable def addTo {d : Nat} (e : Bool × Int) (g : ℝ × Point d) (F : Field d) : Field d :=
  { F with pot := fun e' => if e' = e then F.pot e' + g.1 else F.pot e',
           acc := fun e' => if e' = e then F.acc e' + g.2 else F.acc e' }

/-- `interaction_c2p`, fmm.h:91-108. -/
noncomputable def c2pOne {d : Nat} (T : Top d) (k : Nat) (n : Node d) (e : Bool × Int) (F : Field d) : Option (Field d) := do
  let b ← deref T e
  some (addTo e (F.pc k - ∑ i, (b.pos i - n.coords i) * F.fc k i, F.fc k) F)

/-- `fmm_c2p`, fmm.h:115-120. -/
noncomputable def c2pAll {d : Nat} (T : Top d) (k : Nat) (n : Node d) : List (Bool × Int) → Field d → Option (Field d)
  | [], F => some F
  | e :: es, F => do
    let F' ← c2pOne T k n e F
    c2pAll T k n es F'

/-- The call of one function. `ids` are the identifiers compared by `fmm_p2p`, fmm.h:122-143. -/
noncomputable def apply {d : Nat} (T : Top d) (gc : ℝ) (ids : Bool × Int → Int) (F : Field d) : Call → Option (Field d)
  | .c2c k1 k2 => do
    let n1 ← nodeAt T k1
    let n2 ← nodeAt T k2
    let g ← gravitation gc n1.coords n2.coords n2.mass
    some (addCoeff k1 g F)
  | .p2c k1 e2 => do
    let n1 ← nodeAt T k1
    let b ← deref T e2
    let g ← gravitation gc n1.coords b.pos b.mass
    some (addCoeff k1 g F)
  | .n2p e1 k2 => do
    let a ← deref T e1
    let n2 ← nodeAt T k2
    let g ← gravitation gc a.pos n2.coords n2.mass
    some (addTo e1 g F)
  | .c2p k subs => do
    let n ← nodeAt T k
    c2pAll T k n subs F
  | .p2p e1 e2 =>
    if ids e2 = ids e1 then some F
    else do
      let a ← deref T e1
      let b ← deref T e2
      let g ← gravitation gc a.pos b.pos b.mass
      some (addTo e1 g F)

/-- The calls in order. -/
noncomputable def applyAll {d : Nat} (T : Top d) (gc : ℝ) (ids : Bool × Int → Int) : List Call → Field d → Option (Field d)
  | [], F => some F
  | c :: cs, F => do
    let F' ← apply T gc ids F c
    applyAll T gc ids cs F'

/-- `gravitation_fmm`, bodies_system.h:282-288, with gravitational potential and acceleration reset
(default_physics.h:406-407). -/
noncomputable def gravitationFmm {d : Nat} (T : Top d) (mac gc : ℝ) (ids : Bool × Int → Int) (fuel : Nat) : Option (Field d) := do
  let calls ← traversalFmm T mac fuel
  applyAll T gc ids calls ⟨0, 0, 0, 0⟩

end FleCSPH.Fmm
