/-!
Model of `include/tree_topology/tree_types.h`, class `hcell` (lines 148-287): the word `type_` and the indices.

`D` is the dimension. `type_` is an `unsigned int`, kept as a `Nat`; complements are taken in 32 bits.
-/
namespace FleCSPH.HCell

/-- `hcell` (tree_types.h:281-286) without key, rank and owner. -/
structure Cell where
  nodeIdx : Int := -1
  entityIdx : Int := -1
  ty : Nat := 0
deriving DecidableEq, Repr

/-- `LOCALITY_DISPL`, `REQUESTED_DISPL`, `NCHILD_RECV_DISPL`, tree_types.h:154-159. -/
def localityDispl (D : Nat) : Nat := 1 <<< D
def requestedDispl (D : Nat) : Nat := (1 <<< D) + 2
def nchildRecvDispl (D : Nat) : Nat := (1 <<< D) + 3

/-- The masks, tree_types.h:160-165. -/
def localityMask (D : Nat) : Nat := 3 <<< localityDispl D
def requestedMask (D : Nat) : Nat := 1 <<< requestedDispl D
def nchildRecvMask (D : Nat) : Nat := 15 <<< nchildRecvDispl D

/-- `type_ &= ~mask` on 32 bits. -/
def clearBits (ty mask : Nat) : Nat := ty &&& ((2 ^ 32 - 1) ^^^ mask)

/-- `get_child`, tree_types.h:187-189. -/
def getChild (x : Cell) (c : Nat) : Bool := x.ty &&& (1 <<< c) != 0
/-- `add_child`, tree_types.h:190-192. -/
def addChild (x : Cell) (c : Nat) : Cell := { x with ty := x.ty ||| (1 <<< c) }
/-- `nchildren`, tree_types.h:193-198. -/
def nchildren (D : Nat) (x : Cell) : Nat :=
  (List.range (1 <<< D)).foldl (fun n i => n + (getChild x i).toNat) 0
/-- `set_node_idx`, tree_types.h:199-202. `none`: the assertion fails. -/
def setNodeIdx (x : Cell) (i : Int) : Option Cell := if x.entityIdx = -1 then some { x with nodeIdx := i } else none
/-- `set_entity_idx`, tree_types.h:203-206. `none`: the assertion fails. -/
def setEntityIdx (x : Cell) (i : Int) : Option Cell := if x.nodeIdx = -1 then some { x with entityIdx := i } else none
/-- `set_shared`, tree_types.h:207-210 (`SHARED = 2`). -/
def setShared (D : Nat) (x : Cell) : Cell :=
  { x with ty := clearBits x.ty (localityMask D) ||| (2 <<< localityDispl D) }
/-- `set_requested`, tree_types.h:211-214. -/
def setRequested (D : Nat) (x : Cell) : Cell :=
  { x with ty := clearBits x.ty (requestedMask D) ||| requestedMask D }
/-- `unset_requested`, tree_types.h:215-217. -/
def unsetRequested (D : Nat) (x : Cell) : Cell := { x with ty := clearBits x.ty (requestedMask D) }
/-- `nchildren_to_receive`, tree_types.h:221-223. -/
def nchildrenToReceive (D : Nat) (x : Cell) : Nat := (x.ty >>> nchildRecvDispl D) &&& 15
/-- `set_nchildren_to_receive`, tree_types.h:224-227. -/
def setNchildrenToReceive (D : Nat) (x : Cell) (n : Nat) : Cell :=
  { x with ty := (clearBits x.ty (nchildRecvMask D) ||| (n <<< nchildRecvDispl D)) % 2 ^ 32 }
/-- `is_shared`, tree_types.h:237-239. -/
def isShared (D : Nat) (x : Cell) : Bool := (x.ty &&& localityMask D) >>> localityDispl D == 2
/-- `requested`, tree_types.h:241-243. -/
def requested (D : Nat) (x : Cell) : Bool := x.ty &&& requestedMask D != 0
/-- `has_child`, tree_types.h:248-250: `type_ & (1 << (1 << dimension)) - 1`, where `-` binds tighter than `&`. -/
def hasChild (D : Nat) (x : Cell) : Bool := x.ty &&& ((1 <<< (1 <<< D)) - 1) != 0
/-- `is_node`, tree_types.h:268-271. `none`: the assertion fails. -/
def isNode (x : Cell) : Option Bool := if x.nodeIdx ≠ -1 ∨ x.entityIdx ≠ -1 then some (x.nodeIdx != -1) else none
/-- `is_empty_node`, tree_types.h:245-247. -/
def isEmptyNode (D : Nat) (x : Cell) : Option Bool :=
  (isNode x).map fun n => n && (!hasChild D x || decide (nchildrenToReceive D x > nchildren D x))

/-- One update of the word. -/
inductive Op
  | addChild (c : Nat) | setShared | setRequested | unsetRequested | setNchildrenToReceive (n : Nat)

def step (D : Nat) (x : Cell) : Op → Cell
  | .addChild c => addChild x c
  | .setShared => setShared D x
  | .setRequested => setRequested D x
  | .unsetRequested => unsetRequested D x
  | .setNchildrenToReceive n => setNchildrenToReceive D x n

end FleCSPH.HCell
