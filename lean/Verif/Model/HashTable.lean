/-!
Model of `include/tree_topology/hashtable.h`, class `hashtable` (lines 26-104).

`ht_` is a vector of `2^22` vectors; it is a function from the bucket number to the bucket, since no operation
changes the number of buckets. Iterators are positions that are used at once; a stored iterator is not modelled.
`nelement_` is not initialised by the constructor (lines 37-40, 103): `none` is an indeterminate value.
-/
namespace FleCSPH.HashTable

/-- `hash_mask_ = (1 << hash_bit_) - 1` with `hash_bit_ = 22`, hashtable.h:97-99. -/
def hashMask : Nat := (1 <<< 22) - 1

/-- `hash_`, hashtable.h:93-95. -/
def bucketOf (k : Nat) : Nat := k &&& hashMask

structure Table (α : Type) where
  ht : Nat → List (Nat × α)
  nelement : Option Nat

/-- The constructor, hashtable.h:37-40. -/
def new (α : Type) : Table α := ⟨fun _ => [], none⟩

/-- The scan of one bucket in `find`, hashtable.h:54-56. -/
def scan {α : Type} (k : Nat) : List (Nat × α) → Option α
  | [] => none
  | (k', v) :: l => if k' != k then scan k l else some v

/-- `find`, hashtable.h:50-60. `none` stands for `end()`. -/
def find {α : Type} (t : Table α) (k : Nat) : Option α := scan k (t.ht (bucketOf k))

/-- `emplace`, hashtable.h:65-71. -/
def emplace {α : Type} (t : Table α) (k : Nat) (v : α) : Table α :=
  ⟨fun i => if i = bucketOf k then t.ht i ++ [(k, v)] else t.ht i, t.nelement.map (· + 1)⟩

/-- A write through the reference found in one bucket. -/
def scanModify {α : Type} (k : Nat) (f : α → α) : List (Nat × α) → List (Nat × α)
  | [] => []
  | (k', v) :: l => if k' != k then (k', v) :: scanModify k f l else (k', f v) :: l

/-- `find(k)->second = f(find(k)->second)`, as the callers in tree_topology.h do when the key is present. -/
def modify {α : Type} (t : Table α) (k : Nat) (f : α → α) : Table α :=
  ⟨fun i => if i = bucketOf k then scanModify k f (t.ht i) else t.ht i, t.nelement⟩

/-- `clear`, hashtable.h:77-82. -/
def clear {α : Type} (_ : Table α) : Table α := ⟨fun _ => [], some 0⟩

/-- `size`, hashtable.h:84-86. -/
def size {α : Type} (t : Table α) : Option Nat := t.nelement

/-- One call. -/
inductive Op (α : Type)
  | emplace (k : Nat) (v : α)
  | modify (k : Nat) (f : α → α)
  | clear

def step {α : Type} (t : Table α) : Op α → Table α
  | .emplace k v => emplace t k v
  | .modify k f => modify t k f
  | .clear => clear t

end FleCSPH.HashTable
