import Verif.Spec.Tree
import Verif.Spec.ShareTable
/-!
The tree of the particles of all processes as a tree of paths. A path is the list of the child numbers from the cell up to the root.
-/
namespace FleCSPH.Spec
open FleCSPH.Ghosts

/-- The key of the cell at the end of a path: `1` followed by the child numbers. -/
def number (dim : Nat) : List Nat → Nat
  | [] => 1
  | j :: k => number dim k * 2 ^ dim + j

/-- All child numbers are below `2^dim`. -/
def Digits (dim : Nat) (k : List Nat) : Prop := ∀ j ∈ k, j < 2 ^ dim

/-- The path leads to a cell of the tree of the particles `X`. -/
def IsCell (D dim : Nat) (X : Nat → Prop) (k : List Nat) : Prop :=
  Digits dim k ∧ (InnerCell D dim X (number dim k) ∨ ∃ x, X x ∧ LeafCell D dim X x (number dim k))

open Classical in
/-- The tree of the particles `X`. -/
noncomputable def globalTree (D dim : Nat) (X : Nat → Prop) (k : List Nat) : Option GCell :=
  if IsCell D dim X k then
    some { ent := decide (∃ x, X x ∧ LeafCell D dim X x (number dim k)), kids := (Finset.range (2 ^ dim)).filter fun j => IsCell D dim X (j :: k) }
  else none

/-- Process `r` holds a particle whose leaf is `e`. -/
def HasLeaf (D dim : Nat) (ranks : List (List Nat)) (r : Nat) (e : List Nat) : Prop :=
  ∃ ks x, ranks[r]? = some ks ∧ x ∈ ks ∧ LeafCell D dim (· ∈ ranks.flatten) x (number dim e)

open Classical in
/-- The process which holds the particle of the leaf `e`. -/
noncomputable def holder (D dim : Nat) (ranks : List (List Nat)) (e : List Nat) : Nat :=
  if h : ∃ r, HasLeaf D dim ranks r e then h.choose else 0

open Classical in
/-- `Val` is the data of the cells of the tree: that of a leaf is the data of its particle, that of an inner cell is computed by `F` from its key, the data of the leaves and the data of the inner cells
directly below it, both in the order of the child numbers. -/
structure TreeData {V : Type} (D dim : Nat) (X : Nat → Prop) (F : Nat → List V → List V → V) (val : Nat → V) (Val : List Nat → V) : Prop where
  leaf : ∀ k x, Digits dim k → X x → LeafCell D dim X x (number dim k) → Val k = val x
  inner : ∀ k, Digits dim k → InnerCell D dim X (number dim k) → Val k = F (number dim k)
    (((List.range (2 ^ dim)).filter fun j => decide (∃ x, X x ∧ LeafCell D dim X x (number dim (j :: k)))).map fun j => Val (j :: k))
    (((List.range (2 ^ dim)).filter fun j => decide (InnerCell D dim X (number dim (j :: k)))).map fun j => Val (j :: k))

end FleCSPH.Spec
