import Mathlib.Data.Finset.Card
/-!
What the request protocol should achieve, without reference to the code: the global tree, the entities a search should reach, and what "all children are here" means.
-/
namespace FleCSPH.Ghosts

/-- A cell of the global tree: an entity or a node, and the numbers of its children. -/
structure GCell where
  ent : Bool
  kids : Finset Nat
deriving DecidableEq

/-- The global tree over all processes, with the finite set of its keys (a key is the list of child numbers, last one first): every cell but the root is a child of its parent, entities have no
children and nodes have some, and child numbers are below `nch`. -/
structure IsTree (nch : Nat) (G : List Nat → Option GCell) (cells : Finset (List Nat)) : Prop where
  mem : ∀ k, k ∈ cells ↔ (G k).isSome
  root : ∃ g, G [] = some g ∧ g.ent = false
  child : ∀ j k, (G (j :: k)).isSome ↔ ∃ g, G k = some g ∧ j ∈ g.kids
  leaf : ∀ k g, G k = some g → (g.ent = true ↔ g.kids = ∅)
  slots : ∀ k g, G k = some g → ∀ j ∈ g.kids, j < nch

/-- All cells above `k` pass the test. -/
def Open (accept : List Nat → Bool) (k : List Nat) : Prop := ∀ a, a <:+ k → a ≠ k → accept a = true

/-- The list holds each entity of the global tree all of whose ancestors pass the test, once, and nothing else. -/
def Reached (G : List Nat → Option GCell) (accept : List Nat → Bool) (es : List (List Nat)) : Prop :=
  es.Nodup ∧ ∀ k, k ∈ es ↔ (∃ g, G k = some g ∧ g.ent = true) ∧ Open accept k

/-- What the sizes of the cells guarantee (`mac`: the cells are far enough apart; `bigger`: the first one is larger): entities have size 0, so an entity is never the larger one, and a node is larger
than an entity unless the two are far enough apart. -/
structure Sizes (G : List Nat → Option GCell) (mac bigger : List Nat → List Nat → Bool) : Prop where
  first : ∀ k1 k2 g1, G k1 = some g1 → g1.ent = true → mac k1 k2 = false → bigger k1 k2 = false
  second : ∀ k1 k2 g1 g2, G k1 = some g1 → G k2 = some g2 → g1.ent = false → g2.ent = true → mac k1 k2 = false → bigger k1 k2 = true

end FleCSPH.Ghosts
