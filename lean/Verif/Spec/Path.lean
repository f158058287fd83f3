/-!
Specification of tree keys: a cell of the tree is a path of child digits from the root.
The key of a path is the word `1 d₁ d₂ ... dₙ` in base `2^dim`.
-/
namespace FleCSPH.Spec

/-- A path is well formed in dimension `dim` when every digit names one of the `2^dim` children. -/
def IsPath (dim : Nat) (ds : List Nat) : Prop := ∀ d ∈ ds, d < 2 ^ dim

/-- The number written `1 d₁ ... dₙ` in base `2^dim`. -/
def pathKey (dim : Nat) (ds : List Nat) : Nat := ds.foldl (fun v d => v * 2 ^ dim + d) 1

/-- The longest common prefix of two paths. -/
def commonPrefix : List Nat → List Nat → List Nat
  | x :: xs, y :: ys => if x = y then x :: commonPrefix xs ys else []
  | _, _ => []

end FleCSPH.Spec
