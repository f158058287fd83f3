/-!
Specification of the tree of a set of particle keys.

A full key is `1` followed by `D` digits in base `2^dim`; the cells that hold it are obtained by dropping digits from
the right. The root cell is `1`.
-/
namespace FleCSPH.Spec

/-- `1` followed by exactly `D` digits. -/
def FullKey (D dim x : Nat) : Prop := x / 2 ^ (D * dim) = 1

instance (D dim x : Nat) : Decidable (FullKey D dim x) := inferInstanceAs (Decidable (_ = _))

/-- The cell `c` holds the particle with key `x`: `c` is `x` without its last `p` digits, for some `p ≤ D`. -/
def Holds (D dim c x : Nat) : Prop := ∃ p ≤ D, x / 2 ^ (p * dim) = c

/-- The cell `c` holds the particle `x` of `X` and no other particle of `X`. -/
def HoldsAlone (D dim : Nat) (X : Nat → Prop) (c x : Nat) : Prop :=
  Holds D dim c x ∧ ∀ y, X y → Holds D dim c y → y = x

/-- Inner cells of the canonical tree: the root, and every cell that holds two different particles. -/
def InnerCell (D dim : Nat) (X : Nat → Prop) (c : Nat) : Prop :=
  c = 1 ∨ ∃ x y, X x ∧ X y ∧ x ≠ y ∧ Holds D dim c x ∧ Holds D dim c y

/-- The leaf of particle `x`: a cell below the root that holds `x` alone, and every other such cell lies inside it. -/
def LeafCell (D dim : Nat) (X : Nat → Prop) (x c : Nat) : Prop :=
  c ≠ 1 ∧ HoldsAlone D dim X c x ∧
    ∀ c', c' ≠ 1 → HoldsAlone D dim X c' x → ∃ m, c' / 2 ^ (m * dim) = c

end FleCSPH.Spec
