import Mathlib.Algebra.Order.Floor.Semiring
import Mathlib.Algebra.Order.Floor.Ring
import Mathlib.Algebra.Order.Field.Basic
import Mathlib.Algebra.BigOperators.Fin
import Verif.Spec.Path

/-!
Specification of the grid of cells a root box is cut into, and of the Z-order (Morton) path to a cell.
-/
namespace FleCSPH.Spec

/-- The child digit with the given parities: bit `j` is the parity of coordinate `j`. -/
def zDigit (dim : Nat) (c : Nat → Nat) : Nat :=
  match dim with
  | 0 => 0
  | d + 1 => zDigit d c + c d % 2 * 2 ^ d

/-- The path to cell `c` of a grid with `2^m` cells along each axis: the parent cell has the halved coordinates, the last
digit is made of the parities. -/
def zPath (dim : Nat) : Nat → (Nat → Nat) → List Nat
  | 0, _ => []
  | m + 1, c => zPath dim m (fun j => c j / 2) ++ [zDigit dim c]

variable {K : Type*} [Field K] [LinearOrder K] [IsStrictOrderedRing K] [FloorSemiring K]

/-- `p` lies in cell `c` among the `n` equal cells that cut `[lo, hi]`: cell `c` is
`[lo + c (hi-lo)/n, lo + (c+1) (hi-lo)/n)`, and the last cell also contains `hi`. -/
def InCell (lo hi : K) (n c : Nat) (p : K) : Prop :=
  c < n ∧ lo + (hi - lo) * c / n ≤ p ∧ (p < lo + (hi - lo) * (c + 1) / n ∨ (c + 1 = n ∧ p = hi))

end FleCSPH.Spec
