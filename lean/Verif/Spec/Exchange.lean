import Mathlib.Data.List.FinRange
import Mathlib.Data.Fintype.BigOperators
/-! What an exchange has to deliver. -/
namespace FleCSPH.Exchange

/-- The part of a buffer which follows `count j` elements for every process `j` before `i`, and has `count i` elements. -/
def blockFor {α : Type} {P : Nat} (count : Fin P → Nat) (buffer : List α) (i : Fin P) : List α :=
  (buffer.drop (∑ j : Fin P, if j < i then count j else 0)).take (count i)

/-- The blocks all processes have for process `r`, in the order of the processes. -/
def deliver {α : Type} {P : Nat} (count : Fin P → Fin P → Nat) (buffer : Fin P → List α) (r : Fin P) : List α :=
  (List.finRange P).flatMap fun q => blockFor (count q) (buffer q) r

end FleCSPH.Exchange
