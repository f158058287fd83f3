import Verif.Model.HCell
/-!
Specification of a tree cell's attributes: five independent fields.
-/
namespace FleCSPH.Spec
open FleCSPH.HCell (Op)

/-- The attributes, as a plain record. -/
structure CellAttr where
  child : Nat → Bool := fun _ => false
  shared : Bool := false
  requested : Bool := false
  toReceive : Nat := 0

/-- What each update means: it changes its own field only. -/
def CellAttr.step (a : CellAttr) : Op → CellAttr
  | .addChild c => { a with child := fun i => if i = c then true else a.child i }
  | .setShared => { a with shared := true }
  | .setRequested => { a with requested := true }
  | .unsetRequested => { a with requested := false }
  | .setNchildrenToReceive n => { a with toReceive := n }

/-- Arguments that fit: an existing child slot, a number of children of at most 4 bits. -/
def OpOk (D : Nat) : Op → Prop
  | .addChild c => c < 2 ^ D
  | .setNchildrenToReceive n => n < 16
  | _ => True

end FleCSPH.Spec
