import Verif.Spec.Ghosts
/-!
What every process should know after the tops of the trees were exchanged, without reference to the code. `own e` is the process which holds the particle of the entity cell `e`.
-/
namespace FleCSPH.Ghosts

variable (G : List Nat → Option GCell) (own : List Nat → Nat)

/-- The cell is an entity of the global tree. -/
def IsEnt (e : List Nat) : Prop := ∃ g, G e = some g ∧ g.ent = true

/-- Process `s` has a particle in the cell. -/
def SomeOf (s : Nat) (k : List Nat) : Prop := ∃ e, IsEnt G e ∧ k <:+ e ∧ own e = s

/-- All particles in the cell belong to process `s`. -/
def AllOf (s : Nat) (k : List Nat) : Prop := ∀ e, IsEnt G e → k <:+ e → own e = s

/-- The particles in the cell belong to one process. -/
def Single (k : List Nat) : Prop := ∃ s, AllOf G own s k

/-- One of the highest cells all of whose particles belong to process `s`. -/
def Top (s : Nat) (k : List Nat) : Prop := (G k).isSome ∧ AllOf G own s k ∧ ∀ j pk, k = j :: pk → ¬ Single G own pk

/-- Process `r` should have the cell: it has particles there, or no single other process has all particles of the cell above. -/
def Wanted (r : Nat) (k : List Nat) : Prop := (G k).isSome ∧ (SomeOf G own r k ∨ ∀ j pk, k = j :: pk → ¬ Single G own pk)

end FleCSPH.Ghosts
