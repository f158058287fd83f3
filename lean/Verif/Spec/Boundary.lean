import Verif.Model.Boundary
/-! What the periodic boundary should do. -/
namespace FleCSPH.Boundary
open FleCSPH.Geometry

variable {d : Nat} {β : Type}

/-- The particles which are not ghosts. -/
def reals (l : List (Body d β)) : List (Body d β) := l.filter fun b => !b.wall

/-- The ghosts. -/
def ghosts (l : List (Body d β)) : List (Body d β) := l.filter fun b => b.wall

/-- A particle and the same particle put back in the box: each coordinate of a periodic axis lies in (-L/2, L/2] and differs by a multiple of the side; nothing else changes. -/
def Wrapped (B : Box d) (b b' : Body d β) : Prop :=
  b'.id = b.id ∧ b'.wall = b.wall ∧ b'.rest = b.rest ∧ ∀ j,
    if B.periodic j then -(B.sides j / 2) < b'.pos j ∧ b'.pos j ≤ B.sides j / 2 ∧ ∃ k : ℤ, b'.pos j = b.pos j + k * B.sides j else b'.pos j = b.pos j

/-- `q` moved by `k` periods. -/
def image (B : Box d) (q : Point d) (k : Fin d → ℤ) : Point d := fun j => q j + k j * B.sides j

/-- A combination of periods: zero along the axes which are not periodic, and not zero. -/
def Period (B : Box d) (k : Fin d → ℤ) : Prop := k ≠ 0 ∧ ∀ j, B.periodic j = false → k j = 0

/-- The ids 0, ..., n - 1 in some order. -/
def Numbered (l : List (Body d β)) : Prop := (l.map Body.id).Perm ((List.range l.length).map fun k : ℕ => (k : Int))

end FleCSPH.Boundary
