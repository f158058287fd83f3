import Verif.Spec.Boundary
import Verif.Model.PeriodicRun
/-! A run without boundaries: particles on a torus, where every particle acts through all its images. -/
namespace FleCSPH.Torus
open FleCSPH.Geometry FleCSPH.Sph FleCSPH.Boundary FleCSPH.DistRun

variable {d n : Nat}

/-- Combinations of periods, zero included. -/
def Lattice (periodic : Fin d → Bool) (k : Fin d → ℤ) : Prop := ∀ j, periodic j = false → k j = 0

/-- A particle moved by `k` periods. -/
def imageOf (sides : Fin d → ℝ) (a : Particle d) (k : Fin d → ℤ) : Particle d := { a with pos := fun j => a.pos j + k j * sides j }

/-- `l` holds the images which are not further away from `a` than the mean of the two smoothing lengths, each of them once. -/
structure Near (sides : Fin d → ℝ) (periodic : Fin d → Bool) (s : Fin n → Particle d) (a : Particle d) (l : List (Fin n × (Fin d → ℤ))) : Prop where
  nodup : l.Nodup
  mem : ∀ b k, (b, k) ∈ l ↔ Lattice periodic k ∧ √(∑ j, (a.pos j - (imageOf sides (s b) k).pos j) ^ 2) ≤ (a.h + (s b).h) / 2

/-- Every particle gets the value of `f` on its neighbours on the torus. The signal speed is not compared. -/
def Pass (sides : Fin d → ℝ) (periodic : Fin d → Bool) (f : Particle d → List (Particle d) → Option (Particle d)) (s t : Fin n → Particle d) : Prop :=
  ∀ a, ∃ l x, Near sides periodic s (s a) l ∧ f (s a) (l.map fun q => imageOf sides (s q.1) q.2) = some x ∧ { x with vsig := 0 } = { t a with vsig := 0 }

/-- The calls of the driver for particles on the torus. The places of the particles matter up to periods only: `update` may choose other representatives. -/
inductive Exec (sides : Fin d → ℝ) (periodic : Fin d → Bool) : List (Op (Particle d)) → (Fin n → Particle d) → (Fin n → Particle d) → Prop
  | nil {s} : Exec sides periodic [] s s
  | all {f ops s t u} : (∀ a, f (s a) = some (t a)) → Exec sides periodic ops t u → Exec sides periodic (.all f :: ops) s u
  | pass {k f ops s t u} : Pass sides periodic f s t → Exec sides periodic ops t u → Exec sides periodic (.pass k f :: ops) s u
  | reset {ops s t} : Exec sides periodic ops s t → Exec sides periodic (.reset :: ops) s t
  | update {ops s t u} : (∀ a, ∃ k, Lattice periodic k ∧ t a = imageOf sides (s a) k) → Exec sides periodic ops t u → Exec sides periodic (.update :: ops) s u
  | mean {g set ops s t u} : (∀ a, t a = set (1 / (n : ℝ) * ∑ b, g (s b)) (s a)) → Exec sides periodic ops t u → Exec sides periodic (.mean g set :: ops) s u

/-- A run of several iterations with a fixed time step on the torus. -/
inductive Run {i : Fin 3} (sides : Fin (i + 1) → ℝ) (periodic : Fin (i + 1) → Bool) (z : Driver.Config i) : Nat → Timestep.Clock → (Fin n → Particle (i + 1)) → (Fin n → Particle (i + 1)) → Prop
  | nil {c s} : Run sides periodic z 0 c s s
  | cons {N c s t u} : Exec sides periodic (iterationOps z c) s t → Run sides periodic z N (Timestep.advance false c) t u → Run sides periodic z (N + 1) c s u

/-- The same particles up to periods and up to the signal speed, which is not compared. -/
def Same (sides : Fin d → ℝ) (periodic : Fin d → Bool) (s t : Fin n → Particle d) : Prop := ∀ a, ∃ k, Lattice periodic k ∧ { t a with vsig := 0 } = { imageOf sides (s a) k with vsig := 0 }

/-! ### What is assumed -/

section
variable {i : Fin 3}
open FleCSPH.PeriodicRun FleCSPH.Driver

/-- The external force and the potential are the same at all images of a place, and the force looks neither at the id nor at the signal speed. -/
structure PeriodicForce (sides : Fin (i + 1) → ℝ) (periodic : Fin (i + 1) → Bool) (z : Config i) : Prop where
  force : ∀ a k m v, Lattice periodic k → z.sph.external { imageOf sides a k with id := m, vsig := v } = z.sph.external a
  potential : ∀ (p : Point (i + 1)) k, Lattice periodic k → z.phi (fun j => p j + k j * sides j) = z.phi p

/-- Positions at most one period outside, and no smoothing length longer than a fifth of a side. -/
def Contained (sides : Fin (i + 1) → ℝ) (periodic : Fin (i + 1) → Bool) (σ : PState i) : Prop :=
  ∀ p ∈ σ.reals, ∀ j, periodic j = true → -(3 / 2) * sides j < p.pos j ∧ p.pos j ≤ 3 / 2 * sides j ∧ 5 * p.h ≤ sides j
end

end FleCSPH.Torus
