import Verif.Model.Program
/-!
The program which times the neighbour search, app/drivers/tree/main_driver.cc: the trees are built and searched again and again, and each process prints how many neighbours its particles have on average. The
times which are printed are left out, and so are periodic boundaries.
-/
namespace FleCSPH.TreeDriver
open FleCSPH.Geometry FleCSPH.Sph FleCSPH.Driver FleCSPH.Program

variable {i : Fin 3} {n m : Nat}

/-- The function called for each particle with its list, main_driver.cc:113-122: the length of the list is added to `total`, a `size_t`, and the particle must be in its own list, by its identifier. -/
def count (v : Fin n → Particle (i + 1)) (nbs : Fin n → List (Fin n)) (total : Nat) (a : Fin n) : Option Nat :=
  if (nbs a).foldl (fun found b => if (v a).id = (v b).id then true else found) false then some ((total + (nbs a).length) % 2 ^ 64) else none

/-- All calls on one process, main_driver.cc:110-123: `total` of the loop hides the counter of the iterations and starts from zero. -/
def tally (v : Fin n → Particle (i + 1)) (nbs : Fin n → List (Fin n)) (order : List (Fin n)) : Option Nat := order.foldlM (count v nbs) 0

/-- The number after "Average:", main_driver.cc:124, with `nbodies()` of bodies_system.h:349-351. Division by zero is undefined. -/
def average (total : Nat) (mine : List (Fin n)) : Option Nat := if mine.length = 0 then none else some (total / mine.length)

/-- One process in one iteration. -/
def report (v : Fin n → Particle (i + 1)) (nbs : Fin n → List (Fin n)) (order mine : List (Fin n)) : Option Nat := (tally v nbs order).bind fun t => average t mine

/-- How the program ends: after the loop; with a failed assertion or undefined on some process; or at an `update_iteration` for which two particles are in one cell of the finest grid, about which nothing is
said (`C10_duplicate_violated`). -/
inductive End
  | done
  | failed
  | clash

/-- The loop from the counter `k` on, main_driver.cc:103-147: `do ... while(--total != 0)` with a `size_t`. What is printed, by iterations and processes, and how it ends. The processes make their calls in
any order. -/
inductive Bench (g : Settings) (v : Fin n → Particle (i + 1)) : Nat → Trees i n m → List (Fin (2 ^ m) → Nat) → End → Prop
  | last {k T T' T'' nbs} {order : Fin (2 ^ m) → List (Fin n)} {out : Fin (2 ^ m) → Nat} : Apart g v → Updated g v T T' → Searched g T' T'' nbs → (∀ p, (order p).Perm (T'.vec p)) → (∀ p, report v nbs (order p) (T'.vec p) = some (out p)) →
      (k + (2 ^ 64 - 1)) % 2 ^ 64 = 0 → Bench g v k T [out] .done
  | more {k T T' T'' nbs} {order : Fin (2 ^ m) → List (Fin n)} {out : Fin (2 ^ m) → Nat} {l r} : Apart g v → Updated g v T T' → Searched g T' T'' nbs → (∀ p, (order p).Perm (T'.vec p)) → (∀ p, report v nbs (order p) (T'.vec p) = some (out p)) →
      (k + (2 ^ 64 - 1)) % 2 ^ 64 ≠ 0 → Bench g v ((k + (2 ^ 64 - 1)) % 2 ^ 64) T'' l r → Bench g v k T (out :: l) r
  | failed {k T T' T'' nbs} {order : Fin (2 ^ m) → List (Fin n)} (p : Fin (2 ^ m)) : Apart g v → Updated g v T T' → Searched g T' T'' nbs → (∀ p, (order p).Perm (T'.vec p)) →
      report v nbs (order p) (T'.vec p) = none → Bench g v k T [] .failed
  | clash {k T} : ¬Apart g v → Bench g v k T [] .clash

/-- The program, main_driver.cc:100-148, after the particles have been read. -/
def Program (g : Settings) (v : Fin n → Particle (i + 1)) (T : Trees i n m) (out : List (Fin (2 ^ m) → Nat)) (r : End) : Prop := Bench g v 5000 T out r

end FleCSPH.TreeDriver
