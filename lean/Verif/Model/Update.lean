import Verif.Model.Distribute
import Verif.Model.Psort
import Verif.Model.Morton
import Verif.Model.Startup
/-!
`body_system::update_iteration` (mpisph/bodies_system.h:152-229) as a whole, on all processes, without periodic boundaries: range, keys, distributed sort, trees. A process is an index `r : Fin P`.
-/
namespace FleCSPH.Update
open FleCSPH.Cofm FleCSPH.Distribute FleCSPH.Psort FleCSPH.Startup

variable {d P : Nat}

/-- A particle in the vector `entities_` of a process, as far as `update_iteration` reads it. -/
structure Ent (d : Nat) where
  body : Body d
  id : Nat
  key : Nat

/-- What `mpi_compute_range` reads: `coordinates()` and `radius()`, which is the smoothing length (body.h). -/
def discOf (e : Ent d) : Disc d := ⟨e.body.pos, e.body.h⟩

/-- A point as Model/Morton.lean takes it. -/
def axis (x : Fin d → ℝ) (j : Nat) : ℝ := if h : j < d then x ⟨j, h⟩ else 0

/-- The body of the loop of `compute_keys`, tree_topology.h:828-832. -/
noncomputable def setKey (bits : Nat) (range : Fin d → ℝ × ℝ) (e : Ent d) : Option (Ent d) :=
  (Morton.encode bits d (axis fun j => (range j).1) (axis fun j => (range j).2) (axis e.body.pos)).map fun k => { e with key := k }

/-- `compute_keys` on all processes. -/
noncomputable def computeKeys (bits : Nat) (range : Fin d → ℝ × ℝ) (vec : Fin P → List (Ent d)) : Option (Fin P → List (Ent d)) :=
  if ∀ r, ((vec r).mapM (setKey bits range)).isSome then some fun r => ((vec r).mapM (setKey bits range)).getD [] else none

def itemOf (e : Ent d) : Item := ⟨e.key, e.id⟩

open Classical in
/-- Up to the sort, bodies_system.h:175-214: range, assertion that it is not a point, keys, `psort` with the sizes as they are (194-197). `fuel` bounds the number of rounds of `psort`. -/
noncomputable def arrange (bits : Nat) (S : StdSort) (junk : Nat → Fin P → Ent d) (fuel : Nat) (vec : Fin P → List (Ent d)) : Option (Fin P → List (Ent d)) :=
  (computeRange (List.ofFn fun r => (vec r).map discOf)).bind fun range =>
    if ∀ j, (range j).1 = (range j).2 then none
    else (computeKeys bits range vec).bind fun keyed => psort S (fun a b => less (itemOf a) (itemOf b)) junk keyed (fun r => (keyed r).length) fuel

/-- The particle with key `x`, as Model/Startup.lean looks up the data of an entity. No other key is looked up, so the value for other keys does not matter. -/
noncomputable def bodyAt (out : Fin P → List (Ent d)) (x : Nat) : Body d :=
  match ((List.finRange P).flatMap out).find? fun e => e.key == x with
  | some e => e.body
  | none => ⟨0, 0, 0⟩

/-- The keys of the particles of every process. -/
def ranksOf (out : Fin P → List (Ent d)) : List (List Nat) := List.ofFn fun r => (out r).map Ent.key

/-- `update_iteration`, bodies_system.h:152-229: the particles of every process and the trees. -/
noncomputable def update (bits : Nat) (S : StdSort) (junk : Nat → Fin P → Ent d) (fuel : Nat) (big : ℝ) (vec : Fin P → List (Ent d)) : Option ((Fin P → List (Ent d)) × List (ShareTable.Proc (Data d))) :=
  (arrange bits S junk fuel vec).bind fun out =>
    (startup (Key.maxDepth bits d) d (summarise big) (fun x => .inl (bodyAt out x)) (ranksOf out)).map fun s => (out, s)

end FleCSPH.Update
