import Verif.Model.Rounding
import Verif.Model.Update
/-!
`body_system::update_iteration` (mpisph/bodies_system.h:152-229) as in Model/Update.lean, with every operation on numbers rounded. Comparisons, minima and maxima are exact. Overflow, underflow and NaN are not modelled.
-/
namespace FleCSPH.RoundedUpdate
open FleCSPH.Cofm FleCSPH.Psort FleCSPH.Startup
open FleCSPH.Update (Ent discOf axis itemOf bodyAt ranksOf)
open FleCSPH.Rounded (Rounding)
open FleCSPH.Distribute (Disc less)

variable {d P : Nat} (R : Rounding)

open Classical in
/-- The body of the loop of `mpi_compute_range`, bodies_system.h:245-250, for one axis; the pair is (lrange[0], lrange[1]). The sum and the difference are computed twice in the code, with the same result. -/
noncomputable def extend (j : Fin d) (r : ℝ × ℝ) (b : Disc d) : ℝ × ℝ :=
  let hi := if R.fl (b.pos j + b.radius) > r.2 then R.fl (b.pos j + b.radius) else r.2
  let lo := if R.fl (b.pos j - b.radius) < r.1 then R.fl (b.pos j - b.radius) else r.1
  (lo, hi)

/-- The range of one process, bodies_system.h:237-252; `none`: `bodies.back()` of an empty vector. -/
noncomputable def localRange (bodies : List (Disc d)) : Option (Fin d → ℝ × ℝ) :=
  match bodies.getLast? with
  | none => none
  | some b => some fun j => bodies.foldl (extend R j) (b.pos j, b.pos j)

/-- `mpi_compute_range`, bodies_system.h:231-269, over all processes: the result every process gets. -/
noncomputable def computeRange (procs : List (List (Disc d))) : Option (Fin d → ℝ × ℝ) :=
  match procs.mapM (localRange R) with
  | none => none
  | some [] => none
  | some (r :: rs) => some fun j => (rs.foldl (fun m q => min m (q j).1) (r j).1, rs.foldl (fun m q => max m (q j).2) (r j).2)

/-- The body of the loop of `compute_keys`, tree_topology.h:828-832. -/
noncomputable def setKey (bits : Nat) (range : Fin d → ℝ × ℝ) (e : Ent d) : Option (Ent d) :=
  (Rounded.encode R bits d (axis fun j => (range j).1) (axis fun j => (range j).2) (axis e.body.pos)).map fun k => { e with key := k }

/-- `compute_keys` on all processes. -/
noncomputable def computeKeys (bits : Nat) (range : Fin d → ℝ × ℝ) (vec : Fin P → List (Ent d)) : Option (Fin P → List (Ent d)) :=
  if ∀ r, ((vec r).mapM (setKey R bits range)).isSome then some fun r => ((vec r).mapM (setKey R bits range)).getD [] else none

open Classical in
/-- Up to the sort, bodies_system.h:175-214: range, assertion that it is not a point, keys, `psort` with the sizes as they are (194-197). `fuel` bounds the number of rounds of `psort`. -/
noncomputable def arrange (bits : Nat) (S : StdSort) (junk : Nat → Fin P → Ent d) (fuel : Nat) (vec : Fin P → List (Ent d)) : Option (Fin P → List (Ent d)) :=
  (computeRange R (List.ofFn fun r => (vec r).map discOf)).bind fun range =>
    if ∀ j, (range j).1 = (range j).2 then none
    else (computeKeys R bits range vec).bind fun keyed => psort S (fun a b => less (itemOf a) (itemOf b)) junk keyed (fun r => (keyed r).length) fuel

/-- `update_iteration`, bodies_system.h:152-229: the particles of every process and the trees. -/
noncomputable def update (bits : Nat) (S : StdSort) (junk : Nat → Fin P → Ent d) (fuel : Nat) (big : ℝ) (vec : Fin P → List (Ent d)) : Option ((Fin P → List (Ent d)) × List (ShareTable.Proc (Data d))) :=
  (arrange R bits S junk fuel vec).bind fun out =>
    (startup (Key.maxDepth bits d) d (Rounded.summarise R big) (fun x => .inl (bodyAt out x)) (ranksOf out)).map fun s => (out, s)

end FleCSPH.RoundedUpdate
