import Mathlib.Data.Real.Basic
/-!
Model of what `body_system::update_iteration` does before the tree is built (mpisph/bodies_system.h:153-229): the range of the particles and
the order in which they are sorted. A process is an entry of a list; `MPI_Allreduce` is a fold over it. Exact real arithmetic.
-/
namespace FleCSPH.Distribute

/-- A particle as far as sorting sees it: key and id (`key_type`, `size_t`). -/
structure Item where
  key : Nat
  id : Nat
deriving DecidableEq

/-- The comparison handed to `psort`, bodies_system.h:205-213, and to the sorts of tree_colorer.h:117-125, 170-178, 553-561. -/
def less (left right : Item) : Bool :=
  if left.key < right.key then true
  else if left.key = right.key then decide (left.id < right.id)
  else false

/-- `entity::operator<`, tree_types.h:365-367. -/
def entityLess (a b : Item) : Bool := decide (a.key ≤ b.key)

/-- `entity::operator==`, tree_types.h:321-323. -/
def entityEq (a b : Item) : Bool := decide (a.id = b.id)

/-- A particle as far as the range sees it: coordinates and radius. -/
structure Disc (d : Nat) where
  pos : Fin d → ℝ
  radius : ℝ

open Classical in
/-- The body of the loop of `mpi_compute_range`, bodies_system.h:245-250, for one axis; the pair is (lrange[0], lrange[1]). -/
noncomputable def extend {d : Nat} (j : Fin d) (r : ℝ × ℝ) (b : Disc d) : ℝ × ℝ :=
  let hi := if b.pos j + b.radius > r.2 then b.pos j + b.radius else r.2
  let lo := if b.pos j - b.radius < r.1 then b.pos j - b.radius else r.1
  (lo, hi)

/-- The range of one process, bodies_system.h:237-252; `none`: `bodies.back()` of an empty vector. -/
noncomputable def localRange {d : Nat} (bodies : List (Disc d)) : Option (Fin d → ℝ × ℝ) :=
  match bodies.getLast? with
  | none => none
  | some b => some fun j => bodies.foldl (extend j) (b.pos j, b.pos j)

/-- `mpi_compute_range`, bodies_system.h:231-269, over all processes: the result every process gets. -/
noncomputable def computeRange {d : Nat} (procs : List (List (Disc d))) : Option (Fin d → ℝ × ℝ) :=
  match procs.mapM localRange with
  | none => none
  | some [] => none
  | some (r :: rs) => some fun j => (rs.foldl (fun m q => min m (q j).1) (r j).1, rs.foldl (fun m q => max m (q j).2) (r j).2)

end FleCSPH.Distribute
