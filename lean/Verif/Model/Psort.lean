import Mathlib.Data.Fintype.BigOperators
import Mathlib.Algebra.BigOperators.Fin
import Mathlib.Data.List.FinRange
/-!
Model of mpisph/psort.h, the distributed sort used by `update_iteration`. A process is an index `r : Fin P`; what a process knows after an
`MPI_Allgather` is a function of the index, so all processes compute the same ranges. `int` is `Int` without overflow; positions in a local
vector are `Nat`.

`std::sort` is any function which returns a sorted permutation (`StdSort`). A local median of an empty range is read from one past the
end of the range (psort.h:86-89), possibly past the end of the vector; the model takes an arbitrary value `junk` for it.
-/
namespace FleCSPH.Psort

/-- A strict weak order, what the standard asks of a comparison. -/
structure StrictWeak {α : Type} (lt : α → α → Bool) : Prop where
  irrefl : ∀ a, lt a a = false
  trans : ∀ a b c, lt a b = true → lt b c = true → lt a c = true
  incomp : ∀ a b c, lt a b = false → lt b c = false → lt a c = false

/-- An implementation of `std::sort`. -/
structure StdSort where
  run : {α : Type} → (α → α → Bool) → List α → List α
  perm : ∀ {α : Type} (lt : α → α → Bool) (l : List α), (run lt l).Perm l
  sorted : ∀ {α : Type} (lt : α → α → Bool) (l : List α), StrictWeak lt → (run lt l).Pairwise fun a b => lt b a = false

variable {α : Type} {P : Nat}

/-- One active range of the search: `t_ranges[k]`, `d_ranges[k]` on every process, `subdist[k]`, `outleft[k]`, psort.h:63-75. -/
structure Active (P : Nat) where
  tFirst : Nat
  tLast : Nat
  dFirst : Fin P → Nat
  dLast : Fin P → Nat
  subdist : Fin P → Int
  outleft : Fin P → Int

/-- `mymedians[k]` of a process, psort.h:86-90. -/
def median (junk : Fin P → α) (D : Fin P → List α) (a : Active P) (r : Fin P) : α :=
  (D r).getD (a.dFirst r + (a.subdist r / 2).toNat) (junk r)

/-- The loop over the sorted medians, psort.h:107-115: the first process at which half of the data is reached. -/
def choose (subdist : Fin P → Int) : List (Fin P) → Int → Option (Fin P)
  | [], _ => none
  | r :: l, mid =>
    if subdist r = 0 then choose subdist l mid
    else if mid - subdist r ≤ 0 then some r
    else choose subdist l (mid - subdist r)

/-- `queries[k]`, psort.h:98-119; `none` is the failed assertion `query_ind >= 0`. -/
def query (S : StdSort) (lt : α → α → Bool) (nReal : Nat) (junk : Fin P → α) (D : Fin P → List α) (a : Active P) : Option α :=
  let perm := S.run (fun r s => lt (median junk D a r) (median junk D a s)) ((List.finRange P).filter fun r => r.val < nReal)
  (choose a.subdist perm ((∑ r, a.subdist r) / 2)).map (median junk D a)

/-- `std::equal_range`, psort.h:126-127, first component: the end of the part of `[first, last)` which is less than `q`. -/
def lower (lt : α → α → Bool) (l : List α) (first last : Nat) (q : α) : Nat :=
  first + (((l.drop first).take (last - first)).takeWhile fun x => lt x q).length

/-- Second component: the end of the part which is not greater than `q`. -/
def upper (lt : α → α → Bool) (l : List α) (first last : Nat) (q : α) : Nat :=
  first + (((l.drop first).take (last - first)).takeWhile fun x => !lt q x).length

/-- `std::lower_bound(t_ranges[k].first, t_ranges[k].second, x)`, psort.h:156-157. -/
def splitLow (targets : Nat → Int) (first last : Nat) (x : Int) : Nat :=
  first + (((List.range (last - first)).map (first + ·)).takeWhile fun s => decide (targets s < x)).length

/-- `std::upper_bound(t_ranges[k].first, t_ranges[k].second, x)`, psort.h:158-159. -/
def splitHigh (targets : Nat → Int) (first last : Nat) (x : Int) : Nat :=
  first + (((List.range (last - first)).map (first + ·)).takeWhile fun s => decide (targets s ≤ x)).length

/-- One process of the loop which distributes the excess, psort.h:168-173; the state is (excess, right_ends[..]). -/
def fillStep (lo up : Fin P → Int) (st : Int × (Fin P → Int)) (i : Fin P) : Int × (Fin P → Int) :=
  let amount := min (lo i + st.1) (up i)
  (st.1 - (amount - lo i), Function.update st.2 i amount)

/-- The row of `right_ends` for a target, psort.h:162-174. -/
def fill (lo up : Fin P → Int) (old : Fin P → Int) (target : Int) : Fin P → Int :=
  ((List.finRange P).foldl (fillStep lo up) (target - ∑ r, lo r, old)).2

/-- What one active range contributes to a round: its targets which were hit, with the rows, and the ranges which go on. -/
structure Split (P : Nat) where
  rows : List (Nat × (Fin P → Int))
  next : List (Active P)

/-- The body of the loops over `k`, psort.h:77-201; `none` is a failed assertion. -/
def splitOne (S : StdSort) (lt : α → α → Bool) (nReal : Nat) (junk : Fin P → α) (D : Fin P → List α) (targets : Nat → Int) (a : Active P) :
    Option (Split P) :=
  -- the assertion of psort.h:78-80, on every process
  if ∀ r, a.subdist r = (a.dLast r : Int) - a.dFirst r then
    (query S lt nReal junk D a).bind fun q =>
      let lo := fun r => lower lt (D r) (a.dFirst r) (a.dLast r) q
      let up := fun r => upper lt (D r) (a.dFirst r) (a.dLast r) q
      let low := splitLow targets a.tFirst a.tLast (∑ r, (lo r : Int))
      let high := splitHigh targets a.tFirst a.tLast (∑ r, (up r : Int))
      let hit := (List.range (high - low)).map (low + ·)
      -- the assertion `*s > 0`
      if ∀ s ∈ hit, 0 < targets s then
        some
          { rows := hit.map fun s => (s + 1, fill (fun r => lo r) (fun r => up r) (fun _ => 0) (targets s))
            next :=
              (if low - a.tFirst > 0 then
                [{ tFirst := a.tFirst, tLast := low, dFirst := a.dFirst, dLast := lo
                   subdist := fun r => (lo r : Int) - a.outleft r, outleft := a.outleft }] else []) ++
              (if a.tLast - high > 0 then
                [{ tFirst := high, tLast := a.tLast, dFirst := up, dLast := a.dLast
                   subdist := fun r => a.outleft r + a.subdist r - up r, outleft := fun r => up r }] else []) }
      else none
  else none

/-- Writing rows into `right_ends`. -/
def write (R : Nat → Fin P → Int) (rows : List (Nat × (Fin P → Int))) : Nat → Fin P → Int :=
  rows.foldl (fun R w => Function.update R w.1 w.2) R

/-- The outer loop, psort.h:77-208, with a bound on the number of rounds; `none` is a failed assertion, a write past the end of the vectors of
length `size - 1`, or rounds exhausted. -/
def rounds (S : StdSort) (lt : α → α → Bool) (nReal : Nat) (junk : Nat → Fin P → α) (D : Fin P → List α) (targets : Nat → Int) :
    Nat → List (Active P) → (Nat → Fin P → Int) → Option (Nat → Fin P → Int)
  | _, [], R => some R
  | 0, _ :: _, _ => none
  | n + 1, act, R => (act.mapM (splitOne S lt nReal (junk n) D targets)).bind fun res =>
      let next := res.flatMap (·.next)
      if next.length ≤ P - 1 then rounds S lt nReal junk D targets n next (write R (res.flatMap (·.rows))) else none

/-- `n_real`, psort.h:48-53: the number of processes before the first with nothing. -/
def nReal (dist : Fin P → Int) : Nat := ((List.finRange P).takeWhile fun r => decide (dist r ≠ 0)).length

/-- `targets`, psort.h:59-61: the partial sums of `dist` without the last. -/
def targets (dist : Fin P → Int) (s : Nat) : Int := ∑ r : Fin P, if r.val ≤ s then dist r else 0

/-- `Split::split`, psort.h:33-209; `right_ends` is zero before. `ms_perm_v.at(0)` throws when `n_real` is zero. -/
def split (S : StdSort) (lt : α → α → Bool) (junk : Nat → Fin P → α) (D : Fin P → List α) (dist : Fin P → Int) (fuel : Nat) :
    Option (Nat → Fin P → Int) :=
  let R : Nat → Fin P → Int := Function.update (fun _ _ => 0) P dist
  if nReal dist = 0 then none
  else rounds S lt (nReal dist) junk D (targets dist) fuel
    [{ tFirst := 0, tLast := P - 1, dFirst := fun _ => 0, dLast := fun r => (D r).length, subdist := dist, outleft := fun _ => 0 }] R

/-- The block process `r` sends to process `i`: `send_counts[i]` elements from `send_disps[i]`, psort.h:271-281 and 298. -/
def block (D : Fin P → List α) (R : Nat → Fin P → Int) (r i : Fin P) : List α :=
  ((D r).drop (∑ j : Fin P, if j < i then R (j + 1) r - R j r else 0).toNat).take (R (i + 1) r - R i r).toNat

/-- `psort` after the local sort, psort.h:249-322. `none`: a failed assertion, an exception, or a negative count handed to `MPI_Alltoallv`. -/
def psortSorted (S : StdSort) (lt : α → α → Bool) (junk : Nat → Fin P → α) (D : Fin P → List α) (dist : Fin P → Int) (fuel : Nat) :
    Option (Fin P → List α) :=
  if P = 1 then some D
  else (split S lt junk D dist fuel).bind fun R =>
    if (∀ i r : Fin P, R i r ≤ R (i + 1) r) ∧ ∀ i : Fin P, ∑ r : Fin P, (R (i + 1) r - R i r) = (D i).length then
      some fun i => S.run lt ((List.finRange P).flatMap fun r => block D R r i)
    else none

/-- `psort`, psort.h:227-322; `fuel` bounds the number of rounds of the search. -/
def psort (S : StdSort) (lt : α → α → Bool) (junk : Nat → Fin P → α) (vec : Fin P → List α) (dist : Fin P → Int) (fuel : Nat) :
    Option (Fin P → List α) :=
  psortSorted S lt junk (fun r => S.run lt (vec r)) dist fuel

end FleCSPH.Psort
