import Verif.Model.Psort
import Verif.Model.Distribute
import Verif.Spec.Exchange
/-!
Model of the sample sort `tree_colorer::mpi_qsort`, mpisph/tree_colorer.h:110-199 and 503-603. A process is an index `r : Fin P`; the exchange is
`Exchange.deliver`, what C21 proves of `mpi_alltoallv_p2p`. Sampling positions are computed in exact arithmetic instead of `double`.
-/
namespace FleCSPH.Qsort
open Distribute Psort Exchange

variable {β : Type} {P : Nat}

/-- The loop of tree_colorer.h:142-156 over the keys, which counts how many go to each process: stay with the current process while the key lies
between its splitters, otherwise go to the next one and look at the same key again. `none`: `cur_proc` passes the last process, where the code
reads past the end of the splitters. -/
def bucket (P : Nat) (split : Nat → Nat) : List Nat → Nat → (Nat → Nat) → Option (Nat → Nat)
  | [], _, scount => some scount
  | k :: keys, cur, scount =>
    if cur < P then
      if k ≥ split cur ∧ k < split (cur + 1) then bucket P split keys cur (Function.update scount cur (scount cur + 1))
      else bucket P split (k :: keys) (cur + 1) scount
    else none
  termination_by keys cur => (keys.length, P - cur)

/-- `nsample`, tree_colorer.h:516-522. -/
def nsample (maxn nvalues total : Nat) : Nat := min nvalues (maxn * nvalues / total)

/-- The samples of one process, tree_colorer.h:524-528; `none`: a position outside of the vector. -/
def samples (item : β → Item) (maxn total : Nat) (bodies : List β) : Option (List Item) :=
  (List.range (nsample maxn bodies.length total)).mapM fun i =>
    (bodies[bodies.length * (i + 1) / (nsample maxn bodies.length total + 1)]?).map item

/-- The splitters the master chooses, tree_colorer.h:545-597, as a function of the index; `none`: the receive buffer is too small, a position
outside of the samples, or a failed assertion. -/
def splitters (S : StdSort) (P kmin kmax total : Nat) (all : List Item) : Option (Nat → Nat) :=
  let nkeys := min total all.length
  if all.length ≤ nkeys then
    let sorted := S.run less all
    ((List.range (P - 1)).mapM fun i =>
      (sorted[nkeys / P * (i + 1)]?).bind fun x => if kmin < x.key ∧ x.key < kmax then some x.key else none).map fun l =>
        fun j => if j = 0 then kmin else if j = P then kmax else l.getD (j - 1) 0
  else none

/-- `mpi_qsort`, tree_colorer.h:110-199, for all processes; `maxn` is `maxnsamples`. -/
def qsort (S : StdSort) (item : β → Item) (kmin kmax maxn total : Nat) (bodies : Fin P → List β) : Option (Fin P → List β) :=
  let lt := fun a b => less (item a) (item b)
  let D := fun r => S.run lt (bodies r)
  if P = 1 then some D
  else ((List.finRange P).mapM fun r => samples item maxn total (D r)).bind fun smp =>
    (splitters S P kmin kmax total smp.flatten).bind fun split =>
      ((List.finRange P).mapM fun r => bucket P split ((D r).map fun b => (item b).key) 0 fun _ => 0).map fun counts =>
        fun r => S.run lt (deliver (fun q i => (counts.getD q.val fun _ => 0) i.val) D r)

end FleCSPH.Qsort
