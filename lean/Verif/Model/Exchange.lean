import Mathlib.Data.Fintype.BigOperators
import Mathlib.Algebra.BigOperators.Fin
import Mathlib.Data.List.FinRange
/-!
Model of the exchange primitives of mpisph/utils.h. A process is an index `r : Fin P`. An element of type `M` is the list of its `sizeof(M)` bytes;
`int` has 32 bits: a sum which leaves it is undefined behaviour (`none`), the product with `sizeof(M)`, computed in `size_t` and stored in an
`int`, is reduced modulo 2^32.
-/
namespace FleCSPH.Exchange

abbrev Byte := Fin 256

/-- An object of `sz` bytes. -/
abbrev Obj (sz : Nat) := Fin sz → Byte

/-- The memory of a vector. -/
def bytes {sz : Nat} (l : List (Obj sz)) : List Byte := l.flatMap List.ofFn

/-- `x *= sizeof(M)` for an `int x`. -/
def scale (sz : Nat) (x : Int) : Int := Int.bmod (x * sz) (2 ^ 32)

/-- An `int` value. -/
def isInt (x : Int) : Prop := -2 ^ 31 ≤ x ∧ x < 2 ^ 31

instance (x : Int) : Decidable (isInt x) := inferInstanceAs (Decidable (_ ∧ _))

variable {P : Nat}

/-- `std::partial_sum` with a zero put in front, utils.h:106-114: entry `i` of the offsets. -/
def offset (count : Fin P → Int) (i : Nat) : Int := ∑ j : Fin P, if j.val < i then count j else 0

/-- Every partial sum is an `int`. -/
def sumsFit (count : Fin P → Int) : Prop := ∀ i : Fin (P + 1), isInt (offset count i)

instance (count : Fin P → Int) : Decidable (sumsFit count) := Fintype.decidableForallFintype

/-- `n` bytes at byte `off`; `none`: outside of the memory. -/
def readAt (mem : List Byte) (off n : Int) : Option (List Byte) :=
  if 0 ≤ off ∧ 0 ≤ n ∧ off + n ≤ mem.length then some ((mem.drop off.toNat).take n.toNat) else none

/-- Writing a block at byte `off`; `none`: outside of the memory. -/
def writeAt (mem : List Byte) (off : Int) (block : List Byte) : Option (List Byte) :=
  if 0 ≤ off ∧ off + block.length ≤ mem.length then
    some (mem.take off.toNat ++ block ++ mem.drop (off.toNat + block.length)) else none

/-- What process `r` receives in `MPI_Alltoallv` with byte counts and byte offsets: from every `i` the block `i` addressed to `r`. The counts
must agree; an access outside of a buffer is undefined. -/
def receive (sendMem : Fin P → List Byte) (sendCount sendOff : Fin P → Fin P → Int) (recvCount recvOff : Fin P → Fin P → Int) (r : Fin P)
    (mem : List Byte) : Option (List Byte) :=
  (List.finRange P).foldlM (fun mem i =>
    if sendCount i r = recvCount r i then
      (readAt (sendMem i) (sendOff i r) (sendCount i r)).bind fun b => writeAt mem (recvOff r i) b
    else none) mem

/-- `mpi_alltoallv`, utils.h:89-134, and the first `mpi_alltoallv_p2p`, utils.h:136-185, which sends the same blocks one by one (blocks of zero bytes are not
sent, which makes no difference). `init r n` is the memory of the receive buffer of process `r` after `resize`. The result is the memory of the
receive buffer. -/
def alltoallv (sz : Nat) (sendcount : Fin P → Fin P → Int) (sendbuffer : Fin P → List (Obj sz)) (init : Fin P → Nat → List Byte) (r : Fin P) :
    Option (List Byte) :=
  -- MPI_Alltoall
  let recvcount := fun r i => sendcount i r
  if ∀ q, sumsFit (sendcount q) ∧ sumsFit (recvcount q) ∧ 0 ≤ offset (recvcount q) P then
    let sc := fun q i => scale sz (sendcount q i)
    let rc := fun q i => scale sz (recvcount q i)
    let so := fun q (i : Fin P) => scale sz (offset (sendcount q) i)
    let ro := fun q (i : Fin P) => scale sz (offset (recvcount q) i)
    -- the assertions
    if ∀ q i, 0 ≤ sc q i ∧ 0 ≤ rc q i ∧ 0 ≤ so q i ∧ 0 ≤ ro q i then
      receive (fun q => bytes (sendbuffer q)) sc so rc ro r (init r ((offset (recvcount r) P).toNat * sz))
    else none
  else none

/-- `mpi_allgatherv`, utils.h:46-76. The sums of the byte counts are `int`s; the receive buffer has room for the 64-bit total. A negative count
is refused by MPI. -/
def allgatherv (sz : Nat) (send : Fin P → List (Obj sz)) (init : Fin P → Nat → List Byte) (r : Fin P) : Option (List Byte) :=
  let count : Fin P → Int := fun i => (send i).length
  let cb := fun i => scale sz (count i)
  if (∀ i, isInt (count i)) ∧ sumsFit cb ∧ ∀ i, 0 ≤ cb i then
    receive (fun q => bytes (send q)) (fun q _ => cb q) (fun _ _ => 0) (fun _ i => cb i) (fun _ i => offset cb i) r
      (init r ((∑ i, (send i).length) * sz))
  else none

/-- The second `mpi_alltoallv_p2p`, utils.h:187-227, one buffer for each process: the memory of `recvbuffer[i]` of process `r`. The block for
the process itself is not copied; if it is not empty the code waits for a request which was never set (`none`). -/
def alltoallvEach (sz : Nat) (sendbuffer : Fin P → Fin P → List (Obj sz)) (init : Fin P → Fin P → Nat → List Byte) (r i : Fin P) :
    Option (List Byte) :=
  let sc : Fin P → Fin P → Int := fun q i => scale sz (sendbuffer q i).length
  if (∀ q i, isInt (sendbuffer q i).length ∧ 0 ≤ sc q i) ∧ ∀ q, sc q q = 0 then
    let mem := init r i ((sendbuffer i r).length * sz)
    if sc i r ≠ 0 ∧ r ≠ i then (readAt (bytes (sendbuffer i r)) 0 (sc i r)).bind fun b => writeAt mem 0 b
    else some mem
  else none

/-! ### The point-to-point exchange as a concurrent program -/

/-- State of the loops of `mpi_alltoallv_p2p`, utils.h:166-184: for every process its program counter and the memory of its receive buffer. Counter 0: posting the
non-blocking sends; 2i+1: in iteration `i`, before the receive; 2i+2: in iteration `i`, before the wait; 2P+1: returned. -/
structure Net (P : Nat) (β : Type) where
  pc : Fin P → Nat
  mem : Fin P → β

/-- The byte counts, and which sends complete without the receiver (small messages may be buffered, or not). -/
structure Traffic (P : Nat) where
  count : Fin P → Fin P → Nat
  eager : Fin P → Fin P → Bool

/-- One step of process `r`, utils.h:168-184; `got r i` stores the message from `i`. A receive needs the send to be posted; a wait needs the message
to be received, unless the send is eager. -/
inductive Net.Step {β : Type} (T : Traffic P) (got : Fin P → Fin P → β → β) : Net P β → Net P β → Prop
  | post (s : Net P β) (r : Fin P) (h : s.pc r = 0) : Step T got s { s with pc := Function.update s.pc r 1 }
  | skipRecv (s : Net P β) (r i : Fin P) (h : s.pc r = 2 * i + 1) (hc : T.count i r = 0) :
      Step T got s { s with pc := Function.update s.pc r (2 * i + 2) }
  | recv (s : Net P β) (r i : Fin P) (h : s.pc r = 2 * i + 1) (hc : T.count i r ≠ 0) (hp : 1 ≤ s.pc i) :
      Step T got s { pc := Function.update s.pc r (2 * i + 2), mem := Function.update s.mem r (got r i (s.mem r)) }
  | wait (s : Net P β) (r i : Fin P) (h : s.pc r = 2 * i + 2)
      (hw : T.count r i = 0 ∨ T.eager r i = true ∨ 2 * r.val + 1 < s.pc i) :
      Step T got s { s with pc := Function.update s.pc r (2 * i + 3) }

/-- Runs. -/
inductive Net.Run {β : Type} (T : Traffic P) (got : Fin P → Fin P → β → β) : Net P β → Nat → Net P β → Prop
  | refl (s : Net P β) : Run T got s 0 s
  | step {s t u : Net P β} {n : Nat} (h : Run T got s n t) (h' : Net.Step T got t u) : Run T got s (n + 1) u

end FleCSPH.Exchange
