import Verif.Model.Exchange
import Verif.Spec.Exchange
import Mathlib.Tactic
/-! C21: the exchange primitives deliver every block to its destination in order. -/
namespace FleCSPH
open Exchange

namespace Exchange
variable {P sz : Nat}

theorem bytes_length (l : List (Obj sz)) : (bytes l).length = l.length * sz := by
  unfold bytes
  induction l with
  | nil => simp
  | cons a l ih => rw [List.flatMap_cons, List.length_append, ih, List.length_ofFn, List.length_cons]; ring

theorem bytes_append (l m : List (Obj sz)) : bytes (l ++ m) = bytes l ++ bytes m := by simp [bytes]

theorem bytes_drop (l : List (Obj sz)) (n : Nat) : bytes (l.drop n) = (bytes l).drop (n * sz) := by
  by_cases h : n ≤ l.length
  · have hl : (bytes (l.take n)).length = n * sz := by rw [bytes_length, List.length_take, min_eq_left h]
    have he : bytes l = bytes (l.take n) ++ bytes (l.drop n) := by rw [← bytes_append, List.take_append_drop]
    rw [he, ← hl, List.drop_left]
  · rw [List.drop_of_length_le (by omega), List.drop_of_length_le]
    · rfl
    · rw [bytes_length]; exact Nat.mul_le_mul_right _ (by omega)

theorem bytes_take (l : List (Obj sz)) (n : Nat) : bytes (l.take n) = (bytes l).take (n * sz) := by
  by_cases h : n ≤ l.length
  · have hl : (bytes (l.take n)).length = n * sz := by rw [bytes_length, List.length_take, min_eq_left h]
    have he : bytes l = bytes (l.take n) ++ bytes (l.drop n) := by rw [← bytes_append, List.take_append_drop]
    rw [he, ← hl, List.take_left]
  · rw [List.take_of_length_le (by omega), List.take_of_length_le]
    rw [bytes_length]; exact Nat.mul_le_mul_right _ (by omega)

theorem isInt_nat (n : Nat) (h : n < 2 ^ 31) : isInt (n : Int) := by
  have : (n : Int) < 2 ^ 31 := by exact_mod_cast h
  exact ⟨le_trans (by norm_num) (Int.natCast_nonneg n), this⟩

theorem scale_eq (x : Nat) (h : x * sz < 2 ^ 31) : scale sz x = ((x * sz : Nat) : Int) := by
  unfold scale
  push_cast
  have : (x : Int) * sz < 2 ^ 31 := by exact_mod_cast h
  have h0 : 0 ≤ (x : Int) * sz := by positivity
  rw [Int.bmod_eq_of_le] <;> norm_num <;> omega

theorem offset_nat (c : Fin P → Nat) (i : Nat) : offset (fun j => (c j : Int)) i = ((∑ j : Fin P, if j.val < i then c j else 0 : Nat) : Int) := by
  unfold offset
  push_cast
  rfl

theorem prefix_le (c : Fin P → Nat) (i : Nat) : (∑ j : Fin P, if j.val < i then c j else 0) ≤ ∑ j, c j :=
  Finset.sum_le_sum fun j _ => by split_ifs <;> omega

theorem prefix_all (c : Fin P → Nat) : (∑ j : Fin P, if j.val < P then c j else 0) = ∑ j, c j :=
  Finset.sum_congr rfl fun j _ => by rw [if_pos j.isLt]

theorem prefix_succ (c : Fin P → Nat) (i : Fin P) :
    (∑ j : Fin P, if j.val < i.val + 1 then c j else 0) = (∑ j : Fin P, if j.val < i.val then c j else 0) + c i := by
  have h1 : ∀ j : Fin P, (if j.val < i.val + 1 then c j else 0) = (if j.val < i.val then c j else 0) + if j = i then c j else 0 := by
    intro j
    by_cases h : j = i
    · subst h; simp
    · have : j.val ≠ i.val := fun hc => h (Fin.ext hc)
      by_cases h2 : j.val < i.val
      · rw [if_pos (by omega), if_pos h2, if_neg h, add_zero]
      · rw [if_neg (by omega), if_neg h2, if_neg h]
  simp only [h1, Finset.sum_add_distrib, Finset.sum_ite_eq', Finset.mem_univ, if_true]

/-- Writing blocks one behind the other fills the memory with them. -/
theorem write_all (B : Fin P → List Byte) (f : List Byte → Fin P → Option (List Byte))
    (hf : ∀ mem i, f mem i = writeAt mem ((∑ j : Fin P, if j.val < i.val then (B j).length else 0 : Nat) : Int) (B i))
    (mem : List Byte) (hmem : mem.length = ∑ i, (B i).length) (k : Nat) (hk : k ≤ P) :
    ((List.finRange P).take k).foldlM f mem =
      some (((List.finRange P).take k).flatMap B ++ mem.drop (∑ j : Fin P, if j.val < k then (B j).length else 0)) ∧
    (((List.finRange P).take k).flatMap B).length = ∑ j : Fin P, if j.val < k then (B j).length else 0 := by
  induction k with
  | zero => simp
  | succ k ih =>
    obtain ⟨h1, h2⟩ := ih (by omega)
    have ht : (List.finRange P).take (k + 1) = (List.finRange P).take k ++ [⟨k, by omega⟩] := by
      rw [List.take_succ_eq_append_getElem (by simpa using hk)]
      simp
    have hs := prefix_succ (fun j => (B j).length) ⟨k, by omega⟩
    dsimp only at hs
    have hle := prefix_le (fun j => (B j).length) (k + 1)
    rw [ht, List.flatMap_append, List.foldlM_append, h1]
    set pre := ((List.finRange P).take k).flatMap B with hpre
    set n := ∑ j : Fin P, if j.val < k then (B j).length else 0 with hn
    have hb : (B ⟨k, by omega⟩).length ≤ (mem.drop n).length := by rw [List.length_drop]; omega
    refine ⟨?_, ?_⟩
    · have hfk : f (pre ++ mem.drop n) ⟨k, by omega⟩ = writeAt (pre ++ mem.drop n) (n : Int) (B ⟨k, by omega⟩) := hf _ _
      simp only [Option.bind_eq_bind, Option.bind_some, List.foldlM_cons, List.foldlM_nil, hfk]
      have hcond : (n : Int) + (B ⟨k, by omega⟩).length ≤ ((pre ++ mem.drop n).length : Nat) := by
        rw [List.length_append, h2]
        push_cast
        omega
      unfold writeAt
      rw [if_pos ⟨by positivity, hcond⟩]
      simp only [Option.bind_some, Option.pure_def, Option.some.injEq, Int.toNat_natCast]
      rw [List.take_append_of_le_length h2.symm.le, List.take_of_length_le h2.le]
      rw [List.drop_append, List.drop_of_length_le (by rw [h2]; exact Nat.le_add_right _ _), List.nil_append, h2, List.drop_drop, hs]
      simp only [List.flatMap_cons, List.flatMap_nil, List.append_nil]
      congr 3
      omega
    · rw [List.length_append, h2, hs]
      simp

end Exchange

/-- If no process sends or receives 2^31 bytes or more, and every process has at least the elements it announces, then `mpi_alltoallv` and
`mpi_alltoallv_p2p` leave in the receive buffer of process `r` the blocks addressed to `r`, in the order of the processes, whatever was in the
memory before. -/
theorem C21_alltoallv_partial {P sz : Nat} (count : Fin P → Fin P → Nat) (buffer : Fin P → List (Obj sz)) (init : Fin P → Nat → List Byte)
    (hinit : ∀ r n, (init r n).length = n) (hsz : 0 < sz)
    (hbuf : ∀ q, ∑ i, count q i ≤ (buffer q).length)
    (hsend : ∀ q, (∑ i, count q i) * sz < 2 ^ 31) (hrecv : ∀ r, (∑ q, count q r) * sz < 2 ^ 31) (r : Fin P) :
    alltoallv sz (fun q i => (count q i : Int)) buffer init r = some (bytes (deliver count buffer r)) := by
  have hone : ∀ (c : Fin P → Nat), (∑ i, c i) * sz < 2 ^ 31 → ∀ n, n ≤ ∑ i, c i → isInt (n : Int) ∧ scale sz n = ((n * sz : Nat) : Int) := by
    intro c hc n hn
    have h1 : n * sz ≤ (∑ i, c i) * sz := Nat.mul_le_mul_right _ hn
    refine ⟨?_, scale_eq n (by omega)⟩
    have h2 : n * 1 ≤ n * sz := Nat.mul_le_mul_left _ hsz
    exact isInt_nat n (by omega)
  have hle : ∀ (c : Fin P → Nat) i, c i ≤ ∑ i, c i := fun c i => Finset.single_le_sum (fun _ _ => Nat.zero_le _) (Finset.mem_univ i)
  have hS := fun q => hone (count q) (hsend q)
  have hR := fun q => hone (fun i => count i q) (hrecv q)
  unfold alltoallv
  dsimp only
  rw [if_pos (by
    intro q
    refine ⟨fun i => ?_, fun i => ?_, ?_⟩
    · rw [offset_nat]; exact ((hS q) _ (prefix_le _ _)).1
    · rw [offset_nat]; exact ((hR q) _ (prefix_le _ _)).1
    · rw [offset_nat]; positivity)]
  have e1 : ∀ q i, scale sz (count q i : Int) = ((count q i * sz : Nat) : Int) := fun q i => ((hS q) _ (hle _ i)).2
  have e2 : ∀ q (i : Fin P), scale sz (offset (fun j => (count q j : Int)) i) = (((∑ j : Fin P, if j.val < i.val then count q j else 0) * sz : Nat) : Int) := by
    intro q i
    rw [offset_nat]; exact ((hS q) _ (prefix_le _ _)).2
  have e3 : ∀ q (i : Fin P), scale sz (offset (fun j => (count j q : Int)) i) = (((∑ j : Fin P, if j.val < i.val then count j q else 0) * sz : Nat) : Int) := by
    intro q i
    rw [offset_nat]; exact ((hR q) _ (prefix_le _ _)).2
  rw [if_pos (by
    intro q i
    simp only [e1, e2, e3]
    refine ⟨?_, ?_, ?_, ?_⟩ <;> positivity)]
  -- the blocks
  have hlen : ∀ q, (blockFor (count q) (buffer q) r).length = count q r := by
    intro q
    unfold blockFor
    rw [List.length_take, List.length_drop]
    have h1 := hbuf q
    have h2 := prefix_succ (count q) r
    have h3 := prefix_le (count q) (r.val + 1)
    simp only [Fin.lt_def]
    omega
  have hmem : (init r ((offset (fun i => (count i r : Int)) P).toNat * sz)).length = ∑ i, (bytes (blockFor (count i) (buffer i) r)).length := by
    rw [hinit, offset_nat, Int.toNat_natCast, prefix_all, Finset.sum_mul]
    refine Finset.sum_congr rfl fun q _ => ?_
    rw [bytes_length, hlen]
  have key := write_all (fun q => bytes (blockFor (count q) (buffer q) r)) (fun mem i =>
    if scale sz (count i r : Int) = scale sz (count i r : Int) then
      (readAt (bytes (buffer i)) (scale sz (offset (fun j => (count i j : Int)) r)) (scale sz (count i r : Int))).bind fun b =>
        writeAt mem (scale sz (offset (fun j => (count j r : Int)) i)) b
    else none) (by
      intro mem i
      rw [if_pos rfl, e1, e2, e3]
      have h1 := hbuf i
      have h2 := prefix_succ (count i) r
      have h3 := prefix_le (count i) (r.val + 1)
      have hr : readAt (bytes (buffer i)) (((∑ j : Fin P, if j.val < r.val then count i j else 0) * sz : Nat) : Int) ((count i r * sz : Nat) : Int) =
          some (bytes (blockFor (count i) (buffer i) r)) := by
        unfold readAt
        rw [if_pos ⟨by positivity, by positivity, by
          rw [bytes_length]
          have : ((∑ j : Fin P, if j.val < r.val then count i j else 0) + count i r) * sz ≤ (buffer i).length * sz :=
            Nat.mul_le_mul_right _ (by omega)
          rw [add_mul] at this
          exact_mod_cast this⟩]
        rw [Int.toNat_natCast, Int.toNat_natCast]
        unfold blockFor
        rw [bytes_take, bytes_drop]
        simp only [Fin.lt_def]
      rw [hr, Option.bind_some]
      congr 1
      simp only [bytes_length, hlen]
      rw [Finset.sum_mul]
      norm_cast
      refine Finset.sum_congr rfl fun j _ => ?_
      split_ifs <;> simp) _ hmem P le_rfl
  have hfr : (List.finRange P).take P = List.finRange P := List.take_of_length_le (by simp)
  rw [hfr] at key
  unfold receive
  rw [key.1]
  have hdrop : (init r ((offset (fun i => (count i r : Int)) P).toNat * sz)).drop
      (∑ j : Fin P, if j.val < P then (bytes (blockFor (count j) (buffer j) r)).length else 0) = [] := by
    apply List.drop_of_length_le
    rw [hmem, prefix_all (fun j => (bytes (blockFor (count j) (buffer j) r)).length)]
  rw [hdrop, List.append_nil]
  unfold deliver bytes
  rw [List.flatMap_assoc]

/-- If all contributions together have less than 2^31 bytes, `mpi_allgatherv` leaves in every receive buffer all contributions in the order of
the processes. -/
theorem C21_allgatherv_partial {P sz : Nat} (send : Fin P → List (Obj sz)) (init : Fin P → Nat → List Byte)
    (hinit : ∀ r n, (init r n).length = n) (hsz : 0 < sz) (hfit : (∑ i, (send i).length) * sz < 2 ^ 31) (r : Fin P) :
    allgatherv sz send init r = some (bytes ((List.finRange P).flatMap send)) := by
  have hle : ∀ i, (send i).length ≤ ∑ i, (send i).length := fun i => Finset.single_le_sum (f := fun i => (send i).length) (fun _ _ => Nat.zero_le _) (Finset.mem_univ i)
  have hbyte : ∀ i, (send i).length * sz < 2 ^ 31 := fun i => lt_of_le_of_lt (Nat.mul_le_mul_right _ (hle i)) hfit
  have e1 : ∀ i, scale sz ((send i).length : Int) = (((send i).length * sz : Nat) : Int) := fun i => scale_eq _ (hbyte i)
  unfold allgatherv
  dsimp only
  simp only [e1]
  rw [if_pos (by
    refine ⟨fun i => ?_, fun i => ?_, fun i => by positivity⟩
    · have h1 := hbyte i
      have h2 : (send i).length * 1 ≤ (send i).length * sz := Nat.mul_le_mul_left _ hsz
      exact isInt_nat _ (by omega)
    · rw [offset_nat]
      have h1 := prefix_le (fun j => (send j).length * sz) i
      rw [← Finset.sum_mul] at h1
      exact isInt_nat _ (by omega))]
  have hmem : (init r ((∑ i, (send i).length) * sz)).length = ∑ i, (bytes (send i)).length := by
    rw [hinit, Finset.sum_mul]
    exact Finset.sum_congr rfl fun q _ => (bytes_length _).symm
  have key := write_all (fun q => bytes (send q)) (fun mem i =>
    if (((send i).length * sz : Nat) : Int) = (((send i).length * sz : Nat) : Int) then
      (readAt (bytes (send i)) 0 (((send i).length * sz : Nat) : Int)).bind fun b =>
        writeAt mem (offset (fun j => (((send j).length * sz : Nat) : Int)) i) b
    else none) (by
      intro mem i
      rw [if_pos rfl]
      have hr : readAt (bytes (send i)) 0 (((send i).length * sz : Nat) : Int) = some (bytes (send i)) := by
        unfold readAt
        rw [if_pos ⟨le_rfl, by positivity, by rw [bytes_length]; simp⟩, Int.toNat_natCast, List.take_of_length_le (by simp [bytes_length])]
        rfl
      rw [hr, Option.bind_some, offset_nat]
      simp only [bytes_length]) _ hmem P le_rfl
  have hfr : (List.finRange P).take P = List.finRange P := List.take_of_length_le (by simp)
  rw [hfr] at key
  unfold receive
  rw [key.1]
  have hdrop : (init r ((∑ i, (send i).length) * sz)).drop (∑ j : Fin P, if j.val < P then (bytes (send j)).length else 0) = [] := by
    apply List.drop_of_length_le
    rw [hmem, prefix_all (fun j => (bytes (send j)).length)]
  rw [hdrop, List.append_nil]
  unfold bytes
  rw [List.flatMap_assoc]

/-- The variant with one buffer for each process, when nobody sends to itself and every block has less than 2^31 bytes: `recvbuffer[i]` of
process `r` is what process `i` has for `r`. -/
theorem C21_each_partial {P sz : Nat} (sendbuffer : Fin P → Fin P → List (Obj sz)) (init : Fin P → Fin P → Nat → List Byte)
    (hinit : ∀ r i n, (init r i n).length = n) (hsz : 0 < sz) (hself : ∀ q, sendbuffer q q = [])
    (hfit : ∀ q i, (sendbuffer q i).length * sz < 2 ^ 31) (r i : Fin P) :
    alltoallvEach sz sendbuffer init r i = some (bytes (sendbuffer i r)) := by
  have e1 : ∀ q i, scale sz ((sendbuffer q i).length : Int) = (((sendbuffer q i).length * sz : Nat) : Int) := fun q i => scale_eq _ (hfit q i)
  unfold alltoallvEach
  dsimp only
  simp only [e1]
  rw [if_pos (by
    refine ⟨fun q i => ⟨?_, by positivity⟩, fun q => by simp [hself]⟩
    have h1 := hfit q i
    have h2 : (sendbuffer q i).length * 1 ≤ (sendbuffer q i).length * sz := Nat.mul_le_mul_left _ hsz
    exact isInt_nat _ (by omega))]
  have hb := bytes_length (sendbuffer i r)
  have hi := hinit r i ((sendbuffer i r).length * sz)
  split_ifs with h
  · unfold readAt
    rw [if_pos ⟨le_rfl, by positivity, by rw [hb]; simp⟩, Int.toNat_natCast, ← hb, Option.bind_some]
    unfold writeAt
    simp only [Int.toNat_zero, List.drop_zero, List.take_length]
    rw [if_pos ⟨le_rfl, by rw [hb, hi]; simp⟩]
    simp only [List.take_zero, List.nil_append, Nat.zero_add, Option.some.injEq]
    rw [List.drop_of_length_le (by rw [hb, hi]), List.append_nil]
  · have h0 : (sendbuffer i r).length = 0 := by
      by_cases hri : r = i
      · subst hri; simp [hself]
      · by_contra hc
        refine h ⟨?_, hri⟩
        have : 0 < (sendbuffer i r).length * sz := Nat.mul_pos (Nat.pos_of_ne_zero hc) hsz
        exact_mod_cast this.ne'
    have hnil := List.length_eq_zero_iff.1 h0
    rw [h0, Nat.zero_mul] at hi
    rw [h0, Nat.zero_mul, List.length_eq_zero_iff.1 hi, hnil]
    rfl

/-- Beyond that the data can be lost without any error: a block of exactly 2^32 bytes sent by process 0 to process 1, with every assertion passed,
leaves the receive buffer of process 1 as it was. -/
theorem C21_violated (sz n : Nat) (hn : n * sz = 2 ^ 32) (hint : n < 2 ^ 31) (buffer : Fin 2 → List (Obj sz)) (init : Fin 2 → Nat → List Byte) :
    alltoallv sz (fun q i : Fin 2 => if q = 0 ∧ i = 1 then (n : Int) else 0) buffer init 1 = some (init 1 (n * sz)) := by
  have hs : scale sz (n : Int) = 0 := by
    unfold scale
    have : (n : Int) * sz = 2 ^ 32 := by exact_mod_cast hn
    rw [this]; decide
  have hs0 : scale sz 0 = 0 := by simp [scale]
  have hint' : (n : Int) < 2 ^ 31 := by exact_mod_cast hint
  have hi0 : isInt 0 := by decide
  have hin : isInt (n : Int) := isInt_nat n hint
  have o : ∀ (c : Fin 2 → Int) (i : Nat), offset c i = (if 0 < i then c 0 else 0) + if 1 < i then c 1 else 0 := by
    intro c i; unfold offset; rw [Fin.sum_univ_two]; rfl
  unfold alltoallv
  dsimp only
  rw [if_pos (by
    intro q
    refine ⟨fun i => ?_, fun i => ?_, ?_⟩
    · rw [o]; fin_cases q <;> fin_cases i <;> simp [hi0, hin]
    · rw [o]; fin_cases q <;> fin_cases i <;> simp [hi0, hin]
    · rw [o]; fin_cases q <;> simp)]
  rw [if_pos (by
    intro q i
    simp only [o]
    fin_cases q <;> fin_cases i <;> simp [hs, hs0])]
  have hm : (offset (fun i : Fin 2 => if i = 0 ∧ (1 : Fin 2) = 1 then (n : Int) else 0) 2).toNat = n := by
    rw [o]; simp
  rw [hm]
  have hrd : ∀ l : List Byte, readAt l 0 0 = some [] := by
    intro l; unfold readAt; rw [if_pos ⟨le_rfl, le_rfl, by simp⟩]; rfl
  have hwr : ∀ l : List Byte, writeAt l 0 [] = some l := by
    intro l; unfold writeAt; rw [if_pos ⟨le_rfl, by simp⟩]; simp
  unfold receive
  simp only [o, List.finRange, List.ofFn_succ, List.ofFn_zero, List.foldlM_cons, List.foldlM_nil]
  simp [hs, hs0, hrd, hwr]

/-- Non-vacuity of the violation (objects of 256 bytes) and of the guarantee: three processes with different blocks. -/
example : 2 ^ 24 * 256 = 2 ^ 32 ∧ 2 ^ 24 < 2 ^ 31 := by norm_num
example : alltoallv 1 (fun q i : Fin 3 => ((q.val + i.val : Nat) : Int)) (fun q => List.replicate 9 (fun _ => if q = 0 then 7 else 8)) (fun _ n => List.replicate n 0) 1
    = some (bytes (deliver (fun q i : Fin 3 => q.val + i.val) (fun q => List.replicate 9 (fun _ : Fin 1 => if q = 0 then 7 else 8)) 1)) :=
  C21_alltoallv_partial (P := 3) (sz := 1) (fun q i => q.val + i.val) (fun q => List.replicate 9 (fun _ => if q = 0 then 7 else 8)) _ (by simp) (by decide)
    (by simp only [List.length_replicate]; decide) (by decide) (by decide) 1

end FleCSPH
