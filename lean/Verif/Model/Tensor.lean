import Verif.Model.TensorTables
/-!
Model of the storage of include/tensor.h: sizes, multi-indices, named indices and the compound assignments. Integers are unbounded; a failed assertion, an access
outside of `data_` or an instantiation the compiler refuses is `none`.
-/
namespace FleCSPH.Tensor

/-- `pascal_number` of a tensor of the given rank, tensor.h:865-869, and 422-425 for rank 0; `RANK` is tensor.h:495. -/
def pascalNumber : Nat → Nat → Nat
  | 0, _ => 1
  | rank + 1, i => i * pascalNumber rank (i + 1) / (rank + 1)

/-- `size()` of a symmetric tensor, tensor.h:486-492. -/
def symmetricSize (rank D : Nat) : Nat := pascalNumber rank D

/-- `size()` of a generic tensor with the given dimensions, tensor.h:486-488, and 414-416 for rank 0. -/
def genericSize : List Nat → Nat
  | [] => 1
  | D :: Ds => D * genericSize Ds

/-- `symindx2`, tensor.h:890-893. -/
def symindx2 (i j : Nat) : Nat := if i > j then i * (i + 1) / 2 + j else j * (j + 1) / 2 + i

/-- `symindx3`, tensor.h:895-902. -/
def symindx3 (i j k : Nat) : Nat :=
  if i ≥ j ∧ i ≥ k then i * (i + 1) * (i + 2) / 6 + symindx2 j k
  else if j ≥ i ∧ j ≥ k then j * (j + 1) * (j + 2) / 6 + symindx2 i k
  else k * (k + 1) * (k + 2) / 6 + symindx2 i j

/-- `symindx4`, tensor.h:904-915. -/
def symindx4 (i j k l : Nat) : Nat :=
  if i ≥ j ∧ i ≥ k ∧ i ≥ l then i * (i + 1) * (i + 2) * (i + 3) / 24 + symindx3 j k l
  else if j ≥ i ∧ j ≥ k ∧ j ≥ l then j * (j + 1) * (j + 2) * (j + 3) / 24 + symindx3 i k l
  else if k ≥ i ∧ k ≥ j ∧ k ≥ l then k * (k + 1) * (k + 2) * (k + 3) / 24 + symindx3 i j l
  else l * (l + 1) * (l + 2) * (l + 3) / 24 + symindx3 i j k

/-- `multiindex` of a symmetric tensor, tensor.h:871-888: defined for ranks 2, 3 and 4. -/
def symmetricIndex : List Nat → Option Nat
  | [i, j] => some (symindx2 i j)
  | [i, j, k] => some (symindx3 i j k)
  | [i, j, k, l] => some (symindx4 i j k l)
  | _ => none

/-- `multiindex` of a generic tensor, tensor.h:871-876, and 419-421 for rank 0. -/
def genericIndex : List Nat → List Nat → Nat
  | D :: Ds, i :: is => D * genericIndex Ds is + i
  | _, _ => 0

/-- `operator[]` with the value of a named index, tensor.h:518-862: the assertion `ind < bound`, the assertion `remap[ind] >= 0`, and the position of the
element, which must lie inside of `data_`. -/
def named (table : Option (Nat × List Int)) (size ind : Nat) : Option Nat :=
  match table with
  | none => none
  | some (bound, remap) =>
    if ind < bound then
      match remap[ind]? with
      | some (.ofNat slot) => if slot < size then some slot else none
      | _ => none
    else none

/-- `rank`-dependent choice of the names, tensor.h:518, 577, 666. -/
def names : Nat → List (List Axis × Nat)
  | 2 => rank2Names
  | 3 => rank3Names
  | 4 => rank4Names
  | _ => []

/-- `rank`-dependent choice of the symmetric table. -/
def symmetricTable : Nat → Nat → Option (Nat × List Int)
  | 2 => symmetric2
  | 3 => symmetric3
  | 4 => symmetric4
  | _ => fun _ => none

/-- `rank`-dependent choice of the generic table; the code looks at the first dimension only. -/
def genericTable : Nat → Nat → Option (Nat × List Int)
  | 2 => generic2
  | 3 => generic3
  | 4 => generic4
  | _ => fun _ => none

/-- A memory with tensors of `n` components at the addresses `A`. -/
abbrev Memory (A T : Type) (n : Nat) := A → Fin n → T

variable {A T : Type} {n : Nat} [DecidableEq A]

/-- The loop of `def_operator`, tensor.h:939-949: component after component, reading the right hand side from the memory as it is then. -/
def loopFrom (op : T → T → T) (a b : A) : List (Fin n) → Memory A T n → Memory A T n
  | [], m => m
  | i :: is, m => loopFrom op a b is (Function.update m a (Function.update (m a) i (op (m a i) (m b i))))

/-- `a op= b` for tensors, tensor.h:939-949: nothing happens when both are the same object. -/
def compound (op : T → T → T) (a b : A) (m : Memory A T n) : Memory A T n :=
  if a ≠ b then loopFrom op a b (List.finRange n) m else m

/-- The loop of `def_operator_type`, tensor.h:954-962; the scalar was passed by value. -/
def scaleFrom (op : T → T → T) (a : A) (val : T) : List (Fin n) → Memory A T n → Memory A T n
  | [], m => m
  | i :: is, m => scaleFrom op a val is (Function.update m a (Function.update (m a) i (op (m a i) val)))

/-- `a op= val` for a scalar, tensor.h:954-962. -/
def compoundScalar (op : T → T → T) (a : A) (val : T) (m : Memory A T n) : Memory A T n := scaleFrom op a val (List.finRange n) m

/-- `a op b` for tensors, tensor.h:1025-1031 and 1044-1050: a copy `tmp` of `a` (a new object), then `tmp op= b`; the value of `tmp` is the result. -/
def binary (op : T → T → T) (tmp a b : A) (m : Memory A T n) : Fin n → T :=
  compound op tmp b (Function.update m tmp (m a)) tmp

/-- `a = b`, tensor.h:469-476. -/
def assign (a b : A) (m : Memory A T n) : Memory A T n :=
  if a ≠ b then loopFrom (fun _ y => y) a b (List.finRange n) m else m

/-- `operator==`, tensor.h:1137-1144: the first difference decides. -/
def equal [DecidableEq T] (a b : Fin n → T) : Bool := (List.finRange n).all fun i => !decide (a i ≠ b i)

end FleCSPH.Tensor
