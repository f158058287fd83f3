import Mathlib.Algebra.Order.Floor.Semiring
import Mathlib.Algebra.Order.Floor.Ring
import Mathlib.Algebra.Order.Field.Basic
import Verif.Model.Key

/-!
Model of `include/tree_topology/filling_curve.h`, class `morton_curve_u` (lines 470-595).

`K` is the field standing for `double` (exact arithmetic). A point is a function from the axis to its coordinate; only the
axes below `dim` are used. Coordinates on the grid are `Nat`.
-/
namespace FleCSPH.Morton
open FleCSPH

variable {K : Type*} [Field K] [LinearOrder K] [IsStrictOrderedRing K] [FloorSemiring K]

/-- One iteration of the loop turning a coordinate into an integer, filling_curve.h:510-516 (Morton) and 273-278
(Hilbert): `min(max_val, static_cast<int_t>((p - min) / scale * 2^max_depth))`.
`none`: division by a zero scale, or the cast of a value outside the range of `int_t`, which is undefined. A value in
`(-1,0)` is truncated to zero. -/
def cellCoord (bits dim : Nat) (lo hi p : K) : Option Nat :=
  let scale := hi - lo
  if scale = 0 then none else
    let x := (p - lo) / scale * (2 : K) ^ Key.maxDepth bits dim
    if x ≤ -1 ∨ (2 : K) ^ bits ≤ x then none else some (Nat.min (2 ^ Key.maxDepth bits dim - 1) ⌊x⌋₊)

/-- The loop over the axes, filling_curve.h:510-516: undefined when one axis is. -/
def cellCoords (bits dim : Nat) (lo hi p : Nat → K) : Option (Nat → Nat) :=
  if (∀ j < dim, (cellCoord bits dim (lo j) (hi j) (p j)).isSome) then
    some fun j => (cellCoord bits dim (lo j) (hi j) (p j)).getD 0
  else none

/-- The inner loop over the axes, filling_curve.h:519-522:
`bit = (coords[j] & 1 << i) >> i; value |= bit << (k * dimension + j)`. -/
def interleaveLevel (bits dim : Nat) (c : Nat → Nat) (i k v : Nat) : Nat :=
  (List.range dim).foldl (fun v j => v ||| ((((c j &&& (1 <<< i)) >>> i) <<< (k * dim + j)) % 2 ^ bits)) v

/-- The outer loop, filling_curve.h:517-524: `k = 0; for(i = max_depth - depth; i < max_depth; ++i) { ...; ++k; }`. -/
def interleave (bits dim : Nat) (c : Nat → Nat) (depth : Nat) : Nat :=
  (List.range depth).foldl
    (fun v k => interleaveLevel bits dim c (Key.maxDepth bits dim - depth + k) k v) (Key.min bits dim)

/-- The constructor from a point and a depth, filling_curve.h:503-525. `none`: assertion `depth <= max_depth_` or an
undefined conversion. -/
def encodeDepth (bits dim : Nat) (lo hi p : Nat → K) (depth : Nat) : Option Nat :=
  if depth ≤ Key.maxDepth bits dim then (cellCoords bits dim lo hi p).map fun c => interleave bits dim c depth else none

/-- The constructor at full depth, filling_curve.h:490-493. -/
def encode (bits dim : Nat) (lo hi p : Nat → K) : Option Nat :=
  encodeDepth bits dim lo hi p (Key.maxDepth bits dim)

/-- The loop of `coordinates`, filling_curve.h:533-539: while `id >> dimension != 0`, move bit `j` of the lowest digit
to bit `d` of `coords[j]`. Returns the coordinates and `d`. -/
def deinterleave (dim : Nat) : Nat → Nat → (Nat → Nat) → Nat → (Nat → Nat) × Nat
  | 0, _, c, d => (c, d)
  | fuel + 1, id, c, d =>
    if id >>> dim ≠ 0 then
      deinterleave dim fuel (id >>> dim) (fun j => c j ||| ((((1 <<< j) &&& id) >>> j) <<< d)) (d + 1)
    else (c, d)

/-- `coordinates`, filling_curve.h:528-547. A word has fewer digits than its value, so `v` iterations suffice
(for `dim ≥ 1`). `none`: division by `m = 2^max_depth - 1 = 0`. -/
def coordinates (bits dim : Nat) (lo hi : Nat → K) (v : Nat) : Option (Nat → K) :=
  let (c, d) := deinterleave dim v v (fun _ => 0) 0
  let m : Nat := 2 ^ Key.maxDepth bits dim - 1
  if m = 0 then none else
    some fun j => lo j + (hi j - lo j) * ((c j <<< (Key.maxDepth bits dim - d) : Nat) : K) / (m : K)

/-- The first loop of `range`, filling_curve.h:566-572: as in `coordinates` but `while(id != root)`.
`none`: the loop does not reach the root (for a word without root marker the C++ loop does not stop). -/
def deinterleaveRoot (dim : Nat) : Nat → Nat → (Nat → Nat) → Nat → Option ((Nat → Nat) × Nat)
  | 0, id, c, d => if id = Key.root then some (c, d) else none
  | fuel + 1, id, c, d =>
    if id ≠ Key.root then
      deinterleaveRoot dim fuel (id >>> dim) (fun j => c j ||| ((((1 <<< j) &&& id) >>> j) <<< d)) (d + 1)
    else some (c, d)

/-- The reduction of one axis, filling_curve.h:575-583: `for(j = d; j > 0; --j)` keep the upper half if bit `j - 1` of
the coordinate is set, the lower half otherwise. -/
def halve (c : Nat) : Nat → K × K → K × K
  | 0, r => r
  | j + 1, r =>
    let nu := (r.1 + r.2) / 2
    if c &&& (1 <<< j) ≠ 0 then halve c j (nu, r.2) else halve c j (r.1, nu)

/-- `range`, filling_curve.h:553-586; per axis the pair (low, high). -/
def range (dim : Nat) (lo hi : Nat → K) (v : Nat) : Option (Nat → K × K) :=
  (deinterleaveRoot dim v v (fun _ => 0) 0).map fun (c, d) j => halve (c j) d (lo j, hi j)

end FleCSPH.Morton
