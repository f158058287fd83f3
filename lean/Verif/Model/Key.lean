/-!
Model of `include/tree_topology/filling_curve.h`, class `filling_curve` (lines 29-210).

A key is an unsigned word of `bits` bits, kept as a `Nat`. `dim` is the template parameter `DIM` (at least 1 in every
instantiation). A failed `assert` is the outcome `none`.
-/
namespace FleCSPH.Key

/-- `max_depth_`, filling_curve.h:45-48. -/
def maxDepth (bits dim : Nat) : Nat := (bits - 1) / dim

/-- `root()`, filling_curve.h:77-79. -/
def root : Nat := 1

/-- `min()`, filling_curve.h:65-67: `int_t(1) << max_depth_ * dimension`, in a word of `bits` bits. -/
def min (bits dim : Nat) : Nat := (1 <<< (maxDepth bits dim * dim)) % 2 ^ bits

/-- The loop of `max()`, filling_curve.h:71-73: `for(i = ...; i < bits_; ++i) id ^= int_t(1) << i`;
`n` is the number of iterations left. -/
def maxLoop (bits : Nat) : Nat → Nat → Nat → Nat
  | 0, _, id => id
  | n + 1, i, id => maxLoop bits n (i + 1) (id ^^^ ((1 <<< i) % 2 ^ bits))

/-- `max()`, filling_curve.h:69-75: start from `~0`, clear the bits above `max_depth_ * dimension`. -/
def max (bits dim : Nat) : Nat :=
  maxLoop bits (bits - (maxDepth bits dim * dim + 1)) (maxDepth bits dim * dim + 1) (2 ^ bits - 1)

/-- The loop of `depth()`, filling_curve.h:90-93: `while(id >>= dimension) ++d`.
For `dim = 0`, which no instantiation uses, the C++ loop would not stop; the model stops at once. -/
def depthLoop (dim id d : Nat) : Nat :=
  if id >>> dim = 0 ∨ dim = 0 then d else depthLoop dim (id >>> dim) (d + 1)
termination_by id
decreasing_by
  rename_i h
  simp only [not_or] at h
  rw [Nat.shiftRight_eq_div_pow] at *
  have h2 : 1 < 2 ^ dim := Nat.one_lt_two_pow h.2
  exact Nat.div_lt_self (Nat.pos_of_ne_zero (fun h0 => h.1 (by simp [h0]))) h2

/-- `depth()`, filling_curve.h:89-95. -/
def depth (dim v : Nat) : Nat := depthLoop dim v 0

/-- `push(bits)`, filling_curve.h:97-101: asserts the digit is below `2^dimension`, shifts within the word, ors. -/
def push (bits dim v b : Nat) : Option Nat :=
  if b < 1 <<< dim then some (((v <<< dim) % 2 ^ bits) ||| b) else none

/-- `pop()`, filling_curve.h:103-106: asserts `depth() > 0`. -/
def pop (dim v : Nat) : Option Nat :=
  if depth dim v > 0 then some (v >>> dim) else none

/-- `pop(d)`, filling_curve.h:133-136. Shifting by at least the word width is undefined behaviour: `none`. -/
def popD (bits dim v d : Nat) : Option Nat :=
  if d * dim < bits then some (v >>> (d * dim)) else none

/-- `last_value()`, filling_curve.h:127-131. -/
def lastValue (dim v : Nat) : Nat := v &&& ((1 <<< dim) - 1)

/-- `pop_value()`, filling_curve.h:118-125: digit and remaining key, asserts `depth() > 0`. -/
def popValue (dim v : Nat) : Option (Nat × Nat) :=
  if depth dim v > 0 then some (v &&& ((1 <<< dim) - 1), v >>> dim) else none

/-- `parent()`, filling_curve.h:139-141. -/
def parent (dim v : Nat) : Nat := v >>> dim

/-- `truncate(to_depth)`, filling_curve.h:144-150. -/
def truncate (dim v toDepth : Nat) : Nat :=
  let d := depth dim v
  if d < toDepth then v else v >>> ((d - toDepth) * dim)

/-- The loop of `conflict_depth`, filling_curve.h:108-116, started from the value `conflict`.
(`int conflict = max_depth;` names the static member function instead of the constant `max_depth_`, so the template
does not compile if it is ever instantiated; the model takes the intended start value as an argument.)
`none`: an assertion of `pop()` fails. -/
def conflictLoop (dim : Nat) : Nat → Nat → Nat → Int → Option Int
  | 0, a, b, c => if a = b then some c else none
  | fuel + 1, a, b, c =>
    if a = b then some c else do
      let a' ← pop dim a
      let b' ← pop dim b
      conflictLoop dim fuel a' b' (c - 1)

/-- `conflict_depth(key_a, key_b)`; a key of `a` bits cannot be popped more than `a` times. -/
def conflictDepth (bits dim a b : Nat) : Option Int :=
  conflictLoop dim a a b (maxDepth bits dim)

/-- The digits printed by `output_` for dimensions 1 and 2, filling_curve.h:152-167: pops digits until the root is
reached, inserting each at the front; the leading `1` printed by the code is not part of the list.
`none`: a `pop_value` assertion fails (key without the root marker). -/
def outputDigits (dim : Nat) : Nat → Nat → List Nat → Option (List Nat)
  | 0, v, acc => if v = root then some acc else none
  | fuel + 1, v, acc =>
    if v = root then some acc else do
      let (b, v') ← popValue dim v
      outputDigits dim fuel v' (b :: acc)

end FleCSPH.Key
