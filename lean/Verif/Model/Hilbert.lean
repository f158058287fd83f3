import Verif.Model.Morton

/-!
Model of `include/tree_topology/filling_curve.h`, class `hilbert_curve_u` (lines 227-463).

Coordinates are unsigned words of `W` bits (`bits_` in the code). `n - 1 - x` wraps modulo `2^W`, as in the code, where the
coordinates still carry higher bits when they are rotated.
-/
namespace FleCSPH.Hilbert
open FleCSPH

/-- `n - 1 - x` in words of `W` bits. -/
def mirror (W n x : Nat) : Nat := (2 ^ W + n - 1 - x % 2 ^ W) % 2 ^ W

/-- `int t = x; ... = t`, filling_curve.h:359-361: conversion of a word to a 32-bit `int` and back to a word of `W`
bits: the low 32 bits are kept and the sign is extended. (`W ≥ 32` in every instantiation.) -/
def viaInt (W x : Nat) : Nat :=
  let r := x % 2 ^ 32
  if r < 2 ^ 31 then r % 2 ^ W else (2 ^ W - 2 ^ 32 + r) % 2 ^ W

/-- `rotation2d`, filling_curve.h:350-363. -/
def rotation2d (W n : Nat) (c b : Nat × Nat) : Nat × Nat :=
  if b.2 = 0 then
    let c := if b.1 = 1 then (mirror W n c.1, mirror W n c.2) else c
    (c.2, viaInt W c.1)
  else c

/-- `(s & x) > 0` as 0 or 1. -/
def bit (s x : Nat) : Nat := if 0 < s &&& x then 1 else 0

/-- The 2D encoding loop, filling_curve.h:286-300: `for(s = mask >> 1; s > 0; s >>= 1)`, `k` iterations left so
`s = 2^(k-1)`. -/
def encodeLoop2 (W : Nat) : Nat → Nat × Nat → Nat → Nat
  | 0, _, v => v
  | k + 1, c, v =>
    let s := 2 ^ k
    let b := (bit s c.1, bit s c.2)
    encodeLoop2 W k (rotation2d W s c b) ((v + s * s * ((3 * b.1) ^^^ b.2)) % 2 ^ W)

/-- 2D key of grid cell `c` truncated to `depth`, filling_curve.h:286-302 (starts from `min()`). -/
def encodeCell2 (W depth : Nat) (c : Nat × Nat) : Nat :=
  encodeLoop2 W (Key.maxDepth W 2) c (Key.min W 2) >>> ((Key.maxDepth W 2 - depth) * 2)

/-- The 2D decoding loop, filling_curve.h:312-331: `for(mask = 1; mask < n; mask <<= 1)`, with `i` iterations done
(`mask = 2^i`) and `k` left. Returns the coordinates and the remaining key. -/
def decodeLoop2 (W : Nat) : Nat → Nat → Nat → Nat × Nat → (Nat × Nat) × Nat
  | 0, _, key, c => (c, key)
  | k + 1, i, key, c =>
    let b0 := if 0 < key &&& 2 then 1 else 0
    let b := (b0, if 0 < (key &&& 1) ^^^ b0 then 1 else 0)
    let c := rotation2d W (2 ^ i) c b
    decodeLoop2 W k (i + 1) (key >>> 2) ((c.1 + b.1 * 2 ^ i) % 2 ^ W, (c.2 + b.2 * 2 ^ i) % 2 ^ W)

/-- The integer part of `coordinates` in 2D, filling_curve.h:306-332. `none`: the assertion `key == 1` fails. -/
def decodeCell2 (W v : Nat) : Option (Nat × Nat) :=
  let r := decodeLoop2 W (Key.maxDepth W 2) 0 v (0, 0)
  if r.2 = 1 then some r.1 else none

abbrev V3 := Nat × Nat × Nat

/-- filling_curve.h:365-370. -/
def rotate90x (W n : Nat) (c : V3) : V3 := (c.1, mirror W n c.2.2, c.2.1)
/-- filling_curve.h:371-376. -/
def rotate90y (W n : Nat) (c : V3) : V3 := (c.2.2, c.2.1, mirror W n c.1)
/-- filling_curve.h:377-382. -/
def rotate90z (W n : Nat) (c : V3) : V3 := (mirror W n c.2.1, c.1, c.2.2)
/-- filling_curve.h:383-388. -/
def rotate180x (W n : Nat) (c : V3) : V3 := (c.1, mirror W n c.2.1, mirror W n c.2.2)
/-- filling_curve.h:389-394. -/
def rotate270x (W n : Nat) (c : V3) : V3 := (c.1, c.2.2, mirror W n c.2.1)
/-- filling_curve.h:395-400. -/
def rotate270y (W n : Nat) (c : V3) : V3 := (mirror W n c.2.2, c.2.1, c.1)
/-- filling_curve.h:401-406. -/
def rotate270z (W n : Nat) (c : V3) : V3 := (c.2.1, mirror W n c.1, c.2.2)

/-- `rotation3d`, filling_curve.h:408-435. -/
def rotation3d (W n : Nat) (c b : V3) : V3 :=
  if b.1 = 0 ∧ b.2.1 = 0 ∧ b.2.2 = 0 then rotate270x W n (rotate270z W n c)
  else if b.1 = 0 ∧ b.2.2 ≠ 0 then rotate90y W n (rotate90z W n c)
  else if b.2.1 ≠ 0 ∧ b.2.2 = 0 then rotate180x W n c
  else if b.1 ≠ 0 ∧ b.2.2 ≠ 0 then rotate270y W n (rotate270z W n c)
  else if b.1 ≠ 0 ∧ b.2.2 = 0 ∧ b.2.1 = 0 then rotate90z W n (rotate90y W n c)
  else c

/-- `unrotation3d`, filling_curve.h:437-464 (never called by the code). -/
def unrotation3d (W n : Nat) (c b : V3) : V3 :=
  if b.1 = 0 ∧ b.2.1 = 0 ∧ b.2.2 = 0 then rotate90z W n (rotate90x W n c)
  else if b.1 = 0 ∧ b.2.2 ≠ 0 then rotate270z W n (rotate270y W n c)
  else if b.2.1 ≠ 0 ∧ b.2.2 = 0 then rotate180x W n c
  else if b.1 ≠ 0 ∧ b.2.2 ≠ 0 then rotate90z W n (rotate90y W n c)
  else if b.1 ≠ 0 ∧ b.2.2 = 0 ∧ b.2.1 = 0 then rotate270y W n (rotate270z W n c)
  else c

/-- The 3D encoding loop, filling_curve.h:286-300. -/
def encodeLoop3 (W : Nat) : Nat → V3 → Nat → Nat
  | 0, _, v => v
  | k + 1, c, v =>
    let s := 2 ^ k
    let b := (bit s c.1, bit s c.2.1, bit s c.2.2)
    encodeLoop3 W k (rotation3d W s c b) ((v + s * s * s * ((7 * b.1) ^^^ (3 * b.2.1) ^^^ b.2.2)) % 2 ^ W)

/-- 3D key of grid cell `c` truncated to `depth`, filling_curve.h:286-302. -/
def encodeCell3 (W depth : Nat) (c : V3) : Nat :=
  encodeLoop3 W (Key.maxDepth W 3) c (Key.min W 3) >>> ((Key.maxDepth W 3 - depth) * 3)

/-- The 3D decoding loop, filling_curve.h:312-331. -/
def decodeLoop3 (W : Nat) : Nat → Nat → Nat → V3 → V3 × Nat
  | 0, _, key, c => (c, key)
  | k + 1, i, key, c =>
    let b0 := if 0 < key &&& 4 then 1 else 0
    let b1 := if 0 < (key &&& 2) ^^^ b0 then 1 else 0
    let b := (b0, b1, if 0 < (key &&& 1) ^^^ b0 ^^^ b1 then 1 else 0)
    let c := rotation3d W (2 ^ i) c b
    decodeLoop3 W k (i + 1) (key >>> 3)
      ((c.1 + b.1 * 2 ^ i) % 2 ^ W, (c.2.1 + b.2.1 * 2 ^ i) % 2 ^ W, (c.2.2 + b.2.2 * 2 ^ i) % 2 ^ W)

/-- The integer part of `coordinates` in 3D, filling_curve.h:306-332. -/
def decodeCell3 (W v : Nat) : Option V3 :=
  let r := decodeLoop3 W (Key.maxDepth W 3) 0 v (0, 0, 0)
  if r.2 = 1 then some r.1 else none

/-- The 1D key of cell `c` at `depth`, filling_curve.h:280-285: `value |= c >> 1; value >>= max_depth - depth`.
`none`: the assertion that bit `max_depth` of the start value is set fails. -/
def encodeCell1 (W depth c : Nat) : Option Nat :=
  let v := Key.min W 1
  if v &&& (1 <<< Key.maxDepth W 1) ≠ 0 then some ((v ||| (c >>> 1)) >>> (Key.maxDepth W 1 - depth)) else none

section Points
variable {K : Type*} [Field K] [LinearOrder K] [IsStrictOrderedRing K] [FloorSemiring K]

/-- The 2D constructor from a point, filling_curve.h:264-303. `none`: failed assertion or undefined conversion. -/
def encode2 (W : Nat) (lo hi p : Nat → K) (depth : Nat) : Option Nat :=
  if depth ≤ Key.maxDepth W 2 then
    (Morton.cellCoords W 2 lo hi p).map fun c => encodeCell2 W depth (c 0, c 1)
  else none

/-- The 3D constructor from a point, filling_curve.h:264-303. -/
def encode3 (W : Nat) (lo hi p : Nat → K) (depth : Nat) : Option Nat :=
  if depth ≤ Key.maxDepth W 3 then
    (Morton.cellCoords W 3 lo hi p).map fun c => encodeCell3 W depth (c 0, c 1, c 2)
  else none

/-- `coordinates` in 2D, filling_curve.h:306-339: the low corner of the decoded cell. -/
def coordinates2 (W : Nat) (lo hi : Nat → K) (v : Nat) : Option (Nat → K) :=
  (decodeCell2 W v).map fun c j =>
    lo j + (hi j - lo j) * ((if j = 0 then c.1 else c.2 : Nat) : K) / (2 : K) ^ Key.maxDepth W 2

end Points

end FleCSPH.Hilbert
