import Mathlib.Data.List.Basic
/-!
The tables of include/tensor.h, transcribed by a script: the index names of tensor.h:41-385 and the `remap` arrays of tensor.h:519-862. Letters stand for the axes.
-/
namespace FleCSPH.Tensor

/-- The letters in the names of the indices: x, y, z, t. -/
inductive Axis | x | y | z | t
  deriving DecidableEq

/-- The number of an axis, `rank1_index`, tensor.h:42. -/
def Axis.num : Axis → Nat | .x => 0 | .y => 1 | .z => 2 | .t => 3

open Axis

/-- The names and values of `rank2_index`, tensor.h:43-60. -/
def rank2Names : List (List Axis × Nat) := [
  ([x, x], 0), ([x, y], 1), ([x, z], 2), ([x, t], 3), ([y, x], 4), ([y, y], 5), ([y, z], 6), ([y, t], 7),
  ([z, x], 8), ([z, y], 9), ([z, z], 10), ([z, t], 11), ([t, x], 12), ([t, y], 13), ([t, z], 14), ([t, t], 15)]

/-- The names and values of `rank3_index`, tensor.h:61-126. -/
def rank3Names : List (List Axis × Nat) := [
  ([x, x, x], 0), ([x, x, y], 1), ([x, x, z], 2), ([x, x, t], 3), ([x, y, x], 4), ([x, y, y], 5), ([x, y, z], 6), ([x, y, t], 7),
  ([x, z, x], 8), ([x, z, y], 9), ([x, z, z], 10), ([x, z, t], 11), ([x, t, x], 12), ([x, t, y], 13), ([x, t, z], 14), ([x, t, t], 15),
  ([y, x, x], 16), ([y, x, y], 17), ([y, x, z], 18), ([y, x, t], 19), ([y, y, x], 20), ([y, y, y], 21), ([y, y, z], 22), ([y, y, t], 23),
  ([y, z, x], 24), ([y, z, y], 25), ([y, z, z], 26), ([y, z, t], 27), ([y, t, x], 28), ([y, t, y], 29), ([y, t, z], 30), ([y, t, t], 31),
  ([z, x, x], 32), ([z, x, y], 33), ([z, x, z], 34), ([z, x, t], 35), ([z, y, x], 36), ([z, y, y], 37), ([z, y, z], 38), ([z, y, t], 39),
  ([z, z, x], 40), ([z, z, y], 41), ([z, z, z], 42), ([z, z, t], 43), ([z, t, x], 44), ([z, t, y], 45), ([z, t, z], 46), ([z, t, t], 47),
  ([t, x, x], 48), ([t, x, y], 49), ([t, x, z], 50), ([t, x, t], 51), ([t, y, x], 52), ([t, y, y], 53), ([t, y, z], 54), ([t, y, t], 55),
  ([t, z, x], 56), ([t, z, y], 57), ([t, z, z], 58), ([t, z, t], 59), ([t, t, x], 60), ([t, t, y], 61), ([t, t, z], 62), ([t, t, t], 63)]

/-- The names and values of `rank4_index`, tensor.h:127-384. -/
def rank4Names : List (List Axis × Nat) := [
  ([x, x, x, x], 0), ([x, x, x, y], 1), ([x, x, x, z], 2), ([x, x, x, t], 3), ([x, x, y, x], 4), ([x, x, y, y], 5), ([x, x, y, z], 6), ([x, x, y, t], 7),
  ([x, x, z, x], 8), ([x, x, z, y], 9), ([x, x, z, z], 10), ([x, x, z, t], 11), ([x, x, t, x], 12), ([x, x, t, y], 13), ([x, x, t, z], 14), ([x, x, t, t], 15),
  ([x, y, x, x], 16), ([x, y, x, y], 17), ([x, y, x, z], 18), ([x, y, x, t], 19), ([x, y, y, x], 20), ([x, y, y, y], 21), ([x, y, y, z], 22), ([x, y, y, t], 23),
  ([x, y, z, x], 24), ([x, y, z, y], 25), ([x, y, z, z], 26), ([x, y, z, t], 27), ([x, y, t, x], 28), ([x, y, t, y], 29), ([x, y, t, z], 30), ([x, y, t, t], 31),
  ([x, z, x, x], 32), ([x, z, x, y], 33), ([x, z, x, z], 34), ([x, z, x, t], 35), ([x, z, y, x], 36), ([x, z, y, y], 37), ([x, z, y, z], 38), ([x, z, y, t], 39),
  ([x, z, z, x], 40), ([x, z, z, y], 41), ([x, z, z, z], 42), ([x, z, z, t], 43), ([x, z, t, x], 44), ([x, z, t, y], 45), ([x, z, t, z], 46), ([x, z, t, t], 47),
  ([x, t, x, x], 48), ([x, t, x, y], 49), ([x, t, x, z], 50), ([x, t, x, t], 51), ([x, t, y, x], 52), ([x, t, y, y], 53), ([x, t, y, z], 54), ([x, t, y, t], 55),
  ([x, t, z, x], 56), ([x, t, z, y], 57), ([x, t, z, z], 58), ([x, t, z, t], 59), ([x, t, t, x], 60), ([x, t, t, y], 61), ([x, t, t, z], 62), ([x, t, t, t], 63),
  ([y, x, x, x], 64), ([y, x, x, y], 65), ([y, x, x, z], 66), ([y, x, x, t], 67), ([y, x, y, x], 68), ([y, x, y, y], 69), ([y, x, y, z], 70), ([y, x, y, t], 71),
  ([y, x, z, x], 72), ([y, x, z, y], 73), ([y, x, z, z], 74), ([y, x, z, t], 75), ([y, x, t, x], 76), ([y, x, t, y], 77), ([y, x, t, z], 78), ([y, x, t, t], 79),
  ([y, y, x, x], 80), ([y, y, x, y], 81), ([y, y, x, z], 82), ([y, y, x, t], 83), ([y, y, y, x], 84), ([y, y, y, y], 85), ([y, y, y, z], 86), ([y, y, y, t], 87),
  ([y, y, z, x], 88), ([y, y, z, y], 89), ([y, y, z, z], 90), ([y, y, z, t], 91), ([y, y, t, x], 92), ([y, y, t, y], 93), ([y, y, t, z], 94), ([y, y, t, t], 95),
  ([y, z, x, x], 96), ([y, z, x, y], 97), ([y, z, x, z], 98), ([y, z, x, t], 99), ([y, z, y, x], 100), ([y, z, y, y], 101), ([y, z, y, z], 102), ([y, z, y, t], 103),
  ([y, z, z, x], 104), ([y, z, z, y], 105), ([y, z, z, z], 106), ([y, z, z, t], 107), ([y, z, t, x], 108), ([y, z, t, y], 109), ([y, z, t, z], 110), ([y, z, t, t], 111),
  ([y, t, x, x], 112), ([y, t, x, y], 113), ([y, t, x, z], 114), ([y, t, x, t], 115), ([y, t, y, x], 116), ([y, t, y, y], 117), ([y, t, y, z], 118), ([y, t, y, t], 119),
  ([y, t, z, x], 120), ([y, t, z, y], 121), ([y, t, z, z], 122), ([y, t, z, t], 123), ([y, t, t, x], 124), ([y, t, t, y], 125), ([y, t, t, z], 126), ([y, t, t, t], 127),
  ([z, x, x, x], 128), ([z, x, x, y], 129), ([z, x, x, z], 130), ([z, x, x, t], 131), ([z, x, y, x], 132), ([z, x, y, y], 133), ([z, x, y, z], 134), ([z, x, y, t], 135),
  ([z, x, z, x], 136), ([z, x, z, y], 137), ([z, x, z, z], 138), ([z, x, z, t], 139), ([z, x, t, x], 140), ([z, x, t, y], 141), ([z, x, t, z], 142), ([z, x, t, t], 143),
  ([z, y, x, x], 144), ([z, y, x, y], 145), ([z, y, x, z], 146), ([z, y, x, t], 147), ([z, y, y, x], 148), ([z, y, y, y], 149), ([z, y, y, z], 150), ([z, y, y, t], 151),
  ([z, y, z, x], 152), ([z, y, z, y], 153), ([z, y, z, z], 154), ([z, y, z, t], 155), ([z, y, t, x], 156), ([z, y, t, y], 157), ([z, y, t, z], 158), ([z, y, t, t], 159),
  ([z, z, x, x], 160), ([z, z, x, y], 161), ([z, z, x, z], 162), ([z, z, x, t], 163), ([z, z, y, x], 164), ([z, z, y, y], 165), ([z, z, y, z], 166), ([z, z, y, t], 167),
  ([z, z, z, x], 168), ([z, z, z, y], 169), ([z, z, z, z], 170), ([z, z, z, t], 171), ([z, z, t, x], 172), ([z, z, t, y], 173), ([z, z, t, z], 174), ([z, z, t, t], 175),
  ([z, t, x, x], 176), ([z, t, x, y], 177), ([z, t, x, z], 178), ([z, t, x, t], 179), ([z, t, y, x], 180), ([z, t, y, y], 181), ([z, t, y, z], 182), ([z, t, y, t], 183),
  ([z, t, z, x], 184), ([z, t, z, y], 185), ([z, t, z, z], 186), ([z, t, z, t], 187), ([z, t, t, x], 188), ([z, t, t, y], 189), ([z, t, t, z], 190), ([z, t, t, t], 191),
  ([t, x, x, x], 192), ([t, x, x, y], 193), ([t, x, x, z], 194), ([t, x, x, t], 195), ([t, x, y, x], 196), ([t, x, y, y], 197), ([t, x, y, z], 198), ([t, x, y, t], 199),
  ([t, x, z, x], 200), ([t, x, z, y], 201), ([t, x, z, z], 202), ([t, x, z, t], 203), ([t, x, t, x], 204), ([t, x, t, y], 205), ([t, x, t, z], 206), ([t, x, t, t], 207),
  ([t, y, x, x], 208), ([t, y, x, y], 209), ([t, y, x, z], 210), ([t, y, x, t], 211), ([t, y, y, x], 212), ([t, y, y, y], 213), ([t, y, y, z], 214), ([t, y, y, t], 215),
  ([t, y, z, x], 216), ([t, y, z, y], 217), ([t, y, z, z], 218), ([t, y, z, t], 219), ([t, y, t, x], 220), ([t, y, t, y], 221), ([t, y, t, z], 222), ([t, y, t, t], 223),
  ([t, z, x, x], 224), ([t, z, x, y], 225), ([t, z, x, z], 226), ([t, z, x, t], 227), ([t, z, y, x], 228), ([t, z, y, y], 229), ([t, z, y, z], 230), ([t, z, y, t], 231),
  ([t, z, z, x], 232), ([t, z, z, y], 233), ([t, z, z, z], 234), ([t, z, z, t], 235), ([t, z, t, x], 236), ([t, z, t, y], 237), ([t, z, t, z], 238), ([t, z, t, t], 239),
  ([t, t, x, x], 240), ([t, t, x, y], 241), ([t, t, x, z], 242), ([t, t, x, t], 243), ([t, t, y, x], 244), ([t, t, y, y], 245), ([t, t, y, z], 246), ([t, t, y, t], 247),
  ([t, t, z, x], 248), ([t, t, z, y], 249), ([t, t, z, z], 250), ([t, t, z, t], 251), ([t, t, t, x], 252), ([t, t, t, y], 253), ([t, t, t, z], 254), ([t, t, t, t], 255)]

/-- The `remap` table of generic tensors of rank 2 by dimension, with the bound of the assertion before it, tensor.h:524-543; for dimension 1 the
assertion `ind == 0` and `data_[0]`; for dimension 4 and rank 2, where nothing is asserted, the number of names. -/
def generic2 : Nat → Option (Nat × List Int)
  | 1 => some (1, [0])
  | 2 => some (6, [0, 2, -1, -1, 1, 3])
  | 3 => some (11, [0, 3, 6, -1, 1, 4, 7, -1, 2, 5, 8])
  | 4 => some (16, [0, 4, 8, 12, 1, 5, 9, 13, 2, 6, 10, 14, 3, 7, 11, 15])
  | _ => none

/-- The `remap` table of symmetric tensors of rank 2 by dimension, with the bound of the assertion before it, tensor.h:549-569; for dimension 1 the
assertion `ind == 0` and `data_[0]`; for dimension 4 and rank 2, where nothing is asserted, the number of names. -/
def symmetric2 : Nat → Option (Nat × List Int)
  | 1 => some (1, [0])
  | 2 => some (6, [0, 1, -1, -1, 1, 2])
  | 3 => some (11, [0, 1, 3, -1, 1, 2, 4, -1, 3, 4, 5])
  | 4 => some (16, [0, 1, 3, 6, 1, 2, 4, 7, 3, 4, 5, 8, 6, 7, 8, 9])
  | _ => none

/-- The `remap` table of generic tensors of rank 3 by dimension, with the bound of the assertion before it, tensor.h:583-617; for dimension 1 the
assertion `ind == 0` and `data_[0]`; for dimension 4 and rank 2, where nothing is asserted, the number of names. -/
def generic3 : Nat → Option (Nat × List Int)
  | 1 => some (1, [0])
  | 2 => some (22, [0, 4, -1, -1, 2, 6, -1, -1, -1, -1, -1, -1, -1, -1, -1, -1,
      1, 5, -1, -1, 3, 7])
  | 3 => some (43, [0, 9, 18, -1, 3, 12, 21, -1, 6, 15, 24, -1, -1, -1, -1, -1,
      1, 10, 19, -1, 4, 13, 22, -1, 7, 16, 25, -1, -1, -1, -1, -1,
      2, 11, 20, -1, 5, 14, 23, -1, 8, 17, 26])
  | 4 => some (64, [0, 16, 32, 48, 4, 20, 36, 52, 8, 24, 40, 56, 12, 28, 44, 60,
      1, 17, 33, 49, 5, 21, 37, 53, 9, 25, 41, 57, 13, 29, 45, 61,
      2, 18, 34, 50, 6, 22, 38, 54, 10, 26, 42, 58, 14, 30, 46, 62,
      3, 19, 35, 51, 7, 23, 39, 55, 11, 27, 43, 59, 15, 31, 47, 63])
  | _ => none

/-- The `remap` table of symmetric tensors of rank 3 by dimension, with the bound of the assertion before it, tensor.h:623-658; for dimension 1 the
assertion `ind == 0` and `data_[0]`; for dimension 4 and rank 2, where nothing is asserted, the number of names. -/
def symmetric3 : Nat → Option (Nat × List Int)
  | 1 => some (1, [0])
  | 2 => some (22, [0, 1, -1, -1, 1, 2, -1, -1, -1, -1, -1, -1, -1, -1, -1, -1,
      1, 2, -1, -1, 2, 3])
  | 3 => some (43, [0, 1, 4, -1, 1, 2, 5, -1, 4, 5, 7, -1, -1, -1, -1, -1,
      1, 2, 5, -1, 2, 3, 6, -1, 5, 6, 8, -1, -1, -1, -1, -1,
      4, 5, 7, -1, 5, 6, 8, -1, 7, 8, 9])
  | 4 => some (64, [0, 1, 4, 10, 1, 2, 5, 11, 4, 5, 7, 13, 10, 11, 13, 16,
      1, 2, 5, 11, 2, 3, 6, 12, 5, 6, 8, 14, 11, 12, 14, 17,
      4, 5, 7, 13, 5, 6, 8, 14, 7, 8, 9, 15, 13, 14, 15, 18,
      10, 11, 13, 16, 11, 12, 14, 17, 13, 14, 15, 18, 16, 17, 18, 19])
  | _ => none

/-- The `remap` table of generic tensors of rank 4 by dimension, with the bound of the assertion before it, tensor.h:672-769; for dimension 1 the
assertion `ind == 0` and `data_[0]`; for dimension 4 and rank 2, where nothing is asserted, the number of names. -/
def generic4 : Nat → Option (Nat × List Int)
  | 1 => some (1, [0])
  | 2 => some (86, [0, 8, -1, -1, 4, 12, -1, -1, -1, -1, -1, -1, -1, -1, -1, -1,
      2, 10, -1, -1, 6, 14, -1, -1, -1, -1, -1, -1, -1, -1, -1, -1,
      -1, -1, -1, -1, -1, -1, -1, -1, -1, -1, -1, -1, -1, -1, -1, -1,
      -1, -1, -1, -1, -1, -1, -1, -1, -1, -1, -1, -1, -1, -1, -1, -1,
      1, 9, -1, -1, 5, 13, -1, -1, -1, -1, -1, -1, -1, -1, -1, -1,
      3, 11, -1, -1, 7, 15])
  | 3 => some (171, [0, 27, 54, -1, 9, 36, 63, -1, 18, 45, 72, -1, -1, -1, -1, -1,
      3, 30, 57, -1, 12, 39, 66, -1, 21, 48, 75, -1, -1, -1, -1, -1,
      6, 33, 60, -1, 15, 42, 69, -1, 24, 51, 78, -1, -1, -1, -1, -1,
      -1, -1, -1, -1, -1, -1, -1, -1, -1, -1, -1, -1, -1, -1, -1, -1,
      1, 28, 55, -1, 10, 37, 64, -1, 19, 46, 73, -1, -1, -1, -1, -1,
      4, 31, 58, -1, 13, 40, 67, -1, 22, 49, 76, -1, -1, -1, -1, -1,
      7, 34, 61, -1, 16, 43, 70, -1, 25, 52, 79, -1, -1, -1, -1, -1,
      -1, -1, -1, -1, -1, -1, -1, -1, -1, -1, -1, -1, -1, -1, -1, -1,
      2, 29, 56, -1, 11, 38, 65, -1, 20, 47, 74, -1, -1, -1, -1, -1,
      5, 32, 59, -1, 14, 41, 68, -1, 23, 50, 77, -1, -1, -1, -1, -1,
      8, 35, 62, -1, 17, 44, 71, -1, 26, 53, 80])
  | 4 => some (256, [0, 64, 128, 192, 16, 80, 144, 208, 32, 96, 160, 224, 48, 112, 176, 240,
      4, 68, 132, 196, 20, 84, 148, 212, 36, 100, 164, 228, 52, 116, 180, 244,
      8, 72, 136, 200, 24, 88, 152, 216, 40, 104, 168, 232, 56, 120, 184, 248,
      12, 76, 140, 204, 28, 92, 156, 220, 44, 108, 172, 236, 60, 124, 188, 252,
      1, 65, 129, 193, 17, 81, 145, 209, 33, 97, 161, 225, 49, 113, 177, 241,
      5, 69, 133, 197, 21, 85, 149, 213, 37, 101, 165, 229, 53, 117, 181, 245,
      9, 73, 137, 201, 25, 89, 153, 217, 41, 105, 169, 233, 57, 121, 185, 249,
      13, 77, 141, 205, 29, 93, 157, 221, 45, 109, 173, 237, 61, 125, 189, 253,
      2, 66, 130, 194, 18, 82, 146, 210, 34, 98, 162, 226, 50, 114, 178, 242,
      6, 70, 134, 198, 22, 86, 150, 214, 38, 102, 166, 230, 54, 118, 182, 246,
      10, 74, 138, 202, 26, 90, 154, 218, 42, 106, 170, 234, 58, 122, 186, 250,
      14, 78, 142, 206, 30, 94, 158, 222, 46, 110, 174, 238, 62, 126, 190, 254,
      3, 67, 131, 195, 19, 83, 147, 211, 35, 99, 163, 227, 51, 115, 179, 243,
      7, 71, 135, 199, 23, 87, 151, 215, 39, 103, 167, 231, 55, 119, 183, 247,
      11, 75, 139, 203, 27, 91, 155, 219, 43, 107, 171, 235, 59, 123, 187, 251,
      15, 79, 143, 207, 31, 95, 159, 223, 47, 111, 175, 239, 63, 127, 191, 255])
  | _ => none

/-- The `remap` table of symmetric tensors of rank 4 by dimension, with the bound of the assertion before it, tensor.h:775-858; for dimension 1 the
assertion `ind == 0` and `data_[0]`; for dimension 4 and rank 2, where nothing is asserted, the number of names. -/
def symmetric4 : Nat → Option (Nat × List Int)
  | 1 => some (1, [0])
  | 2 => some (86, [0, 1, -1, -1, 1, 2, -1, -1, -1, -1, -1, -1, -1, -1, -1, -1,
      1, 2, -1, -1, 2, 3, -1, -1, -1, -1, -1, -1, -1, -1, -1, -1,
      -1, -1, -1, -1, -1, -1, -1, -1, -1, -1, -1, -1, -1, -1, -1, -1,
      -1, -1, -1, -1, -1, -1, -1, -1, -1, -1, -1, -1, -1, -1, -1, -1,
      1, 2, -1, -1, 2, 3, -1, -1, -1, -1, -1, -1, -1, -1, -1, -1,
      2, 3, -1, -1, 3, 4])
  | 3 => some (171, [0, 1, 5, -1, 1, 2, 6, -1, 5, 6, 9, -1, -1, -1, -1, -1,
      1, 2, 6, -1, 2, 3, 7, -1, 6, 7, 10, -1, -1, -1, -1, -1,
      5, 6, 9, -1, 6, 7, 10, -1, 9, 10, 12, -1, -1, -1, -1, -1,
      -1, -1, -1, -1, -1, -1, -1, -1, -1, -1, -1, -1, -1, -1, -1, -1,
      1, 2, 6, -1, 2, 3, 7, -1, 6, 7, 10, -1, -1, -1, -1, -1,
      2, 3, 7, -1, 3, 4, 8, -1, 7, 8, 11, -1, -1, -1, -1, -1,
      6, 7, 10, -1, 7, 8, 11, -1, 10, 11, 13, -1, -1, -1, -1, -1,
      -1, -1, -1, -1, -1, -1, -1, -1, -1, -1, -1, -1, -1, -1, -1, -1,
      5, 6, 9, -1, 6, 7, 10, -1, 9, 10, 12, -1, -1, -1, -1, -1,
      6, 7, 10, -1, 7, 8, 11, -1, 10, 11, 13, -1, -1, -1, -1, -1,
      9, 10, 12, -1, 10, 11, 13, -1, 12, 13, 14])
  | 4 => some (256, [0, 1, 5, 15, 1, 2, 6, 16, 5, 6, 9, 19, 15, 16, 19, 25,
      1, 2, 6, 16, 2, 3, 7, 17, 6, 7, 10, 20, 16, 17, 20, 26,
      5, 6, 9, 19, 6, 7, 10, 20, 9, 10, 12, 22, 19, 20, 22, 28,
      15, 16, 19, 25, 16, 17, 20, 26, 19, 20, 22, 28, 25, 26, 28, 31,
      1, 2, 6, 16, 2, 3, 7, 17, 6, 7, 10, 20, 16, 17, 20, 26,
      2, 3, 7, 17, 3, 4, 8, 18, 7, 8, 11, 21, 17, 18, 21, 27,
      6, 7, 10, 20, 7, 8, 11, 21, 10, 11, 13, 23, 20, 21, 23, 29,
      16, 17, 20, 26, 17, 18, 21, 27, 20, 21, 23, 29, 26, 27, 29, 32,
      5, 6, 9, 19, 6, 7, 10, 20, 9, 10, 12, 22, 19, 20, 22, 28,
      6, 7, 10, 20, 7, 8, 11, 21, 10, 11, 13, 23, 20, 21, 23, 29,
      9, 10, 12, 22, 10, 11, 13, 23, 12, 13, 14, 24, 22, 23, 24, 30,
      19, 20, 22, 28, 20, 21, 23, 29, 22, 23, 24, 30, 28, 29, 30, 33,
      15, 16, 19, 25, 16, 17, 20, 26, 19, 20, 22, 28, 25, 26, 28, 31,
      16, 17, 20, 26, 17, 18, 21, 27, 20, 21, 23, 29, 26, 27, 29, 32,
      19, 20, 22, 28, 20, 21, 23, 29, 22, 23, 24, 30, 28, 29, 30, 33,
      25, 26, 28, 31, 26, 27, 29, 32, 28, 29, 30, 33, 31, 32, 33, 34])
  | _ => none

end FleCSPH.Tensor
