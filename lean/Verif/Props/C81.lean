import Verif.Model.IdGen
import Verif.Spec.Period
import Mathlib.Algebra.Order.Floor.Ring
import Mathlib.Tactic.Linarith
import Mathlib.Tactic.NormNum
import Mathlib.Tactic.Positivity
import Mathlib.Tactic.FieldSimp
/-!
C81: initial data for periodic boundaries.

Missing for the full property: the search for a new extent is bounded and does not start for narrow domains, and then the extent stays as it is (`C81_narrow_violated`); the height of the two layers is
chosen near the length (`C81_height_violated`).
-/
namespace FleCSPH.IdGen
open FleCSPH.Spec FleCSPH.Lattice

private theorem truncate_pos {x : ℝ} (h : 0 ≤ x) : truncate x = ⌊x⌋ := if_pos h

private theorem firstFit_some {n : Int} {fits : Int → Prop} {extent : Int → ℝ} {W : ℝ} (h : firstFit n fits extent = some W) : ∃ j, 0 < j ∧ n ≤ j ∧ j < 100 * n ∧ fits j ∧ W = extent j := by
  unfold firstFit at h
  rw [Option.map_eq_some_iff] at h
  obtain ⟨j, hj, rfl⟩ := h
  have h1 := List.mem_of_find?_eq_some hj
  have h2 : fits j := by simpa using List.find?_some hj
  obtain ⟨i, hi, rfl⟩ := List.mem_map.mp h1
  have hi := List.mem_range.mp hi
  exact ⟨n + i, by omega, by omega, by omega, h2, rfl⟩

private theorem firstFit_exists {n j : Int} {fits : Int → Prop} {extent : Int → ℝ} (h1 : n ≤ j) (h2 : j < 100 * n) (hj : fits j) : ∃ W, firstFit n fits extent = some W := by
  unfold firstFit
  rw [← Option.isSome_iff_exists, Option.isSome_map, List.find?_isSome]
  refine ⟨j, List.mem_map.mpr ⟨(j - n).toNat, List.mem_range.mpr (by omega), by omega⟩, by simpa using hj⟩

/-- The new length of the tube: the outer blocks, from `L / 6` to half the new length on both sides, hold a whole number of separations; the tube gets shorter by less than two of them. -/
theorem C81_length (L s : ℝ) (hL : 0 ≤ L) (hs : 0 < s) : (∃ n : Nat, tubeLength L s / 2 - L / 6 = n * s) ∧ L - 2 * s < tubeLength L s ∧ tubeLength L s ≤ L := by
  have h0 : 0 ≤ L / (3 * s) := by positivity
  unfold tubeLength
  rw [truncate_pos h0]
  have h1 := Int.floor_le (L / (3 * s))
  have h2 := Int.lt_floor_add_one (L / (3 * s))
  have e : L / (3 * s) * s = L / 3 := by field_simp
  have h3 := mul_le_mul_of_nonneg_right h1 hs.le
  have h4 := mul_lt_mul_of_pos_right h2 hs
  rw [e] at h3
  rw [add_mul, e] at h4
  refine ⟨⟨⌊L / (3 * s)⌋.toNat, ?_⟩, by linarith, by linarith⟩
  have h5 : ((⌊L / (3 * s)⌋.toNat : Nat) : ℝ) = (⌊L / (3 * s)⌋ : ℝ) := by
    have := Int.toNat_of_nonneg (Int.floor_nonneg.mpr h0)
    exact_mod_cast this
  rw [h5]
  ring

section
variable {W a b tol W' : ℝ} (ha : 0 < a) (hb : 0 < b) (hW : 0 ≤ W) (htol : tol * b ≤ a)
include ha hb hW htol

private theorem match_of {o : Int → ℝ} (ho : ∀ j : Int, ∃ n : Int, o j = n * b) (h : firstFit (truncate (W / a) - 1) (fun j => |o j - j * a| < tol * b) (fun j => min (o j) (j * a)) = some W') :
    FitsPeriod W' a (tol * b) ∧ FitsPeriod W' b (tol * b) ∧ W - 2 * a - tol * b < W' := by
  obtain ⟨j, j0, j1, -, hf, rfl⟩ := firstFit_some h
  obtain ⟨n, hn⟩ := ho j
  rw [hn] at hf ⊢
  obtain ⟨f1, f2⟩ := abs_lt.mp hf
  have hj : (1 : ℝ) ≤ j := by exact_mod_cast j0
  have hja : a ≤ j * a := le_mul_of_one_le_left ha.le hj
  have hn0 : 0 < n := by
    by_contra hc
    have hc : (n : ℝ) ≤ 0 := by exact_mod_cast not_lt.mp hc
    have : (n : ℝ) * b ≤ 0 := mul_nonpos_of_nonpos_of_nonneg hc hb.le
    linarith
  have ej : ((j.toNat : Nat) : ℝ) = j := by have := Int.toNat_of_nonneg j0.le; exact_mod_cast this
  have en : ((n.toNat : Nat) : ℝ) = n := by have := Int.toNat_of_nonneg hn0.le; exact_mod_cast this
  refine ⟨⟨j.toNat, by omega, by rw [ej]; exact min_le_right _ _, ?_⟩, ⟨n.toNat, by omega, by rw [en]; exact min_le_left _ _, ?_⟩, ?_⟩
  · rw [ej]
    rcases min_choice ((n : ℝ) * b) (j * a) with h | h <;> rw [h] <;> linarith
  · rw [en]
    rcases min_choice ((n : ℝ) * b) (j * a) with h | h <;> rw [h] <;> linarith
  · have h0 : 0 ≤ W / a := by positivity
    rw [truncate_pos h0] at j1
    have h1 := Int.lt_floor_add_one (W / a)
    have h2 : ((⌊W / a⌋ : Int) : ℝ) - 1 ≤ j := by exact_mod_cast j1
    have h3 : W - 2 * a < j * a := by
      have := mul_lt_mul_of_pos_right (show W / a < j + 2 by linarith) ha
      rw [div_mul_cancel₀ _ ha.ne'] at this
      linarith
    rcases min_choice ((n : ℝ) * b) (j * a) with h | h <;> rw [h] <;> linarith

/-- A width or height of the tube found by the program fits the lattices of all blocks up to the tolerance, and is at most two periods and the tolerance smaller than asked for. -/
theorem C81_width_partial (h : tubeWidth W a b tol = some W') : FitsPeriod W' a (tol * b) ∧ FitsPeriod W' b (tol * b) ∧ W - 2 * a - tol * b < W' :=
  match_of ha hb hW htol (o := otherUp a b) (fun j => ⟨⌊(j : ℝ) * a / b - bTol⌋ + 1, by rw [otherUp]; push_cast; rfl⟩) h

/-- The same for the length of the two layers. -/
theorem C81_layers_partial (h : layerLength W a b tol = some W') : FitsPeriod W' a (tol * b) ∧ FitsPeriod W' b (tol * b) ∧ W - 2 * a - tol * b < W' :=
  match_of ha hb hW htol (o := otherDown a b) (fun j => ⟨⌊(j : ℝ) * a / b + bTol⌋, rfl⟩) h

end

private theorem lies_in (N q : Nat) (hq : 0 < q) (hqN : q ≤ 99 * N) : ∃ k : Nat, N ≤ k * q ∧ k * q < 100 * N := by
  refine ⟨(N + q - 1) / q, ?_, ?_⟩
  · have := Nat.lt_mul_div_succ (N + q - 1) hq
    rw [Nat.mul_comm]
    rw [Nat.mul_add, Nat.mul_one] at this
    omega
  · have := Nat.div_mul_le_self (N + q - 1) q
    omega

/-- A width is found if the ratio of the periods is `p / q` with `q` not larger than 99 times the number the search starts from. In the first shock tube in three dimensions it is `1 / 2`, in tubes with one
density it is 1. -/
theorem C81_found (W a b tol : ℝ) (hb : 0 < b) (htol : 0 < tol) (p q N : Nat) (hq : 0 < q) (hpq : a * q = p * b) (hN : truncate (W / a) - 1 = N) (hqN : q ≤ 99 * N) :
    (∃ W', tubeWidth W a b tol = some W') ∧ ∃ W', layerLength W a b tol = some W' := by
  obtain ⟨k, k1, k2⟩ := lies_in N q hq hqN
  have e : (((k * q : Nat) : Int) : ℝ) * a = (k * p : Nat) * b := by
    push_cast
    calc (k : ℝ) * q * a = k * (a * q) := by ring
      _ = k * p * b := by rw [hpq]; ring
  have e' : (((k * q : Nat) : Int) : ℝ) * a / b = ((k * p : Nat) : Int) := by rw [e, mul_div_assoc, div_self hb.ne', mul_one]; norm_cast
  have t : 0 < tol * b := mul_pos htol hb
  constructor
  · refine firstFit_exists (j := (k * q : Nat)) (by rw [hN]; exact_mod_cast k1) (by rw [hN]; exact_mod_cast k2) ?_
    have f : ⌊((((k * p : Nat) : Int) : ℝ) - bTol)⌋ = ((k * p : Nat) : Int) - 1 := by
      rw [Int.floor_eq_iff]
      unfold bTol
      push_cast
      constructor <;> linarith
    rw [otherUp, e', f, e]
    push_cast
    rw [sub_add_cancel, sub_self, abs_zero]
    exact t
  · refine firstFit_exists (j := (k * q : Nat)) (by rw [hN]; exact_mod_cast k1) (by rw [hN]; exact_mod_cast k2) ?_
    have f : ⌊((((k * p : Nat) : Int) : ℝ) + bTol)⌋ = ((k * p : Nat) : Int) := by
      rw [Int.floor_eq_iff]
      unfold bTol
      push_cast
      constructor <;> linarith
    rw [otherDown, e', f, e]
    push_cast
    rw [sub_self, abs_zero]
    exact t

/-- A tube narrower than two periods is left as it is, whatever the lattice of the outer blocks; the program reports nevertheless that it was adjusted. -/
theorem C81_narrow_violated : (∀ W a b tol : ℝ, 0 < a → 0 ≤ W → W < 2 * a → tubeWidth W a b tol = none) ∧ ¬ FitsPeriod (3 / 2) 3 (1 / 20 * 3) := by
  constructor
  · intro W a b tol ha hW h
    cases hc : tubeWidth W a b tol with
    | none => rfl
    | some w =>
      obtain ⟨j, h1, h2, h3, -⟩ := firstFit_some hc
      have h0 : 0 ≤ W / a := by positivity
      rw [truncate_pos h0] at h2 h3
      have : ⌊W / a⌋ < 2 := by rw [Int.floor_lt, div_lt_iff₀ ha]; exact_mod_cast h
      omega
  · rintro ⟨n, h1, h2, h3⟩
    have h1 : (1 : ℝ) ≤ n := by exact_mod_cast h1
    norm_num at h3
    linarith

/-- The height of the two layers does not depend on the height asked for: it is at least the length less two periods and the tolerance. -/
theorem C81_height_violated (L H a b tol H' : ℝ) (ha : 0 < a) (hb : 0 < b) (hL : 0 ≤ L) (htol : tol * b ≤ a) (h : layerHeight L H a b tol = some H') : L - 2 * a - tol * b < H' :=
  (C81_layers_partial ha hb hL htol h).2.2

/-! ### Cases -/

/-- A length of 10, a height of 1, one lattice with period 1 everywhere, the default tolerance: the new height is at least 7. -/
example : ∃ H', layerHeight 10 1 1 1 (1 / 20) = some H' ∧ 7 < H' := by
  have hN : truncate ((10 : ℝ) / 1) - 1 = ((9 : Nat) : Int) := by
    rw [truncate_pos (by norm_num)]
    norm_num
  obtain ⟨-, H', h⟩ := C81_found 10 1 1 (1 / 20) one_pos (by norm_num) 1 1 9 one_pos (by norm_num) hN (by norm_num)
  refine ⟨H', h, ?_⟩
  have := C81_height_violated 10 1 1 1 (1 / 20) H' one_pos one_pos (by norm_num) (by norm_num) h
  linarith

/-- The first shock tube in three dimensions: the separation of the outer blocks is twice that of the middle. -/
example : ∃ W', tubeWidth 10 1 2 (1 / 20) = some W' ∧ FitsPeriod W' 1 (1 / 10) ∧ FitsPeriod W' 2 (1 / 10) := by
  have hN : truncate ((10 : ℝ) / 1) - 1 = ((9 : Nat) : Int) := by
    rw [truncate_pos (by norm_num)]
    norm_num
  obtain ⟨⟨W', h⟩, -⟩ := C81_found 10 1 2 (1 / 20) two_pos (by norm_num) 1 2 9 two_pos (by norm_num) hN (by norm_num)
  obtain ⟨h1, h2, -⟩ := C81_width_partial one_pos two_pos (by norm_num) (by norm_num) h
  exact ⟨W', h, by norm_num at h1 ⊢; exact h1, by norm_num at h2 ⊢; exact h2⟩

example : tubeLength 10 1 = 10 / 3 + 6 := by
  rw [tubeLength, truncate_pos (by norm_num), show ⌊(10 : ℝ) / (3 * 1)⌋ = 3 by rw [Int.floor_eq_iff]; norm_num]
  norm_num

end FleCSPH.IdGen
