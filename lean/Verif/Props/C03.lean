import Mathlib.Data.Rat.Floor
import Verif.Props.C02

/-! C03: Morton key at an explicit depth. The code does not have the property; see `C03_violated`. -/
namespace FleCSPH
open Spec Key

variable {K : Type*} [Field K] [LinearOrder K] [IsStrictOrderedRing K] [FloorSemiring K]

/-- Partial: at `d = max_depth`, and only there (see `C03_always_full_depth`), the key has depth `d` and is the
(trivially truncated) full-depth key. -/
theorem C03_full_depth_partial (bits dim : Nat) (hb : 0 < bits) (hdim : 0 < dim) (lo hi p : Nat → K)
    (hp : InBox dim lo hi p) :
    ∃ v full, Morton.encodeDepth bits dim lo hi p (maxDepth bits dim) = some v ∧
      Morton.encode bits dim lo hi p = some full ∧ depth dim v = maxDepth bits dim ∧
      v = truncate dim full (maxDepth bits dim) := by
  obtain ⟨⟨c, hc⟩, h1⟩ := C02_encode bits dim hb hdim lo hi p hp
  refine ⟨_, _, h1 c hc, h1 c hc, ?_, ?_⟩
  · rw [depth_path hdim (zPath_isPath _ _ _), zPath_length]
  · rw [truncate, depth_path hdim (zPath_isPath _ _ _), zPath_length]
    simp

/-- What the code does instead: whatever depth is asked for, the key has depth `max_depth`: the root marker is placed for
a full-depth key while the digits are written from the lowest position. -/
theorem C03_always_full_depth (bits dim : Nat) (hb : 0 < bits) (hdim : 0 < dim) (lo hi p : Nat → K)
    (hp : InBox dim lo hi p) (d : Nat) (hd : d ≤ maxDepth bits dim) :
    ∃ v, Morton.encodeDepth bits dim lo hi p d = some v ∧ depth dim v = maxDepth bits dim := by
  obtain ⟨c, hc, _⟩ := cellCoords_spec (bits := bits) hb hdim hp
  refine ⟨_, by rw [Morton.encodeDepth, if_pos hd, hc]; rfl, ?_⟩
  show depth dim (Morton.interleave bits dim c d) = _
  have h3 := maxDepth_mul_lt (dim := dim) hb
  have hd2 : d * dim ≤ maxDepth bits dim * dim := Nat.mul_le_mul_right _ hd
  have htb : ∀ q, (Morton.interleave bits dim c d).testBit q =
      (decide (maxDepth bits dim * dim = q) ||
        (decide (q / dim < d ∧ 0 < dim) && (c (q % dim)).testBit (maxDepth bits dim - d + q / dim))) := by
    intro q
    rw [Morton.interleave, interleave_foldl_testBit _ _ _ _ _ (by omega), key_min_eq hb, Nat.testBit_two_pow]
  have hlo : 2 ^ (maxDepth bits dim * dim) ≤ Morton.interleave bits dim c d := by
    apply Nat.ge_two_pow_of_testBit
    rw [htb]; simp
  have hhi : Morton.interleave bits dim c d < 2 ^ (maxDepth bits dim * dim + 1) := by
    apply Nat.lt_pow_two_of_testBit
    intro q hq
    rw [htb]
    have h4 : ¬ (maxDepth bits dim * dim = q) := by omega
    have h5 : ¬ (q / dim < d) := by
      rw [Nat.div_lt_iff_lt_mul hdim]; omega
    simp [h4, h5]
  obtain ⟨ds, h4, h5, h6⟩ := exists_path (dim := dim) (maxDepth bits dim) _ hlo hhi
  rw [← h6, depth_path hdim h4, h5]

/-- So the stated property fails for every depth below the maximum, at every point. -/
theorem C03_violated (bits dim : Nat) (hb : 0 < bits) (hdim : 0 < dim) (lo hi p : Nat → K)
    (hp : InBox dim lo hi p) (d : Nat) (hd : d < maxDepth bits dim) :
    ¬ ∃ v, Morton.encodeDepth bits dim lo hi p d = some v ∧ depth dim v = d := by
  rintro ⟨v, h1, h2⟩
  obtain ⟨w, h3, h4⟩ := C03_always_full_depth bits dim hb hdim lo hi p hp d (by omega)
  rw [h1] at h3
  cases h3
  omega

/-- Non-vacuity: a point of the unit square, depth 1 of 3. -/
example : InBox 2 (fun _ => (0 : ℚ)) (fun _ => 1) (fun _ => 1 / 3) ∧ 1 < maxDepth 7 2 :=
  ⟨fun _ _ => by norm_num, by decide⟩

end FleCSPH
