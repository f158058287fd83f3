import Mathlib.Data.Rat.Floor
import Verif.Lemmas.Morton

/-!
C02 (Morton keys identify grid cells and decode back), C03 (explicit depth), C04 (range of a branch).

`InCell` and `zPath` (Spec/Grid.lean) are the independent specification of the grid and of the Z-order.
-/
namespace FleCSPH
open Spec Key

variable {K : Type*} [Field K] [LinearOrder K] [IsStrictOrderedRing K] [FloorSemiring K]

/-- `p` is a point of the box `[lo, hi]`, which is not degenerate. -/
def InBox (dim : Nat) (lo hi p : Nat → K) : Prop := ∀ j < dim, lo j < hi j ∧ lo j ≤ p j ∧ p j ≤ hi j

/-- Encoding a point of the box is always defined, and the key is the Z-order path of the (unique) cell of the point. -/
theorem C02_encode (bits dim : Nat) (hb : 0 < bits) (hdim : 0 < dim) (lo hi p : Nat → K) (hp : InBox dim lo hi p) :
    (∃ c : Nat → Nat, ∀ j < dim, InCell (lo j) (hi j) (2 ^ maxDepth bits dim) (c j) (p j)) ∧
    ∀ c : Nat → Nat, (∀ j < dim, InCell (lo j) (hi j) (2 ^ maxDepth bits dim) (c j) (p j)) →
      Morton.encode bits dim lo hi p = some (pathKey dim (zPath dim (maxDepth bits dim) c)) := by
  refine ⟨?_, fun c hc => encode_spec hb hdim hp c hc⟩
  obtain ⟨c, _, hc⟩ := cellCoords_spec (bits := bits) hb hdim hp
  exact ⟨c, hc⟩

/-- Two points of the box get the same key exactly when they lie in the same cell. -/
theorem C02_same_key_iff (bits dim : Nat) (hb : 0 < bits) (hdim : 0 < dim) (lo hi p q : Nat → K)
    (hp : InBox dim lo hi p) (hq : InBox dim lo hi q) :
    Morton.encode bits dim lo hi p = Morton.encode bits dim lo hi q ↔
      ∃ c : Nat → Nat, ∀ j < dim, InCell (lo j) (hi j) (2 ^ maxDepth bits dim) (c j) (p j) ∧
        InCell (lo j) (hi j) (2 ^ maxDepth bits dim) (c j) (q j) := by
  obtain ⟨⟨c, hc⟩, h1⟩ := C02_encode bits dim hb hdim lo hi p hp
  obtain ⟨⟨e, he⟩, h2⟩ := C02_encode bits dim hb hdim lo hi q hq
  constructor
  · intro h
    rw [h1 c hc, h2 e he] at h
    have h3 := pathKey_inj hdim (zPath_isPath _ _ _) (zPath_isPath _ _ _) (Option.some.inj h)
    have h4 := zPath_inj (fun j hj => (hc j hj).1) (fun j hj => (he j hj).1) h3
    exact ⟨c, fun j hj => ⟨hc j hj, by rw [h4 j hj]; exact he j hj⟩⟩
  · rintro ⟨d, hd⟩
    rw [h1 d (fun j hj => (hd j hj).1), h2 d (fun j hj => (hd j hj).2)]

/-- Every full-depth key is the key of a point of the box. -/
theorem C02_surjective (bits dim : Nat) (hb : 0 < bits) (hdim : 0 < dim) (lo hi : Nat → K)
    (hbox : ∀ j < dim, lo j < hi j) (ds : List Nat) (h : IsPath dim ds) (hl : ds.length = maxDepth bits dim) :
    ∃ p, InBox dim lo hi p ∧ Morton.encode bits dim lo hi p = some (pathKey dim ds) := by
  obtain ⟨c, hc, e⟩ := zPath_surj h
  rw [hl] at hc e
  have hn : (0 : K) < 2 ^ maxDepth bits dim := by positivity
  have hcell : ∀ j < dim, InCell (lo j) (hi j) (2 ^ maxDepth bits dim) (c j)
      (lo j + (hi j - lo j) * (c j : K) / ((2 ^ maxDepth bits dim : Nat) : K)) := by
    intro j hj
    have hs : 0 < hi j - lo j := by have := hbox j hj; linarith
    refine ⟨hc j, le_refl _, Or.inl ?_⟩
    push_cast
    have : (hi j - lo j) * (c j : K) / 2 ^ maxDepth bits dim < (hi j - lo j) * ((c j : K) + 1) / 2 ^ maxDepth bits dim := by
      rw [div_lt_div_iff_of_pos_right hn]; nlinarith
    linarith
  have hp : InBox dim lo hi (fun j => lo j + (hi j - lo j) * (c j : K) / ((2 ^ maxDepth bits dim : Nat) : K)) := by
    intro j hj
    have hs : 0 < hi j - lo j := by have := hbox j hj; linarith
    refine ⟨hbox j hj, ?_, ?_⟩
    · have : 0 ≤ (hi j - lo j) * (c j : K) / ((2 ^ maxDepth bits dim : Nat) : K) := by positivity
      linarith
    · have h2 : (c j : K) ≤ 2 ^ maxDepth bits dim := by exact_mod_cast (hc j).le
      have : (hi j - lo j) * (c j : K) / ((2 ^ maxDepth bits dim : Nat) : K) ≤ hi j - lo j := by
        push_cast
        rw [div_le_iff₀ hn]; exact mul_le_mul_of_nonneg_left h2 hs.le
      linarith
  exact ⟨_, hp, by rw [encode_spec hb hdim hp c hcell, e]⟩

/-- Decoding the key of a point succeeds and yields a point of the same cell; re-encoding gives the same key.
`dim < bits` makes the grid have at least two cells per axis. -/
theorem C02_decode (bits dim : Nat) (hdim : 0 < dim) (hbd : dim < bits) (lo hi p : Nat → K) (hp : InBox dim lo hi p) :
    ∃ v q, Morton.encode bits dim lo hi p = some v ∧ Morton.coordinates bits dim lo hi v = some q ∧
      InBox dim lo hi q ∧ Morton.encode bits dim lo hi q = some v ∧
      ∃ c : Nat → Nat, ∀ j < dim, InCell (lo j) (hi j) (2 ^ maxDepth bits dim) (c j) (p j) ∧
        InCell (lo j) (hi j) (2 ^ maxDepth bits dim) (c j) (q j) := by
  have hb : 0 < bits := by omega
  obtain ⟨⟨c, hc⟩, h1⟩ := C02_encode bits dim hb hdim lo hi p hp
  have hm : 0 < maxDepth bits dim := Nat.div_pos (by omega) hdim
  set m := maxDepth bits dim with hmdef
  have hm2 : 2 ≤ 2 ^ m := by
    calc 2 = 2 ^ 1 := rfl
      _ ≤ 2 ^ m := Nat.pow_le_pow_right (by omega) hm
  obtain ⟨r, hr, hr2⟩ := deinterleave_path hdim m c (fun _ => 0) 0 (pathKey dim (zPath dim m c))
    (by have := length_le_pathKey hdim (zPath_isPath dim m c); rwa [zPath_length] at this)
    (fun j _ => by simp) (fun j hj => (hc j hj).1)
  let q : Nat → K := fun j => lo j + (hi j - lo j) * ((r j <<< (m - (0 + m)) : Nat) : K) / ((2 ^ m - 1 : Nat) : K)
  have hq : Morton.coordinates bits dim lo hi (pathKey dim (zPath dim m c)) = some q := by
    rw [Morton.coordinates, ← hmdef, hr]
    simp only []
    rw [if_neg (by omega)]
  have hcell : ∀ j < dim, InCell (lo j) (hi j) (2 ^ m) (c j) (q j) := by
    intro j hj
    have hs : 0 < hi j - lo j := by have := (hp j hj).1; linarith
    have hcj := (hc j hj).1
    have hrj : r j = c j := by rw [hr2 j hj]; simp
    have hM : ((2 ^ m - 1 : Nat) : K) = 2 ^ m - 1 := by
      rw [Nat.cast_sub (by omega)]; push_cast; rfl
    have hM0 : (0 : K) < 2 ^ m - 1 := by
      have : (2 : K) ≤ 2 ^ m := by exact_mod_cast hm2
      linarith
    have hMp : (0 : K) < 2 ^ m := by positivity
    have hcK : (c j : K) + 1 ≤ 2 ^ m := by exact_mod_cast hcj
    have hc0 : (0 : K) ≤ c j := Nat.cast_nonneg _
    have hqj : q j = lo j + (hi j - lo j) * (c j : K) / (2 ^ m - 1) := by
      simp only [q, hrj, Nat.zero_add, Nat.sub_self, Nat.shiftLeft_zero, hM]
    refine ⟨hcj, ?_, ?_⟩
    · rw [hqj]; push_cast
      have : (hi j - lo j) * (c j : K) / 2 ^ m ≤ (hi j - lo j) * (c j : K) / (2 ^ m - 1) := by
        rw [div_le_div_iff₀ hMp hM0]
        nlinarith [mul_nonneg hs.le hc0]
      linarith
    · by_cases hlast : c j + 1 = 2 ^ m
      · right
        refine ⟨hlast, ?_⟩
        have : (c j : K) = 2 ^ m - 1 := by
          have : (c j : K) + 1 = 2 ^ m := by exact_mod_cast hlast
          linarith
        rw [hqj, this]; field_simp; ring
      · left
        have h3 : (c j : K) + 1 < 2 ^ m := by exact_mod_cast (by omega : c j + 1 < 2 ^ m)
        rw [hqj]; push_cast
        have : (hi j - lo j) * (c j : K) / (2 ^ m - 1) < (hi j - lo j) * ((c j : K) + 1) / 2 ^ m := by
          rw [div_lt_div_iff₀ hM0 hMp]
          nlinarith [mul_pos hs (sub_pos.mpr h3)]
        linarith
  have hqbox : InBox dim lo hi q := by
    intro j hj
    have h0 := (hp j hj).1
    have hs : 0 < hi j - lo j := by linarith
    obtain ⟨k1, k2, k3⟩ := hcell j hj
    have hMp : (0 : K) < 2 ^ m := by positivity
    push_cast at k2 k3
    refine ⟨h0, ?_, ?_⟩
    · have : 0 ≤ (hi j - lo j) * (c j : K) / 2 ^ m := by positivity
      linarith
    · rcases k3 with k3 | ⟨_, k3⟩
      · have : (hi j - lo j) * ((c j : K) + 1) / 2 ^ m ≤ hi j - lo j := by
          rw [div_le_iff₀ hMp]
          have : (c j : K) + 1 ≤ 2 ^ m := by exact_mod_cast k1
          exact mul_le_mul_of_nonneg_left this hs.le
        linarith
      · linarith
  exact ⟨_, q, h1 c hc, hq, hqbox, encode_spec hb hdim hqbox c hcell, c, fun j hj => ⟨hc j hj, hcell j hj⟩⟩

/-- Non-vacuity and a check of the whole chain on one point: 7-bit keys in two dimensions (a grid of 8 x 8 cells), the
point (3/10, 9/10) of the unit square lies in cell (2,7), whose path is 2,3,2. -/
example : InBox 2 (fun _ => (0 : ℚ)) (fun _ => 1) (fun j => if j = 0 then 3 / 10 else 9 / 10) ∧
    Morton.encode 7 2 (fun _ => (0 : ℚ)) (fun _ => 1) (fun j => if j = 0 then 3 / 10 else 9 / 10) =
      some (pathKey 2 [2, 3, 2]) := by
  have hb : InBox 2 (fun _ => (0 : ℚ)) (fun _ => 1) (fun j => if j = 0 then 3 / 10 else 9 / 10) := by
    intro j hj
    by_cases h : j = 0 <;> simp [h] <;> norm_num
  refine ⟨hb, ?_⟩
  rw [(C02_encode 7 2 (by decide) (by decide) _ _ _ hb).2 (fun j => if j = 0 then 2 else 7)]
  · decide
  · intro j hj
    have hm : maxDepth 7 2 = 3 := rfl
    rw [hm]
    by_cases h : j = 0 <;> simp [h, InCell] <;> norm_num

end FleCSPH
