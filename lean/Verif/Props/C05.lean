import Mathlib.Data.Rat.Floor
import Verif.Lemmas.Hilbert3
import Verif.Props.C02

/-!
C05 (2D Hilbert), C06 (3D Hilbert), C07 (1D).

`W` is the width of the key word. In two dimensions the code passes a coordinate through a 32-bit `int`, so the theorems
need coordinates of at most 31 bits (`W ≤ 64`) and words at least as wide as an `int`.
-/
namespace FleCSPH
open Spec Key Hilbert

variable {K : Type*} [Field K] [LinearOrder K] [IsStrictOrderedRing K] [FloorSemiring K]

theorem maxDepth2_bounds {W : Nat} (h32 : 32 ≤ W) (h64 : W ≤ 64) :
    maxDepth W 2 ≤ 31 ∧ maxDepth W 2 * 2 < W ∧ 0 < maxDepth W 2 := by
  unfold maxDepth; omega

theorem four_pow_eq (m : Nat) : 4 ^ m = 2 ^ (m * 2) := by rw [Nat.mul_comm, Nat.pow_mul]

theorem encodeCell2_full {W : Nat} (h32 : 32 ≤ W) (h64 : W ≤ 64) (c : Nat × Nat)
    (hc : c.1 < 2 ^ maxDepth W 2 ∧ c.2 < 2 ^ maxDepth W 2) :
    encodeCell2 W (maxDepth W 2) c = 4 ^ maxDepth W 2 + henc (maxDepth W 2) c := by
  obtain ⟨hm, hm2, _⟩ := maxDepth2_bounds h32 h64
  have hle : 2 ^ (maxDepth W 2 * 2 + 1) ≤ 2 ^ W := Nat.pow_le_pow_right (by omega) (by omega)
  have hf := four_pow_eq (maxDepth W 2)
  rw [encodeCell2, Nat.sub_self, Nat.zero_mul, Nat.shiftRight_zero, key_min_eq (by omega), ← hf,
    encodeLoop2_eq h32 _ (by omega) _ _ (by rw [hf]; rw [Nat.pow_succ] at hle; omega),
    Nat.mod_eq_of_lt hc.1, Nat.mod_eq_of_lt hc.2]

/-- The key of a cell of the grid is a full-depth key. -/
theorem C05_key_range (W : Nat) (h32 : 32 ≤ W) (h64 : W ≤ 64) (c : Nat × Nat)
    (hc : c.1 < 2 ^ maxDepth W 2 ∧ c.2 < 2 ^ maxDepth W 2) :
    Key.min W 2 ≤ encodeCell2 W (maxDepth W 2) c ∧ encodeCell2 W (maxDepth W 2) c ≤ Key.max W 2 ∧
      depth 2 (encodeCell2 W (maxDepth W 2) c) = maxDepth W 2 := by
  have h1 := encodeCell2_full h32 h64 c hc
  have h2 := henc_lt (maxDepth W 2) c
  have hf := four_pow_eq (maxDepth W 2)
  obtain ⟨ds, d1, d2, d3⟩ := exists_path (dim := 2) (maxDepth W 2) (encodeCell2 W (maxDepth W 2) c)
    (by omega) (by rw [Nat.pow_succ]; omega)
  have hpk := pathKey_replicate_max 2 (maxDepth W 2)
  have hmax : Key.max W 2 = 2 ^ (maxDepth W 2 * 2 + 1) - 1 := by
    rw [← hpk]
    have h3 := (maxDepth2_bounds h32 h64).2.1
    rw [Key.max, pathKey_replicate_max]
    apply Nat.eq_of_testBit_eq
    intro j
    rw [maxLoop_testBit _ _ _ _ _ (by omega), Nat.testBit_two_pow_sub_one, Nat.testBit_two_pow_sub_one]
    split
    · have : j < W := by omega
      simp [this]; omega
    · simp; omega
  refine ⟨?_, ?_, ?_⟩
  · rw [key_min_eq (by omega)]; omega
  · rw [hmax, Nat.pow_succ]; omega
  · rw [← d3, depth_path (by decide) d1, d2]

/-- Decoding the key of a cell gives the cell back. -/
theorem C05_decode_encode (W : Nat) (h32 : 32 ≤ W) (h64 : W ≤ 64) (c : Nat × Nat)
    (hc : c.1 < 2 ^ maxDepth W 2 ∧ c.2 < 2 ^ maxDepth W 2) :
    decodeCell2 W (encodeCell2 W (maxDepth W 2) c) = some c := by
  obtain ⟨hm, _, _⟩ := maxDepth2_bounds h32 h64
  have hl := henc_lt (maxDepth W 2) c
  rw [encodeCell2_full h32 h64 c hc, decodeCell2,
    decodeLoop2_eq h32 _ 0 (by omega) _ (4 ^ maxDepth W 2 + henc (maxDepth W 2) c) (0, 0) (by simp [hdec]) (by simp)]
  have a := div_mod_of_add (b := 1) hl
  rw [Nat.one_mul, Nat.add_comm] at a
  simp only [Nat.zero_add, a.1, a.2, if_true]
  rw [hdec_henc _ _ hc.1 hc.2]

/-- Encoding the decoded cell of any full-depth key gives the key back: every full-depth key is the key of a cell. -/
theorem C05_encode_decode (W : Nat) (h32 : 32 ≤ W) (h64 : W ≤ 64) (v : Nat)
    (hv : 2 ^ (maxDepth W 2 * 2) ≤ v ∧ v < 2 ^ (maxDepth W 2 * 2 + 1)) :
    ∃ c, decodeCell2 W v = some c ∧ (c.1 < 2 ^ maxDepth W 2 ∧ c.2 < 2 ^ maxDepth W 2) ∧
      encodeCell2 W (maxDepth W 2) c = v := by
  obtain ⟨hm, _, _⟩ := maxDepth2_bounds h32 h64
  have hf := four_pow_eq (maxDepth W 2)
  rw [Nat.pow_succ, ← hf] at hv
  have hlt : v - 4 ^ maxDepth W 2 < 4 ^ maxDepth W 2 := by omega
  have a := div_mod_of_add (b := 1) hlt
  rw [Nat.one_mul, Nat.sub_add_cancel hv.1] at a
  have hb := hdec_lt (maxDepth W 2) (v - 4 ^ maxDepth W 2)
  refine ⟨hdec (maxDepth W 2) (v - 4 ^ maxDepth W 2), ?_, hb, ?_⟩
  · rw [decodeCell2, decodeLoop2_eq h32 _ 0 (by omega) _ v (0, 0) (by simp [hdec]) (by simp)]
    simp only [Nat.zero_add, a.1, a.2, if_true]
  · rw [encodeCell2_full h32 h64 _ hb, henc_hdec _ _ hlt]; omega

/-- Distinct cells have distinct keys. -/
theorem C05_injective (W : Nat) (h32 : 32 ≤ W) (h64 : W ≤ 64) (c e : Nat × Nat)
    (hc : c.1 < 2 ^ maxDepth W 2 ∧ c.2 < 2 ^ maxDepth W 2) (he : e.1 < 2 ^ maxDepth W 2 ∧ e.2 < 2 ^ maxDepth W 2)
    (h : encodeCell2 W (maxDepth W 2) c = encodeCell2 W (maxDepth W 2) e) : c = e := by
  have h1 := C05_decode_encode W h32 h64 c hc
  rw [h, C05_decode_encode W h32 h64 e he] at h1
  exact (Option.some.inj h1).symm

/-- Cells of consecutive keys share an edge: one coordinate is equal, the other differs by one. -/
theorem C05_adjacent (W : Nat) (h32 : 32 ≤ W) (h64 : W ≤ 64) (c e : Nat × Nat)
    (hc : c.1 < 2 ^ maxDepth W 2 ∧ c.2 < 2 ^ maxDepth W 2) (he : e.1 < 2 ^ maxDepth W 2 ∧ e.2 < 2 ^ maxDepth W 2)
    (h : encodeCell2 W (maxDepth W 2) e = encodeCell2 W (maxDepth W 2) c + 1) :
    (c.1 = e.1 ∧ (c.2 = e.2 + 1 ∨ e.2 = c.2 + 1)) ∨ (c.2 = e.2 ∧ (c.1 = e.1 + 1 ∨ e.1 = c.1 + 1)) := by
  rw [encodeCell2_full h32 h64 c hc, encodeCell2_full h32 h64 e he] at h
  have hl := henc_lt (maxDepth W 2) e
  have h' : henc (maxDepth W 2) e = henc (maxDepth W 2) c + 1 := by omega
  have := hdec_adjacent (maxDepth W 2) (henc (maxDepth W 2) c) (by omega)
  rw [← h', hdec_henc _ _ hc.1 hc.2, hdec_henc _ _ he.1 he.2] at this
  unfold l1 at this
  omega

/-- A key requested at depth `d` is the full-depth key without its last `max_depth - d` digits, and has depth `d`. -/
theorem C05_truncated (W : Nat) (h32 : 32 ≤ W) (h64 : W ≤ 64) (c : Nat × Nat)
    (hc : c.1 < 2 ^ maxDepth W 2 ∧ c.2 < 2 ^ maxDepth W 2) (d : Nat) (hd : d ≤ maxDepth W 2) :
    encodeCell2 W d c = truncate 2 (encodeCell2 W (maxDepth W 2) c) d ∧ depth 2 (encodeCell2 W d c) = d := by
  have h1 := (C05_key_range W h32 h64 c hc).2.2
  have e1 : encodeCell2 W d c = truncate 2 (encodeCell2 W (maxDepth W 2) c) d := by
    rw [truncate, h1, if_neg (by omega), encodeCell2, encodeCell2]; simp
  refine ⟨e1, ?_⟩
  have h2 := henc_lt (maxDepth W 2) c
  have hf := four_pow_eq (maxDepth W 2)
  have h3 := encodeCell2_full h32 h64 c hc
  obtain ⟨ds, d1, d2, d3⟩ := exists_path (dim := 2) (maxDepth W 2) (encodeCell2 W (maxDepth W 2) c)
    (by omega) (by rw [Nat.pow_succ]; omega)
  rw [e1, ← d3, truncate, depth_path (by decide) d1, if_neg (by omega), Nat.shiftRight_eq_div_pow,
    pathKey_div_take d1 (by omega)]
  have : IsPath 2 (ds.take (ds.length - (ds.length - d))) := IsPath.take d1 _
  rw [depth_path (by decide) this, List.length_take]; omega

/-- The whole round trip on points: the decoded point lies in the cell of the encoded point and has the same key. -/
theorem C05_points (W : Nat) (h32 : 32 ≤ W) (h64 : W ≤ 64) (lo hi p : Nat → K) (hp : InBox 2 lo hi p) :
    ∃ v q, encode2 W lo hi p (maxDepth W 2) = some v ∧ coordinates2 W lo hi v = some q ∧ InBox 2 lo hi q ∧
      encode2 W lo hi q (maxDepth W 2) = some v ∧
      ∃ c : Nat → Nat, ∀ j < 2, InCell (lo j) (hi j) (2 ^ maxDepth W 2) (c j) (p j) ∧
        InCell (lo j) (hi j) (2 ^ maxDepth W 2) (c j) (q j) := by
  obtain ⟨c, hc, hcell⟩ := cellCoords_spec (bits := W) (by omega) (by decide) hp
  have hb : (c 0, c 1).1 < 2 ^ maxDepth W 2 ∧ (c 0, c 1).2 < 2 ^ maxDepth W 2 :=
    ⟨(hcell 0 (by decide)).1, (hcell 1 (by decide)).1⟩
  have hdec := C05_decode_encode W h32 h64 (c 0, c 1) hb
  have hcoord : ∀ j < 2, (if j = 0 then (c 0, c 1).1 else (c 0, c 1).2) = c j := by
    intro j hj
    have : j = 0 ∨ j = 1 := by omega
    rcases this with rfl | rfl <;> simp
  let q : Nat → K := fun j => lo j + (hi j - lo j) * ((if j = 0 then (c 0, c 1).1 else (c 0, c 1).2 : Nat) : K) / (2 : K) ^ maxDepth W 2
  have hqcell : ∀ j < 2, InCell (lo j) (hi j) (2 ^ maxDepth W 2) (c j) (q j) := by
    intro j hj
    have hs : 0 < hi j - lo j := by have := (hp j hj).1; linarith
    have hn : (0 : K) < 2 ^ maxDepth W 2 := by positivity
    simp only [q, hcoord j hj]
    refine ⟨(hcell j hj).1, by push_cast; exact le_refl _, Or.inl ?_⟩
    push_cast
    have : (hi j - lo j) * (c j : K) / 2 ^ maxDepth W 2 < (hi j - lo j) * ((c j : K) + 1) / 2 ^ maxDepth W 2 := by
      rw [div_lt_div_iff_of_pos_right hn]; nlinarith
    linarith
  have hqbox : InBox 2 lo hi q := by
    intro j hj
    have h0 := (hp j hj).1
    have hs : 0 < hi j - lo j := by linarith
    have hn : (0 : K) < 2 ^ maxDepth W 2 := by positivity
    simp only [q, hcoord j hj]
    refine ⟨h0, ?_, ?_⟩
    · have : 0 ≤ (hi j - lo j) * (c j : K) / 2 ^ maxDepth W 2 := by positivity
      linarith
    · have h2 : (c j : K) ≤ 2 ^ maxDepth W 2 := by exact_mod_cast (hcell j hj).1.le
      have : (hi j - lo j) * (c j : K) / 2 ^ maxDepth W 2 ≤ hi j - lo j := by
        rw [div_le_iff₀ hn]; exact mul_le_mul_of_nonneg_left h2 hs.le
      linarith
  refine ⟨_, q, by rw [encode2, if_pos (le_refl _), hc]; rfl, by rw [coordinates2, hdec]; rfl, hqbox, ?_, c,
    fun j hj => ⟨hcell j hj, hqcell j hj⟩⟩
  obtain ⟨e, he, hecell⟩ := cellCoords_spec (bits := W) (by omega) (by decide) hqbox
  have h0 : e 0 = c 0 := inCell_unique (hp 0 (by decide)).1 (hecell 0 (by decide)) (hqcell 0 (by decide))
  have h1 : e 1 = c 1 := inCell_unique (hp 1 (by decide)).1 (hecell 1 (by decide)) (hqcell 1 (by decide))
  rw [encode2, if_pos (le_refl _), he]
  simp only [Option.map_some, h0, h1]

/-- Non-vacuity: two cells of the 64-bit grid far from the origin and their consecutive keys. -/
example : (2 ^ 30 + 5 < 2 ^ maxDepth 64 2 ∧ 123456 < 2 ^ maxDepth 64 2) ∧
    decodeCell2 64 (encodeCell2 64 31 (2 ^ 30 + 5, 123456)) = some (2 ^ 30 + 5, 123456) ∧
    decodeCell2 64 (encodeCell2 64 31 (2 ^ 30 + 5, 123456) + 1) = some (2 ^ 30 + 5, 123457) := by
  decide +kernel

example : InBox 2 (fun _ => (0 : ℚ)) (fun _ => 1) (fun _ => 1 / 3) := fun _ _ => by norm_num

end FleCSPH
