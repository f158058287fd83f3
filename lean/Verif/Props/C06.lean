import Verif.Props.C05

/-! C06 (3D Hilbert keys) and C07 (1D Hilbert keys). -/
namespace FleCSPH
open Spec Key Hilbert

theorem eight_pow_eq (m : Nat) : 8 ^ m = 2 ^ (m * 3) := by rw [Nat.mul_comm, Nat.pow_mul]

theorem encodeCell3_full {W : Nat} (hW : 0 < W) (c : V3) (hc : Lt3 (2 ^ maxDepth W 3) c) :
    encodeCell3 W (maxDepth W 3) c = 8 ^ maxDepth W 3 + henc3 (maxDepth W 3) c := by
  have hm2 := maxDepth_mul_lt (dim := 3) hW
  have hle : 2 ^ (maxDepth W 3 * 3 + 1) ≤ 2 ^ W := Nat.pow_le_pow_right (by omega) (by omega)
  have hf := eight_pow_eq (maxDepth W 3)
  rw [encodeCell3, Nat.sub_self, Nat.zero_mul, Nat.shiftRight_zero, key_min_eq hW, ← hf,
    encodeLoop3_eq _ (by omega) _ _ (by rw [hf]; rw [Nat.pow_succ] at hle; omega),
    Nat.mod_eq_of_lt hc.1, Nat.mod_eq_of_lt hc.2.1, Nat.mod_eq_of_lt hc.2.2]

/-- Partial C06: distinct cells of the 3D grid have distinct full-depth keys. Missing: `coordinates()` does not return the
cell (`C06_decode_violated`). -/
theorem C06_injective_partial (W : Nat) (hW : 0 < W) (x y z x' y' z' : Nat)
    (h : x < 2 ^ maxDepth W 3 ∧ y < 2 ^ maxDepth W 3 ∧ z < 2 ^ maxDepth W 3)
    (h' : x' < 2 ^ maxDepth W 3 ∧ y' < 2 ^ maxDepth W 3 ∧ z' < 2 ^ maxDepth W 3)
    (he : encodeCell3 W (maxDepth W 3) (x, y, z) = encodeCell3 W (maxDepth W 3) (x', y', z')) :
    x = x' ∧ y = y' ∧ z = z' := by
  rw [encodeCell3_full hW _ h, encodeCell3_full hW _ h'] at he
  have h1 := hdec3_henc3 (maxDepth W 3) (x, y, z) h
  rw [Nat.add_left_cancel he, hdec3_henc3 (maxDepth W 3) (x', y', z') h'] at h1
  simpa [eq_comm] using h1

/-- Partial C06: the keys of the cells are exactly the full-depth keys. -/
theorem C06_surjective_partial (W : Nat) (hW : 0 < W) (v : Nat) :
    (2 ^ (maxDepth W 3 * 3) ≤ v ∧ v < 2 ^ (maxDepth W 3 * 3 + 1)) ↔
      ∃ x y z, (x < 2 ^ maxDepth W 3 ∧ y < 2 ^ maxDepth W 3 ∧ z < 2 ^ maxDepth W 3) ∧
        encodeCell3 W (maxDepth W 3) (x, y, z) = v := by
  have hf := eight_pow_eq (maxDepth W 3)
  rw [Nat.pow_succ, ← hf]
  constructor
  · intro hv
    have hlt : v - 8 ^ maxDepth W 3 < 8 ^ maxDepth W 3 := by omega
    have hb := hdec3_lt (maxDepth W 3) (v - 8 ^ maxDepth W 3)
    refine ⟨_, _, _, hb, ?_⟩
    have : encodeCell3 W (maxDepth W 3) (hdec3 (maxDepth W 3) (v - 8 ^ maxDepth W 3)) = v := by
      rw [encodeCell3_full hW _ hb, henc3_hdec3 _ _ hlt]; omega
    exact this
  · rintro ⟨x, y, z, h, rfl⟩
    rw [encodeCell3_full hW _ h]
    have := henc3_lt (maxDepth W 3) (x, y, z)
    omega

/-- The code's 3D `coordinates()` does not invert the encoding: with 64-bit keys, cell (0,0,1) decodes to another cell. -/
theorem C06_decode_violated :
    ∃ c : V3, Lt3 (2 ^ maxDepth 64 3) c ∧ decodeCell3 64 (encodeCell3 64 (maxDepth 64 3) c) ≠ some c :=
  ⟨(1, 0, 0), by decide +kernel, by decide +kernel⟩

/-- The 3D keys do not follow a Hilbert curve: consecutive keys of cells that are not neighbours. -/
theorem C06_adjacency_violated :
    ∃ c e : V3, Lt3 (2 ^ maxDepth 64 3) c ∧ Lt3 (2 ^ maxDepth 64 3) e ∧
      encodeCell3 64 (maxDepth 64 3) e = encodeCell3 64 (maxDepth 64 3) c + 1 ∧ c.1 + 2 ≤ e.1 :=
  ⟨(0, 0, 1), (2, 0, 0), by decide +kernel, by decide +kernel, by decide +kernel, by decide +kernel⟩

/-- The inverse rotation that exists in the code but is never called does undo the rotation (so a correct decoder could be
built from it). -/
theorem C06_unrotation (W k : Nat) (hk : k ≤ W) (c b : V3) (hc : Lt3 (2 ^ k) c) (h0 : b.1 < 2) (h1 : b.2.1 < 2)
    (h2 : b.2.2 < 2) : unrotation3d W (2 ^ k) (rotation3d W (2 ^ k) c b) b = c := by
  obtain ⟨b0, b1, b2⟩ := b
  obtain ⟨x, y, z⟩ := c
  simp only [Lt3] at hc
  have m1 : ∀ x, x < 2 ^ k → mirror W (2 ^ k) x = 2 ^ k - 1 - x := fun x hx => mirror_small hk hx
  have m2 : ∀ x, x < 2 ^ k → mirror W (2 ^ k) (mirror W (2 ^ k) x) = x := by
    intro x hx
    rw [m1 x hx, m1 _ (by omega)]; omega
  dsimp only at h0 h1 h2
  interval_cases b0 <;> interval_cases b1 <;> interval_cases b2 <;>
    simp [rotation3d, unrotation3d, rotate270x, rotate270y, rotate270z, rotate90x, rotate90y, rotate90z, rotate180x,
      m2 x hc.1, m2 y hc.2.1, m2 z hc.2.2]

/-- Non-vacuity. -/
example : Lt3 (2 ^ maxDepth 64 3) (2 ^ 20 + 3, 77, 12345) ∧
    encodeCell3 64 (maxDepth 64 3) (2 ^ 20 + 3, 77, 12345) ≠ encodeCell3 64 (maxDepth 64 3) (2 ^ 20 + 3, 77, 12346) := by
  decide +kernel

/-- Partial C07: cells whose indices differ by more than the lowest bit are separated. Missing: two cells that differ only
in the lowest bit share their key (`C07_violated`), because the cell index is shifted right by one. -/
theorem C07_injective_partial (W : Nat) (hW : 0 < W) (c e : Nat) (hc : c < 2 ^ maxDepth W 1) (he : e < 2 ^ maxDepth W 1) :
    (∃ v, encodeCell1 W (maxDepth W 1) c = some v) ∧
    (encodeCell1 W (maxDepth W 1) c = encodeCell1 W (maxDepth W 1) e ↔ c / 2 = e / 2) := by
  have hmin : Key.min W 1 = 1 <<< maxDepth W 1 := by rw [key_min_eq hW, Nat.mul_one, Nat.one_shiftLeft]
  have hand : Key.min W 1 &&& (1 <<< maxDepth W 1) ≠ 0 := by
    rw [hmin, Nat.and_self, Nat.one_shiftLeft]; exact (Nat.two_pow_pos _).ne'
  have hval : ∀ c, c < 2 ^ maxDepth W 1 →
      encodeCell1 W (maxDepth W 1) c = some (2 ^ maxDepth W 1 + c / 2) := by
    intro c hc
    rw [encodeCell1]
    try dsimp only
    rw [if_pos hand, Nat.sub_self, Nat.shiftRight_zero, hmin, Nat.shiftRight_eq_div_pow, Nat.pow_one]
    have hlt : c / 2 < 2 ^ maxDepth W 1 := by omega
    rw [← Nat.shiftLeft_add_eq_or_of_lt hlt, Nat.one_shiftLeft]
  refine ⟨⟨_, hval c hc⟩, ?_⟩
  rw [hval c hc, hval e he]
  simp

/-- Two different cells, each in the grid, with the same key. -/
theorem C07_violated : ∃ c e, c ≠ e ∧ c < 2 ^ maxDepth 64 1 ∧ e < 2 ^ maxDepth 64 1 ∧
    encodeCell1 64 (maxDepth 64 1) c = encodeCell1 64 (maxDepth 64 1) e :=
  ⟨4, 5, by decide, by decide +kernel, by decide +kernel, by decide +kernel⟩

end FleCSPH
