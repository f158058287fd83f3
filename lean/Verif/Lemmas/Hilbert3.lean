import Verif.Lemmas.Hilbert

namespace FleCSPH
open Spec Key Hilbert

/-! Three dimensions: recursive description with exact (non wrapping) rotations. -/

def hrot3 (n : Nat) (b c : V3) : V3 :=
  if b.1 = 0 then
    if b.2.2 = 0 then
      if b.2.1 = 0 then (c.2.1, c.2.2, c.1) else (c.1, n - 1 - c.2.1, n - 1 - c.2.2)
    else (c.2.2, c.1, c.2.1)
  else
    if b.2.2 = 0 then
      if b.2.1 = 0 then (n - 1 - c.2.1, c.2.2, n - 1 - c.1) else (c.1, n - 1 - c.2.1, n - 1 - c.2.2)
    else (n - 1 - c.2.2, n - 1 - c.1, c.2.1)

def hunrot3 (n : Nat) (b c : V3) : V3 :=
  if b.1 = 0 then
    if b.2.2 = 0 then
      if b.2.1 = 0 then (c.2.2, c.1, c.2.1) else (c.1, n - 1 - c.2.1, n - 1 - c.2.2)
    else (c.2.1, c.2.2, c.1)
  else
    if b.2.2 = 0 then
      if b.2.1 = 0 then (n - 1 - c.2.2, n - 1 - c.1, c.2.1) else (c.1, n - 1 - c.2.1, n - 1 - c.2.2)
    else (n - 1 - c.2.1, c.2.2, n - 1 - c.1)

def hdig3 (b : V3) : Nat := (7 * b.1) ^^^ (3 * b.2.1) ^^^ b.2.2

def hbits3 (d : Nat) : V3 :=
  match d with
  | 0 => (0, 0, 0) | 1 => (0, 0, 1) | 2 => (0, 1, 1) | 3 => (0, 1, 0)
  | 4 => (1, 1, 0) | 5 => (1, 1, 1) | 6 => (1, 0, 1) | _ => (1, 0, 0)

def henc3 : Nat → V3 → Nat
  | 0, _ => 0
  | k + 1, c =>
    let b : V3 := (c.1 / 2 ^ k % 2, c.2.1 / 2 ^ k % 2, c.2.2 / 2 ^ k % 2)
    hdig3 b * 8 ^ k + henc3 k (hrot3 (2 ^ k) b (c.1 % 2 ^ k, c.2.1 % 2 ^ k, c.2.2 % 2 ^ k))

def hdec3 : Nat → Nat → V3
  | 0, _ => (0, 0, 0)
  | k + 1, v =>
    let b := hbits3 (v / 8 ^ k % 8)
    let c := hunrot3 (2 ^ k) b (hdec3 k (v % 8 ^ k))
    (c.1 + b.1 * 2 ^ k, c.2.1 + b.2.1 * 2 ^ k, c.2.2 + b.2.2 * 2 ^ k)

abbrev Lt3 (n : Nat) (c : V3) : Prop := c.1 < n ∧ c.2.1 < n ∧ c.2.2 < n

theorem hrot3_lt {n : Nat} {b c : V3} (h : Lt3 n c) : Lt3 n (hrot3 n b c) := by
  obtain ⟨x, y, z⟩ := c
  simp only [Lt3] at h
  unfold hrot3 Lt3
  repeat' split
  all_goals (try dsimp only); omega

theorem hunrot3_lt {n : Nat} {b c : V3} (h : Lt3 n c) : Lt3 n (hunrot3 n b c) := by
  obtain ⟨x, y, z⟩ := c
  simp only [Lt3] at h
  unfold hunrot3 Lt3
  repeat' split
  all_goals (try dsimp only); omega

theorem hunrot3_hrot3 {n : Nat} {b c : V3} (h : Lt3 n c) : hunrot3 n b (hrot3 n b c) = c := by
  obtain ⟨x, y, z⟩ := c
  simp only [Lt3] at h
  unfold hrot3 hunrot3
  by_cases h1 : b.1 = 0 <;> by_cases h2 : b.2.2 = 0 <;> by_cases h3 : b.2.1 = 0 <;>
    simp only [h1, h2, h3, if_true, if_false, Prod.mk.injEq, true_and, and_true] <;> omega

theorem hrot3_hunrot3 {n : Nat} {b c : V3} (h : Lt3 n c) : hrot3 n b (hunrot3 n b c) = c := by
  obtain ⟨x, y, z⟩ := c
  simp only [Lt3] at h
  unfold hrot3 hunrot3
  by_cases h1 : b.1 = 0 <;> by_cases h2 : b.2.2 = 0 <;> by_cases h3 : b.2.1 = 0 <;>
    simp only [h1, h2, h3, if_true, if_false, Prod.mk.injEq, true_and, and_true] <;> omega

theorem hdig3_lt (x y z : Nat) : hdig3 (x % 2, y % 2, z % 2) < 8 := by
  rcases Nat.mod_two_eq_zero_or_one x with h | h <;> rcases Nat.mod_two_eq_zero_or_one y with h' | h' <;>
    rcases Nat.mod_two_eq_zero_or_one z with h'' | h'' <;> rw [h, h', h''] <;> decide

theorem hbits3_hdig3 (x y z : Nat) : hbits3 (hdig3 (x % 2, y % 2, z % 2)) = (x % 2, y % 2, z % 2) := by
  rcases Nat.mod_two_eq_zero_or_one x with h | h <;> rcases Nat.mod_two_eq_zero_or_one y with h' | h' <;>
    rcases Nat.mod_two_eq_zero_or_one z with h'' | h'' <;> rw [h, h', h''] <;> decide

theorem hdig3_hbits3 (d : Nat) (h : d < 8) :
    hdig3 (hbits3 d) = d ∧ (hbits3 d).1 < 2 ∧ (hbits3 d).2.1 < 2 ∧ (hbits3 d).2.2 < 2 := by
  interval_cases d <;> decide

theorem henc3_lt (k : Nat) (c : V3) : henc3 k c < 8 ^ k := by
  induction k generalizing c with
  | zero => simp [henc3]
  | succ k ih =>
    rw [henc3]
    try dsimp only
    have h1 := hdig3_lt (c.1 / 2 ^ k) (c.2.1 / 2 ^ k) (c.2.2 / 2 ^ k)
    generalize hdig3 (c.1 / 2 ^ k % 2, c.2.1 / 2 ^ k % 2, c.2.2 / 2 ^ k % 2) = d at *
    have h2 := ih (hrot3 (2 ^ k) (c.1 / 2 ^ k % 2, c.2.1 / 2 ^ k % 2, c.2.2 / 2 ^ k % 2)
      (c.1 % 2 ^ k, c.2.1 % 2 ^ k, c.2.2 % 2 ^ k))
    have h3 : d * 8 ^ k ≤ 7 * 8 ^ k := Nat.mul_le_mul_right _ (by omega)
    rw [Nat.pow_succ]; omega

theorem hdec3_lt (k v : Nat) : Lt3 (2 ^ k) (hdec3 k v) := by
  induction k generalizing v with
  | zero => simp [hdec3, Lt3]
  | succ k ih =>
    rw [hdec3]
    try dsimp only
    have hd := hdig3_hbits3 (v / 8 ^ k % 8) (Nat.mod_lt _ (by omega))
    have hr := hunrot3_lt (b := hbits3 (v / 8 ^ k % 8)) (ih (v % 8 ^ k))
    generalize hbits3 (v / 8 ^ k % 8) = b at *
    have k1 : b.1 * 2 ^ k ≤ 1 * 2 ^ k := Nat.mul_le_mul_right _ (by omega)
    have k2 : b.2.1 * 2 ^ k ≤ 1 * 2 ^ k := Nat.mul_le_mul_right _ (by omega)
    have k3 : b.2.2 * 2 ^ k ≤ 1 * 2 ^ k := Nat.mul_le_mul_right _ (by omega)
    unfold Lt3 at *
    rw [Nat.pow_succ]
    try dsimp only
    omega

theorem hdec3_henc3 (k : Nat) (c : V3) (h : Lt3 (2 ^ k) c) : hdec3 k (henc3 k c) = c := by
  induction k generalizing c with
  | zero =>
    obtain ⟨x, y, z⟩ := c
    simp [Lt3] at h
    simp [hdec3, h]
  | succ k ih =>
    obtain ⟨x, y, z⟩ := c
    simp only [Lt3] at h
    obtain ⟨h1, h2, h3⟩ := h
    rw [hdec3, henc3]
    try dsimp only
    have hp8 : 0 < 8 ^ k := Nat.pow_pos (by omega)
    have hp := Nat.two_pow_pos k
    have hl := henc3_lt k (hrot3 (2 ^ k) (x / 2 ^ k % 2, y / 2 ^ k % 2, z / 2 ^ k % 2) (x % 2 ^ k, y % 2 ^ k, z % 2 ^ k))
    have a := div_mod_of_add (b := hdig3 (x / 2 ^ k % 2, y / 2 ^ k % 2, z / 2 ^ k % 2)) hl
    rw [Nat.add_comm] at a
    have hx : Lt3 (2 ^ k) (x % 2 ^ k, y % 2 ^ k, z % 2 ^ k) := ⟨Nat.mod_lt _ hp, Nat.mod_lt _ hp, Nat.mod_lt _ hp⟩
    rw [a.1, a.2, Nat.mod_eq_of_lt (hdig3_lt _ _ _), hbits3_hdig3, ih _ (hrot3_lt hx), hunrot3_hrot3 hx]
    simp only [Prod.mk.injEq]
    rw [Nat.pow_succ] at h1 h2 h3
    rw [Nat.mod_eq_of_lt (Nat.div_lt_of_lt_mul h1), Nat.mod_eq_of_lt (Nat.div_lt_of_lt_mul h2),
      Nat.mod_eq_of_lt (Nat.div_lt_of_lt_mul h3), Nat.mul_comm (x / 2 ^ k), Nat.mul_comm (y / 2 ^ k),
      Nat.mul_comm (z / 2 ^ k)]
    exact ⟨Nat.mod_add_div x _, Nat.mod_add_div y _, Nat.mod_add_div z _⟩

theorem henc3_hdec3 (k v : Nat) (h : v < 8 ^ k) : henc3 k (hdec3 k v) = v := by
  induction k generalizing v with
  | zero => simp at h; simp [henc3, h]
  | succ k ih =>
    have hp8 : 0 < 8 ^ k := Nat.pow_pos (by omega)
    have hvm : v % 8 ^ k < 8 ^ k := Nat.mod_lt _ hp8
    have hd := hdig3_hbits3 (v / 8 ^ k % 8) (Nat.mod_lt _ (by omega))
    have hl := hdec3_lt k (v % 8 ^ k)
    have hr := hunrot3_lt (b := hbits3 (v / 8 ^ k % 8)) hl
    have hrr := hrot3_hunrot3 (b := hbits3 (v / 8 ^ k % 8)) hl
    rw [henc3, hdec3]
    try dsimp only
    generalize hbits3 (v / 8 ^ k % 8) = b at *
    obtain ⟨b1, b2, b3⟩ := b
    dsimp only at *
    generalize hunrot3 (2 ^ k) (b1, b2, b3) (hdec3 k (v % 8 ^ k)) = c at *
    obtain ⟨x, y, z⟩ := c
    simp only [Lt3] at hr
    have a1 := div_mod_of_add (b := b1) hr.1
    have a2 := div_mod_of_add (b := b2) hr.2.1
    have a3 := div_mod_of_add (b := b3) hr.2.2
    rw [a1.1, a1.2, a2.1, a2.2, a3.1, a3.2, Nat.mod_eq_of_lt hd.2.1, Nat.mod_eq_of_lt hd.2.2.1,
      Nat.mod_eq_of_lt hd.2.2.2, hrr, ih _ hvm, hd.1]
    have hq : v / 8 ^ k < 8 := Nat.div_lt_of_lt_mul (by rwa [Nat.pow_succ] at h)
    rw [Nat.mod_eq_of_lt hq, Nat.mul_comm]
    exact Nat.div_add_mod v _

/-! The loop. -/

theorem rotation3d_mod {W k : Nat} (hk : k ≤ W) (c b : V3) (h0 : b.1 < 2) (h1 : b.2.1 < 2) (h2 : b.2.2 < 2) :
    ((rotation3d W (2 ^ k) c b).1 % 2 ^ k, (rotation3d W (2 ^ k) c b).2.1 % 2 ^ k, (rotation3d W (2 ^ k) c b).2.2 % 2 ^ k) =
      hrot3 (2 ^ k) b (c.1 % 2 ^ k, c.2.1 % 2 ^ k, c.2.2 % 2 ^ k) := by
  obtain ⟨b0, b1, b2⟩ := b
  obtain ⟨x, y, z⟩ := c
  have hp := Nat.two_pow_pos k
  have mm : ∀ x, 2 ^ k - 1 - (2 ^ k - 1 - x % 2 ^ k) = x % 2 ^ k := by
    intro x; have := Nat.mod_lt x hp; omega
  dsimp only at h0 h1 h2
  interval_cases b0 <;> interval_cases b1 <;> interval_cases b2 <;>
    simp [rotation3d, hrot3, rotate270x, rotate270y, rotate270z, rotate90y, rotate90z, rotate180x, mirror_mod hk, mm]

theorem eight_pow (k : Nat) : 2 ^ k * 2 ^ k * 2 ^ k = 8 ^ k := by rw [← Nat.mul_pow, ← Nat.mul_pow]

theorem encodeLoop3_eq {W : Nat} (k : Nat) (hk : k ≤ W) (c : V3) (v : Nat)
    (hv : v + 8 ^ k ≤ 2 ^ W) : encodeLoop3 W k c v = v + henc3 k (c.1 % 2 ^ k, c.2.1 % 2 ^ k, c.2.2 % 2 ^ k) := by
  induction k generalizing c v with
  | zero => simp [encodeLoop3, henc3]
  | succ k ih =>
    have hp8 : 0 < 8 ^ k := Nat.pow_pos (by omega)
    rw [encodeLoop3, henc3]
    simp only [hbit_eq, eight_pow]
    have hdiv : ∀ x : Nat, x % 2 ^ (k + 1) / 2 ^ k % 2 = x / 2 ^ k % 2 := by
      intro x
      rw [Nat.mod_pow_succ, Nat.mul_comm]
      have := div_mod_of_add (b := x / 2 ^ k % 2) (Nat.mod_lt x (Nat.two_pow_pos k))
      rw [this.1, Nat.mod_mod]
    have hmod : ∀ x : Nat, x % 2 ^ (k + 1) % 2 ^ k = x % 2 ^ k := fun x =>
      Nat.mod_mod_of_dvd _ (Nat.pow_dvd_pow 2 (by omega))
    rw [hdiv, hdiv, hdiv, hmod, hmod, hmod]
    have hd := hdig3_lt (c.1 / 2 ^ k) (c.2.1 / 2 ^ k) (c.2.2 / 2 ^ k)
    have hdef : (7 * (c.1 / 2 ^ k % 2)) ^^^ (3 * (c.2.1 / 2 ^ k % 2)) ^^^ (c.2.2 / 2 ^ k % 2) =
      hdig3 (c.1 / 2 ^ k % 2, c.2.1 / 2 ^ k % 2, c.2.2 / 2 ^ k % 2) := rfl
    rw [Nat.pow_succ] at hv
    rw [hdef]
    have hrot := rotation3d_mod (W := W) (k := k) (by omega) c (c.1 / 2 ^ k % 2, c.2.1 / 2 ^ k % 2, c.2.2 / 2 ^ k % 2)
      (Nat.mod_lt _ (by omega)) (Nat.mod_lt _ (by omega)) (Nat.mod_lt _ (by omega))
    generalize hdig3 (c.1 / 2 ^ k % 2, c.2.1 / 2 ^ k % 2, c.2.2 / 2 ^ k % 2) = d at *
    have hdm : 8 ^ k * d ≤ 8 ^ k * 7 := Nat.mul_le_mul_left _ (by omega)
    rw [Nat.mod_eq_of_lt (by omega : v + 8 ^ k * d < 2 ^ W), ih (by omega) _ _ (by omega), hrot,
      Nat.mul_comm (8 ^ k), Nat.add_assoc]

end FleCSPH
