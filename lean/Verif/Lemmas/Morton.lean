import Mathlib.Tactic.Ring
import Mathlib.Tactic.FieldSimp
import Mathlib.Tactic.Linarith
import Mathlib.Tactic.Positivity
import Mathlib.Tactic.NormNum
import Verif.Model.Morton
import Verif.Spec.Grid
import Verif.Lemmas.Key

namespace FleCSPH
open Spec Key Morton

/-! Bits of the loops. -/

theorem foldl_or_testBit {α} (f : α → Nat) (l : List α) (v q : Nat) :
    (l.foldl (fun v x => v ||| f x) v).testBit q = (v.testBit q || l.any (fun x => (f x).testBit q)) := by
  induction l generalizing v with
  | nil => simp
  | cons x l ih => rw [List.foldl_cons, ih]; simp [Nat.testBit_or, Bool.or_assoc]

theorem bitOf (x i : Nat) : (x &&& (1 <<< i)) >>> i = (x.testBit i).toNat := by
  apply Nat.eq_of_testBit_eq
  intro j
  rw [Nat.testBit_shiftRight, Nat.testBit_and, Nat.one_shiftLeft, Nat.testBit_two_pow]
  cases j with
  | zero => cases x.testBit i <;> simp
  | succ j => cases x.testBit i <;> simp [Nat.testBit_succ]

theorem bool_toNat_lt (b : Bool) : b.toNat < 2 := by cases b <;> decide

theorem shiftBit_testBit (b : Bool) (p q : Nat) : (b.toNat <<< p).testBit q = (b && decide (q = p)) := by
  rw [Nat.testBit_shiftLeft]
  by_cases h : q = p
  · subst h; cases b <;> simp
  · by_cases h2 : p ≤ q
    · have : 0 < q - p := by omega
      obtain ⟨r, hr⟩ := Nat.exists_eq_succ_of_ne_zero (Nat.pos_iff_ne_zero.mp this)
      cases b <;> simp [h, h2, hr, Nat.testBit_succ]
    · simp [h2, h]

theorem interleaveLevel_testBit {bits dim : Nat} (c : Nat → Nat) (i k v q : Nat)
    (hk : (k + 1) * dim ≤ bits) :
    (interleaveLevel bits dim c i k v).testBit q =
      (v.testBit q || (decide (q / dim = k ∧ 0 < dim) && (c (q % dim)).testBit i)) := by
  rw [interleaveLevel, foldl_or_testBit]
  congr 1
  rw [Bool.eq_iff_iff]
  simp only [List.any_eq_true, List.mem_range, bitOf, Nat.testBit_mod_two_pow, shiftBit_testBit, Bool.and_eq_true,
    decide_eq_true_eq]
  constructor
  · rintro ⟨j, hj, _, h1, h2⟩
    subst h2
    have e1 : (k * dim + j) / dim = k := by
      rw [Nat.mul_comm, Nat.mul_add_div (by omega), Nat.div_eq_of_lt hj]; rfl
    have e2 : (k * dim + j) % dim = j := by rw [Nat.mul_comm, Nat.mul_add_mod, Nat.mod_eq_of_lt hj]
    rw [e1, e2]; exact ⟨⟨rfl, by omega⟩, h1⟩
  · rintro ⟨⟨h1, h2⟩, h3⟩
    refine ⟨q % dim, Nat.mod_lt _ h2, ?_, h3, ?_⟩
    · have := Nat.mod_lt q h2
      have e := Nat.div_add_mod q dim
      rw [h1] at e
      rw [Nat.add_mul, Nat.mul_comm k] at hk; omega
    · have e := Nat.div_add_mod q dim
      rw [h1, Nat.mul_comm] at e; exact e.symm

theorem interleave_foldl_testBit {bits dim : Nat} (c : Nat → Nat) (s n v q : Nat) (hn : n * dim ≤ bits) :
    ((List.range n).foldl (fun v k => interleaveLevel bits dim c (s + k) k v) v).testBit q =
      (v.testBit q || (decide (q / dim < n ∧ 0 < dim) && (c (q % dim)).testBit (s + q / dim))) := by
  induction n with
  | zero => simp
  | succ n ih =>
    rw [List.range_succ, List.foldl_append, List.foldl_cons, List.foldl_nil, interleaveLevel_testBit _ _ _ _ _ hn,
      ih (by rw [Nat.add_mul] at hn; omega), Bool.or_assoc]
    congr 1
    rw [Bool.eq_iff_iff]
    simp only [Bool.or_eq_true, Bool.and_eq_true, decide_eq_true_eq]
    constructor
    · rintro (⟨⟨h1, h2⟩, h3⟩ | ⟨⟨h1, h2⟩, h3⟩)
      · exact ⟨⟨by omega, h2⟩, h3⟩
      · exact ⟨⟨by omega, h2⟩, by rw [h1]; exact h3⟩
    · rintro ⟨⟨h1, h2⟩, h3⟩
      rcases Nat.lt_succ_iff_lt_or_eq.mp h1 with h | h
      · exact Or.inl ⟨⟨h, h2⟩, h3⟩
      · exact Or.inr ⟨⟨h, h2⟩, by rw [← h]; exact h3⟩

theorem key_min_eq {bits dim : Nat} (hb : 0 < bits) : Key.min bits dim = 2 ^ (maxDepth bits dim * dim) := by
  have h3 := maxDepth_mul_lt (dim := dim) hb
  rw [Key.min, Nat.one_shiftLeft, Nat.mod_eq_of_lt (Nat.pow_lt_pow_right (by omega) h3)]

/-! Z-order paths. -/

theorem zDigit_lt (dim : Nat) (c : Nat → Nat) : zDigit dim c < 2 ^ dim := by
  induction dim with
  | zero => simp [zDigit]
  | succ d ih =>
    rw [zDigit, Nat.pow_succ]
    have : c d % 2 * 2 ^ d ≤ 1 * 2 ^ d := Nat.mul_le_mul_right _ (by omega)
    omega

theorem zDigit_testBit (dim : Nat) (c : Nat → Nat) (j : Nat) :
    (zDigit dim c).testBit j = (decide (j < dim) && (c j).testBit 0) := by
  induction dim with
  | zero => simp [zDigit]
  | succ d ih =>
    rw [zDigit, Nat.add_comm, Nat.mul_comm, Nat.testBit_two_pow_mul_add _ (zDigit_lt d c)]
    by_cases h : j < d
    · rw [if_pos h, ih]; simp [h, Nat.lt_succ_of_lt h]
    · rw [if_neg h]
      by_cases h2 : j = d
      · subst h2; simp
      · have h3 : ¬ j < d + 1 := by omega
        obtain ⟨r, hr⟩ : ∃ r, j - d = r + 1 := ⟨j - d - 1, by omega⟩
        rw [hr]
        have h4 : (c d % 2) / 2 = 0 := by omega
        simp [h3, Nat.testBit_succ, h4]

theorem zPath_length (dim m : Nat) (c : Nat → Nat) : (zPath dim m c).length = m := by
  induction m generalizing c with
  | zero => rfl
  | succ m ih => simp [zPath, ih]

theorem zPath_isPath (dim m : Nat) (c : Nat → Nat) : IsPath dim (zPath dim m c) := by
  induction m generalizing c with
  | zero => exact IsPath.nil
  | succ m ih => exact IsPath.snoc.mpr ⟨ih _, zDigit_lt _ _⟩

theorem zPath_testBit {dim : Nat} (hdim : 0 < dim) (m : Nat) (c : Nat → Nat) (q : Nat) :
    (pathKey dim (zPath dim m c)).testBit q =
      (decide (q = m * dim) || (decide (q < m * dim) && (c (q % dim)).testBit (q / dim))) := by
  induction m generalizing c q with
  | zero =>
    cases q with
    | zero => simp [zPath, pathKey]
    | succ q => simp [zPath, pathKey, Nat.testBit_succ]
  | succ m ih =>
    rw [zPath, pathKey_snoc, Nat.mul_comm, Nat.testBit_two_pow_mul_add _ (zDigit_lt _ _)]
    have e : (m + 1) * dim = m * dim + dim := by ring
    by_cases h : q < dim
    · rw [if_pos h, zDigit_testBit, Nat.mod_eq_of_lt h, Nat.div_eq_of_lt h]
      have h1 : q ≠ (m + 1) * dim := by omega
      have h2 : q < (m + 1) * dim := by omega
      simp [h, h1, h2]
    · rw [if_neg h, ih]
      obtain ⟨r, rfl⟩ : ∃ r, q = r + dim := ⟨q - dim, by omega⟩
      rw [Nat.add_sub_cancel, Nat.add_mod_right, Nat.add_div_right _ hdim, e]
      have e1 : (r + dim = m * dim + dim) = (r = m * dim) := by simp
      have e2 : (r + dim < m * dim + dim) = (r < m * dim) := by simp
      simp only [e1, e2, Nat.testBit_succ]

/-- The full-depth key is the Z-order path of the cell. -/
theorem interleave_full {bits dim : Nat} (hb : 0 < bits) (hdim : 0 < dim) (c : Nat → Nat) :
    interleave bits dim c (maxDepth bits dim) = pathKey dim (zPath dim (maxDepth bits dim) c) := by
  have h3 := maxDepth_mul_lt (dim := dim) hb
  apply Nat.eq_of_testBit_eq
  intro q
  rw [interleave, interleave_foldl_testBit _ _ _ _ _ (by omega), zPath_testBit hdim, key_min_eq hb,
    Nat.testBit_two_pow]
  simp only [Nat.sub_self, Nat.zero_add, hdim, and_true]
  have e1 : (maxDepth bits dim * dim = q) = (q = maxDepth bits dim * dim) := by simp [eq_comm]
  have e2 : (q / dim < maxDepth bits dim) = (q < maxDepth bits dim * dim) := by
    simp [Nat.div_lt_iff_lt_mul hdim]
  simp only [e1, e2]

theorem zDigit_congr {dim : Nat} {c e : Nat → Nat} (h : ∀ j < dim, c j % 2 = e j % 2) :
    zDigit dim c = zDigit dim e := by
  induction dim with
  | zero => rfl
  | succ d ih => rw [zDigit, zDigit, ih (fun j hj => h j (by omega)), h d (by omega)]

theorem zPath_congr {dim m : Nat} {c e : Nat → Nat} (h : ∀ j < dim, c j = e j) : zPath dim m c = zPath dim m e := by
  induction m generalizing c e with
  | zero => rfl
  | succ m ih =>
    rw [zPath, zPath, ih (fun j hj => by rw [h j hj]), zDigit_congr (fun j hj => by rw [h j hj])]

theorem zDigit_inj {dim : Nat} {c e : Nat → Nat} (h : zDigit dim c = zDigit dim e) : ∀ j < dim, c j % 2 = e j % 2 := by
  intro j hj
  have h1 := zDigit_testBit dim c j
  rw [h, zDigit_testBit] at h1
  simp only [hj, decide_true, Bool.true_and, Nat.testBit_zero, decide_eq_decide] at h1
  omega

theorem zPath_inj {dim m : Nat} {c e : Nat → Nat} (hc : ∀ j < dim, c j < 2 ^ m) (he : ∀ j < dim, e j < 2 ^ m)
    (h : zPath dim m c = zPath dim m e) : ∀ j < dim, c j = e j := by
  induction m generalizing c e with
  | zero => intro j hj; have := hc j hj; have := he j hj; simp at *; omega
  | succ m ih =>
    rw [zPath, zPath] at h
    obtain ⟨h1, h2⟩ := List.append_inj' h rfl
    intro j hj
    have k1 := ih (c := fun j => c j / 2) (e := fun j => e j / 2)
      (fun j hj => by have := hc j hj; rw [Nat.pow_succ] at this; omega)
      (fun j hj => by have := he j hj; rw [Nat.pow_succ] at this; omega) h1 j hj
    have k2 := zDigit_inj (by simpa using h2) j hj
    omega

/-- Every digit is the digit of some parities. -/
theorem zDigit_surj {dim b : Nat} (h : b < 2 ^ dim) : zDigit dim (fun j => (b.testBit j).toNat) = b := by
  apply Nat.eq_of_testBit_eq
  intro j
  rw [zDigit_testBit]
  by_cases hj : j < dim
  · cases b.testBit j <;> simp [hj]
  · have : b.testBit j = false := Nat.testBit_lt_two_pow (Nat.lt_of_lt_of_le h (Nat.pow_le_pow_right (by omega) (by omega)))
    simp [hj, this]

/-- Every path is the path of a cell. -/
theorem zPath_surj {dim : Nat} {ds : List Nat} (h : IsPath dim ds) :
    ∃ c : Nat → Nat, (∀ j, c j < 2 ^ ds.length) ∧ zPath dim ds.length c = ds := by
  induction ds using snocInd with
  | nil => exact ⟨fun _ => 0, fun _ => by simp, rfl⟩
  | snoc l b ih =>
    obtain ⟨hl, hb⟩ := IsPath.snoc.mp h
    obtain ⟨c, hc, e⟩ := ih hl
    refine ⟨fun j => c j * 2 + (b.testBit j).toNat, ?_, ?_⟩
    · intro j
      have h1 := hc j
      have h2 := bool_toNat_lt (b.testBit j)
      rw [List.length_append, List.length_singleton, Nat.pow_succ]
      show c j * 2 + (b.testBit j).toNat < _
      omega
    · rw [List.length_append, List.length_singleton, zPath]
      have e1 : (fun j => (c j * 2 + (b.testBit j).toNat) / 2) = c := by
        funext j; have h2 := bool_toNat_lt (b.testBit j); omega
      rw [e1, e]
      congr 2
      rw [← zDigit_surj hb]
      apply zDigit_congr
      intro j _
      rw [zDigit_surj hb]
      omega

/-- Taking a prefix of the path is halving the coordinates. -/
theorem zPath_take (dim m d : Nat) (hd : d ≤ m) (c : Nat → Nat) :
    (zPath dim m c).take d = zPath dim d (fun j => c j / 2 ^ (m - d)) := by
  induction m generalizing c with
  | zero =>
    obtain rfl : d = 0 := by omega
    rfl
  | succ m ih =>
    by_cases h : d = m + 1
    · subst h
      rw [List.take_of_length_le (by rw [zPath_length])]
      simp
    · rw [zPath, List.take_append_of_le_length (by rw [zPath_length]; omega), ih (by omega)]
      congr 1
      funext j
      rw [Nat.div_div_eq_div_mul, Nat.mul_comm, ← Nat.pow_succ]
      congr 2
      omega

/-! Decoding. -/

theorem andBit (id j : Nat) : ((1 <<< j) &&& id) >>> j = (id.testBit j).toNat := by rw [Nat.and_comm, bitOf]

theorem or_shiftBit {x d : Nat} (b : Bool) (hx : x < 2 ^ d) : x ||| (b.toNat <<< d) = x + b.toNat * 2 ^ d := by
  rw [Nat.or_comm, ← Nat.shiftLeft_add_eq_or_of_lt hx, Nat.shiftLeft_eq, Nat.add_comm]

theorem pathKey_zPath_testBit_low {dim : Nat} (hdim : 0 < dim) (m : Nat) (c : Nat → Nat) (j : Nat) (hj : j < dim) :
    ((pathKey dim (zPath dim (m + 1) c)).testBit j).toNat = c j % 2 := by
  rw [zPath_testBit hdim, Nat.mod_eq_of_lt hj, Nat.div_eq_of_lt hj]
  have h1 : j ≠ (m + 1) * dim := by rw [Nat.add_mul]; omega
  have h2 : j < (m + 1) * dim := by rw [Nat.add_mul]; omega
  simp only [h1, h2, decide_false, decide_true, Bool.false_or, Bool.true_and, Nat.testBit_zero]
  by_cases h : c j % 2 = 1
  · simp [h]
  · have : c j % 2 = 0 := by omega
    simp [this]

theorem pathKey_zPath_shift {dim : Nat} (m : Nat) (c : Nat → Nat) :
    pathKey dim (zPath dim (m + 1) c) >>> dim = pathKey dim (zPath dim m (fun j => c j / 2)) := by
  rw [zPath, Nat.shiftRight_eq_div_pow, pathKey_snoc_div (zDigit_lt _ _)]

theorem pathKey_zPath_lt {dim : Nat} (m : Nat) (c : Nat → Nat) : 0 < pathKey dim (zPath dim m c) :=
  pathKey_pos _ _

theorem deinterleave_path {dim : Nat} (hdim : 0 < dim) (m : Nat) (c a : Nat → Nat) (d fuel : Nat) (hf : m ≤ fuel)
    (ha : ∀ j < dim, a j < 2 ^ d) (hc : ∀ j < dim, c j < 2 ^ m) :
    ∃ r, deinterleave dim fuel (pathKey dim (zPath dim m c)) a d = (r, d + m) ∧ ∀ j < dim, r j = a j + c j * 2 ^ d := by
  induction m generalizing c a d fuel with
  | zero =>
    refine ⟨a, ?_, ?_⟩
    · cases fuel with
      | zero => rfl
      | succ fuel =>
        have : (1 : Nat) >>> dim = 0 := by rw [Nat.shiftRight_eq_div_pow, Nat.div_eq_of_lt (Nat.one_lt_two_pow (by omega))]
        simp [deinterleave, zPath, pathKey, this]
    · intro j hj; have := hc j hj; simp at this; simp [this]
  | succ m ih =>
    cases fuel with
    | zero => omega
    | succ fuel =>
      rw [deinterleave, pathKey_zPath_shift]
      have hne : pathKey dim (zPath dim m (fun j => c j / 2)) ≠ 0 := (pathKey_zPath_lt _ _).ne'
      rw [if_pos hne]
      simp only [andBit]
      obtain ⟨r, hr, hr2⟩ := ih (fun j => c j / 2)
        (fun j => a j ||| (((pathKey dim (zPath dim (m + 1) c)).testBit j).toNat <<< d)) (d + 1) fuel (by omega)
        (fun j hj => by
          rw [or_shiftBit _ (ha j hj), pathKey_zPath_testBit_low hdim m c j hj]
          have := ha j hj
          have h2 : c j % 2 * 2 ^ d ≤ 1 * 2 ^ d := Nat.mul_le_mul_right _ (by omega)
          rw [Nat.pow_succ]; omega)
        (fun j hj => by have := hc j hj; rw [Nat.pow_succ] at this; omega)
      refine ⟨r, by rw [hr]; congr 1; omega, ?_⟩
      intro j hj
      rw [hr2 j hj, or_shiftBit _ (ha j hj), pathKey_zPath_testBit_low hdim m c j hj, Nat.pow_succ]
      have e := Nat.div_add_mod (c j) 2
      calc a j + c j % 2 * 2 ^ d + c j / 2 * (2 ^ d * 2) = a j + (2 * (c j / 2) + c j % 2) * 2 ^ d := by ring
        _ = _ := by rw [e]

theorem deinterleaveRoot_path {dim : Nat} (hdim : 0 < dim) (m : Nat) (c a : Nat → Nat) (d fuel : Nat) (hf : m ≤ fuel)
    (ha : ∀ j < dim, a j < 2 ^ d) (hc : ∀ j < dim, c j < 2 ^ m) :
    ∃ r, deinterleaveRoot dim fuel (pathKey dim (zPath dim m c)) a d = some (r, d + m) ∧
      ∀ j < dim, r j = a j + c j * 2 ^ d := by
  induction m generalizing c a d fuel with
  | zero =>
    refine ⟨a, ?_, ?_⟩
    · cases fuel <;> simp [deinterleaveRoot, zPath, pathKey, root]
    · intro j hj; have := hc j hj; simp at this; simp [this]
  | succ m ih =>
    cases fuel with
    | zero => omega
    | succ fuel =>
      have hne : pathKey dim (zPath dim (m + 1) c) ≠ root := by
        intro h0
        have h1 := pathKey_bounds (zPath_isPath dim (m + 1) c)
        rw [zPath_length, h0] at h1
        have : 1 < 2 ^ ((m + 1) * dim) := Nat.one_lt_two_pow (by rw [Nat.add_mul]; omega)
        simp only [root] at h1; omega
      rw [deinterleaveRoot, if_pos hne, pathKey_zPath_shift]
      simp only [andBit]
      obtain ⟨r, hr, hr2⟩ := ih (fun j => c j / 2)
        (fun j => a j ||| (((pathKey dim (zPath dim (m + 1) c)).testBit j).toNat <<< d)) (d + 1) fuel (by omega)
        (fun j hj => by
          rw [or_shiftBit _ (ha j hj), pathKey_zPath_testBit_low hdim m c j hj]
          have := ha j hj
          have h2 : c j % 2 * 2 ^ d ≤ 1 * 2 ^ d := Nat.mul_le_mul_right _ (by omega)
          rw [Nat.pow_succ]; omega)
        (fun j hj => by have := hc j hj; rw [Nat.pow_succ] at this; omega)
      refine ⟨r, by rw [hr]; congr 2; omega, ?_⟩
      intro j hj
      rw [hr2 j hj, or_shiftBit _ (ha j hj), pathKey_zPath_testBit_low hdim m c j hj, Nat.pow_succ]
      have e := Nat.div_add_mod (c j) 2
      calc a j + c j % 2 * 2 ^ d + c j / 2 * (2 ^ d * 2) = a j + (2 * (c j / 2) + c j % 2) * 2 ^ d := by ring
        _ = _ := by rw [e]

/-! The grid of cells of a field. -/

variable {K : Type*} [Field K] [LinearOrder K] [IsStrictOrderedRing K] [FloorSemiring K]

theorem inCell_unique {lo hi p : K} {n a b : Nat} (h : lo < hi) (ha : InCell lo hi n a p) (hb : InCell lo hi n b p) :
    a = b := by
  have key : ∀ {a b : Nat}, InCell lo hi n a p → InCell lo hi n b p → a ≤ b := by
    intro a b ha hb
    obtain ⟨ha1, ha2, _⟩ := ha
    obtain ⟨hb1, _, hb3⟩ := hb
    have hn : (0 : K) < n := by exact_mod_cast (by omega : 0 < n)
    have hs : 0 < hi - lo := by linarith
    rcases hb3 with h3 | ⟨h3, _⟩
    · have h4 : (hi - lo) * a / n < (hi - lo) * (b + 1) / n := by linarith
      rw [div_lt_div_iff_of_pos_right hn, mul_lt_mul_iff_right₀ hs] at h4
      have : a < b + 1 := by exact_mod_cast h4
      omega
    · omega
  exact Nat.le_antisymm (key ha hb) (key hb ha)

theorem cellCoord_spec {bits dim : Nat} (hb : 0 < bits) (hdim : 0 < dim) {lo hi p : K} (h : lo < hi) (h1 : lo ≤ p)
    (h2 : p ≤ hi) : ∃ c, cellCoord bits dim lo hi p = some c ∧ InCell lo hi (2 ^ maxDepth bits dim) c p := by
  have hs : 0 < hi - lo := by linarith
  have hmb : maxDepth bits dim < bits := by
    have h3 := maxDepth_mul_lt (dim := dim) hb
    have := Nat.le_mul_of_pos_right (maxDepth bits dim) hdim
    omega
  set m := maxDepth bits dim with hm
  have hp : (0 : K) < 2 ^ m := by positivity
  set x : K := (p - lo) / (hi - lo) * 2 ^ m with hx
  have hx0 : 0 ≤ x := by
    rw [hx]
    have : 0 ≤ (p - lo) / (hi - lo) := div_nonneg (by linarith) hs.le
    positivity
  have hxle : x ≤ 2 ^ m := by
    rw [hx]
    have : (p - lo) / (hi - lo) ≤ 1 := by rw [div_le_one hs]; linarith
    nlinarith
  have hlt : x < 2 ^ bits := by
    have : (2 : K) ^ m < 2 ^ bits := pow_lt_pow_right₀ (by norm_num) hmb
    linarith
  have hpx : p = lo + (hi - lo) * x / 2 ^ m := by rw [hx]; field_simp; ring
  refine ⟨Nat.min (2 ^ m - 1) ⌊x⌋₊, ?_, ?_⟩
  · rw [cellCoord]
    simp only []
    rw [if_neg hs.ne', ← hm, ← hx, if_neg (by push Not; exact ⟨by linarith, hlt⟩)]
  · have hpn : 0 < 2 ^ m := Nat.two_pow_pos m
    by_cases hcase : x < 2 ^ m
    · have hf : ⌊x⌋₊ < 2 ^ m := by rw [Nat.floor_lt hx0]; exact_mod_cast hcase
      have hmin : Nat.min (2 ^ m - 1) ⌊x⌋₊ = ⌊x⌋₊ := Nat.min_eq_right (by omega)
      rw [hmin]
      refine ⟨hf, ?_, Or.inl ?_⟩
      · have := Nat.floor_le hx0
        push_cast
        rw [hpx]
        have : (hi - lo) * (⌊x⌋₊ : K) / 2 ^ m ≤ (hi - lo) * x / 2 ^ m := by
          rw [div_le_div_iff_of_pos_right hp]; exact mul_le_mul_of_nonneg_left this hs.le
        linarith
      · have := Nat.lt_floor_add_one x
        push_cast
        rw [hpx]
        have : (hi - lo) * x / 2 ^ m < (hi - lo) * ((⌊x⌋₊ : K) + 1) / 2 ^ m := by
          rw [div_lt_div_iff_of_pos_right hp]; exact mul_lt_mul_of_pos_left this hs
        linarith
    · have hxe : x = 2 ^ m := le_antisymm hxle (not_lt.mp hcase)
      have hpe : p = hi := by rw [hpx, hxe]; field_simp; ring
      have hf : ⌊x⌋₊ = 2 ^ m := by
        rw [hxe]; exact_mod_cast Nat.floor_natCast (2 ^ m)
      have hmin : Nat.min (2 ^ m - 1) ⌊x⌋₊ = 2 ^ m - 1 := Nat.min_eq_left (by omega)
      rw [hmin]
      refine ⟨by omega, ?_, Or.inr ⟨by omega, hpe⟩⟩
      rw [hpe]
      have hc : ((2 ^ m - 1 : Nat) : K) ≤ 2 ^ m := by exact_mod_cast Nat.sub_le _ _
      push_cast
      have : (hi - lo) * ((2 ^ m - 1 : Nat) : K) / 2 ^ m ≤ hi - lo := by
        rw [div_le_iff₀ hp]; exact mul_le_mul_of_nonneg_left hc hs.le
      linarith

theorem cellCoords_spec {bits dim : Nat} (hb : 0 < bits) (hdim : 0 < dim) {lo hi p : Nat → K}
    (h : ∀ j < dim, lo j < hi j ∧ lo j ≤ p j ∧ p j ≤ hi j) :
    ∃ c, cellCoords bits dim lo hi p = some c ∧ ∀ j < dim, InCell (lo j) (hi j) (2 ^ maxDepth bits dim) (c j) (p j) := by
  have h' := fun j hj => cellCoord_spec hb hdim (h j hj).1 (h j hj).2.1 (h j hj).2.2
  refine ⟨fun j => (cellCoord bits dim (lo j) (hi j) (p j)).getD 0, ?_, ?_⟩
  · rw [cellCoords, if_pos]
    intro j hj
    obtain ⟨c, hc, _⟩ := h' j hj
    simp [hc]
  · intro j hj
    obtain ⟨c, hc, hc2⟩ := h' j hj
    simpa [hc] using hc2

theorem encode_spec {bits dim : Nat} (hb : 0 < bits) (hdim : 0 < dim) {lo hi p : Nat → K}
    (h : ∀ j < dim, lo j < hi j ∧ lo j ≤ p j ∧ p j ≤ hi j) (c : Nat → Nat)
    (hc : ∀ j < dim, InCell (lo j) (hi j) (2 ^ maxDepth bits dim) (c j) (p j)) :
    encode bits dim lo hi p = some (pathKey dim (zPath dim (maxDepth bits dim) c)) := by
  obtain ⟨e, he, he2⟩ := cellCoords_spec hb hdim h
  rw [encode, encodeDepth, if_pos (le_refl _), he, Option.map_some, interleave_full hb hdim]
  congr 2
  exact zPath_congr fun j hj => inCell_unique (h j hj).1 (he2 j hj) (hc j hj)

theorem halve_eq (c d : Nat) (a b : K) :
    halve c d (a, b) = (a + (b - a) * ((c % 2 ^ d : Nat) : K) / 2 ^ d, a + (b - a) * (((c % 2 ^ d : Nat) : K) + 1) / 2 ^ d) := by
  induction d generalizing a b with
  | zero => simp [halve, Nat.mod_one]
  | succ d ih =>
    have hp : (2 : K) ^ d ≠ 0 := by positivity
    have hbit : (c &&& (1 <<< d) ≠ 0) ↔ c.testBit d = true := by
      have e : c &&& (1 <<< d) = (c.testBit d).toNat <<< d := by
        apply Nat.eq_of_testBit_eq
        intro q
        rw [shiftBit_testBit, Nat.testBit_and, Nat.one_shiftLeft, Nat.testBit_two_pow]
        by_cases h : q = d
        · subst h; simp
        · have h' : ¬ d = q := fun e => h e.symm
          simp [h, h']
      rw [e, Nat.shiftLeft_eq]
      cases c.testBit d <;> simp
    have hm : c % 2 ^ (d + 1) = c % 2 ^ d + 2 ^ d * (c.testBit d).toNat := by
      rw [Nat.mod_pow_succ, Nat.toNat_testBit]
    rw [halve]
    simp only []
    cases hcb : c.testBit d with
    | true =>
      rw [if_pos (hbit.mpr hcb), ih, hm, hcb]
      push_cast
      simp only [Bool.toNat_true, Nat.cast_one, pow_succ]
      ext <;> simp only [] <;> field_simp <;> ring
    | false =>
      rw [if_neg (by rw [hbit, hcb]; simp), ih, hm, hcb]
      push_cast
      simp only [Bool.toNat_false, Nat.cast_zero, pow_succ]
      ext <;> simp only [] <;> field_simp <;> ring

/-- Grouping `2^(m-d)` cells of the fine grid gives a cell of the coarse grid. -/
theorem inCell_coarsen {lo hi p : K} {m d c : Nat} (h : lo < hi) (hd : d ≤ m) (hc : InCell lo hi (2 ^ m) c p) :
    InCell lo hi (2 ^ d) (c / 2 ^ (m - d)) p := by
  obtain ⟨h1, h2, h3⟩ := hc
  have hs : 0 < hi - lo := by linarith
  obtain ⟨k, rfl⟩ : ∃ k, m = d + k := ⟨m - d, by omega⟩
  simp only [Nat.add_sub_cancel_left]
  have hpd : (0 : K) < 2 ^ d := by positivity
  have hpk : (0 : K) < 2 ^ k := by positivity
  have hlow : c / 2 ^ k * 2 ^ k ≤ c := Nat.div_mul_le_self _ _
  have hhigh : c + 1 ≤ (c / 2 ^ k + 1) * 2 ^ k := Nat.lt_mul_of_div_lt (Nat.lt_succ_self _) (Nat.two_pow_pos _)
  have hlow' : ((c / 2 ^ k : Nat) : K) * 2 ^ k ≤ c := by exact_mod_cast hlow
  have hhigh' : (c : K) + 1 ≤ (((c / 2 ^ k : Nat) : K) + 1) * 2 ^ k := by exact_mod_cast hhigh
  have hlt : c / 2 ^ k < 2 ^ d := by
    rw [Nat.div_lt_iff_lt_mul (Nat.two_pow_pos _), ← Nat.pow_add]; exact h1
  refine ⟨hlt, ?_, ?_⟩
  · refine le_trans ?_ h2
    have : (hi - lo) * ((c / 2 ^ k : Nat) : K) / ((2 ^ d : Nat) : K) ≤ (hi - lo) * c / ((2 ^ (d + k) : Nat) : K) := by
      push_cast
      rw [div_le_div_iff₀ hpd (by positivity), pow_add]
      nlinarith [mul_le_mul_of_nonneg_left hlow' (mul_pos hs hpd).le]
    linarith
  · rcases h3 with h3 | ⟨h3, h4⟩
    · left
      refine lt_of_lt_of_le h3 ?_
      have : (hi - lo) * ((c : K) + 1) / ((2 ^ (d + k) : Nat) : K) ≤
          (hi - lo) * (((c / 2 ^ k : Nat) : K) + 1) / ((2 ^ d : Nat) : K) := by
        push_cast
        rw [div_le_div_iff₀ (by positivity) hpd, pow_add]
        nlinarith [mul_le_mul_of_nonneg_left hhigh' (mul_pos hs hpd).le]
      linarith
    · right
      refine ⟨?_, h4⟩
      rw [h3, Nat.pow_add] at hhigh
      have := Nat.le_of_mul_le_mul_right hhigh (Nat.two_pow_pos k)
      omega

end FleCSPH
