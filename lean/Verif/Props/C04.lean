import Mathlib.Data.Rat.Floor
import Verif.Props.C02

/-! C04: the box returned by `range()` for a Morton branch. -/
namespace FleCSPH
open Spec Key

variable {K : Type*} [Field K] [LinearOrder K] [IsStrictOrderedRing K] [FloorSemiring K]

theorem range_path {dim : Nat} (hdim : 0 < dim) (lo hi : Nat → K) (n : Nat) (c : Nat → Nat)
    (hc : ∀ j < dim, c j < 2 ^ n) :
    ∃ box, Morton.range dim lo hi (pathKey dim (zPath dim n c)) = some box ∧
      ∀ j < dim, box j = (lo j + (hi j - lo j) * (c j : K) / 2 ^ n, lo j + (hi j - lo j) * ((c j : K) + 1) / 2 ^ n) := by
  obtain ⟨r, hr, hr2⟩ := deinterleaveRoot_path hdim n c (fun _ => 0) 0 (pathKey dim (zPath dim n c))
    (by have := length_le_pathKey hdim (zPath_isPath dim n c); rwa [zPath_length] at this)
    (fun j _ => by simp) hc
  refine ⟨_, by rw [Morton.range, hr]; rfl, ?_⟩
  intro j hj
  have : r j = c j := by rw [hr2 j hj]; simp
  simp only [this, Nat.zero_add]
  rw [halve_eq, Nat.mod_eq_of_lt (hc j hj)]

/-- Membership in the box of a branch: closed below; open above except on the upper faces of the root box. -/
def InBranch (dim : Nat) (hi : Nat → K) (box : Nat → K × K) (p : Nat → K) : Prop :=
  ∀ j < dim, (box j).1 ≤ p j ∧ (p j < (box j).2 ∨ ((box j).2 = hi j ∧ p j = hi j))

/-- A point of the root box lies in the box of a branch exactly when the branch is an ancestor of the point's key
(the key shifted by the missing digits). -/
theorem C04_range_exact (bits dim : Nat) (hb : 0 < bits) (hdim : 0 < dim) (lo hi p : Nat → K) (hp : InBox dim lo hi p)
    (ds : List Nat) (hds : IsPath dim ds) (hl : ds.length ≤ maxDepth bits dim) :
    ∃ v box, Morton.encode bits dim lo hi p = some v ∧ Morton.range dim lo hi (pathKey dim ds) = some box ∧
      (truncate dim v ds.length = pathKey dim ds ↔ InBranch dim hi box p) := by
  obtain ⟨⟨c, hc⟩, h1⟩ := C02_encode bits dim hb hdim lo hi p hp
  obtain ⟨b, hbb, hbe⟩ := zPath_surj hds
  obtain ⟨box, hbox, hbox2⟩ := range_path hdim lo hi ds.length b (fun j _ => hbb j)
  rw [hbe] at hbox
  refine ⟨_, box, h1 c hc, hbox, ?_⟩
  have htr : truncate dim (pathKey dim (zPath dim (maxDepth bits dim) c)) ds.length =
      pathKey dim (zPath dim ds.length (fun j => c j / 2 ^ (maxDepth bits dim - ds.length))) := by
    rw [← zPath_take _ _ _ hl, truncate, depth_path hdim (zPath_isPath _ _ _), zPath_length,
      if_neg (by omega), Nat.shiftRight_eq_div_pow, pathKey_div_take (zPath_isPath _ _ _) (by rw [zPath_length]; omega),
      zPath_length]
    congr 2; omega
  have hcell : ∀ j < dim, InCell (lo j) (hi j) (2 ^ ds.length) (c j / 2 ^ (maxDepth bits dim - ds.length)) (p j) :=
    fun j hj => inCell_coarsen (hp j hj).1 hl (hc j hj)
  have hN : (0 : K) < 2 ^ ds.length := by positivity
  -- being in the box of the branch is being in the cell of the coarse grid
  have hbr : InBranch dim hi box p ↔ ∀ j < dim, InCell (lo j) (hi j) (2 ^ ds.length) (b j) (p j) := by
    refine forall_congr' fun j => forall_congr' fun hj => ?_
    have hs : 0 < hi j - lo j := by have := (hp j hj).1; linarith
    rw [hbox2 j hj, InCell]
    push_cast
    constructor
    · rintro ⟨k1, k2⟩
      refine ⟨hbb j, k1, ?_⟩
      rcases k2 with k2 | ⟨k2, k3⟩
      · exact Or.inl k2
      · right
        refine ⟨?_, k3⟩
        have k4 : (hi j - lo j) * ((b j : K) + 1) / 2 ^ ds.length = (hi j - lo j) * 1 := by linarith
        rw [mul_div_assoc] at k4
        have k5 := mul_left_cancel₀ hs.ne' k4
        rw [div_eq_one_iff_eq hN.ne'] at k5
        exact_mod_cast k5
    · rintro ⟨k0, k1, k2⟩
      refine ⟨k1, ?_⟩
      rcases k2 with k2 | ⟨k2, k3⟩
      · exact Or.inl k2
      · right
        refine ⟨?_, k3⟩
        have : (b j : K) + 1 = 2 ^ ds.length := by exact_mod_cast k2
        rw [this]; field_simp; ring
  rw [hbr, htr, ← hbe, zPath_length]
  constructor
  · intro h
    have h3 := pathKey_inj hdim (zPath_isPath _ _ _) (zPath_isPath _ _ _) h
    have h4 := zPath_inj (fun j hj => (hcell j hj).1) (fun j _ => hbb j) h3
    intro j hj
    rw [← h4 j hj]; exact hcell j hj
  · intro h
    congr 1
    exact zPath_congr fun j hj => inCell_unique (hp j hj).1 (hcell j hj) (h j hj)

/-- The box of child `b` of a branch is, along each axis, the upper half of the box of the branch if bit `j` of `b` is set
and the lower half otherwise. -/
theorem C04_children_subdivide (dim : Nat) (hdim : 0 < dim) (lo hi : Nat → K) (ds : List Nat) (b : Nat)
    (h : IsPath dim (ds ++ [b])) :
    ∃ box child, Morton.range dim lo hi (pathKey dim ds) = some box ∧
      Morton.range dim lo hi (pathKey dim (ds ++ [b])) = some child ∧
      ∀ j < dim, child j = if b.testBit j then (((box j).1 + (box j).2) / 2, (box j).2)
        else ((box j).1, ((box j).1 + (box j).2) / 2) := by
  obtain ⟨c, hc, e⟩ := zPath_surj h
  have hlen : (ds ++ [b]).length = ds.length + 1 := by simp
  obtain ⟨child, h1, h2⟩ := range_path hdim lo hi _ c (fun j _ => hc j)
  rw [e] at h1
  rw [hlen] at hc e h2
  rw [zPath] at e
  obtain ⟨e1, e2⟩ := List.append_inj' e rfl
  obtain ⟨box, h3, h4⟩ := range_path hdim lo hi ds.length (fun j => c j / 2)
    (fun j _ => by have := hc j; rw [Nat.pow_succ] at this; omega)
  rw [e1] at h3
  refine ⟨box, child, h3, h1, ?_⟩
  intro j hj
  have hbit : b.testBit j = (c j).testBit 0 := by
    have : zDigit dim c = b := by simpa using e2
    rw [← this, zDigit_testBit]; simp [hj]
  have hN : (2 : K) ^ ds.length ≠ 0 := by positivity
  rw [h2 j hj, h4 j hj, hbit]
  have hcj : (c j : K) = 2 * ((c j / 2 : Nat) : K) + ((c j % 2 : Nat) : K) := by
    exact_mod_cast (Nat.div_add_mod (c j) 2).symm
  simp only [Nat.testBit_zero, decide_eq_true_eq, pow_succ]
  by_cases hodd : c j % 2 = 1
  · rw [if_pos hodd, hcj, hodd]
    push_cast
    ext <;> simp only [] <;> field_simp <;> ring
  · have h0 : c j % 2 = 0 := by omega
    rw [if_neg hodd, hcj, h0]
    push_cast
    ext <;> simp only [] <;> field_simp <;> ring

/-- Non-vacuity: the branch 2 of the unit square is the upper left quadrant. -/
example : IsPath 2 ([2] : List Nat) ∧ InBox 2 (fun _ => (0 : ℚ)) (fun _ => 1) (fun j => if j = 0 then 3 / 10 else 9 / 10) ∧
    ∃ box, Morton.range 2 (fun _ => (0 : ℚ)) (fun _ => 1) (pathKey 2 [2]) = some box ∧
      box 0 = (0, 1 / 2) ∧ box 1 = (1 / 2, 1) := by
  refine ⟨by simp [IsPath], ?_, ?_⟩
  · intro j hj
    by_cases h : j = 0 <;> simp [h] <;> norm_num
  · obtain ⟨box, child, h1, h2, h3⟩ := C04_children_subdivide 2 (by decide) (fun _ => (0 : ℚ)) (fun _ => 1) [] 2 (by simp [IsPath])
    obtain ⟨box', h4, h5⟩ := range_path (dim := 2) (by decide) (fun _ => (0 : ℚ)) (fun _ => 1) 0 (fun _ => 0) (by simp)
    have : box = box' := by
      have : pathKey 2 (zPath 2 0 (fun _ => 0)) = pathKey 2 [] := rfl
      rw [this, h1] at h4; exact Option.some.inj h4
    subst this
    refine ⟨child, h2, ?_, ?_⟩
    · rw [h3 0 (by decide), h5 0 (by decide)]
      simp
    · rw [h3 1 (by decide), h5 1 (by decide)]
      simp [Nat.testBit_succ]

end FleCSPH
