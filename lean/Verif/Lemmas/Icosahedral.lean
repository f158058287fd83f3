import Verif.Spec.Icosahedral
import Verif.Lemmas.Lattice
import Mathlib.Analysis.SpecialFunctions.Trigonometric.Basic
import Mathlib.Tactic.IntervalCases
import Mathlib.Tactic.Linarith
import Mathlib.Tactic.LinearCombination
import Mathlib.Tactic.FieldSimp
import Mathlib.Tactic.Positivity
/-! Lemmas about the icosahedral lattice. -/
namespace FleCSPH.Lattice
open Classical

theorem i32_eq {n m : Int} : i32 n = some m ↔ n = m ∧ -2147483648 ≤ n ∧ n ≤ 2147483647 := by
  unfold i32
  split_ifs with h
  · simp [h]
  · simp only [false_iff, reduceCtorEq]; tauto

theorem i32_ok {n : Int} (h1 : -2147483648 ≤ n) (h2 : n ≤ 2147483647) : i32 n = some n := if_pos ⟨h1, h2⟩

theorem tri (k : Nat) : (2 * (k * (k - 1) / 2) : Nat) = k * (k - 1) := Nat.mul_div_cancel' (Nat.even_mul_pred_self k).two_dvd

theorem shellSize_succ (k : Nat) : shellSize (k + 1) = 10 * (k + 1) * (k + 1) + 2 := by
  unfold shellSize
  rw [if_neg (by omega)]
  have := tri k
  simp only [Nat.add_sub_cancel, show k + 1 - 2 = k - 1 by omega]
  have h2 : 20 * (k * (k - 1) / 2) = 10 * (k * (k - 1)) := by omega
  rw [h2]
  rcases k with _ | k
  · rfl
  · simp only [Nat.add_sub_cancel]; ring

theorem npartShell_eq (k : Nat) (h : k ≤ 14654) : npartShell k = some ((shellSize k : ℕ) : Int) := by
  rcases k with _ | k
  · simp [npartShell, shellSize]
  · have hk : (k : Int) ≤ 14653 := by omega
    have hk0 : (0 : Int) ≤ k := by omega
    have hkk : (k : Int) * k ≤ 14653 * k := by nlinarith
    have hkk0 : (0 : Int) ≤ k * k := by positivity
    have e1 : ((k + 1 : ℕ) : Int) - 1 = k := by push_cast; ring
    have e2 : ((k + 1 : ℕ) : Int) - 2 = k - 1 := by push_cast; ring
    unfold npartShell
    rw [if_pos (by push_cast; omega), e1, e2]
    have e3 : 10 * (k : Int) * (k - 1) = 10 * (k * k) - 10 * k := by ring
    simp only [bind, Option.bind]
    rw [i32_ok (by omega) (by omega)]
    dsimp only
    rw [i32_ok (n := 30 * (k : Int)) (by omega) (by omega)]
    dsimp only
    rw [i32_ok (n := 12 + 30 * (k : Int)) (by omega) (by omega)]
    dsimp only
    rw [i32_ok (n := 10 * (k : Int)) (by omega) (by omega)]
    dsimp only
    rw [i32_ok (n := (k : Int) - 1) (by omega) (by omega)]
    dsimp only
    rw [e3, i32_ok (n := 10 * ((k : Int) * k) - 10 * k) (by omega) (by omega)]
    dsimp only
    rw [i32_ok (by omega) (by nlinarith), shellSize_succ]
    push_cast
    congr 1
    ring

theorem npartShell_none (k : Int) (h : 14655 ≤ k) : npartShell k = none := by
  rw [Option.eq_none_iff_forall_ne_some]
  intro a ha
  unfold npartShell at ha
  rw [if_pos (by omega)] at ha
  simp only [bind, Option.bind_eq_some_iff, i32_eq] at ha
  obtain ⟨a1, ⟨rfl, -⟩, b, ⟨rfl, -⟩, c, ⟨rfl, -⟩, d, ⟨rfl, -⟩, e, ⟨rfl, -⟩, f, ⟨rfl, -⟩, -, -, h2⟩ := ha
  have h3 : (14654 * 14653 : Int) ≤ (k - 1) * (k - 2) := by nlinarith
  have h4 : 10 * (k - 1) * (k - 2) = 10 * ((k - 1) * (k - 2)) := by ring
  rw [h4] at h2
  omega

theorem sphereSize_eq (k : Nat) : 3 * sphereSize k = 10 * k * k * k + 15 * k * k + 11 * k + 3 := by
  induction k with
  | zero => rfl
  | succ k ih => rw [sphereSize, Nat.mul_add, ih, shellSize_succ]; ring

/-- The computation, with `s = 3 * k * (5 * k - 1)` and `t = 10 * k * (k - 1)`, when nothing overflows. -/
theorem npartSphere_ok (k s t u : Int) (hk : 0 < k) (hk' : k ≤ 599) (hs : 3 * k * (5 * k - 1) = s) (ht : 10 * k * (k - 1) = t) (hu : t * (k - 2) = u)
    (hs0 : 0 ≤ s) (hs1 : s ≤ 100000000) (ht0 : 0 ≤ t) (ht1 : t ≤ 100000000) (hu0 : 0 ≤ u) (hu1 : u ≤ 2147483647) : npartSphere k = some (1 + s + u / 3) := by
  unfold npartSphere
  rw [if_pos hk, i32_ok (n := 3 * k) (by omega) (by omega)]
  simp only [bind, Option.bind_some]
  rw [i32_ok (n := 5 * k) (by omega) (by omega)]
  simp only [Option.bind_some]
  rw [i32_ok (n := 5 * k - 1) (by omega) (by omega)]
  simp only [Option.bind_some]
  rw [hs, i32_ok (n := s) (by omega) (by omega)]
  simp only [Option.bind_some]
  rw [i32_ok (n := 1 + s) (by omega) (by omega)]
  simp only [Option.bind_some]
  rw [i32_ok (n := 10 * k) (by omega) (by omega)]
  simp only [Option.bind_some]
  rw [i32_ok (n := k - 1) (by omega) (by omega)]
  simp only [Option.bind_some]
  rw [ht, i32_ok (n := t) (by omega) (by omega)]
  simp only [Option.bind_some]
  rw [i32_ok (n := k - 2) (by omega) (by omega)]
  simp only [Option.bind_some]
  rw [hu, i32_ok (n := u) (by omega) (by omega)]
  simp only [Option.bind_some]
  rw [Int.tdiv_eq_ediv_of_nonneg hu0]
  exact i32_ok (by omega) (by omega)

theorem npartSphere_eq (k : Nat) (h : k ≤ 599) : npartSphere k = some ((sphereSize k : ℕ) : Int) := by
  rcases k with _ | k
  · rfl
  · have hk : (k : Int) ≤ 598 := by omega
    have hk0 : (0 : Int) ≤ k := by omega
    have hkk : (k : Int) * k ≤ 598 * k := mul_le_mul_of_nonneg_right hk hk0
    have hkk0 : (0 : Int) ≤ k * k := mul_nonneg hk0 hk0
    have hkkk : (k * k : Int) * k ≤ (k * k) * 598 := mul_le_mul_of_nonneg_left hk hkk0
    have hge : (k : Int) ≤ k * k * k := by
      rcases Nat.eq_zero_or_pos k with h0 | h0
      · subst h0; norm_num
      · have h1 : (1 : Int) ≤ k := by omega
        have h2 : (1 : Int) * 1 ≤ k * k := mul_le_mul h1 h1 (by norm_num) hk0
        have h3 : (1 : Int) * k ≤ k * k * k := mul_le_mul_of_nonneg_right (by linarith) hk0
        linarith
    have hS : (3 : Int) * sphereSize (k + 1) = 10 * (k + 1) * (k + 1) * (k + 1) + 15 * (k + 1) * (k + 1) + 11 * (k + 1) + 3 := by exact_mod_cast sphereSize_eq (k + 1)
    have hS' : (3 : Int) * sphereSize (k + 1) = 10 * (k * k * k) + 45 * (k * k) + 71 * k + 39 := by linear_combination hS
    rw [npartSphere_ok ((k + 1 : ℕ) : Int) (15 * (k * k) + 27 * k + 12) (10 * (k * k) + 10 * k) (10 * (k * k * k) - 10 * k) (by omega) (by omega)
      (by push_cast; ring) (by push_cast; ring) (by push_cast; ring) (by linarith) (by linarith) (by linarith) (by linarith) (by linarith) (by linarith)]
    generalize (k : Int) * k * k = a at hS' ⊢
    generalize (k : Int) * k = b at hS' ⊢
    clear hS
    generalize ((sphereSize (k + 1) : ℕ) : Int) = c at hS' ⊢
    rw [Option.some.injEq]
    omega

theorem npartSphere_none (k : Int) (h : 600 ≤ k) : npartSphere k = none := by
  rw [Option.eq_none_iff_forall_ne_some]
  intro a ha
  unfold npartSphere at ha
  rw [if_pos (by omega)] at ha
  simp only [bind, Option.bind_eq_some_iff, i32_eq] at ha
  obtain ⟨a1, ⟨rfl, -⟩, b, ⟨rfl, -⟩, c, ⟨rfl, -⟩, d, ⟨rfl, -⟩, e, ⟨rfl, -⟩, f, ⟨rfl, -⟩, g, ⟨rfl, -⟩, h', ⟨rfl, -⟩, i, ⟨rfl, -⟩, j, ⟨rfl, -, hj⟩, -⟩ := ha
  have h1 : (0 : Int) ≤ (k - 600) * (k - 600) := mul_self_nonneg _
  have h2 : 600 * 599 ≤ k * (k - 1) := by nlinarith
  have h3 : 600 * 599 * 598 ≤ k * (k - 1) * (k - 2) := by nlinarith
  nlinarith

/-! ### The angles of the icosahedron -/

theorem cos_p5 : Real.cos p5 = (1 + √5) / 4 := Real.cos_pi_div_five

theorem sq5 : (√5 : ℝ) ^ 2 = 5 := Real.sq_sqrt (by norm_num)

theorem sq5_bounds : 2 < (√5 : ℝ) ∧ (√5 : ℝ) < 3 := by
  constructor
  · rw [Real.lt_sqrt (by norm_num)]; norm_num
  · rw [Real.sqrt_lt' (by norm_num)]; norm_num

theorem sin_p5_sq : Real.sin p5 ^ 2 = (5 - √5) / 8 := by
  have h := Real.sin_sq_add_cos_sq p5
  rw [cos_p5] at h
  have := sq5
  linear_combination h - 1 / 16 * this

theorem sinb_sq : sinb ^ 2 = 4 / 5 := by
  unfold sinb
  rw [sin_p5_sq, div_pow, Real.sq_sqrt (by have := sq5_bounds; linarith)]
  have h := sq5
  have hb := sq5_bounds
  have hne : (2 * ((5 - √5) / 8)) ^ 2 ≠ 0 := by
    apply pow_ne_zero; intro h0; linarith
  rw [div_eq_iff hne]
  linear_combination (-1 / 20) * h

theorem cosb_eq : cosb = √5 / 5 := by
  unfold cosb
  rw [sinb_sq, Real.sqrt_eq_iff_mul_self_eq (by norm_num) (by positivity)]
  have := sq5
  linear_combination -1 / 25 * this

theorem cos_2p5 : Real.cos (2 * p5) = (√5 - 1) / 4 := by
  rw [Real.cos_two_mul, cos_p5]
  have := sq5
  linear_combination 1 / 8 * this

/-- The cosine of a multiple of π/5 in the direction of the neighbour. -/
theorem cos_even (a b : Nat) (h : b = a + 2 ∨ b = a + 8) : Real.cos (b * p5) * Real.cos (a * p5) + Real.sin (b * p5) * Real.sin (a * p5) = (√5 - 1) / 4 := by
  rw [← Real.cos_sub, ← cos_2p5]
  rcases h with rfl | rfl
  · congr 1; push_cast; ring
  · rw [← Real.cos_two_pi_sub]; congr 1; push_cast; unfold p5; ring

theorem cos_odd (a b : Nat) (h : b = a + 1 ∨ b = a + 9) : Real.cos (b * p5) * Real.cos (a * p5) + Real.sin (b * p5) * Real.sin (a * p5) = (1 + √5) / 4 := by
  rw [← Real.cos_sub, ← cos_p5]
  rcases h with rfl | rfl
  · congr 1; push_cast; ring
  · rw [← Real.cos_two_pi_sub]; congr 1; push_cast; unfold p5; ring

def dot (p q : Pos) : ℝ := p.x * q.x + p.y * q.y + p.z * q.z

theorem dot_comm (p q : Pos) : dot p q = dot q p := by unfold dot; ring

theorem vtx_norm (rk : ℝ) (v : Nat) : dot (icoVtx rk v) (icoVtx rk v) = rk ^ 2 := by
  have h1 := sinb_sq
  have h2 := cosb_eq
  have h5 := sq5
  unfold icoVtx dot
  rw [h2]
  split_ifs
  · ring
  · ring
  · have := Real.sin_sq_add_cos_sq ((2 * (v - 1 : ℕ) : ℕ) * p5)
    generalize Real.sin ((2 * (v - 1 : ℕ) : ℕ) * p5) = s at *
    generalize Real.cos ((2 * (v - 1 : ℕ) : ℕ) * p5) = c at *
    linear_combination (rk ^ 2 * sinb ^ 2) * this + rk ^ 2 * h1 + rk ^ 2 / 25 * h5
  · have := Real.sin_sq_add_cos_sq ((2 * (v - 6 : ℕ) + 1 : ℕ) * p5)
    generalize Real.sin ((2 * (v - 6 : ℕ) + 1 : ℕ) * p5) = s at *
    generalize Real.cos ((2 * (v - 6 : ℕ) + 1 : ℕ) * p5) = c at *
    linear_combination (rk ^ 2 * sinb ^ 2) * this + rk ^ 2 * h1 + rk ^ 2 / 25 * h5

theorem dot_top (rk : ℝ) (v : Nat) (h1 : 1 ≤ v) (h2 : v ≤ 5) : dot (icoVtx rk 0) (icoVtx rk v) = √5 / 5 * rk ^ 2 := by
  unfold icoVtx dot
  rw [if_pos rfl, if_neg (by omega), if_neg (by omega), if_pos h2, cosb_eq]
  ring

theorem dot_bottom (rk : ℝ) (v : Nat) (h1 : 6 ≤ v) (h2 : v ≤ 10) : dot (icoVtx rk v) (icoVtx rk 11) = √5 / 5 * rk ^ 2 := by
  unfold icoVtx dot
  rw [if_neg (by omega), if_neg (by omega), if_neg (by omega), if_neg (by omega), if_pos rfl, cosb_eq]
  ring

theorem dot_upper (rk : ℝ) (v w : Nat) (h1 : 1 ≤ v) (h2 : v ≤ 5) (h3 : 1 ≤ w) (h4 : w ≤ 5) (h : w = v + 1 ∨ w = v + 4) : dot (icoVtx rk w) (icoVtx rk v) = √5 / 5 * rk ^ 2 := by
  have hc := cos_even (2 * (v - 1)) (2 * (w - 1)) (by omega)
  unfold icoVtx dot
  rw [if_neg (by omega), if_neg (by omega), if_pos h4, if_neg (by omega), if_neg (by omega), if_pos h2, cosb_eq]
  have hs := sinb_sq
  have h5 := sq5
  linear_combination (rk ^ 2 * sinb ^ 2) * hc + (rk ^ 2 * (√5 - 1) / 4) * hs + rk ^ 2 / 25 * h5

theorem dot_lower (rk : ℝ) (v w : Nat) (h1 : 6 ≤ v) (h2 : v ≤ 10) (h3 : 6 ≤ w) (h4 : w ≤ 10) (h : w = v + 1 ∨ w = v + 4) : dot (icoVtx rk w) (icoVtx rk v) = √5 / 5 * rk ^ 2 := by
  have hc := cos_even (2 * (v - 6) + 1) (2 * (w - 6) + 1) (by omega)
  unfold icoVtx dot
  rw [if_neg (by omega), if_neg (by omega), if_neg (by omega), if_neg (by omega), if_neg (by omega), if_neg (by omega), cosb_eq]
  have hs := sinb_sq
  have h5 := sq5
  linear_combination (rk ^ 2 * sinb ^ 2) * hc + (rk ^ 2 * (√5 - 1) / 4) * hs + rk ^ 2 / 25 * h5

theorem dot_rings (rk : ℝ) (v w : Nat) (h1 : 1 ≤ v) (h2 : v ≤ 5) (h3 : 6 ≤ w) (h4 : w ≤ 10) (h : w = v + 5 ∨ w + 1 = v + 5 ∨ w = v + 9) :
    dot (icoVtx rk w) (icoVtx rk v) = √5 / 5 * rk ^ 2 := by
  have hc : Real.cos ((2 * (w - 6 : ℕ) + 1 : ℕ) * p5) * Real.cos ((2 * (v - 1 : ℕ) : ℕ) * p5) + Real.sin ((2 * (w - 6 : ℕ) + 1 : ℕ) * p5) * Real.sin ((2 * (v - 1 : ℕ) : ℕ) * p5) =
      (1 + √5) / 4 := by
    by_cases hlt : 2 * (w - 6) + 1 < 2 * (v - 1)
    · have := cos_odd (2 * (w - 6) + 1) (2 * (v - 1)) (by omega)
      linarith
    · exact cos_odd (2 * (v - 1)) (2 * (w - 6) + 1) (by omega)
  unfold icoVtx dot
  rw [if_neg (by omega), if_neg (by omega), if_neg (by omega), if_neg (by omega), if_neg (by omega), if_pos h2, cosb_eq]
  have hs := sinb_sq
  have h5 := sq5
  linear_combination (rk ^ 2 * sinb ^ 2) * hc + (rk ^ 2 * (1 + √5) / 4) * hs - rk ^ 2 / 25 * h5

/-- Two vertices of the icosahedron are joined by an edge. -/
def adj (v w : Nat) : Bool :=
  (v == 0 && 1 ≤ w && w ≤ 5) || (6 ≤ v && v ≤ 10 && w == 11) ||
  (1 ≤ v && v ≤ 5 && 1 ≤ w && w ≤ 5 && (w == v + 1 || w == v + 4)) || (6 ≤ v && v ≤ 10 && 6 ≤ w && w ≤ 10 && (w == v + 1 || w == v + 4)) ||
  (1 ≤ v && v ≤ 5 && 6 ≤ w && w ≤ 10 && (w == v + 5 || w + 1 == v + 5 || w == v + 9))

theorem adj_dot (rk : ℝ) (v w : Nat) (h : adj v w = true ∨ adj w v = true) : dot (icoVtx rk v) (icoVtx rk w) = √5 / 5 * rk ^ 2 := by
  have key : ∀ v w, adj v w = true → dot (icoVtx rk v) (icoVtx rk w) = √5 / 5 * rk ^ 2 := by
    intro v w h
    unfold adj at h
    simp only [Bool.or_eq_true, Bool.and_eq_true, beq_iff_eq, decide_eq_true_eq] at h
    rcases h with (((⟨⟨rfl, h1⟩, h2⟩ | ⟨⟨h1, h2⟩, rfl⟩) | ⟨⟨⟨⟨h1, h2⟩, h3⟩, h4⟩, h5⟩) | ⟨⟨⟨⟨h1, h2⟩, h3⟩, h4⟩, h5⟩) | ⟨⟨⟨⟨h1, h2⟩, h3⟩, h4⟩, h5⟩
    · exact dot_top rk w h1 h2
    · exact dot_bottom rk v h1 h2
    · rw [dot_comm]; exact dot_upper rk v w h1 h2 h3 h4 h5
    · rw [dot_comm]; exact dot_lower rk v w h1 h2 h3 h4 h5
    · rw [dot_comm]; exact dot_rings rk v w h1 h2 h3 h4 (by omega)
  rcases h with h | h
  · exact key v w h
  · rw [dot_comm]; exact key w v h

theorem edges_adj : ∀ e ∈ icoEdges, adj e.1 e.2 = true ∨ adj e.2 e.1 = true := by decide

theorem faces_adj : ∀ f ∈ icoFaces, (adj f.1 f.2.1 = true ∨ adj f.2.1 f.1 = true) ∧ (adj f.1 f.2.2 = true ∨ adj f.2.2 f.1 = true) ∧
    (adj f.2.1 f.2.2 = true ∨ adj f.2.2 f.2.1 = true) := by decide

/-- A vector which is not zero ends up on the sphere. -/
theorem toShell_dist (c : Pos) (rk : ℝ) (hrk : rk ≠ 0) (p : Pos) (hp : 0 < dot p p) : dist2 (toShell c rk p) c = rk ^ 2 := by
  unfold dot at hp
  have h1 : p.x ^ 2 + p.y ^ 2 + p.z ^ 2 > 0 := by nlinarith
  have h2 : √(p.x ^ 2 + p.y ^ 2 + p.z ^ 2) ^ 2 = p.x ^ 2 + p.y ^ 2 + p.z ^ 2 := Real.sq_sqrt h1.le
  have h3 : √(p.x ^ 2 + p.y ^ 2 + p.z ^ 2) ≠ 0 := (Real.sqrt_pos.2 h1).ne'
  unfold toShell dist2
  dsimp only
  generalize √(p.x ^ 2 + p.y ^ 2 + p.z ^ 2) = s at h2 h3
  field_simp
  rw [h2]
  ring

theorem edgePoint_dist (c : Pos) (rk : ℝ) (hrk : rk ≠ 0) (NN : Nat) (e : Nat × Nat) (he : e ∈ icoEdges) (k : Nat) : dist2 (edgePoint c rk NN e k) c = rk ^ 2 := by
  unfold edgePoint
  refine toShell_dist c rk hrk _ ?_
  have h1 := vtx_norm rk e.1
  have h2 := vtx_norm rk e.2
  have h3 := adj_dot rk e.1 e.2 (edges_adj e he)
  unfold dot at h1 h2 h3 ⊢
  dsimp only
  generalize edgeWeight NN k = f
  generalize icoVtx rk e.1 = v at *
  generalize icoVtx rk e.2 = w at *
  have hb := sq5_bounds
  have hr : 0 < rk ^ 2 := by positivity
  have : (f * v.x + (1 - f) * w.x) * (f * v.x + (1 - f) * w.x) + (f * v.y + (1 - f) * w.y) * (f * v.y + (1 - f) * w.y) + (f * v.z + (1 - f) * w.z) * (f * v.z + (1 - f) * w.z) =
      rk ^ 2 * ((1 - √5 / 5) * (f ^ 2 + (1 - f) ^ 2) + √5 / 5) := by
    linear_combination f ^ 2 * h1 + (1 - f) ^ 2 * h2 + 2 * f * (1 - f) * h3
  rw [this]
  apply mul_pos hr
  have : 0 ≤ (1 - √5 / 5) * (f ^ 2 + (1 - f) ^ 2) := mul_nonneg (by linarith) (by positivity)
  linarith

theorem tegmark_sum (a b c : ℝ) : (tegmark a b c).1 + (tegmark a b c).2.1 + (tegmark a b c).2.2 = 1 := by
  unfold tegmark
  dsimp only
  ring

theorem faceWeights_sum (NN m n : Nat) : (faceWeights NN m n).1 + (faceWeights NN m n).2.1 + (faceWeights NN m n).2.2 = 1 := by
  unfold faceWeights
  dsimp only
  split_ifs
  · have := tegmark_sum ((m : ℝ) / NN) ((n : ℝ) / NN) (1 - (m : ℝ) / NN - (n : ℝ) / NN); dsimp only; linarith
  · have := tegmark_sum ((n : ℝ) / NN) (1 - (m : ℝ) / NN - (n : ℝ) / NN) ((m : ℝ) / NN); dsimp only; linarith
  · have := tegmark_sum (1 - (m : ℝ) / NN - (n : ℝ) / NN) ((m : ℝ) / NN) ((n : ℝ) / NN); dsimp only; linarith

theorem facePoint_dist (c : Pos) (rk : ℝ) (hrk : rk ≠ 0) (NN : Nat) (f : Nat × Nat × Nat) (hf : f ∈ icoFaces) (m n : Nat) : dist2 (facePoint c rk NN f m n) c = rk ^ 2 := by
  unfold facePoint
  refine toShell_dist c rk hrk _ ?_
  have h1 := vtx_norm rk f.1
  have h2 := vtx_norm rk f.2.1
  have h3 := vtx_norm rk f.2.2
  obtain ⟨a1, a2, a3⟩ := faces_adj f hf
  have h12 := adj_dot rk _ _ a1
  have h13 := adj_dot rk _ _ a2
  have h23 := adj_dot rk _ _ a3
  have hw := faceWeights_sum NN m n
  unfold dot at h1 h2 h3 h12 h13 h23 ⊢
  dsimp only
  generalize faceWeights NN m n = g at *
  obtain ⟨g0, g1, g2⟩ := g
  dsimp only at hw ⊢
  generalize icoVtx rk f.1 = u at *
  generalize icoVtx rk f.2.1 = v at *
  generalize icoVtx rk f.2.2 = w at *
  have hb := sq5_bounds
  have hr : 0 < rk ^ 2 := by positivity
  have : (g1 * u.x + g2 * v.x + g0 * w.x) * (g1 * u.x + g2 * v.x + g0 * w.x) + (g1 * u.y + g2 * v.y + g0 * w.y) * (g1 * u.y + g2 * v.y + g0 * w.y) +
      (g1 * u.z + g2 * v.z + g0 * w.z) * (g1 * u.z + g2 * v.z + g0 * w.z) = rk ^ 2 * ((1 - √5 / 5) * (g0 ^ 2 + g1 ^ 2 + g2 ^ 2) + √5 / 5) := by
    linear_combination g1 ^ 2 * h1 + g2 ^ 2 * h2 + g0 ^ 2 * h3 + 2 * g1 * g2 * h12 + 2 * g1 * g0 * h13 + 2 * g2 * g0 * h23 + rk ^ 2 * √5 / 5 * (g0 + g1 + g2 + 1) * hw
  rw [this]
  apply mul_pos hr
  have : 0 ≤ (1 - √5 / 5) * (g0 ^ 2 + g1 ^ 2 + g2 ^ 2) := mul_nonneg (by linarith) (by positivity)
  linarith

/-! ### The candidates -/

/-- Visiting candidates each with its own condition. -/
theorem visits2 (countOnly : Bool) (l : List (Prop × Pos)) (st : State) :
    (l.foldl (fun st q => visit countOnly (fun _ => q.1) q.2 st) st).posid = st.posid + (l.filter (fun q => decide q.1)).length ∧
    (∀ k, (l.foldl (fun st q => visit countOnly (fun _ => q.1) q.2 st) st).pos k =
      if countOnly then st.pos k else if k < st.posid then st.pos k else (((l.filter (fun q => decide q.1))[k - st.posid]?).map Prod.snd).getD (st.pos k)) := by
  induction l generalizing st with
  | nil => simp
  | cons p l ih =>
    rw [List.foldl_cons]
    obtain ⟨h1, h2⟩ := ih (visit countOnly (fun _ => p.1) p.2 st)
    by_cases hp : p.1
    · have hv : visit countOnly (fun _ => p.1) p.2 st = { posid := st.posid + 1, pos := if countOnly then st.pos else Function.update st.pos st.posid p.2 } := if_pos hp
      rw [List.filter_cons_of_pos (by simpa using hp)]
      refine ⟨by rw [h1, hv, List.length_cons]; dsimp only; omega, fun k => ?_⟩
      rw [h2 k, hv]
      dsimp only
      cases countOnly
      · simp only [Bool.false_eq_true, if_false]
        rcases Nat.lt_trichotomy k st.posid with hk | hk | hk
        · rw [if_pos (by omega), if_pos hk, Function.update_of_ne (by omega)]
        · subst hk
          rw [if_pos (by omega), if_neg (by omega), Function.update_self]
          simp
        · rw [if_neg (by omega), if_neg (by omega), Function.update_of_ne (by omega), show k - st.posid = (k - (st.posid + 1)) + 1 by omega, List.getElem?_cons_succ]
      · simp
    · have hv : visit countOnly (fun _ => p.1) p.2 st = st := if_neg hp
      rw [hv] at h1 h2 ⊢
      rw [List.filter_cons_of_neg (by simpa using hp)]
      exact ⟨h1, h2⟩

/-- The candidates of a shell, with their conditions. -/
noncomputable def shellItems (dom : Pos → Prop) (c : Pos) (rk : ℝ) (NN : Nat) : List (Prop × Pos) :=
  (if NN > 0 then (List.range 12).map (fun i => (dom ⟨c.x + (icoVtx rk i).x, c.y + (icoVtx rk i).y, c.z + (icoVtx rk i).z⟩,
      (⟨c.x + (icoVtx rk i).x, c.y + (icoVtx rk i).y, c.z + (icoVtx rk i).z⟩ : Pos)))
    else [(True, c)]) ++
  (icoEdges.flatMap (fun e => (List.range (NN - 1)).map fun k => (dom (edgePoint c rk NN e k), edgePoint c rk NN e k)) ++
  icoFaces.flatMap (fun f => (List.range (NN - 1)).flatMap fun m => (List.range (NN - 1 - (m + 1))).map fun n =>
    (dom (facePoint c rk NN f (m + 1) (n + 1)), facePoint c rk NN f (m + 1) (n + 1))))

theorem placeShell_eq (countOnly : Bool) (dom : Pos → Prop) (c : Pos) (rk : ℝ) (NN : Nat) (st : State) :
    placeShell countOnly dom c rk NN st = (shellItems dom c rk NN).foldl (fun st q => visit countOnly (fun _ => q.1) q.2 st) st := by
  unfold placeShell shellItems
  rw [List.foldl_append, List.foldl_append, foldl_flatMap', foldl_flatMap']
  simp only [foldl_flatMap', List.foldl_map]
  congr 2
  by_cases h : NN > 0
  · rw [if_pos h, if_pos h, List.foldl_map]; rfl
  · rw [if_neg h, if_neg h]; rfl

theorem sum_sub (n : Nat) : ((List.range n).map fun m => n - (m + 1)).sum = n * (n - 1) / 2 := by
  have h : 2 * ((List.range n).map fun m => n - (m + 1)).sum = n * (n - 1) := by
    induction n with
    | zero => rfl
    | succ n ih =>
      rw [List.range_succ_eq_map, List.map_cons, List.map_map, List.sum_cons]
      have : ((fun m => n + 1 - (m + 1)) ∘ Nat.succ) = fun m => n - (m + 1) := by funext m; simp only [Function.comp]; omega
      rw [this, Nat.mul_add, ih]
      rcases n with _ | n
      · rfl
      · simp only [Nat.add_sub_cancel]; ring
  omega

theorem shellItems_length (dom : Pos → Prop) (c : Pos) (rk : ℝ) (NN : Nat) : (shellItems dom c rk NN).length = shellSize NN := by
  unfold shellItems
  rw [List.length_append, List.length_append, List.length_flatMap, List.length_flatMap]
  simp only [List.length_map, List.length_range, List.length_flatMap]
  rw [sum_sub]
  unfold shellSize
  rcases NN with _ | NN
  · simp
  · rw [if_pos (by omega), if_neg (by omega), List.length_map, List.length_range, List.map_const', List.map_const', List.sum_replicate, List.sum_replicate]
    have h1 : icoEdges.length = 30 := rfl
    have h2 : icoFaces.length = 20 := rfl
    rw [h1, h2]
    simp only [Nat.add_sub_cancel, smul_eq_mul]
    rw [show NN + 1 - 2 = NN - 1 by omega]
    omega

theorem shellItems_mem (dom : Pos → Prop) (c : Pos) (rk : ℝ) (NN : Nat) (hN : NN ≠ 0) (hrk : rk ≠ 0) : ∀ q ∈ shellItems dom c rk NN, q.1 = dom q.2 ∧ dist2 q.2 c = rk ^ 2 := by
  intro q hq
  unfold shellItems at hq
  rw [if_pos (by omega), List.mem_append, List.mem_append] at hq
  rcases hq with hq | hq | hq
  · obtain ⟨i, -, rfl⟩ := List.mem_map.1 hq
    refine ⟨rfl, ?_⟩
    have := vtx_norm rk i
    unfold dot at this
    unfold dist2
    dsimp only
    linear_combination this
  · obtain ⟨e, he, hq⟩ := List.mem_flatMap.1 hq
    obtain ⟨k, -, rfl⟩ := List.mem_map.1 hq
    exact ⟨rfl, edgePoint_dist c rk hrk NN e he k⟩
  · obtain ⟨f, hf, hq⟩ := List.mem_flatMap.1 hq
    obtain ⟨m, -, hq⟩ := List.mem_flatMap.1 hq
    obtain ⟨n, -, rfl⟩ := List.mem_map.1 hq
    exact ⟨rfl, facePoint_dist c rk hrk NN f hf _ _⟩

theorem shellItems_zero (dom : Pos → Prop) (c : Pos) (rk : ℝ) : shellItems dom c rk 0 = [(True, c)] := by
  unfold shellItems
  simp

/-! ### The radii -/

theorem newton_bounds (rho mass : ℝ → ℝ) (stop : ℝ → ℝ → Prop) (a mp Mk : ℝ) (ha0 : 0 < a) (n : Nat) (x m : ℝ) (hx : 0 < x) :
    0 < (newton rho mass stop a mp Mk n x m).1 ∧ (a < 1 → x < 1 → (newton rho mass stop a mp Mk n x m).1 < 1) := by
  induction n generalizing x m with
  | zero => exact ⟨hx, fun _ h => h⟩
  | succ n ih =>
    unfold newton
    dsimp only
    split_ifs with h1 h2 h3
    · exact ⟨hx, fun _ h => h⟩
    · exact ⟨(ih _ _ (by linarith [h2.1])).1, fun ha _ => (ih _ _ (by linarith [h2.1])).2 ha h2.2⟩
    · exact ⟨(ih _ _ (by linarith)).1, fun ha hx1 => (ih _ _ (by linarith)).2 ha (by linarith)⟩
    · exact ⟨(ih _ _ (by linarith)).1, fun ha hx1 => (ih _ _ (by linarith)).2 ha (by linarith)⟩

theorem nextRadii_bounds (rho mass : ℝ → ℝ) (stop : ℝ → ℝ → Prop) (R m0 : ℝ) (hR : 0 < R) (n : Int) (r : Radii) (hr : 0 < r.rk12p) :
    let r' := nextRadii rho mass stop R m0 n r
    (0 < r'.rk12p ∧ 0 < r'.rk) ∧ (r.rk12p < R → r'.rk12p < R ∧ r'.rk < R) := by
  have ha : 0 < r.rk12p / R := by positivity
  have key : ∀ x : ℝ × ℝ, (0 < x.1 ∧ (r.rk12p / R < 1 → x.1 < 1)) →
      (0 < x.1 * R ∧ 0 < 1 / 2 * (r.rk12p + x.1 * R)) ∧ (r.rk12p < R → x.1 * R < R ∧ 1 / 2 * (r.rk12p + x.1 * R) < R) := by
    rintro ⟨x, m⟩ ⟨h1, h2⟩
    dsimp only at *
    have h3 : 0 < x * R := by positivity
    refine ⟨⟨h3, by linarith⟩, fun h => ?_⟩
    have h4 := h2 ((div_lt_one hR).2 h)
    have : x * R < 1 * R := mul_lt_mul_of_pos_right h4 hR
    exact ⟨by linarith, by linarith⟩
  unfold nextRadii
  dsimp only
  apply key
  split_ifs
  · have := newton_bounds rho mass stop (r.rk12p / R) r.mrk12p (m0 * n) ha 30 (1 / 2 * (r.rk12p / R + 1)) 1 (by linarith)
    exact ⟨this.1, fun h => this.2 h (by linarith)⟩
  · exact ⟨by dsimp only; linarith, fun h => by dsimp only; linarith⟩

theorem radiiAt_bounds (rho mass : ℝ → ℝ) (stop : ℝ → ℝ → Prop) (R m0 : ℝ) (hR : 0 < R) (h0 : 0 < (firstRadii rho R m0).rk12p) (k : Nat) :
    (0 < (radiiAt rho mass stop R m0 k).rk12p ∧ (k ≠ 0 → 0 < (radiiAt rho mass stop R m0 k).rk)) ∧
      ((firstRadii rho R m0).rk12p < R → (radiiAt rho mass stop R m0 k).rk12p < R ∧ (radiiAt rho mass stop R m0 k).rk < R) := by
  induction k with
  | zero => exact ⟨⟨h0, fun h => absurd rfl h⟩, fun h => ⟨h, hR⟩⟩
  | succ k ih =>
    have := nextRadii_bounds rho mass stop R m0 hR (shellSize (k + 1)) _ ih.1.1
    exact ⟨⟨this.1.1, fun _ => this.1.2⟩, fun h => this.2 (ih.2 h).1⟩

theorem first_bounds (rho : ℝ → ℝ) (R m0 : ℝ) (hR : 0 < R) (hm : 0 < m0) (hrho : 0 < rho 0) :
    0 < (firstRadii rho R m0).rk12p ∧ (1728 / 1000 * (3 * m0) < 4 * Real.pi * rho 0 → (firstRadii rho R m0).rk12p < R) := by
  unfold firstRadii
  dsimp only
  have hpi := Real.pi_pos
  refine ⟨by positivity, fun h => ?_⟩
  have h1 : 3 * m0 / (4 * Real.pi * (rho 0 / (R * R * R))) < (R / (12 / 10)) ^ (3 : ℕ) := by
    rw [div_lt_iff₀ (by positivity)]
    have : (R / (12 / 10)) ^ 3 * (4 * Real.pi * (rho 0 / (R * R * R))) = 1000 / 1728 * (4 * Real.pi * rho 0) := by
      field_simp
      ring
    rw [this]
    linarith
  have h2 : (3 * m0 / (4 * Real.pi * (rho 0 / (R * R * R)))) ^ (1 / 3 : ℝ) < ((R / (12 / 10)) ^ (3 : ℕ)) ^ (1 / 3 : ℝ) :=
    Real.rpow_lt_rpow (by positivity) h1 (by norm_num)
  rw [← Real.rpow_natCast, ← Real.rpow_mul (by positivity)] at h2
  norm_num at h2
  norm_num
  linarith

/-! ### The loop over shells -/

/-- The candidates of all shells. -/
noncomputable def allItems (rho mass : ℝ → ℝ) (stop : ℝ → ℝ → Prop) (dom : Pos → Prop) (c : Pos) (R m0 : ℝ) (a n : Nat) : List (Prop × Pos) :=
  (List.range' a n).flatMap fun NN => shellItems dom c (radiiAt rho mass stop R m0 NN).rk NN

theorem shells_eq (rho mass : ℝ → ℝ) (stop : ℝ → ℝ → Prop) (countOnly : Bool) (dom : Pos → Prop) (c : Pos) (R m0 : ℝ) (a n : Nat) (h : a + n ≤ 14654) (st : State) :
    shells rho mass stop countOnly dom c R m0 (List.range' a n) (radiiAt rho mass stop R m0 a) st =
      some ((allItems rho mass stop dom c R m0 a n).foldl (fun st q => visit countOnly (fun _ => q.1) q.2 st) st) := by
  induction n generalizing a st with
  | zero => rfl
  | succ n ih =>
    have hs : npartShell ((a : Int) + 1) = some ((shellSize (a + 1) : ℕ) : Int) := by exact_mod_cast npartShell_eq (a + 1) (by omega)
    rw [allItems, List.range'_succ, List.flatMap_cons, List.foldl_append, shells]
    simp only [hs]
    rw [placeShell_eq]
    exact ih (a + 1) (by omega) _

theorem allItems_length (rho mass : ℝ → ℝ) (stop : ℝ → ℝ → Prop) (dom : Pos → Prop) (c : Pos) (R m0 : ℝ) (k : Nat) :
    (allItems rho mass stop dom c R m0 0 (k + 1)).length = sphereSize k := by
  unfold allItems
  rw [← List.range_eq_range', List.length_flatMap]
  simp only [shellItems_length]
  induction k with
  | zero => rfl
  | succ k ih => rw [List.range_succ, List.map_append, List.sum_append, ih, sphereSize]; simp

end FleCSPH.Lattice
