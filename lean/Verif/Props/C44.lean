import Verif.Model.DensityProfiles
import Mathlib.Tactic.FieldSimp
import Mathlib.Tactic.LinearCombination
/-! C44: tabulated profiles: the search finds the interval, the interpolation is exact for cubics. -/
namespace FleCSPH
open DensityProfiles

private theorem getD_lt {xp : List ℝ} (hs : xp.Pairwise (· < ·)) {i j : Nat} {a b : ℝ} (hij : i < j) (ha : xp[i]? = some a) (hb : xp[j]? = some b) : a < b := by
  obtain ⟨hi, rfl⟩ := List.getElem?_eq_some_iff.mp ha
  obtain ⟨hj, rfl⟩ := List.getElem?_eq_some_iff.mp hb
  exact List.pairwise_iff_getElem.mp hs i j hi hj hij

private theorem loop_spec (x : ℝ) (xp : List ℝ) (i1 i2 : Nat) (h12 : i1 < i2) (h2 : i2 < xp.length)
    (hlo : ∀ a, xp[i1]? = some a → a ≤ x) (hhi : ∀ b, xp[i2]? = some b → x < b ∨ (x ≤ b ∧ i2 + 1 = xp.length)) :
    ∃ i, intervalLoop x xp i1 i2 = some i ∧ i1 ≤ i ∧ i < i2 ∧ (∀ a, xp[i]? = some a → a ≤ x) ∧
      (∀ b, xp[i + 1]? = some b → x < b ∨ (x ≤ b ∧ i + 2 = xp.length)) := by
  fun_induction intervalLoop x xp i1 i2 with
  | case1 i1 i2 h hn =>
    exact absurd (List.getElem?_eq_none_iff.mp hn) (by omega)
  | case2 i1 i2 h y hy hlt ih =>
    obtain ⟨i, e, h3, h4, h5, h6⟩ := ih (by omega) (by omega) hlo (fun b hb => by rw [hy] at hb; cases hb; exact Or.inl hlt)
    exact ⟨i, e, h3, by omega, h5, h6⟩
  | case3 i1 i2 h y hy hlt ih =>
    obtain ⟨i, e, h3, h4, h5, h6⟩ := ih (by omega) h2 (fun b hb => by rw [hy] at hb; cases hb; exact not_lt.mp hlt) hhi
    exact ⟨i, e, by omega, h4, h5, h6⟩
  | case4 i1 i2 h =>
    have : i2 = i1 + 1 := by omega
    subst this
    exact ⟨i1, rfl, le_rfl, by omega, hlo, hhi⟩

/-- The search: for a table of at least two points and a point inside it (which is not negative, as radii
are) the search ends and returns the interval containing the point. It reads only inside the table. -/
theorem C44_search (x : ℝ) (xp : List ℝ) (hlen : 2 ≤ xp.length) (h0 : 0 ≤ x)
    (lo hi : ℝ) (hlo : xp[0]? = some lo) (hhi : xp[xp.length - 1]? = some hi) (hx : lo ≤ x) (hx' : x ≤ hi) :
    ∃ (i : Nat) (a b : ℝ), getIntervalIndex x xp = some i ∧ xp[i]? = some a ∧ xp[i + 1]? = some b ∧ a ≤ x ∧ x ≤ b ∧ (x = b → i + 2 = xp.length) := by
  have hh : xp.head? = some lo := by rw [List.head?_eq_getElem?, hlo]
  have hl : xp.getLast? = some hi := by rw [List.getLast?_eq_getElem?, hhi]
  obtain ⟨i, e, _, h4, h5, h6⟩ := loop_spec x xp 0 (xp.length - 1) (by omega) (by omega)
    (fun a ha => by rw [hlo] at ha; cases ha; exact hx) (fun b hb => by rw [hhi] at hb; cases hb; exact Or.inr ⟨hx', by omega⟩)
  have hi1 : i < xp.length := by omega
  have hi2 : i + 1 < xp.length := by omega
  refine ⟨i, xp[i], xp[i + 1], ?_, List.getElem?_eq_getElem hi1, List.getElem?_eq_getElem hi2, h5 _ (List.getElem?_eq_getElem hi1), ?_, ?_⟩
  · simp only [getIntervalIndex, hh, hl]
    rw [if_neg (by rw [not_lt]; nlinarith), if_neg (by rw [gt_iff_lt, not_lt]; nlinarith), e]
    rfl
  · rcases h6 _ (List.getElem?_eq_getElem hi2) with h | h
    · exact h.le
    · exact h.1
  · intro hxe
    rcases h6 _ (List.getElem?_eq_getElem hi2) with h | h
    · exact absurd h (by rw [← hxe]; exact lt_irrefl _)
    · exact h.2

/-- The search outside the table. -/
theorem C44_search_outside (x : ℝ) (xp : List ℝ) (h0 : 0 ≤ x) (lo hi : ℝ) (hlo : xp[0]? = some lo) (hhi : xp[xp.length - 1]? = some hi) (hle : lo ≤ hi) :
    (getIntervalIndex x xp = some (-1) ↔ x * (1 + 1 / 10 ^ 15) < lo) ∧
    (x * (1 - 1 / 10 ^ 15) > hi → getIntervalIndex x xp = some ((xp.length : Int) - 1)) := by
  have hh : xp.head? = some lo := by rw [List.head?_eq_getElem?, hlo]
  have hl : xp.getLast? = some hi := by rw [List.getLast?_eq_getElem?, hhi]
  have hpos : 0 < xp.length := (List.getElem?_eq_some_iff.mp hlo).1
  simp only [getIntervalIndex, hh, hl]
  refine ⟨⟨fun h => ?_, fun h => if_pos h⟩, fun h => ?_⟩
  · by_contra hc
    rw [if_neg hc] at h
    split_ifs at h with h1
    · simp only [Option.some.injEq] at h
      omega
    · obtain ⟨k, _, hk⟩ := Option.map_eq_some_iff.mp h
      have hk' : (k : Int) = -1 := hk
      omega
  · rw [if_neg ?_, if_pos h]
    rw [not_lt]
    nlinarith

/-- The four nodes used are distinct table points, and their choice does not read outside. -/
private theorem interp_nodes (x : ℝ) (xp yp : List ℝ) (hlen : 4 ≤ xp.length) (hylen : yp.length = xp.length) (hs : xp.Pairwise (· < ·))
    (k : Nat) (hk : getIntervalIndex x xp = some (k : Int)) :
    let j := if k = 0 then 1 else if xp.length - 3 < k then xp.length - 3 else k
    ∃ x1 x2 x3 x4 y1 y2 y3 y4, 1 ≤ j ∧ j + 2 < xp.length ∧
      xp[j - 1]? = some x1 ∧ xp[j]? = some x2 ∧ xp[j + 1]? = some x3 ∧ xp[j + 2]? = some x4 ∧
      yp[j - 1]? = some y1 ∧ yp[j]? = some y2 ∧ yp[j + 1]? = some y3 ∧ yp[j + 2]? = some y4 ∧
      x1 < x2 ∧ x2 < x3 ∧ x3 < x4 ∧
      cubicInterp x xp yp = some (y1 * ((x - x2) * (x - x3) * (x - x4)) / ((x1 - x2) * (x1 - x3) * (x1 - x4)) +
        y2 * ((x - x1) * (x - x3) * (x - x4)) / ((x2 - x1) * (x2 - x3) * (x2 - x4)) +
        y3 * ((x - x1) * (x - x2) * (x - x4)) / ((x3 - x1) * (x3 - x2) * (x3 - x4)) +
        y4 * ((x - x1) * (x - x2) * (x - x3)) / ((x4 - x1) * (x4 - x2) * (x4 - x3))) := by
  intro j
  have hj1 : 1 ≤ j := by simp only [j]; split_ifs <;> omega
  have hj2 : j + 2 < xp.length := by simp only [j]; split_ifs <;> omega
  have l12 := getD_lt hs (show j - 1 < j by omega) (List.getElem?_eq_getElem (show j - 1 < xp.length by omega)) (List.getElem?_eq_getElem (show j < xp.length by omega))
  have l23 := getD_lt hs (show j < j + 1 by omega) (List.getElem?_eq_getElem (show j < xp.length by omega)) (List.getElem?_eq_getElem (show j + 1 < xp.length by omega))
  have l34 := getD_lt hs (show j + 1 < j + 2 by omega) (List.getElem?_eq_getElem (show j + 1 < xp.length by omega)) (List.getElem?_eq_getElem (show j + 2 < xp.length by omega))
  refine ⟨xp[j - 1], xp[j], xp[j + 1], xp[j + 2], yp[j - 1], yp[j], yp[j + 1], yp[j + 2], hj1, hj2,
    List.getElem?_eq_getElem _, List.getElem?_eq_getElem _, List.getElem?_eq_getElem _, List.getElem?_eq_getElem _,
    List.getElem?_eq_getElem _, List.getElem?_eq_getElem _, List.getElem?_eq_getElem _, List.getElem?_eq_getElem _, l12, l23, l34, ?_⟩
  have hji : (if (if (k : Int) = 0 then 1 else (k : Int)) > (xp.length : Int) - 3 then (xp.length : Int) - 3 else (if (k : Int) = 0 then 1 else (k : Int))) = (j : Int) := by
    simp only [j]
    split_ifs <;> omega
  have a1 : ∀ l : List ℝ, at? l ((j : Int) - 1) = l[j - 1]? := by
    intro l; rw [at?, if_pos (by omega)]; congr 1; omega
  have a2 : ∀ l : List ℝ, at? l (j : Int) = l[j]? := by
    intro l; rw [at?, if_pos (by omega)]; congr 1
  have a3 : ∀ l : List ℝ, at? l ((j : Int) + 1) = l[j + 1]? := by
    intro l; rw [at?, if_pos (by omega)]; congr 1
  have a4 : ∀ l : List ℝ, at? l ((j : Int) + 2) = l[j + 2]? := by
    intro l; rw [at?, if_pos (by omega)]; congr 1
  simp only [cubicInterp, hk, Option.bind_eq_bind, Option.bind_some, hji, a1, a2, a3, a4,
    List.getElem?_eq_getElem (show j - 1 < xp.length by omega), List.getElem?_eq_getElem (show j < xp.length by omega),
    List.getElem?_eq_getElem (show j + 1 < xp.length by omega), List.getElem?_eq_getElem (show j + 2 < xp.length by omega),
    List.getElem?_eq_getElem (show j - 1 < yp.length by omega), List.getElem?_eq_getElem (show j < yp.length by omega),
    List.getElem?_eq_getElem (show j + 1 < yp.length by omega), List.getElem?_eq_getElem (show j + 2 < yp.length by omega)]
  refine congrArg some ?_
  generalize xp[j - 1]'_ = x1 at *
  generalize xp[j]'_ = x2 at *
  generalize xp[j + 1]'_ = x3 at *
  generalize xp[j + 2]'_ = x4 at *
  have e : ∀ p q : ℝ, x - p - (x - q) = q - p := fun p q => by ring
  simp only [e, div_eq_mul_inv, mul_inv]
  ring

/-- A table of a cubic polynomial is reproduced exactly, everywhere inside the table (of at least four points). -/
theorem C44_cubic_exact (x : ℝ) (xp : List ℝ) (hlen : 4 ≤ xp.length) (hs : xp.Pairwise (· < ·)) (h0 : 0 ≤ x)
    (lo hi : ℝ) (hlo : xp[0]? = some lo) (hhi : xp[xp.length - 1]? = some hi) (hx : lo ≤ x) (hx' : x ≤ hi) (c0 c1 c2 c3 : ℝ) :
    cubicInterp x xp (xp.map fun t => c0 + c1 * t + c2 * t ^ 2 + c3 * t ^ 3) = some (c0 + c1 * x + c2 * x ^ 2 + c3 * x ^ 3) := by
  obtain ⟨k, _, _, hk, _⟩ := C44_search x xp (by omega) h0 lo hi hlo hhi hx hx'
  obtain ⟨x1, x2, x3, x4, y1, y2, y3, y4, _, _, e1, e2, e3, e4, f1, f2, f3, f4, l1, l2, l3, he⟩ :=
    interp_nodes x xp (xp.map fun t => c0 + c1 * t + c2 * t ^ 2 + c3 * t ^ 3) hlen (by simp) hs k hk
  rw [he]
  simp only [List.getElem?_map, e1, e2, e3, e4, Option.map_some, Option.some.injEq] at f1 f2 f3 f4
  subst f1 f2 f3 f4
  refine congrArg some ?_
  have n12 : x1 - x2 ≠ 0 := by linarith
  have n13 : x1 - x3 ≠ 0 := by linarith
  have n14 : x1 - x4 ≠ 0 := by linarith
  have n21 : x2 - x1 ≠ 0 := by linarith
  have n23 : x2 - x3 ≠ 0 := by linarith
  have n24 : x2 - x4 ≠ 0 := by linarith
  have n31 : x3 - x1 ≠ 0 := by linarith
  have n32 : x3 - x2 ≠ 0 := by linarith
  have n34 : x3 - x4 ≠ 0 := by linarith
  have n41 : x4 - x1 ≠ 0 := by linarith
  have n42 : x4 - x2 ≠ 0 := by linarith
  have n43 : x4 - x3 ≠ 0 := by linarith
  rw [show x2 - x1 = -(x1 - x2) by ring, show x3 - x1 = -(x1 - x3) by ring, show x4 - x1 = -(x1 - x4) by ring,
    show x3 - x2 = -(x2 - x3) by ring, show x4 - x2 = -(x2 - x4) by ring, show x4 - x3 = -(x3 - x4) by ring]
  field_simp
  ring

/-- At every node of the table the interpolation returns the table's value, whatever the table. -/
theorem C44_nodes (xp yp : List ℝ) (hlen : 4 ≤ xp.length) (hylen : yp.length = xp.length) (hs : xp.Pairwise (· < ·)) (k : Nat) (x y : ℝ)
    (hx : xp[k]? = some x) (hy : yp[k]? = some y) (h0 : 0 ≤ x) : cubicInterp x xp yp = some y := by
  have hkl : k < xp.length := (List.getElem?_eq_some_iff.mp hx).1
  have hlo := List.getElem?_eq_getElem (show 0 < xp.length by omega)
  have hhi := List.getElem?_eq_getElem (show xp.length - 1 < xp.length by omega)
  have mono : ∀ (i j : Nat) (a b : ℝ), i ≤ j → xp[i]? = some a → xp[j]? = some b → a ≤ b := by
    intro i j a b hij ha hb
    rcases Nat.lt_or_eq_of_le hij with h | h
    · exact (getD_lt hs h ha hb).le
    · subst h; rw [ha] at hb; cases hb; exact le_rfl
  obtain ⟨m, a, b, hm, ha, hb, h1, h2, h3⟩ := C44_search x xp (by omega) h0 _ _ hlo hhi (mono 0 k _ _ (by omega) hlo hx) (mono k _ _ _ (by omega) hx hhi)
  have hmk : m = k ∨ (m + 1 = k ∧ m + 2 = xp.length) := by
    rcases Nat.lt_trichotomy m k with h | h | h
    · rcases Nat.lt_or_eq_of_le (show m + 1 ≤ k by omega) with h' | h'
      · exact absurd (getD_lt hs h' hb hx) (not_lt.mpr h2)
      · rw [h', hx] at hb
        cases hb
        exact Or.inr ⟨h', h3 rfl⟩
    · exact Or.inl h
    · exact absurd (getD_lt hs h hx ha) (not_lt.mpr h1)
  obtain ⟨x1, x2, x3, x4, y1, y2, y3, y4, hj1, hj2, e1, e2, e3, e4, f1, f2, f3, f4, l1, l2, l3, he⟩ := interp_nodes x xp yp hlen hylen hs m hm
  rw [he]
  generalize hj : (if m = 0 then 1 else if xp.length - 3 < m then xp.length - 3 else m) = j at *
  have hcases : k = j - 1 ∨ k = j ∨ k = j + 1 ∨ k = j + 2 := by
    split_ifs at hj <;> omega
  have n12 : x1 - x2 ≠ 0 := by linarith
  have n13 : x1 - x3 ≠ 0 := by linarith
  have n14 : x1 - x4 ≠ 0 := by linarith
  have n21 : x2 - x1 ≠ 0 := by linarith
  have n23 : x2 - x3 ≠ 0 := by linarith
  have n24 : x2 - x4 ≠ 0 := by linarith
  have n31 : x3 - x1 ≠ 0 := by linarith
  have n32 : x3 - x2 ≠ 0 := by linarith
  have n34 : x3 - x4 ≠ 0 := by linarith
  have n41 : x4 - x1 ≠ 0 := by linarith
  have n42 : x4 - x2 ≠ 0 := by linarith
  have n43 : x4 - x3 ≠ 0 := by linarith
  refine congrArg some ?_
  rcases hcases with h | h | h | h
  · subst h; rw [e1] at hx; rw [f1] at hy; cases hx; cases hy
    field_simp; ring
  · subst h; rw [e2] at hx; rw [f2] at hy; cases hx; cases hy
    field_simp; ring
  · subst h; rw [e3] at hx; rw [f3] at hy; cases hx; cases hy
    field_simp; ring
  · subst h; rw [e4] at hx; rw [f4] at hy; cases hx; cases hy
    field_simp; ring

/-- Below the table the interpolation reads before its beginning (it is documented to return zero), and so it does for every
table of fewer than four points. -/
theorem C44_violated (x : ℝ) (xp yp : List ℝ) (h0 : 0 ≤ x) (lo hi : ℝ) (hlo : xp[0]? = some lo) (hhi : xp[xp.length - 1]? = some hi) (hle : lo ≤ hi) :
    (x * (1 + 1 / 10 ^ 15) < lo → cubicInterp x xp yp = none) ∧ (xp.length < 4 → cubicInterp x xp yp = none) := by
  have key : ∀ i2 : Int, getIntervalIndex x xp = some i2 → (i2 < 0 ∨ xp.length < 4) → cubicInterp x xp yp = none := by
    intro i2 hi hc
    have hneg' : (if (if i2 = 0 then 1 else i2) > (xp.length : Int) - 3 then (xp.length : Int) - 3 else (if i2 = 0 then 1 else i2)) - 1 < 0 := by
      rcases hc with h | h
      · split_ifs <;> omega
      · split_ifs <;> omega
    have : ∀ l : List ℝ, at? l ((if (if i2 = 0 then 1 else i2) > (xp.length : Int) - 3 then (xp.length : Int) - 3 else (if i2 = 0 then 1 else i2)) - 1) = none := by
      intro l
      rw [at?, if_neg (not_le.mpr hneg')]
    simp only [cubicInterp, hi, Option.bind_eq_bind, Option.bind_some, this, Option.bind_none]
  refine ⟨fun h => key (-1) ((C44_search_outside x xp h0 lo hi hlo hhi hle).1.mpr h) (Or.inl (by norm_num)), fun h => ?_⟩
  cases hg : getIntervalIndex x xp with
  | none => simp only [cubicInterp, hg, Option.bind_eq_bind, Option.bind_none]
  | some i2 => exact key i2 hg (Or.inr h)

/-- Above the table it does not return zero either: the table of `t^3` at 0, 1, 2, 3 continues at 4. -/
theorem C44_above_violated : cubicInterp 4 [0, 1, 2, 3] [0, 1, 8, 27] = some 64 := by
  have h := (C44_search_outside 4 [0, 1, 2, 3] (by norm_num) 0 3 rfl rfl (by norm_num)).2 (by norm_num)
  have hs : List.Pairwise (· < ·) [(0 : ℝ), 1, 2, 3] := by
    simp only [List.pairwise_cons, List.mem_cons, List.not_mem_nil, or_false]
    norm_num
  obtain ⟨x1, x2, x3, x4, y1, y2, y3, y4, _, _, e1, e2, e3, e4, f1, f2, f3, f4, l1, l2, l3, he⟩ :=
    interp_nodes 4 [0, 1, 2, 3] [0, 1, 8, 27] (by simp) rfl hs 3 (by rw [h]; rfl)
  simp at e1 e2 e3 e4 f1 f2 f3 f4
  rw [he]
  subst e1 e2 e3 e4 f1 f2 f3 f4
  norm_num

/-- Non-vacuity: a table of five points. -/
example : List.Pairwise (· < ·) [(0 : ℝ), 1 / 2, 1, 2, 3] ∧ (0 : ℝ) ≤ 7 / 4 ∧ (7 / 4 : ℝ) ≤ 3 := by
  simp only [List.pairwise_cons, List.mem_cons, List.not_mem_nil, or_false]
  norm_num

end FleCSPH
