import Verif.Model.Lattice
import Mathlib.Algebra.Order.Floor.Ring
import Mathlib.Data.List.Pairwise
import Mathlib.Tactic.Linarith
import Mathlib.Tactic.LinearCombination
import Mathlib.Tactic.Push
/-! Facts about the loops of Model/Lattice.lean. -/
namespace FleCSPH.Lattice
open Classical

/-- The number of rounds of a loop. -/
noncomputable def ticks (hi step p : ℝ) : Nat := ⌈(hi - p) / step⌉₊

theorem ticks_zero (hi step p : ℝ) (hs : 0 < step) (h : ¬p < hi) : ticks hi step p = 0 := by
  unfold ticks
  rw [Nat.ceil_eq_zero]
  exact div_nonpos_of_nonpos_of_nonneg (by linarith) hs.le

theorem ticks_succ (hi step p : ℝ) (hs : 0 < step) (h : p < hi) : ticks hi step p = ticks hi step (p + step) + 1 := by
  unfold ticks
  have h1 : (hi - p) / step = (hi - (p + step)) / step + 1 := by field_simp; ring
  have h2 : 0 < (hi - p) / step := div_pos (by linarith) hs
  rw [h1]
  by_cases hc : 0 ≤ (hi - (p + step)) / step
  · rw [Nat.ceil_add_one hc]
  · push Not at hc
    rw [Nat.ceil_eq_zero.2 hc.le]
    rw [Nat.ceil_eq_iff (by norm_num)]
    constructor
    · simp; linarith
    · norm_num; linarith

theorem lt_ticks (hi step p : ℝ) (hs : 0 < step) (i : Nat) : i < ticks hi step p ↔ p + i * step < hi := by
  unfold ticks
  rw [Nat.lt_ceil, lt_div_iff₀ hs]
  constructor <;> intro h <;> linarith

/-- A loop with enough fuel and a body which always ends is a fold. -/
theorem loop_eq (hi step : ℝ) (hs : 0 < step) (next : ℝ → ℝ) (body : ℝ → ℝ → State → Option State) (f : ℝ → ℝ → State → State) (fuel : Nat) (p s : ℝ) (st : State)
    (hf : ticks hi step p < fuel) (hb : ∀ (i : Nat) (st : State), body (p + i * step) (next^[i] s) st = some (f (p + i * step) (next^[i] s) st)) :
    loop fuel hi step next body p s st =
      some ((List.range (ticks hi step p)).foldl (fun st (i : Nat) => f (p + i * step) (next^[i] s) st) st) := by
  induction fuel generalizing p s st with
  | zero => omega
  | succ fuel ih =>
    rw [loop]
    by_cases h : p < hi
    · have hb0 := hb 0 st
      simp only [Nat.cast_zero, zero_mul, add_zero, Function.iterate_zero, id_eq] at hb0
      rw [if_pos h, hb0, Option.bind_some, ticks_succ hi step p hs h, List.range_succ_eq_map, List.foldl_cons, List.foldl_map]
      rw [ih (p + step) (next s) _ (by rw [ticks_succ hi step p hs h] at hf; omega) (by
        intro i st
        have := hb (i + 1) st
        rw [Function.iterate_succ_apply] at this
        rw [show p + step + i * step = p + ((i + 1 : ℕ) : ℝ) * step by push_cast; ring]
        exact this)]
      simp only [Nat.cast_zero, zero_mul, add_zero, Function.iterate_zero, id_eq]
      congr 2
      funext st i
      rw [Function.iterate_succ_apply, show p + step + i * step = p + ((i + 1 : ℕ) : ℝ) * step by push_cast; ring]
    · rw [if_neg h, ticks_zero hi step p hs h]; rfl

/-- A loop which steps by nothing or backwards never ends. -/
theorem loop_stuck (hi step : ℝ) (hs : step ≤ 0) (next : ℝ → ℝ) (body : ℝ → ℝ → State → Option State) (fuel : Nat) (p s : ℝ) (st : State) (h : p < hi) :
    loop fuel hi step next body p s st = none := by
  induction fuel generalizing p s st with
  | zero => rfl
  | succ fuel ih =>
    rw [loop, if_pos h, Option.bind_eq_none_iff]
    intro st' _
    exact ih (p + step) (next s) st' (by linarith)

theorem flip_iter (i : Nat) : flip^[i] 0 = ((i % 2 : ℕ) : ℝ) := by
  induction i with
  | zero => simp
  | succ i ih =>
    rw [Function.iterate_succ_apply', ih, flip]
    rcases Nat.mod_two_eq_zero_or_one i with h | h
    · rw [h, show (i + 1) % 2 = 1 by omega]; norm_num
    · rw [h, show (i + 1) % 2 = 0 by omega]; norm_num

theorem cycle_iter (i : Nat) : cycle^[i] 0 = ((i % 4 : ℕ) : ℝ) := by
  induction i with
  | zero => simp
  | succ i ih =>
    rw [Function.iterate_succ_apply', ih, cycle]
    have h4 : i % 4 = 0 ∨ i % 4 = 1 ∨ i % 4 = 2 ∨ i % 4 = 3 := by omega
    rcases h4 with h | h | h | h
    · rw [h, show (i + 1) % 4 = 1 by omega]; norm_num
    · rw [h, show (i + 1) % 4 = 2 by omega]; norm_num
    · rw [h, show (i + 1) % 4 = 3 by omega]; norm_num
    · rw [h, show (i + 1) % 4 = 0 by omega]; norm_num

theorem foldl_flatMap' {α β γ : Type} (g : β → List α) (f : γ → α → γ) (l : List β) (c : γ) :
    (l.flatMap g).foldl f c = l.foldl (fun c b => (g b).foldl f c) c := by
  induction l generalizing c with
  | nil => rfl
  | cons b l ih => rw [List.flatMap_cons, List.foldl_append, ih]; rfl

/-- What the visits of a list of candidates do. -/
theorem visits (countOnly : Bool) (dom : Pos → Prop) (l : List Pos) (st : State) :
    (l.foldl (fun st p => visit countOnly dom p st) st).posid = st.posid + (l.filter (fun p => decide (dom p))).length ∧
    (∀ k, (l.foldl (fun st p => visit countOnly dom p st) st).pos k =
      if countOnly then st.pos k else if k < st.posid then st.pos k else ((l.filter (fun p => decide (dom p)))[k - st.posid]?).getD (st.pos k)) := by
  induction l generalizing st with
  | nil => simp
  | cons p l ih =>
    rw [List.foldl_cons]
    obtain ⟨h1, h2⟩ := ih (visit countOnly dom p st)
    by_cases hp : dom p
    · have hv : visit countOnly dom p st = { posid := st.posid + 1, pos := if countOnly then st.pos else Function.update st.pos st.posid p } := if_pos hp
      rw [List.filter_cons_of_pos (by simpa using hp)]
      refine ⟨by rw [h1, hv, List.length_cons]; dsimp only; omega, fun k => ?_⟩
      rw [h2 k, hv]
      dsimp only
      cases countOnly with
      | true => simp
      | false =>
        simp only [Bool.false_eq_true, if_false]
        rcases lt_trichotomy k st.posid with h | h | h
        · rw [if_pos (by omega), if_pos h, Function.update_of_ne (by omega)]
        · rw [if_pos (by omega), if_neg (by omega), h, Function.update_self]; simp
        · rw [if_neg (by omega), if_neg (by omega), Function.update_of_ne (by omega), show k - st.posid = k - (st.posid + 1) + 1 by omega, List.getElem?_cons_succ]
    · have hv : visit countOnly dom p st = st := if_neg hp
      rw [List.filter_cons_of_neg (by simpa using hp)]
      rw [hv] at h1 h2 ⊢
      exact ⟨h1, h2⟩

/-- The indices of a loop in a loop in a loop. -/
def indices (nz : Nat) (ny : Nat → Nat) (nx : Nat → Nat → Nat) : List (Nat × Nat × Nat) :=
  (List.range nz).flatMap fun l => (List.range (ny l)).flatMap fun j => (List.range (nx l j)).map fun i => (l, j, i)

theorem mem_indices (nz : Nat) (ny : Nat → Nat) (nx : Nat → Nat → Nat) (l j i : Nat) :
    (l, j, i) ∈ indices nz ny nx ↔ l < nz ∧ j < ny l ∧ i < nx l j := by
  unfold indices
  simp only [List.mem_flatMap, List.mem_map, List.mem_range, Prod.mk.injEq]
  constructor
  · rintro ⟨l', h1, j', h2, i', h3, rfl, rfl, rfl⟩; exact ⟨h1, h2, h3⟩
  · rintro ⟨h1, h2, h3⟩; exact ⟨l, h1, j, h2, i, h3, rfl, rfl, rfl⟩

theorem nodup_indices (nz : Nat) (ny : Nat → Nat) (nx : Nat → Nat → Nat) : (indices nz ny nx).Nodup := by
  unfold indices
  rw [List.nodup_flatMap]
  refine ⟨fun l _ => ?_, ?_⟩
  · rw [List.nodup_flatMap]
    refine ⟨fun j _ => List.nodup_range.map fun a b h => by simpa using h, ?_⟩
    refine List.nodup_range.imp ?_
    intro a b hab
    rw [Function.onFun, List.disjoint_left]
    rintro x hx hx'
    obtain ⟨i, -, rfl⟩ := List.mem_map.1 hx
    obtain ⟨i', -, h⟩ := List.mem_map.1 hx'
    simp at h
    exact hab h.1.symm
  · refine List.nodup_range.imp ?_
    intro a b hab
    rw [Function.onFun, List.disjoint_left]
    rintro x hx hx'
    obtain ⟨j, -, hx⟩ := List.mem_flatMap.1 hx
    obtain ⟨i, -, rfl⟩ := List.mem_map.1 hx
    obtain ⟨j', -, hx'⟩ := List.mem_flatMap.1 hx'
    obtain ⟨i', -, h⟩ := List.mem_map.1 hx'
    simp at h
    exact hab h.1.symm

theorem ticks_anti (hi step p q : ℝ) (hs : 0 < step) (h : p ≤ q) : ticks hi step q ≤ ticks hi step p :=
  Nat.ceil_le_ceil (div_le_div_of_nonneg_right (by linarith) hs.le)

/-- Two nested loops. -/
theorem loop2_eq (hx hy dx dy : ℝ) (hdx : 0 < dx) (hdy : 0 < dy) (ny : ℝ → ℝ) (sx : ℝ → ℝ) (g : ℝ → ℝ → State → State) (fuel : Nat) (p s : ℝ) (st : State)
    (hy' : ticks hy dy p < fuel) (hx' : ∀ j : Nat, ticks hx dx (sx (ny^[j] s)) < fuel) :
    loop fuel hy dy ny (fun y yo => loop fuel hx dx id (fun x _ st => some (g x y st)) (sx yo) 0) p s st =
      some ((List.range (ticks hy dy p)).foldl (fun st (j : Nat) =>
        (List.range (ticks hx dx (sx (ny^[j] s)))).foldl (fun st (i : Nat) => g (sx (ny^[j] s) + i * dx) (p + j * dy) st) st) st) :=
  loop_eq hy dy hdy ny _ (fun y yo st => (List.range (ticks hx dx (sx yo))).foldl (fun st (i : Nat) => g (sx yo + i * dx) y st) st) fuel p s st hy'
    fun j st => loop_eq hx dx hdx id _ (fun x _ st => g x (p + j * dy) st) fuel _ 0 st (hx' j) fun _ _ => rfl

/-- Three nested loops. -/
theorem loop3_eq (hx hy hz dx dy dz : ℝ) (hdx : 0 < dx) (hdy : 0 < dy) (hdz : 0 < dz) (nz ny : ℝ → ℝ) (sy : ℝ → ℝ) (sx : ℝ → ℝ → ℝ)
    (g : ℝ → ℝ → ℝ → State → State) (fuel : Nat) (p s t : ℝ) (st : State) (hz' : ticks hz dz p < fuel) (hy' : ∀ l : Nat, ticks hy dy (sy (nz^[l] s)) < fuel)
    (hx' : ∀ l j : Nat, ticks hx dx (sx (nz^[l] s) (ny^[j] t)) < fuel) :
    loop fuel hz dz nz (fun z zo => loop fuel hy dy ny (fun y yo => loop fuel hx dx id (fun x _ st => some (g x y z st)) (sx zo yo) 0) (sy zo) t) p s st =
      some ((List.range (ticks hz dz p)).foldl (fun st (l : Nat) => (List.range (ticks hy dy (sy (nz^[l] s)))).foldl (fun st (j : Nat) =>
        (List.range (ticks hx dx (sx (nz^[l] s) (ny^[j] t)))).foldl
          (fun st (i : Nat) => g (sx (nz^[l] s) (ny^[j] t) + i * dx) (sy (nz^[l] s) + j * dy) (p + l * dz) st) st) st) st) :=
  loop_eq hz dz hdz nz _ (fun z zo st => (List.range (ticks hy dy (sy zo))).foldl (fun st (j : Nat) =>
      (List.range (ticks hx dx (sx zo (ny^[j] t)))).foldl (fun st (i : Nat) => g (sx zo (ny^[j] t) + i * dx) (sy zo + j * dy) z st) st) st) fuel p s st hz'
    fun l st => loop2_eq hx hy dx dy hdx hdy ny (sx (nz^[l] s)) (fun x y => g x y (p + l * dz)) fuel _ t st (hy' l) (hx' l)

theorem fold_indices (nz : Nat) (ny : Nat → Nat) (nx : Nat → Nat → Nat) (f : Nat → Nat → Nat → State → State) (st : State) :
    (List.range nz).foldl (fun st l => (List.range (ny l)).foldl (fun st j => (List.range (nx l j)).foldl (fun st i => f l j i st) st) st) st =
      (indices nz ny nx).foldl (fun st t => f t.1 t.2.1 t.2.2 st) st := by
  unfold indices
  simp only [foldl_flatMap', List.foldl_map]

end FleCSPH.Lattice
