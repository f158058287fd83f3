import Verif.Model.Io
import Mathlib.Tactic.Ring
import Mathlib.Data.List.GetD
import Mathlib.Tactic.Linarith
import Mathlib.Algebra.BigOperators.Group.List.Basic
/-! Lemmas on the partition of datasets. -/
namespace FleCSPH.Io

theorem scanl_getD (l : List Nat) (a r : Nat) (h : r ≤ l.length) : (l.scanl (· + ·) a).getD r 0 = a + (l.take r).sum := by
  induction l generalizing a r with
  | nil =>
    obtain rfl : r = 0 := by simpa using h
    simp
  | cons x l ih =>
    cases r with
    | zero => simp
    | succ r =>
      have := ih (a + x) r (by simpa using h)
      simp only [List.scanl_cons, List.getD_cons_succ, List.take_succ_cons, List.sum_cons]
      rw [this]; ring

theorem offset_eq (counts : List Nat) (r : Nat) (h : r ≤ counts.length) : offset counts r = (counts.take r).sum := by
  have := scanl_getD counts 0 r h
  simpa [offset, offcount] using this

theorem total_eq (counts : List Nat) : total counts = counts.sum := by
  have := scanl_getD counts 0 counts.length le_rfl
  simpa [total, offcount] using this

theorem sum_share (n size : Nat) (h : 0 < size) : ((List.range size).map (share n size)).sum = n := by
  have key : ∀ (q m s : Nat), ((List.range s).map fun r => if r < m then q + 1 else q).sum = s * q + min m s := by
    intro q m s
    induction s with
    | zero => simp
    | succ s ih =>
      rw [List.range_succ, List.map_append, List.sum_append, ih]
      simp only [List.map_cons, List.map_nil, List.sum_cons, List.sum_nil]
      split_ifs with hm
      · rw [Nat.min_eq_right (by omega), Nat.min_eq_right (by omega)]; ring
      · rw [Nat.min_eq_left (by omega), Nat.min_eq_left (by omega)]; ring
  have h1 := key (n / size) (n % size) size
  have h2 : ((List.range size).map (share n size)).sum = size * (n / size) + min (n % size) size := h1
  rw [h2, Nat.min_eq_left (Nat.mod_lt _ h).le]
  exact Nat.div_add_mod n size

/-- Consecutive blocks cover a list. -/
theorem blocks_flatten {α : Type} (counts : List Nat) (file : List α) (h : counts.sum = file.length) :
    ((List.range counts.length).map fun r => (file.drop (counts.take r).sum).take (counts.getD r 0)).flatten = file := by
  induction counts generalizing file with
  | nil => simp at h; simp [List.length_eq_zero_iff.1 h.symm]
  | cons c cs ih =>
    have hlen : cs.sum = (file.drop c).length := by simp at h ⊢; omega
    rw [List.length_cons, List.range_succ_eq_map, List.map_cons, List.flatten_cons, List.map_map]
    have : ((fun r => (file.drop ((c :: cs).take r).sum).take ((c :: cs).getD r 0)) ∘ Nat.succ) = fun r => ((file.drop c).drop (cs.take r).sum).take (cs.getD r 0) := by
      funext r
      simp [List.drop_drop]
    rw [this, ih _ hlen]
    simp

theorem readAll_eq {α : Type} (file : List α) (size : Nat) :
    readAll file size = (List.range size).map fun r => (file.drop (((List.range size).map (share file.length size)).take r).sum).take (share file.length size r) := by
  unfold readAll
  apply List.map_congr_left
  intro r hr
  have hr := List.mem_range.1 hr
  unfold readSlab
  rw [offset_eq _ _ (by simp; omega)]
  simp [hr]

theorem sum_take_le (l : List Nat) (r : Nat) (h : r < l.length) : (l.take r).sum + l.getD r 0 ≤ l.sum := by
  have h1 : l.sum = (l.take r).sum + (l.drop r).sum := by rw [← List.sum_append, List.take_append_drop]
  rw [h1, List.drop_eq_getElem_cons h, List.sum_cons, List.getD_eq_getElem _ _ h]
  omega

/-- A later slab begins after the end of an earlier one. -/
theorem sum_take_lt (l : List Nat) (r r' : Nat) (h : r < r') (h' : r' ≤ l.length) : (l.take r).sum + l.getD r 0 ≤ (l.take r').sum := by
  have h1 := sum_take_le (l.take r') r (by simp; omega)
  rw [List.take_take, Nat.min_eq_left h.le] at h1
  rw [List.getD_eq_getElem _ _ (by simp; omega), List.getElem_take] at h1
  rw [List.getD_eq_getElem _ _ (by omega)]
  exact h1

/-- The block of `r` inside the whole. -/
theorem flatten_getElem {α : Type} (ranks : List (List α)) (r : Nat) (h : r < ranks.length) (j : Nat) (h1 : (((ranks.map List.length).take r).sum) ≤ j)
    (h2 : j < ((ranks.map List.length).take r).sum + ranks[r].length) : ranks.flatten[j]? = ranks[r][j - ((ranks.map List.length).take r).sum]? := by
  have e : ranks.flatten = (ranks.take r).flatten ++ (ranks[r] ++ (ranks.drop (r + 1)).flatten) := by
    rw [← List.flatten_cons, ← List.drop_eq_getElem_cons h, ← List.flatten_append, List.take_append_drop]
  have hl : (ranks.take r).flatten.length = ((ranks.map List.length).take r).sum := by
    rw [List.length_flatten, List.map_take]
  rw [e, List.getElem?_append_right (by omega), List.getElem?_append_left (by omega), hl]

/-- Every position belongs to a block. -/
theorem exists_block {α : Type} (ranks : List (List α)) (j : Nat) (h : j < ranks.flatten.length) :
    ∃ r, ∃ hr : r < ranks.length, ((ranks.map List.length).take r).sum ≤ j ∧ j < ((ranks.map List.length).take r).sum + ranks[r].length := by
  induction ranks generalizing j with
  | nil => simp at h
  | cons l ls ih =>
    by_cases hj : j < l.length
    · exact ⟨0, by simp, by simp, by simpa using hj⟩
    · have h' : j - l.length < ls.flatten.length := by
        rw [List.flatten_cons, List.length_append] at h; omega
      obtain ⟨r, hr, a, b⟩ := ih _ h'
      refine ⟨r + 1, by simpa using hr, ?_, ?_⟩
      · simp only [List.map_cons, List.take_succ_cons, List.sum_cons]; omega
      · simp only [List.map_cons, List.take_succ_cons, List.sum_cons, List.getElem_cons_succ]; omega

theorem writeSlab_length {α : Type} (f : List (Option α)) (off : Nat) (data : List α) (h : off + data.length ≤ f.length) : (writeSlab f off data).length = f.length := by
  simp [writeSlab]; omega

theorem writeSlab_getElem {α : Type} (f : List (Option α)) (off : Nat) (data : List α) (h : off + data.length ≤ f.length) (j : Nat) :
    (writeSlab f off data)[j]? = if off ≤ j ∧ j < off + data.length then (data[j - off]?).map some else f[j]? := by
  unfold writeSlab
  by_cases h1 : j < off
  · rw [if_neg (by omega), List.append_assoc, List.getElem?_append_left (by simp; omega), List.getElem?_take, if_pos h1]
  · by_cases h2 : j < off + data.length
    · rw [if_pos ⟨by omega, h2⟩, List.append_assoc, List.getElem?_append_right (by simp; omega), List.getElem?_append_left (by simp; omega)]
      simp only [List.length_take, Nat.min_eq_left (show off ≤ f.length by omega), List.getElem?_map]
    · rw [if_neg (by omega), List.getElem?_append_right (by simp; omega), List.getElem?_drop]
      congr 1
      simp; omega

/-- After some processes have written, each position holds its final value if its process has, and is not written otherwise. -/
theorem write_fold {α : Type} (ranks : List (List α)) (order : List Nat) (ho : ∀ r ∈ order, r < ranks.length) (f : List (Option α)) (hf : f.length = ranks.flatten.length)
    (done : Nat → Prop) (hd : ∀ r (hr : r < ranks.length) j, done r → ((ranks.map List.length).take r).sum ≤ j → j < ((ranks.map List.length).take r).sum + ranks[r].length → f[j]? = (ranks.flatten[j]?).map some) :
    let g := order.foldl (fun f r => writeSlab f (offset (ranks.map List.length) r) (ranks.getD r [])) f
    g.length = ranks.flatten.length ∧
      ∀ r (hr : r < ranks.length) j, (done r ∨ r ∈ order) → ((ranks.map List.length).take r).sum ≤ j → j < ((ranks.map List.length).take r).sum + ranks[r].length → g[j]? = (ranks.flatten[j]?).map some := by
  induction order generalizing f done with
  | nil => exact ⟨hf, fun r hr j h => hd r hr j (by simpa using h)⟩
  | cons o os ih =>
    have hol := ho o (by simp)
    have hoff : offset (ranks.map List.length) o = ((ranks.map List.length).take o).sum := offset_eq _ _ (by simpa using hol.le)
    have hle := sum_take_le (ranks.map List.length) o (by simpa using hol)
    rw [List.getD_eq_getElem _ _ (by simpa using hol), List.getElem_map, ← List.length_flatten, ← hf] at hle
    have hget : ranks.getD o [] = ranks[o] := List.getD_eq_getElem _ _ hol
    have hb : offset (ranks.map List.length) o + (ranks.getD o []).length ≤ f.length := by rw [hoff, hget]; exact hle
    have := ih (fun r hr => ho r (by simp [hr])) (writeSlab f (offset (ranks.map List.length) o) (ranks.getD o [])) ((writeSlab_length _ _ _ hb).trans hf) (fun r => done r ∨ r = o) ?_
    · refine ⟨this.1, fun r hr j h h1 h2 => this.2 r hr j ?_ h1 h2⟩
      rcases h with h | h
      · exact Or.inl (Or.inl h)
      · rcases List.mem_cons.1 h with h | h
        · exact Or.inl (Or.inr h)
        · exact Or.inr h
    · intro r hr j h h1 h2
      rw [writeSlab_getElem _ _ _ hb, hoff, hget]
      split_ifs with hc
      · rw [flatten_getElem ranks o hol j hc.1 hc.2]
      · rcases h with h | h
        · exact hd r hr j h h1 h2
        · subst h; exact absurd ⟨h1, h2⟩ hc

end FleCSPH.Io
