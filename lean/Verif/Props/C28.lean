import Verif.Lemmas.Io
import Mathlib.Data.List.Perm.Basic
/-! C28: the partition of files among processes is exact. -/
namespace FleCSPH.Io

/-- On input the blocks of the processes are, one after the other, the file; their sizes differ by at most one. -/
theorem C28_read {α : Type} (file : List α) (size : Nat) (h : 0 < size) :
    (readAll file size).length = size ∧ (readAll file size).flatten = file ∧ ∀ a ∈ readAll file size, ∀ b ∈ readAll file size, a.length ≤ b.length + 1 := by
  have hs := sum_share file.length size h
  rw [readAll_eq]
  refine ⟨by simp, ?_, ?_⟩
  · have := blocks_flatten ((List.range size).map (share file.length size)) file hs
    rw [List.length_map, List.length_range] at this
    rw [← this]
    congr 1
    rw [this]
    apply List.map_congr_left
    intro r hr
    simp [List.mem_range.1 hr]
  · have key : ∀ r, r < size → ((file.drop (((List.range size).map (share file.length size)).take r).sum).take (share file.length size r)).length = share file.length size r := by
      intro r hr
      have := sum_take_le ((List.range size).map (share file.length size)) r (by simpa using hr)
      rw [hs, List.getD_eq_getElem _ _ (by simpa using hr)] at this
      simp only [List.getElem_map, List.getElem_range] at this
      rw [List.length_take, List.length_drop]; omega
    intro a ha b hb
    obtain ⟨r, hr, rfl⟩ := List.mem_map.1 ha
    obtain ⟨r', hr', rfl⟩ := List.mem_map.1 hb
    rw [key r (List.mem_range.1 hr), key r' (List.mem_range.1 hr')]
    unfold share
    split_ifs <;> omega

example : readAll [10, 11, 12, 13, 14, 15, 16] 3 = [[10, 11, 12], [13, 14], [15, 16]] := by decide

/-- The slabs written on output do not overlap. -/
theorem C28_disjoint {α : Type} (ranks : List (List α)) (r r' : Nat) (h : r < r') (h' : r' < ranks.length) :
    offset (ranks.map List.length) r + ranks[r].length ≤ offset (ranks.map List.length) r' := by
  rw [offset_eq _ _ (by simp; omega), offset_eq _ _ (by simp; omega)]
  have := sum_take_lt (ranks.map List.length) r r' h (by simpa using h'.le)
  rwa [List.getD_eq_getElem _ _ (by simp; omega), List.getElem_map] at this

/-- On output, in whatever order the processes write, the dataset has a value for each particle and nothing else, in the order of the processes. -/
theorem C28_write {α : Type} (ranks : List (List α)) (order : List Nat) (h : order.Perm (List.range ranks.length)) :
    writeAll ranks order = ranks.flatten.map some := by
  have ht : total (ranks.map List.length) = ranks.flatten.length := by rw [total_eq, List.length_flatten]
  have := write_fold ranks order (fun r hr => List.mem_range.1 (h.mem_iff.1 hr)) (List.replicate (total (ranks.map List.length)) none) (by simp [ht]) (fun _ => False) (fun _ _ _ h => h.elim)
  obtain ⟨h1, h2⟩ := this
  apply List.ext_getElem?
  intro j
  rw [List.getElem?_map]
  by_cases hj : j < ranks.flatten.length
  · obtain ⟨r, hr, a, b⟩ := exists_block ranks j hj
    exact h2 r hr j (Or.inr (h.mem_iff.2 (List.mem_range.2 hr))) a b
  · rw [List.getElem?_eq_none (by unfold writeAll; exact h1 ▸ (by omega)), List.getElem?_eq_none (by omega)]
    rfl

example : writeAll [[1, 2], [], [3], [4, 5, 6]] [3, 0, 2, 1] = [some 1, some 2, some 3, some 4, some 5, some 6] ∧ [3, 0, 2, 1].Perm (List.range 4) := by decide

/-- What some number of processes wrote is read by any other number of processes, in the same order. -/
theorem C28_round_trip {α : Type} (ranks : List (List α)) (order : List Nat) (h : order.Perm (List.range ranks.length)) (size : Nat) (hs : 0 < size) (file : List α)
    (hf : writeAll ranks order = file.map some) : (readAll file size).flatten = ranks.flatten := by
  rw [(C28_read file size hs).2.1]
  rw [C28_write ranks order h] at hf
  exact (List.map_injective_iff.2 (Option.some_injective α) hf).symm

example : ∃ file, writeAll [[1, 2], [], [3]] [2, 0, 1] = file.map some ∧ readAll file 2 = [[1, 2], [3]] := ⟨[1, 2, 3], by decide, by decide⟩

end FleCSPH.Io
