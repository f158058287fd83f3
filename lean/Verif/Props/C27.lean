import Verif.Lemmas.Io
import Verif.Props.C26
/-! C27: ids generated on input. -/
namespace FleCSPH.Io
open FleCSPH FleCSPH.Boundary

theorem mapM_some {α β : Type} (f : α → Option β) (g : α → β) (l : List α) (h : ∀ a ∈ l, f a = some (g a)) : l.mapM f = some (l.map g) := by
  induction l with
  | nil => rfl
  | cons a l ih => rw [List.mapM_cons, h a (by simp), ih fun b hb => h b (by simp [hb])]; rfl

theorem mapM_none {α β : Type} (f : α → Option β) (l : List α) (a : α) (ha : a ∈ l) (h : f a = none) : l.mapM f = none := by
  induction l with
  | nil => simp at ha
  | cons b l ih =>
    rw [List.mapM_cons]
    rcases List.mem_cons.1 ha with rfl | ha
    · rw [h]; rfl
    · rw [ih ha]; cases f b <;> rfl

theorem genIds_last (n size : Nat) (hs : 0 < size) : (genIds n size (size - 1)).getLast? = if n / size = 0 then none else some (n / size * size) := by
  have hsh : share n size (size - 1) = n / size := by
    unfold share
    rw [if_neg]
    have := Nat.mod_lt n hs
    omega
  unfold genIds
  rw [hsh]
  split_ifs with h
  · simp [h]
  · obtain ⟨q, hq⟩ : ∃ q, n / size = q + 1 := ⟨n / size - 1, by omega⟩
    obtain ⟨s, rfl⟩ : ∃ s, size = s + 1 := ⟨size - 1, by omega⟩
    rw [hq, List.range_succ, List.map_append, List.map_cons, List.map_nil, List.getLast?_append_cons]
    simp only [Nat.add_sub_cancel, List.getLast?_singleton, Option.some.injEq]
    ring

theorem readIds_last (n size : Nat) (hs : 0 < size) (h : ¬ size ∣ n ∨ n = 0) : readIds n size (size - 1) = none := by
  unfold readIds
  rw [if_pos (by omega), genIds_last n size hs]
  by_cases hq : n / size = 0
  · rw [if_pos hq]
  · rw [if_neg hq]
    show (if n = n / size * size then _ else _) = none
    rw [if_neg]
    rintro e
    rcases h with h | h
    · exact h ⟨n / size, by rw [Nat.mul_comm]; exact e⟩
    · exact hq (by rw [h]; simp)

/-- If the number of processes divides the number of particles, the particles get, in the order of the file, the ids 1, ..., N. -/
theorem C27_divisible_partial (n size : Nat) (hs : 0 < size) (hn : 0 < n) (h : size ∣ n) :
    ∃ ids, readAllIds n size = some ids ∧ ids.flatten = (List.range n).map (fun k => k + 1) ∧ ids.flatten.Nodup ∧ ids.map List.length = (List.range size).map (share n size) := by
  obtain ⟨q, rfl⟩ := h
  have hq : 0 < q := Nat.pos_of_mul_pos_left hn
  have hdiv : size * q / size = q := Nat.mul_div_cancel_left q hs
  have hshare : ∀ r, share (size * q) size r = q := by
    intro r; unfold share; rw [Nat.mul_mod_right, if_neg (by omega), hdiv]
  have hflat : ((List.range size).map (genIds (size * q) size)).flatten = (List.range (size * q)).map (fun k => k + 1) := by
    have key : ∀ s, ((List.range s).map fun r => (List.range q).map fun i => q * r + 1 + i).flatten = (List.range (s * q)).map (fun k => k + 1) := by
      intro s
      induction s with
      | zero => simp
      | succ s ih =>
        rw [List.range_succ, List.map_append, List.flatten_append, ih, Nat.succ_mul, List.range_add, List.map_append, List.map_map]
        simp only [List.map_cons, List.map_nil, List.flatten_cons, List.flatten_nil, List.append_nil]
        congr 1
        apply List.map_congr_left
        intro i _
        simp only [Function.comp]
        ring
    rw [← key size]
    congr 1
    apply List.map_congr_left
    intro r _
    unfold genIds
    rw [hshare, hdiv]
  refine ⟨(List.range size).map (genIds (size * q) size), ?_, hflat, ?_, ?_⟩
  · apply mapM_some
    intro r hr
    have hr := List.mem_range.1 hr
    unfold readIds
    split_ifs with hl
    · obtain rfl : r = size - 1 := by omega
      rw [genIds_last _ _ hs, hdiv, if_neg (by omega)]
      show (if size * q = q * size then _ else _) = _
      rw [if_pos (Nat.mul_comm _ _)]
    · rfl
  · rw [hflat]
    exact List.Nodup.map (fun a b hab => by simpa using hab) List.nodup_range
  · rw [List.map_map]
    apply List.map_congr_left
    intro r _
    simp [genIds]

example : readAllIds 6 3 = some [[1, 2], [3, 4], [5, 6]] := by decide

/-- Otherwise the reading of the file stops: the assertion of the last process fails, or it looks at the last of no particles. -/
theorem C27_not_divisible_violated (n size : Nat) (hs : 0 < size) (h : ¬ size ∣ n) : readAllIds n size = none :=
  mapM_none _ _ (size - 1) (List.mem_range.2 (by omega)) (readIds_last n size hs (Or.inl h))

example : 0 < 3 ∧ ¬ 3 ∣ 7 := by decide

/-- Without assertions two particles get the same id. -/
theorem C27_duplicate_violated (n size : Nat) (hs : 0 < size) (hn : 1 < n) (h : ¬ size ∣ n) : ¬ ((List.range size).map (genIds n size)).flatten.Nodup := by
  obtain ⟨s, rfl⟩ : ∃ s, size = s + 2 := by
    refine ⟨size - 2, ?_⟩
    have : size ≠ 1 := by rintro rfl; exact h (one_dvd n)
    omega
  have hm : 0 < n % (s + 2) := Nat.pos_of_ne_zero fun e => h (Nat.dvd_of_mod_eq_zero e)
  have h0 : n / (s + 2) + 1 ∈ genIds n (s + 2) 0 := by
    unfold genIds share
    rw [if_pos hm]
    exact List.mem_map.2 ⟨n / (s + 2), List.mem_range.2 (by omega), by ring⟩
  have h1 : n / (s + 2) + 1 ∈ genIds n (s + 2) 1 := by
    unfold genIds
    refine List.mem_map.2 ⟨0, List.mem_range.2 ?_, by ring⟩
    unfold share
    have := Nat.div_add_mod n (s + 2)
    split_ifs with hc
    · exact Nat.succ_pos _
    · rcases Nat.eq_zero_or_pos (n / (s + 2)) with hz | hz
      · rw [hz] at this; omega
      · exact hz
  intro hnd
  have e : (List.range (s + 2)).map (genIds n (s + 2)) = genIds n (s + 2) 0 :: genIds n (s + 2) 1 :: (List.range s).map (fun r => genIds n (s + 2) (r + 2)) := by
    rw [List.range_succ_eq_map, List.range_succ_eq_map]
    simp [Function.comp_def]
  rw [e, List.flatten_cons, List.flatten_cons, List.nodup_append] at hnd
  exact hnd.2.2 _ h0 _ (by simp [h1]) rfl

example : ((List.range 3).map (genIds 7 3)).flatten = [1, 2, 3, 3, 4, 5, 6] := by decide

/-- The generation of ghosts stops on the generated ids 1, ..., N, for every distribution of the particles. -/
theorem C27_ghosts_violated {β : Type} (i : Fin 3) (B : Box (i + 1)) (ranks : List (List (Body (i + 1) β))) (hw : ∀ l ∈ ranks, ∀ b ∈ l, b.wall = false) (hne : ranks.flatten ≠ [])
    (hid : (ranks.flatten.map Body.id).Perm ((List.range ranks.flatten.length).map fun k : ℕ => (k : Int) + 1)) : generate i B ranks = none := by
  cases hg : generate i B ranks with
  | none => rfl
  | some out =>
    exfalso
    have hc := (C26_check i B ranks hw).1 ⟨out, hg⟩
    rw [hid.sum_eq] at hc
    have key : ∀ n : ℕ, 2 * ((List.range n).map fun k : ℕ => (k : Int) + 1).sum = ((n : Int) + 1) * n := by
      intro n
      induction n with
      | zero => simp
      | succ n ih =>
        rw [List.range_succ, List.map_append, List.sum_append, mul_add, ih]
        simp
        ring
    rw [key] at hc
    have hpos : 0 < ranks.flatten.length := List.length_pos_iff.2 hne
    have : (0 : Int) < ranks.flatten.length := by exact_mod_cast hpos
    nlinarith

/-- Three particles on two processes. -/
example : ∃ ranks : List (List (Body 1 Unit)), (∀ l ∈ ranks, ∀ b ∈ l, b.wall = false) ∧ ranks.flatten ≠ [] ∧ ranks.length = 2 ∧
    (ranks.flatten.map Body.id).Perm ((List.range ranks.flatten.length).map fun k : ℕ => (k : Int) + 1) :=
  ⟨[[{ pos := fun _ => 0, id := 2, wall := false, rest := () }, { pos := fun _ => 1, id := 1, wall := false, rest := () }], [{ pos := fun _ => 2, id := 3, wall := false, rest := () }]],
    by simp, by simp, rfl, by show List.Perm ([2, 1, 3] : List Int) ((List.range 3).map fun k : ℕ => (k : Int) + 1); decide⟩

end FleCSPH.Io
