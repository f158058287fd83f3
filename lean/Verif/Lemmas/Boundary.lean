import Verif.Model.Boundary
import Mathlib.Tactic.Linarith
import Mathlib.Tactic.Ring
import Mathlib.Tactic.NormNum
import Mathlib.Tactic.FinCases
import Mathlib.Data.List.Perm.Basic
import Mathlib.Algebra.BigOperators.Group.List.Basic
/-! Lemmas on the periodic boundary. -/
namespace FleCSPH.Boundary
open FleCSPH.Geometry

variable {d : Nat} {β : Type}

open Classical in
/-- The coordinate after the wrap. -/
noncomputable def wrap1 (B : Box d) (j : Fin d) (x : ℝ) : ℝ :=
  if B.periodic j then if x > B.max j then x - B.sides j else if x ≤ B.min j then x + B.sides j else x else x

theorem side (B : Box d) (j : Fin d) : B.max j - B.min j = B.sides j := by
  unfold Box.max Box.min
  ring

theorem teleportAxis_self (B : Box d) (p : Point d) (j : Fin d) : teleportAxis B p j j = wrap1 B j (p j) := by
  unfold teleportAxis wrap1
  rw [side]
  split_ifs <;> simp

theorem teleportAxis_other (B : Box d) (p : Point d) (j k : Fin d) (h : k ≠ j) : teleportAxis B p j k = p k := by
  unfold teleportAxis
  split_ifs <;> simp [h]

theorem teleport_fold (B : Box d) (l : List (Fin d)) (hl : l.Nodup) (p : Point d) (k : Fin d) :
    l.foldl (teleportAxis B) p k = if k ∈ l then wrap1 B k (p k) else p k := by
  induction l generalizing p with
  | nil => simp
  | cons j l ih =>
    rw [List.nodup_cons] at hl
    rw [List.foldl_cons, ih hl.2]
    by_cases h : k = j
    · subst h
      rw [if_neg hl.1, if_pos (by simp), teleportAxis_self]
    · rw [teleportAxis_other B p j k h]
      simp [h]

theorem teleport_pos (B : Box d) (b : Body d β) (k : Fin d) : (teleport B b).pos k = wrap1 B k (b.pos k) := by
  show (List.finRange d).foldl (teleportAxis B) b.pos k = _
  rw [teleport_fold B _ (List.nodup_finRange d)]
  simp

theorem teleport_id (B : Box d) (b : Body d β) : (teleport B b).id = b.id := rfl

theorem teleport_wall (B : Box d) (b : Body d β) : (teleport B b).wall = b.wall := rfl

theorem addCorner_wall (B : Box d) (b c : Body d β) (axes : List (Fin d)) (h : c ∈ addCorner B b axes) : c.wall = true ∧ c.rest = b.rest := by
  unfold addCorner at h
  split_ifs at h
  · simp at h
    subst h
    exact ⟨rfl, rfl⟩
  · simp at h

theorem copies_wall (i : Fin 3) (B : Box (i + 1)) (b c : Body (i + 1) β) (h : c ∈ copies i B b) : c.wall = true ∧ c.rest = b.rest := by
  unfold copies at h
  rcases List.mem_append.1 h with h | h
  · obtain ⟨j, -, rfl⟩ := List.mem_map.1 h
    exact ⟨rfl, rfl⟩
  · obtain ⟨axes, -, h⟩ := List.mem_flatMap.1 h
    exact addCorner_wall B b c axes h

theorem edge_wall (i : Fin 3) (B : Box (i + 1)) (l : List (Body (i + 1) β)) (c : Body (i + 1) β) (h : c ∈ edge i B l) : c.wall = true := by
  obtain ⟨b, -, h⟩ := List.mem_flatMap.1 h
  exact (copies_wall i B b c h).1

theorem renumber_reals (n : Int) (l e : List (Body d β)) (hl : ∀ b ∈ l, b.wall = false) : renumber n (l ++ e) = l ++ renumber n e := by
  induction l with
  | nil => rfl
  | cons b l ih =>
    have hb : b.wall = false := hl b (by simp)
    simp only [List.cons_append, renumber, hb]
    rw [if_neg (by simp), ih fun c hc => hl c (by simp [hc])]

theorem renumber_walls_ids (n : Int) (e : List (Body d β)) (he : ∀ b ∈ e, b.wall = true) : (renumber n e).map Body.id = (List.range e.length).map fun k : ℕ => n + (k : Int) := by
  induction e generalizing n with
  | nil => rfl
  | cons b e ih =>
    have hb : b.wall = true := he b (by simp)
    simp only [renumber, hb, if_true, List.map_cons, List.length_cons, List.range_succ_eq_map, List.map_map]
    rw [ih _ fun c hc => he c (by simp [hc])]
    simp only [Nat.cast_zero, add_zero, List.cons.injEq, true_and]
    refine List.map_congr_left fun k _ => ?_
    simp only [Function.comp]
    push_cast
    ring

/-- Only the ids change. -/
theorem renumber_forget (n : Int) (e : List (Body d β)) : (renumber n e).map (fun b => (b.wall, b.pos, b.rest)) = e.map fun b => (b.wall, b.pos, b.rest) := by
  induction e generalizing n with
  | nil => rfl
  | cons b e ih =>
    simp only [renumber]
    split_ifs <;> simp [ih]

theorem renumber_all_walls (n : Int) (e : List (Body d β)) (he : ∀ b ∈ e, b.wall = true) : ∀ b ∈ renumber n e, b.wall = true := by
  intro b hb
  have h1 : (b.wall, b.pos, b.rest) ∈ (renumber n e).map fun b => (b.wall, b.pos, b.rest) := List.mem_map.2 ⟨b, hb, rfl⟩
  rw [renumber_forget] at h1
  obtain ⟨c, hc, h2⟩ := List.mem_map.1 h1
  have := he c hc
  simp only [Prod.mk.injEq] at h2
  rw [← h2.1, this]

/-- The lists after renumbering, without the check. -/
noncomputable def outOf (i : Fin 3) (B : Box (i + 1)) (N s : Int) (moved : List (List (Body (i + 1) β))) : List (List (Body (i + 1) β)) :=
  (moved.map fun l => l ++ edge i B l).zipWith (fun l n => renumber (N + n) l) (prefixes s (moved.map fun l => ((edge i B l).length : Int)))

theorem outOf_cons (i : Fin 3) (B : Box (i + 1)) (N s : Int) (l : List (Body (i + 1) β)) (moved : List (List (Body (i + 1) β))) :
    outOf i B N s (l :: moved) = renumber (N + s) (l ++ edge i B l) :: outOf i B N (s + ((edge i B l).length : Int)) moved := rfl

theorem prefixes_last (s : Int) (l : List Int) : (prefixes s l).getLast? = some (s + l.sum) := by
  induction l generalizing s with
  | nil => simp [prefixes]
  | cons a l ih =>
    have hne : prefixes (s + a) l ≠ [] := by cases l <;> simp [prefixes]
    simp only [prefixes]
    rw [List.getLast?_cons_of_ne_nil hne, ih]
    simp
    ring

theorem outOf_ids (i : Fin 3) (B : Box (i + 1)) (N s : Int) (moved : List (List (Body (i + 1) β))) (hw : ∀ l ∈ moved, ∀ b ∈ l, b.wall = false) :
    ((outOf i B N s moved).flatten.map Body.id).Perm
      (moved.flatten.map Body.id ++ (List.range (moved.map fun l => (edge i B l).length).sum).map fun k : ℕ => N + s + (k : Int)) := by
  induction moved generalizing s with
  | nil => simp [outOf]
  | cons l moved ih =>
    rw [outOf_cons, renumber_reals _ _ _ (hw l (by simp))]
    simp only [List.flatten_cons, List.map_append, List.map_cons, List.sum_cons, List.range_add, List.map_map]
    rw [renumber_walls_ids _ _ (edge_wall i B l)]
    have h1 := ih (s + ((edge i B l).length : Int)) fun l' hl' => hw l' (by simp [hl'])
    have e : (fun k : ℕ => N + (s + ((edge i B l).length : Int)) + (k : Int)) = (fun k : ℕ => N + s + (k : Int)) ∘ (fun x => (edge i B l).length + x) := by
      funext k
      simp only [Function.comp]
      push_cast
      ring
    rw [e] at h1
    rw [List.append_assoc, List.append_assoc]
    refine List.Perm.append_left _ ?_
    refine (List.Perm.append_left _ h1).trans ?_
    rw [← List.append_assoc, ← List.append_assoc]
    exact List.Perm.append_right _ List.perm_append_comm

theorem outOf_reals (i : Fin 3) (B : Box (i + 1)) (N s : Int) (moved : List (List (Body (i + 1) β))) (hw : ∀ l ∈ moved, ∀ b ∈ l, b.wall = false) :
    (outOf i B N s moved).map (fun l => l.filter fun b => !b.wall) = moved := by
  induction moved generalizing s with
  | nil => rfl
  | cons l moved ih =>
    rw [outOf_cons, renumber_reals _ _ _ (hw l (by simp)), List.map_cons, ih _ fun l' hl' => hw l' (by simp [hl'])]
    congr 1
    rw [List.filter_append, List.filter_eq_self.2, List.filter_eq_nil_iff.2, List.append_nil]
    · intro b hb
      rw [renumber_all_walls _ _ (edge_wall i B l) b hb]
      simp
    · intro b hb
      rw [hw l (by simp) b hb]
      simp

theorem outOf_walls (i : Fin 3) (B : Box (i + 1)) (N s : Int) (moved : List (List (Body (i + 1) β))) (hw : ∀ l ∈ moved, ∀ b ∈ l, b.wall = false) :
    (outOf i B N s moved).map (fun l => (l.filter fun b => b.wall).map fun b => (b.pos, b.rest)) = moved.map fun l => (edge i B l).map fun b => (b.pos, b.rest) := by
  induction moved generalizing s with
  | nil => rfl
  | cons l moved ih =>
    rw [outOf_cons, renumber_reals _ _ _ (hw l (by simp)), List.map_cons, ih _ fun l' hl' => hw l' (by simp [hl']), List.map_cons]
    congr 1
    rw [List.filter_append, List.filter_eq_nil_iff.2, List.filter_eq_self.2, List.nil_append]
    · have h1 := congrArg (List.map fun q : Bool × Point (i + 1) × β => q.2) (renumber_forget (N + s) (edge i B l))
      simpa [List.map_map, Function.comp_def] using h1
    · exact renumber_all_walls _ _ (edge_wall i B l)
    · intro b hb
      rw [hw l (by simp) b hb]
      simp

theorem sum_range_int (n : ℕ) : 2 * ((List.range n).map fun k : ℕ => (k : Int)).sum = ((n : Int) - 1) * n := by
  induction n with
  | zero => simp
  | succ n ih =>
    rw [List.range_succ, List.map_append, List.sum_append, mul_add, ih]
    simp
    ring

theorem sum_shift (n : ℕ) (N : Int) : 2 * ((List.range n).map fun k : ℕ => N + (k : Int)).sum = 2 * N * n + ((n : Int) - 1) * n := by
  have h := sum_range_int n
  have e : ((List.range n).map fun k : ℕ => N + (k : Int)).sum = N * n + ((List.range n).map fun k : ℕ => (k : Int)).sum := by
    rw [List.sum_map_add]
    simp
    ring
  rw [e, mul_add, h]
  ring

/-- The check, when the sum of the ids of the real particles is known. -/
theorem generate_eq (i : Fin 3) (B : Box (i + 1)) (ranks : List (List (Body (i + 1) β))) (hw : ∀ l ∈ ranks, ∀ b ∈ l, b.wall = false) (N : ℕ) (hN : ranks.flatten.length = N) (S : Int)
    (hS : (ranks.flatten.map Body.id).sum = S) :
    ∃ T : ℕ, ∃ out : List (List (Body (i + 1) β)), out = outOf i B N 0 (ranks.map fun l => l.map (teleport B)) ∧ T = N + ((ranks.map fun l => l.map (teleport B)).map fun l => (edge i B l).length).sum ∧
      out.flatten.length = T ∧ generate i B ranks = if 2 * S = ((N : Int) - 1) * N then some out else none := by
  obtain ⟨moved, hm⟩ : ∃ moved, moved = ranks.map fun l => l.map (teleport B) := ⟨_, rfl⟩
  have hwm : ∀ l ∈ moved, ∀ b ∈ l, b.wall = false := by
    intro l hl b hb
    rw [hm] at hl
    obtain ⟨l', hl', rfl⟩ := List.mem_map.1 hl
    obtain ⟨b', hb', rfl⟩ := List.mem_map.1 hb
    exact hw l' hl' b' hb'
  have hids : moved.flatten.map Body.id = ranks.flatten.map Body.id := by
    rw [hm, ← List.map_flatten, List.map_map]
    rfl
  obtain ⟨E, hE⟩ : ∃ E : ℕ, E = (moved.map fun l => (edge i B l).length).sum := ⟨_, rfl⟩
  have hperm := outOf_ids i B N 0 moved hwm
  rw [hids, ← hE, add_zero] at hperm
  have hlen : (outOf i B N 0 moved).flatten.length = N + E := by
    have h1 := hperm.length_eq
    rw [List.length_map, List.length_append, List.length_map, List.length_map, List.length_range, hN] at h1
    exact h1
  have hsum : ((outOf i B N 0 moved).map fun l => (l.map Body.id).sum).sum = S + ((List.range E).map fun k : ℕ => (N : Int) + (k : Int)).sum := by
    have h1 := hperm.sum_eq
    rw [List.sum_append, hS] at h1
    rw [← h1]
    generalize outOf i B N 0 moved = o
    induction o with
    | nil => rfl
    | cons a as ih => simp [ih]
  have horig : (ranks.map fun l => (l.length : Int)).sum = N := by
    rw [← hN, List.length_flatten]
    clear hw hN hS hm hids hperm hlen hsum
    induction ranks with
    | nil => rfl
    | cons a as ih => simp [ih]
  have hEint : (moved.map fun l => ((edge i B l).length : Int)).sum = E := by
    rw [hE]
    clear hE hperm hlen hsum hwm hm hids
    induction moved with
    | nil => rfl
    | cons a as ih => simp [ih]
  refine ⟨N + E, _, rfl, by rw [← hm, hE], by rw [← hm]; exact hlen, ?_⟩
  have hgen : generate i B ranks = if ((outOf i B N 0 moved).map fun l => (l.map Body.id).sum).sum = ((N + E : Int) - 1) * (N + E) / 2 then some (outOf i B N 0 moved) else none := by
    unfold generate
    simp only [← hm, horig, prefixes_last, hEint, Option.getD_some, zero_add]
    rfl
  rw [hgen, hsum, ← hm]
  have h2 := sum_shift E N
  have h3 : ((N + E : Int) - 1) * (N + E) = ((N : Int) - 1) * N + 2 * ((List.range E).map fun k : ℕ => (N : Int) + (k : Int)).sum := by
    rw [h2]
    ring
  congr 1
  rw [h3, eq_iff_iff]
  generalize ((List.range E).map fun k : ℕ => (N : Int) + (k : Int)).sum = Q
  have heven : ((N : Int) - 1) * N % 2 = 0 := by
    have h4 := sum_range_int N
    omega
  omega

open Classical in
/-- The copied coordinate. -/
noncomputable def shifted (B : Box d) (j : Fin d) (x : ℝ) : ℝ := if x + B.halo > B.max j then x - B.sides j else x + B.sides j

/-- A position in the box: (min, max] along the periodic axes. -/
def InBox (B : Box d) (p : Point d) : Prop := ∀ j, B.periodic j = true → -(1 / 2) * B.sides j < p j ∧ p j ≤ 1 / 2 * B.sides j

theorem axisCopy_eq (B : Box d) (p : Point d) (j : Fin d) : axisCopy B p j = shifted B j (p j) := by
  unfold axisCopy shifted
  rw [side]

theorem cornerCopy_eq (B : Box d) (p : Point d) (j : Fin d) (h1 : -(1 / 2) * B.sides j < p j) (h2 : p j ≤ 1 / 2 * B.sides j) : cornerCopy B p j = shifted B j (p j) := by
  unfold cornerCopy shifted Box.max Box.min
  split_ifs
  · rw [abs_of_nonpos (by linarith)]
    ring
  · rw [abs_of_nonneg (by linarith)]
    ring

theorem corner_fold (B : Box d) (p : Point d) (axes : List (Fin d)) (q : Point d) (k : Fin d) :
    axes.foldl (fun q j => Function.update q j (cornerCopy B p j)) q k = if k ∈ axes then cornerCopy B p k else q k := by
  induction axes generalizing q with
  | nil => simp
  | cons j l ih =>
    rw [List.foldl_cons, ih]
    by_cases h : k = j
    · subst h
      by_cases h2 : k ∈ l <;> simp [h2]
    · simp [h]

/-- All combinations of axes. -/
def axisSets (i : Fin 3) : List (List (Fin (i + 1))) := (List.finRange (i + 1)).map (fun j => [j]) ++ corners i

theorem axisSets_all : ∀ (i : Fin 3) (S : Finset (Fin (i + 1))), S.Nonempty → ∃ axes ∈ axisSets i, ∀ j, j ∈ axes ↔ j ∈ S := by
  decide

theorem axisSets_ne : ∀ (i : Fin 3), ∀ axes ∈ axisSets i, axes ≠ [] := by
  decide

theorem onEdge_periodic (B : Box d) (p : Point d) (j : Fin d) (h : onEdge B p j = true) : B.periodic j = true := by
  unfold onEdge at h
  simp at h
  exact h.1

theorem mem_copies (i : Fin 3) (B : Box (i + 1)) (b : Body (i + 1) β) (hb : InBox B b.pos) (q : Point (i + 1)) :
    (∃ c ∈ copies i B b, c.pos = q) ↔ ∃ axes ∈ axisSets i, (∀ j ∈ axes, onEdge B b.pos j = true) ∧ ∀ k, q k = if k ∈ axes then shifted B k (b.pos k) else b.pos k := by
  unfold copies axisSets
  constructor
  · rintro ⟨c, hc, rfl⟩
    rcases List.mem_append.1 hc with hc | hc
    · obtain ⟨j, hj, rfl⟩ := List.mem_map.1 hc
      refine ⟨[j], List.mem_append_left _ (List.mem_map.2 ⟨j, List.mem_finRange j, rfl⟩), ?_, ?_⟩
      · intro k hk
        rw [List.mem_singleton] at hk
        subst hk
        exact (List.mem_filter.1 hj).2
      · intro k
        show Function.update b.pos j (axisCopy B b.pos j) k = _
        rw [axisCopy_eq]
        by_cases h : k = j
        · subst h
          simp
        · simp [h]
    · obtain ⟨axes, ha, hc⟩ := List.mem_flatMap.1 hc
      unfold addCorner at hc
      split_ifs at hc with hall
      · rw [List.mem_singleton] at hc
        subst hc
        rw [List.all_eq_true] at hall
        refine ⟨axes, List.mem_append_right _ ha, hall, fun k => ?_⟩
        show axes.foldl (fun q j => Function.update q j (cornerCopy B b.pos j)) b.pos k = _
        rw [corner_fold]
        by_cases h : k ∈ axes
        · obtain ⟨h1, h2⟩ := hb k (onEdge_periodic B _ k (hall k h))
          rw [if_pos h, if_pos h, cornerCopy_eq B _ k h1 h2]
        · rw [if_neg h, if_neg h]
      · simp at hc
  · rintro ⟨axes, ha, hall, hq⟩
    rcases List.mem_append.1 ha with ha | ha
    · obtain ⟨j, -, rfl⟩ := List.mem_map.1 ha
      refine ⟨_, List.mem_append_left _ (List.mem_map.2 ⟨j, List.mem_filter.2 ⟨List.mem_finRange j, hall j (by simp)⟩, rfl⟩), ?_⟩
      funext k
      show Function.update b.pos j (axisCopy B b.pos j) k = _
      rw [axisCopy_eq, hq k]
      by_cases h : k = j
      · subst h
        simp
      · simp [h]
    · refine ⟨{ b with wall := true, pos := axes.foldl (fun q j => Function.update q j (cornerCopy B b.pos j)) b.pos }, List.mem_append_right _ (List.mem_flatMap.2 ⟨axes, ha, ?_⟩), ?_⟩
      · unfold addCorner
        rw [if_pos (List.all_eq_true.2 hall)]
        simp
      · funext k
        show axes.foldl (fun q j => Function.update q j (cornerCopy B b.pos j)) b.pos k = _
        rw [corner_fold, hq k]
        by_cases h : k ∈ axes
        · obtain ⟨h1, h2⟩ := hb k (onEdge_periodic B _ k (hall k h))
          rw [if_pos h, if_pos h, cornerCopy_eq B _ k h1 h2]
        · rw [if_neg h, if_neg h]

end FleCSPH.Boundary
