import Verif.Lemmas.Boundary
import Verif.Spec.Boundary
/-!
C24: periodic wrapping puts every particle back in the box.
-/
namespace FleCSPH
open Boundary Geometry

namespace Boundary

theorem numbered_sum {d : Nat} {β : Type} (l : List (Body d β)) (h : Numbered l) : 2 * (l.map Body.id).sum = ((l.length : Int) - 1) * l.length := by
  rw [h.sum_eq]
  exact sum_range_int l.length

/-- With ids 0, ..., N - 1 and no ghosts the generation succeeds. -/
theorem generate_some {β : Type} (i : Fin 3) (B : Box (i + 1)) (ranks : List (List (Body (i + 1) β))) (hw : ∀ l ∈ ranks, ∀ b ∈ l, b.wall = false) (hid : Numbered ranks.flatten) :
    generate i B ranks = some (outOf i B ranks.flatten.length 0 (ranks.map fun l => l.map (teleport B))) := by
  obtain ⟨T, out, rfl, -, -, h⟩ := generate_eq i B ranks hw _ rfl _ rfl
  rw [h, if_pos (numbered_sum _ hid)]

theorem no_walls {β : Type} (i : Fin 3) (B : Box (i + 1)) (ranks : List (List (Body (i + 1) β))) (hw : ∀ l ∈ ranks, ∀ b ∈ l, b.wall = false) :
    ∀ l ∈ ranks.map (fun l => l.map (teleport B)), ∀ b ∈ l, b.wall = false := by
  intro l hl b hb
  obtain ⟨l', hl', rfl⟩ := List.mem_map.1 hl
  obtain ⟨b', hb', rfl⟩ := List.mem_map.1 hb
  exact hw l' hl' b' hb'

theorem generate_reals {β : Type} (i : Fin 3) (B : Box (i + 1)) (ranks : List (List (Body (i + 1) β))) (hw : ∀ l ∈ ranks, ∀ b ∈ l, b.wall = false)
    (out : List (List (Body (i + 1) β))) (h : generate i B ranks = some out) : out.map reals = ranks.map fun l => l.map (teleport B) := by
  obtain ⟨T, o, rfl, -, -, h1⟩ := generate_eq i B ranks hw _ rfl _ rfl
  rw [h1] at h
  split_ifs at h
  cases h
  exact outOf_reals i B _ 0 _ (no_walls i B ranks hw)

theorem wrapped_teleport {d : Nat} {β : Type} (B : Box d) (b : Body d β) (hs : ∀ j, B.periodic j = true → 0 < B.sides j)
    (h : ∀ j, B.periodic j = true → -(3 / 2) * B.sides j < b.pos j ∧ b.pos j ≤ 3 / 2 * B.sides j) : Wrapped B b (teleport B b) := by
  refine ⟨rfl, rfl, rfl, fun j => ?_⟩
  rw [teleport_pos]
  unfold wrap1
  split_ifs with hp h1 h2
  · obtain ⟨h3, h4⟩ := h j hp
    unfold Box.max at h1
    exact ⟨by linarith, by linarith, -1, by push_cast; ring⟩
  · obtain ⟨h3, h4⟩ := h j hp
    have h5 := hs j hp
    unfold Box.min at h2
    exact ⟨by linarith, by linarith, 1, by push_cast; ring⟩
  · unfold Box.max at h1
    unfold Box.min at h2
    exact ⟨by linarith, by linarith, 0, by push_cast; ring⟩
  · rfl

end Boundary

/-- If no particle is further than one period outside, then after the boundary handling the particles which are not ghosts are, process by process and in the same order, those from before, put
back in the box. -/
theorem C24_wrap_partial {β : Type} (i : Fin 3) (B : Box (i + 1)) (hs : ∀ j, B.periodic j = true → 0 < B.sides j) (ranks : List (List (Body (i + 1) β)))
    (hw : ∀ l ∈ ranks, ∀ b ∈ l, b.wall = false) (hid : Numbered ranks.flatten)
    (hd : ∀ l ∈ ranks, ∀ b ∈ l, ∀ j, B.periodic j = true → -(3 / 2) * B.sides j < b.pos j ∧ b.pos j ≤ 3 / 2 * B.sides j) :
    ∃ out, generate i B ranks = some out ∧ List.Forall₂ (List.Forall₂ (Wrapped B)) ranks (out.map reals) := by
  refine ⟨_, generate_some i B ranks hw hid, ?_⟩
  rw [generate_reals i B ranks hw _ (generate_some i B ranks hw hid), List.forall₂_map_right_iff, List.forall₂_same]
  intro l hl
  rw [List.forall₂_map_right_iff, List.forall₂_same]
  intro b hb
  exact wrapped_teleport B b hs (hd l hl b hb)

/-- A box and particles of two processes, one of them outside. -/
example : ∃ (B : Box 2) (ranks : List (List (Body 2 Unit))), (∀ j, B.periodic j = true → 0 < B.sides j) ∧ (∀ l ∈ ranks, ∀ b ∈ l, b.wall = false) ∧ Numbered ranks.flatten ∧
    (∀ l ∈ ranks, ∀ b ∈ l, ∀ j, B.periodic j = true → -(3 / 2) * B.sides j < b.pos j ∧ b.pos j ≤ 3 / 2 * B.sides j) ∧ ∃ l ∈ ranks, ∃ b ∈ l, b.pos 0 = 1 := by
  refine ⟨⟨fun _ => 1, fun j => j = 0, 1 / 4⟩, [[⟨1, false, ![1, 0], ()⟩], [⟨0, false, ![0, 7], ()⟩]], by simp, by simp, ?_, ?_, ?_⟩
  · show List.Perm [(1 : Int), 0] [0, 1]
    exact List.Perm.swap _ _ _
  · intro l hl b hb j hj
    have hj : j = 0 := by simpa using hj
    subst hj
    simp at hl
    rcases hl with rfl | rfl <;> simp at hb <;> subst hb <;> constructor <;> norm_num
  · exact ⟨_, List.mem_cons_self, _, List.mem_cons_self, rfl⟩

/-- A particle further outside stays outside: the box length is subtracted only once. -/
theorem C24_far_violated {β : Type} (i : Fin 3) (B : Box (i + 1)) (ranks : List (List (Body (i + 1) β))) (hw : ∀ l ∈ ranks, ∀ b ∈ l, b.wall = false) (hid : Numbered ranks.flatten)
    (l : List (Body (i + 1) β)) (hl : l ∈ ranks) (b : Body (i + 1) β) (hb : b ∈ l) (j : Fin (i + 1)) (hj : B.periodic j = true) (hs : 0 < B.sides j) (hfar : 3 / 2 * B.sides j < b.pos j) :
    ∃ out l' b', generate i B ranks = some out ∧ l' ∈ out.map reals ∧ b' ∈ l' ∧ b'.id = b.id ∧ B.sides j / 2 < b'.pos j := by
  refine ⟨_, l.map (teleport B), teleport B b, generate_some i B ranks hw hid, ?_, List.mem_map.2 ⟨b, hb, rfl⟩, rfl, ?_⟩
  · rw [generate_reals i B ranks hw _ (generate_some i B ranks hw hid)]
    exact List.mem_map.2 ⟨l, hl, rfl⟩
  · rw [teleport_pos]
    unfold wrap1 Box.max
    rw [if_pos hj, if_pos (by linarith)]
    linarith

/-- In one and two dimensions the construction of the box writes outside the two corner points. -/
theorem C24_box_violated : boxDefined 1 = false ∧ boxDefined 2 = false ∧ boxDefined 3 = true := by
  decide

end FleCSPH
