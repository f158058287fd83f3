import Verif.Props.C24
/-!
C25: periodic ghosts make every periodic neighbour visible.
-/
namespace FleCSPH
open Boundary Geometry

namespace Boundary

theorem inBox_teleport {d : Nat} {β : Type} (B : Box d) (b : Body d β) (hs : ∀ j, B.periodic j = true → 0 < B.sides j)
    (h : ∀ j, B.periodic j = true → -(3 / 2) * B.sides j < b.pos j ∧ b.pos j ≤ 3 / 2 * B.sides j) : InBox B (teleport B b).pos := by
  intro j hj
  have h1 := (wrapped_teleport B b hs h).2.2.2 j
  rw [if_pos hj] at h1
  constructor
  · linarith [h1.1]
  · linarith [h1.2.1]

theorem generate_ghosts {β : Type} (i : Fin 3) (B : Box (i + 1)) (ranks : List (List (Body (i + 1) β))) (hw : ∀ l ∈ ranks, ∀ b ∈ l, b.wall = false)
    (out : List (List (Body (i + 1) β))) (h : generate i B ranks = some out) :
    out.map (fun l => (ghosts l).map fun b => (b.pos, b.rest)) = (out.map reals).map fun l => (edge i B l).map fun b => (b.pos, b.rest) := by
  obtain ⟨T, o, rfl, -, -, h1⟩ := generate_eq i B ranks hw _ rfl _ rfl
  rw [h1] at h
  split_ifs at h
  cases h
  have h2 := outOf_reals i B (ranks.flatten.length) 0 _ (no_walls i B ranks hw)
  show _ = ((outOf i B _ 0 _).map fun l => l.filter fun b => !b.wall).map _
  rw [h2]
  exact outOf_walls i B _ 0 _ (no_walls i B ranks hw)

/-- A shift by one period up or down. -/
theorem shifted_period {d : Nat} (B : Box d) (j : Fin d) (x : ℝ) : ∃ k : ℤ, k ≠ 0 ∧ shifted B j x = x + k * B.sides j := by
  unfold shifted
  split_ifs
  · exact ⟨-1, by decide, by push_cast; ring⟩
  · exact ⟨1, by decide, by push_cast; ring⟩

/-- The coordinates of an image closer than the halo, along an axis of length at least twice the halo. -/
theorem shift_needed (L halo p q : ℝ) (k : ℤ) (hk : k ≠ 0) (hL : 0 < L) (h2 : 2 * halo ≤ L) (hp1 : -(1 / 2) * L < p) (hp2 : p ≤ 1 / 2 * L) (hq1 : -(1 / 2) * L < q) (hq2 : q ≤ 1 / 2 * L)
    (hc : |p - (q + k * L)| ≤ halo) : (k = 1 ∧ q - halo ≤ -(1 / 2) * L ∧ ¬ q + halo > 1 / 2 * L) ∨ (k = -1 ∧ q + halo > 1 / 2 * L) := by
  obtain ⟨h3, h4⟩ := abs_le.1 hc
  have hle : k ≤ 1 := by
    by_contra hcon
    have h5 : (2 : ℝ) ≤ (k : ℝ) := by exact_mod_cast (by omega : (2 : ℤ) ≤ k)
    have h6 : 2 * L ≤ (k : ℝ) * L := mul_le_mul_of_nonneg_right h5 hL.le
    linarith
  have hge : -1 ≤ k := by
    by_contra hcon
    have h5 : (k : ℝ) ≤ -2 := by exact_mod_cast (by omega : k ≤ -2)
    have h6 : (k : ℝ) * L ≤ -2 * L := mul_le_mul_of_nonneg_right h5 hL.le
    linarith
  have : k = 1 ∨ k = -1 := by omega
  rcases this with rfl | rfl
  · left
    push_cast at h3 h4
    refine ⟨rfl, by linarith, by intro h; linarith⟩
  · right
    push_cast at h3 h4
    exact ⟨rfl, by linarith⟩

theorem coordinate_le {d : Nat} (p q : Point d) (r : ℝ) (h : √(∑ j, (p j - q j) ^ 2) ≤ r) (j : Fin d) : |p j - q j| ≤ r := by
  refine le_trans ?_ h
  rw [← Real.sqrt_sq_eq_abs]
  exact Real.sqrt_le_sqrt (Finset.single_le_sum (f := fun j => (p j - q j) ^ 2) (fun k _ => sq_nonneg _) (Finset.mem_univ j))

end Boundary

/-- Every ghost is a copy of a particle of the same process, moved by a combination of periods which is not zero. -/
theorem C25_sound {β : Type} (i : Fin 3) (B : Box (i + 1)) (hs : ∀ j, B.periodic j = true → 0 < B.sides j) (ranks : List (List (Body (i + 1) β)))
    (hw : ∀ l ∈ ranks, ∀ b ∈ l, b.wall = false) (hid : Numbered ranks.flatten)
    (hd : ∀ l ∈ ranks, ∀ b ∈ l, ∀ j, B.periodic j = true → -(3 / 2) * B.sides j < b.pos j ∧ b.pos j ≤ 3 / 2 * B.sides j) :
    ∃ out, generate i B ranks = some out ∧ ∀ l ∈ out, ∀ g ∈ ghosts l, ∃ q ∈ reals l, ∃ k, Period B k ∧ g.pos = image B q.pos k ∧ g.rest = q.rest := by
  refine ⟨_, generate_some i B ranks hw hid, fun l hl g hg => ?_⟩
  have hr := generate_reals i B ranks hw _ (generate_some i B ranks hw hid)
  have hgh := generate_ghosts i B ranks hw _ (generate_some i B ranks hw hid)
  generalize outOf i B ranks.flatten.length 0 (ranks.map fun l => l.map (teleport B)) = out at hl hr hgh
  have h1 : (ghosts l).map (fun b => (b.pos, b.rest)) = (edge i B (reals l)).map fun b => (b.pos, b.rest) := by
    have h2 : ∀ l ∈ out, (fun l => (ghosts l).map fun b => (b.pos, b.rest)) l = (fun l => (edge i B (reals l)).map fun b => (b.pos, b.rest)) l := by
      rw [List.map_map] at hgh
      exact List.map_inj_left.1 hgh
    exact h2 l hl
  have h3 : (g.pos, g.rest) ∈ (edge i B (reals l)).map fun b => (b.pos, b.rest) := by
    rw [← h1]
    exact List.mem_map.2 ⟨g, hg, rfl⟩
  obtain ⟨c, hc, hcg⟩ := List.mem_map.1 h3
  obtain ⟨q, hq, hcq⟩ := List.mem_flatMap.1 hc
  have hin : InBox B q.pos := by
    have h4 : reals l ∈ ranks.map fun l => l.map (teleport B) := by
      rw [← hr]
      exact List.mem_map.2 ⟨l, hl, rfl⟩
    obtain ⟨l0, hl0, h5⟩ := List.mem_map.1 h4
    rw [← h5] at hq
    obtain ⟨b0, hb0, rfl⟩ := List.mem_map.1 hq
    exact inBox_teleport B b0 hs (hd l0 hl0 b0 hb0)
  simp only [Prod.mk.injEq] at hcg
  obtain ⟨axes, ha, hall, hpos⟩ := (mem_copies i B q hin c.pos).1 ⟨c, hcq, rfl⟩
  choose k hk0 hk using fun j => shifted_period B j (q.pos j)
  refine ⟨q, hq, fun j => if j ∈ axes then k j else 0, ⟨?_, ?_⟩, ?_, ?_⟩
  · intro h0
    obtain ⟨j, hj⟩ := List.exists_mem_of_ne_nil axes (axisSets_ne i axes ha)
    have h6 := congrFun h0 j
    simp only [hj, if_true, Pi.zero_apply] at h6
    exact hk0 j h6
  · intro j hj
    by_cases h : j ∈ axes
    · have := onEdge_periodic B _ j (hall j h)
      rw [hj] at this
      exact absurd this (by simp)
    · simp [h]
  · rw [← hcg.1]
    funext j
    rw [hpos j]
    show _ = q.pos j + ((if j ∈ axes then k j else 0 : ℤ) : ℝ) * B.sides j
    by_cases h : j ∈ axes
    · rw [if_pos h, if_pos h, hk j]
    · rw [if_neg h, if_neg h]
      simp
  · rw [← hcg.2]
    exact (copies_wall i B q c hcq).2

/-- If the box is at least two halos long along the periodic axes, then every image closer than the halo to a particle of any process is there as a ghost. -/
theorem C25_complete_partial {β : Type} (i : Fin 3) (B : Box (i + 1)) (hs : ∀ j, B.periodic j = true → 0 < B.sides j) (hh : ∀ j, B.periodic j = true → 2 * B.halo ≤ B.sides j)
    (ranks : List (List (Body (i + 1) β))) (hw : ∀ l ∈ ranks, ∀ b ∈ l, b.wall = false) (hid : Numbered ranks.flatten)
    (hd : ∀ l ∈ ranks, ∀ b ∈ l, ∀ j, B.periodic j = true → -(3 / 2) * B.sides j < b.pos j ∧ b.pos j ≤ 3 / 2 * B.sides j) :
    ∃ out, generate i B ranks = some out ∧ ∀ p ∈ reals out.flatten, ∀ q ∈ reals out.flatten, ∀ k, Period B k → √(∑ j, (p.pos j - image B q.pos k j) ^ 2) ≤ B.halo →
      ∃ g ∈ ghosts out.flatten, g.pos = image B q.pos k ∧ g.rest = q.rest := by
  refine ⟨_, generate_some i B ranks hw hid, fun p hp q hq k hk hdist => ?_⟩
  have hr := generate_reals i B ranks hw _ (generate_some i B ranks hw hid)
  have hgh := generate_ghosts i B ranks hw _ (generate_some i B ranks hw hid)
  generalize outOf i B ranks.flatten.length 0 (ranks.map fun l => l.map (teleport B)) = out at hp hq hr hgh ⊢
  have hsplit : ∀ b, b ∈ reals out.flatten → ∃ l ∈ out, b ∈ reals l := by
    intro b hb
    obtain ⟨h1, h2⟩ := List.mem_filter.1 hb
    obtain ⟨l, hl, h3⟩ := List.mem_flatten.1 h1
    exact ⟨l, hl, List.mem_filter.2 ⟨h3, h2⟩⟩
  have hin : ∀ b, b ∈ reals out.flatten → InBox B b.pos := by
    intro b hb
    obtain ⟨l, hl, hbl⟩ := hsplit b hb
    have h4 : reals l ∈ ranks.map fun l => l.map (teleport B) := by
      rw [← hr]
      exact List.mem_map.2 ⟨l, hl, rfl⟩
    obtain ⟨l0, hl0, h5⟩ := List.mem_map.1 h4
    rw [← h5] at hbl
    obtain ⟨b0, hb0, rfl⟩ := List.mem_map.1 hbl
    exact inBox_teleport B b0 hs (hd l0 hl0 b0 hb0)
  have hper : ∀ j, k j ≠ 0 → B.periodic j = true := by
    intro j hj
    by_contra hcon
    exact hj (hk.2 j (by simpa using hcon))
  have hneed : ∀ j, k j ≠ 0 → onEdge B q.pos j = true ∧ q.pos j + k j * B.sides j = shifted B j (q.pos j) := by
    intro j hj
    have hpj := hper j hj
    have hc := coordinate_le p.pos (image B q.pos k) B.halo hdist j
    have h7 := shift_needed (B.sides j) B.halo (p.pos j) (q.pos j) (k j) hj (hs j hpj) (hh j hpj) (hin p hp j hpj).1 (hin p hp j hpj).2 (hin q hq j hpj).1 (hin q hq j hpj).2 hc
    unfold onEdge shifted Box.max Box.min
    rcases h7 with ⟨h7, h8, h9⟩ | ⟨h7, h8⟩
    · rw [h7, if_neg h9, hpj, Bool.true_and, Bool.or_eq_true]
      exact ⟨Or.inr (decide_eq_true h8), by push_cast; ring⟩
    · rw [h7, if_pos h8, hpj, Bool.true_and, Bool.or_eq_true]
      exact ⟨Or.inl (decide_eq_true h8), by push_cast; ring⟩
  obtain ⟨l, hl, hql⟩ := hsplit q hq
  obtain ⟨axes, ha, hmem⟩ := axisSets_all i (Finset.univ.filter fun j => k j ≠ 0) (by
    obtain ⟨j, hj⟩ : ∃ j, k j ≠ 0 := by
      by_contra hcon
      push Not at hcon
      exact hk.1 (funext hcon)
    exact ⟨j, by simp [hj]⟩)
  have hmem' : ∀ j, j ∈ axes ↔ k j ≠ 0 := fun j => by rw [hmem j]; simp
  obtain ⟨c, hc, hcpos⟩ := (mem_copies i B q (hin q hq) (image B q.pos k)).2 ⟨axes, ha, fun j hj => (hneed j ((hmem' j).1 hj)).1, fun j => by
    by_cases h : j ∈ axes
    · rw [if_pos h]
      exact (hneed j ((hmem' j).1 h)).2
    · rw [if_neg h]
      have h0 : k j = 0 := by
        by_contra hcon
        exact h ((hmem' j).2 hcon)
      show q.pos j + k j * B.sides j = _
      rw [h0]
      simp⟩
  have h1 : (ghosts l).map (fun b => (b.pos, b.rest)) = (edge i B (reals l)).map fun b => (b.pos, b.rest) := by
    have h2 : ∀ l ∈ out, (fun l => (ghosts l).map fun b => (b.pos, b.rest)) l = (fun l => (edge i B (reals l)).map fun b => (b.pos, b.rest)) l := by
      rw [List.map_map] at hgh
      exact List.map_inj_left.1 hgh
    exact h2 l hl
  have h3 : (c.pos, c.rest) ∈ (ghosts l).map fun b => (b.pos, b.rest) := by
    rw [h1]
    exact List.mem_map.2 ⟨c, List.mem_flatMap.2 ⟨q, hql, hc⟩, rfl⟩
  obtain ⟨g, hg, hgc⟩ := List.mem_map.1 h3
  simp only [Prod.mk.injEq] at hgc
  obtain ⟨hg1, hg2⟩ := List.mem_filter.1 hg
  exact ⟨g, List.mem_filter.2 ⟨List.mem_flatten.2 ⟨l, hl, hg1⟩, hg2⟩, by rw [hgc.1, hcpos], by rw [hgc.2, (copies_wall i B q c hc).2]⟩

/-- A box of three halos, with a particle near an edge and one whose image is close to it. -/
example : ∃ (B : Box 1) (ranks : List (List (Body 1 Unit))), (∀ j, B.periodic j = true → 0 < B.sides j) ∧ (∀ j, B.periodic j = true → 2 * B.halo ≤ B.sides j) ∧
    (∀ l ∈ ranks, ∀ b ∈ l, b.wall = false) ∧ Numbered ranks.flatten ∧
    (∀ l ∈ ranks, ∀ b ∈ l, ∀ j, B.periodic j = true → -(3 / 2) * B.sides j < b.pos j ∧ b.pos j ≤ 3 / 2 * B.sides j) ∧
    Period B ![-1] ∧ |(-1 / 4 : ℝ) - image B ![1 / 2] ![-1] 0| ≤ B.halo := by
  refine ⟨⟨fun _ => 1, fun _ => true, 1 / 3⟩, [[⟨0, false, ![-1 / 4], ()⟩], [⟨1, false, ![1 / 2], ()⟩]], by simp, by simp; norm_num, by simp, ?_, ?_, ?_, ?_⟩
  · show List.Perm [(0 : Int), 1] [0, 1]
    exact List.Perm.refl _
  · intro l hl b hb j hj
    have hj : j = 0 := Subsingleton.elim _ _
    subst hj
    simp at hl
    rcases hl with rfl | rfl <;> simp at hb <;> subst hb <;> constructor <;> norm_num
  · refine ⟨fun h => ?_, by simp⟩
    have := congrFun h 0
    simp at this
  · simp [image]
    norm_num [abs_of_nonneg]

/-- In a box shorter than two halos images are missing: each particle gets only one copy along an axis. Here the particles are at the centre and at the edge of the box; the image of the
first at distance L/2 from the second is missing. -/
theorem C25_small_box_violated (L halo : ℝ) (hL : 0 < L) (hh : L / 2 < halo) :
    ∃ (B : Box 1) (ranks : List (List (Body 1 Unit))) (out : List (List (Body 1 Unit))), B.sides = (fun _ => L) ∧ B.halo = halo ∧ (∀ l ∈ ranks, ∀ b ∈ l, b.wall = false) ∧ Numbered ranks.flatten ∧
      generate 0 B ranks = some out ∧ ∃ p ∈ reals out.flatten, ∃ q ∈ reals out.flatten, ∃ k, Period B k ∧ √(∑ j, (p.pos j - image B q.pos k j) ^ 2) ≤ B.halo ∧
        ¬ ∃ g ∈ ghosts out.flatten, g.pos = image B q.pos k := by
  obtain ⟨B, hB⟩ : ∃ B : Box 1, B = ⟨fun _ => L, fun _ => true, halo⟩ := ⟨_, rfl⟩
  obtain ⟨b0, hb0⟩ : ∃ b : Body 1 Unit, b = ⟨0, false, ![0], ()⟩ := ⟨_, rfl⟩
  obtain ⟨b1, hb1⟩ : ∃ b : Body 1 Unit, b = ⟨1, false, ![L / 2], ()⟩ := ⟨_, rfl⟩
  have hw : ∀ l ∈ [[b0, b1]], ∀ b ∈ l, b.wall = false := by
    intro l hl b hb
    simp at hl
    subst hl
    simp at hb
    rcases hb with rfl | rfl
    · rw [hb0]
    · rw [hb1]
  have hid : Numbered [[b0, b1]].flatten := by
    rw [hb0, hb1]
    exact List.Perm.refl _
  have ht0 : teleport B b0 = b0 := by
    have hp : (teleport B b0).pos = b0.pos := by
      funext j
      rw [teleport_pos]
      obtain rfl : j = 0 := Subsingleton.elim _ _
      unfold wrap1 Box.max Box.min
      rw [hB, hb0]
      show (if true = true then if (0 : ℝ) > 1 / 2 * L then _ else if (0 : ℝ) ≤ -(1 / 2) * L then _ else (0 : ℝ) else _) = 0
      rw [if_pos rfl, if_neg (by intro h; linarith), if_neg (by intro h; linarith)]
    rw [hb0] at hp ⊢
    unfold teleport at hp ⊢
    simp only at hp ⊢
    rw [hp]
  have ht1 : teleport B b1 = b1 := by
    have hp : (teleport B b1).pos = b1.pos := by
      funext j
      rw [teleport_pos]
      obtain rfl : j = 0 := Subsingleton.elim _ _
      unfold wrap1 Box.max Box.min
      rw [hB, hb1]
      show (if true = true then if L / 2 > 1 / 2 * L then _ else if L / 2 ≤ -(1 / 2) * L then _ else L / 2 else _) = L / 2
      rw [if_pos rfl, if_neg (by intro h; linarith), if_neg (by intro h; linarith)]
    rw [hb1] at hp ⊢
    unfold teleport at hp ⊢
    simp only at hp ⊢
    rw [hp]
  obtain ⟨out, hgen⟩ : ∃ out, generate 0 B [[b0, b1]] = some out := ⟨_, generate_some 0 B [[b0, b1]] hw hid⟩
  have hr := generate_reals 0 B _ hw _ hgen
  have hgh := generate_ghosts 0 B _ hw _ hgen
  refine ⟨B, [[b0, b1]], out, by rw [hB], by rw [hB], hw, hid, hgen, ?_⟩
  clear hgen
  simp only [List.map_cons, List.map_nil, ht0, ht1] at hr
  obtain ⟨l, rfl⟩ : ∃ l, out = [l] := by
    have := congrArg List.length hr
    simp at this
    exact List.length_eq_one_iff.1 this
  simp only [List.map_cons, List.map_nil, List.cons.injEq, and_true] at hr hgh
  rw [hr] at hgh
  simp only [List.flatten_cons, List.flatten_nil, List.append_nil]
  refine ⟨b1, by rw [hr]; simp, b0, by rw [hr]; simp, ![1], ⟨?_, ?_⟩, ?_, ?_⟩
  · intro h
    have := congrFun h 0
    simp at this
  · intro j hj
    rw [hB] at hj
    simp at hj
  · rw [Fin.sum_univ_one, Real.sqrt_sq_eq_abs, hB, hb0, hb1]
    simp [image]
    rw [abs_le]
    constructor <;> linarith
  · rintro ⟨g, hg, hgpos⟩
    have h3 : (g.pos, g.rest) ∈ (ghosts l).map fun b => (b.pos, b.rest) := List.mem_map.2 ⟨g, hg, rfl⟩
    rw [hgh] at h3
    obtain ⟨c, hc, hcg⟩ := List.mem_map.1 h3
    simp only [Prod.mk.injEq] at hcg
    have himg : image B b0.pos ![1] 0 = L := by
      rw [hB, hb0]
      simp [image]
    have hcpos : c.pos 0 = L := by rw [hcg.1, hgpos, himg]
    obtain ⟨q, hq, hcq⟩ := List.mem_flatMap.1 hc
    simp at hq
    have hedge : ∀ x : ℝ, 0 ≤ x → x ≤ L / 2 → shifted B 0 x = x - L := by
      intro x h0 h1
      unfold shifted Box.max
      rw [hB]
      show (if x + halo > 1 / 2 * L then x - L else x + L) = _
      rw [if_pos (by linarith)]
    have hin : InBox B q.pos ∧ 0 ≤ q.pos 0 ∧ q.pos 0 ≤ L / 2 := by
      rcases hq with rfl | rfl
      · rw [hb0, hB]
        refine ⟨fun j _ => ?_, by simp, by simp; linarith⟩
        obtain rfl : j = 0 := Subsingleton.elim _ _
        simp
        constructor <;> linarith
      · rw [hb1, hB]
        refine ⟨fun j _ => ?_, by simp; linarith, by simp⟩
        obtain rfl : j = 0 := Subsingleton.elim _ _
        simp
        constructor <;> linarith
    obtain ⟨axes, ha, -, hpos⟩ := (mem_copies 0 B q hin.1 c.pos).1 ⟨c, hcq, rfl⟩
    have h8 := hpos 0
    rw [hcpos, hedge _ hin.2.1 hin.2.2] at h8
    split_ifs at h8 <;> linarith [hin.2.2]

end FleCSPH
