import Verif.Lemmas.Tree2

/-! C16: distributed tree construction agrees with the global tree. -/
namespace FleCSPH
open Spec HCell BuildTree FleCSPH.Tree

/-- Particles distributed in sorted order over any number of ranks, at least one each; `X` are the keys of all ranks.
Every rank builds its tree without undefined behaviour; it stores each of its particles in the leaf of the global tree;
whatever other particle a cell stores, there is none; the cells it has are inner cells or leaves of own particles of the
global tree; it has every inner cell of the global tree that holds one of its particles; it has summarised exactly the
inner cells of the global tree whose particles are all its own. -/
theorem C16_distributed (D dim minKey maxKey : Nat) (hdim : 0 < dim) (hD : 0 < D) (ranks : List (List Nat))
    (hne : ∀ l ∈ ranks, l ≠ []) (hfull : ∀ x ∈ ranks.flatten, FullKey D dim x)
    (hsorted : ranks.flatten.Pairwise (· < ·)) (r : Nat) (ks : List Nat) (hr : ranks[r]? = some ks) :
    ∃ E s, envOf D dim minKey maxKey ranks r = some E ∧ buildTree E = some s ∧
      (∀ (j x : Nat), ks[j]? = some x →
        ∃ c cell, LeafCell D dim (· ∈ ranks.flatten) x c ∧ s.tbl c = some cell ∧ cell.entityIdx = j) ∧
      (∀ c cell, s.tbl c = some cell →
        (InnerCell D dim (· ∈ ranks.flatten) c ∧ cell.entityIdx = -1) ∨
        ∃ (j x : Nat), ks[j]? = some x ∧ LeafCell D dim (· ∈ ranks.flatten) x c ∧ cell.entityIdx = j) ∧
      (∀ c x, InnerCell D dim (· ∈ ranks.flatten) c → x ∈ ks → Holds D dim c x → (s.tbl c).isSome = true) ∧
      (∀ c cell, s.tbl c = some cell →
        (cell.nodeIdx ≠ -1 ↔
          InnerCell D dim (· ∈ ranks.flatten) c ∧ ∀ y ∈ ranks.flatten, Holds D dim c y → y ∈ ks)) ∧
      (∀ c cell b, s.tbl c = some cell → b < 2 ^ dim →
        (getChild cell b = true ↔ (s.tbl (c * 2 ^ dim + b)).isSome = true)) := by
  obtain ⟨E, hEe, rfl, rfl, rfl, hE, hK, hA⟩ := env_ok (minKey := minKey) (maxKey := maxKey) hdim hD ranks hne hfull hsorted r ks hr
  have hks : E.ents ≠ [] := hne _ (List.mem_of_getElem? hr)
  obtain ⟨s, hs, hcan, -, hfin⟩ := build_fin E hE hK hks
  have hinner := fun c => inner_iff (X := (· ∈ ranks.flatten)) hdim hfull c
  refine ⟨E, s, hEe, hs, ?_, ?_, ?_, ?_, fun c cell b hc hb => hcan.child c cell b hc hb⟩
  · intro j x hj
    have hx := List.mem_of_getElem? hj
    obtain ⟨p, hp⟩ := leafAt_exists (dim := E.dim) hD (Known E) x
    obtain ⟨cell, h1, h2, -⟩ := hcan.leaf j x p hj hp
    refine ⟨A E.dim p x, cell, ?_, h1, h2⟩
    exact leafAt_leafCell (X := (· ∈ ranks.flatten)) hdim hfull (hA.own x hx) ((leafAt_known hK hA hx).mp hp)
  · intro c cell hc
    rcases hcan.some_ c cell hc with ⟨h1, h2⟩ | ⟨j, y, p, hj, hl, rfl, h2, -⟩
    · exact Or.inl ⟨(hinner c).mpr (node_mono (known_sub hA) h1), h2⟩
    · have hy := List.mem_of_getElem? hj
      exact Or.inr ⟨j, y, hj, leafAt_leafCell (X := (· ∈ ranks.flatten)) hdim hfull (hA.own y hy)
        ((leafAt_known hK hA hy).mp hl), h2⟩
  · intro c x hc hx hH
    obtain ⟨cell, h1, -⟩ := hcan.node c (node_known hE hK hA hfull hx hH ((hinner c).mp hc))
    rw [h1]; rfl
  · intro c cell hc
    rw [hfin c cell hc, fin_iff hE hK hA hfull hks c, hinner]
    exact Iff.rfl

/-- Non-vacuity: two ranks that share a cell (0b111); neither summarises it, the second one has it too. -/
example : (∀ x ∈ [[0b1000000, 0b1110100], [0b1110111, 0b1111111]].flatten, FullKey 3 2 x) ∧
    [[0b1000000, 0b1110100], [0b1110111, 0b1111111]].flatten.Pairwise (· < ·) ∧
    (List.range 2).map (fun r => ((envOf 3 2 64 127 [[0b1000000, 0b1110100], [0b1110111, 0b1111111]] r).bind buildTree).map
      (fun s => ([1, 0b100, 0b111, 0b11101, 0b1110100, 0b1110111, 0b11111].map fun c =>
        (s.tbl c).map fun d => (d.nodeIdx, d.entityIdx)))) =
      [some [some (-1, -1), some (-1, 0), some (-1, -1), some (-1, -1), some (-1, 1), none, none],
       some [some (-1, -1), none, some (-1, -1), some (-1, -1), none, some (-1, 0), some (-1, 1)]] := by
  decide

end FleCSPH
