import Verif.Lemmas.Cofm2
/-! C11: every node summarises exactly its particles. -/
namespace FleCSPH
open Spec HCell BuildTree Cofm FleCSPH.Tree Geometry

/-- On every rank of every distribution (one rank included), `build_tree` evaluates `compute_cofm` without failing, and the
summary stored for a node is that of the particles its cell holds, with the smallest box. Together with C16 these are all the inner cells whose
particles are local. -/
theorem C11_summaries {d : Nat} (big : ℝ) (D dim minKey maxKey : Nat) (hdim : 0 < dim) (hD : 0 < D) (ranks : List (List Nat))
    (hne : ∀ l ∈ ranks, l ≠ []) (hfull : ∀ x ∈ ranks.flatten, FullKey D dim x)
    (hsorted : ranks.flatten.Pairwise (· < ·)) (r : Nat) (ks : List Nat) (hr : ranks[r]? = some ks)
    (bodies : List (Body d)) (hlen : bodies.length = ks.length) (hmass : ∀ b ∈ bodies, 0 < b.mass) :
    ∃ E s nodes, envOf D dim minKey maxKey ranks r = some E ∧ buildTree E = some s ∧
      evalLog big bodies s.cofm [] = some nodes ∧
      ∀ c cell, s.tbl c = some cell → cell.nodeIdx ≠ -1 →
        ∃ N, at? nodes cell.nodeIdx = some N ∧ Summarises (bodyAt bodies) (below D dim ks c) N ∧
          BoxTight big (bodyAt bodies) (below D dim ks c) N := by
  obtain ⟨E, hEe, rfl, rfl, rfl, hE, hK, hA⟩ := env_ok (minKey := minKey) (maxKey := maxKey) hdim hD ranks hne hfull hsorted r ks hr
  have hks : E.ents ≠ [] := hne _ (List.mem_of_getElem? hr)
  obtain ⟨s, hs, hcan, hlog, hfin⟩ := build_fin E hE hK hks
  obtain ⟨nodes, h1, h2, h3⟩ := evalLog_spec big hE hK hks hcan hlog hfin (fun y hy => hfull y (known_sub hA y hy)) bodies hlen
    hmass s.cofm [] [] rfl rfl (by intro m hm; simp at hm)
  refine ⟨E, s, nodes, hEe, hs, h1, ?_⟩
  intro c cell hc hn
  obtain ⟨m, call, h4, h5, h6⟩ := hlog.idx c cell hc hn
  have hm : m < nodes.length := by rw [h2]; exact (List.getElem?_eq_some_iff.mp h4).1
  obtain ⟨N, h7, h8, -, h9⟩ := h3 m hm
  refine ⟨N, ?_, ?_⟩
  · rw [h5, at?, if_pos (by omega), Int.toNat_natCast]; exact h7
  · rw [callSet, h4] at h8 h9
    rw [← h6]; exact ⟨h8, h9⟩

/-- Non-vacuity: the hypotheses hold for two ranks of two particles. -/
example : (∀ l ∈ [[0b1000000, 0b1110100], [0b1110111, 0b1111111]], l ≠ []) ∧
    (∀ x ∈ [[0b1000000, 0b1110100], [0b1110111, 0b1111111]].flatten, FullKey 3 2 x) ∧
    [[0b1000000, 0b1110100], [0b1110111, 0b1111111]].flatten.Pairwise (· < ·) ∧
    (∀ b ∈ [(⟨![1, 2], 1, 1⟩ : Body 2), ⟨![3, 2], 2, 1⟩], 0 < b.mass) := by
  refine ⟨by decide, by decide, by decide, ?_⟩
  intro b hb
  simp at hb
  rcases hb with rfl | rfl <;> norm_num

/-- A node over two particles. -/
example : (computeCofm 1000 [(⟨fun _ => 1, 1, 1⟩ : Body 1), ⟨fun _ => 3, 2, 1⟩] []).map
    (fun n => (n.mass, n.sub, n.coords 0, n.bmin 0, n.bmax 0)) = some (3, 2, 7 / 3, 1 / 2, 7 / 2) := by
  rw [computeCofm]
  norm_num

end FleCSPH
