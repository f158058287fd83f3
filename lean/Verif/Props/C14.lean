import Verif.Lemmas.Fmm3
/-! C14: the FMM traversal counts every pair of particles exactly once. -/
namespace FleCSPH
open Spec HCell BuildTree Cofm FleCSPH.Tree Geometry Traversal Fmm

/-- On the tree of a single process, for every acceptance angle, `traversal_fmm` ends, and the calls it makes let every
particle `b` act on every particle `a` exactly once (`b = a` included: `fmm_p2p` then skips the particle, see C15). The
coefficients of a node are only used when they are complete. -/
theorem C14_exactly_once {d : Nat} (big : ℝ) (D dim minKey maxKey : Nat) (hdim : 0 < dim) (hD : 0 < D) (ks : List Nat) (hne : ks ≠ [])
    (hfull : ∀ x ∈ ks, FullKey D dim x) (hsorted : ks.Pairwise (· < ·))
    (bodies : List (Body d)) (hlen : bodies.length = ks.length) (hmass : ∀ b ∈ bodies, 0 < b.mass)
    (hpos : bodies.Pairwise fun a b => a.pos ≠ b.pos) (angle : ℝ) :
    ∃ E s nodes, envOf D dim minKey maxKey [ks] 0 = some E ∧ buildTree E = some s ∧
      evalLog big bodies s.cofm [] = some nodes ∧
      ∃ fuel₀ calls, (∀ fuel, fuel₀ ≤ fuel → traversalFmm ⟨dim, s.tbl, bodies, nodes, [], []⟩ angle fuel = some calls) ∧
        Ordered calls ∧ ∀ a < bodies.length, ∀ b < bodies.length, actions (below D dim ks) calls a b = 1 := by
  obtain ⟨E, s, nodes, h1, h2, h3, T, rfl, -, -, -, f, calls, keys, subs, pairs, g1, g2, g3, g4, -, g6⟩ :=
    single_fmm big D dim minKey maxKey hdim hD ks hne hfull hsorted bodies hlen hmass hpos angle
  refine ⟨E, s, nodes, h1, h2, h3, f, _, g1, ?_, ?_⟩
  · refine ⟨calls, _, List.append_assoc _ _ _, ?_, ?_, ?_⟩
    · intro k subs' hm; exact g2 _ hm
    · intro k1 k2 hm
      rcases List.mem_append.mp hm with h | h
      · obtain ⟨i, hi, he⟩ := List.mem_iff_getElem.mp h
        rw [List.getElem_zipWith] at he
        cases he
      · obtain ⟨p, -, he⟩ := List.mem_map.mp h
        cases he
    · intro k1 k2 hm
      rcases List.mem_append.mp hm with h | h
      · obtain ⟨i, hi, he⟩ := List.mem_iff_getElem.mp h
        rw [List.getElem_zipWith] at he
        cases he
      · obtain ⟨p, -, he⟩ := List.mem_map.mp h
        cases he
  · intro a ha b hb
    rw [count_actions (fun c hc => ⟨by rintro k s rfl; exact g2 _ hc, by rintro e e' rfl; exact g2 _ hc⟩) g3.1 g3.2.2 g4]
    exact g6 a ha b hb

/-- Non-vacuity: the hypotheses hold for three particles. -/
example : (∀ x ∈ [0b1000000, 0b1110100, 0b1110111], FullKey 3 2 x) ∧ [0b1000000, 0b1110100, 0b1110111].Pairwise (· < ·) ∧
    (∀ b ∈ [(⟨![1, 2], 1, 1⟩ : Body 2), ⟨![3, 2], 2, 1⟩, ⟨![3, 3], 2, 1⟩], 0 < b.mass) ∧
    [(⟨![1, 2], 1, 1⟩ : Body 2), ⟨![3, 2], 2, 1⟩, ⟨![3, 3], 2, 1⟩].Pairwise fun a b => a.pos ≠ b.pos := by
  refine ⟨by decide, by decide, ?_, ?_⟩
  · intro b hb
    simp at hb
    rcases hb with rfl | rfl | rfl <;> norm_num
  · simp only [List.pairwise_cons, List.mem_cons, List.not_mem_nil, or_false, forall_eq_or_imp, forall_eq, List.Pairwise.nil, and_true,
      IsEmpty.forall_iff, implies_true]
    refine ⟨⟨?_, ?_⟩, ?_⟩
    · intro h; have := congrFun h 0; norm_num at this
    · intro h; have := congrFun h 0; norm_num at this
    · intro h; have := congrFun h 1; norm_num at this

end FleCSPH
