import Verif.Lemmas.Single
import Verif.Spec.Reach
/-! C12: `find_in_radius` returns exactly the particles in reach. -/
namespace FleCSPH
open Spec HCell BuildTree Cofm FleCSPH.Tree Geometry Traversal

/-- On the tree of any particles, every search with any centre and radius ends and returns, in some order and without
repetition, exactly the particles in reach. -/
theorem C12_exact {d : Nat} (big : ℝ) (D dim minKey maxKey : Nat) (hdim : 0 < dim) (hD : 0 < D) (ks : List Nat) (hne : ks ≠ [])
    (hfull : ∀ x ∈ ks, FullKey D dim x) (hsorted : ks.Pairwise (· < ·))
    (bodies : List (Body d)) (hlen : bodies.length = ks.length) (hmass : ∀ b ∈ bodies, 0 < b.mass)
    (center : Point d) (radius : ℝ) (hr : 0 ≤ radius ∨ ∀ b ∈ bodies, 0 ≤ b.h) :
    ∃ E s nodes, envOf D dim minKey maxKey [ks] 0 = some E ∧ buildTree E = some s ∧
      evalLog big bodies s.cofm [] = some nodes ∧
      ∃ fuel₀ res, (∀ fuel, fuel₀ ≤ fuel → findInRadius ⟨dim, s.tbl, bodies, nodes, [], []⟩ center radius fuel = some res) ∧
        res.Nodup ∧ ∀ sh i, (sh, i) ∈ res ↔
          sh = false ∧ ∃ (j : Nat) (b : Body d), i = j ∧ bodies[j]? = some b ∧ InReach center radius b := by
  obtain ⟨E, s, nodes, h1, h2, h3, h4, h5, h6, -⟩ := single_wf big D dim minKey maxKey hdim hD ks hne hfull hsorted bodies hlen hmass
  refine ⟨E, s, nodes, h1, h2, h3, ?_⟩
  have hb : ∀ j, j < ks.length → bodies[j]? = some (bodyAt bodies j) := by
    intro j hj
    rw [bodyAt, List.getD_eq_getElem?_getD, List.getElem?_eq_getElem (by omega)]; rfl
  have hd : ∀ j, distance center (bodyAt bodies j).pos ≤ max radius (bodyAt bodies j).h ↔ InReach center radius (bodyAt bodies j) := by
    intro j; rw [InReach, distance]; simp only [sq]
  obtain ⟨fuel₀, l, ⟨h7, h8⟩, h9⟩ := findInRadius_spec h4 h5 center radius
    (by
      intro j hj
      rcases hr with hr | hr
      · exact le_trans hr (le_max_left _ _)
      · exact le_trans (hr _ (List.mem_of_getElem? (hb j ((h6 j).mp hj)))) (le_max_right _ _))
    (by intro i _ j _ h; simpa using h)
  refine ⟨fuel₀, l, h9, h7, ?_⟩
  intro sh i
  rw [h8]
  constructor
  · rintro ⟨j, hj, hd', he⟩
    cases he
    exact ⟨rfl, j, bodyAt bodies j, rfl, hb j ((h6 j).mp hj), (hd j).mp hd'⟩
  · rintro ⟨rfl, j, b, rfl, hj, hr⟩
    have hlt : j < ks.length := by rw [← hlen]; exact (List.getElem?_eq_some_iff.mp hj).1
    rw [hb j hlt] at hj
    cases hj
    exact ⟨j, (h6 j).mpr hlt, (hd j).mpr hr, rfl⟩

/-- Non-vacuity: three particles in two dimensions meet the hypotheses, and a search around the origin of radius 1 reaches
the one at distance 5 whose smoothing length is 6 but not the one at distance 2. -/
example : (∀ x ∈ [0b1000000, 0b1110100, 0b1110111], FullKey 3 2 x) ∧ [0b1000000, 0b1110100, 0b1110111].Pairwise (· < ·) ∧
    InReach ![0, 0] 1 (⟨![3, 4], 1, 6⟩ : Body 2) ∧ ¬ InReach ![0, 0] 1 (⟨![2, 0], 1, 1 / 2⟩ : Body 2) := by
  refine ⟨by decide, by decide, ?_, ?_⟩
  · rw [InReach]
    simp only [Fin.sum_univ_two]
    rw [Real.sqrt_le_left (by positivity)]
    norm_num
  · rw [InReach, not_le]
    simp only [Fin.sum_univ_two]
    rw [Real.lt_sqrt (by positivity)]
    norm_num

end FleCSPH
