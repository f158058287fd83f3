import Verif.Lemmas.Single
import Verif.Lemmas.Sph2
import Verif.Spec.Reach
/-! C13: the neighbour lists of `traversal_sph`. -/
namespace FleCSPH
open Spec HCell BuildTree Cofm FleCSPH.Tree Geometry Traversal

/-- Every run of `traversal_sph` on a single process ends and calls the function exactly once for every particle. The list
given for a particle has no repetition, holds only neighbours, and holds every particle whose distance is at most the mean
of the two smoothing lengths. Missing for the full property: neighbours further than the mean (see `C13_violated`). -/
theorem C13_partial {d : Nat} (big : ℝ) (D dim minKey maxKey : Nat) (hdim : 0 < dim) (hD : 0 < D) (ks : List Nat) (hne : ks ≠ [])
    (hfull : ∀ x ∈ ks, FullKey D dim x) (hsorted : ks.Pairwise (· < ·))
    (bodies : List (Body d)) (hlen : bodies.length = ks.length) (hmass : ∀ b ∈ bodies, 0 < b.mass)
    (hh : ∀ b ∈ bodies, 0 ≤ b.h) (tol : ℝ) (htol : 0 ≤ tol) (sent : Nat) :
    ∃ E s nodes, envOf D dim minKey maxKey [ks] 0 = some E ∧ buildTree E = some s ∧
      evalLog big bodies s.cofm [] = some nodes ∧
      ∃ fuel₀ calls, (∀ fuel, fuel₀ ≤ fuel → traversalSph ⟨dim, s.tbl, bodies, nodes, [], []⟩ tol sent fuel = some calls) ∧
        (calls.map Prod.fst).Nodup ∧
        (∀ sh i, (sh, i) ∈ calls.map Prod.fst ↔ sh = false ∧ ∃ j : Nat, i = j ∧ j < bodies.length) ∧
        ∀ sh i nb, ((sh, i), nb) ∈ calls → ∃ (a : Nat) (b : Body d), i = a ∧ bodies[a]? = some b ∧ nb.Nodup ∧
          (∀ x ∈ nb, ∃ (j : Nat) (c : Body d), x = (false, (j : Int)) ∧ bodies[j]? = some c ∧ Neighbours b c) ∧
          (∀ (j : Nat) (c : Body d), bodies[j]? = some c → √(∑ k, (b.pos k - c.pos k) ^ 2) ≤ (b.h + c.h) / 2 →
            (false, (j : Int)) ∈ nb) := by
  obtain ⟨E, s, nodes, h1, h2, h3, h4, h5, h6, -, -⟩ := single_wf big D dim minKey maxKey hdim hD ks hne hfull hsorted bodies hlen hmass
  refine ⟨E, s, nodes, h1, h2, h3, ?_⟩
  have hb : ∀ j, j < ks.length → bodies[j]? = some (bodyAt bodies j) := by
    intro j hj
    rw [bodyAt, List.getD_eq_getElem?_getD, List.getElem?_eq_getElem (by omega)]; rfl
  have hd : ∀ b c : Body d, distance b.pos c.pos = √(∑ k, (b.pos k - c.pos k) ^ 2) := by
    intro b c; rw [distance]; simp only [sq]
  obtain ⟨fuel₀, calls, h7, h8, h9, h10⟩ := traversalSph_spec h4 h5 (by intro i _ j _ h; simpa using h)
    (by
      intro j hj _
      have := hb j ((h6 j).mp hj)
      simpa [deref, at?] using this)
    (fun j hj => hh _ (List.mem_of_getElem? (hb j ((h6 j).mp hj)))) htol sent
  refine ⟨fuel₀, calls, h7, h8, ?_, ?_⟩
  · intro sh i
    rw [h9]
    constructor
    · rintro ⟨j, hj, -, he⟩
      cases he
      exact ⟨rfl, j, rfl, by rw [hlen]; exact (h6 j).mp hj⟩
    · rintro ⟨rfl, j, rfl, hj⟩
      exact ⟨j, (h6 j).mpr (by rw [← hlen]; exact hj), rfl, rfl⟩
  · intro sh i nb hmem
    obtain ⟨a, ha, he, hn, hs, hc⟩ := h10 _ nb hmem
    cases he
    refine ⟨a, bodyAt bodies a, rfl, hb a ((h6 a).mp ha), hn, ?_, ?_⟩
    · intro x hx
      obtain ⟨j, hj, rfl, hdj⟩ := hs x hx
      exact ⟨j, bodyAt bodies j, rfl, hb j ((h6 j).mp hj), by rw [Neighbours, ← hd]; exact hdj⟩
    · intro j c hj hdj
      have hlt : j < ks.length := by rw [← hlen]; exact (List.getElem?_eq_some_iff.mp hj).1
      rw [hb j hlt] at hj
      cases hj
      exact hc j ((h6 j).mpr hlt) (by rw [hd]; exact hdj)

/-- With a uniform smoothing length the property holds in full: the list of a particle is exactly its neighbours. -/
theorem C13_uniform {d : Nat} (big : ℝ) (D dim minKey maxKey : Nat) (hdim : 0 < dim) (hD : 0 < D) (ks : List Nat) (hne : ks ≠ [])
    (hfull : ∀ x ∈ ks, FullKey D dim x) (hsorted : ks.Pairwise (· < ·))
    (bodies : List (Body d)) (hlen : bodies.length = ks.length) (hmass : ∀ b ∈ bodies, 0 < b.mass)
    (h : ℝ) (h0 : 0 ≤ h) (hh : ∀ b ∈ bodies, b.h = h) (tol : ℝ) (htol : 0 ≤ tol) (sent : Nat) :
    ∃ E s nodes, envOf D dim minKey maxKey [ks] 0 = some E ∧ buildTree E = some s ∧
      evalLog big bodies s.cofm [] = some nodes ∧
      ∃ fuel₀ calls, (∀ fuel, fuel₀ ≤ fuel → traversalSph ⟨dim, s.tbl, bodies, nodes, [], []⟩ tol sent fuel = some calls) ∧
        (calls.map Prod.fst).Nodup ∧
        (∀ sh i, (sh, i) ∈ calls.map Prod.fst ↔ sh = false ∧ ∃ j : Nat, i = j ∧ j < bodies.length) ∧
        ∀ sh i nb, ((sh, i), nb) ∈ calls → ∃ (a : Nat) (b : Body d), i = a ∧ bodies[a]? = some b ∧ nb.Nodup ∧
          ∀ x, x ∈ nb ↔ ∃ (j : Nat) (c : Body d), x = (false, (j : Int)) ∧ bodies[j]? = some c ∧ Neighbours b c := by
  obtain ⟨E, s, nodes, h1, h2, h3, f, calls, h4, h5, h6, h7⟩ := C13_partial big D dim minKey maxKey hdim hD ks hne hfull hsorted bodies
    hlen hmass (fun b hb => by rw [hh b hb]; exact h0) tol htol sent
  refine ⟨E, s, nodes, h1, h2, h3, f, calls, h4, h5, h6, ?_⟩
  intro sh i nb hmem
  obtain ⟨a, b, g1, g2, g3, g4, g5⟩ := h7 sh i nb hmem
  refine ⟨a, b, g1, g2, g3, ?_⟩
  intro x
  constructor
  · exact g4 x
  · rintro ⟨j, c, rfl, hj, hn⟩
    apply g5 j c hj
    rw [Neighbours, hh b (List.mem_of_getElem? g2), hh c (List.mem_of_getElem? hj), max_self] at hn
    rw [hh b (List.mem_of_getElem? g2), hh c (List.mem_of_getElem? hj)]
    linarith

/-- Non-vacuity: the hypotheses hold for three particles. -/
example : (∀ x ∈ [0b1000000, 0b1110100, 0b1110111], FullKey 3 2 x) ∧ [0b1000000, 0b1110100, 0b1110111].Pairwise (· < ·) ∧
    (∀ b ∈ [(⟨![1, 2], 1, 1⟩ : Body 2), ⟨![3, 2], 2, 1⟩, ⟨![3, 3], 2, 1⟩], 0 < b.mass ∧ b.h = 1) ∧
    Neighbours (⟨![3, 2], 2, 1⟩ : Body 2) ⟨![3, 3], 2, 1⟩ := by
  refine ⟨by decide, by decide, ?_, ?_⟩
  · intro b hb
    simp at hb
    rcases hb with rfl | rfl | rfl <;> norm_num
  · rw [Neighbours]
    simp only [Fin.sum_univ_two]
    rw [Real.sqrt_le_left (by norm_num)]
    norm_num

/-! ### The full property fails -/

/-- One particle on the left, `sent` particles on the right, in one dimension, at depth `D`. -/
def missKeys (D sent : Nat) : List Nat := 2 ^ (D + 1) :: (List.range sent).map fun i => 2 ^ (D + 1) + 2 ^ D + i

/-- The particles: their keys are the integer parts of `pos / 18 * 2 ^ (D + 1)`, plus `2 ^ (D + 1)`. -/
noncomputable def missBodies (D sent : Nat) : List (Body 1) :=
  ⟨fun _ => 0, 1, 1⟩ :: (List.range sent).map fun i : Nat => ⟨fun _ => 9 + 18 * (i : ℝ) / 2 ^ (D + 1), 1, 10⟩

theorem missKeys_full (D sent : Nat) (hs : sent ≤ 2 ^ D) : ∀ x ∈ missKeys D sent, FullKey (D + 1) 1 x := by
  have h2 : 2 ^ (D + 1) = 2 * 2 ^ D := by rw [Nat.pow_succ]; ring
  have hpos : 0 < 2 ^ D := Nat.pow_pos (by decide)
  have key : ∀ x, 2 ^ (D + 1) ≤ x → x < 2 * 2 ^ (D + 1) → FullKey (D + 1) 1 x := by
    intro x h1 h3
    rw [FullKey, Nat.mul_one]
    exact Nat.div_eq_of_lt_le (by omega) (by omega)
  intro x hx
  rcases List.mem_cons.mp hx with rfl | hx
  · exact key _ (le_refl _) (by omega)
  · obtain ⟨i, hi, rfl⟩ := List.mem_map.mp hx
    rw [List.mem_range] at hi
    exact key _ (by omega) (by omega)

theorem missKeys_sorted (D sent : Nat) : (missKeys D sent).Pairwise (· < ·) := by
  have hpos : 0 < 2 ^ D := Nat.pow_pos (by decide)
  rw [missKeys, List.pairwise_cons]
  constructor
  · intro x hx
    obtain ⟨i, -, rfl⟩ := List.mem_map.mp hx
    omega
  · rw [List.pairwise_map]
    exact List.pairwise_lt_range.imp fun h => by omega

theorem missBodies_get (D sent j : Nat) (h : j < sent) :
    (missBodies D sent)[j + 1]? = some ⟨fun _ => 9 + 18 * (j : ℝ) / 2 ^ (D + 1), 1, 10⟩ := by
  rw [missBodies, List.getElem?_cons_succ, List.getElem?_map, List.getElem?_range h]; rfl

/-- For every limit on the size of a cell from two on, in particular 128 as in the code, there are particles for which
`traversal_sph` leaves out a neighbour: particle 0 at position 0 with smoothing length 1 is given only itself, although
particle 1 at position 9 has smoothing length 10. -/
theorem C13_violated (D sent minKey maxKey : Nat) (h2 : 2 ≤ sent) (hs : sent ≤ 2 ^ D) (big tol : ℝ) (hbig : 4 ≤ big) (htol : 0 ≤ tol)
    (htol' : tol < 1) :
    Neighbours (⟨fun _ => 0, 1, 1⟩ : Body 1) ⟨fun _ => 9 + 18 * ((0 : ℕ) : ℝ) / 2 ^ (D + 1), 1, 10⟩ ∧
    ∃ E s nodes, envOf (D + 1) 1 minKey maxKey [missKeys D sent] 0 = some E ∧ buildTree E = some s ∧
      evalLog big (missBodies D sent) s.cofm [] = some nodes ∧
      ∃ fuel₀ calls, (∀ fuel, fuel₀ ≤ fuel →
          traversalSph ⟨1, s.tbl, missBodies D sent, nodes, [], []⟩ tol sent fuel = some calls) ∧
        (((false, 0), [(false, 0)]) : (Bool × Int) × List (Bool × Int)) ∈ calls := by
  constructor
  · rw [Neighbours]
    simp only [Fin.sum_univ_one]
    rw [Real.sqrt_le_left (by positivity)]
    norm_num
  have hne : missKeys D sent ≠ [] := by simp [missKeys]
  have hlen : (missBodies D sent).length = (missKeys D sent).length := by simp [missBodies, missKeys]
  have hmb : ∀ b ∈ missBodies D sent, 0 < b.mass ∧ 0 ≤ b.h := by
    intro b hb
    rcases List.mem_cons.mp hb with rfl | hb
    · norm_num
    · obtain ⟨i, -, rfl⟩ := List.mem_map.mp hb
      norm_num
  obtain ⟨E, s, nodes, g1, g2, g3, g4, g5, g6, g7, g8, g9⟩ := single_wf big (D + 1) 1 minKey maxKey (by decide) (by omega) _ hne
    (missKeys_full D sent hs) (missKeys_sorted D sent) (missBodies D sent) hlen (fun b hb => (hmb b hb).1)
  refine ⟨E, s, nodes, g1, g2, g3, ?_⟩
  have hfull := missKeys_full D sent hs
  have hpow : 2 ^ (D + 1) = 2 * 2 ^ D := by rw [Nat.pow_succ]; ring
  have hDpos : 0 < 2 ^ D := Nat.pow_pos (by decide)
  have hA : ∀ p x, A 1 p x = x / 2 ^ p := by intro p x; rw [A, Nat.mul_one]
  -- particle 0 in cell 2, the others in cell 3
  have hA0 : A 1 D (2 ^ (D + 1)) = 2 := by rw [hA, hpow]; exact Nat.mul_div_cancel _ hDpos
  have hA1 : ∀ i < sent, A 1 D (2 ^ (D + 1) + 2 ^ D + i) = 3 := by
    intro i hi
    rw [hA]
    exact Nat.div_eq_of_lt_le (by omega) (by omega)
  have hk0 : (missKeys D sent)[0]? = some (2 ^ (D + 1)) := rfl
  have hk1 : ∀ i < sent, (missKeys D sent)[i + 1]? = some (2 ^ (D + 1) + 2 ^ D + i) := by
    intro i hi
    rw [missKeys, List.getElem?_cons_succ, List.getElem?_map, List.getElem?_range hi]; rfl
  have hmem : ∀ x, x ∈ missKeys D sent ↔ x = 2 ^ (D + 1) ∨ ∃ i < sent, x = 2 ^ (D + 1) + 2 ^ D + i := by
    intro x
    rw [missKeys, List.mem_cons, List.mem_map]
    constructor
    · rintro (h | ⟨i, hi, rfl⟩)
      · exact Or.inl h
      · exact Or.inr ⟨i, List.mem_range.mp hi, rfl⟩
    · rintro (h | ⟨i, hi, rfl⟩)
      · exact Or.inl h
      · exact Or.inr ⟨i, List.mem_range.mpr hi, rfl⟩
  have hleaf : LeafAt (D + 1) 1 (· ∈ missKeys D sent) (2 ^ (D + 1)) D := by
    refine ⟨by omega, ?_, Or.inl rfl⟩
    intro y hy he
    rcases (hmem y).mp hy with h | ⟨i, hi, rfl⟩
    · exact h
    · rw [hA1 i hi, hA0] at he; omega
  have hnode3 : Tree.Node (D + 1) 1 (· ∈ missKeys D sent) 3 :=
    Or.inr ⟨_, _, (hmem _).mpr (Or.inr ⟨0, by omega, rfl⟩), (hmem _).mpr (Or.inr ⟨1, by omega, rfl⟩), by omega, D, by omega,
      hA1 0 (by omega), hA1 1 (by omega)⟩
  obtain ⟨c1, hc1, -⟩ := g8.node 1 (Or.inl rfl)
  obtain ⟨c3, hc3, he3⟩ := g8.node 3 hnode3
  obtain ⟨c2, hc2, he2, hn2⟩ := g8.leaf 0 _ D hk0 hleaf
  rw [hA0] at hc2
  -- the set of particles of cell 3
  have hB3 : ∀ j, j ∈ below (D + 1) 1 (missKeys D sent) 3 ↔ ∃ i < sent, j = i + 1 := by
    intro j
    rw [mem_below]
    constructor
    · rintro ⟨x, hx, hH⟩
      cases j with
      | zero =>
        exfalso
        rw [hk0] at hx
        cases hx
        have h0 : H (D + 1) 1 (A 1 D (2 ^ (D + 1) + 2 ^ D + 0)) (2 ^ (D + 1)) := by rw [hA1 0 (by omega)]; exact hH
        rw [H_iff (by decide) (hfull _ ((hmem _).mpr (Or.inr ⟨0, by omega, rfl⟩))) (hfull _ ((hmem _).mpr (Or.inl rfl))) (by omega),
          hA0, hA1 0 (by omega)] at h0
        omega
      | succ i =>
        refine ⟨i, ?_, rfl⟩
        have := (List.getElem?_eq_some_iff.mp hx).1
        simp [missKeys] at this
        exact this
    · rintro ⟨i, hi, rfl⟩
      exact ⟨_, hk1 i hi, D, by omega, hA1 i hi⟩
  have hcard3 : (below (D + 1) 1 (missKeys D sent) 3).card = sent := by
    have : below (D + 1) 1 (missKeys D sent) 3 = (Finset.range sent).image (· + 1) := by
      ext j
      rw [hB3, Finset.mem_image]
      constructor
      · rintro ⟨i, hi, rfl⟩; exact ⟨i, Finset.mem_range.mpr hi, rfl⟩
      · rintro ⟨i, hi, rfl⟩; exact ⟨i, Finset.mem_range.mp hi, rfl⟩
    rw [this, Finset.card_image_of_injective _ (fun a b h => by simpa using h), Finset.card_range]
  have hcard1 : (below (D + 1) 1 (missKeys D sent) 1).card = sent + 1 := by
    have : below (D + 1) 1 (missKeys D sent) 1 = Finset.range (sent + 1) := by
      ext j; rw [g6, Finset.mem_range]; simp [missKeys]
    rw [this, Finset.card_range]
  have hbody1 : ∀ i < sent, bodyAt (missBodies D sent) (i + 1) = ⟨fun _ => 9 + 18 * (i : ℝ) / 2 ^ (D + 1), 1, 10⟩ := by
    intro i hi
    rw [bodyAt, List.getD_eq_getElem?_getD, missBodies_get D sent i hi]; rfl
  -- the three cells
  have hch : ChildOk 1 s.tbl := g8.child
  have hds : childKeys 1 s.tbl 1 = [2, 3] := by
    rw [childKeys]
    have : (List.range (2 ^ 1)) = [0, 1] := by decide
    rw [this]
    simp [hc2, hc3]
  obtain ⟨N1, hN1, hN1s, hnode1⟩ : ∃ N, getNode (⟨1, s.tbl, missBodies D sent, nodes, [], []⟩ : Top 1) c1 = some N ∧
      Summarises (bodyAt (missBodies D sent)) (below (D + 1) 1 (missKeys D sent) 1) N ∧ isNode c1 = some true ∧
        isEmptyNode 1 c1 = some false := by
    rcases g4.cell 1 c1 hc1 with ⟨h1, j, h2', h3, h4⟩ | ⟨h1, ⟨N, h2', h3⟩, h4⟩
    · rw [h2'] at hcard1; simp at hcard1; omega
    · refine ⟨N, h2', h3, h1, ?_⟩
      rcases h4 with h4 | h4
      · exact (g5 1 c1 hc1 h4).elim
      · exact h4.1
  obtain ⟨N3, hN3, hN3s, hnode3', hN3i⟩ : ∃ N, getNode (⟨1, s.tbl, missBodies D sent, nodes, [], []⟩ : Top 1) c3 = some N ∧
      Summarises (bodyAt (missBodies D sent)) (below (D + 1) 1 (missKeys D sent) 3) N ∧ isNode c3 = some true ∧
        c3.nodeIdx ≠ -1 := by
    rcases g4.cell 3 c3 hc3 with ⟨h1, j, h2', h3, h4⟩ | ⟨h1, ⟨N, h2', h3⟩, h4⟩
    · rw [h2'] at hcard3; simp at hcard3; omega
    · refine ⟨N, h2', h3, h1, ?_⟩
      rw [isNode] at h1
      split_ifs at h1
      simpa using h1
  have hsh : ∀ k c, s.tbl k = some c → isShared 1 c = false := fun k c h => ty_shared (g7 k c h)
  have hN3at : at? nodes c3.nodeIdx = some N3 := by
    rw [getNode] at hN3
    simpa [hsh 3 c3 hc3] using hN3
  have hbox : 4 ≤ N3.bmin 0 := by
    refine ((g9 3 c3 N3 hc3 hN3i hN3at) 0 4 (by linarith) hbig).1 ?_
    intro j hj
    obtain ⟨i, hi, rfl⟩ := (hB3 j).mp hj
    rw [hbody1 i hi]
    have : (0 : ℝ) ≤ 18 * (i : ℝ) / 2 ^ (D + 1) := by positivity
    dsimp only
    linarith
  have hleaf2 : isNode c2 = some false := by
    rw [isNode, if_pos (Or.inr (by rw [he2]; simp))]; simp [hn2]
  have hent2 : entRef (⟨1, s.tbl, missBodies D sent, nodes, [], []⟩ : Top 1) c2 = (false, 0) := by
    rw [entRef]
    simp only [hsh 2 c2 hc2, he2]
    simp
  have hbody2 : getEntity (⟨1, s.tbl, missBodies D sent, nodes, [], []⟩ : Top 1) c2 = some ⟨fun _ => 0, 1, 1⟩ := by
    rw [getEntity]
    simp only [hsh 2 c2 hc2, he2]
    rfl
  have hdk : daughterKeys 1 s.tbl 1 c1 = some [2, 3] := by rw [daughterKeys_eq hch hc1, hds]
  -- the cells selected
  have hcells : ∀ fuel, 4 ≤ fuel → sphCells (⟨1, s.tbl, missBodies D sent, nodes, [], []⟩ : Top 1) sent fuel = some [3, 2] := by
    intro fuel hf
    obtain ⟨f, rfl⟩ : ∃ f, fuel = f + 4 := ⟨fuel - 4, by omega⟩
    have e1 : cellsFunc (⟨1, s.tbl, missBodies D sent, nodes, [], []⟩ : Top 1) sent 1 c1 = some (true, []) := by
      rw [cellsFunc, hnode1.1]
      simp [hsh 1 c1 hc1, hN1, hN1s.sub, hcard1]
    have e2 : cellsFunc (⟨1, s.tbl, missBodies D sent, nodes, [], []⟩ : Top 1) sent 2 c2 = some (false, [2]) := by
      rw [cellsFunc, hleaf2]
      simp [hsh 2 c2 hc2]
    have e3 : cellsFunc (⟨1, s.tbl, missBodies D sent, nodes, [], []⟩ : Top 1) sent 3 c3 = some (false, [3]) := by
      rw [cellsFunc, hnode3']
      simp [hsh 3 c3 hc3, hN3, hN3s.sub, hcard3]
    rw [sphCells, show Key.root = 1 from rfl]
    simp [traversal, hc1, hc2, hc3, e1, e2, e3, hdk]
  -- the search from particle 0
  have hcell2 : ∀ fuel, 4 ≤ fuel → sphCell (⟨1, s.tbl, missBodies D sent, nodes, [], []⟩ : Top 1) tol 2 fuel =
      some (.inr [((false, 0), [(false, 0)])]) := by
    intro fuel hf
    obtain ⟨f, rfl⟩ : ∃ f, fuel = f + 4 := ⟨fuel - 4, by omega⟩
    have e0 : curEntities (⟨1, s.tbl, missBodies D sent, nodes, [], []⟩ : Top 1) 2 (f + 4) = some ([(false, 0)], none) := by
      rw [curEntities]
      simp [hc2, hleaf2, hent2]
    have e1 : examine (⟨1, s.tbl, missBodies D sent, nodes, [], []⟩ : Top 1) tol [⟨fun _ => 0, 1, 1⟩] none 1 =
        some { next := [2, 3], found := [[]] } := by
      have hsb : intersectsSphereBox tol N1.bmin N1.bmax (fun _ => 0) 1 := by
        have hb0 : bodyAt (missBodies D sent) 0 = ⟨fun _ => 0, 1, 1⟩ := rfl
        have := sphere_box_near hN1s (j := 0) ((g6 0).mpr (by simp [missKeys])) (b := ⟨fun _ => 0, 1, 1⟩) htol (by norm_num)
          (by rw [hb0]; norm_num) (by rw [hb0, distance_self]; norm_num)
        exact this
      rw [examine]
      simp [hc1, hnode1.1, hnode1.2, hN1, hsb, hdk]
    have e2 : examine (⟨1, s.tbl, missBodies D sent, nodes, [], []⟩ : Top 1) tol [⟨fun _ => 0, 1, 1⟩] none 2 =
        some { found := [[(false, 0)]] } := by
      have hw : withinDistance2 (fun _ => 0 : Point 1) (fun _ => 0) (max 1 1) := by
        rw [within_iff _ _ (by norm_num), distance_self]; norm_num
      rw [examine]
      simp [hc2, hleaf2, hbody2, hent2]
      simpa using hw
    have e3 : examine (⟨1, s.tbl, missBodies D sent, nodes, [], []⟩ : Top 1) tol [⟨fun _ => 0, 1, 1⟩] none 3 =
        some { found := [[]] } := by
      have hsb : ¬ intersectsSphereBox tol N3.bmin N3.bmax (fun _ => 0) 1 := by
        rw [intersectsSphereBox, if_neg (by norm_num), distance_one]
        have h1 : N3.bmin 0 ≤ clamp N3.bmin N3.bmax (fun _ => 0) 0 := le_max_left _ _
        have h2 := le_abs_self (clamp N3.bmin N3.bmax (fun _ => 0) 0 - 0)
        linarith
      rw [examine]
      simp [hc3, hnode3', hN3, hsb]
    rw [sphCell, e0]
    have ed : ([(false, 0)] : List (Bool × Int)).mapM (deref (⟨1, s.tbl, missBodies D sent, nodes, [], []⟩ : Top 1)) =
        some [⟨fun _ => 0, 1, 1⟩] := rfl
    simp only [Option.bind_eq_bind, Option.bind_some]
    rw [ed]
    simp only [Option.bind_some]
    rw [show Key.root = 1 from rfl]
    simp [search, pass, e1, e2, e3, appendAll]
  -- the whole run
  obtain ⟨f1, calls, h7, -⟩ := traversalSph_spec g4 g5 (by intro i _ j _ h; simpa using h)
    (by
      intro j hj _
      have hlt : j < (missBodies D sent).length := by rw [hlen]; exact (g6 j).mp hj
      have : (missBodies D sent)[j]? = some (bodyAt (missBodies D sent) j) := by
        rw [bodyAt, List.getD_eq_getElem?_getD, List.getElem?_eq_getElem hlt]; rfl
      simpa [deref, at?] using this)
    (fun j hj => by
      have hlt := (g6 j).mp hj
      apply (hmb _ _).2
      rw [bodyAt, List.getD_eq_getElem?_getD, List.getElem?_eq_getElem (by omega)]
      exact List.getElem_mem _) htol sent
  refine ⟨f1, calls, h7, ?_⟩
  have h8 := h7 (max f1 4) (le_max_left _ _)
  rw [traversalSph, hcells _ (le_max_right _ _)] at h8
  simp only [Option.bind_eq_bind, Option.bind_some, List.mapM_cons, List.mapM_nil] at h8
  have h9 : sphCellLocal (⟨1, s.tbl, missBodies D sent, nodes, [], []⟩ : Top 1) tol 2 (max f1 4) = some [((false, 0), [(false, 0)])] := by
    rw [sphCellLocal, hcell2 _ (le_max_right _ _)]; rfl
  rw [h9] at h8
  simp only [Option.pure_def, Option.bind_some] at h8
  cases hr : sphCellLocal (⟨1, s.tbl, missBodies D sent, nodes, [], []⟩ : Top 1) tol 3 (max f1 4) with
  | none => rw [hr] at h8; simp at h8
  | some r =>
    rw [hr] at h8
    simp at h8
    rw [← h8]
    simp

end FleCSPH
