import Verif.Props.C13
import Verif.Props.C34
/-! C34: the hypothesis on the neighbour lists is what the traversal delivers. -/
namespace FleCSPH
open Sph Spec Geometry Kernels HCell BuildTree Cofm FleCSPH.Tree Traversal

/-- On a single process the neighbour lists `traversal_sph` delivers satisfy the hypothesis of `C34_momentum`,
`C35_total_energy` and the others, for all smoothing lengths. -/
theorem C34_traversal_lists {d n : Nat} (big : ℝ) (D dim minKey maxKey : Nat) (hdim : 0 < dim) (hD : 0 < D) (ks : List Nat)
    (hne : ks ≠ []) (hfull : ∀ x ∈ ks, FullKey D dim x) (hsorted : ks.Pairwise (· < ·))
    (s : Fin n → Particle d) (hlen : n = ks.length) (hmass : ∀ a, 0 < (s a).mass) (hh : ∀ a, 0 < (s a).h)
    (tol : ℝ) (htol : 0 ≤ tol) (sent : Nat) :
    ∃ E st nodes, envOf D dim minKey maxKey [ks] 0 = some E ∧ buildTree E = some st ∧
      evalLog big (List.ofFn fun a => (⟨(s a).pos, (s a).mass, (s a).h⟩ : Body d)) st.cofm [] = some nodes ∧
      ∃ fuel₀ calls, (∀ fuel, fuel₀ ≤ fuel →
          traversalSph ⟨dim, st.tbl, List.ofFn fun a => (⟨(s a).pos, (s a).mass, (s a).h⟩ : Body d), nodes, [], []⟩ tol sent fuel = some calls) ∧
        ∃ nbs : Fin n → List (Fin n), (∀ a : Fin n, ((false, ((a : Nat) : Int)), (nbs a).map fun b : Fin n => (false, ((b : Nat) : Int))) ∈ calls) ∧
          (∀ c ∈ calls, ∃ a : Fin n, c = ((false, ((a : Nat) : Int)), (nbs a).map fun b : Fin n => (false, ((b : Nat) : Int)))) ∧
          SymmetricLists s nbs := by
  have hbl : (List.ofFn fun a => (⟨(s a).pos, (s a).mass, (s a).h⟩ : Body d)).length = n := List.length_ofFn
  obtain ⟨E, st, nodes, h1, h2, h3, f, calls, h4, h5, h6, h7⟩ := C13_partial big D dim minKey maxKey hdim hD ks hne hfull hsorted
    (List.ofFn fun a => (⟨(s a).pos, (s a).mass, (s a).h⟩ : Body d)) (by rw [hbl, hlen])
    (by intro b hb; obtain ⟨a, rfl⟩ := List.mem_ofFn.mp hb; exact hmass a)
    (by intro b hb; obtain ⟨a, rfl⟩ := List.mem_ofFn.mp hb; exact (hh a).le) tol htol sent
  refine ⟨E, st, nodes, h1, h2, h3, f, calls, h4, ?_⟩
  have get : ∀ (j : Nat) (c : Body d), (List.ofFn fun a => (⟨(s a).pos, (s a).mass, (s a).h⟩ : Body d))[j]? = some c →
      ∃ a : Fin n, (a : Nat) = j ∧ c = ⟨(s a).pos, (s a).mass, (s a).h⟩ := by
    intro j c hc
    obtain ⟨hj, rfl⟩ := List.getElem?_eq_some_iff.mp hc
    refine ⟨⟨j, by rwa [hbl] at hj⟩, rfl, ?_⟩
    rw [List.getElem_ofFn]
  have put : ∀ a : Fin n, (List.ofFn fun a => (⟨(s a).pos, (s a).mass, (s a).h⟩ : Body d))[(a : Nat)]? = some ⟨(s a).pos, (s a).mass, (s a).h⟩ := by
    intro a
    rw [List.getElem?_ofFn]; simp
  have inj : Function.Injective fun b : Fin n => ((false, ((b : Nat) : Int)) : Bool × Int) := by
    intro x y hxy
    simp only [Prod.mk.injEq, Nat.cast_inj, true_and] at hxy
    exact Fin.ext hxy
  have ex : ∀ a : Fin n, ∃ l : List (Fin n), ((false, ((a : Nat) : Int)), l.map fun b : Fin n => (false, ((b : Nat) : Int))) ∈ calls := by
    intro a
    have hm : (false, ((a : Nat) : Int)) ∈ calls.map Prod.fst := (h6 false a).mpr ⟨rfl, a, rfl, by rw [hbl]; exact a.2⟩
    obtain ⟨⟨k, nb⟩, hc, hk⟩ := List.mem_map.mp hm
    simp only at hk
    subst hk
    obtain ⟨_, _, _, _, _, hsound, _⟩ := h7 _ _ nb hc
    have : nb ∈ Set.range (List.map fun b : Fin n => ((false, ((b : Nat) : Int)) : Bool × Int)) := by
      rw [Set.range_list_map]
      intro x hx
      obtain ⟨j, c, rfl, hj, _⟩ := hsound x hx
      obtain ⟨b, rfl, _⟩ := get j c hj
      exact ⟨b, rfl⟩
    obtain ⟨l, hl⟩ := this
    exact ⟨l, by rw [hl]; exact hc⟩
  choose nbs hnbs using ex
  have spec : ∀ a : Fin n, (nbs a).Nodup ∧ ∀ b : Fin n, √(∑ k, ((s a).pos k - (s b).pos k) ^ 2) ≤ ((s a).h + (s b).h) / 2 → b ∈ nbs a := by
    intro a
    obtain ⟨a', c, ha', hc, hn, _, hcomp⟩ := h7 _ _ _ (hnbs a)
    have ha : (a : Nat) = a' := by exact_mod_cast ha'
    subst ha
    rw [put] at hc
    cases hc
    refine ⟨hn.of_map _, ?_⟩
    intro b hb
    have := hcomp b _ (put b) hb
    obtain ⟨b', hb', he⟩ := List.mem_map.mp this
    have := inj he
    rwa [← this]
  refine ⟨nbs, hnbs, ?_, ⟨fun a => (spec a).1, ?_⟩⟩
  · rintro ⟨⟨sh, k⟩, nb⟩ hc
    obtain ⟨rfl, j, rfl, hj⟩ := (h6 sh k).mp (List.mem_map_of_mem hc)
    rw [hbl] at hj
    refine ⟨⟨j, hj⟩, ?_⟩
    exact List.inj_on_of_nodup_map h5 hc (hnbs ⟨j, hj⟩) rfl
  · intro a b hab
    refine ⟨fun _ => (spec b).2 a ?_, fun _ => (spec a).2 b hab.le⟩
    have : ∑ k, ((s b).pos k - (s a).pos k) ^ 2 = ∑ k, ((s a).pos k - (s b).pos k) ^ 2 :=
      Finset.sum_congr rfl fun k _ => by ring
    rw [this]; linarith

end FleCSPH
