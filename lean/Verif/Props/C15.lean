import Verif.Lemmas.Gravity3
import Mathlib.Analysis.Calculus.Deriv.Add
/-! C15: far-field interactions respect the acceptance criterion and approximate Newton's law. -/
namespace FleCSPH
open Spec HCell BuildTree Cofm FleCSPH.Tree Geometry Traversal Fmm

/-- Nodes interact as wholes, with nodes or particles, only when the sum of the radii is below the angle times the
distance; the nodes are the mass, centre of mass and a bounding radius of disjoint sets of particles. -/
theorem C15_criterion {d : Nat} (big : ℝ) (D dim minKey maxKey : Nat) (hdim : 0 < dim) (hD : 0 < D) (ks : List Nat) (hne : ks ≠ [])
    (hfull : ∀ x ∈ ks, FullKey D dim x) (hsorted : ks.Pairwise (· < ·))
    (bodies : List (Body d)) (hlen : bodies.length = ks.length) (hmass : ∀ b ∈ bodies, 0 < b.mass)
    (hpos : bodies.Pairwise fun a b => a.pos ≠ b.pos) (angle : ℝ) :
    ∃ E s nodes, envOf D dim minKey maxKey [ks] 0 = some E ∧ buildTree E = some s ∧
      evalLog big bodies s.cofm [] = some nodes ∧ ∃ fuel₀ calls,
      (∀ fuel, fuel₀ ≤ fuel → traversalFmm ⟨dim, s.tbl, bodies, nodes, [], []⟩ angle fuel = some calls) ∧
      (∀ k1 k2, .c2c k1 k2 ∈ calls → ∃ N1 N2, nodeAt ⟨dim, s.tbl, bodies, nodes, [], []⟩ k1 = some N1 ∧
        nodeAt ⟨dim, s.tbl, bodies, nodes, [], []⟩ k2 = some N2 ∧ Summarises (bodyAt bodies) (below D dim ks k1) N1 ∧
        Summarises (bodyAt bodies) (below D dim ks k2) N2 ∧ Disjoint (below D dim ks k1) (below D dim ks k2) ∧
        N1.radius + N2.radius < angle * distance N1.coords N2.coords) ∧
      (∀ k1 e, .p2c k1 e ∈ calls → ∃ N1, ∃ j : Nat, nodeAt ⟨dim, s.tbl, bodies, nodes, [], []⟩ k1 = some N1 ∧ e = (false, (j : Int)) ∧
        Summarises (bodyAt bodies) (below D dim ks k1) N1 ∧ j < bodies.length ∧ j ∉ below D dim ks k1 ∧
        N1.radius < angle * distance N1.coords (bodyAt bodies j).pos) ∧
      (∀ e k2, .n2p e k2 ∈ calls → ∃ j : Nat, ∃ N2, e = (false, (j : Int)) ∧ nodeAt ⟨dim, s.tbl, bodies, nodes, [], []⟩ k2 = some N2 ∧
        Summarises (bodyAt bodies) (below D dim ks k2) N2 ∧ j < bodies.length ∧ j ∉ below D dim ks k2 ∧
        N2.radius < angle * distance (bodyAt bodies j).pos N2.coords) := by
  obtain ⟨E, s, nodes, h1, h2, h3, T, rfl, hB1, -, -, f, calls, keys, subs, pairs, g1, g2, -⟩ :=
    single_fmm big D dim minKey maxKey hdim hD ks hne hfull hsorted bodies hlen hmass hpos angle
  have hrest : ∀ c, c ∈ calls ++ List.zipWith Call.c2p keys subs ++ pairs.map (fun p => Call.p2p (false, (p.1 : Int)) (false, (p.2 : Int))) →
      c ∈ calls ∨ (∃ k l, c = .c2p k l) ∨ ∃ e e', c = .p2p e e' := by
    intro c hc
    rcases List.mem_append.mp hc with hc | hc
    · rcases List.mem_append.mp hc with hc | hc
      · exact Or.inl hc
      · obtain ⟨i, hi, he⟩ := List.mem_iff_getElem.mp hc
        rw [List.getElem_zipWith] at he
        exact Or.inr (Or.inl ⟨_, _, he.symm⟩)
    · obtain ⟨p, -, he⟩ := List.mem_map.mp hc
      exact Or.inr (Or.inr ⟨_, _, he.symm⟩)
  refine ⟨E, s, nodes, h1, h2, h3, f, _, g1, ?_, ?_, ?_⟩
  · intro k1 k2 hc
    rcases hrest _ hc with hc | ⟨k, l, h⟩ | ⟨e, e', h⟩
    · obtain ⟨-, -, -, hdis, -, N1, N2, w1, s1, w2, s2, hm⟩ := g2 _ hc
      exact ⟨N1, N2, w1, w2, s1, s2, Finset.disjoint_left.mpr (fun j hj => hdis j hj), hm⟩
    · cases h
    · cases h
  · intro k1 e hc
    rcases hrest _ hc with hc | ⟨k, l, h⟩ | ⟨e, e', h⟩
    · obtain ⟨-, -, -, N1, j, w1, s1, hj, hn, he, hm⟩ := g2 _ hc
      exact ⟨N1, j, w1, he, s1, (hB1 j).mp hj, hn, by rw [Geometry.mac, add_zero] at hm; exact hm⟩
    · cases h
    · cases h
  · intro e k2 hc
    rcases hrest _ hc with hc | ⟨k, l, h⟩ | ⟨e, e', h⟩
    · obtain ⟨-, j, N2, hj, hn, he, w2, s2, hm⟩ := g2 _ hc
      exact ⟨j, N2, he, w2, s2, (hB1 j).mp hj, hn, by rw [Geometry.mac, zero_add] at hm; exact hm⟩
    · cases h
    · cases h

/-- The field computed by `gravitation_fmm` differs from Newton's law by a fraction of the sum of the magnitudes of the
contributions that vanishes with the acceptance angle `t`; with a zero or negative angle it is exact. -/
theorem C15_error_bound {d : Nat} (big : ℝ) (D dim minKey maxKey : Nat) (hdim : 0 < dim) (hD : 0 < D) (ks : List Nat) (hne : ks ≠ [])
    (hfull : ∀ x ∈ ks, FullKey D dim x) (hsorted : ks.Pairwise (· < ·))
    (bodies : List (Body d)) (hlen : bodies.length = ks.length) (hmass : ∀ b ∈ bodies, 0 < b.mass)
    (hpos : bodies.Pairwise fun a b => a.pos ≠ b.pos) (angle G : ℝ) (ids : Bool × Int → Int)
    (hids : ∀ i < bodies.length, ∀ j < bodies.length, ids (false, (i : Int)) = ids (false, (j : Int)) → i = j) :
    ∃ E s nodes, envOf D dim minKey maxKey [ks] 0 = some E ∧ buildTree E = some s ∧
      evalLog big bodies s.cofm [] = some nodes ∧ ∃ fuel₀ F,
      (∀ fuel, fuel₀ ≤ fuel → gravitationFmm ⟨dim, s.tbl, bodies, nodes, [], []⟩ angle G ids fuel = some F) ∧
      ∀ a : Fin bodies.length, ∀ t, t = max angle 0 →
        distance (F.acc (false, (a : Nat))) (newtonAcceleration G bodies a) ≤
          (4 * t + 5 * t ^ 2 + 2 * t ^ 3) * ∑ b ∈ Finset.univ.erase a, |G| * bodies[b].mass / distance bodies[a].pos bodies[b].pos ^ 2 ∧
        |F.pot (false, (a : Nat)) - newtonPotential G bodies a| ≤
          (2 * t + t ^ 2) * ∑ b ∈ Finset.univ.erase a, |G| * bodies[b].mass / distance bodies[a].pos bodies[b].pos := by
  obtain ⟨E, s, nodes, h1, h2, h3, T, rfl, hB1, hT, hderef, f, calls, keys, subs, pairs, g1, g2, g3, g4, g5, g6⟩ :=
    single_fmm big D dim minKey maxKey hdim hD ks hne hfull hsorted bodies hlen hmass hpos angle
  have hbody : ∀ j (h : j < bodies.length), bodyAt bodies j = bodies[j] := by
    intro j h
    rw [bodyAt, List.getD_eq_getElem?_getD, List.getElem?_eq_getElem h]; rfl
  have hderef' : ∀ j ∈ below D dim ks 1, deref ⟨dim, s.tbl, bodies, nodes, [], []⟩ (false, (j : Int)) = some (bodyAt bodies j) :=
    fun j hj => hderef j ((hB1 j).mp hj)
  have hinj : ∀ i ∈ below D dim ks 1, ∀ j ∈ below D dim ks 1, ((false, (i : Int)) : Bool × Int) = (false, (j : Int)) → i = j := by
    intro i _ j _ h; simpa using h
  have hposB : ∀ i ∈ below D dim ks 1, ∀ j ∈ below D dim ks 1, i ≠ j → (bodyAt bodies i).pos ≠ (bodyAt bodies j).pos := by
    intro i hi j hj hij
    have hi' := (hB1 i).mp hi
    have hj' := (hB1 j).mp hj
    rw [hbody i hi', hbody j hj']
    rw [List.pairwise_iff_getElem] at hpos
    rcases Nat.lt_or_gt_of_ne hij with h | h
    · exact hpos i j hi' hj' h
    · exact (hpos j i hj' hi' h).symm
  obtain ⟨F, hF, hfld⟩ := field_sum (ref := fun j => (false, (j : Int))) hT hderef' G angle ids
    (fun i hi j hj h => hids i ((hB1 i).mp hi) j ((hB1 j).mp hj) h) hinj hposB g2 g3.1 g3.2.1 g3.2.2 g4
    (fun p hp => ⟨(hB1 _).mpr (g5 p hp).1, (hB1 _).mpr (g5 p hp).2⟩)
  refine ⟨E, s, nodes, h1, h2, h3, f, F, ?_, ?_⟩
  · intro fuel hf
    rw [gravitationFmm, g1 fuel hf]
    exact hF
  rintro a t rfl
  set t := max angle 0 with ht
  have ht0 : 0 ≤ t := le_max_right _ _
  have ha : (a : Nat) ∈ below D dim ks 1 := (hB1 _).mpr a.2
  have hok : ∀ c ∈ calls, CallOk _ _ _ _ t c := fun c hc => CallOk_mono (le_max_left _ _) (g2 c hc)
  have hm0 : ∀ b ∈ below D dim ks 1, 0 ≤ (bodyAt bodies b).mass := by
    intro b hb
    rw [hbody b ((hB1 b).mp hb)]
    exact (hmass _ (List.getElem_mem _)).le
  have hone : ∀ b ∈ below D dim ks 1, (calls.map (covCall (below D dim ks) (fun j => (false, (j : Int))) a b)).sum + pairs.count ((a : Nat), b) = 1 :=
    fun b hb => g6 a a.2 b ((hB1 b).mp hb)
  have hself : ∀ c ∈ calls, covCall (below D dim ks) (fun j => (false, (j : Int))) a a c = 0 := fun c hc => cov_self (hok c hc) hinj ha
  have hfa := hfld a ha
  have sA := hbody a a.2
  constructor
  · have h := err_generic (T := ⟨dim, s.tbl, bodies, nodes, [], []⟩) (B := below D dim ks) (ref := fun j => (false, (j : Int)))
      (body := bodyAt bodies) (pairs := pairs) (eucL.comp (LinearMap.snd ℝ ℝ (Point d))) G
      (fun b => |G| * ((4 * t + 5 * t ^ 2 + 2 * t ^ 3) / distance (bodyAt bodies a).pos (bodyAt bodies b).pos ^ 2)) hm0 ha hself hone
      (fun b _ => by positivity)
      (fun c hc b hb hba hcov => (unit_err hderef' hT hinj G ht0 (hok c hc) ha hb (hposB a ha b hb (Ne.symm hba)) hcov).1)
    rw [← hfa] at h
    rw [sum_fin_erase bodies _ hB1 a (fun b => (bodyAt bodies b).mass • (eucL.comp (LinearMap.snd ℝ ℝ (Point d))) (grav G (bodyAt bodies a).pos (bodyAt bodies b).pos 1)),
      sum_fin_erase bodies _ hB1 a (fun b => (bodyAt bodies b).mass *
        (|G| * ((4 * t + 5 * t ^ 2 + 2 * t ^ 3) / distance (bodyAt bodies a).pos (bodyAt bodies b).pos ^ 2)))] at h
    have e1 : ∑ b ∈ Finset.univ.erase a, (bodyAt bodies b).mass • (eucL.comp (LinearMap.snd ℝ ℝ (Point d))) (grav G (bodyAt bodies a).pos (bodyAt bodies b).pos 1) =
        euc (newtonAcceleration G bodies a) := by
      have : newtonAcceleration G bodies a = ∑ b ∈ Finset.univ.erase a, (bodyAt bodies b).mass • (grav G (bodyAt bodies a).pos (bodyAt bodies b).pos 1).2 := by
        funext i
        rw [Finset.sum_apply, newtonAcceleration]
        apply Finset.sum_congr rfl
        intro b _
        rw [hbody b b.2, sA]
        simp only [grav, Pi.smul_apply, smul_eq_mul, Fin.getElem_fin]
        ring
      rw [this]
      show _ = eucL _
      rw [map_sum]
      apply Finset.sum_congr rfl
      intro b _
      rw [map_smul]; rfl
    rw [e1] at h
    rw [← norm_euc_sub]
    refine le_trans h (le_of_eq ?_)
    rw [Finset.mul_sum]
    apply Finset.sum_congr rfl
    intro b _
    rw [hbody b b.2, sA]
    simp only [Fin.getElem_fin]
    ring
  · have h := err_generic (T := ⟨dim, s.tbl, bodies, nodes, [], []⟩) (B := below D dim ks) (ref := fun j => (false, (j : Int)))
      (body := bodyAt bodies) (pairs := pairs) (LinearMap.fst ℝ ℝ (Point d)) G
      (fun b => |G| * ((2 * t + t ^ 2) / distance (bodyAt bodies a).pos (bodyAt bodies b).pos)) hm0 ha hself hone
      (fun b _ => by have := distance_nonneg (bodyAt bodies a).pos (bodyAt bodies b).pos; positivity)
      (fun c hc b hb hba hcov => (unit_err hderef' hT hinj G ht0 (hok c hc) ha hb (hposB a ha b hb (Ne.symm hba)) hcov).2)
    rw [← hfa] at h
    rw [sum_fin_erase bodies _ hB1 a (fun b => (bodyAt bodies b).mass • (LinearMap.fst ℝ ℝ (Point d)) (grav G (bodyAt bodies a).pos (bodyAt bodies b).pos 1)),
      sum_fin_erase bodies _ hB1 a (fun b => (bodyAt bodies b).mass *
        (|G| * ((2 * t + t ^ 2) / distance (bodyAt bodies a).pos (bodyAt bodies b).pos)))] at h
    have e1 : ∑ b ∈ Finset.univ.erase a, (bodyAt bodies b).mass • (LinearMap.fst ℝ ℝ (Point d)) (grav G (bodyAt bodies a).pos (bodyAt bodies b).pos 1) =
        newtonPotential G bodies a := by
      rw [newtonPotential]
      apply Finset.sum_congr rfl
      intro b _
      rw [hbody b b.2, sA]
      simp only [grav, smul_eq_mul, Fin.getElem_fin, LinearMap.fst_apply]
      ring
    rw [e1] at h
    refine le_trans h (le_of_eq ?_)
    rw [Finset.mul_sum]
    apply Finset.sum_congr rfl
    intro b _
    rw [hbody b b.2, sA]
    simp only [Fin.getElem_fin]
    ring

/-- Direct interactions are antisymmetric: the forces of two particles on each other are opposite, and so are the
energies equal. -/
theorem C15_antisymmetric {d : Nat} (G : ℝ) (x y : Point d) (mx my : ℝ) (hxy : x ≠ y) :
    ∃ gx gy, gravitation G x y my = some gx ∧ gravitation G y x mx = some gy ∧ (∀ i, mx * gx.2 i = -(my * gy.2 i)) ∧
      mx * gx.1 = my * gy.1 := by
  have h1 : distance x y ≠ 0 := fun h => hxy (distance_eq_zero.mp h)
  have h2 : distance y x ≠ 0 := by rw [distance_comm]; exact h1
  refine ⟨_, _, gravitation_eq h1, gravitation_eq h2, ?_, ?_⟩
  · intro i; simp only [grav]; rw [distance_comm y x]; ring
  · simp only [grav]; rw [distance_comm y x]; ring

/-- Direct interactions never act on the particle itself. -/
theorem C15_no_self {d : Nat} (T : Top d) (G : ℝ) (ids : Bool × Int → Int) (F : Field d) (e : Bool × Int) :
    apply T G ids F (.p2p e e) = some F := by rw [apply, if_pos rfl]

/-- The evaluation of a node for a particle is the first-order Taylor expansion, about the centre of the node, of the
potential `φ` of the sources that were put into the node: `φ` and its derivative along the displacement. The acceleration
is minus the gradient of `φ` at the centre. -/
theorem C15_taylor {d : Nat} (T : Top d) (G : ℝ) (k : Nat) (n : Node d) (e : Bool × Int) (b : Body d) (hb : deref T e = some b)
    (F : Field d) (sources : List (Point d × ℝ)) (hne : ∀ s ∈ sources, n.coords ≠ s.1)
    (hpc : F.pc k = (sources.map fun s => -G * s.2 / distance n.coords s.1).sum)
    (hfc : ∀ i, F.fc k i = (sources.map fun s => -G * s.2 * (n.coords i - s.1 i) / distance n.coords s.1 ^ 3).sum)
    (φ : Point d → ℝ) (hφ : ∀ x, φ x = (sources.map fun s => -G * s.2 / distance x s.1).sum) :
    ∃ F', c2pOne T k n e F = some F' ∧
      (∀ v : Point d, HasDerivAt (fun t : ℝ => φ (n.coords + t • v)) (-∑ i, (F'.acc e i - F.acc e i) * v i) 0) ∧
      F'.pot e = F.pot e + φ n.coords + deriv (fun t : ℝ => φ (n.coords + t • (b.pos - n.coords))) 0 := by
  have hder : ∀ v : Point d, HasDerivAt (fun t : ℝ => φ (n.coords + t • v)) (-∑ i, F.fc k i * v i) 0 := by
    intro v
    have hfun : (fun t : ℝ => φ (n.coords + t • v)) = fun t => (sources.map fun s => -G * s.2 / distance (n.coords + t • v) s.1).sum := by
      funext t; rw [hφ]
    rw [hfun]
    simp only [hfc]
    clear hpc hfc hφ hfun
    induction sources with
    | nil => simpa using hasDerivAt_const (0 : ℝ) (0 : ℝ)
    | cons s l ih =>
      simp only [List.map_cons, List.sum_cons]
      have h1 := Newton.potential_deriv (G * s.2) (x := euc n.coords) (y := euc s.1)
        (fun h => hne s (List.mem_cons_self ..) (by
          have : distance n.coords s.1 = 0 := by rw [← norm_euc_sub, h, sub_self, norm_zero]
          exact distance_eq_zero.mp this)) (euc v)
      have h2 : HasDerivAt (fun t : ℝ => -(G * s.2) / ‖euc n.coords + t • euc v - euc s.1‖ +
          (l.map fun s => -G * s.2 / distance (n.coords + t • v) s.1).sum) _ 0 :=
        HasDerivAt.add h1 (ih (fun s hs => hne s (List.mem_cons_of_mem _ hs)))
      suffices e1 : (fun t : ℝ => -G * s.2 / distance (n.coords + t • v) s.1 + (l.map fun s => -G * s.2 / distance (n.coords + t • v) s.1).sum) =
          (fun t : ℝ => -(G * s.2) / ‖euc n.coords + t • euc v - euc s.1‖ + (l.map fun s => -G * s.2 / distance (n.coords + t • v) s.1).sum) by
        rw [e1]
        refine h2.congr_deriv ?_
        rw [norm_euc_sub, eq_comm]
        have : inner ℝ ((-(G * s.2) * (distance n.coords s.1 ^ 3)⁻¹) • (euc n.coords - euc s.1)) (euc v) =
            ∑ i, (-G * s.2 * (n.coords i - s.1 i) / distance n.coords s.1 ^ 3) * v i := by
          rw [inner_smul_left, ← euc_sub, inner_euc, Finset.mul_sum]
          apply Finset.sum_congr rfl
          intro i _
          simp only [Pi.sub_apply, conj_trivial]
          rw [div_eq_mul_inv]
          ring
        rw [this, ← neg_add, ← Finset.sum_add_distrib]
        congr 1
        apply Finset.sum_congr rfl
        intro i _
        ring
      funext t
      congr 1
      have : euc n.coords + t • euc v - euc s.1 = euc (n.coords + t • v) - euc s.1 := rfl
      rw [this, norm_euc_sub]
      ring
  refine ⟨_, by rw [c2pOne, hb]; rfl, ?_, ?_⟩
  · intro v
    convert hder v using 4
    simp [addTo]
  · rw [(hder _).deriv]
    simp only [addTo, if_true]
    rw [hpc, hφ]
    simp only [Pi.sub_apply, mul_comm (F.fc k _)]
    ring

/-- Non-vacuity: distinct identifiers, and a node with one source. -/
example : (∀ i < 3, ∀ j < 3, (fun e : Bool × Int => e.2) (false, ((i : Nat) : Int)) = (fun e : Bool × Int => e.2) (false, ((j : Nat) : Int)) → i = j) ∧
    (![1, 2] : Point 2) ≠ ![3, 2] := by
  refine ⟨by intro i _ j _ h; simpa using h, fun h => ?_⟩
  have := congrFun h 0
  norm_num at this

end FleCSPH
