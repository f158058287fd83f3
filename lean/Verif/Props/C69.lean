import Verif.Lemmas.GravitySym
/-! C69: self-gravity conserves linear momentum. -/
namespace FleCSPH
open Spec HCell BuildTree Cofm FleCSPH.Tree Geometry Traversal Fmm

/-- The gravitational forces of `gravitation_fmm` add up to zero, unless two nodes of the tree have the same radius. -/
theorem C69_momentum_partial {d : Nat} (big : ℝ) (D dim minKey maxKey : Nat) (hdim : 0 < dim) (hD : 0 < D) (ks : List Nat) (hne : ks ≠ [])
    (hfull : ∀ x ∈ ks, FullKey D dim x) (hsorted : ks.Pairwise (· < ·))
    (bodies : List (Body d)) (hlen : bodies.length = ks.length) (hmass : ∀ b ∈ bodies, 0 < b.mass)
    (hpos : bodies.Pairwise fun a b => a.pos ≠ b.pos) (angle G : ℝ) (ids : Bool × Int → Int)
    (hids : ∀ i < bodies.length, ∀ j < bodies.length, ids (false, (i : Int)) = ids (false, (j : Int)) → i = j) :
    ∃ E s nodes, envOf D dim minKey maxKey [ks] 0 = some E ∧ buildTree E = some s ∧
      evalLog big bodies s.cofm [] = some nodes ∧ ∃ fuel₀ F,
      (∀ fuel, fuel₀ ≤ fuel → gravitationFmm ⟨dim, s.tbl, bodies, nodes, [], []⟩ angle G ids fuel = some F) ∧
      ((∀ k1 k2 N1 N2, nodeAt ⟨dim, s.tbl, bodies, nodes, [], []⟩ k1 = some N1 → nodeAt ⟨dim, s.tbl, bodies, nodes, [], []⟩ k2 = some N2 →
          k1 ≠ k2 → N1.radius ≠ N2.radius) →
        ∀ i, ∑ a : Fin bodies.length, bodies[a].mass * F.acc (false, (a : Nat)) i = 0) := by
  obtain ⟨E, s, nodes, h1, h2, h3, hcan, hB1, hT, hposB, f, calls, keys, subs, pairs, F, g1, g2, g6, hF, hfld⟩ :=
    single_field big D dim minKey maxKey hdim hD ks hne hfull hsorted bodies hlen hmass hpos angle G ids hids
  have hbody : ∀ j (h : j < bodies.length), bodyAt bodies j = bodies[j] := by
    intro j h
    rw [bodyAt, List.getD_eq_getElem?_getD, List.getElem?_eq_getElem h]; rfl
  have hinj : ∀ i ∈ below D dim ks 1, ∀ j ∈ below D dim ks 1, ((false, (i : Int)) : Bool × Int) = (false, (j : Int)) → i = j := by
    intro i _ j _ h; simpa using h
  refine ⟨E, s, nodes, h1, h2, h3, f, F, hF, ?_⟩
  intro hties i
  -- the sum over the particles
  have hsum : ∑ a : Fin bodies.length, bodies[a].mass * F.acc (false, (a : Nat)) i =
      ∑ a ∈ below D dim ks 1, (bodyAt bodies a).mass * (fld F (false, (a : Int))).2 i := by
    rw [show below D dim ks 1 = Finset.range bodies.length from Finset.ext fun j => by rw [hB1, Finset.mem_range],
      Finset.sum_range]
    apply Finset.sum_congr rfl
    intro a _
    rw [hbody a a.2]; rfl
  rw [hsum]
  have hl : ∀ c ∈ calls, c.inLoop = true := fun c hc => callOk_inLoop (g2 c hc)
  by_cases htwo : ∃ x ∈ below D dim ks 1, ∃ y ∈ below D dim ks 1, x ≠ y
  · have hnt : NoTie (⟨dim, s.tbl, bodies, nodes, [], []⟩ : Top d) := by
      have hpos0 : ∀ k c N, s.tbl k = some c → isNode c = some true → getNode (⟨dim, s.tbl, bodies, nodes, [], []⟩ : Top d) c = some N → 0 < N.radius := by
        intro k c N hk hn hN
        obtain ⟨x, hx, y, hy, hxy⟩ : ∃ x ∈ below D dim ks k, ∃ y ∈ below D dim ks k, x ≠ y := by
          rcases canon_two hcan hk hn with rfl | h
          · exact htwo
          · exact h
        rcases hT.cell k c hk with ⟨hf, -⟩ | ⟨-, ⟨N', hN', hs⟩, -⟩
        · rw [hn] at hf; cases hf
        obtain rfl : N = N' := Option.some.inj (hN.symm.trans hN')
        by_contra hle
        have hz : ∀ w ∈ below D dim ks k, N.coords = (bodyAt bodies w).pos := by
          intro w hw
          have := hs.radius w hw
          have h0 : 0 ≤ distance N.coords (bodyAt bodies w).pos := Real.sqrt_nonneg _
          exact distance_eq_zero.mp (le_antisymm (by linarith) h0)
        have hw1 : ∀ w, w ∈ below D dim ks k → w ∈ below D dim ks 1 := by
          intro w hw
          rw [hB1, hlen]
          obtain ⟨z, hz, -⟩ := mem_below.mp hw
          exact (List.getElem?_eq_some_iff.mp hz).1
        exact hposB x (hw1 x hx) y (hw1 y hy) hxy ((hz x hx).symm.trans (hz y hy))
      intro k1 k2 c1 c2 n1 n2 p1 p2 hc1 hc2 hn1 hn2 hor hk hp1 hp2
      rw [place] at hp1 hp2
      cases n1 with
      | true =>
        rw [if_pos rfl] at hp1
        obtain ⟨N1, hN1, rfl⟩ := Option.map_eq_some_iff.mp hp1
        cases n2 with
        | true =>
          rw [if_pos rfl] at hp2
          obtain ⟨N2, hN2, rfl⟩ := Option.map_eq_some_iff.mp hp2
          exact hties k1 k2 N1 N2 (by rw [nodeAt, hc1]; exact hN1) (by rw [nodeAt, hc2]; exact hN2) hk
        | false =>
          rw [if_neg (by simp)] at hp2
          obtain ⟨e2, -, rfl⟩ := Option.map_eq_some_iff.mp hp2
          exact (hpos0 k1 c1 N1 hc1 hn1 hN1).ne'
      | false =>
        rw [if_neg (by simp)] at hp1
        obtain ⟨e1, -, rfl⟩ := Option.map_eq_some_iff.mp hp1
        cases n2 with
        | true =>
          rw [if_pos rfl] at hp2
          obtain ⟨N2, hN2, rfl⟩ := Option.map_eq_some_iff.mp hp2
          exact (hpos0 k2 c2 N2 hc2 hn2 hN2).ne
        | false => simp at hor
    obtain ⟨w1, w3⟩ := run_swap (ref := fun j => (false, (j : Int))) hnt (by intro i j h; simpa using h) (g1 f (le_refl f)) hl
    exact momentum_zero (below D dim ks 1) (fun a => (bodyAt bodies a).mass) _ (fun a => fld F (false, (a : Int))) i hfld
      (fun a _ b _ => weight_swap G hl w1 w3 a b i)
  · -- a single particle
    apply Finset.sum_eq_zero
    intro a ha
    rw [hfld a ha, Prod.snd_sum, Finset.sum_apply, Finset.sum_eq_zero, mul_zero]
    intro b hb
    have hab : b = a := by
      by_contra h
      exact htwo ⟨b, hb, a, ha, h⟩
    subst hab
    rw [if_pos rfl, add_zero]
    have hz : (calls.map fun c => (covCall (below D dim ks) (fun j => (false, (j : Int))) b b c : ℝ) • unit (⟨dim, s.tbl, bodies, nodes, [], []⟩ : Top d) G (bodyAt bodies b).pos c).sum = 0 := by
      apply List.sum_eq_zero
      intro y hy
      obtain ⟨c, hc, rfl⟩ := List.mem_map.mp hy
      rw [cov_self (CallOk_mono (le_max_left angle 0) (g2 c hc)) hinj hb]
      simp
    rw [hz]
    simp

/-! ### A tie -/

/-- Four particles on a line: two of mass 1 at 0 and 6, and masses 1 and 3 at 11 and 15. Both pairs have radius 3 about
their centres of mass. -/
noncomputable def tieBodies : List (Body 1) := [⟨fun _ => 0, 1, 1⟩, ⟨fun _ => 6, 1, 1⟩, ⟨fun _ => 11, 1, 1⟩, ⟨fun _ => 15, 3, 1⟩]

theorem line_distance (a b : ℝ) : distance (fun _ : Fin 1 => a) (fun _ => b) = |a - b| := by
  rw [distance, Finset.univ_unique, Finset.sum_singleton, Real.sqrt_mul_self_eq_abs]

theorem cofm_two (big x y m1 m2 h1 h2 c : ℝ) (hm : m1 + m2 ≠ 0) (hc : (m1 + m2) * c = m1 * x + m2 * y) :
    ∃ n : Node 1, computeCofm big [⟨fun _ => x, m1, h1⟩, ⟨fun _ => y, m2, h2⟩] [] = some n ∧ n.coords = (fun _ => c) ∧ n.mass = m1 + m2 ∧
      n.radius = max (max 0 |c - x|) |c - y| := by
  have hco : (m1 + m2)⁻¹ • (m1 • (fun _ : Fin 1 => x) + m2 • fun _ => y) = fun _ => c := by
    funext i
    simp only [Pi.smul_apply, Pi.add_apply, smul_eq_mul, ← hc]
    field_simp
  refine ⟨_, by unfold computeCofm; rw [if_neg (by simpa using hm)], ?_, ?_, ?_⟩
  · simpa using hco
  · simp
  · simp only [List.foldl, zero_add, hco, line_distance]

theorem tie_nodes (big : ℝ) {nodes : List (Node 1)}
    (h : evalLog big tieBodies [⟨2, [0, 1], []⟩, ⟨3, [2, 3], []⟩, ⟨1, [], [0, 1]⟩] [] = some nodes) :
    ∃ n0 n1 n2, nodes = [n0, n1, n2] ∧ (n0.coords = (fun _ => 3) ∧ n0.mass = 2 ∧ n0.radius = 3) ∧
      (n1.coords = (fun _ => 14) ∧ n1.mass = 4 ∧ n1.radius = 3) := by
  obtain ⟨n0, e0, c0, m0, r0⟩ := cofm_two big 0 6 1 1 1 1 3 (by norm_num) (by norm_num)
  obtain ⟨n1, e1, c1, m1, r1⟩ := cofm_two big 11 15 1 3 1 1 14 (by norm_num) (by norm_num)
  have hr0 : max (max 0 |(3 : ℝ) - 0|) |3 - 6| = 3 := by norm_num [abs_of_nonneg, abs_of_neg]
  have hr1 : max (max 0 |(14 : ℝ) - 11|) |14 - 15| = 3 := by norm_num [abs_of_nonneg, abs_of_neg]
  rw [evalLog] at h
  have a0 : ([0, 1] : List Int).mapM (at? tieBodies) = some [⟨fun _ => 0, 1, 1⟩, ⟨fun _ => 6, 1, 1⟩] := rfl
  have a1 : ([2, 3] : List Int).mapM (at? tieBodies) = some [⟨fun _ => 11, 1, 1⟩, ⟨fun _ => 15, 3, 1⟩] := rfl
  simp only [a0, Option.bind_eq_bind, Option.bind_some, List.mapM_nil, Option.pure_def, e0, evalLog, a1, e1] at h
  obtain ⟨_, -, h⟩ := Option.bind_eq_some_iff.mp h
  obtain ⟨n2, -, h⟩ := Option.bind_eq_some_iff.mp h
  obtain rfl := Option.some.inj h
  exact ⟨n0, n1, n2, rfl, ⟨c0, by rw [m0]; norm_num, by rw [r0, hr0]⟩, ⟨c1, by rw [m1]; norm_num, by rw [r1, hr1]⟩⟩

theorem tie_table : ((envOf 2 1 4 7 [[4, 5, 6, 7]] 0).bind buildTree).map (fun s =>
    (([1, 2, 3, 4, 5, 6, 7].map s.tbl, s.cofm), [1, 2, 3].map fun k => (s.tbl k).bind (daughterKeys 1 s.tbl k))) =
    some (([some ⟨2, -1, 3⟩, some ⟨0, -1, 3⟩, some ⟨1, -1, 3⟩, some ⟨-1, 0, 0⟩, some ⟨-1, 1, 0⟩, some ⟨-1, 2, 0⟩, some ⟨-1, 3, 0⟩],
      [⟨2, [0, 1], []⟩, ⟨3, [2, 3], []⟩, ⟨1, [], [0, 1]⟩]), [some [2, 3], some [4, 5], some [6, 7]]) := by
  decide +kernel

/-- The calls: the nodes are split for each other, the far node is taken as two particles. -/
theorem tie_calls {s : BuildTree.St} {nodes : List (Node 1)} {n0 n1 n2 : Node 1} (hn : nodes = [n0, n1, n2])
    (h0 : n0.coords = (fun _ => 3) ∧ n0.mass = 2 ∧ n0.radius = 3) (h1 : n1.coords = (fun _ => 14) ∧ n1.mass = 4 ∧ n1.radius = 3)
    (ht : (([1, 2, 3, 4, 5, 6, 7].map s.tbl, s.cofm), [1, 2, 3].map fun k => (s.tbl k).bind (daughterKeys 1 s.tbl k)) =
      (([some ⟨2, -1, 3⟩, some ⟨0, -1, 3⟩, some ⟨1, -1, 3⟩, some ⟨-1, 0, 0⟩, some ⟨-1, 1, 0⟩, some ⟨-1, 2, 0⟩, some ⟨-1, 3, 0⟩],
        ([⟨2, [0, 1], []⟩, ⟨3, [2, 3], []⟩, ⟨1, [], [0, 1]⟩] : List CofmCall)), [some [2, 3], some [4, 5], some [6, 7]])) (fuel : Nat) :
    ∃ p2p, loop ⟨1, s.tbl, tieBodies, nodes, [], []⟩ (1 / 2) (fuel + 4) [(1, 1)] [] [] =
      some ([.p2c 2 (false, 2), .p2c 2 (false, 3), .p2c 3 (false, 0), .p2c 3 (false, 1)], p2p) := by
  simp only [List.map_cons, List.map_nil, Prod.mk.injEq, List.cons.injEq, and_true] at ht
  obtain ⟨⟨⟨t1, t2, t3, t4, t5, t6, t7⟩, -⟩, d1, d2, d3⟩ := ht
  rw [t1] at d1; rw [t2] at d2; rw [t3] at d3
  simp only [Option.bind_some] at d1 d2 d3
  have iN : ∀ i : Int, i = 0 ∨ i = 1 ∨ i = 2 → isNode ⟨i, -1, 3⟩ = some true ∧ isEmptyNode 1 ⟨i, -1, 3⟩ = some false := by
    rintro i (rfl | rfl | rfl) <;> decide
  have iE : ∀ i : Int, i = 0 ∨ i = 1 ∨ i = 2 ∨ i = 3 → isNode ⟨-1, i, 0⟩ = some false ∧ isEmptyNode 1 ⟨-1, i, 0⟩ = some false := by
    rintro i (rfl | rfl | rfl | rfl) <;> decide
  obtain ⟨T, hT⟩ : ∃ T : Top 1, T = ⟨1, s.tbl, tieBodies, nodes, [], []⟩ := ⟨_, rfl⟩
  have hdim : T.dim = 1 := by rw [hT]
  have htbl : T.tbl = s.tbl := by rw [hT]
  have sN : ∀ i : Int, i = 0 ∨ i = 1 ∨ i = 2 → isShared 1 ⟨i, -1, 3⟩ = false := by
    rintro i (rfl | rfl | rfl) <;> decide
  have sE : ∀ i : Int, i = 0 ∨ i = 1 ∨ i = 2 ∨ i = 3 → isShared 1 ⟨-1, i, 0⟩ = false := by
    rintro i (rfl | rfl | rfl | rfl) <;> decide
  -- positions
  have q2 : place T ⟨0, -1, 3⟩ true = some (fun _ => 3, 3) := by
    rw [place, if_pos rfl, getNode, hdim, sN 0 (by simp), hT, hn]; simp [at?, h0]
  have q3 : place T ⟨1, -1, 3⟩ true = some (fun _ => 14, 3) := by
    rw [place, if_pos rfl, getNode, hdim, sN 1 (by simp), hT, hn]; simp [at?, h1]
  have q4 : place T ⟨-1, 0, 0⟩ false = some (fun _ => 0, 0) := by rw [place, if_neg (by simp), getEntity, hdim, sE 0 (by simp), hT]; simp [at?, tieBodies]
  have q5 : place T ⟨-1, 1, 0⟩ false = some (fun _ => 6, 0) := by rw [place, if_neg (by simp), getEntity, hdim, sE 1 (by simp), hT]; simp [at?, tieBodies]
  have q6 : place T ⟨-1, 2, 0⟩ false = some (fun _ => 11, 0) := by rw [place, if_neg (by simp), getEntity, hdim, sE 2 (by simp), hT]; simp [at?, tieBodies]
  have q7 : place T ⟨-1, 3, 0⟩ false = some (fun _ => 15, 0) := by rw [place, if_neg (by simp), getEntity, hdim, sE 3 (by simp), hT]; simp [at?, tieBodies]
  have r4 : entRef T ⟨-1, 0, 0⟩ = (false, 0) := by rw [entRef, hdim, sE 0 (by simp)]
  have r5 : entRef T ⟨-1, 1, 0⟩ = (false, 1) := by rw [entRef, hdim, sE 1 (by simp)]
  have r6 : entRef T ⟨-1, 2, 0⟩ = (false, 2) := by rw [entRef, hdim, sE 2 (by simp)]
  have r7 : entRef T ⟨-1, 3, 0⟩ = (false, 3) := by rw [entRef, hdim, sE 3 (by simp)]
  -- pairs of entities
  have pEE : ∀ k1 k2 (i j : Int), s.tbl k1 = some ⟨-1, i, 0⟩ → s.tbl k2 = some ⟨-1, j, 0⟩ → (i = 0 ∨ i = 1 ∨ i = 2 ∨ i = 3) →
      (j = 0 ∨ j = 1 ∨ j = 2 ∨ j = 3) → pair T (1 / 2) k1 k2 = some { p2p := [(k1, k2)] } := by
    intro k1 k2 i j g1 g2 hi hj
    rw [pair, htbl, g1, g2, hdim]
    simp [(iE i hi).1, (iE j hj).1, (iE j hj).2]
  -- a node with itself
  have pNN : ∀ k (i : Int) ds, s.tbl k = some ⟨i, -1, 3⟩ → (i = 0 ∨ i = 1 ∨ i = 2) → daughterKeys 1 s.tbl k ⟨i, -1, 3⟩ = some ds →
      pair T (1 / 2) k k = some { next := selfPairs ds } := by
    intro k i ds g1 hi hds
    rw [pair, htbl, g1, hdim]
    simp [(iN i hi).1, (iN i hi).2, hds]
  have p23 : pair T (1 / 2) 2 3 = some { next := [(2, 6), (2, 7)] } := by
    rw [pair, htbl, t2, t3, hdim]
    simp only [Option.bind_eq_bind, Option.bind_some, (iN 0 (by simp)).1, (iN 1 (by simp)).1, (iN 1 (by simp)).2]
    rw [if_neg (by simp), if_neg (by simp), if_neg (by simp), different, q2, q3]
    simp only [Option.bind_eq_bind, Option.bind_some]
    rw [if_neg (by rw [Geometry.mac, line_distance]; norm_num [abs_of_neg]), splitPair, if_neg (lt_irrefl _), hdim, htbl, d3]
    rfl
  have p32 : pair T (1 / 2) 3 2 = some { next := [(3, 4), (3, 5)] } := by
    rw [pair, htbl, t2, t3, hdim]
    simp only [Option.bind_eq_bind, Option.bind_some, (iN 0 (by simp)).1, (iN 1 (by simp)).1, (iN 0 (by simp)).2]
    rw [if_neg (by simp), if_neg (by simp), if_neg (by simp), different, q2, q3]
    simp only [Option.bind_eq_bind, Option.bind_some]
    rw [if_neg (by rw [Geometry.mac, line_distance]; norm_num [abs_of_neg]), splitPair, if_neg (lt_irrefl _), hdim, htbl, d2]
    rfl
  -- a node and an entity
  have pNE : ∀ k1 k2 (i j : Int) x y, s.tbl k1 = some ⟨i, -1, 3⟩ → s.tbl k2 = some ⟨-1, j, 0⟩ → (i = 0 ∨ i = 1 ∨ i = 2) → (j = 0 ∨ j = 1 ∨ j = 2 ∨ j = 3) →
      k1 ≠ k2 → place T ⟨i, -1, 3⟩ true = some (fun _ => x, 3) → place T ⟨-1, j, 0⟩ false = some (fun _ => y, 0) → 6 < |x - y| →
      pair T (1 / 2) k1 k2 = some { calls := [.p2c k1 (entRef T ⟨-1, j, 0⟩)] } := by
    intro k1 k2 i j x y g1 g2 hi hj hk hx hy hd
    rw [pair, htbl, g1, g2, hdim]
    simp only [Option.bind_eq_bind, Option.bind_some, (iN i hi).1, (iE j hj).1, (iE j hj).2]
    rw [if_neg (by simp), if_neg (by simp), if_neg hk, different, hx, hy]
    simp only [Option.bind_eq_bind, Option.bind_some]
    rw [if_pos (by rw [Geometry.mac, line_distance]; linarith)]
    rfl
  rw [← hT]
  refine ⟨[(4, 4), (4, 5), (5, 4), (5, 5), (6, 6), (6, 7), (7, 6), (7, 7)], ?_⟩
  rw [loop, if_neg (by simp)]
  simp only [Fmm.pass, Option.bind_eq_bind, Option.bind_some, pNN 1 2 _ t1 (by simp) d1, List.nil_append]
  rw [loop, if_neg (by simp [selfPairs])]
  simp only [selfPairs, List.flatMap_cons, List.flatMap_nil, List.append_nil, List.cons_append, List.nil_append, Fmm.pass, Option.bind_eq_bind, Option.bind_some,
    pNN 2 0 _ t2 (by simp) d2, pNN 3 1 _ t3 (by simp) d3, p23, p32]
  rw [loop, if_neg (by simp)]
  simp only [Fmm.pass, Option.bind_eq_bind, Option.bind_some, List.cons_append, List.nil_append, List.append_nil,
    pEE 4 4 0 0 t4 t4 (by simp) (by simp), pEE 4 5 0 1 t4 t5 (by simp) (by simp), pEE 5 4 1 0 t5 t4 (by simp) (by simp), pEE 5 5 1 1 t5 t5 (by simp) (by simp),
    pEE 6 6 2 2 t6 t6 (by simp) (by simp), pEE 6 7 2 3 t6 t7 (by simp) (by simp), pEE 7 6 3 2 t7 t6 (by simp) (by simp), pEE 7 7 3 3 t7 t7 (by simp) (by simp),
    pNE 2 6 0 2 3 11 t2 t6 (by simp) (by simp) (by simp) q2 q6 (by norm_num [abs_of_neg]),
    pNE 2 7 0 3 3 15 t2 t7 (by simp) (by simp) (by simp) q2 q7 (by norm_num [abs_of_neg]),
    pNE 3 4 1 0 14 0 t3 t4 (by simp) (by simp) (by simp) q3 q4 (by norm_num),
    pNE 3 5 1 1 14 6 t3 t5 (by simp) (by simp) (by simp) q3 q5 (by norm_num), r4, r5, r6, r7]
  rw [loop, if_pos rfl]

theorem tie_coords {s : BuildTree.St} {nodes : List (Node 1)} {n0 n1 n2 : Node 1} {T : Top 1} (hT : T = ⟨1, s.tbl, tieBodies, nodes, [], []⟩)
    (hn : nodes = [n0, n1, n2])
    (h0 : n0.coords = (fun _ => 3) ∧ n0.mass = 2 ∧ n0.radius = 3) (h1 : n1.coords = (fun _ => 14) ∧ n1.mass = 4 ∧ n1.radius = 3)
    (t2 : s.tbl 2 = some ⟨0, -1, 3⟩) (t3 : s.tbl 3 = some ⟨1, -1, 3⟩) :
    ncoords T 2 = (fun _ => 3) ∧ ncoords T 3 = fun _ => 14 := by
  have s0 : isShared 1 ⟨0, -1, 3⟩ = false := by decide
  have s1 : isShared 1 ⟨1, -1, 3⟩ = false := by decide
  subst hT hn
  constructor
  · rw [ncoords, nodeAt]
    simp only [t2, Option.bind_some, getNode, s0]
    simp [at?, h0]
  · rw [ncoords, nodeAt]
    simp only [t3, Option.bind_some, getNode, s1]
    simp [at?, h1]

theorem holds_two (c x : Nat) : Holds 2 1 c x ↔ x = c ∨ x / 2 = c ∨ x / 4 = c := by
  constructor
  · rintro ⟨p, hp, h⟩
    interval_cases p <;> simp_all
  · rintro (h | h | h)
    · exact ⟨0, by omega, by simpa using h⟩
    · exact ⟨1, by omega, by simpa using h⟩
    · exact ⟨2, by omega, by simpa using h⟩
theorem below_tie (c : Nat) : below 2 1 [4, 5, 6, 7] c = (Finset.range 4).filter fun j => j + 4 = c ∨ (j + 4) / 2 = c ∨ (j + 4) / 4 = c := by
  ext j
  simp only [below, Finset.mem_filter, Finset.mem_range, List.length_cons, List.length_nil]
  refine and_congr_right fun h => ?_
  have : j < 4 := h
  interval_cases j <;> simp [holds_two]

/-- Nodes of the same radius are split one-sidedly: for the sink the source is split, and the other way round when their
roles are exchanged. Then the forces do not add up to zero. -/
theorem C69_violated (big : ℝ) : ∃ E s nodes, envOf 2 1 4 7 [[4, 5, 6, 7]] 0 = some E ∧ buildTree E = some s ∧
    evalLog big tieBodies s.cofm [] = some nodes ∧ ∃ fuel₀ F,
      (∀ fuel, fuel₀ ≤ fuel → gravitationFmm ⟨1, s.tbl, tieBodies, nodes, [], []⟩ (1 / 2) 1 (fun e => e.2) fuel = some F) ∧
      ∑ a : Fin tieBodies.length, tieBodies[a].mass * F.acc (false, (a : Nat)) 0 ≠ 0 := by
  have hpw : tieBodies.Pairwise fun a b => a.pos ≠ b.pos := by
    have h : ∀ x y : ℝ, x ≠ y → (fun _ : Fin 1 => x) ≠ fun _ => y := fun x y h e => h (congrFun e 0)
    simp only [tieBodies, List.pairwise_cons, List.mem_cons, List.not_mem_nil, or_false, forall_eq_or_imp, forall_eq]
    refine ⟨⟨h _ _ (by norm_num), h _ _ (by norm_num), h _ _ (by norm_num)⟩, ⟨h _ _ (by norm_num), h _ _ (by norm_num)⟩, h _ _ (by norm_num), ?_⟩
    simp
  obtain ⟨E, s, nodes, h1, h2, h3, hcan, hB1, hT, hposB, f, calls, keys, subs, pairs, F, g1, g2, g6, hF, hfld⟩ :=
    single_field big 2 1 4 7 (by norm_num) (by norm_num) [4, 5, 6, 7] (by simp) (by decide +kernel) (by decide) tieBodies rfl
      (by simp [tieBodies]) hpw (1 / 2) 1 (fun e => e.2) (by intro i _ j _ h; simpa using h)
  refine ⟨E, s, nodes, h1, h2, h3, f, F, hF, ?_⟩
  have ht := tie_table
  rw [h1, Option.bind_some, h2, Option.map_some, Option.some.injEq] at ht
  have hcofm : s.cofm = [⟨2, [0, 1], []⟩, ⟨3, [2, 3], []⟩, ⟨1, [], [0, 1]⟩] := (Prod.mk.inj (Prod.mk.inj ht).1).2
  rw [hcofm] at h3
  obtain ⟨n0, n1, n2, hn, e0, e1⟩ := tie_nodes big h3
  obtain ⟨p2p, hloop⟩ := tie_calls hn e0 e1 ht f
  have hl : ∀ c ∈ calls, c.inLoop = true := fun c hc => callOk_inLoop (g2 c hc)
  obtain ⟨r, directs, w1, -, w3, -⟩ := traversalFmm_parts (g1 (f + 4) (by omega))
  rw [all_filter (ref := fun j => (false, (j : Int))) keys subs pairs hl] at w3
  have hcalls : calls = [.p2c 2 (false, 2), .p2c 2 (false, 3), .p2c 3 (false, 0), .p2c 3 (false, 1)] := by
    rw [w3]
    rw [hloop] at w1
    obtain rfl := Option.some.inj w1
    rfl
  have b1 : below 2 1 [4, 5, 6, 7] 1 = {0, 1, 2, 3} := by rw [below_tie]; decide
  have b2 : below 2 1 [4, 5, 6, 7] 2 = {0, 1} := by rw [below_tie]; decide
  have b3 : below 2 1 [4, 5, 6, 7] 3 = {2, 3} := by rw [below_tie]; decide
  obtain ⟨T, hTd⟩ : ∃ T : Traversal.Top 1, T = ⟨1, s.tbl, tieBodies, nodes, [], []⟩ := ⟨_, rfl⟩
  have t2 : s.tbl 2 = some ⟨0, -1, 3⟩ := by
    simp only [List.map_cons, List.map_nil, Prod.mk.injEq, List.cons.injEq, and_true] at ht
    exact ht.1.1.2.1
  have t3 : s.tbl 3 = some ⟨1, -1, 3⟩ := by
    simp only [List.map_cons, List.map_nil, Prod.mk.injEq, List.cons.injEq, and_true] at ht
    exact ht.1.1.2.2.1
  have m2 : ncoords T 2 = fun _ => 3 := (tie_coords hTd hn e0 e1 t2 t3).1
  have m3 : ncoords T 3 = fun _ => 14 := (tie_coords hTd hn e0 e1 t2 t3).2
  have hd : ∀ j : Nat, (h : j < 4) → dpos T (false, (j : Int)) = (bodyAt tieBodies j).pos := by
    intro j h
    rw [hTd, dpos]
    interval_cases j <;> simp [deref, at?, tieBodies, bodyAt]
  rw [← hTd, hcalls] at hfld
  rw [hcalls] at g6
  have c01 := g6 0 (by simp [tieBodies]) 1 (by simp [tieBodies])
  have c10 := g6 1 (by simp [tieBodies]) 0 (by simp [tieBodies])
  have c23 := g6 2 (by simp [tieBodies]) 3 (by simp [tieBodies])
  have c32 := g6 3 (by simp [tieBodies]) 2 (by simp [tieBodies])
  have c02 := g6 0 (by simp [tieBodies]) 2 (by simp [tieBodies])
  have c03 := g6 0 (by simp [tieBodies]) 3 (by simp [tieBodies])
  have c12 := g6 1 (by simp [tieBodies]) 2 (by simp [tieBodies])
  have c13 := g6 1 (by simp [tieBodies]) 3 (by simp [tieBodies])
  have c20 := g6 2 (by simp [tieBodies]) 0 (by simp [tieBodies])
  have c21 := g6 2 (by simp [tieBodies]) 1 (by simp [tieBodies])
  have c30 := g6 3 (by simp [tieBodies]) 0 (by simp [tieBodies])
  have c31 := g6 3 (by simp [tieBodies]) 1 (by simp [tieBodies])
  simp [covCall, ind, b2, b3] at c01 c10 c23 c32 c02 c03 c12 c13 c20 c21 c30 c31
  have hsum : ∀ f : Nat → ℝ × Point 1, ∑ b ∈ ({0, 1, 2, 3} : Finset Nat), f b = f 0 + f 1 + f 2 + f 3 := by
    intro f
    rw [Finset.sum_insert (by decide), Finset.sum_insert (by decide), Finset.sum_insert (by decide), Finset.sum_singleton]
    simp only [add_assoc]
  rw [b1] at hfld
  have v0 := congrArg (fun p => p.2 0) (hfld 0 (by simp))
  have v1 := congrArg (fun p => p.2 0) (hfld 1 (by simp))
  have v2 := congrArg (fun p => p.2 0) (hfld 2 (by simp))
  have v3 := congrArg (fun p => p.2 0) (hfld 3 (by simp))
  have u2 : ∀ x, (unit T 1 x (.p2c 2 (false, 2))).2 0 = 1 / 64 := by
    intro x
    rw [unit, shift, m2, show ((2 : Int)) = ((2 : Nat) : Int) from rfl, hd 2 (by norm_num)]
    simp [grav, line_distance, bodyAt, tieBodies]; norm_num [abs_of_neg]
  have u3 : ∀ x, (unit T 1 x (.p2c 2 (false, 3))).2 0 = 1 / 144 := by
    intro x
    rw [unit, shift, m2, show ((3 : Int)) = ((3 : Nat) : Int) from rfl, hd 3 (by norm_num)]
    simp [grav, line_distance, bodyAt, tieBodies]; norm_num [abs_of_neg]
  have u0 : ∀ x, (unit T 1 x (.p2c 3 (false, 0))).2 0 = -1 / 196 := by
    intro x
    rw [unit, shift, m3, show ((0 : Int)) = ((0 : Nat) : Int) from rfl, hd 0 (by norm_num)]
    simp [grav, line_distance, bodyAt, tieBodies]; norm_num
  have u1 : ∀ x, (unit T 1 x (.p2c 3 (false, 1))).2 0 = -1 / 64 := by
    intro x
    rw [unit, shift, m3, show ((1 : Int)) = ((1 : Nat) : Int) from rfl, hd 1 (by norm_num)]
    simp [grav, line_distance, bodyAt, tieBodies]; norm_num
  have hg : ∀ x y : ℝ, (grav 1 (fun _ : Fin 1 => x) (fun _ => y) 1).2 0 = -(x - y) / |x - y| ^ 3 := by
    intro x y
    simp only [grav, line_distance]; ring
  simp [hsum, covCall, ind, b2, b3, u0, u1, u2, u3, c01, c10, c23, c32, c02, c03, c12, c13, c20, c21, c30, c31, fld, bodyAt, tieBodies, hg] at v0 v1 v2 v3
  have key : ∑ a : Fin tieBodies.length, tieBodies[a].mass * F.acc (false, (a : Nat)) 0 =
      1 * F.acc (false, 0) 0 + 1 * F.acc (false, 1) 0 + 1 * F.acc (false, 2) 0 + 3 * F.acc (false, 3) 0 := by
    rw [show (∑ a : Fin tieBodies.length, tieBodies[a].mass * F.acc (false, (a : Nat)) 0) =
      ∑ a : Fin 4, tieBodies[a].mass * F.acc (false, (a : Nat)) 0 from rfl, Fin.sum_univ_four]
    rfl
  rw [key, v0, v1, v2, v3]
  norm_num [abs_of_neg]

/-! ### The hypotheses of `C69_momentum_partial` are met -/

/-- Two close particles and a distant one: two nodes, of different radii. -/
noncomputable def threeBodies : List (Body 1) := [⟨fun _ => 0, 1, 1⟩, ⟨fun _ => 1, 1, 1⟩, ⟨fun _ => 10, 1, 1⟩]

theorem below_three (c : Nat) : below 2 1 [4, 5, 6] c = (Finset.range 3).filter fun j => j + 4 = c ∨ (j + 4) / 2 = c ∨ (j + 4) / 4 = c := by
  ext j
  simp only [below, Finset.mem_filter, Finset.mem_range, List.length_cons, List.length_nil]
  refine and_congr_right fun h => ?_
  have : j < 3 := h
  interval_cases j <;> simp [holds_two]

theorem three_table : ((envOf 2 1 4 7 [[4, 5, 6]] 0).bind buildTree).map (fun s => (s.tbl 1, s.tbl 2, s.cofm)) =
    some (some ⟨1, -1, 3⟩, some ⟨0, -1, 3⟩, [⟨2, [0, 1], []⟩, ⟨1, [2], [0]⟩]) := by
  decide +kernel

example (big : ℝ) : threeBodies.length = [4, 5, 6].length ∧ (∀ b ∈ threeBodies, 0 < b.mass) ∧
    (threeBodies.Pairwise fun a b => a.pos ≠ b.pos) ∧ (∀ x ∈ [4, 5, 6], FullKey 2 1 x) ∧
    ∀ E s nodes, envOf 2 1 4 7 [[4, 5, 6]] 0 = some E → buildTree E = some s → evalLog big threeBodies s.cofm [] = some nodes →
      ∀ k1 k2 N1 N2, nodeAt ⟨1, s.tbl, threeBodies, nodes, [], []⟩ k1 = some N1 → nodeAt ⟨1, s.tbl, threeBodies, nodes, [], []⟩ k2 = some N2 →
          k1 ≠ k2 → N1.radius ≠ N2.radius := by
  have hm : ∀ b ∈ threeBodies, 0 < b.mass := by simp [threeBodies]
  have hpw : threeBodies.Pairwise fun a b => a.pos ≠ b.pos := by
    have h : ∀ x y : ℝ, x ≠ y → (fun _ : Fin 1 => x) ≠ fun _ => y := fun x y h e => h (congrFun e 0)
    simp only [threeBodies, List.pairwise_cons, List.mem_cons, List.not_mem_nil, or_false, forall_eq_or_imp, forall_eq]
    refine ⟨⟨h _ _ (by norm_num), h _ _ (by norm_num)⟩, h _ _ (by norm_num), ?_⟩
    simp
  have hf : ∀ x ∈ [4, 5, 6], FullKey 2 1 x := by decide +kernel
  refine ⟨rfl, hm, hpw, hf, ?_⟩
  intro E s nodes h1 h2 h3
  obtain ⟨E', s', nodes', h1', h2', h3', hcan, hB1, hT, -⟩ :=
    single_field big 2 1 4 7 (by norm_num) (by norm_num) [4, 5, 6] (by simp) hf (by decide) threeBodies rfl
      hm hpw (1 / 2) 1 (fun e => e.2) (by intro i _ j _ h; simpa using h)
  obtain rfl : E = E' := Option.some.inj (h1.symm.trans h1')
  obtain rfl : s = s' := Option.some.inj (h2.symm.trans h2')
  obtain rfl : nodes = nodes' := Option.some.inj (h3.symm.trans h3')
  have ht := three_table
  rw [h1, Option.bind_some, h2, Option.map_some, Option.some.injEq] at ht
  simp only [Prod.mk.injEq] at ht
  obtain ⟨t1, t2, tc⟩ := ht
  -- the first node
  have hn : ∃ n0 n1, nodes = [n0, n1] ∧ n0.radius = 1 / 2 := by
    rw [tc] at h3
    obtain ⟨n0, e0, -, -, r0⟩ := cofm_two big 0 1 1 1 1 1 (1 / 2) (by norm_num) (by norm_num)
    rw [evalLog] at h3
    have a0 : ([0, 1] : List Int).mapM (at? threeBodies) = some [⟨fun _ => 0, 1, 1⟩, ⟨fun _ => 1, 1, 1⟩] := rfl
    have a1 : ([2] : List Int).mapM (at? threeBodies) = some [⟨fun _ => 10, 1, 1⟩] := rfl
    simp only [a0, Option.bind_eq_bind, Option.bind_some, List.mapM_nil, Option.pure_def, e0, evalLog, a1] at h3
    obtain ⟨_, -, h3⟩ := Option.bind_eq_some_iff.mp h3
    obtain ⟨n1, -, h3⟩ := Option.bind_eq_some_iff.mp h3
    exact ⟨n0, n1, (Option.some.inj h3).symm, by rw [r0]; norm_num [abs_of_neg, abs_of_nonneg]⟩
  obtain ⟨n0, n1, rfl, r0⟩ := hn
  have s0 : isShared 1 ⟨0, -1, 3⟩ = false := by decide
  -- the radii
  have v2 : ∀ N, nodeAt (⟨1, s.tbl, threeBodies, [n0, n1], [], []⟩ : Top 1) 2 = some N → N.radius = 1 / 2 := by
    intro N h
    rw [nodeAt] at h
    simp only [t2, Option.bind_some, getNode, s0] at h
    simp [at?] at h
    rw [← h, r0]
  have v1 : ∀ N, nodeAt (⟨1, s.tbl, threeBodies, [n0, n1], [], []⟩ : Top 1) 1 = some N → 5 ≤ N.radius := by
    intro N h
    rw [nodeAt] at h
    rcases hT.cell 1 _ t1 with ⟨hf, -⟩ | ⟨-, ⟨N', hN', hs⟩, -⟩
    · exact absurd hf (by decide)
    simp only [t1, Option.bind_some] at h
    obtain rfl : N = N' := Option.some.inj (h.symm.trans hN')
    have g0 := hs.radius 0 ((hB1 0).mpr (by simp [threeBodies]))
    have g2 := hs.radius 2 ((hB1 2).mpr (by simp [threeBodies]))
    rw [show N.coords = fun _ => N.coords 0 from funext fun i => by rw [Subsingleton.elim i 0]] at g0 g2
    simp only [bodyAt, threeBodies, List.getD_cons_zero, List.getD_cons_succ, line_distance] at g0 g2
    have a0 := (abs_le.mp g0).2
    have a2 := (abs_le.mp g2).1
    linarith
  -- the nodes are at 1 and 2
  have vk : ∀ k N, nodeAt (⟨1, s.tbl, threeBodies, [n0, n1], [], []⟩ : Top 1) k = some N → k = 1 ∨ k = 2 := by
    intro k N h
    rw [nodeAt] at h
    obtain ⟨c, hc, hN⟩ := Option.bind_eq_some_iff.mp h
    by_cases hnode : isNode c = some true
    · rcases canon_two hcan hc hnode with h1 | ⟨x, hx, y, hy, hxy⟩
      · exact .inl h1
      · rw [below_three, Finset.mem_filter, Finset.mem_range] at hx hy
        omega
    · exfalso
      have hc1 : c.nodeIdx = -1 := by
        rcases hT.cell k c hc with ⟨hf, -⟩ | ⟨ht, -⟩
        · rw [isNode] at hf
          split_ifs at hf with h
          simpa using hf
        · exact absurd ht hnode
      rw [getNode, hc1] at hN
      simp [at?] at hN
  intro k1 k2 N1 N2 g1 g2 hk
  rcases vk k1 N1 g1 with rfl | rfl <;> rcases vk k2 N2 g2 with rfl | rfl
  · exact absurd rfl hk
  · rw [v2 N2 g2]; have := v1 N1 g1; intro e; linarith
  · rw [v2 N1 g1]; have := v1 N2 g2; intro e; linarith
  · exact absurd rfl hk

end FleCSPH
