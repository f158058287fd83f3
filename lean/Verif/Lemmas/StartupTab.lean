import Verif.Lemmas.StartupVal
/-! From the tables after `build_tree` to the state before `share_nodes_`. -/
namespace FleCSPH.Startup
open FleCSPH.Spec FleCSPH.BuildTree FleCSPH.Tree FleCSPH.HCell FleCSPH.Ghosts FleCSPH.Cofm

variable {D dim : Nat} {V : Type}

theorem flatten_lt {ranks : List (List Nat)} (h : ranks.flatten.Pairwise (· < ·)) {i j : Nat} {a b : List Nat} (ha : ranks[i]? = some a) (hb : ranks[j]? = some b) (hij : i < j) :
    ∀ x ∈ a, ∀ y ∈ b, x < y := by
  rw [List.pairwise_flatten] at h
  obtain ⟨hi, ha⟩ := List.getElem?_eq_some_iff.mp ha
  obtain ⟨hj, hb⟩ := List.getElem?_eq_some_iff.mp hb
  have := List.pairwise_iff_getElem.mp h.2 i j hi hj hij
  rw [ha, hb] at this
  exact this

theorem rank_unique {ranks : List (List Nat)} (h : ranks.flatten.Pairwise (· < ·)) {i j : Nat} {a b : List Nat} (ha : ranks[i]? = some a) (hb : ranks[j]? = some b) {x : Nat} (hxa : x ∈ a) (hxb : x ∈ b) :
    i = j := by
  rcases Nat.lt_trichotomy i j with h1 | h1 | h1
  · exact absurd (flatten_lt h ha hb h1 x hxa x hxb) (Nat.lt_irrefl _)
  · exact h1
  · exact absurd (flatten_lt h hb ha h1 x hxb x hxa) (Nat.lt_irrefl _)

theorem mem_ranks {ranks : List (List Nat)} {x : Nat} : x ∈ ranks.flatten ↔ ∃ (r : Nat) (ks : List Nat), ranks[r]? = some ks ∧ x ∈ ks := by
  rw [List.mem_flatten]
  constructor
  · rintro ⟨l, hl, hx⟩
    obtain ⟨r, hr⟩ := List.mem_iff_getElem?.mp hl
    exact ⟨r, l, hr, hx⟩
  · rintro ⟨r, ks, hr, hx⟩
    exact ⟨ks, List.mem_of_getElem? hr, hx⟩

/-- The particles of all processes. -/
structure Parts (D dim : Nat) (ranks : List (List Nat)) : Prop where
  hdim : 0 < dim
  hD : 0 < D
  ne : ∀ l ∈ ranks, l ≠ []
  full : ∀ x ∈ ranks.flatten, FullKey D dim x
  sorted : ranks.flatten.Pairwise (· < ·)

variable {ranks : List (List Nat)}

theorem Parts.fullX (P : Parts D dim ranks) : ∀ y, (· ∈ ranks.flatten) y → FullKey D dim y := P.full

theorem Parts.holder_eq (P : Parts D dim ranks) {e : List Nat} (he : Digits dim e) {r x : Nat} {ks : List Nat} (hr : ranks[r]? = some ks) (hx : x ∈ ks)
    (hl : LeafP D dim (· ∈ ranks.flatten) x e) : holder D dim ranks e = r := by
  have hxX : x ∈ ranks.flatten := mem_ranks.mpr ⟨r, ks, hr, hx⟩
  have hex : ∃ r, HasLeaf D dim ranks r e := ⟨r, ks, x, hr, hx, (leaf_path P.hdim P.fullX he hxX).mpr hl⟩
  rw [holder, dif_pos hex]
  obtain ⟨ks', x', h1, h2, h3⟩ := hex.choose_spec
  have hx'X : x' ∈ ranks.flatten := mem_ranks.mpr ⟨_, ks', h1, h2⟩
  have h4 := (leaf_path P.hdim P.fullX he hx'X).mp h3
  have : x' = x := hl.2.2.1 x' hx'X h4.2.1
  rw [this] at h2
  exact rank_unique P.sorted h1 hr h2 hx

theorem Parts.leaf_below (P : Parts D dim ranks) {k : List Nat} (hk : InnerP D dim (· ∈ ranks.flatten) k ∨ ∃ x, x ∈ ranks.flatten ∧ LeafP D dim (· ∈ ranks.flatten) x k) {x : Nat}
    (hx : x ∈ ranks.flatten) (hs : k <:+ path dim D x) : ∃ e, Digits dim e ∧ LeafP D dim (· ∈ ranks.flatten) x e ∧ k <:+ e := by
  rcases hk with h1 | ⟨y, hy, h1⟩
  · obtain ⟨e, h2, h3⟩ := exists_leafP (X := (· ∈ ranks.flatten)) P.hD P.fullX hx D k (by omega) h1 hs
    exact ⟨e, digits_suffix (path_digits _ _) h2.2.1, h2, h3⟩
  · have : x = y := h1.2.2.1 x hx hs
    subst this
    exact ⟨k, digits_suffix (path_digits _ _) hs, h1, List.suffix_rfl⟩

theorem Parts.someOf_iff (P : Parts D dim ranks) {r : Nat} {ks : List Nat} (hr : ranks[r]? = some ks) {k : List Nat}
    (hk : (globalTree D dim (· ∈ ranks.flatten) k).isSome) :
    SomeOf (globalTree D dim (· ∈ ranks.flatten)) (holder D dim ranks) r k ↔ ∃ x ∈ ks, k <:+ path dim D x := by
  constructor
  · rintro ⟨e, he, hs, ho⟩
    obtain ⟨hd, x, hx, hl⟩ := (isEnt_iff P.hdim P.fullX).mp he
    obtain ⟨r', ks', h1, h2⟩ := mem_ranks.mp hx
    rw [P.holder_eq hd h1 h2 hl] at ho
    subst ho
    rw [hr] at h1; cases h1
    exact ⟨x, h2, hs.trans hl.2.1⟩
  · rintro ⟨x, hx, hs⟩
    have hxX : x ∈ ranks.flatten := mem_ranks.mpr ⟨r, ks, hr, hx⟩
    obtain ⟨e, h1, h2, h3⟩ := P.leaf_below ((global_isSome P.hdim P.fullX).mp hk).2 hxX hs
    exact ⟨e, (isEnt_iff P.hdim P.fullX).mpr ⟨h1, x, hxX, h2⟩, h3, P.holder_eq h1 hr hx h2⟩

theorem Parts.allOf_iff (P : Parts D dim ranks) {r : Nat} {ks : List Nat} (hr : ranks[r]? = some ks) {k : List Nat}
    (hk : (globalTree D dim (· ∈ ranks.flatten) k).isSome) :
    AllOf (globalTree D dim (· ∈ ranks.flatten)) (holder D dim ranks) r k ↔ ∀ y ∈ ranks.flatten, k <:+ path dim D y → y ∈ ks := by
  constructor
  · intro h y hy hs
    obtain ⟨e, h1, h2, h3⟩ := P.leaf_below ((global_isSome P.hdim P.fullX).mp hk).2 hy hs
    have h4 := h e ((isEnt_iff P.hdim P.fullX).mpr ⟨h1, y, hy, h2⟩) h3
    obtain ⟨r', ks', h5, h6⟩ := mem_ranks.mp hy
    rw [P.holder_eq h1 h5 h6 h2] at h4
    subst h4
    rw [hr] at h5; cases h5
    exact h6
  · intro h e he hs
    obtain ⟨hd, x, hx, hl⟩ := (isEnt_iff P.hdim P.fullX).mp he
    exact P.holder_eq hd hr (h x hx (hs.trans hl.2.1)) hl

theorem Parts.flatten_ne (P : Parts D dim ranks) {r : Nat} {ks : List Nat} (hr : ranks[r]? = some ks) : ranks.flatten ≠ [] := by
  obtain ⟨x, hx⟩ := List.exists_mem_of_ne_nil ks (P.ne ks (List.mem_of_getElem? hr))
  exact List.ne_nil_of_mem (mem_ranks.mpr ⟨r, ks, hr, hx⟩)

variable {t : Tbl} {cofm : List CofmCall}

theorem Parts.tab (P : Parts D dim ranks) {r : Nat} {ks : List Nat} (hr : ranks[r]? = some ks) (h : RankTab D dim (· ∈ ranks.flatten) ks t cofm) (F : Nat → List V → List V → V) (val : Nat → V)
    {nodes : List V} (hlen : nodes.length = cofm.length) (hfill : Filled D dim (· ∈ ranks.flatten) F val cofm nodes) :
    ShareTable.Tab (globalTree D dim (· ∈ ranks.flatten)) (holder D dim ranks) (valOf D dim (· ∈ ranks.flatten) F val) r (fun _ => False) (tableOf dim r (ks.map val) nodes t) := by
  have hdim := P.hdim
  have hX := P.fullX
  have hT := global_tree P.hdim P.hD (P.flatten_ne hr) P.full
  have hksX : ∀ x ∈ ks, x ∈ ranks.flatten := fun x hx => mem_ranks.mpr ⟨r, ks, hr, hx⟩
  have hsome : ∀ k c, tableOf dim r (ks.map val) nodes t k = some c → ∃ cell, Digits dim k ∧ t (number dim k) = some cell ∧ c = cellOf dim r (ks.map val) nodes cell := by
    intro k c hc
    rw [tableOf] at hc
    split_ifs at hc with hd
    rw [code_eq, Option.map_eq_some_iff] at hc
    obtain ⟨cell, h1, h2⟩ := hc
    exact ⟨cell, fun j hj => by simpa using List.all_eq_true.mp hd j hj, h1, h2.symm⟩
  have hmem : ∀ k, (tableOf dim r (ks.map val) nodes t k).isSome ↔ Digits dim k ∧ (t (number dim k)).isSome := by
    intro k
    constructor
    · intro hk
      obtain ⟨c, hc⟩ := Option.isSome_iff_exists.mp hk
      obtain ⟨cell, h1, h2, -⟩ := hsome k c hc
      exact ⟨h1, by rw [h2]; rfl⟩
    · rintro ⟨h1, h2⟩
      rw [tableOf, if_pos (List.all_eq_true.mpr fun j hj => by simpa using h1 j hj), code_eq, Option.isSome_map]; exact h2
  have hglob : ∀ k cell, Digits dim k → t (number dim k) = some cell → (globalTree D dim (· ∈ ranks.flatten) k).isSome := by
    intro k cell hk hc
    refine (global_isSome hdim hX).mpr ⟨hk, ?_⟩
    rcases h.kind k cell hk hc with ⟨h1, -⟩ | ⟨j, x, h1, h2, -⟩
    · exact Or.inl h1
    · exact Or.inr ⟨x, hksX x (List.mem_of_getElem? h1), h2⟩
  have hsomeOf : ∀ k cell, Digits dim k → t (number dim k) = some cell → SomeOf (globalTree D dim (· ∈ ranks.flatten)) (holder D dim ranks) r k := by
    intro k cell hk hc
    rw [P.someOf_iff hr (hglob k cell hk hc)]
    exact h.own k cell hk hc
  have hleafent : ∀ k x, Digits dim k → x ∈ ks → LeafP D dim (· ∈ ranks.flatten) x k → IsEnt (globalTree D dim (· ∈ ranks.flatten)) k :=
    fun k x hk hx hl => (isEnt_iff hdim hX).mpr ⟨hk, x, hksX x hx, hl⟩
  have hset : ∀ k cell, Digits dim k → t (number dim k) = some cell →
      (ShareTable.unset (cellOf dim r (ks.map val) nodes cell) = false ↔ Single (globalTree D dim (· ∈ ranks.flatten)) (holder D dim ranks) k) := by
    intro k cell hk hc
    rcases h.kind k cell hk hc with ⟨h1, h2⟩ | ⟨j, x, h1, h2, h3, h4⟩
    · have h5 : ShareTable.unset (cellOf dim r (ks.map val) nodes cell) = false ↔ cell.nodeIdx ≠ -1 := by
        simp [ShareTable.unset, cellOf, h2]
      rw [h5, h.node k cell hk hc, ← P.allOf_iff hr (hglob k cell hk hc)]
      constructor
      · exact fun h6 => ⟨r, h6.2⟩
      · rintro ⟨s, hs⟩
        have := hs.eq (hsomeOf k cell hk hc)
        subst this
        exact ⟨h1, hs⟩
    · constructor
      · intro _
        exact ⟨_, ent_allOf hT (hleafent k x hk (List.mem_of_getElem? h1) h2)⟩
      · intro _
        simp [ShareTable.unset, cellOf, h3]
  constructor
  · exact fun l hl => hl.elim
  · intro k
    rw [hmem]
    constructor
    · rintro ⟨h1, h2⟩
      obtain ⟨cell, hc⟩ := Option.isSome_iff_exists.mp h2
      exact Or.inl (hsomeOf k cell h1 hc)
    · rintro (h1 | ⟨l, h1, -⟩)
      · have hk := h1.isSome hT
        obtain ⟨x, hx, hs⟩ := (P.someOf_iff hr hk).mp h1
        obtain ⟨hd, h2⟩ := (global_isSome hdim hX).mp hk
        refine ⟨hd, ?_⟩
        rcases h2 with h2 | ⟨y, hy, h2⟩
        · exact h.inner k x h2 hx hs
        · have : x = y := h2.2.2.1 x (hksX x hx) hs
          subst this
          exact h.leaf k x h2 hx
      · exact h1.elim
  · intro k c hc
    obtain ⟨cell, hk, hcell, rfl⟩ := hsome k c hc
    obtain ⟨g, hg⟩ := Option.isSome_iff_exists.mp (hglob k cell hk hcell)
    refine ⟨g, hg, ?_⟩
    have hgs := global_some hdim hX hg
    rcases h.kind k cell hk hcell with ⟨h1, h2⟩ | ⟨j, x, h1, h2, h3, h4⟩
    · cases hge : g.ent with
      | false => simp [cellOf, h2]
      | true =>
        obtain ⟨x, -, hx⟩ := hgs.2.2.1 hge
        exact (innerP_not_leafP h1 hx).elim
    · cases hge : g.ent with
      | true => simp [cellOf, h3]
      | false => exact (innerP_not_leafP (hgs.2.1 hge) h2).elim
  · intro k c hc
    obtain ⟨cell, hk, hcell, rfl⟩ := hsome k c hc
    exact hset k cell hk hcell
  · intro k c hc he
    obtain ⟨cell, hk, hcell, rfl⟩ := hsome k c hc
    rcases h.kind k cell hk hcell with ⟨h1, h2⟩ | ⟨j, x, h1, h2, h3, h4⟩
    · simp [cellOf, h2] at he
    · simp [cellOf, h4]
  · intro k c j hc
    obtain ⟨cell, hk, hcell, rfl⟩ := hsome k c hc
    rw [hmem]
    simp only [cellOf, Finset.mem_filter, Finset.mem_range]
    constructor
    · rintro ⟨h1, h2⟩
      refine ⟨?_, (h.child k cell j hcell h1).mp h2⟩
      intro i hi
      rcases List.mem_cons.mp hi with rfl | hi
      · exact h1
      · exact hk i hi
    · rintro ⟨h1, h2⟩
      have hj := h1 j List.mem_cons_self
      exact ⟨hj, (h.child k cell j hcell hj).mpr h2⟩
  · intro k c hc
    obtain ⟨cell, hk, hcell, rfl⟩ := hsome k c hc
    exact ⟨hsomeOf k cell hk hcell, fun _ => rfl⟩
  · intro k c hc hsing
    obtain ⟨cell, hk, hcell, rfl⟩ := hsome k c hc
    have hun := (hset k cell hk hcell).mpr hsing
    by_cases hn : cell.nodeIdx = -1
    · rcases h.kind k cell hk hcell with ⟨h1, h2⟩ | ⟨j, x, h1, h2, h3, h4⟩
      · simp [ShareTable.unset, cellOf, h2, hn] at hun
      · have e1 : (cellOf dim r (ks.map val) nodes cell).data = at? (ks.map val) cell.entityIdx := by simp [cellOf, hn]
        rw [e1, h3, at?, if_pos (by omega), Int.toNat_natCast, List.getElem?_map, h1, valOf_leaf F val (hksX x (List.mem_of_getElem? h1)) h2]; rfl
    · have e1 : (cellOf dim r (ks.map val) nodes cell).data = at? nodes cell.nodeIdx := by simp [cellOf, hn]
      obtain ⟨m, call, h1, h2, h3⟩ := h.log.idx _ _ hcell hn
      rw [e1, h2, at?, if_pos (by omega), Int.toNat_natCast]
      exact hfill m call k (by rw [hlen]; exact (List.getElem?_eq_some_iff.mp h1).1) h1 hk h3.symm
  · intro k c hc _
    obtain ⟨cell, hk, hcell, rfl⟩ := hsome k c hc
    exact ⟨fun _ => rfl, fun _ => ty_shared (h.ty _ _ hcell)⟩

/-! ### All processes -/

theorem env_bounds {E : Env} {mn mx r : Nat} (h : envOf D dim mn mx ranks r = some E) : lowBound mn ranks r = some E.lobound ∧ highBound mx ranks r = some E.hibound := by
  rw [envOf] at h
  simp only [Option.bind_eq_bind, Option.bind_eq_some_iff] at h
  obtain ⟨es, -, lo, h1, hi, h2, h3⟩ := h
  cases h3
  exact ⟨h1, h2⟩

theorem full_bounds {x : Nat} (h : FullKey D dim x) : 2 ^ (D * dim) ≤ x ∧ x ≤ 2 * 2 ^ (D * dim) - 1 := by
  rw [FullKey] at h
  have hpos : 0 < 2 ^ (D * dim) := Nat.pow_pos (by decide)
  have h1 := Nat.div_add_mod x (2 ^ (D * dim))
  have h2 := Nat.mod_lt x hpos
  rw [h] at h1
  omega

/-- One process. -/
theorem Parts.proc (P : Parts D dim ranks) {r : Nat} (hr : r < ranks.length) (F : Nat → List V → List V → V) (val : Nat → V) :
    ∃ me, procOf D dim F val ranks r = some me ∧
      ShareTable.Tab (globalTree D dim (· ∈ ranks.flatten)) (holder D dim ranks) (valOf D dim (· ∈ ranks.flatten) F val) r (fun _ => False) me.tbl ∧
      lowBound (2 ^ (D * dim)) ranks r = some me.lo ∧ highBound (2 * 2 ^ (D * dim) - 1) ranks r = some me.hi := by
  obtain ⟨ks, hks⟩ : ∃ ks, ranks[r]? = some ks := ⟨_, List.getElem?_eq_getElem hr⟩
  obtain ⟨E, hEe, rfl, rfl, rfl, hE, hK, hA⟩ := env_ok (minKey := 2 ^ (D * dim)) (maxKey := 2 * 2 ^ (D * dim) - 1) P.hdim P.hD ranks P.ne P.full P.sorted r ks hks
  obtain ⟨s, hs, h⟩ := rankTab hE hK hA P.full (P.ne _ (List.mem_of_getElem? hks))
  obtain ⟨nodes, h1, h2, h3⟩ := evalCalls_spec P.hdim P.fullX hA.own h F val s.cofm [] [] rfl rfl (by intro m call k hm; simp at hm)
  have hb := env_bounds hEe
  refine ⟨{ tbl := tableOf E.dim r (E.ents.map val) nodes s.tbl, lo := E.lobound, hi := E.hibound }, by rw [procOf, hEe]; simp only [hs, h1], ?_, hb.1, hb.2⟩
  exact P.tab hks h F val h2 h3

theorem Parts.bounds (P : Parts D dim ranks) {lo hi : Nat → Nat} (hpos : 0 < ranks.length) (hlo : ∀ r < ranks.length, lowBound (2 ^ (D * dim)) ranks r = some (lo r))
    (hhi : ∀ r < ranks.length, highBound (2 * 2 ^ (D * dim) - 1) ranks r = some (hi r)) : ShareTable.Bounds D dim ranks.length lo hi := by
  constructor
  · have := hlo 0 hpos
    rw [lowBound, if_pos rfl] at this
    exact (Option.some.inj this).symm
  · have := hhi (ranks.length - 1) (by omega)
    rw [highBound, if_pos (by omega)] at this
    exact (Option.some.inj this).symm
  · intro q hq h2
    have h1 := hlo q hq
    rw [lowBound, if_neg (by omega), List.getElem?_eq_getElem (by omega), Option.bind_some] at h1
    have hm := List.mem_of_getLast? h1
    obtain ⟨x, hx⟩ := List.exists_mem_of_ne_nil (ranks[q - 2]'(by omega)) (P.ne _ (List.getElem_mem _))
    have hlt := flatten_lt P.sorted (List.getElem?_eq_getElem (l := ranks) (i := q - 2) (by omega)) (List.getElem?_eq_getElem (l := ranks) (i := q - 1) (by omega)) (by omega) x hx _ hm
    have := (full_bounds (P.full x (mem_ranks.mpr ⟨q - 2, _, List.getElem?_eq_getElem (by omega), hx⟩))).1
    omega
  · intro q hq h2
    have h1 := hhi q hq
    rw [highBound, if_neg (by omega), List.getElem?_eq_getElem (by omega), Option.bind_some] at h1
    have hm := List.mem_of_head? h1
    obtain ⟨x, hx⟩ := List.exists_mem_of_ne_nil (ranks[q + 2]'(by omega)) (P.ne _ (List.getElem_mem _))
    have hlt := flatten_lt P.sorted (List.getElem?_eq_getElem (l := ranks) (i := q + 1) (by omega)) (List.getElem?_eq_getElem (l := ranks) (i := q + 2) (by omega)) (by omega) _ hm x hx
    have := (full_bounds (P.full x (mem_ranks.mpr ⟨q + 2, _, List.getElem?_eq_getElem (by omega), hx⟩))).2
    omega

/-- `build_tree` on `2^m` processes. -/
theorem Parts.hasOwn (P : Parts D dim ranks) {r : Nat} (hr : r < ranks.length) : ∃ e, IsEnt (globalTree D dim (· ∈ ranks.flatten)) e ∧ holder D dim ranks e = r := by
  obtain ⟨ks, hks⟩ : ∃ ks, ranks[r]? = some ks := ⟨_, List.getElem?_eq_getElem hr⟩
  obtain ⟨x, hx⟩ := List.exists_mem_of_ne_nil ks (P.ne ks (List.mem_of_getElem? hks))
  have hxX : x ∈ ranks.flatten := mem_ranks.mpr ⟨r, ks, hks, hx⟩
  obtain ⟨e, h1, h2, -⟩ := P.leaf_below (Or.inl (Or.inl rfl)) hxX List.nil_suffix
  exact ⟨e, (isEnt_iff P.hdim P.fullX).mpr ⟨h1, x, hxX, h2⟩, P.holder_eq h1 hks hx h2⟩

theorem Parts.holder_lt (P : Parts D dim ranks) {e : List Nat} (he : IsEnt (globalTree D dim (· ∈ ranks.flatten)) e) : holder D dim ranks e < ranks.length := by
  obtain ⟨hd, x, hx, hl⟩ := (isEnt_iff P.hdim P.fullX).mp he
  obtain ⟨r, ks, h1, h2⟩ := mem_ranks.mp hx
  rw [P.holder_eq hd h1 h2 hl]
  exact (List.getElem?_eq_some_iff.mp h1).1

theorem Parts.leafOf (P : Parts D dim ranks) {r x : Nat} {ks : List Nat} (hr : ranks[r]? = some ks) (hx : x ∈ ks) :
    ∃ e, Digits dim e ∧ IsEnt (globalTree D dim (· ∈ ranks.flatten)) e ∧ LeafCell D dim (· ∈ ranks.flatten) x (number dim e) ∧ holder D dim ranks e = r := by
  have hxX : x ∈ ranks.flatten := mem_ranks.mpr ⟨r, ks, hr, hx⟩
  obtain ⟨e, h1, h2, -⟩ := P.leaf_below (Or.inl (Or.inl rfl)) hxX List.nil_suffix
  exact ⟨e, h1, (isEnt_iff P.hdim P.fullX).mpr ⟨h1, x, hxX, h2⟩, (leaf_path P.hdim P.fullX h1 hxX).mpr h2, P.holder_eq h1 hr hx h2⟩

theorem ent_true {X : Nat → Prop} (hdim : 0 < dim) (hX : ∀ y, X y → FullKey D dim y) {k : List Nat} (hk : Digits dim k) :
    (globalTree D dim X k).map GCell.ent = some true ↔ ∃ x, X x ∧ LeafCell D dim X x (number dim k) := by
  constructor
  · intro h
    obtain ⟨g, hg, he⟩ := Option.map_eq_some_iff.mp h
    obtain ⟨x, hx, hl⟩ := (global_some hdim hX hg).2.2.1 he
    exact ⟨x, hx, (leaf_path hdim hX hk hx).mpr hl⟩
  · rintro ⟨x, hx, hl⟩
    obtain ⟨g, hg, he⟩ := (isEnt_iff hdim hX).mpr ⟨hk, x, hx, (leaf_path hdim hX hk hx).mp hl⟩
    rw [hg, Option.map_some, he]

theorem ent_false {X : Nat → Prop} (hdim : 0 < dim) (hX : ∀ y, X y → FullKey D dim y) {k : List Nat} (hk : Digits dim k) :
    (globalTree D dim X k).map GCell.ent = some false ↔ InnerCell D dim X (number dim k) := by
  constructor
  · intro h
    obtain ⟨g, hg, he⟩ := Option.map_eq_some_iff.mp h
    exact (inner_path hdim hX hk).mpr ((global_some hdim hX hg).2.1 he)
  · intro h
    have h := (inner_path hdim hX hk).mp h
    obtain ⟨g, hg⟩ := Option.isSome_iff_exists.mp ((global_isSome hdim hX).mpr ⟨hk, Or.inl h⟩)
    rw [hg, Option.map_some]
    cases he : g.ent with
    | false => rfl
    | true =>
      obtain ⟨x, hx, hl⟩ := (global_some hdim hX hg).2.2.1 he
      exact (innerP_not_leafP h hl).elim

theorem treeData {X : Nat → Prop} (hdim : 0 < dim) (hX : ∀ y, X y → FullKey D dim y) (F : Nat → List V → List V → V) (val : Nat → V) : TreeData D dim X F val (valOf D dim X F val) where
  leaf := fun _ _ hk hx h => valOf_leaf F val hx ((leaf_path hdim hX hk hx).mp h)
  inner := by
    intro k hk h
    have hd : ∀ j ∈ List.range (2 ^ dim), Digits dim (j :: k) := by
      intro j hj i hi
      rcases List.mem_cons.mp hi with rfl | hi
      · exact List.mem_range.mp hj
      · exact hk i hi
    rw [valOf_inner F val ((inner_path hdim hX hk).mp h)]
    congr 2
    · exact List.filter_congr fun j hj => decide_eq_decide.mpr (ent_true hdim hX (hd j hj))
    · exact List.filter_congr fun j hj => decide_eq_decide.mpr (ent_false hdim hX (hd j hj))

theorem Parts.startup (P : Parts D dim ranks) {m : Nat} (hm : ranks.length = 2 ^ m) (F : Nat → List V → List V → V) (val : Nat → V) :
    ∃ s, startup D dim F val ranks = some s ∧ s.length = 2 ^ m ∧
      ∀ r < 2 ^ m, ∃ me, s[r]? = some me ∧ ShareTable.Final (globalTree D dim (· ∈ ranks.flatten)) (holder D dim ranks) (valOf D dim (· ∈ ranks.flatten) F val) r me.tbl := by
  have hpos : 0 < ranks.length := by rw [hm]; exact Nat.pow_pos (by decide)
  obtain ⟨s0, hs0, hl0, hp0⟩ := ShareTable.mapM_range ranks.length (procOf D dim F val ranks)
    (fun r (me : ShareTable.Proc V) => ShareTable.Tab (globalTree D dim (· ∈ ranks.flatten)) (holder D dim ranks) (valOf D dim (· ∈ ranks.flatten) F val) r (fun _ => False) me.tbl ∧
      lowBound (2 ^ (D * dim)) ranks r = some me.lo ∧ highBound (2 * 2 ^ (D * dim) - 1) ranks r = some me.hi)
    (fun r hr => P.proc hr F val)
  rw [Startup.startup, hs0]
  simp only []
  have hr0 : ranks[0]? = some ranks[0] := List.getElem?_eq_getElem hpos
  refine ShareTable.shareNodes_final (C := { D := D, dim := dim, f := fun k => F (ShareTable.code dim k) }) (lo0 := fun r => (lowBound (2 ^ (D * dim)) ranks r).getD 0)
    (hi0 := fun r => (highBound (2 * 2 ^ (D * dim) - 1) ranks r).getD 0) P.hdim (global_tree P.hdim P.hD (P.flatten_ne hr0) P.full) (global_depth P.hdim P.full) (valOf_ok P.hdim P.fullX F val) ?_ ?_ ?_
  · intro r hr
    exact P.hasOwn (by omega)
  · intro e he
    rw [← hm]
    exact P.holder_lt he
  · refine ⟨by omega, ?_, ?_⟩
    · intro r hr
      obtain ⟨me, hme, h1, h2, h3⟩ := hp0 r (by omega)
      exact ⟨me, hme, h1, by rw [h2]; rfl, by rw [h3]; rfl⟩
    · rw [← hm]
      apply P.bounds hpos
      · intro r hr
        obtain ⟨me, hme, h1, h2, h3⟩ := hp0 r hr
        rw [h2]; rfl
      · intro r hr
        obtain ⟨me, hme, h1, h2, h3⟩ := hp0 r hr
        rw [h3]; rfl

end FleCSPH.Startup
