import Verif.Lemmas.TyOk
import Verif.Lemmas.Traversal
/-! The tree built by a single process is well-formed. -/
namespace FleCSPH.Traversal
open FleCSPH.HCell FleCSPH.BuildTree FleCSPH.Cofm FleCSPH.Geometry FleCSPH.Spec FleCSPH.Tree

variable {d : Nat}

/-- The keys of the cells present directly below `c`. -/
def childKeys (dim : Nat) (t : Tbl) (c : Nat) : List Nat :=
  ((List.range (2 ^ dim)).filter fun b => (t (c * 2 ^ dim + b)).isSome).map fun b => c * 2 ^ dim + b

theorem daughterKeys_eq {dim : Nat} {t : Tbl} (hok : ChildOk dim t) {c : Nat} {n : Cell} (hc : t c = some n) :
    daughterKeys dim t c n = some (childKeys dim t c) := by
  rw [daughterKeys, childKeys, Nat.one_shiftLeft]
  have : ∀ l : List Nat, (∀ b ∈ l, b < 2 ^ dim) →
      ((l.filter fun j => getChild n j).mapM fun j => (t ((c <<< dim) ||| j)).map fun _ => (c <<< dim) ||| j) =
        some ((l.filter fun b => (t (c * 2 ^ dim + b)).isSome).map fun b => c * 2 ^ dim + b) := by
    intro l
    induction l with
    | nil => intro _; rfl
    | cons b l ih =>
      intro hl
      have hb := hl b List.mem_cons_self
      have ih := ih (fun b hb => hl b (List.mem_cons_of_mem _ hb))
      have hch := hok c n b hc hb
      rw [List.filter_cons, List.filter_cons]
      by_cases hg : getChild n b = true
      · rw [if_pos hg, if_pos (hch.mp hg)]
        obtain ⟨e, he⟩ := Option.isSome_iff_exists.mp (hch.mp hg)
        rw [List.mapM_cons, child_or _ _ _ hb, he, ih]; rfl
      · rw [if_neg hg, if_neg (fun h => hg (hch.mpr h)), ih]
  exact this _ (fun b hb => List.mem_range.mp hb)

theorem mem_childKeys {dim : Nat} {t : Tbl} {c e : Nat} :
    e ∈ childKeys dim t c ↔ ∃ b < 2 ^ dim, e = c * 2 ^ dim + b ∧ ∃ cell, t e = some cell := by
  rw [childKeys, List.mem_map]
  constructor
  · rintro ⟨b, hb, rfl⟩
    obtain ⟨h1, h2⟩ := List.mem_filter.mp hb
    exact ⟨b, List.mem_range.mp h1, rfl, Option.isSome_iff_exists.mp h2⟩
  · rintro ⟨b, hb, rfl, h⟩
    exact ⟨b, List.mem_filter.mpr ⟨List.mem_range.mpr hb, Option.isSome_iff_exists.mpr h⟩, rfl⟩

theorem childKeys_nodup {dim : Nat} {t : Tbl} {c : Nat} : (childKeys dim t c).Nodup := by
  rw [childKeys]
  apply List.Nodup.map
  · intro a b h
    dsimp only at h
    omega
  · exact List.Nodup.filter _ List.nodup_range

theorem below_leaf {D dim : Nat} {X : Nat → Prop} {ks : List Nat} (hdim : 0 < dim) (hfull : ∀ x ∈ ks, FullKey D dim x)
    (hsorted : ks.Pairwise (· < ·)) (hX : ∀ x ∈ ks, X x) {j y q : Nat} (h1 : ks[j]? = some y) (h2 : LeafAt D dim X y q) :
    below D dim ks (A dim q y) = {j} := by
  have hq := h2.1
  ext i
  rw [Finset.mem_singleton, mem_below]
  constructor
  · rintro ⟨x, hx, hH⟩
    have hxm := List.mem_of_getElem? hx
    rw [H_iff hdim (hfull y (List.mem_of_getElem? h1)) (hfull x hxm) (by omega)] at hH
    have := h2.2.1 x (hX x hxm) hH
    subst this
    exact pairwise_idx hsorted hx h1
  · rintro rfl
    exact ⟨y, h1, q, by omega, rfl⟩

/-- A particle held by a node is held by one of the cells below it. -/
theorem below_cover {D dim : Nat} {X : Nat → Prop} {ks : List Nat} {t : Tbl} (hdim : 0 < dim) (hD : 0 < D)
    (hXf : ∀ y, X y → FullKey D dim y) (hX : ∀ x ∈ ks, X x) (hcan : Canon D dim X ks t)
    {c : Nat} (hN : Tree.Node D dim X c) (j : Nat) :
    j ∈ below D dim ks c ↔ ∃ e ∈ childKeys dim t c, j ∈ below D dim ks e := by
  have hcpos := node_pos hXf hN
  obtain ⟨p, hp, hlev⟩ := node_level hdim hD hXf hN
  constructor
  · intro hj
    obtain ⟨x, hx, hH⟩ := mem_below.mp hj
    have hxm := List.mem_of_getElem? hx
    have hfx := hXf x (hX x hxm)
    have hA := hlev x hfx hH
    have hb : A dim p x % 2 ^ dim < 2 ^ dim := Nat.mod_lt _ (Nat.pow_pos (by decide))
    have he : A dim p x = c * 2 ^ dim + A dim p x % 2 ^ dim := by rw [← hA]; exact A_digit dim p x
    refine ⟨A dim p x, mem_childKeys.mpr ⟨_, hb, he, ?_⟩, mem_below.mpr ⟨x, hx, p, by omega, rfl⟩⟩
    by_cases hother : ∃ y, X y ∧ y ≠ x ∧ A dim p y = A dim p x
    · obtain ⟨y, hy, hyx, hye⟩ := hother
      obtain ⟨cell', h3, -⟩ := hcan.node (A dim p x) (Or.inr ⟨y, x, hy, hX x hxm, hyx, p, by omega, hye, rfl⟩)
      exact ⟨cell', h3⟩
    · have hl : LeafAt D dim X x p := by
        refine ⟨by omega, ?_, ?_⟩
        · intro y hy he
          apply Classical.byContradiction
          intro hyx
          exact hother ⟨y, hy, hyx, he⟩
        · rcases hN with h3 | ⟨a, a', ha, ha', haa, r, hr, h3, h4⟩
          · left
            exact (A_eq_one hdim hfx hp).mp (hA.trans h3)
          · right
            have hrq := level_unique hdim (hXf a ha) hfx hr hp (h3.trans hA.symm)
            subst hrq
            by_cases hax : a = x
            · exact ⟨a', ha', fun e => haa (hax.trans e.symm), h4.trans hA.symm⟩
            · exact ⟨a, ha, hax, h3.trans hA.symm⟩
      obtain ⟨cell', h3, -⟩ := hcan.leaf j x p hx hl
      exact ⟨cell', h3⟩
  · rintro ⟨e, he, hj⟩
    obtain ⟨b, hb, rfl, -⟩ := mem_childKeys.mp he
    obtain ⟨x, hx, hH⟩ := mem_below.mp hj
    obtain ⟨q, hq, -, h2⟩ := H_parent hdim (hXf x (hX x (List.mem_of_getElem? hx))) hcpos hb hH
    exact mem_below.mpr ⟨x, hx, q + 1, hq, h2⟩

theorem below_disj {D dim : Nat} {ks : List Nat} (hdim : 0 < dim) (hfull : ∀ x ∈ ks, FullKey D dim x) {t : Tbl} {c : Nat} (hc : 0 < c) :
    ∀ e ∈ childKeys dim t c, ∀ e' ∈ childKeys dim t c, e ≠ e' → ∀ j, j ∈ below D dim ks e → j ∉ below D dim ks e' := by
  intro e he e' he' hne j hj hj'
  obtain ⟨b, hb, rfl, -⟩ := mem_childKeys.mp he
  obtain ⟨b', hb', rfl, -⟩ := mem_childKeys.mp he'
  obtain ⟨x, hx, hH⟩ := mem_below.mp hj
  obtain ⟨x', hx', hH'⟩ := mem_below.mp hj'
  rw [hx] at hx'
  cases hx'
  have hfx := hfull x (List.mem_of_getElem? hx)
  obtain ⟨q, hq, h1, h2⟩ := H_parent hdim hfx hc hb hH
  obtain ⟨q', hq', h1', h2'⟩ := H_parent hdim hfx hc hb' hH'
  have := level_unique hdim hfx hfx hq hq' (h2.trans h2'.symm)
  have : q = q' := by omega
  subst this
  exact hne (h1.symm.trans h1')

/-- Every cell of the table is the cell of some particle. -/
theorem cell_lt {D dim : Nat} {X : Nat → Prop} {ks : List Nat} {t : Tbl} (hXf : ∀ y, X y → FullKey D dim y)
    (hX : ∀ x ∈ ks, X x) (hcan : Canon D dim X ks t) {c : Nat} {cell : Cell} (h : t c = some cell) :
    0 < c ∧ c < 2 ^ (D * dim + 1) := by
  have key : ∀ {p x}, FullKey D dim x → p ≤ D → 0 < A dim p x ∧ A dim p x < 2 ^ (D * dim + 1) := by
    intro p x hx hp
    refine ⟨A_pos hx hp, ?_⟩
    have h1 : x < 2 ^ (D * dim + 1) := by
      rw [FullKey] at hx
      have := Nat.lt_mul_div_succ x (Nat.pow_pos (n := D * dim) (by decide : 0 < 2))
      rw [hx] at this
      rw [Nat.pow_succ]; omega
    exact lt_of_le_of_lt (Nat.div_le_self _ _) h1
  rcases hcan.some_ c cell h with ⟨h1, -⟩ | ⟨j, y, p, hj, hl, rfl, -, -⟩
  · rcases h1 with rfl | ⟨x, _, hx, -, -, p, hp, rfl, -⟩
    · exact ⟨by decide, Nat.one_lt_two_pow (by omega)⟩
    · exact key (hXf x hx) hp
  · exact key (hXf y (hX y (List.mem_of_getElem? hj))) (by have := hl.1; omega)

/-- The state after `build_tree` and `compute_cofm` on a single process. -/
theorem single_wf (big : ℝ) (D dim minKey maxKey : Nat) (hdim : 0 < dim) (hD : 0 < D) (ks : List Nat) (hne : ks ≠ [])
    (hfull : ∀ x ∈ ks, FullKey D dim x) (hsorted : ks.Pairwise (· < ·))
    (bodies : List (Body d)) (hlen : bodies.length = ks.length) (hmass : ∀ b ∈ bodies, 0 < b.mass) :
    ∃ E s nodes, envOf D dim minKey maxKey [ks] 0 = some E ∧ buildTree E = some s ∧
      evalLog big bodies s.cofm [] = some nodes ∧
      TreeWF ⟨dim, s.tbl, bodies, nodes, [], []⟩ (fun k => 2 ^ (D * dim + 1) - k) (below D dim ks) (bodyAt bodies)
        (fun j => (false, (j : Int))) ∧
      Complete (⟨dim, s.tbl, bodies, nodes, [], []⟩ : Top d) ∧ (∀ j, j ∈ below D dim ks 1 ↔ j < ks.length) ∧
      TyOk dim s.tbl ∧ Canon D dim (· ∈ ks) ks s.tbl ∧
      ∀ k c N, s.tbl k = some c → c.nodeIdx ≠ -1 → at? nodes c.nodeIdx = some N → BoxTight big (bodyAt bodies) (below D dim ks k) N := by
  obtain ⟨E, hEe, hED, hEd, hents, hE, hK, hA⟩ := env_ok (minKey := minKey) (maxKey := maxKey) hdim hD [ks]
    (by simpa using hne) (by simpa using hfull) (by simpa using hsorted) 0 ks rfl
  have hks : E.ents ≠ [] := by rw [hents]; exact hne
  obtain ⟨s, hs, hcan, hlog, hfin⟩ := build_fin E hE hK hks
  have hfl : [ks].flatten = ks := by simp
  rw [hfl] at hA
  have h0 : E.iam0 = true ∧ E.iamlast = true := by
    rw [envOf] at hEe
    simp [lowBound, highBound] at hEe
    rw [← hEe]; simp
  have hkn : Known E = (· ∈ ks) := by
    funext y; rw [Known, hents, h0.1, h0.2]; simp
  obtain ⟨nodes, h1, h2, h3⟩ := evalLog_spec big hE hK hks hcan hlog hfin
    (fun y hy => by rw [hED, hEd]; exact hfull y (known_sub hA y hy)) bodies (by rw [hlen, hents])
    hmass s.cofm [] [] rfl rfl (by intro m hm; simp at hm)
  have hty : TyOk dim s.tbl := by have := build_ty hs; rwa [hEd] at this
  rw [hkn, hED, hEd] at hfin
  rw [hkn, hED, hEd, hents] at hcan
  rw [hEd] at hlog
  have hXX : ∀ x ∈ ks, x ∈ ks := fun x h => h
  have hbody : ∀ (j x : Nat), ks[j]? = some x → at? bodies (j : Int) = some (bodyAt bodies j) := by
    intro j x hj
    have h1 := (List.getElem?_eq_some_iff.mp hj).1
    rw [at?, if_pos (by omega), Int.toNat_natCast, bodyAt, List.getD_eq_getElem?_getD, List.getElem?_eq_getElem (by omega)]; rfl
  have hroot : ∀ j, j ∈ below D dim ks 1 ↔ j < ks.length := by
    intro j
    rw [mem_below]
    constructor
    · rintro ⟨x, hx, -⟩; exact (List.getElem?_eq_some_iff.mp hx).1
    · intro hj
      exact ⟨ks[j], List.getElem?_eq_getElem hj, D, le_refl _, hfull _ (List.getElem_mem hj)⟩
  have hex : ∀ k, Tree.Node D dim (· ∈ ks) k → ∃ j, j ∈ below D dim ks k := by
    intro k hN
    rcases hN with rfl | ⟨x, _, hx, -, -, p, hp, hpx, -⟩
    · exact ⟨0, (hroot 0).mpr (List.length_pos_of_ne_nil hne)⟩
    · obtain ⟨j, hj⟩ := List.mem_iff_getElem?.mp hx
      exact ⟨j, mem_below.mpr ⟨x, hj, p, hp, hpx⟩⟩
  -- a node of the table
  have hnode : ∀ k c, s.tbl k = some c → c.nodeIdx ≠ -1 → Tree.Node D dim (· ∈ ks) k ∧ isEmptyNode dim c = some false ∧
      Split (⟨dim, s.tbl, bodies, nodes, [], []⟩ : Top d) (fun k => 2 ^ (D * dim + 1) - k) (below D dim ks) k (childKeys dim s.tbl k) ∧
      ∃ N, at? nodes c.nodeIdx = some N ∧ Summarises (bodyAt bodies) (below D dim ks k) N ∧
        BoxTight big (bodyAt bodies) (below D dim ks k) N := by
    intro k c hk hn
    have hN := ((hfin k c hk).mp hn).1
    have hkpos := node_pos hfull hN
    have hcover := below_cover hdim hD hfull hXX hcan hN
    have hsplit : Split (⟨dim, s.tbl, bodies, nodes, [], []⟩ : Top d) (fun k => 2 ^ (D * dim + 1) - k) (below D dim ks) k
        (childKeys dim s.tbl k) := by
      refine ⟨childKeys_nodup, ?_, ?_, hcover, below_disj hdim hfull hkpos⟩
      · intro e he
        obtain ⟨b, -, -, h⟩ := mem_childKeys.mp he
        exact h
      · intro e he
        obtain ⟨b, hb, rfl, cell, h⟩ := mem_childKeys.mp he
        have h5 := (cell_lt hfull hXX hcan h).2
        have h6 : k < k * 2 ^ dim + b := by
          have : 2 ≤ 2 ^ dim := by
            calc 2 = 2 ^ 1 := rfl
              _ ≤ 2 ^ dim := Nat.pow_le_pow_right (by decide) hdim
          nlinarith
        omega
    refine ⟨hN, ?_, hsplit, ?_⟩
    · obtain ⟨j, hj⟩ := hex k hN
      obtain ⟨e, he, -⟩ := (hcover j).mp hj
      obtain ⟨b, hb, rfl, cell, h⟩ := mem_childKeys.mp he
      have hg := (hcan.child k c b hk hb).mpr (by rw [h]; rfl)
      rw [isEmptyNode, isNode, if_pos (Or.inl hn), ty_receive (hty k c hk), hasChild_of hb hg]
      simp
    · obtain ⟨m, call, h4, h5, h6⟩ := hlog.idx k c hk hn
      have hm : m < nodes.length := by rw [h2]; exact (List.getElem?_eq_some_iff.mp h4).1
      obtain ⟨N, h7, h8, -, h9⟩ := h3 m hm
      refine ⟨N, ?_, ?_⟩
      · rw [h5, at?, if_pos (by omega), Int.toNat_natCast]; exact h7
      · rw [callSet, h4] at h8 h9
        dsimp only at h8 h9
        rw [hED, hEd, hents, h6] at h8 h9
        exact ⟨h8, h9⟩
  refine ⟨E, s, nodes, hEe, hs, h1, ⟨?_, ?_, ?_⟩, ?_, hroot, hty, hcan, ?_⟩
  · obtain ⟨c, hc, -⟩ := hcan.node 1 (Or.inl rfl)
    exact ⟨c, hc⟩
  · intro k c hk
    rcases hcan.some_ k c hk with ⟨hN, -⟩ | ⟨j, y, p, hj, hl, rfl, -, -⟩
    · exact hex k hN
    · refine ⟨j, ?_⟩
      rw [below_leaf hdim hfull hsorted hXX hj hl]; simp
  · intro k c hk
    by_cases hn : c.nodeIdx = -1
    · left
      rcases hcan.some_ k c hk with ⟨h4, h5⟩ | ⟨j, y, p, hj, hl, rfl, h4, -⟩
      · exfalso
        have := (hfin k c hk).mpr ⟨h4, by simp [h0.1], by simp [h0.2]⟩
        exact this hn
      · refine ⟨?_, j, below_leaf hdim hfull hsorted hXX hj hl, ?_, ?_⟩
        · rw [isNode, if_pos (Or.inr (by rw [h4]; omega))]; simp [hn]
        · rw [entRef]
          simp only [ty_shared (hty _ c hk), h4]
        · rw [getEntity]
          simp only [ty_shared (hty _ c hk), h4]
          exact hbody j y hj
    · right
      obtain ⟨-, h5, h6, N, h7, h8, -⟩ := hnode k c hk hn
      refine ⟨?_, ⟨N, ?_, h8⟩, Or.inr ⟨h5, childKeys dim s.tbl k, daughterKeys_eq hcan.child hk, h6⟩⟩
      · rw [isNode, if_pos (Or.inl hn)]; simp [hn]
      · rw [getNode]
        simp only [ty_shared (hty k c hk)]
        exact h7
  · intro k c hk he
    by_cases hn : c.nodeIdx = -1
    · rw [isEmptyNode, isNode] at he
      split_ifs at he
      · simp [hn] at he
      · simp at he
    · rw [(hnode k c hk hn).2.1] at he
      cases he
  · intro k c N hk hn hN
    obtain ⟨-, -, -, N', h7, -, h9⟩ := hnode k c hk hn
    rw [h7] at hN
    cases hN
    exact h9

end FleCSPH.Traversal
