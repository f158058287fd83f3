import Verif.Lemmas.GhostMain
import Mathlib.Data.Finset.Prod
import Mathlib.Algebra.BigOperators.Group.List.Basic
/-! The pairs of `traversal_fmm` as tasks of the protocol. -/
namespace FleCSPH.Ghosts

variable {G : Key → Option GCell} {cells : Finset Key} {nch : Nat} {t : Table}

/-! ### Pairs of the daughters -/

theorem selfPairs_mem (mine : Key → Bool) (l : List Key) (x : Key × Key) : x ∈ selfPairs mine l ↔ x.1 ∈ l ∧ x.2 ∈ l ∧ mine x.1 = true := by
  obtain ⟨u, v⟩ := x
  induction l with
  | nil => simp [selfPairs]
  | cons a l ih =>
    simp only [selfPairs, List.mem_append, List.mem_flatMap, ih, List.mem_cons]
    constructor
    · rintro ((h | ⟨b, hb, h⟩) | ⟨h1, h2, h3⟩)
      · split_ifs at h with hm
        · simp only [List.mem_singleton, Prod.mk.injEq] at h
          obtain ⟨rfl, rfl⟩ := h
          exact ⟨Or.inl rfl, Or.inl rfl, hm⟩
        · simp at h
      · rcases h with h | h
        · split_ifs at h with hm
          · simp only [List.mem_singleton, Prod.mk.injEq] at h
            obtain ⟨rfl, rfl⟩ := h
            exact ⟨Or.inl rfl, Or.inr hb, hm⟩
          · simp at h
        · split_ifs at h with hm
          · simp only [List.mem_singleton, Prod.mk.injEq] at h
            obtain ⟨rfl, rfl⟩ := h
            exact ⟨Or.inr hb, Or.inl rfl, hm⟩
          · simp at h
      · exact ⟨Or.inr h1, Or.inr h2, h3⟩
    · rintro ⟨h1 | h1, h2 | h2, h3⟩
      · subst h1 h2
        left; left
        simp [h3]
      · subst h1
        left; right
        exact ⟨v, h2, Or.inl (by simp [h3])⟩
      · subst h2
        left; right
        exact ⟨u, h1, Or.inr (by simp [h3])⟩
      · exact Or.inr ⟨h1, h2, h3⟩

theorem selfPairs_nodup (mine : Key → Bool) (l : List Key) (hl : l.Nodup) : (selfPairs mine l).Nodup := by
  induction l with
  | nil => simp [selfPairs]
  | cons a l ih =>
    rw [List.nodup_cons] at hl
    have h1 : ∀ r : List Key, r.Nodup → a ∉ r → (r.flatMap fun b => (if mine a then [(a, b)] else []) ++ if mine b then [(b, a)] else []).Nodup := by
      intro r hr har
      induction r with
      | nil => simp
      | cons b r ihr =>
        rw [List.nodup_cons] at hr
        rw [List.mem_cons, not_or] at har
        rw [List.flatMap_cons]
        refine List.nodup_append.2 ⟨?_, ihr hr.2 har.2, ?_⟩
        · by_cases h1 : mine a <;> by_cases h2 : mine b <;> simp [h1, h2, har.1]
        · rintro ⟨u, v⟩ hx y hy hxy
          subst hxy
          rw [List.mem_flatMap] at hy
          obtain ⟨b', hb', hy⟩ := hy
          have hx' : (u = a ∧ v = b) ∨ (u = b ∧ v = a) := by
            rcases List.mem_append.1 hx with h | h <;> split_ifs at h <;> simp at h
            · exact Or.inl h
            · exact Or.inr h
          have hy' : (u = a ∧ v = b') ∨ (u = b' ∧ v = a) := by
            rcases List.mem_append.1 hy with h | h <;> split_ifs at h <;> simp at h
            · exact Or.inl h
            · exact Or.inr h
          rcases hx' with ⟨e1, e2⟩ | ⟨e1, e2⟩ <;> rcases hy' with ⟨f1, f2⟩ | ⟨f1, f2⟩
          · exact hr.1 ((e2.symm.trans f2) ▸ hb')
          · exact har.2 ((f1.symm.trans e1) ▸ hb')
          · exact har.2 ((f2.symm.trans e2) ▸ hb')
          · exact hr.1 ((e1.symm.trans f1) ▸ hb')
    unfold selfPairs
    refine List.nodup_append.2 ⟨List.nodup_append.2 ⟨?_, h1 l hl.2 hl.1, ?_⟩, ih hl.2, ?_⟩
    · split_ifs <;> simp
    · rintro ⟨u, v⟩ hx y hy hxy
      subst hxy
      have e : u = a ∧ v = a := by
        split_ifs at hx <;> simp at hx
        exact hx
      rw [List.mem_flatMap] at hy
      obtain ⟨b', hb', hy⟩ := hy
      have hy' : (u = a ∧ v = b') ∨ (u = b' ∧ v = a) := by
        rcases List.mem_append.1 hy with h | h <;> split_ifs at h <;> simp at h
        · exact Or.inl h
        · exact Or.inr h
      rcases hy' with ⟨_, f⟩ | ⟨f, _⟩
      · exact hl.1 ((f.symm.trans e.2) ▸ hb')
      · exact hl.1 ((f.symm.trans e.1) ▸ hb')
    · rintro ⟨u, v⟩ hx y hy hxy
      subst hxy
      obtain ⟨m1, m2, _⟩ := (selfPairs_mem mine l _).1 hy
      dsimp only at m1 m2
      rcases List.mem_append.1 hx with hx | hx
      · split_ifs at hx <;> simp at hx
        exact hl.1 (hx.1 ▸ m1)
      · rw [List.mem_flatMap] at hx
        obtain ⟨b, _, hx⟩ := hx
        rcases List.mem_append.1 hx with h | h <;> split_ifs at h <;> simp at h
        · exact hl.1 (h.1 ▸ m1)
        · exact hl.1 (h.2 ▸ m2)

/-! ### What a pair leads to -/

/-- The children of a cell in a table. -/
theorem daughterKeys_kids (hT : IsTree nch G cells) {t : Table} (ht : Good G t) {k : Key} {c : Cell} (hc : t k = some c) :
    ∃ ds, daughterKeys nch t k c = some ds ∧ ds.Nodup ∧ (∀ x, x ∈ ds ↔ ∃ i ∈ c.kids, x = i :: k) ∧ ∀ x ∈ ds, (t x).isSome := by
  obtain ⟨l, h1, h2, h3, h4⟩ := daughters_some hT ht hc
  have hds : (l.map fun x => x.1 :: k) = (l.map Prod.fst).map fun i => i :: k := by rw [List.map_map]; rfl
  refine ⟨l.map fun x => x.1 :: k, by unfold daughterKeys; rw [h1]; rfl, ?_, ?_, ?_⟩
  · rw [hds]
    exact h2.map fun x y h => (List.cons.inj h).1
  · intro x
    rw [List.mem_map]
    constructor
    · rintro ⟨y, hy, rfl⟩
      exact ⟨y.1, (h3 y hy).2, rfl⟩
    · rintro ⟨i, hi, rfl⟩
      obtain ⟨c', hc'⟩ := h4 i hi
      exact ⟨(i, c'), hc', rfl⟩
  · intro x hx
    obtain ⟨y, hy, rfl⟩ := List.mem_map.1 hx
    rw [(h3 y hy).1]; rfl

/-- The children of a cell in a table in which it has all of them. -/
theorem daughterKeys_spec (hT : IsTree nch G cells) {t : Table} (ht : Good G t) {k : Key} {c : Cell} {g : GCell} (hc : t k = some c) (hf : c.kids = g.kids) :
    ∃ ds, daughterKeys nch t k c = some ds ∧ ds.Nodup ∧ (∀ x, x ∈ ds ↔ ∃ i ∈ g.kids, x = i :: k) ∧ ∀ x ∈ ds, (t x).isSome := by
  rw [← hf]
  exact daughterKeys_kids hT ht hc

/-- What a pair of cells leads to, in terms of the global tree. `O` are the cells of the process. -/
inductive PairDone (G : Key → Option GCell) (mac bigger : Key → Key → Bool) (O : Key → Prop) (k1 k2 : Key) : List (Key × Key) → List Call → Prop
  | near (h1 : ∃ g, G k1 = some g ∧ g.ent = true) (h2 : ∃ g, G k2 = some g ∧ g.ent = true) : PairDone G mac bigger O k1 k2 [] [.near k1 k2]
  | self {g : GCell} (hg : G k1 = some g) (he : g.ent = false) (h : k1 = k2) (next : List (Key × Key)) (hn : next.Nodup)
      (hm : ∀ x, x ∈ next ↔ ∃ i ∈ g.kids, ∃ j ∈ g.kids, x = (i :: k1, j :: k1) ∧ O (i :: k1)) : PairDone G mac bigger O k1 k2 next []
  | far {g1 g2 : GCell} (h1 : G k1 = some g1) (h2 : G k2 = some g2) (he : ¬ (g1.ent = true ∧ g2.ent = true)) (hne : k1 ≠ k2) (ha : mac k1 k2 = true) : PairDone G mac bigger O k1 k2 [] [.far k1 k2]
  | split1 {g1 g2 : GCell} (h1 : G k1 = some g1) (h2 : G k2 = some g2) (he : ¬ (g1.ent = true ∧ g2.ent = true)) (hne : k1 ≠ k2) (ha : mac k1 k2 = false) (hb : bigger k1 k2 = true)
      (next : List (Key × Key)) (hn : next.Nodup) (hm : ∀ x, x ∈ next ↔ ∃ i ∈ g1.kids, x = (i :: k1, k2) ∧ O (i :: k1)) : PairDone G mac bigger O k1 k2 next []
  | split2 {g1 g2 : GCell} (h1 : G k1 = some g1) (h2 : G k2 = some g2) (he : ¬ (g1.ent = true ∧ g2.ent = true)) (hne : k1 ≠ k2) (ha : mac k1 k2 = false) (hb : bigger k1 k2 = false)
      (next : List (Key × Key)) (hn : next.Nodup) (hm : ∀ x, x ∈ next ↔ ∃ j ∈ g2.kids, x = (k1, j :: k2)) : PairDone G mac bigger O k1 k2 next []

variable {mac bigger : Key → Key → Bool} {O : Key → Prop} {k1 k2 : Key} {next : List (Key × Key)} {out : List Call}

/-- The new pairs are below the old one, at the same depth, and one level further down. -/
theorem PairDone.below (h : PairDone G mac bigger O k1 k2 next out) (hO : O k1) :
    next.Nodup ∧ ∃ l1 l2, k1.length + k2.length < l1 + l2 ∧ ∀ x ∈ next, k1 <:+ x.1 ∧ k2 <:+ x.2 ∧ x.1.length = l1 ∧ x.2.length = l2 ∧ O x.1 := by
  cases h with
  | near h1 h2 => exact ⟨by simp, k1.length + 1, k2.length, by omega, by simp⟩
  | far h1 h2 he hne ha => exact ⟨by simp, k1.length + 1, k2.length, by omega, by simp⟩
  | self hg he h _ hn hm =>
    refine ⟨hn, k1.length + 1, k2.length + 1, by omega, fun x hx => ?_⟩
    obtain ⟨i, _, j, _, rfl, h1⟩ := (hm x).1 hx
    exact ⟨List.suffix_cons _ _, h ▸ List.suffix_cons _ _, by simp, by simp [h], h1⟩
  | split1 h1 h2 he hne ha hb _ hn hm =>
    refine ⟨hn, k1.length + 1, k2.length, by omega, fun x hx => ?_⟩
    obtain ⟨i, _, rfl, h1⟩ := (hm x).1 hx
    exact ⟨List.suffix_cons _ _, List.suffix_rfl, by simp, rfl, h1⟩
  | split2 h1 h2 he hne ha hb _ hn hm =>
    refine ⟨hn, k1.length, k2.length + 1, by omega, fun x hx => ?_⟩
    obtain ⟨i, _, rfl⟩ := (hm x).1 hx
    exact ⟨List.suffix_rfl, List.suffix_cons _ _, rfl, by simp, hO⟩

/-- Suffixes of the same length are the same. -/
theorem suffix_unique {a b e : Key} (ha : a <:+ e) (hb : b <:+ e) (hl : a.length = b.length) : a = b :=
  (List.suffix_of_suffix_length_le ha hb hl.le).eq_of_length hl

theorem suffix_antisymm' {a b : Key} (h1 : a <:+ b) (h2 : b <:+ a) : a = b := h1.eq_of_length (le_antisymm h1.length_le h2.length_le)

/-- The pairs of cells below a pair. -/
def region (cells : Finset Key) (x : Key × Key) : Finset (Key × Key) := (cells ×ˢ cells).filter fun y => x.1 <:+ y.1 ∧ x.2 <:+ y.2

theorem PairDone.cost (h : PairDone G mac bigger O k1 k2 next out) (hO : O k1) (h1 : k1 ∈ cells) (h2 : k2 ∈ cells) : (next.map fun x => (region cells x).card).sum < (region cells (k1, k2)).card := by
  obtain ⟨hn, l1, l2, hl, hx⟩ := h.below hO
  have hsum : (next.map fun x => (region cells x).card).sum ≤ ((region cells (k1, k2)).erase (k1, k2)).card := by
    have key : ∀ l : List (Key × Key), l.Nodup → (∀ x ∈ l, x ∈ next) → ∃ U : Finset (Key × Key), U.card = (l.map fun x => (region cells x).card).sum ∧ ∀ y, y ∈ U ↔ ∃ x ∈ l, y ∈ region cells x := by
      intro l hln hlm
      induction l with
      | nil => exact ⟨∅, by simp, by simp⟩
      | cons a l ih =>
        rw [List.nodup_cons] at hln
        obtain ⟨U, hU, hm⟩ := ih hln.2 fun x hx => hlm x (by simp [hx])
        refine ⟨region cells a ∪ U, ?_, ?_⟩
        · rw [Finset.card_union_of_disjoint, hU, List.map_cons, List.sum_cons]
          rw [Finset.disjoint_left]
          intro y hy hyU
          obtain ⟨b, hb, hyb⟩ := (hm y).1 hyU
          unfold region at hy hyb
          rw [Finset.mem_filter] at hy hyb
          obtain ⟨_, _, a1, a2, _⟩ := hx a (hlm a (by simp))
          obtain ⟨_, _, b1, b2, _⟩ := hx b (hlm b (by simp [hb]))
          have : a = b := Prod.ext (suffix_unique hy.2.1 hyb.2.1 (a1.trans b1.symm)) (suffix_unique hy.2.2 hyb.2.2 (a2.trans b2.symm))
          exact hln.1 (this ▸ hb)
        · intro y
          rw [Finset.mem_union, hm]
          simp only [List.mem_cons, exists_eq_or_imp]
    obtain ⟨U, hU, hm⟩ := key next hn fun _ h => h
    rw [← hU]
    apply Finset.card_le_card
    intro y hy
    obtain ⟨x, hxn, hyx⟩ := (hm y).1 hy
    obtain ⟨s1, s2, e1, e2, _⟩ := hx x hxn
    unfold region at hyx ⊢
    rw [Finset.mem_filter] at hyx
    rw [Finset.mem_erase, Finset.mem_filter]
    refine ⟨?_, hyx.1, s1.trans hyx.2.1, s2.trans hyx.2.2⟩
    rintro rfl
    have := hyx.2.1.length_le
    have := hyx.2.2.length_le
    dsimp only at *
    omega
  have hmem : (k1, k2) ∈ region cells (k1, k2) := by
    unfold region
    rw [Finset.mem_filter, Finset.mem_product]
    exact ⟨⟨h1, h2⟩, List.suffix_rfl, List.suffix_rfl⟩
  have := Finset.card_erase_lt_of_mem hmem
  omega

/-- A step with a pair. -/
theorem fmmStep_spec (hT : IsTree nch G cells) {p : Nat} {t : Table} (hv : View G O p t) (h1 : O k1) (h2 : (t k2).isSome) :
    ∃ r, fmmStep nch mac bigger p t (k1, k2) = some r ∧
      Post t (fun x k => k = x.2) (PairDone G mac bigger O k1 k2) (fun x => O x.1 ∧ (t x.2).isSome) (k1, k2) r := by
  obtain ⟨c1, g1, hc1, hg1, hf1⟩ := hv.full k1 h1
  obtain ⟨c2, hc2⟩ := Option.isSome_iff_exists.1 h2
  obtain ⟨g2, hg2, he2, _⟩ := hv.good.sub k2 c2 hc2
  obtain ⟨g1', hg1', he1, _⟩ := hv.good.sub k1 c1 hc1
  rw [hg1] at hg1'; cases hg1'
  have hown : c1.owner = p := (hv.mine k1 c1 hc1).2 h1
  have hmine : ∀ k, (t k).isSome → (iamOwner p t k = true ↔ O k) := by
    intro k hk
    obtain ⟨c, hc⟩ := Option.isSome_iff_exists.1 hk
    unfold iamOwner
    rw [hc, decide_eq_true_eq, Option.map_some, Option.some.injEq]
    exact hv.mine k c hc
  unfold fmmStep
  simp only [hc1, hc2]
  rw [if_neg (not_not.2 hown)]
  cases hem : emptyNode c2 with
  | true => exact ⟨_, rfl, by simp, by simp, fun k hk => by rw [List.mem_singleton] at hk; subst hk; exact ⟨rfl, c2, hc2, hem⟩⟩
  | false =>
    rw [if_neg (by simp)]
    -- all that is missing is in the pair itself, and it is not missing
    have hneed : ∀ next' : List (Key × Key), ∀ k c, t k = some c → emptyNode c = true → k = k2 → ∃ b ∈ next', k = b.2 := by
      rintro next' k c hc hem' rfl
      rw [hc2] at hc; cases hc
      rw [hem] at hem'; cases hem'
    have hfull2 : c2.kids = g2.kids := by
      cases hce : c2.ent with
      | false => exact full_of_not_empty hT hv.good hc2 hg2 hce hem
      | true =>
        obtain ⟨g2', hg2', _, hs, _⟩ := hv.good.sub k2 c2 hc2
        rw [hg2] at hg2'; cases hg2'
        have := (hT.leaf k2 g2 hg2).1 (he2 ▸ hce)
        rw [this] at hs ⊢
        exact Finset.subset_empty.1 hs
    split_ifs with hb hk ha hbig
    · rw [Bool.and_eq_true] at hb
      exact ⟨_, rfl, .near ⟨g1, hg1, he1 ▸ hb.1⟩ ⟨g2, hg2, he2 ▸ hb.2⟩, by simp, hneed _⟩
    · obtain ⟨ds, d1, d2, d3, d4⟩ := daughterKeys_spec hT hv.good hc1 hf1
      rw [d1]
      have hent : g1.ent = false := by
        subst hk
        rw [hc1] at hc2; cases hc2
        rw [← he1]
        simpa using hb
      refine ⟨_, rfl, .self hg1 hent hk _ (selfPairs_nodup _ _ d2) ?_, ?_, hneed _⟩
      · intro x
        rw [selfPairs_mem]
        constructor
        · rintro ⟨m1, m2, m3⟩
          obtain ⟨i, hi, e1⟩ := (d3 _).1 m1
          obtain ⟨j, hj, e2⟩ := (d3 _).1 m2
          refine ⟨i, hi, j, hj, Prod.ext e1 e2, ?_⟩
          rw [← e1]
          exact (hmine _ (d4 _ m1)).1 m3
        · rintro ⟨i, hi, j, hj, rfl, ho⟩
          have m1 := (d3 _).2 ⟨i, hi, rfl⟩
          exact ⟨m1, (d3 _).2 ⟨j, hj, rfl⟩, (hmine _ (d4 _ m1)).2 ho⟩
      · intro b hb'
        obtain ⟨m1, m2, m3⟩ := (selfPairs_mem _ _ _).1 hb'
        exact ⟨(hmine _ (d4 _ m1)).1 m3, d4 _ m2⟩
    · exact ⟨_, rfl, .far hg1 hg2 (by rw [← he1, ← he2, ← Bool.and_eq_true]; exact hb) hk ha, by simp, hneed _⟩
    · obtain ⟨ds, d1, d2, d3, d4⟩ := daughterKeys_spec hT hv.good hc1 hf1
      rw [d1]
      refine ⟨_, rfl, .split1 hg1 hg2 (by rw [← he1, ← he2, ← Bool.and_eq_true]; exact hb) hk (by simpa using ha) hbig _ ?_ ?_, ?_, hneed _⟩
      · exact (d2.filter _).map fun x y h => congrArg Prod.fst h
      · intro x
        simp only [List.mem_map, List.mem_filter]
        constructor
        · rintro ⟨k, ⟨hk1, hk2⟩, rfl⟩
          obtain ⟨i, hi, rfl⟩ := (d3 _).1 hk1
          exact ⟨i, hi, rfl, (hmine _ (d4 _ hk1)).1 hk2⟩
        · rintro ⟨i, hi, rfl, ho⟩
          have m1 := (d3 _).2 ⟨i, hi, rfl⟩
          exact ⟨i :: k1, ⟨m1, (hmine _ (d4 _ m1)).2 ho⟩, rfl⟩
      · intro b hb'
        simp only [List.mem_map, List.mem_filter] at hb'
        obtain ⟨k, ⟨hk1, hk2⟩, rfl⟩ := hb'
        exact ⟨(hmine _ (d4 _ hk1)).1 hk2, h2⟩
    · obtain ⟨ds, d1, d2, d3, d4⟩ := daughterKeys_spec hT hv.good hc2 hfull2
      rw [d1]
      refine ⟨_, rfl, .split2 hg1 hg2 (by rw [← he1, ← he2, ← Bool.and_eq_true]; exact hb) hk (by simpa using ha) (by simpa using hbig) _ ?_ ?_, ?_, hneed _⟩
      · exact d2.map fun x y h => congrArg Prod.snd h
      · intro x
        simp only [List.mem_map]
        constructor
        · rintro ⟨k, hk1, rfl⟩
          obtain ⟨i, hi, rfl⟩ := (d3 _).1 hk1
          exact ⟨i, hi, rfl⟩
        · rintro ⟨i, hi, rfl⟩
          exact ⟨i :: k2, (d3 _).2 ⟨i, hi, rfl⟩, rfl⟩
      · intro b hb'
        obtain ⟨k, hk1, rfl⟩ := List.mem_map.1 hb'
        exact ⟨h1, d4 _ hk1⟩

/-- The pairs as tasks. -/
def fmmTasks {n : Nat} (hT : IsTree nch G cells) (s0 : State (Key × Key) Call) : Tasks (fmm n nch mac bigger) G (Mine s0) where
  Need x k := k = x.2
  Done p x next out := PairDone G mac bigger (Mine s0 p) x.1 x.2 next out ∧ Mine s0 p x.1
  Ok p t x := Mine s0 p x.1 ∧ (t x.2).isSome
  cost x := (region cells x).card
  mono := fun p t t' x h ⟨h1, h2⟩ => ⟨h1, h _ h2⟩
  dec := by
    rintro p ⟨k1, k2⟩ next out ⟨hd, hO⟩
    have hmem : ∀ k, (∃ g, G k = some g) → k ∈ cells := fun k ⟨g, hg⟩ => (hT.mem k).2 (by rw [hg]; rfl)
    have : k1 ∈ cells ∧ k2 ∈ cells := by
      cases hd with
      | near h1 h2 => exact ⟨hmem _ (h1.imp fun _ h => h.1), hmem _ (h2.imp fun _ h => h.1)⟩
      | self hg he h => exact ⟨hmem _ ⟨_, hg⟩, hmem _ ⟨_, h ▸ hg⟩⟩
      | far h1 h2 => exact ⟨hmem _ ⟨_, h1⟩, hmem _ ⟨_, h2⟩⟩
      | split1 h1 h2 => exact ⟨hmem _ ⟨_, h1⟩, hmem _ ⟨_, h2⟩⟩
      | split2 h1 h2 => exact ⟨hmem _ ⟨_, h1⟩, hmem _ ⟨_, h2⟩⟩
    exact hd.cost hO this.1 this.2
  step := by
    rintro p hp t hv ⟨k1, k2⟩ ⟨h1, h2⟩
    obtain ⟨r, hr, hpost⟩ := fmmStep_spec (mac := mac) (bigger := bigger) hT hv h1 h2
    refine ⟨r, hr, ?_⟩
    cases r with
    | missing ms => exact hpost
    | done next out => exact ⟨⟨hpost.1, h1⟩, hpost.2⟩

/-! ### The end of the traversal -/

/-- The cells above a cell of the table are in the table, and so is the next one on the way. -/
theorem path_in (ht : Good G t) {x : Key} (hx : (t x).isSome) {a : Key} (ha : a <:+ x) : (t a).isSome ∧ (a ≠ x → ∃ i c, t a = some c ∧ i ∈ c.kids ∧ (i :: a) <:+ x) := by
  induction x with
  | nil =>
    have : a = [] := List.suffix_nil.1 ha
    subst this
    exact ⟨hx, fun h => absurd rfl h⟩
  | cons j x ih =>
    rcases List.suffix_cons_iff.1 ha with h | h
    · subst h
      exact ⟨hx, fun h => absurd rfl h⟩
    · obtain ⟨c, hc, hj⟩ := (ht.link j x).1 hx
      obtain ⟨h1, h2⟩ := ih (by rw [hc]; rfl) h
      refine ⟨h1, fun _ => ?_⟩
      by_cases hax : a = x
      · subst hax
        exact ⟨j, c, hc, hj, List.suffix_rfl⟩
      · obtain ⟨i, c', hc', hi, hs⟩ := h2 hax
        exact ⟨i, c', hc', hi, hs.trans (List.suffix_cons _ _)⟩

theorem mapM_lists {α β : Type} (f : α → Option (List β)) (Q : α → β → Prop) (l : List α) (hl : l.Nodup) (hf : ∀ x ∈ l, ∃ r, f x = some r ∧ r.Nodup ∧ ∀ y, y ∈ r ↔ Q x y)
    (hd : ∀ x ∈ l, ∀ x' ∈ l, ∀ y, Q x y → Q x' y → x = x') : ∃ rs, l.mapM f = some rs ∧ rs.flatten.Nodup ∧ ∀ y, y ∈ rs.flatten ↔ ∃ x ∈ l, Q x y := by
  induction l with
  | nil => exact ⟨[], rfl, by simp, by simp⟩
  | cons a l ih =>
    rw [List.nodup_cons] at hl
    obtain ⟨rs, h1, h2, h3⟩ := ih hl.2 (fun x hx => hf x (by simp [hx])) fun x hx x' hx' => hd x (by simp [hx]) x' (by simp [hx'])
    obtain ⟨r, e1, e2, e3⟩ := hf a (by simp)
    refine ⟨r :: rs, by rw [List.mapM_cons, e1, h1]; rfl, ?_, ?_⟩
    · rw [List.flatten_cons]
      refine List.nodup_append.2 ⟨e2, h2, ?_⟩
      intro y hy y' hy' hyy
      subst hyy
      obtain ⟨x, hx, hq⟩ := (h3 y).1 hy'
      have := hd a (by simp) x (by simp [hx]) y ((e3 y).1 hy) hq
      exact hl.1 (this ▸ hx)
    · intro y
      rw [List.flatten_cons, List.mem_append, e3, h3]
      simp

/-- The entities of the process below a cell. -/
theorem subEnts_spec (hT : IsTree nch G cells) {t : Table} (ht : Good G t) (p fuel : Nat) : ∀ k, (t k).isSome → (∀ x ∈ cells, k <:+ x → x.length < k.length + fuel) →
    ∃ l, subEnts nch p t fuel k = some l ∧ l.Nodup ∧ ∀ x, x ∈ l ↔ k <:+ x ∧ ∃ c, t x = some c ∧ c.ent = true ∧ c.owner = p := by
  induction fuel with
  | zero =>
    intro k hk h
    obtain ⟨c, hc⟩ := Option.isSome_iff_exists.1 hk
    obtain ⟨g, hg, _⟩ := ht.sub k c hc
    have := h k ((hT.mem k).2 (by rw [hg]; rfl)) List.suffix_rfl
    omega
  | succ fuel ih =>
    intro k hk h
    obtain ⟨c, hc⟩ := Option.isSome_iff_exists.1 hk
    unfold subEnts
    rw [hc]
    dsimp only
    cases hce : c.ent with
    | true =>
      have honly : ∀ x, k <:+ x → (t x).isSome → x = k := by
        intro x hs hx
        by_contra hne
        obtain ⟨i, c', hc', hi, _⟩ := (path_in ht hx hs).2 (Ne.symm hne)
        rw [hc] at hc'; cases hc'
        obtain ⟨g, hg, e1, e2, _⟩ := ht.sub k c hc
        have := e2 hi
        rw [(hT.leaf k g hg).1 (e1 ▸ hce)] at this
        simp at this
      refine ⟨_, if_pos rfl, by split_ifs <;> simp, fun x => ?_⟩
      constructor
      · intro hx
        split_ifs at hx with ho
        · rw [List.mem_singleton] at hx
          subst hx
          exact ⟨List.suffix_rfl, c, hc, hce, ho⟩
        · simp at hx
      · rintro ⟨hs, c', hc', _, ho⟩
        have := honly x hs (by rw [hc']; rfl)
        subst this
        rw [hc] at hc'; cases hc'
        simp [ho]
    | false =>
      rw [if_neg (by simp)]
      obtain ⟨ds, d1, d2, d3, d4⟩ := daughterKeys_kids hT ht hc
      rw [d1]
      obtain ⟨rs, r1, r2, r3⟩ := mapM_lists (subEnts nch p t fuel) (fun a x => a <:+ x ∧ ∃ c, t x = some c ∧ c.ent = true ∧ c.owner = p) ds d2 (by
        intro a ha
        obtain ⟨i, hi, rfl⟩ := (d3 a).1 ha
        apply ih _ (d4 _ ha)
        intro x hx hs
        have := h x hx ((List.suffix_cons i k).trans hs)
        simp only [List.length_cons]
        omega) (by
        intro a ha a' ha' x hq hq'
        obtain ⟨i, hi, rfl⟩ := (d3 a).1 ha
        obtain ⟨i', hi', rfl⟩ := (d3 a').1 ha'
        exact suffix_unique hq.1 hq'.1 (by simp))
      rw [Option.bind_some, r1]
      refine ⟨_, rfl, r2, fun x => ?_⟩
      rw [r3]
      constructor
      · rintro ⟨a, ha, hs, hx⟩
        obtain ⟨i, hi, rfl⟩ := (d3 a).1 ha
        exact ⟨(List.suffix_cons i k).trans hs, hx⟩
      · rintro ⟨hs, c', hc', he', ho'⟩
        have hne : k ≠ x := by
          rintro rfl
          rw [hc] at hc'; cases hc'
          rw [hce] at he'; cases he'
        obtain ⟨i, c2, hc2, hi, hs2⟩ := (path_in ht (by rw [hc']; rfl) hs).2 hne
        rw [hc] at hc2; cases hc2
        exact ⟨i :: k, (d3 _).2 ⟨i, hi, rfl⟩, hs2, c', hc', he', ho'⟩

/-- The affected nodes below a cell. -/
theorem affectedNodes_spec (hT : IsTree nch G cells) {t : Table} (ht : Good G t) (p : Nat) (aff : Key → Bool) (fuel : Nat) : ∀ k, (t k).isSome →
    (∀ x ∈ cells, k <:+ x → x.length < k.length + fuel) →
    ∃ l, affectedNodes nch p t aff fuel k = some l ∧ l.Nodup ∧
      ∀ x, x ∈ l ↔ k <:+ x ∧ (∀ a, k <:+ a → a <:+ x → (t a).map Cell.owner = some p) ∧ (t x).map Cell.ent = some false ∧ aff x = true := by
  induction fuel with
  | zero =>
    intro k hk h
    obtain ⟨c, hc⟩ := Option.isSome_iff_exists.1 hk
    obtain ⟨g, hg, _⟩ := ht.sub k c hc
    have := h k ((hT.mem k).2 (by rw [hg]; rfl)) List.suffix_rfl
    omega
  | succ fuel ih =>
    intro k hk h
    obtain ⟨c, hc⟩ := Option.isSome_iff_exists.1 hk
    unfold affectedNodes
    rw [hc]
    dsimp only
    by_cases ho : c.owner = p
    swap
    · rw [if_pos ho]
      refine ⟨_, rfl, by simp, fun x => ?_⟩
      simp only [List.not_mem_nil, false_iff]
      rintro ⟨hs, h1, _⟩
      have := h1 k List.suffix_rfl hs
      rw [hc] at this
      exact ho (by simpa using this)
    rw [if_neg (not_not.2 ho)]
    cases hce : c.ent with
    | true =>
      refine ⟨_, if_pos rfl, by simp, fun x => ?_⟩
      simp only [List.not_mem_nil, false_iff]
      rintro ⟨hs, _, h2, _⟩
      have hne : k ≠ x := by
        rintro rfl
        rw [hc] at h2
        simp [hce] at h2
      have hx : (t x).isSome := by
        cases htx : t x with
        | none => rw [htx] at h2; simp at h2
        | some _ => rfl
      obtain ⟨i, c', hc', hi, _⟩ := (path_in ht hx hs).2 hne
      rw [hc] at hc'; cases hc'
      obtain ⟨g, hg, e1, e2, _⟩ := ht.sub k c hc
      have := e2 hi
      rw [(hT.leaf k g hg).1 (e1 ▸ hce)] at this
      simp at this
    | false =>
      rw [if_neg (by simp)]
      obtain ⟨ds, d1, d2, d3, d4⟩ := daughterKeys_kids hT ht hc
      rw [d1]
      obtain ⟨rs, r1, r2, r3⟩ := mapM_lists (affectedNodes nch p t aff fuel)
        (fun b x => b <:+ x ∧ (∀ a, b <:+ a → a <:+ x → (t a).map Cell.owner = some p) ∧ (t x).map Cell.ent = some false ∧ aff x = true) ds d2 (by
        intro a ha
        obtain ⟨i, hi, rfl⟩ := (d3 a).1 ha
        apply ih _ (d4 _ ha)
        intro x hx hs
        have := h x hx ((List.suffix_cons i k).trans hs)
        simp only [List.length_cons]
        omega) (by
        intro a ha a' ha' x hq hq'
        obtain ⟨i, hi, rfl⟩ := (d3 a).1 ha
        obtain ⟨i', hi', rfl⟩ := (d3 a').1 ha'
        exact suffix_unique hq.1 hq'.1 (by simp))
      rw [Option.bind_some, r1]
      refine ⟨_, rfl, ?_, fun x => ?_⟩
      · refine List.nodup_append.2 ⟨by split_ifs <;> simp, r2, ?_⟩
        intro x hx y hy hxy
        subst hxy
        have : x = k := by
          split_ifs at hx
          · exact List.mem_singleton.1 hx
          · simp at hx
        subst this
        obtain ⟨a, ha, hs, _⟩ := (r3 x).1 hy
        obtain ⟨i, hi, rfl⟩ := (d3 a).1 ha
        have := hs.length_le
        simp at this
      · rw [List.mem_append, r3]
        constructor
        · rintro (hx | ⟨a, ha, hs, h1, h2⟩)
          · split_ifs at hx with haf
            · rw [List.mem_singleton] at hx
              subst hx
              refine ⟨List.suffix_rfl, fun a h1 h2 => ?_, by rw [hc]; simp [hce], haf⟩
              have : a = x := suffix_antisymm' h2 h1
              rw [this, hc]
              simp [ho]
            · simp at hx
          · obtain ⟨i, hi, rfl⟩ := (d3 a).1 ha
            refine ⟨(List.suffix_cons i k).trans hs, fun b hb1 hb2 => ?_, h2⟩
            rcases Nat.lt_or_ge k.length b.length with hlt | hge
            · exact h1 b (List.suffix_of_suffix_length_le hs hb2 (by rw [List.length_cons]; exact hlt)) hb2
            · have : b = k := (hb1.eq_of_length (le_antisymm hb1.length_le hge)).symm
              rw [this, hc]
              simp [ho]
        · rintro ⟨hs, h1, h2, h3⟩
          by_cases hkx : k = x
          · subst hkx
            left
            simp [h3]
          · right
            have hx : (t x).isSome := by
              cases htx : t x with
              | none => rw [htx] at h2; simp at h2
              | some _ => rfl
            obtain ⟨i, c', hc', hi, hs2⟩ := (path_in ht hx hs).2 hkx
            rw [hc] at hc'; cases hc'
            exact ⟨i :: k, (d3 _).2 ⟨i, hi, rfl⟩, hs2, fun b hb1 hb2 => h1 b ((List.suffix_cons i k).trans hb1) hb2, h2, h3⟩

end FleCSPH.Ghosts
