import Verif.Lemmas.ShareLoad
import Mathlib.Data.List.Nodup
/-! What `find_nodes_` lists, and loading it. -/
namespace FleCSPH.ShareTable
open FleCSPH.Ghosts

variable {V : Type} {nch : Nat} {G : Key → Option GCell} {cells : Finset Key} {own : Key → Nat} {Val : Key → V} {r : Nat} {L : Key → Prop} {t : Table V}

theorem mapM_some_of {α β : Type} (F : α → Option β) (h : α → β) : ∀ l : List α, (∀ x ∈ l, F x = some (h x)) → l.mapM F = some (l.map h) := by
  intro l
  induction l with
  | nil => intro _; rfl
  | cons a l ih =>
    intro hl
    rw [List.mapM_cons, hl a List.mem_cons_self, ih (fun x hx => hl x (List.mem_cons_of_mem _ hx))]
    rfl

/-- No cell above belongs to one process. -/
def NP (G : Key → Option GCell) (own : Key → Nat) (k : Key) : Prop := ∀ j pk, k = j :: pk → ¬ Single G own pk

/-- What a listed item is. -/
structure ItemOk (G : Key → Option GCell) (own : Key → Nat) (Val : Key → V) (x : Item V) : Prop where
  ent : ∃ g, G x.key = some g ∧ x.ent = g.ent
  all : AllOf G own x.owner x.key
  data : x.data = Val x.key

theorem Tab.kids_lt (hT : IsTree nch G cells) (h : Tab G own Val r L t) {k : Key} {c : Cell V} (hc : t k = some c) {j : Nat} (hj : j ∈ c.kids) : j < nch := by
  have h1 := (h.kids k c j hc).mp hj
  obtain ⟨c', hc'⟩ := Option.isSome_iff_exists.mp h1
  obtain ⟨g, hg, -⟩ := h.ent _ _ hc'
  obtain ⟨g', hg', hj'⟩ := (hT.child j k).mp (by rw [hg]; rfl)
  exact hT.slots _ _ hg' j hj'

theorem Tab.daughters (hT : IsTree nch G cells) (h : Tab G own Val r L t) {k : Key} {c : Cell V} (hc : t k = some c) :
    ∃ ds, daughterKeys nch t k c = some ds ∧ ds.Nodup ∧ (∀ x, x ∈ ds ↔ ∃ j, x = j :: k ∧ (t (j :: k)).isSome) := by
  refine ⟨((List.range nch).filter fun j => decide (j ∈ c.kids)).map (· :: k), ?_, ?_, ?_⟩
  · apply mapM_some_of
    intro j hj
    have hj := (List.mem_filter.mp hj).2
    obtain ⟨c', hc'⟩ := Option.isSome_iff_exists.mp ((h.kids k c j hc).mp (by simpa using hj))
    rw [hc']; rfl
  · apply List.Nodup.map
    · intro a b hab; simpa using hab
    · exact List.nodup_range.filter _
  · intro x
    rw [List.mem_map]
    constructor
    · rintro ⟨j, hj, rfl⟩
      have hj := (List.mem_filter.mp hj).2
      exact ⟨j, rfl, (h.kids k c j hc).mp (by simpa using hj)⟩
    · rintro ⟨j, rfl, hj⟩
      have hj' := (h.kids k c j hc).mpr hj
      exact ⟨j, List.mem_filter.mpr ⟨List.mem_range.mpr (h.kids_lt hT hc hj'), by simpa using hj'⟩, rfl⟩

theorem Tab.look (hT : IsTree nch G cells) (h : Tab G own Val r L t) {k : Key} (hk : (t k).isSome) :
    ∃ a b, look nch t k = some (a, b) ∧ a.Nodup ∧ (∀ x, x ∈ a ↔ ¬ Single G own k ∧ ∃ j, x = j :: k ∧ (t (j :: k)).isSome) ∧
      (Single G own k → ∃ x, b = [x] ∧ x.key = k ∧ ItemOk G own Val x) ∧ (¬ Single G own k → b = []) := by
  obtain ⟨c, hc⟩ := Option.isSome_iff_exists.mp hk
  by_cases hu : unset c = true
  · have hns : ¬ Single G own k := by
      intro hs
      rw [(h.set_ k c hc).mpr hs] at hu; cases hu
    obtain ⟨ds, h1, h2, h3⟩ := h.daughters hT hc
    refine ⟨ds, [], ?_, h2, ?_, fun hs => absurd hs hns, fun _ => rfl⟩
    · simp [ShareTable.look, hc, hu, h1]
    · intro x
      rw [h3]
      simp [hns]
  · have hu : unset c = false := by simpa using hu
    have hs := (h.set_ k c hc).mp hu
    refine ⟨[], [⟨!c.node, c.owner, k, Val k⟩], ?_, List.nodup_nil, ?_, fun _ => ⟨_, rfl, rfl, ?_⟩, fun hns => absurd hs hns⟩
    · simp [ShareTable.look, hc, hu, h.data k c hc hs]
    · intro x
      simp [hs]
    · constructor
      · obtain ⟨g, hg, he⟩ := h.ent k c hc
        refine ⟨g, hg, ?_⟩
        show (!c.node) = g.ent
        rw [← he]
        cases hce : c.ent with
        | true => rw [h.one k c hc hce]; rfl
        | false =>
          unfold unset at hu
          rw [hce] at hu
          simpa using hu
      · show AllOf G own c.owner k
        obtain ⟨s, hs⟩ := hs
        rw [hs.eq (h.owner k c hc).1]
        exact hs
      · rfl

theorem Tab.lookAll (hT : IsTree nch G cells) (h : Tab G own Val r L t) : ∀ q : List Key, q.Nodup → (∀ k ∈ q, (t k).isSome) →
    ∃ a b, lookAll nch t q = some (a, b) ∧ a.Nodup ∧ (∀ x, x ∈ a ↔ ∃ j k, x = j :: k ∧ k ∈ q ∧ ¬ Single G own k ∧ (t (j :: k)).isSome) ∧
      (b.map Item.key).Nodup ∧ (∀ x ∈ b, ItemOk G own Val x) ∧ ∀ k, k ∈ b.map Item.key ↔ k ∈ q ∧ Single G own k := by
  intro q
  induction q with
  | nil => intro _ _; exact ⟨[], [], rfl, List.nodup_nil, by simp, List.nodup_nil, by simp, by simp⟩
  | cons k q ih =>
    intro hnd hq
    rw [List.nodup_cons] at hnd
    obtain ⟨a, b, h1, h2, h3, h4, h5⟩ := h.look hT (hq k List.mem_cons_self)
    obtain ⟨a', b', g1, g2, g3, g4, g5, g6⟩ := ih hnd.2 (fun x hx => hq x (List.mem_cons_of_mem _ hx))
    refine ⟨a ++ a', b ++ b', ?_, ?_, ?_, ?_, ?_, ?_⟩
    · rw [ShareTable.lookAll, h1, g1]
    · rw [List.nodup_append]
      refine ⟨h2, g2, ?_⟩
      intro x hx y hy e
      subst e
      obtain ⟨-, j, rfl, -⟩ := (h3 x).mp hx
      obtain ⟨j', k', e, hk', -⟩ := (g3 _).mp hy
      cases e
      exact hnd.1 hk'
    · intro x
      rw [List.mem_append, h3, g3]
      constructor
      · rintro (⟨hs, j, rfl, hj⟩ | ⟨j, k', rfl, hk', hs, hj⟩)
        · exact ⟨j, k, rfl, List.mem_cons_self, hs, hj⟩
        · exact ⟨j, k', rfl, List.mem_cons_of_mem _ hk', hs, hj⟩
      · rintro ⟨j, k', rfl, hk', hs, hj⟩
        rcases List.mem_cons.mp hk' with rfl | hk'
        · exact Or.inl ⟨hs, j, rfl, hj⟩
        · exact Or.inr ⟨j, k', rfl, hk', hs, hj⟩
    · rw [List.map_append, List.nodup_append]
      refine ⟨?_, g4, ?_⟩
      · by_cases hs : Single G own k
        · obtain ⟨x, rfl, -⟩ := h4 hs
          simp
        · rw [h5 hs]; simp
      · intro x hx y hy e
        subst e
        by_cases hs : Single G own k
        · obtain ⟨z, rfl, hz, -⟩ := h4 hs
          simp only [List.map_cons, List.map_nil, List.mem_singleton] at hx
          rw [hx, hz] at hy
          exact hnd.1 ((g6 k).mp hy).1
        · rw [h5 hs] at hx; simp at hx
    · intro x hx
      rcases List.mem_append.mp hx with hx | hx
      · by_cases hs : Single G own k
        · obtain ⟨z, rfl, -, hz⟩ := h4 hs
          rw [List.mem_singleton.mp hx]; exact hz
        · rw [h5 hs] at hx; simp at hx
      · exact g5 x hx
    · intro k'
      rw [List.map_append, List.mem_append, g6, List.mem_cons]
      constructor
      · rintro (hk' | ⟨hk', hs⟩)
        · by_cases hs : Single G own k
          · obtain ⟨z, rfl, hz, -⟩ := h4 hs
            simp only [List.map_cons, List.map_nil, List.mem_singleton] at hk'
            rw [hk', hz]
            exact ⟨Or.inl rfl, hs⟩
          · rw [h5 hs] at hk'; simp at hk'
        · exact ⟨Or.inr hk', hs⟩
      · rintro ⟨rfl | hk', hs⟩
        · obtain ⟨z, rfl, hz, -⟩ := h4 hs
          left
          simp [hz]
        · exact Or.inr ⟨hk', hs⟩

theorem Tab.findLoop (hT : IsTree nch G cells) (h : Tab G own Val r L t) {D : Nat} (hD : ∀ k ∈ cells, k.length ≤ D) :
    ∀ (fuel : Nat) (q : List Key) (d : Nat), q.Nodup → (∀ k, k ∈ q ↔ (t k).isSome ∧ k.length = d ∧ NP G own k) → D + 1 ≤ fuel + d →
    ∃ l, findLoop nch t fuel q = some l ∧ (l.map Item.key).Nodup ∧ (∀ x ∈ l, ItemOk G own Val x) ∧
      ∀ k, k ∈ l.map Item.key ↔ (t k).isSome ∧ Single G own k ∧ d ≤ k.length ∧ NP G own k := by
  have hlen : ∀ k, (t k).isSome → k.length ≤ D := by
    intro k hk
    obtain ⟨c, hc⟩ := Option.isSome_iff_exists.mp hk
    obtain ⟨g, hg, -⟩ := h.ent _ _ hc
    exact hD k ((hT.mem k).mpr (by rw [hg]; rfl))
  -- an empty queue: nothing deeper
  have hempty : ∀ d, (∀ k, ¬ ((t k).isSome ∧ k.length = d ∧ NP G own k)) → ∀ k, ¬ ((t k).isSome ∧ Single G own k ∧ d ≤ k.length ∧ NP G own k) := by
    intro d hd k
    rintro ⟨h1, -, h3, h4⟩
    have hs : k.drop (k.length - d) <:+ k := List.drop_suffix _ _
    apply hd (k.drop (k.length - d))
    refine ⟨h.up hs h1, by rw [List.length_drop]; omega, ?_⟩
    intro j pk e hsp
    rw [e] at hs
    obtain ⟨j', k', rfl⟩ : ∃ j' k', k = j' :: k' := by
      cases k with
      | nil => have := List.suffix_nil.mp hs; cases this
      | cons a b => exact ⟨a, b, rfl⟩
    exact h4 j' k' rfl (hsp.mono (suffix_tail hs))
  intro fuel
  induction fuel with
  | zero =>
    intro q d hnd hq hf
    have hq0 : q = [] := by
      rw [List.eq_nil_iff_forall_not_mem]
      intro k hk
      obtain ⟨h1, h2, -⟩ := (hq k).mp hk
      have := hlen k h1
      omega
    refine ⟨[], by rw [ShareTable.findLoop, if_pos hq0], List.nodup_nil, by simp, ?_⟩
    intro k
    simp only [List.map_nil, List.not_mem_nil, false_iff]
    apply hempty d
    intro k hk
    rw [← hq, hq0] at hk
    simp at hk
  | succ fuel ih =>
    intro q d hnd hq hf
    by_cases hq0 : q = []
    · refine ⟨[], by rw [ShareTable.findLoop, if_pos hq0], List.nodup_nil, by simp, ?_⟩
      intro k
      simp only [List.map_nil, List.not_mem_nil, false_iff]
      apply hempty d
      intro k hk
      rw [← hq, hq0] at hk
      simp at hk
    · obtain ⟨a, b, h1, h2, h3, h4, h5, h6⟩ := h.lookAll hT q hnd (fun k hk => ((hq k).mp hk).1)
      obtain ⟨l, g1, g2, g3, g4⟩ := ih a (d + 1) h2 (by
        intro x
        rw [h3]
        constructor
        · rintro ⟨j, k, rfl, hk, hs, hj⟩
          refine ⟨hj, by rw [List.length_cons, ((hq k).mp hk).2.1], ?_⟩
          intro j' k' e
          cases e
          exact hs
        · rintro ⟨hx, hxl, hnp⟩
          cases x with
          | nil => simp at hxl
          | cons j k =>
            have hxl : k.length = d := by simpa using hxl
            refine ⟨j, k, rfl, (hq k).mpr ⟨h.up (List.suffix_cons j k) hx, hxl, ?_⟩, hnp j k rfl, hx⟩
            intro j' k' e hs
            subst e
            exact hnp j _ rfl (hs.mono (List.suffix_cons _ _))) (by omega)
      refine ⟨b ++ l, ?_, ?_, ?_, ?_⟩
      · rw [ShareTable.findLoop, if_neg hq0, h1]
        show Option.map _ (ShareTable.findLoop nch t fuel a) = _
        rw [g1]; rfl
      · rw [List.map_append, List.nodup_append]
        refine ⟨h4, g2, ?_⟩
        intro x hx y hy e
        subst e
        have e1 := ((hq x).mp ((h6 x).mp hx).1).2.1
        have e2 := ((g4 x).mp hy).2.2.1
        omega
      · intro x hx
        rcases List.mem_append.mp hx with hx | hx
        · exact h5 x hx
        · exact g3 x hx
      · intro k
        rw [List.map_append, List.mem_append, h6, g4, hq]
        constructor
        · rintro (⟨⟨e1, e2, e3⟩, e4⟩ | ⟨e1, e2, e3, e4⟩)
          · exact ⟨e1, e4, by omega, e3⟩
          · exact ⟨e1, e2, by omega, e4⟩
        · rintro ⟨e1, e2, e3, e4⟩
          rcases Nat.lt_or_ge d k.length with hlt | hge
          · exact Or.inr ⟨e1, e2, hlt, e4⟩
          · exact Or.inl ⟨⟨e1, by omega, e4⟩, e2⟩

/-- `find_nodes_` lists the highest cells of one process. -/
theorem Tab.findNodes (hT : IsTree nch G cells) (h : Tab G own Val r L t) (hroot : (t []).isSome) {D : Nat} (hD : ∀ k ∈ cells, k.length ≤ D) :
    ∃ es ns, findNodes nch t (D + 1) = some (es, ns) ∧ ((es ++ ns).map Item.key).Nodup ∧ (∀ x ∈ es ++ ns, ItemOk G own Val x) ∧ (∀ x ∈ es, x.ent = true) ∧ (∀ x ∈ ns, x.ent = false) ∧
      ∀ k, k ∈ (es ++ ns).map Item.key ↔ (t k).isSome ∧ Single G own k ∧ NP G own k := by
  obtain ⟨l, h1, h2, h3, h4⟩ := h.findLoop hT hD (D + 1) [[]] 0 (by simp) (by
    intro k
    simp only [List.mem_singleton, List.length_eq_zero_iff]
    constructor
    · rintro rfl
      exact ⟨hroot, rfl, fun j pk e => by cases e⟩
    · rintro ⟨-, e, -⟩
      exact e) (by omega)
  have hperm : (l.filter (fun x => x.ent) ++ l.filter fun x => !x.ent).Perm l := List.filter_append_perm _ l
  refine ⟨l.filter fun x => x.ent, l.filter fun x => !x.ent, by rw [ShareTable.findNodes, h1]; rfl, ?_, ?_, ?_, ?_, ?_⟩
  · exact ((hperm.map Item.key).nodup_iff).mpr h2
  · intro x hx
    exact h3 x (hperm.mem_iff.mp hx)
  · intro x hx
    simpa using (List.mem_filter.mp hx).2
  · intro x hx
    simpa using (List.mem_filter.mp hx).2
  · intro k
    rw [(hperm.map Item.key).mem_iff, h4]
    simp

/-- The listed items are the tops of some processes. -/
theorem ItemOk.top (hT : IsTree nch G cells) {x : Item V} (h : ItemOk G own Val x) (hn : NP G own x.key) : Top G own x.owner x.key := by
  obtain ⟨g, hg, -⟩ := h.ent
  exact ⟨by rw [hg]; rfl, h.all, hn⟩

theorem Tab.loadEnts (hT : IsTree nch G cells) (hroot : ¬ Single G own []) (hr : ∃ e, IsEnt G e ∧ own e = r) : ∀ (xs : List (Item V)) (t : Table V) (L : Key → Prop), Tab G own Val r L t →
    (xs.map Item.key).Nodup → (∀ x ∈ xs, ItemOk G own Val x ∧ NP G own x.key ∧ x.owner ≠ r ∧ ¬ L x.key ∧ x.ent = true) →
    ∃ t', xs.foldlM loadEnt t = some t' ∧ Tab G own Val r (fun l => L l ∨ l ∈ xs.map Item.key) t' := by
  intro xs
  induction xs with
  | nil => intro t L h _ _; exact ⟨t, rfl, by simpa using h⟩
  | cons x xs ih =>
    intro t L h hnd hx
    obtain ⟨h1, h2, h3, h4, h5⟩ := hx x List.mem_cons_self
    obtain ⟨g, hg, he⟩ := h1.ent
    have htop := h1.top hT h2
    obtain ⟨key, hkey⟩ : ∃ key, key = x.key := ⟨_, rfl⟩
    rw [List.map_cons, List.nodup_cons, ← hkey] at hnd
    rw [← hkey] at hg htop h4
    cases key with
    | nil => exact absurd ⟨_, htop.2.1⟩ hroot
    | cons j pk =>
      have habs := h.absent hT htop h3 h4
      obtain ⟨t1, g1, g2⟩ := h.loadOne hT hroot hr htop h3 h4 hg _ rfl
      have hload : loadEnt t x = some t1 := by
        rw [loadEnt, ← hkey]
        simp only [habs]
        rw [← g1, ← he, h5, h1.data, ← hkey]
        rfl
      obtain ⟨t', k1, k2⟩ := ih t1 _ g2 hnd.2 (by
        intro y hy
        obtain ⟨e1, e2, e3, e4, e5⟩ := hx y (List.mem_cons_of_mem _ hy)
        refine ⟨e1, e2, e3, ?_, e5⟩
        rintro (e6 | e6)
        · exact e4 e6
        · exact hnd.1 (List.mem_map.mpr ⟨y, hy, e6⟩))
      refine ⟨t', ?_, ?_⟩
      · rw [List.foldlM_cons, hload]; exact k1
      · have : (fun l => L l ∨ l ∈ (x :: xs).map Item.key) = fun l => (L l ∨ l = j :: pk) ∨ l ∈ xs.map Item.key := by
          funext l
          rw [List.map_cons, List.mem_cons, ← hkey, or_assoc]
        rw [this]; exact k2

theorem Tab.loadNodes (hT : IsTree nch G cells) (hroot : ¬ Single G own []) (hr : ∃ e, IsEnt G e ∧ own e = r) : ∀ (xs : List (Item V)) (t : Table V) (L : Key → Prop), Tab G own Val r L t →
    (xs.map Item.key).Nodup → (∀ x ∈ xs, ItemOk G own Val x ∧ NP G own x.key ∧ x.owner ≠ r ∧ ¬ L x.key ∧ x.ent = false) →
    ∃ t', xs.foldlM loadNode t = some t' ∧ Tab G own Val r (fun l => L l ∨ l ∈ xs.map Item.key) t' := by
  intro xs
  induction xs with
  | nil => intro t L h _ _; exact ⟨t, rfl, by simpa using h⟩
  | cons x xs ih =>
    intro t L h hnd hx
    obtain ⟨h1, h2, h3, h4, h5⟩ := hx x List.mem_cons_self
    obtain ⟨g, hg, he⟩ := h1.ent
    have htop := h1.top hT h2
    obtain ⟨key, hkey⟩ : ∃ key, key = x.key := ⟨_, rfl⟩
    rw [List.map_cons, List.nodup_cons, ← hkey] at hnd
    rw [← hkey] at hg htop h4
    cases key with
    | nil => exact absurd ⟨_, htop.2.1⟩ hroot
    | cons j pk =>
      have habs := h.absent hT htop h3 h4
      obtain ⟨t1, g1, g2⟩ := h.loadOne hT hroot hr htop h3 h4 hg _ rfl
      have hload : loadNode t x = some t1 := by
        rw [loadNode, ← hkey]
        simp only [habs]
        rw [← g1, ← he, h5, h1.data, ← hkey]
        rfl
      obtain ⟨t', k1, k2⟩ := ih t1 _ g2 hnd.2 (by
        intro y hy
        obtain ⟨e1, e2, e3, e4, e5⟩ := hx y (List.mem_cons_of_mem _ hy)
        refine ⟨e1, e2, e3, ?_, e5⟩
        rintro (e6 | e6)
        · exact e4 e6
        · exact hnd.1 (List.mem_map.mpr ⟨y, hy, e6⟩))
      refine ⟨t', ?_, ?_⟩
      · rw [List.foldlM_cons, hload]; exact k1
      · have : (fun l => L l ∨ l ∈ (x :: xs).map Item.key) = fun l => (L l ∨ l = j :: pk) ∨ l ∈ xs.map Item.key := by
          funext l
          rw [List.map_cons, List.mem_cons, ← hkey, or_assoc]
        rw [this]; exact k2

theorem Tab.load (hT : IsTree nch G cells) (hroot : ¬ Single G own []) (hr : ∃ e, IsEnt G e ∧ own e = r) (h : Tab G own Val r L t) (es ns : List (Item V))
    (hnd : ((es ++ ns).map Item.key).Nodup) (hes : ∀ x ∈ es, x.ent = true) (hns : ∀ x ∈ ns, x.ent = false)
    (hx : ∀ x ∈ es ++ ns, ItemOk G own Val x ∧ NP G own x.key ∧ x.owner ≠ r ∧ ¬ L x.key) :
    ∃ t', load r t es ns = some t' ∧ Tab G own Val r (fun l => L l ∨ l ∈ (es ++ ns).map Item.key) t' := by
  rw [List.map_append, List.nodup_append] at hnd
  have hf1 : es.filter (fun x => x.owner ≠ r) = es := by
    rw [List.filter_eq_self]
    intro x hx'
    simpa using (hx x (List.mem_append_left _ hx')).2.2.1
  have hf2 : ns.filter (fun x => x.owner ≠ r) = ns := by
    rw [List.filter_eq_self]
    intro x hx'
    simpa using (hx x (List.mem_append_right _ hx')).2.2.1
  obtain ⟨t1, h1, h2⟩ := Tab.loadEnts hT hroot hr es t L h hnd.1 (fun x hx' => by
    obtain ⟨a, b, c, d⟩ := hx x (List.mem_append_left _ hx')
    exact ⟨a, b, c, d, hes x hx'⟩)
  obtain ⟨t2, h3, h4⟩ := Tab.loadNodes hT hroot hr ns t1 _ h2 hnd.2.1 (fun x hx' => by
    obtain ⟨a, b, c, d⟩ := hx x (List.mem_append_right _ hx')
    refine ⟨a, b, c, ?_, hns x hx'⟩
    rintro (e | e)
    · exact d e
    · exact hnd.2.2 _ e _ (List.mem_map.mpr ⟨x, hx', rfl⟩) rfl)
  refine ⟨t2, ?_, ?_⟩
  · rw [ShareTable.load, hf1, hf2, h1]
    exact h3
  · have : (fun l => L l ∨ l ∈ (es ++ ns).map Item.key) = fun l => (L l ∨ l ∈ es.map Item.key) ∨ l ∈ ns.map Item.key := by
      funext l
      rw [List.map_append, List.mem_append, or_assoc]
    rw [this]; exact h4

end FleCSPH.ShareTable
