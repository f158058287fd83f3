import Verif.Model.ShareTable
import Verif.Lemmas.ShareTop
/-! Loading one node or entity of another process into a table. -/
namespace FleCSPH.ShareTable
open FleCSPH.Ghosts

variable {V : Type}

theorem set_self (t : Table V) (k : Key) (c : Cell V) : t.set k c k = some c := by simp [Table.set]

theorem set_ne (t : Table V) {k k' : Key} (c : Cell V) (h : k' ≠ k) : t.set k c k' = t k' := by simp [Table.set, h]

/-- The cell `add_parent_` creates. -/
def fresh (o j : Nat) : Cell V := { ent := false, node := false, kids := {j}, owner := o, shared := true, data := none }

/-- What `add_parent_` does with the chain above a cell. -/
structure Linked (o : Nat) (t : Table V) (k : Key) (j : Nat) (t' : Table V) : Prop where
  other : ∀ k', ¬ k' <:+ k → t' k' = t k'
  new : ∀ j' k', j' :: k' <:+ j :: k → t k' = none → t' k' = some (fresh o j')
  link : ∀ j' k' c, j' :: k' <:+ j :: k → t k' = some c → (j' :: k' = j :: k ∨ t (j' :: k') = none) → t' k' = some { c with kids := insert j' c.kids }
  keep : ∀ j' k' c, j' :: k' <:+ j :: k → t k' = some c → j' :: k' ≠ j :: k → (t (j' :: k')).isSome → t' k' = some c

theorem not_suffix_parent {j : Nat} {k : Key} : ¬ (j :: k) <:+ k := by
  intro h
  have := h.length_le
  rw [List.length_cons] at this
  omega

theorem suffix_tail {j j' : Nat} {k k' : Key} (h : j' :: k' <:+ j :: k) : k' <:+ k := by
  rcases suffix_cons_cases h with h1 | h1
  · cases h1; exact List.suffix_refl _
  · exact (List.suffix_cons j' k').trans h1

theorem addParent_spec (o : Nat) : ∀ (k : Key) (t : Table V) (j : Nat), (t []).isSome →
    (∀ a b, b <:+ a → a <:+ k → (t a).isSome → (t b).isSome) → ∃ t', addParent o t k j = some t' ∧ Linked o t k j t' := by
  intro k
  induction k with
  | nil =>
    intro t j h0 _
    obtain ⟨c, hc⟩ := Option.isSome_iff_exists.mp h0
    refine ⟨t.set [] { c with kids := insert j c.kids }, ?_, ?_, ?_, ?_, ?_⟩
    · rw [addParent]
      simp [hc]
    · intro k' hk'
      exact set_ne _ _ (fun e => hk' (e ▸ List.suffix_refl _))
    · intro j' k' h1 h2
      have := List.suffix_nil.mp (suffix_tail h1)
      subst this
      rw [hc] at h2; cases h2
    · intro j' k' c' h1 h2 h3
      have := List.suffix_nil.mp (suffix_tail h1)
      subst this
      rw [hc] at h2; cases h2
      rcases suffix_cons_cases h1 with h4 | h4
      · cases h4; exact set_self _ _ _
      · have := List.suffix_nil.mp h4; cases this
    · intro j' k' c' h1 h2 h3
      have := List.suffix_nil.mp (suffix_tail h1)
      subst this
      rcases suffix_cons_cases h1 with h4 | h4
      · exact absurd h4 h3
      · have := List.suffix_nil.mp h4; cases this
  | cons i pk ih =>
    intro t j h0 hcl
    cases hk : t (i :: pk) with
    | some c =>
      refine ⟨t.set (i :: pk) { c with kids := insert j c.kids }, ?_, ?_, ?_, ?_, ?_⟩
      · rw [addParent]
        simp [hk]
      · intro k' hk'
        exact set_ne _ _ (fun e => hk' (e ▸ List.suffix_refl _))
      · intro j' k' h1 h2
        have := hcl (i :: pk) k' (suffix_tail h1) (List.suffix_refl _) (by rw [hk]; rfl)
        rw [h2] at this; cases this
      · intro j' k' c' h1 h2 h3
        rcases suffix_cons_cases h1 with h4 | h4
        · cases h4
          rw [hk] at h2; cases h2
          exact set_self _ _ _
        · have h5 := hcl (i :: pk) (j' :: k') h4 (List.suffix_refl _) (by rw [hk]; rfl)
          rcases h3 with h3 | h3
          · rw [h3] at h4; exact absurd h4 not_suffix_parent
          · rw [h3] at h5; cases h5
      · intro j' k' c' h1 h2 h3 h4
        rcases suffix_cons_cases h1 with h5 | h5
        · exact absurd h5 h3
        · rw [set_ne, h2]
          intro e
          rw [e] at h5
          exact not_suffix_parent h5
    | none =>
      have hadd : addParent o t (i :: pk) j = addParent o (t.set (i :: pk) (fresh o j)) pk i := by
        conv_lhs => unfold addParent
        simp [hk, fresh]
      obtain ⟨t', h1, h2⟩ := ih (t.set (i :: pk) (fresh o j)) i (by rw [set_ne _ _ (by simp)]; exact h0) (by
        intro a b hb ha h
        have ha' : a ≠ i :: pk := by rintro rfl; exact not_suffix_parent ha
        have hb' : b ≠ i :: pk := by rintro rfl; exact not_suffix_parent (hb.trans ha)
        rw [set_ne _ _ ha'] at h
        rw [set_ne _ _ hb']
        exact hcl a b hb (ha.trans (List.suffix_cons i pk)) h)
      have hset : ∀ {k'}, k' <:+ pk → t.set (i :: pk) (fresh o j) k' = t k' := by
        intro k' h
        apply set_ne
        rintro rfl
        exact not_suffix_parent h
      refine ⟨t', by rw [hadd]; exact h1, ?_, ?_, ?_, ?_⟩
      · intro k' hk'
        rw [h2.other k' (fun h => hk' (h.trans (List.suffix_cons i pk))), set_ne]
        rintro rfl
        exact hk' (List.suffix_refl _)
      · intro j' k' h3 h4
        rcases suffix_cons_cases h3 with h5 | h5
        · cases h5
          rw [h2.other _ not_suffix_parent, set_self]
        · exact h2.new j' k' h5 (by rw [hset (suffix_tail h5)]; exact h4)
      · intro j' k' c h3 h4 h5
        rcases suffix_cons_cases h3 with h6 | h6
        · cases h6
          rw [hk] at h4; cases h4
        · refine h2.link j' k' c h6 (by rw [hset (suffix_tail h6)]; exact h4) ?_
          rcases suffix_cons_cases h6 with h7 | h7
          · exact Or.inl h7
          · right
            rw [hset h7]
            rcases h5 with h5 | h5
            · rw [h5] at h6; exact absurd h6 not_suffix_parent
            · exact h5
      · intro j' k' c h3 h4 h5 h6
        rcases suffix_cons_cases h3 with h7 | h7
        · exact absurd h7 h5
        · rcases suffix_cons_cases h7 with h8 | h8
          · cases h8
            rw [hk] at h6; cases h6
          · refine h2.keep j' k' c h7 (by rw [hset (suffix_tail h7)]; exact h4) ?_ (by rw [hset h8]; exact h6)
            intro e
            rw [e] at h8
            exact not_suffix_parent h8

/-- The table of process `r` with its own cells and those leading to the cells in `L`, loaded from others. -/
structure Tab (G : Key → Option GCell) (own : Key → Nat) (Val : Key → V) (r : Nat) (L : Key → Prop) (t : Table V) : Prop where
  tops : ∀ l, L l → ∃ s, s ≠ r ∧ Top G own s l
  mem : ∀ k, (t k).isSome ↔ SomeOf G own r k ∨ ∃ l, L l ∧ k <:+ l
  ent : ∀ k c, t k = some c → ∃ g, G k = some g ∧ c.ent = g.ent
  set_ : ∀ k c, t k = some c → (unset c = false ↔ Single G own k)
  one : ∀ k c, t k = some c → c.ent = true → c.node = false
  kids : ∀ k c j, t k = some c → (j ∈ c.kids ↔ (t (j :: k)).isSome)
  owner : ∀ k c, t k = some c → SomeOf G own c.owner k ∧ (SomeOf G own r k → c.owner = r)
  data : ∀ k c, t k = some c → Single G own k → c.data = some (Val k)
  shared : ∀ k c, t k = some c → c.ent = true → (c.shared = false ↔ c.owner = r)

variable {nch : Nat} {G : Key → Option GCell} {cells : Finset Key} {own : Key → Nat} {Val : Key → V} {r : Nat} {L : Key → Prop} {t : Table V}

theorem Tab.up (h : Tab G own Val r L t) {a b : Key} (hs : b <:+ a) (ha : (t a).isSome) : (t b).isSome := by
  rw [h.mem] at *
  rcases ha with ha | ⟨l, hl, ha⟩
  · exact Or.inl (ha.mono hs)
  · exact Or.inr ⟨l, hl, hs.trans ha⟩

/-- A top of another process which was not loaded is not there. -/
theorem Tab.absent (hT : IsTree nch G cells) (h : Tab G own Val r L t) {s : Nat} {l : Key} (hl : Top G own s l) (hs : s ≠ r) (hn : ¬ L l) : t l = none := by
  rw [← Option.not_isSome_iff_eq_none, h.mem]
  rintro (h1 | ⟨l', h1, h2⟩)
  · exact hs (hl.2.1.eq h1).symm
  · obtain ⟨s', -, h3⟩ := h.tops l' h1
    rw [hl.eq h3 h2] at hn
    exact hn h1

theorem Tab.loadOne (hT : IsTree nch G cells) (hroot : ¬ Single G own []) (hr : ∃ e, IsEnt G e ∧ own e = r) (h : Tab G own Val r L t) {s : Nat} {j : Nat} {pk : Key} (hl : Top G own s (j :: pk)) (hs : s ≠ r)
    (hn : ¬ L (j :: pk)) {g : GCell} (hg : G (j :: pk) = some g) (c0 : Cell V)
    (hc0 : c0 = { ent := g.ent, node := !g.ent, kids := ∅, owner := s, shared := true, data := some (Val (j :: pk)) }) :
    ∃ t', addParent s (t.set (j :: pk) c0) pk j = some t' ∧ Tab G own Val r (fun l => L l ∨ l = j :: pk) t' := by
  have hroots : (t []).isSome := by
    rw [h.mem]
    obtain ⟨e, he, ho⟩ := hr
    exact Or.inl ⟨e, he, List.nil_suffix, ho⟩
  have habs := h.absent hT hl hs hn
  have hnr : ¬ SomeOf G own r (j :: pk) := fun h1 => hs (hl.2.1.eq h1).symm
  have hset : ∀ {k'}, k' <:+ pk → t.set (j :: pk) c0 k' = t k' := by
    intro k' h
    apply set_ne
    rintro rfl
    exact not_suffix_parent h
  obtain ⟨t', h1, h2⟩ := addParent_spec s pk (t.set (j :: pk) c0) j (by rw [hset List.nil_suffix]; exact hroots) (by
    intro a b hb ha hsome
    rw [hset ha] at hsome
    rw [hset (hb.trans ha)]
    exact h.up hb hsome)
  refine ⟨t', h1, ?_⟩
  -- the cells of the new table
  have hself : t' (j :: pk) = some c0 := by rw [h2.other _ not_suffix_parent, set_self]
  have hold : ∀ k', ¬ k' <:+ j :: pk → t' k' = t k' := by
    intro k' hk'
    rw [h2.other k' (fun h => hk' (h.trans (List.suffix_cons j pk))), set_ne]
    rintro rfl
    exact hk' (List.suffix_refl _)
  have hmem : ∀ k, (t' k).isSome ↔ (t k).isSome ∨ k <:+ j :: pk := by
    intro k
    by_cases hk : k <:+ j :: pk
    · simp only [hk, or_true, iff_true]
      rcases suffix_cons_cases hk with rfl | hk2
      · rw [hself]; rfl
      · obtain ⟨j', hj'⟩ : ∃ j', j' :: k <:+ j :: pk := by
          obtain ⟨u, hu⟩ := hk2
          rcases List.eq_nil_or_concat u with rfl | ⟨u', x, rfl⟩
          · exact ⟨j, by rw [← hu]; simp⟩
          · exact ⟨x, j :: u', by rw [← hu]; simp⟩
        cases hc : t k with
        | none => rw [h2.new j' k hj' (by rw [hset hk2]; exact hc)]; rfl
        | some c =>
          by_cases hcase : j' :: k = j :: pk ∨ t.set (j :: pk) c0 (j' :: k) = none
          · rw [h2.link j' k c hj' (by rw [hset hk2]; exact hc) hcase]; rfl
          · rw [not_or] at hcase
            rw [h2.keep j' k c hj' (by rw [hset hk2]; exact hc) hcase.1 (Option.isSome_iff_ne_none.mpr hcase.2)]; rfl
    · rw [hold k hk]
      simp [hk]
  -- which cell it is
  have hcell : ∀ k c', t' k = some c' →
      (k = j :: pk ∧ c' = c0) ∨ (∃ c, t k = some c ∧ (c' = c ∧ (∀ j', j' :: k <:+ j :: pk → (t (j' :: k)).isSome) ∨
        ∃ j', j' :: k <:+ j :: pk ∧ t (j' :: k) = none ∧ c' = { c with kids := insert j' c.kids })) ∨
      (t k = none ∧ ∃ j', j' :: k <:+ j :: pk ∧ c' = fresh s j') := by
    intro k c' hc'
    by_cases hk : k <:+ j :: pk
    · rcases suffix_cons_cases hk with rfl | hk2
      · rw [hself] at hc'; cases hc'
        exact Or.inl ⟨rfl, rfl⟩
      · obtain ⟨j', hj'⟩ : ∃ j', j' :: k <:+ j :: pk := by
          obtain ⟨u, hu⟩ := hk2
          rcases List.eq_nil_or_concat u with rfl | ⟨u', x, rfl⟩
          · exact ⟨j, by rw [← hu]; simp⟩
          · exact ⟨x, j :: u', by rw [← hu]; simp⟩
        have huniq : ∀ j'', j'' :: k <:+ j :: pk → j'' = j' := by
          intro j'' h3
          have := (List.suffix_of_suffix_length_le h3 hj' (by simp)).eq_of_length (by simp)
          simp at this; exact this
        cases hc : t k with
        | none =>
          rw [h2.new j' k hj' (by rw [hset hk2]; exact hc)] at hc'
          cases hc'
          exact Or.inr (Or.inr ⟨rfl, j', hj', rfl⟩)
        | some c =>
          refine Or.inr (Or.inl ⟨c, rfl, ?_⟩)
          by_cases hcase : j' :: k = j :: pk ∨ t.set (j :: pk) c0 (j' :: k) = none
          · rw [h2.link j' k c hj' (by rw [hset hk2]; exact hc) hcase] at hc'
            cases hc'
            refine Or.inr ⟨j', hj', ?_, rfl⟩
            rcases hcase with h3 | h3
            · rw [h3]; exact habs
            · by_cases h4 : j' :: k = j :: pk
              · rw [h4]; exact habs
              · rw [set_ne _ _ h4] at h3; exact h3
          · rw [not_or] at hcase
            rw [h2.keep j' k c hj' (by rw [hset hk2]; exact hc) hcase.1 (Option.isSome_iff_ne_none.mpr hcase.2)] at hc'
            cases hc'
            refine Or.inl ⟨rfl, ?_⟩
            intro j'' h3
            rw [huniq j'' h3]
            have := hcase.2
            rw [set_ne _ _ hcase.1] at this
            exact Option.isSome_iff_ne_none.mpr this
    · rw [hold k hk] at hc'
      refine Or.inr (Or.inl ⟨c', hc', Or.inl ⟨rfl, ?_⟩⟩)
      intro j' h3
      exact absurd ((List.suffix_cons j' k).trans h3) hk
  -- cells above the new one belong to several processes
  have habove : ∀ {j' k}, j' :: k <:+ j :: pk → ¬ Single G own k := by
    intro j' k h3 h4
    have h5 := single_not_above hl h4 ((List.suffix_cons j' k).trans h3)
    rw [← h5] at h3
    exact not_suffix_parent h3
  have hsome : ∀ {k}, k <:+ j :: pk → SomeOf G own s k := fun h3 => (hl.2.1.someOf hT hl.1).mono h3
  constructor
  · rintro l (h3 | rfl)
    · exact h.tops l h3
    · exact ⟨s, hs, hl⟩
  · intro k
    rw [hmem, h.mem]
    constructor
    · rintro ((h3 | ⟨l, h3, h4⟩) | h3)
      · exact Or.inl h3
      · exact Or.inr ⟨l, Or.inl h3, h4⟩
      · exact Or.inr ⟨_, Or.inr rfl, h3⟩
    · rintro (h3 | ⟨l, h3 | rfl, h4⟩)
      · exact Or.inl (Or.inl h3)
      · exact Or.inl (Or.inr ⟨l, h3, h4⟩)
      · exact Or.inr h4
  · intro k c' hc'
    rcases hcell k c' hc' with ⟨rfl, rfl⟩ | ⟨c, hc, ⟨rfl, -⟩ | ⟨j', -, -, rfl⟩⟩ | ⟨hnone, j', hj', rfl⟩
    · exact ⟨g, hg, by rw [hc0]⟩
    · exact h.ent k _ hc
    · exact h.ent k c hc
    · obtain ⟨g', hg'⟩ := Option.isSome_iff_exists.mp ((hsome ((List.suffix_cons j' k).trans hj')).isSome hT)
      refine ⟨g', hg', ?_⟩
      show false = g'.ent
      by_contra hge
      have : g'.ent = true := by simpa using hge
      exact habove hj' ⟨_, ent_allOf hT ⟨g', hg', this⟩⟩
  · intro k c' hc'
    rcases hcell k c' hc' with ⟨rfl, rfl⟩ | ⟨c, hc, ⟨rfl, -⟩ | ⟨j', hj', -, rfl⟩⟩ | ⟨hnone, j', hj', rfl⟩
    · have h3 : unset c' = false := by rw [hc0]; cases g.ent <;> rfl
      have h4 : Single G own (j :: pk) := ⟨s, hl.2.1⟩
      simp [h3, h4]
    · exact h.set_ k _ hc
    · exact h.set_ k c hc
    · have : unset (fresh s j' : Cell V) = true := rfl
      simp [this, habove hj']
  · intro k c' hc' he
    rcases hcell k c' hc' with ⟨rfl, rfl⟩ | ⟨c, hc, ⟨rfl, -⟩ | ⟨j', hj', -, rfl⟩⟩ | ⟨hnone, j', hj', rfl⟩
    · rw [hc0] at he ⊢
      have he : g.ent = true := he
      show (!g.ent) = false
      rw [he]; rfl
    · exact h.one k _ hc he
    · exact h.one k c hc he
    · cases he
  · intro k c' i hc'
    rw [hmem]
    rcases hcell k c' hc' with ⟨rfl, rfl⟩ | ⟨c, hc, ⟨rfl, h3⟩ | ⟨j', hj', h3, rfl⟩⟩ | ⟨hnone, j', hj', rfl⟩
    · rw [hc0]
      constructor
      · intro hi; simp at hi
      · rintro (h3 | h3)
        · have := h.up (List.suffix_cons i _) h3
          rw [habs] at this; cases this
        · exact absurd h3 not_suffix_parent
    · rw [h.kids k _ i hc]
      constructor
      · exact Or.inl
      · rintro (h4 | h4)
        · exact h4
        · exact h3 i h4
    · show i ∈ insert j' c.kids ↔ _
      rw [Finset.mem_insert, h.kids k c i hc]
      constructor
      · rintro (rfl | h4)
        · exact Or.inr hj'
        · exact Or.inl h4
      · rintro (h4 | h4)
        · exact Or.inr h4
        · left
          have := (List.suffix_of_suffix_length_le h4 hj' (by simp)).eq_of_length (by simp)
          simp at this; exact this
    · show i ∈ ({j'} : Finset Nat) ↔ _
      rw [Finset.mem_singleton]
      constructor
      · rintro rfl; exact Or.inr hj'
      · rintro (h4 | h4)
        · have := h.up (List.suffix_cons i k) h4
          rw [hnone] at this; cases this
        · have := (List.suffix_of_suffix_length_le h4 hj' (by simp)).eq_of_length (by simp)
          simp at this; exact this
  · intro k c' hc'
    rcases hcell k c' hc' with ⟨rfl, rfl⟩ | ⟨c, hc, ⟨rfl, -⟩ | ⟨j', hj', -, rfl⟩⟩ | ⟨hnone, j', hj', rfl⟩
    · rw [hc0]
      exact ⟨hl.2.1.someOf hT hl.1, fun h3 => absurd h3 hnr⟩
    · exact h.owner k _ hc
    · exact h.owner k c hc
    · refine ⟨hsome ((List.suffix_cons j' k).trans hj'), fun h3 => ?_⟩
      have := (h.mem k).mpr (Or.inl h3)
      rw [hnone] at this; cases this
  · intro k c' hc' hsi
    rcases hcell k c' hc' with ⟨rfl, rfl⟩ | ⟨c, hc, ⟨rfl, -⟩ | ⟨j', hj', -, rfl⟩⟩ | ⟨hnone, j', hj', rfl⟩
    · rw [hc0]
    · exact h.data k _ hc hsi
    · exact h.data k c hc hsi
    · exact absurd hsi (habove hj')
  · intro k c' hc' he
    rcases hcell k c' hc' with ⟨rfl, rfl⟩ | ⟨c, hc, ⟨rfl, -⟩ | ⟨j', hj', -, rfl⟩⟩ | ⟨hnone, j', hj', rfl⟩
    · rw [hc0]
      simp [hs]
    · exact h.shared k _ hc he
    · exact h.shared k c hc he
    · cases he

end FleCSPH.ShareTable
