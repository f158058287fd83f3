import Verif.Spec.ShareTable
import Mathlib.Data.Finset.Lattice.Fold
import Mathlib.Data.Finset.Max
/-! Facts about cells whose particles belong to one process. -/
namespace FleCSPH.Ghosts

variable {nch : Nat} {G : List Nat → Option GCell} {cells : Finset (List Nat)} {own : List Nat → Nat}

theorem suffix_cons_cases {a : List Nat} {j : Nat} {k : List Nat} (h : a <:+ j :: k) : a = j :: k ∨ a <:+ k := List.suffix_cons_iff.mp h

theorem tree_up (hT : IsTree nch G cells) {k : List Nat} : ∀ {k' : List Nat}, k <:+ k' → (G k').isSome → (G k).isSome := by
  intro k'
  induction k' with
  | nil => intro h h1; rw [List.suffix_nil.mp h]; exact h1
  | cons j pk ih =>
    intro h h1
    rcases suffix_cons_cases h with rfl | h
    · exact h1
    · obtain ⟨g, hg, -⟩ := (hT.child j pk).mp h1
      exact ih h (by rw [hg]; rfl)

theorem exists_ent (hT : IsTree nch G cells) {k : List Nat} (hk : (G k).isSome) : ∃ e, IsEnt G e ∧ k <:+ e := by
  obtain ⟨N, hN⟩ : ∃ N, ∀ k ∈ cells, k.length ≤ N := ⟨cells.sup List.length, fun k hk => Finset.le_sup (f := List.length) hk⟩
  obtain ⟨m, hm⟩ : ∃ m, N + 1 - k.length = m := ⟨_, rfl⟩
  induction m generalizing k with
  | zero =>
    have := hN k ((hT.mem k).mpr hk)
    omega
  | succ m ih =>
    obtain ⟨g, hg⟩ := Option.isSome_iff_exists.mp hk
    by_cases he : g.ent = true
    · exact ⟨k, ⟨g, hg, he⟩, List.suffix_refl _⟩
    · have : g.kids.Nonempty := by
        rw [Finset.nonempty_iff_ne_empty]
        intro h
        exact he ((hT.leaf k g hg).mpr h)
      obtain ⟨j, hj⟩ := this
      obtain ⟨e, he, hs⟩ := ih (k := j :: k) ((hT.child j k).mpr ⟨g, hg, hj⟩) (by rw [List.length_cons]; omega)
      exact ⟨e, he, (List.suffix_cons j k).trans hs⟩

theorem AllOf.mono {s : Nat} {k k' : List Nat} (h : AllOf G own s k) (hs : k <:+ k') : AllOf G own s k' := fun e he h1 => h e he (hs.trans h1)

theorem Single.mono {k k' : List Nat} (h : Single G own k) (hs : k <:+ k') : Single G own k' := let ⟨s, h⟩ := h; ⟨s, h.mono hs⟩

theorem AllOf.someOf (hT : IsTree nch G cells) {s : Nat} {k : List Nat} (hk : (G k).isSome) (h : AllOf G own s k) : SomeOf G own s k := by
  obtain ⟨e, he, hs⟩ := exists_ent hT hk
  exact ⟨e, he, hs, h e he hs⟩

theorem AllOf.eq {s s' : Nat} {k : List Nat} (h : AllOf G own s k) (h' : SomeOf G own s' k) : s' = s := by
  obtain ⟨e, he, hs, ho⟩ := h'
  rw [← ho]; exact h e he hs

theorem SomeOf.mono {s : Nat} {k k' : List Nat} (h : SomeOf G own s k') (hs : k <:+ k') : SomeOf G own s k := by
  obtain ⟨e, he, h1, ho⟩ := h
  exact ⟨e, he, hs.trans h1, ho⟩

theorem SomeOf.isSome (hT : IsTree nch G cells) {s : Nat} {k : List Nat} (h : SomeOf G own s k) : (G k).isSome := by
  obtain ⟨e, ⟨g, hg, -⟩, hs, -⟩ := h
  exact tree_up hT hs (by rw [hg]; rfl)

/-- An entity cell holds nothing below. -/
theorem ent_below (hT : IsTree nch G cells) {e : List Nat} (he : IsEnt G e) : ∀ {k : List Nat}, e <:+ k → (G k).isSome → k = e := by
  intro k
  induction k with
  | nil => intro h _; exact (List.suffix_nil.mp h).symm
  | cons j pk ih =>
    intro h hk
    rcases suffix_cons_cases h with h1 | h1
    · exact h1.symm
    · obtain ⟨g, hg, hj⟩ := (hT.child j pk).mp hk
      have h2 := ih h1 (by rw [hg]; rfl)
      subst h2
      obtain ⟨g', hg', he'⟩ := he
      rw [hg] at hg'
      cases hg'
      rw [(hT.leaf _ _ hg).mp he'] at hj
      simp at hj

theorem ent_allOf (hT : IsTree nch G cells) {e : List Nat} (he : IsEnt G e) : AllOf G own (own e) e := by
  intro e' he' hs
  obtain ⟨g, hg, -⟩ := he'
  rw [ent_below hT he hs (by rw [hg]; rfl)]

theorem Top.eq {s s' : Nat} {l l' : List Nat} (h : Top G own s l) (h' : Top G own s' l') (hs : l <:+ l') : l = l' := by
  cases l' with
  | nil => exact List.suffix_nil.mp hs
  | cons j pk =>
    rcases suffix_cons_cases hs with h1 | h1
    · exact h1
    · exact absurd (Single.mono ⟨s, h.2.1⟩ h1) (h'.2.2 j pk rfl)

theorem single_not_above {s : Nat} {l k : List Nat} (h : Top G own s l) (hk : Single G own k) (hs : k <:+ l) : k = l := by
  cases l with
  | nil => exact List.suffix_nil.mp hs
  | cons j pk =>
    rcases suffix_cons_cases hs with h1 | h1
    · exact h1
    · exact absurd (Single.mono hk h1) (h.2.2 j pk rfl)

theorem top_between (hT : IsTree nch G cells) {k : List Nat} (hk : ¬ Single G own k) :
    ∀ {a : List Nat}, k <:+ a → Single G own a → (G a).isSome → ∃ l s, k <:+ l ∧ l <:+ a ∧ Top G own s l := by
  intro a
  induction a with
  | nil => intro h h1 _; rw [List.suffix_nil.mp h] at hk; exact absurd h1 hk
  | cons j pk ih =>
    intro h h1 h2
    by_cases hp : Single G own pk
    · rcases suffix_cons_cases h with h3 | h3
      · rw [h3] at hk; exact absurd h1 hk
      · obtain ⟨l, s, h4, h5, h6⟩ := ih h3 hp (tree_up hT (List.suffix_cons j pk) h2)
        exact ⟨l, s, h4, h5.trans (List.suffix_cons j pk), h6⟩
    · obtain ⟨s, hs⟩ := h1
      refine ⟨j :: pk, s, h, List.suffix_refl _, h2, hs, ?_⟩
      intro j' pk' e
      cases e
      exact hp

/-- Above each entity in a cell of several processes there is a top of its owner, in the cell. -/
theorem top_above (hT : IsTree nch G cells) {k e : List Nat} (hk : ¬ Single G own k) (he : IsEnt G e) (hs : k <:+ e) :
    ∃ l, k <:+ l ∧ l <:+ e ∧ Top G own (own e) l := by
  obtain ⟨g, hg, hge⟩ := he
  obtain ⟨l, s, h1, h2, h3⟩ := top_between hT hk hs ⟨own e, ent_allOf hT ⟨g, hg, hge⟩⟩ (by rw [hg]; rfl)
  have : own e = s := h3.2.1 e ⟨g, hg, hge⟩ h2
  rw [← this] at h3
  exact ⟨l, h1, h2, h3⟩

end FleCSPH.Ghosts
