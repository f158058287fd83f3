import Verif.Lemmas.StartupTab
import Verif.Spec.GhostRun
/-! The tables after `share_nodes_` are those a traversal can start from. -/
namespace FleCSPH.Startup
open FleCSPH.Spec FleCSPH.Ghosts FleCSPH.ShareTable

variable {V : Type} {nch : Nat} {G : List Nat → Option GCell} {cells : Finset (List Nat)} {own : List Nat → Nat} {Val : List Nat → V} {r : Nat} {t : ShareTable.Table V}

theorem final_full (hT : IsTree nch G cells) (h : Final G own Val r t) {k : List Nat} {c : ShareTable.Cell V} (hc : t k = some c) {g : GCell} (hg : G k = some g)
    (hs : SomeOf G own r k ∨ ¬ Single G own k) : c.kids = g.kids := by
  ext j
  rw [h.kids k c j hc, h.mem]
  constructor
  · intro hw
    obtain ⟨g', hg', hj⟩ := (hT.child j k).mp hw.1
    rw [hg] at hg'; cases hg'
    exact hj
  · intro hj
    have hjs := (hT.child j k).mpr ⟨g, hg, hj⟩
    refine ⟨hjs, ?_⟩
    by_cases hsing : Single G own k
    · left
      rcases hs with hs | hs
      · obtain ⟨s, hall⟩ := hsing
        have := hall.eq hs
        subst this
        exact AllOf.someOf hT hjs (hall.mono (List.suffix_cons _ _))
      · exact absurd hsing hs
    · right
      intro j' pk e
      cases e
      exact hsing

theorem final_empty (h : Final G own Val r t) {k : List Nat} {c : ShareTable.Cell V} (hc : t k = some c) (hs : ¬ SomeOf G own r k) (hsing : Single G own k) : c.kids = ∅ := by
  rw [Finset.eq_empty_iff_forall_notMem]
  intro j hj
  rw [h.kids k c j hc, h.mem] at hj
  rcases hj.2 with h1 | h1
  · exact hs (h1.mono (List.suffix_cons _ _))
  · exact h1 j k rfl hsing

theorem final_cases (hT : IsTree nch G cells) (h : Final G own Val r t) {k : List Nat} {c : ShareTable.Cell V} (hc : t k = some c) : ∃ g, G k = some g ∧ c.ent = g.ent ∧ (c.kids = ∅ ∨ c.kids = g.kids) := by
  obtain ⟨g, hg, he, -⟩ := h.kind k c hc
  refine ⟨g, hg, he, ?_⟩
  by_cases hs : SomeOf G own r k
  · exact Or.inr (final_full hT h hc hg (Or.inl hs))
  · by_cases hsing : Single G own k
    · exact Or.inl (final_empty h hc hs hsing)
    · exact Or.inr (final_full hT h hc hg (Or.inr hsing))

section
variable {n : Nat} {s : List (ShareTable.Proc V)} (hT : IsTree nch G cells) (hown : ∀ r < n, ∃ e, IsEnt G e ∧ own e = r) (hlt : ∀ e, IsEnt G e → own e < n)
  (hf : ∀ r < n, ∃ me, s[r]? = some me ∧ Final G own Val r me.tbl)
include hT hf

omit hT in
theorem ghost_some {p : Nat} (hp : p < n) {k : List Nat} {c : Ghosts.Cell} (hc : ghostTables s p k = some c) : ∃ me c', s[p]? = some me ∧ Final G own Val p me.tbl ∧ me.tbl k = some c' ∧ c = ghostCell c' := by
  obtain ⟨me, h1, h2⟩ := hf p hp
  rw [ghostTables, h1] at hc
  simp only [Option.map_eq_some_iff] at hc
  obtain ⟨c', h3, h4⟩ := hc
  exact ⟨me, c', h1, h2, h3, h4.symm⟩

omit hT in
theorem ghost_of {p : Nat} (hp : p < n) {k : List Nat} (hw : Wanted G own p k) : ∃ me c, s[p]? = some me ∧ Final G own Val p me.tbl ∧ me.tbl k = some c ∧ ghostTables s p k = some (ghostCell c) := by
  obtain ⟨me, h1, h2⟩ := hf p hp
  obtain ⟨c, hc⟩ := Option.isSome_iff_exists.mp ((h2.mem k).mpr hw)
  refine ⟨me, c, h1, h2, hc, ?_⟩
  rw [ghostTables, h1]
  simp only [hc, Option.map_some]

theorem mine_some {τ ω : Type} {p : Nat} (hp : p < n) {k : List Nat} (hs : SomeOf G own p k) (tasks : Nat → List τ) : Mine (begin_ (ω := ω) s tasks) p k := by
  obtain ⟨me, c, -, h2, h3, h4⟩ := ghost_of hf hp ⟨hs.isSome hT, Or.inl hs⟩
  exact ⟨ghostCell c, h4, (h2.owner k c h3).2 hs⟩

include hown

theorem mine_root {τ ω : Type} (tasks : Nat → List τ) : ∀ p < n, Mine (begin_ (ω := ω) s tasks) p [] := by
  intro p hp
  obtain ⟨e, he, ho⟩ := hown p hp
  exact mine_some hT hf hp ⟨e, he, List.nil_suffix, ho⟩ tasks

omit hown in
theorem owns_ent {τ ω : Type} (tasks : Nat → List τ) {p : Nat} (hp : p < n) {e : List Nat} (he : IsEnt G e) (ho : own e = p) : Owns G (begin_ (ω := ω) s tasks) p e :=
  ⟨he, fun _ ha => mine_some hT hf hp ⟨e, he, ha, ho⟩ tasks⟩

include hlt

theorem start_of {τ ω : Type} {P : Par τ ω} (hn : P.n = n) (tasks : Nat → List τ) : Start P G (begin_ s tasks) := by
  constructor
  · intro p hp
    rw [hn] at hp
    constructor
    · intro k c hc
      obtain ⟨me, c', h1, h2, h3, rfl⟩ := ghost_some hf hp hc
      obtain ⟨g, hg, he, hk⟩ := final_cases hT h2 h3
      refine ⟨g, hg, he, ?_, Nat.zero_le _, ?_⟩
      · show c'.kids ⊆ g.kids
        rcases hk with hk | hk
        · rw [hk]; exact Finset.empty_subset _
        · rw [hk]
      · rcases hk with hk | hk
        · exact Or.inl hk
        · exact Or.inr (Or.inr hk)
    · intro j k
      constructor
      · intro h
        obtain ⟨c, hc⟩ := Option.isSome_iff_exists.mp h
        obtain ⟨me, c', h1, h2, h3, rfl⟩ := ghost_some hf hp hc
        have hw := (h2.mem (j :: k)).mp (by rw [h3]; rfl)
        have hwk : Wanted G own p k := by
          refine ⟨tree_up hT (List.suffix_cons _ _) hw.1, ?_⟩
          rcases hw.2 with h4 | h4
          · exact Or.inl (h4.mono (List.suffix_cons _ _))
          · right
            rintro j' pk rfl hs
            exact h4 j _ rfl (hs.mono (List.suffix_cons _ _))
        obtain ⟨c0, hc0⟩ := Option.isSome_iff_exists.mp ((h2.mem k).mpr hwk)
        refine ⟨ghostCell c0, ?_, (h2.kids k c0 j hc0).mpr (by rw [h3]; rfl)⟩
        show ghostTables s p k = _
        rw [ghostTables, h1]
        simp only [hc0, Option.map_some]
      · rintro ⟨c, hc, hj⟩
        obtain ⟨me, c', h1, h2, h3, rfl⟩ := ghost_some hf hp hc
        obtain ⟨c1, hc1⟩ := Option.isSome_iff_exists.mp ((h2.kids k c' j h3).mp hj)
        show (ghostTables s p (j :: k)).isSome
        rw [ghostTables, h1]
        simp only [hc1, Option.map_some, Option.isSome_some]
    · obtain ⟨e, he, ho⟩ := hown p hp
      have hs : SomeOf G own p [] := ⟨e, he, List.nil_suffix, ho⟩
      obtain ⟨me, c, h1, h2, h3, h4⟩ := ghost_of hf hp ⟨hs.isSome hT, Or.inl hs⟩
      refine ⟨ghostCell c, h4, ?_⟩
      obtain ⟨g, hg, hge⟩ := hT.root
      have hk := final_full hT h2 h3 hg (Or.inl hs)
      have hne : g.kids ≠ ∅ := fun e => by rw [(hT.leaf [] g hg).mpr e] at hge; cases hge
      show (!c.ent && (decide (c.kids = ∅) || decide (c.kids.card < 0))) = false
      rw [hk]
      simp [hne]
  · intro p hp k c hc
    rw [hn] at hp
    obtain ⟨me, c', h1, h2, h3, rfl⟩ := ghost_some hf hp hc
    have hso := (h2.owner k c' h3).1
    have hlt' : c'.owner < n := by
      obtain ⟨e, he, -, ho⟩ := hso
      rw [← ho]; exact hlt e he
    obtain ⟨me2, c2, -, g2, g3, g4⟩ := ghost_of hf hlt' ⟨hso.isSome hT, Or.inl hso⟩
    obtain ⟨g, hg⟩ := Option.isSome_iff_exists.mp (hso.isSome hT)
    exact ⟨by rw [hn]; exact hlt', ghostCell c2, g, g4, hg, final_full hT g2 g3 hg (Or.inl hso)⟩
  · intro p hp k c hc
    rw [hn] at hp
    obtain ⟨me, c', h1, h2, h3, rfl⟩ := ghost_some hf hp hc
    obtain ⟨g, hg, he, hk⟩ := final_cases hT h2 h3
    rcases hk with hk | hk
    · exact Or.inl ⟨hk, rfl⟩
    · exact Or.inr ⟨g, hg, hk⟩
  · exact fun _ _ => rfl
  · exact fun _ _ => rfl
  · exact fun _ _ => rfl
  · exact fun _ _ => rfl
  · exact fun _ _ => rfl
  · exact fun _ _ _ _ => rfl

end

end FleCSPH.Startup
