import Verif.Model.Ghosts
import Verif.Spec.GhostRun
import Mathlib.Data.List.Nodup
import Mathlib.Tactic.Linarith
/-! Tables that are part of the global tree, and the search of one task. -/
namespace FleCSPH.Ghosts

variable {G : Key → Option GCell} {cells : Finset Key} {nch : Nat} {t : Table} {accept : Key → Bool}

theorem full_of_not_empty (_hT : IsTree nch G cells) (ht : Good G t) {k : Key} {c : Cell} {g : GCell} (hc : t k = some c) (hg : G k = some g) (he : c.ent = false)
    (h : emptyNode c = false) : c.kids = g.kids := by
  obtain ⟨g', hg', _, hs, hr, h3⟩ := ht.sub k c hc
  rw [hg] at hg'; cases hg'
  simp only [emptyNode, he, Bool.not_false, Bool.true_and, Bool.or_eq_false_iff, decide_eq_false_iff_not, not_lt] at h
  rcases h3 with h3 | h3 | h3
  · exact absurd h3 h.1
  · exact Finset.eq_of_subset_of_card_le hs (by omega)
  · exact h3

theorem not_empty_of_full (hT : IsTree nch G cells) (ht : Good G t) {k : Key} {c : Cell} {g : GCell} (hc : t k = some c) (hg : G k = some g) (h : c.kids = g.kids) : emptyNode c = false := by
  obtain ⟨g', hg', he, hs, hr, h3⟩ := ht.sub k c hc
  rw [hg] at hg'; cases hg'
  unfold emptyNode
  cases hce : c.ent with
  | true => rfl
  | false =>
    have h1 : c.kids ≠ ∅ := by
      intro h0
      have := (hT.leaf k g hg).2 (h ▸ h0)
      rw [← he, hce] at this
      exact absurd this (by decide)
    have h2 : ¬ c.kids.card < c.toRecv := by rw [h]; omega
    simp [h1, h2]

theorem mapM_filterMap {α β : Type} (f : α → Option β) (l : List α) (h : ∀ x ∈ l, (f x).isSome) : l.mapM f = some (l.filterMap f) := by
  induction l with
  | nil => rfl
  | cons a l ih =>
    obtain ⟨b, hb⟩ := Option.isSome_iff_exists.1 (h a (by simp))
    rw [List.mapM_cons, hb, ih fun x hx => h x (by simp [hx])]
    simp [hb]

/-- The daughters: their numbers, each once, with their cells. -/
theorem daughters_some (hT : IsTree nch G cells) (ht : Good G t) {k : Key} {c : Cell} (hc : t k = some c) :
    ∃ ds, daughters nch t k c = some ds ∧ (ds.map Prod.fst).Nodup ∧ (∀ p ∈ ds, t (p.1 :: k) = some p.2 ∧ p.1 ∈ c.kids) ∧ ∀ j ∈ c.kids, ∃ c', (j, c') ∈ ds := by
  obtain ⟨L, hL⟩ : ∃ L, L = (List.range nch).filter fun j => decide (j ∈ c.kids) := ⟨_, rfl⟩
  have hLm : ∀ j, j ∈ L ↔ j ∈ c.kids := by
    intro j
    rw [hL, List.mem_filter, List.mem_range, decide_eq_true_eq]
    refine ⟨fun h => h.2, fun h => ⟨?_, h⟩⟩
    obtain ⟨g, hg, _, hs, _⟩ := ht.sub k c hc
    exact hT.slots k g hg j (hs h)
  have hLn : L.Nodup := hL ▸ (List.nodup_range).filter _
  have hsome : ∀ j ∈ L, ((fun j => (t (j :: k)).map fun c' => (j, c')) j).isSome := by
    intro j hj
    have := (ht.link j k).2 ⟨c, hc, (hLm j).1 hj⟩
    simpa using this
  refine ⟨L.filterMap fun j => (t (j :: k)).map fun c' => (j, c'), ?_, ?_, ?_, ?_⟩
  · rw [← mapM_filterMap _ _ hsome]
    simp only [daughters]
    rw [← hL]
  · have : ∀ l : List Nat, (∀ j ∈ l, ((fun j => (t (j :: k)).map fun c' => (j, c')) j).isSome) → (l.filterMap fun j => (t (j :: k)).map fun c' => (j, c')).map Prod.fst = l := by
      intro l
      induction l with
      | nil => intro _; rfl
      | cons a l ih =>
        intro h
        have h1 := h a (by simp)
        obtain ⟨b, hb⟩ := Option.isSome_iff_exists.1 (show (t (a :: k)).isSome by simpa using h1)
        rw [List.filterMap_cons]
        simp only [hb, Option.map_some, List.map_cons]
        rw [ih fun j hj => h j (by simp [hj])]
    rw [this L hsome]
    exact hLn
  · rintro ⟨j, c'⟩ hp
    rw [List.mem_filterMap] at hp
    obtain ⟨j', hj', h⟩ := hp
    rw [Option.map_eq_some_iff] at h
    obtain ⟨a, ha, h⟩ := h
    cases h
    exact ⟨ha, (hLm j).1 hj'⟩
  · intro j hj
    obtain ⟨c', hc'⟩ := Option.isSome_iff_exists.1 ((ht.link j k).2 ⟨c, hc, hj⟩)
    exact ⟨c', List.mem_filterMap.2 ⟨j, (hLm j).2 hj, by rw [hc']; rfl⟩⟩

theorem open_cons {j : Nat} {k : Key} : Open accept (j :: k) ↔ Open accept k ∧ accept k = true := by
  constructor
  · intro h
    refine ⟨fun a ha hne => h a (ha.trans (List.suffix_cons j k)) ?_, h k (List.suffix_cons j k) ?_⟩
    · intro he
      have := ha.length_le
      rw [he] at this
      simp at this
    · intro he
      have := congrArg List.length he
      simp at this
  · rintro ⟨h1, h2⟩ a ha hne
    rcases List.suffix_cons_iff.1 ha with h | h
    · exact absurd h hne
    · by_cases hak : a = k
      · rw [hak]; exact h2
      · exact h1 a h hak

theorem open_nil : Open accept [] := by
  intro a ha hne
  exact absurd (List.suffix_nil.1 ha) hne

/-- One level of the search. -/
theorem level_spec (hT : IsTree nch G cells) (ht : Good G t) (q : List Key) (hq : ∀ k ∈ q, (t k).isSome) :
    ∃ a b c, level nch t accept q = some (a, b, c) ∧
      (∀ k', k' ∈ a ↔ ∃ k ∈ q, ∃ j cl, k' = j :: k ∧ t k = some cl ∧ cl.ent = false ∧ accept k = true ∧ emptyNode cl = false ∧ j ∈ cl.kids) ∧
      (∀ k, k ∈ b ↔ k ∈ q ∧ ∃ cl, t k = some cl ∧ accept k = true ∧ emptyNode cl = true) ∧
      (∀ k, k ∈ c ↔ k ∈ q ∧ ∃ cl, t k = some cl ∧ cl.ent = true) ∧
      (q.Nodup → a.Nodup ∧ b.Nodup ∧ c.Nodup) := by
  induction q with
  | nil => exact ⟨[], [], [], rfl, by simp, by simp, by simp, by simp⟩
  | cons k q ih =>
    obtain ⟨a', b', c', hlev, ha', hb', hc', hn'⟩ := ih fun x hx => hq x (by simp [hx])
    obtain ⟨cl, hcl⟩ := Option.isSome_iff_exists.1 (hq k (by simp))
    have hex : ∃ a b c, examine nch t accept k = some (a, b, c) ∧ a.Nodup ∧ b.Nodup ∧ c.Nodup ∧
        (∀ k', k' ∈ a ↔ ∃ j, k' = j :: k ∧ cl.ent = false ∧ accept k = true ∧ emptyNode cl = false ∧ j ∈ cl.kids) ∧
        (∀ x, x ∈ b ↔ x = k ∧ accept k = true ∧ emptyNode cl = true) ∧ (∀ x, x ∈ c ↔ x = k ∧ cl.ent = true) := by
      unfold examine
      rw [hcl]
      cases hce : cl.ent with
      | true =>
        refine ⟨[], [], [k], by simp [hce], by simp, by simp, by simp, by simp, ?_, by simp⟩
        intro x
        have : emptyNode cl = false := by simp [emptyNode, hce]
        simp [this]
      | false =>
        cases hac : accept k with
        | false => exact ⟨[], [], [], by simp [hce], by simp, by simp, by simp, by simp, by simp, by simp⟩
        | true =>
          cases hem : emptyNode cl with
          | true => exact ⟨[], [k], [], by simp [hce, hem], by simp, by simp, by simp, by simp, by simp, by simp⟩
          | false =>
            obtain ⟨ds, hds, hdn, hdm, hdj⟩ := daughters_some hT ht hcl
            refine ⟨ds.map fun p => p.1 :: k, [], [], by simp [hds, hce, hem], ?_, by simp, by simp, ?_, by simp, by simp⟩
            · have : (ds.map fun p => p.1 :: k) = (ds.map Prod.fst).map (fun j => j :: k) := by simp [List.map_map]
              rw [this]
              exact hdn.map fun x y h => (List.cons.inj h).1
            · intro k'
              rw [List.mem_map]
              constructor
              · rintro ⟨p, hp, rfl⟩
                exact ⟨p.1, rfl, rfl, rfl, rfl, (hdm p hp).2⟩
              · rintro ⟨j, rfl, _, _, _, hj⟩
                obtain ⟨c', hc'⟩ := hdj j hj
                exact ⟨(j, c'), hc', rfl⟩
    obtain ⟨a, b, c, hexa, han, hbn, hcn, ha, hb, hc⟩ := hex
    refine ⟨a ++ a', b ++ b', c ++ c', by simp only [level, hexa, hlev], ?_, ?_, ?_, ?_⟩
    · intro k'
      rw [List.mem_append, ha, ha']
      constructor
      · rintro (⟨j, h1, h2⟩ | ⟨x, hx, h⟩)
        · exact ⟨k, by simp, j, cl, h1, hcl, h2⟩
        · exact ⟨x, by simp [hx], h⟩
      · rintro ⟨x, hx, j, cl', h1, h2, h3⟩
        rcases List.mem_cons.1 hx with rfl | hx
        · rw [hcl] at h2; cases h2
          exact Or.inl ⟨j, h1, h3⟩
        · exact Or.inr ⟨x, hx, j, cl', h1, h2, h3⟩
    · intro x
      rw [List.mem_append, hb, hb', List.mem_cons]
      constructor
      · rintro (⟨rfl, h⟩ | ⟨h1, h2⟩)
        · exact ⟨Or.inl rfl, cl, hcl, h⟩
        · exact ⟨Or.inr h1, h2⟩
      · rintro ⟨rfl | h1, cl', h2, h3⟩
        · rw [hcl] at h2; cases h2
          exact Or.inl ⟨rfl, h3⟩
        · exact Or.inr ⟨h1, cl', h2, h3⟩
    · intro x
      rw [List.mem_append, hc, hc', List.mem_cons]
      constructor
      · rintro (⟨rfl, h⟩ | ⟨h1, h2⟩)
        · exact ⟨Or.inl rfl, cl, hcl, h⟩
        · exact ⟨Or.inr h1, h2⟩
      · rintro ⟨rfl | h1, cl', h2, h3⟩
        · rw [hcl] at h2; cases h2
          exact Or.inl ⟨rfl, h3⟩
        · exact Or.inr ⟨h1, cl', h2, h3⟩
    · intro hnd
      rw [List.nodup_cons] at hnd
      obtain ⟨h1, h2, h3⟩ := hn' hnd.2
      refine ⟨List.nodup_append.2 ⟨han, h1, ?_⟩, List.nodup_append.2 ⟨hbn, h2, ?_⟩, List.nodup_append.2 ⟨hcn, h3, ?_⟩⟩
      · intro x hx y hy hxy
        subst hxy
        obtain ⟨j, hj, _⟩ := (ha x).1 hx
        obtain ⟨k2, hk2, j2, _, hj2, _⟩ := (ha' x).1 hy
        rw [hj] at hj2
        rw [(List.cons.inj hj2).2] at hnd
        exact hnd.1 hk2
      · intro x hx y hy hxy
        subst hxy
        exact hnd.1 (((hb x).1 hx).1 ▸ ((hb' x).1 hy).1)
      · intro x hx y hy hxy
        subst hxy
        exact hnd.1 (((hc x).1 hx).1 ▸ ((hc' x).1 hy).1)

/-- What the search of a task returns. -/
def SearchPost (G : Key → Option GCell) (t : Table) (accept : Key → Bool) : Result → Prop
  | .found es => Reached G accept es ∧ ∀ k c, t k = some c → Open accept k → accept k = true → emptyNode c = false
  | .missing ms => ms ≠ [] ∧ ms.Nodup ∧ ∀ k ∈ ms, Open accept k ∧ accept k = true ∧ ∃ c, t k = some c ∧ emptyNode c = true

theorem explore_loop (hT : IsTree nch G cells) (ht : Good G t) (D : Nat) (hD : ∀ k ∈ cells, k.length ≤ D) (fuel : Nat) : ∀ (l : Nat) (q found : List Key), D + 2 ≤ fuel + l →
    l ≤ D + 1 → q.Nodup → (∀ k, k ∈ q ↔ k.length = l ∧ (G k).isSome ∧ Open accept k) → (∀ k ∈ q, (t k).isSome) → found.Nodup →
    (∀ k, k ∈ found ↔ k.length < l ∧ (∃ g, G k = some g ∧ g.ent = true) ∧ Open accept k) →
    (∀ k c, k.length < l → t k = some c → Open accept k → accept k = true → emptyNode c = false) →
    ∃ r, explore nch t accept fuel q found = some r ∧ SearchPost G t accept r := by
  induction fuel with
  | zero => intro l q found h1 h2; omega
  | succ fuel ih =>
    intro l q found hf hl hqn hq hqt hfn hfd hne
    unfold explore
    split_ifs with hq0
    · -- nothing at this level: nothing further down
      have hnone : ∀ k, (G k).isSome → Open accept k → k.length < l := by
        intro k
        induction k with
        | nil =>
          intro h1 h2
          by_contra h
          have : ([] : Key) ∈ q := (hq []).2 ⟨by simp at h ⊢; omega, h1, h2⟩
          rw [hq0] at this
          simp at this
        | cons j k ihk =>
          intro h1 h2
          obtain ⟨g, hg, hj⟩ := (hT.child j k).1 h1
          have h3 := ihk (by rw [hg]; rfl) (open_cons.1 h2).1
          by_contra h
          have : (j :: k) ∈ q := (hq _).2 ⟨by simp only [List.length_cons] at h ⊢; omega, h1, h2⟩
          rw [hq0] at this
          simp at this
      refine ⟨_, rfl, ⟨hfn, fun k => ?_⟩, ?_⟩
      · rw [hfd]
        constructor
        · exact fun h => h.2
        · rintro ⟨⟨g, hg, he⟩, ho⟩
          exact ⟨hnone k (by rw [hg]; rfl) ho, ⟨g, hg, he⟩, ho⟩
      · intro k c hc ho ha
        obtain ⟨g, hg, _⟩ := ht.sub k c hc
        exact hne k c (hnone k (by rw [hg]; rfl) ho) hc ho ha
    · obtain ⟨a, b, c, hlev, ha, hb, hc, hn⟩ := level_spec (accept := accept) hT ht q hqt
      obtain ⟨han, hbn, hcn⟩ := hn hqn
      rw [hlev]
      dsimp only
      split_ifs with hb0
      · refine ⟨_, rfl, hb0, hbn, ?_⟩
        intro k hk
        obtain ⟨hkq, cl, h1, h2, h3⟩ := (hb k).1 hk
        exact ⟨((hq k).1 hkq).2.2, h2, cl, h1, h3⟩
      · simp only [ne_eq, not_not] at hb0
        have hlD : l ≤ D := by
          obtain ⟨k, hk⟩ := List.exists_mem_of_ne_nil q hq0
          have h1 := (hq k).1 hk
          have := hD k ((hT.mem k).2 h1.2.1)
          omega
        have hnb : ∀ k ∈ q, ∀ cl, t k = some cl → accept k = true → emptyNode cl = false := by
          intro k hk cl hcl hac
          cases hem : emptyNode cl with
          | false => rfl
          | true =>
            have : k ∈ b := (hb k).2 ⟨hk, cl, hcl, hac, hem⟩
            rw [hb0] at this
            simp at this
        apply ih (l + 1) a (found ++ c) (by omega) (by omega) han
        · intro k'
          rw [ha]
          constructor
          · rintro ⟨k, hk, j, cl, rfl, h1, h2, h3, h4, h5⟩
            obtain ⟨e1, e2, e3⟩ := (hq k).1 hk
            obtain ⟨g, hg, _, hs, _⟩ := ht.sub k cl h1
            exact ⟨by simp [e1], (hT.child j k).2 ⟨g, hg, hs h5⟩, open_cons.2 ⟨e3, h3⟩⟩
          · rintro ⟨e1, e2, e3⟩
            match k', e1, e2, e3 with
            | j :: k, e1, e2, e3 =>
              obtain ⟨g, hg, hj⟩ := (hT.child j k).1 e2
              obtain ⟨e4, e5⟩ := open_cons.1 e3
              have hk : k ∈ q := (hq k).2 ⟨by simpa using e1, by rw [hg]; rfl, e4⟩
              obtain ⟨cl, hcl⟩ := Option.isSome_iff_exists.1 (hqt k hk)
              have hem := hnb k hk cl hcl e5
              obtain ⟨g', hg', he, _⟩ := ht.sub k cl hcl
              rw [hg] at hg'; cases hg'
              have hce : cl.ent = false := by
                cases h : cl.ent with
                | false => rfl
                | true =>
                  have := (hT.leaf k g hg).1 (he ▸ h)
                  rw [this] at hj
                  simp at hj
              refine ⟨k, hk, j, cl, rfl, hcl, hce, e5, hem, ?_⟩
              rw [full_of_not_empty hT ht hcl hg hce hem]
              exact hj
        · intro k' hk'
          obtain ⟨k, hk, j, cl, rfl, h1, h2, h3, h4, h5⟩ := (ha k').1 hk'
          exact (ht.link j k).2 ⟨cl, h1, h5⟩
        · refine List.nodup_append.2 ⟨hfn, hcn, ?_⟩
          intro x hx y hy hxy
          subst hxy
          have h1 := ((hfd x).1 hx).1
          have h2 := ((hq x).1 ((hc x).1 hy).1).1
          omega
        · intro k
          rw [List.mem_append, hfd, hc]
          constructor
          · rintro (⟨h1, h2⟩ | ⟨h1, cl, h2, h3⟩)
            · exact ⟨by omega, h2⟩
            · obtain ⟨e1, e2, e3⟩ := (hq k).1 h1
              obtain ⟨g, hg, he, _⟩ := ht.sub k cl h2
              exact ⟨by omega, ⟨g, hg, he ▸ h3⟩, e3⟩
          · rintro ⟨h1, ⟨g, hg, he⟩, h3⟩
            by_cases hkl : k.length < l
            · exact Or.inl ⟨hkl, ⟨g, hg, he⟩, h3⟩
            · have hk : k ∈ q := (hq k).2 ⟨by omega, by rw [hg]; rfl, h3⟩
              obtain ⟨cl, hcl⟩ := Option.isSome_iff_exists.1 (hqt k hk)
              obtain ⟨g', hg', he', _⟩ := ht.sub k cl hcl
              rw [hg] at hg'; cases hg'
              exact Or.inr ⟨hk, cl, hcl, he'.trans he⟩
        · intro k cl hkl hcl ho hac
          by_cases h : k.length < l
          · exact hne k cl h hcl ho hac
          · obtain ⟨g, hg, _⟩ := ht.sub k cl hcl
            exact hnb k ((hq k).2 ⟨by omega, by rw [hg]; rfl, ho⟩) cl hcl hac

/-- The search of a task. -/
theorem explore_spec (hT : IsTree nch G cells) (ht : Good G t) {fuel : Nat} (hf : ∀ k ∈ cells, k.length + 2 ≤ fuel) :
    ∃ r, explore nch t accept fuel [[]] [] = some r ∧ SearchPost G t accept r := by
  obtain ⟨g0, hg0, _⟩ := hT.root
  have h0 := hf [] ((hT.mem []).2 (by rw [hg0]; rfl))
  simp only [List.length_nil] at h0
  obtain ⟨c0, hc0, _⟩ := ht.root
  apply explore_loop hT ht (fuel - 2) (fun k hk => by have := hf k hk; omega) fuel 0 [[]] [] (by omega) (by omega) (by simp)
  · intro k
    rw [List.mem_singleton]
    constructor
    · rintro rfl
      exact ⟨rfl, by rw [hg0]; rfl, open_nil⟩
    · intro h
      exact List.length_eq_zero_iff.1 h.1
  · intro k hk
    rw [List.mem_singleton] at hk
    rw [hk, hc0]; rfl
  · simp
  · intro k
    simp
  · intro k c h
    simp at h

end FleCSPH.Ghosts
