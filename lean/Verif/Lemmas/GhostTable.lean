import Verif.Lemmas.Ghosts
/-! Replies: how they are made and what receiving them does to a table. -/
namespace FleCSPH.Ghosts

variable {G : Key → Option GCell} {cells : Finset Key} {nch : Nat} {t : Table}

theorem cons_ne (j : Nat) (k : Key) : (j :: k) ≠ k := fun h => by
  have := congrArg List.length h
  simp at this

theorem set_eq (t : Table) (k : Key) (c : Cell) : t.set k c k = some c := by simp [Table.set]

theorem set_ne (t : Table) {k x : Key} (c : Cell) (h : x ≠ k) : t.set k c x = t x := by simp [Table.set, h]

/-- Changing the count and owner of a cell without children, or only the flag and owner of another. -/
theorem good_update (ht : Good G t) {k : Key} {c c' : Cell} {g : GCell} (hc : t k = some c) (hg : G k = some g) (he : c'.ent = c.ent) (hk : c'.kids = c.kids) (hr : c'.toRecv ≤ g.kids.card)
    (h3 : c'.kids = ∅ ∨ c'.toRecv = g.kids.card ∨ c'.kids = g.kids) (hem : k = [] → emptyNode c' = false) : Good G (t.set k c') := by
  refine ⟨?_, ?_, ?_⟩
  · intro x cx hx
    by_cases hxk : x = k
    · subst hxk
      rw [set_eq] at hx; cases hx
      obtain ⟨g', hg', e1, e2, _⟩ := ht.sub x c hc
      rw [hg] at hg'; cases hg'
      exact ⟨g, hg, he.trans e1, hk ▸ e2, hr, h3⟩
    · rw [set_ne _ _ hxk] at hx
      exact ht.sub x cx hx
  · intro j x
    have h1 : (t.set k c' (j :: x)).isSome = (t (j :: x)).isSome := by
      by_cases h : (j :: x) = k
      · rw [h, set_eq, hc]; rfl
      · rw [set_ne _ _ h]
    rw [h1, ht.link]
    by_cases hxk : x = k
    · subst hxk
      rw [hc, set_eq]
      constructor
      · rintro ⟨d, hd, hj⟩; cases hd; exact ⟨c', rfl, hk ▸ hj⟩
      · rintro ⟨d, hd, hj⟩; cases hd; exact ⟨c, rfl, hk ▸ hj⟩
    · rw [set_ne _ _ hxk]
  · by_cases hk0 : k = []
    · subst hk0
      exact ⟨c', set_eq _ _ _, hem rfl⟩
    · obtain ⟨c0, h0, h1⟩ := ht.root
      exact ⟨c0, by rw [set_ne _ _ (Ne.symm hk0)]; exact h0, h1⟩

/-- A new child of a cell which knows how many it should have. -/
theorem good_add (ht : Good G t) {k : Key} {i : Nat} {c cn : Cell} {g gi : GCell} (hc : t k = some c) (hg : G k = some g) (hce : c.ent = false) (hr : c.toRecv = g.kids.card)
    (hnone : t (i :: k) = none) (hgi : G (i :: k) = some gi) (hi : i ∈ g.kids) (hn1 : cn.ent = gi.ent) (hn2 : cn.kids = ∅) (hn3 : cn.toRecv ≤ gi.kids.card) :
    Good G ((t.set (i :: k) cn).set k { c with kids := insert i c.kids }) := by
  have hne := cons_ne i k
  refine ⟨?_, ?_, ?_⟩
  · intro x cx hx
    by_cases hxk : x = k
    · subst hxk
      rw [set_eq] at hx; cases hx
      obtain ⟨g', hg', e1, e2, e3, _⟩ := ht.sub x c hc
      rw [hg] at hg'; cases hg'
      exact ⟨g, hg, e1, Finset.insert_subset hi e2, e3, Or.inr (Or.inl hr)⟩
    · rw [set_ne _ _ hxk] at hx
      by_cases hxi : x = i :: k
      · subst hxi
        rw [set_eq] at hx; cases hx
        exact ⟨gi, hgi, hn1, by rw [hn2]; exact Finset.empty_subset _, hn3, Or.inl hn2⟩
      · rw [set_ne _ _ hxi] at hx
        exact ht.sub x cx hx
  · intro j x
    by_cases hxk : x = k
    · subst hxk
      rw [set_eq, set_ne _ _ (cons_ne j x)]
      by_cases hji : j = i
      · subst hji
        rw [set_eq]
        simp
      · rw [set_ne _ _ (by simp [hji]), ht.link, hc]
        constructor
        · rintro ⟨d, hd, hj⟩; cases hd; exact ⟨_, rfl, Finset.mem_insert_of_mem hj⟩
        · rintro ⟨d, hd, hj⟩; cases hd
          exact ⟨c, rfl, (Finset.mem_insert.1 hj).resolve_left hji⟩
    · rw [set_ne _ _ hxk]
      by_cases hxi : x = i :: k
      · subst hxi
        rw [set_eq]
        have h1 : (j :: i :: k) ≠ k := by
          intro h
          have := congrArg List.length h
          simp at this
          omega
        rw [set_ne _ _ h1, set_ne _ _ (cons_ne j _), ht.link, hnone]
        simp [hn2]
      · rw [set_ne _ _ hxi, ← ht.link]
        by_cases h1 : (j :: x) = k
        · rw [h1, set_eq, hc]; simp
        · rw [set_ne _ _ h1, set_ne _ _ (by
            intro h
            exact hxk (List.cons.inj h).2)]
  · by_cases hk0 : k = []
    · -- the root has all its children, so none can be missing
      subst hk0
      obtain ⟨c0, h0, h1⟩ := ht.root
      rw [hc] at h0; cases h0
      obtain ⟨g', hg', e1, e2, e3, e4⟩ := ht.sub [] c hc
      rw [hg] at hg'; cases hg'
      have h5 : c.kids = g.kids := by
        simp only [emptyNode, hce, Bool.not_false, Bool.true_and, Bool.or_eq_false_iff, decide_eq_false_iff_not, not_lt] at h1
        exact Finset.eq_of_subset_of_card_le e2 (by omega)
      have := (ht.link i []).2 ⟨c, hc, h5 ▸ hi⟩
      rw [hnone] at this
      simp at this
    · obtain ⟨c0, h0, h1⟩ := ht.root
      refine ⟨c0, ?_, h1⟩
      rw [set_ne _ _ (Ne.symm hk0), set_ne _ _ (by simp)]
      exact h0

/-! ### Answers -/

/-- A correct reply to one key: the cell itself with its number of children, all its node children, all its entity children. -/
structure AnsOne (G : Key → Option GCell) (OK : Nat → Key → Prop) (k : Key) (ns : List NodeItem) (es : List EntItem) : Prop where
  node : ∃ g x xs, G k = some g ∧ g.ent = false ∧ ns = x :: xs ∧ x.key = k ∧ x.n = g.kids.card ∧ OK x.owner k ∧ (xs.map NodeItem.key).Nodup ∧
    (∀ y ∈ xs, ∃ i gi, y.key = i :: k ∧ G (i :: k) = some gi ∧ gi.ent = false ∧ y.n ≤ gi.kids.card ∧ OK y.owner y.key) ∧
    ∀ i gi, G (i :: k) = some gi → gi.ent = false → ∃ y ∈ xs, y.key = i :: k
  ents : (es.map EntItem.key).Nodup ∧ (∀ y ∈ es, ∃ i gi, y.key = i :: k ∧ G (i :: k) = some gi ∧ gi.ent = true ∧ OK y.owner y.key) ∧
    ∀ i gi, G (i :: k) = some gi → gi.ent = true → ∃ y ∈ es, y.key = i :: k

/-- A correct reply to several keys. -/
inductive Answer (G : Key → Option GCell) (OK : Nat → Key → Prop) : List Key → List NodeItem → List EntItem → Prop
  | nil : Answer G OK [] [] []
  | cons {k ks a b ns es} (h : AnsOne G OK k a b) (hs : Answer G OK ks ns es) : Answer G OK (k :: ks) (a ++ ns) (b ++ es)

theorem AnsOne.mono {OK OK' : Nat → Key → Prop} (hm : ∀ o k, OK o k → OK' o k) {k ns es} (h : AnsOne G OK k ns es) : AnsOne G OK' k ns es := by
  obtain ⟨⟨g, x, xs, h1, h2, h3, h4, h5, h6, h7, h8, h9⟩, h10, h11, h12⟩ := h
  refine ⟨⟨g, x, xs, h1, h2, h3, h4, h5, hm _ _ h6, h7, ?_, h9⟩, h10, ?_, h12⟩
  · intro y hy
    obtain ⟨i, gi, e1, e2, e3, e4, e5⟩ := h8 y hy
    exact ⟨i, gi, e1, e2, e3, e4, hm _ _ e5⟩
  · intro y hy
    obtain ⟨i, gi, e1, e2, e3, e4⟩ := h11 y hy
    exact ⟨i, gi, e1, e2, e3, hm _ _ e4⟩

theorem Answer.mono {OK OK' : Nat → Key → Prop} (hm : ∀ o k, OK o k → OK' o k) {ks ns es} (h : Answer G OK ks ns es) : Answer G OK' ks ns es := by
  induction h with
  | nil => exact .nil
  | cons h _ ih => exact .cons (h.mono hm) ih

/-- The reply of a process which has all children of the key. -/
theorem replyOne_spec (hT : IsTree nch G cells) (ht : Good G t) {OK : Nat → Key → Prop} (hown : ∀ k c, t k = some c → OK c.owner k) {k : Key} {c : Cell} {g : GCell} (hc : t k = some c)
    (hg : G k = some g) (he : c.ent = false) (hf : c.kids = g.kids) : ∃ ns es, replyOne nch t k = some (ns, es) ∧ AnsOne G OK k ns es := by
  obtain ⟨ds, hds, hdn, hdm, hdj⟩ := daughters_some hT ht hc
  have hnod : ∀ f : Nat × Cell → Bool, ((ds.filter f).map fun p => p.1 :: k).Nodup := by
    intro f
    have h1 : ((ds.filter f).map Prod.fst).Nodup := hdn.sublist (List.Sublist.map _ List.filter_sublist)
    have : ((ds.filter f).map fun p => p.1 :: k) = ((ds.filter f).map Prod.fst).map (fun j => j :: k) := by simp [List.map_map]
    rw [this]
    exact h1.map fun x y h => (List.cons.inj h).1
  have hmem : ∀ i gi, G (i :: k) = some gi → ∃ c', (i, c') ∈ ds ∧ t (i :: k) = some c' ∧ c'.ent = gi.ent := by
    intro i gi hgi
    obtain ⟨g', hg', hi⟩ := (hT.child i k).1 (by rw [hgi]; rfl)
    rw [hg] at hg'; cases hg'
    obtain ⟨c', hc'⟩ := hdj i (hf ▸ hi)
    have h1 := (hdm _ hc').1
    obtain ⟨g2, hg2, he2, _⟩ := ht.sub _ _ h1
    rw [hgi] at hg2; cases hg2
    exact ⟨c', hc', h1, he2⟩
  refine ⟨_, _, by rw [replyOne, hc]; simp only [he]; rw [hds]; rfl, ?_, ?_⟩
  · refine ⟨g, _, _, hg, ?_, rfl, rfl, by rw [hf], hown k c hc, ?_, ?_, ?_⟩
    · obtain ⟨g', hg', e, _⟩ := ht.sub _ _ hc
      rw [hg] at hg'; cases hg'
      rw [← e, he]
    · rw [List.map_map]; exact hnod _
    · intro y hy
      obtain ⟨p, hp, rfl⟩ := List.mem_map.1 hy
      rw [List.mem_filter] at hp
      obtain ⟨h1, h2⟩ := hdm p hp.1
      obtain ⟨gi, hgi, e1, e2, e3, _⟩ := ht.sub _ _ h1
      refine ⟨p.1, gi, rfl, hgi, ?_, Finset.card_le_card e2, hown _ _ h1⟩
      rw [← e1]
      simpa using hp.2
    · intro i gi hgi hge
      obtain ⟨c', h1, h2, h3⟩ := hmem i gi hgi
      exact ⟨_, List.mem_map.2 ⟨(i, c'), List.mem_filter.2 ⟨h1, by simp [h3, hge]⟩, rfl⟩, rfl⟩
  · refine ⟨by rw [List.map_map]; exact hnod _, ?_, ?_⟩
    · intro y hy
      obtain ⟨p, hp, rfl⟩ := List.mem_map.1 hy
      rw [List.mem_filter] at hp
      obtain ⟨h1, h2⟩ := hdm p hp.1
      obtain ⟨gi, hgi, e1, _⟩ := ht.sub _ _ h1
      refine ⟨p.1, gi, rfl, hgi, ?_, hown _ _ h1⟩
      rw [← e1]
      exact hp.2
    · intro i gi hgi hge
      obtain ⟨c', h1, h2, h3⟩ := hmem i gi hgi
      exact ⟨_, List.mem_map.2 ⟨(i, c'), List.mem_filter.2 ⟨h1, by simp [h3, hge]⟩, rfl⟩, rfl⟩

theorem reply_spec (hT : IsTree nch G cells) (ht : Good G t) {OK : Nat → Key → Prop} (hown : ∀ k c, t k = some c → OK c.owner k) (ks : List Key)
    (hks : ∀ k ∈ ks, ∃ c g, t k = some c ∧ G k = some g ∧ c.ent = false ∧ c.kids = g.kids) : ∃ ns es, reply nch t ks = some (ns, es) ∧ Answer G OK ks ns es := by
  induction ks with
  | nil => exact ⟨[], [], rfl, .nil⟩
  | cons k ks ih =>
    obtain ⟨ns, es, h1, h2⟩ := ih fun x hx => hks x (by simp [hx])
    obtain ⟨c, g, hc, hg, he, hf⟩ := hks k (by simp)
    obtain ⟨a, b, h3, h4⟩ := replyOne_spec hT ht hown hc hg he hf
    exact ⟨a ++ ns, b ++ es, by simp only [reply, h3, h1], .cons h4 h2⟩

/-! ### Receiving -/

/-- What receiving leaves alone: other cells which were there; and what new cells look like. -/
structure Frame (OK : Nat → Key → Prop) (ks : List Key) (t t' : Table) : Prop where
  old : ∀ x, x ∉ ks → ∀ c, t x = some c → t' x = some c
  new : ∀ x c', t x = none → t' x = some c' → c'.requested = false ∧ c'.kids = ∅ ∧ OK c'.owner x

theorem Frame.trans {OK : Nat → Key → Prop} {ks1 ks2 : List Key} {t t1 t2 : Table} (h1 : Frame OK ks1 t t1) (h2 : Frame OK ks2 t1 t2) (hin : ∀ k ∈ ks2, (t k).isSome) :
    Frame OK (ks1 ++ ks2) t t2 := by
  refine ⟨?_, ?_⟩
  · intro x hx c hc
    rw [List.mem_append, not_or] at hx
    exact h2.old x hx.2 c (h1.old x hx.1 c hc)
  · intro x c' hn hs
    cases hx1 : t1 x with
    | none => exact h2.new x c' hx1 hs
    | some c1 =>
      have hnot : x ∉ ks2 := fun h => by
        have := hin x h
        rw [hn] at this
        simp at this
      have := h2.old x hnot c1 hx1
      rw [hs] at this; cases this
      exact h1.new x c' hn hx1

theorem recvNodes_append (t : Table) (a b : List NodeItem) : recvNodes t (a ++ b) = (recvNodes t a).bind fun t' => recvNodes t' b := by
  induction a generalizing t with
  | nil => rfl
  | cons x a ih =>
    simp only [List.cons_append, recvNodes]
    cases recvNode t x with
    | none => rfl
    | some t' => simpa using ih t'

theorem recvEnts_append (t : Table) (a b : List EntItem) : recvEnts t (a ++ b) = (recvEnts t a).bind fun t' => recvEnts t' b := by
  induction a generalizing t with
  | nil => rfl
  | cons x a ih =>
    simp only [List.cons_append, recvEnts]
    cases recvEnt t x with
    | none => rfl
    | some t' => simpa using ih t'

/-- The node children of one key. -/
theorem recv_node_kids {OK : Nat → Key → Prop} {k : Key} {g : GCell} (hg : G k = some g) (hT : IsTree nch G cells) (xs : List NodeItem) : ∀ (t : Table) (c : Cell), Good G t → t k = some c →
    c.ent = false → c.toRecv = g.kids.card → (xs.map NodeItem.key).Nodup →
    (∀ y ∈ xs, ∃ i gi, y.key = i :: k ∧ G (i :: k) = some gi ∧ gi.ent = false ∧ y.n ≤ gi.kids.card ∧ OK y.owner y.key ∧ t (i :: k) = none) →
    ∃ t' K, recvNodes t xs = some t' ∧ Good G t' ∧ t' k = some { c with kids := K } ∧ (∀ i, i ∈ K ↔ i ∈ c.kids ∨ ∃ y ∈ xs, y.key = i :: k) ∧ Frame OK [k] t t' := by
  induction xs with
  | nil =>
    intro t c ht hc _ _ _ _
    exact ⟨t, c.kids, rfl, ht, hc, by simp, fun x _ c h => h, fun x c' h1 h2 => by rw [h1] at h2; cases h2⟩
  | cons y xs ih =>
    intro t c ht hc he hr hnd hy
    obtain ⟨i, gi, hyk, hgi, hge, hyn, hok, hnone⟩ := hy y (by simp)
    rw [List.map_cons, List.nodup_cons] at hnd
    obtain ⟨cn, hcn⟩ : ∃ cn : Cell, cn = { ent := false, kids := ∅, toRecv := y.n, requested := false, owner := y.owner } := ⟨_, rfl⟩
    obtain ⟨t1, ht1⟩ : ∃ t1, t1 = (t.set (i :: k) cn).set k { c with kids := insert i c.kids } := ⟨_, rfl⟩
    have hrecv : recvNode t y = some t1 := by
      unfold recvNode
      rw [hyk]
      simp only [hc, hnone, ht1, hcn]
    have hi : i ∈ g.kids := by
      obtain ⟨g', hg', hi⟩ := (hT.child i k).1 (by rw [hgi]; rfl)
      rw [hg] at hg'; cases hg'
      exact hi
    have hgood : Good G t1 := ht1 ▸ good_add ht hc hg he hr hnone hgi hi (by rw [hcn, hge]) (by rw [hcn]) (by rw [hcn]; exact hyn)
    have hk1 : t1 k = some { c with kids := insert i c.kids } := by rw [ht1, set_eq]
    have hx1 : ∀ x, x ≠ k → x ≠ i :: k → t1 x = t x := by
      intro x h1 h2
      rw [ht1, set_ne _ _ h1, set_ne _ _ h2]
    obtain ⟨t', K, h1, h2, h3, h4, h5⟩ := ih t1 { c with kids := insert i c.kids } hgood hk1 he hr hnd.2 (by
      intro z hz
      obtain ⟨j, gj, e1, e2, e3, e4, e5, e6⟩ := hy z (by simp [hz])
      refine ⟨j, gj, e1, e2, e3, e4, e5, ?_⟩
      rw [hx1 _ (cons_ne j k) (by
        intro h
        apply hnd.1
        rw [hyk, ← h, ← e1]
        exact List.mem_map.2 ⟨z, hz, rfl⟩)]
      exact e6)
    refine ⟨t', K, by rw [recvNodes, hrecv]; exact h1, h2, by rw [h3], ?_, ?_⟩
    · intro j
      rw [h4]
      simp only [Finset.mem_insert, List.mem_cons]
      constructor
      · rintro ((rfl | h) | ⟨z, hz, h⟩)
        · exact Or.inr ⟨y, Or.inl rfl, hyk⟩
        · exact Or.inl h
        · exact Or.inr ⟨z, Or.inr hz, h⟩
      · rintro (h | ⟨z, rfl | hz, h⟩)
        · exact Or.inl (Or.inr h)
        · rw [hyk] at h
          exact Or.inl (Or.inl (List.cons.inj h).1.symm)
        · exact Or.inr ⟨z, hz, h⟩
    · have hf1 : Frame OK [k] t t1 := by
        refine ⟨?_, ?_⟩
        · intro x hx d hd
          rw [hx1 x (by simpa using hx) (by rintro rfl; rw [hnone] at hd; cases hd)]
          exact hd
        · intro x c' hn hs
          by_cases hxi : x = i :: k
          · subst hxi
            rw [ht1, set_ne _ _ (cons_ne i k), set_eq] at hs
            cases hs
            rw [hcn]
            exact ⟨rfl, rfl, hyk ▸ hok⟩
          · rw [hx1 x (by rintro rfl; rw [hc] at hn; cases hn) hxi, hn] at hs
            cases hs
      have := hf1.trans h5 (by intro x hx; rw [List.mem_singleton.1 hx, hc]; rfl)
      refine ⟨fun x hx => this.old x (by simpa using hx), this.new⟩

/-- The entity children of one key. -/
theorem recv_ent_kids {OK : Nat → Key → Prop} {k : Key} {g : GCell} (hg : G k = some g) (hT : IsTree nch G cells) (xs : List EntItem) : ∀ (t : Table) (c : Cell), Good G t → t k = some c →
    c.ent = false → c.toRecv = g.kids.card → (xs.map EntItem.key).Nodup →
    (∀ y ∈ xs, ∃ i gi, y.key = i :: k ∧ G (i :: k) = some gi ∧ gi.ent = true ∧ OK y.owner y.key ∧ t (i :: k) = none) →
    ∃ t' K, recvEnts t xs = some t' ∧ Good G t' ∧ t' k = some { c with kids := K } ∧ (∀ i, i ∈ K ↔ i ∈ c.kids ∨ ∃ y ∈ xs, y.key = i :: k) ∧ Frame OK [k] t t' := by
  induction xs with
  | nil =>
    intro t c ht hc _ _ _ _
    exact ⟨t, c.kids, rfl, ht, hc, by simp, fun x _ c h => h, fun x c' h1 h2 => by rw [h1] at h2; cases h2⟩
  | cons y xs ih =>
    intro t c ht hc he hr hnd hy
    obtain ⟨i, gi, hyk, hgi, hge, hok, hnone⟩ := hy y (by simp)
    rw [List.map_cons, List.nodup_cons] at hnd
    obtain ⟨cn, hcn⟩ : ∃ cn : Cell, cn = { ent := true, kids := ∅, toRecv := 0, requested := false, owner := y.owner } := ⟨_, rfl⟩
    obtain ⟨t1, ht1⟩ : ∃ t1, t1 = (t.set (i :: k) cn).set k { c with kids := insert i c.kids } := ⟨_, rfl⟩
    have hrecv : recvEnt t y = some t1 := by
      unfold recvEnt
      rw [hyk]
      simp only [hc, hnone, ht1, hcn]
    have hi : i ∈ g.kids := by
      obtain ⟨g', hg', hi⟩ := (hT.child i k).1 (by rw [hgi]; rfl)
      rw [hg] at hg'; cases hg'
      exact hi
    have hgood : Good G t1 := ht1 ▸ good_add ht hc hg he hr hnone hgi hi (by rw [hcn, hge]) (by rw [hcn]) (by rw [hcn]; exact Nat.zero_le _)
    have hk1 : t1 k = some { c with kids := insert i c.kids } := by rw [ht1, set_eq]
    have hx1 : ∀ x, x ≠ k → x ≠ i :: k → t1 x = t x := by
      intro x h1 h2
      rw [ht1, set_ne _ _ h1, set_ne _ _ h2]
    obtain ⟨t', K, h1, h2, h3, h4, h5⟩ := ih t1 { c with kids := insert i c.kids } hgood hk1 he hr hnd.2 (by
      intro z hz
      obtain ⟨j, gj, e1, e2, e3, e5, e6⟩ := hy z (by simp [hz])
      refine ⟨j, gj, e1, e2, e3, e5, ?_⟩
      rw [hx1 _ (cons_ne j k) (by
        intro h
        apply hnd.1
        rw [hyk, ← h, ← e1]
        exact List.mem_map.2 ⟨z, hz, rfl⟩)]
      exact e6)
    refine ⟨t', K, by rw [recvEnts, hrecv]; exact h1, h2, by rw [h3], ?_, ?_⟩
    · intro j
      rw [h4]
      simp only [Finset.mem_insert, List.mem_cons]
      constructor
      · rintro ((rfl | h) | ⟨z, hz, h⟩)
        · exact Or.inr ⟨y, Or.inl rfl, hyk⟩
        · exact Or.inl h
        · exact Or.inr ⟨z, Or.inr hz, h⟩
      · rintro (h | ⟨z, rfl | hz, h⟩)
        · exact Or.inl (Or.inr h)
        · rw [hyk] at h
          exact Or.inl (Or.inl (List.cons.inj h).1.symm)
        · exact Or.inr ⟨z, hz, h⟩
    · have hf1 : Frame OK [k] t t1 := by
        refine ⟨?_, ?_⟩
        · intro x hx d hd
          rw [hx1 x (by simpa using hx) (by rintro rfl; rw [hnone] at hd; cases hd)]
          exact hd
        · intro x c' hn hs
          by_cases hxi : x = i :: k
          · subst hxi
            rw [ht1, set_ne _ _ (cons_ne i k), set_eq] at hs
            cases hs
            rw [hcn]
            exact ⟨rfl, rfl, hyk ▸ hok⟩
          · rw [hx1 x (by rintro rfl; rw [hc] at hn; cases hn) hxi, hn] at hs
            cases hs
      have := hf1.trans h5 (by intro x hx; rw [List.mem_singleton.1 hx, hc]; rfl)
      refine ⟨fun x hx => this.old x (by simpa using hx), this.new⟩

/-- The children of `k` which are nodes. -/
def NodeKids (G : Key → Option GCell) (k : Key) (K : Finset Nat) : Prop := ∀ i, i ∈ K ↔ ∃ gi, G (i :: k) = some gi ∧ gi.ent = false

/-- A node reply: afterwards the requested cells have their node children and know how many children there are. -/
theorem recvNodes_spec {OK : Nat → Key → Prop} (hT : IsTree nch G cells) {ks : List Key} {ns : List NodeItem} {es : List EntItem} (hA : Answer G OK ks ns es) : ∀ (t : Table), Good G t → ks.Nodup →
    (∀ k ∈ ks, ∃ c, t k = some c ∧ c.ent = false ∧ c.kids = ∅) →
    ∃ t', recvNodes t ns = some t' ∧ Good G t' ∧ Frame OK ks t t' ∧ ∀ k ∈ ks, ∀ c, t k = some c → ∃ c' g, t' k = some c' ∧ G k = some g ∧ c'.ent = false ∧ c'.requested = c.requested ∧
      c'.toRecv = g.kids.card ∧ NodeKids G k c'.kids ∧ OK c'.owner k := by
  induction hA with
  | nil =>
    intro t ht _ _
    exact ⟨t, rfl, ht, ⟨fun x _ c h => h, fun x c' h1 h2 => by rw [h1] at h2; cases h2⟩, by simp⟩
  | @cons k ks a b ns es hone hrest ih =>
    intro t ht hnd hks
    rw [List.nodup_cons] at hnd
    obtain ⟨c, hc, hce, hck⟩ := hks k (by simp)
    obtain ⟨⟨g, x, xs, hg, hge, ha, hxk, hxn, hxo, hxd, hxs, hall⟩, _⟩ := hone
    -- the cell itself
    have hkids : ∀ i, t (i :: k) = none := by
      intro i
      cases h : t (i :: k) with
      | none => rfl
      | some d =>
        obtain ⟨c', hc', hi⟩ := (ht.link i k).1 (by rw [h]; rfl)
        rw [hc] at hc'; cases hc'
        rw [hck] at hi
        simp at hi
    have hne : k ≠ [] := by
      rintro rfl
      obtain ⟨c0, h0, h1⟩ := ht.root
      rw [hc] at h0; cases h0
      simp [emptyNode, hce, hck] at h1
    obtain ⟨j, pk, rfl⟩ := List.exists_cons_of_ne_nil hne
    obtain ⟨pc, hpc, hpj⟩ := (ht.link j pk).1 (by rw [hc]; rfl)
    obtain ⟨c1, hc1⟩ : ∃ c1 : Cell, c1 = { c with toRecv := x.n, owner := x.owner } := ⟨_, rfl⟩
    have hstep : recvNode t x = some (t.set (j :: pk) c1) := by
      unfold recvNode
      rw [hxk]
      simp only [hpc, hc, hce]
      rw [if_neg (by decide)]
      congr 1
      funext y
      by_cases hy : y = pk
      · subst hy
        rw [set_eq, set_ne _ _ (Ne.symm (cons_ne j y)), hpc, Finset.insert_eq_of_mem hpj]
      · rw [set_ne _ _ hy, hc1]
        simp [hce]
    have hgood1 : Good G (t.set (j :: pk) c1) := good_update ht hc hg (by rw [hc1]) (by rw [hc1]) (by rw [hc1]; exact le_of_eq hxn) (Or.inl (by rw [hc1]; exact hck)) (by simp)
    have hf1 : Frame OK [j :: pk] t (t.set (j :: pk) c1) := by
      refine ⟨?_, ?_⟩
      · intro y hy d hd
        rw [set_ne _ _ (by simpa using hy)]
        exact hd
      · intro y c' hn hs
        rw [set_ne _ _ (by rintro rfl; rw [hc] at hn; cases hn), hn] at hs
        cases hs
    obtain ⟨t2, K, h1, h2, h3, h4, h5⟩ := recv_node_kids (OK := OK) hg hT xs (t.set (j :: pk) c1) c1 hgood1 (set_eq _ _ _) (by rw [hc1]; exact hce) (by rw [hc1]; exact hxn) hxd (by
      intro y hy
      obtain ⟨i, gi, e1, e2, e3, e4, e5⟩ := hxs y hy
      refine ⟨i, gi, e1, e2, e3, e4, e5, ?_⟩
      rw [set_ne _ _ (cons_ne i _)]
      exact hkids i)
    have hf2 : Frame OK [j :: pk] t t2 := by
      have := hf1.trans h5 (by intro y hy; rw [List.mem_singleton.1 hy, hc]; rfl)
      exact ⟨fun y hy => this.old y (by simpa using hy), this.new⟩
    obtain ⟨t', e1, e2, e3, e4⟩ := ih t2 h2 hnd.2 (by
      intro y hy
      obtain ⟨d, hd, hd1, hd2⟩ := hks y (by simp [hy])
      exact ⟨d, hf2.old y (by rintro h; exact hnd.1 (List.mem_singleton.1 h ▸ hy)) d hd, hd1, hd2⟩)
    refine ⟨t', ?_, e2, ?_, ?_⟩
    · rw [ha, List.cons_append, recvNodes, hstep]
      show recvNodes _ (xs ++ ns) = _
      rw [recvNodes_append, h1]
      exact e1
    · exact hf2.trans e3 (by
        intro y hy
        obtain ⟨d, hd, _⟩ := hks y (by simp [hy])
        rw [hd]; rfl)
    · intro y hy d hd
      rcases List.mem_cons.1 hy with rfl | hy
      · rw [hc] at hd; cases hd
        refine ⟨{ c1 with kids := K }, g, e3.old _ hnd.1 _ h3, hg, by rw [hc1]; exact hce, by rw [hc1], by rw [hc1]; exact hxn, ?_, by rw [hc1]; exact hxo⟩
        intro i
        rw [h4, hc1]
        show i ∈ c.kids ∨ _ ↔ _
        rw [hck]
        constructor
        · rintro (h | ⟨y, hy, h⟩)
          · simp at h
          · obtain ⟨i', gi, f1, f2, f3, _⟩ := hxs y hy
            rw [h] at f1
            obtain rfl := (List.cons.inj f1).1
            exact ⟨gi, f2, f3⟩
        · rintro ⟨gi, f1, f2⟩
          exact Or.inr (hall i gi f1 f2)
      · exact e4 y hy d (hf2.old y (by rintro h; exact hnd.1 (List.mem_singleton.1 h ▸ hy)) d hd)

/-- An entity reply: afterwards the requested cells have all their children. -/
theorem recvEnts_spec {OK : Nat → Key → Prop} (hT : IsTree nch G cells) {ks : List Key} {ns : List NodeItem} {es : List EntItem} (hA : Answer G OK ks ns es) : ∀ (t : Table), Good G t → ks.Nodup →
    (∀ k ∈ ks, ∃ c g, t k = some c ∧ G k = some g ∧ c.ent = false ∧ c.toRecv = g.kids.card ∧ NodeKids G k c.kids) →
    ∃ t', recvEnts t es = some t' ∧ Good G t' ∧ Frame OK ks t t' ∧ ∀ k ∈ ks, ∀ c, t k = some c → ∃ c' g, t' k = some c' ∧ G k = some g ∧ c'.ent = false ∧ c'.requested = c.requested ∧
      c'.kids = g.kids ∧ c'.owner = c.owner := by
  induction hA with
  | nil =>
    intro t ht _ _
    exact ⟨t, rfl, ht, ⟨fun x _ c h => h, fun x c' h1 h2 => by rw [h1] at h2; cases h2⟩, by simp⟩
  | @cons k ks a b ns es hone hrest ih =>
    intro t ht hnd hks
    rw [List.nodup_cons] at hnd
    obtain ⟨c, g, hc, hg, hce, hcr, hck⟩ := hks k (by simp)
    obtain ⟨_, hxd, hxs, hall⟩ := hone
    obtain ⟨t2, K, h1, h2, h3, h4, h5⟩ := recv_ent_kids (OK := OK) hg hT b t c ht hc hce hcr hxd (by
      intro y hy
      obtain ⟨i, gi, e1, e2, e3, e4⟩ := hxs y hy
      refine ⟨i, gi, e1, e2, e3, e4, ?_⟩
      cases h : t (i :: k) with
      | none => rfl
      | some d =>
        obtain ⟨c', hc', hi⟩ := (ht.link i k).1 (by rw [h]; rfl)
        rw [hc] at hc'; cases hc'
        obtain ⟨gi', f1, f2⟩ := (hck i).1 hi
        rw [e2] at f1; cases f1
        rw [e3] at f2
        exact absurd f2 (by decide))
    obtain ⟨t', e1, e2, e3, e4⟩ := ih t2 h2 hnd.2 (by
      intro y hy
      obtain ⟨d, gd, hd, hd1⟩ := hks y (by simp [hy])
      exact ⟨d, gd, h5.old y (by rintro h; exact hnd.1 (List.mem_singleton.1 h ▸ hy)) d hd, hd1⟩)
    refine ⟨t', by rw [recvEnts_append, h1]; exact e1, e2, ?_, ?_⟩
    · exact h5.trans e3 (by
        intro y hy
        obtain ⟨d, _, hd, _⟩ := hks y (by simp [hy])
        rw [hd]; rfl)
    · intro y hy d hd
      rcases List.mem_cons.1 hy with rfl | hy
      · rw [hc] at hd; cases hd
        refine ⟨{ c with kids := K }, g, e3.old _ hnd.1 _ h3, hg, hce, rfl, ?_, rfl⟩
        ext i
        show i ∈ K ↔ _
        rw [h4, hck]
        constructor
        · rintro (⟨gi, f1, _⟩ | ⟨y, hy, h⟩)
          · obtain ⟨g', hg', hi⟩ := (hT.child i _).1 (by rw [f1]; rfl)
            rw [hg] at hg'; cases hg'
            exact hi
          · obtain ⟨i', gi, f1, f2, _⟩ := hxs y hy
            rw [h] at f1
            obtain rfl := (List.cons.inj f1).1
            obtain ⟨g', hg', hi⟩ := (hT.child i _).1 (by rw [f2]; rfl)
            rw [hg] at hg'; cases hg'
            exact hi
        · intro hi
          obtain ⟨gi, hgi⟩ := Option.isSome_iff_exists.1 ((hT.child i _).2 ⟨g, hg, hi⟩)
          cases hge : gi.ent with
          | false => exact Or.inl ⟨gi, hgi, hge⟩
          | true => exact Or.inr (hall i gi hgi hge)
      · exact e4 y hy d (h5.old y (by rintro h; exact hnd.1 (List.mem_singleton.1 h ▸ hy)) d hd)

/-- No entity in the reply: the requested cells have only node children. -/
theorem no_ents {OK : Nat → Key → Prop} {ks : List Key} {ns : List NodeItem} {es : List EntItem} (hA : Answer G OK ks ns es) (h0 : es = []) (k : Key) (hk : k ∈ ks) (i : Nat) (gi : GCell)
    (hgi : G (i :: k) = some gi) : gi.ent = false := by
  induction hA with
  | nil => simp at hk
  | @cons k' ks a b ns es hone hrest ih =>
    rw [List.append_eq_nil_iff] at h0
    rcases List.mem_cons.1 hk with rfl | hk
    · cases h : gi.ent with
      | false => rfl
      | true =>
        obtain ⟨y, hy, _⟩ := hone.ents.2.2 i gi hgi h
        rw [h0.1] at hy
        simp at hy
    · exact ih h0.2 hk

/-- An entity in the reply: one of the requested cells has an entity child. -/
theorem some_ent {OK : Nat → Key → Prop} {ks : List Key} {ns : List NodeItem} {es : List EntItem} (hA : Answer G OK ks ns es) (h0 : es ≠ []) :
    ∃ k ∈ ks, ∃ i gi, G (i :: k) = some gi ∧ gi.ent = true := by
  induction hA with
  | nil => exact absurd rfl h0
  | @cons k' ks a b ns es hone hrest ih =>
    by_cases hb : b = []
    · obtain ⟨k, hk, h⟩ := ih (by rintro rfl; exact h0 (by simp [hb]))
      exact ⟨k, by simp [hk], h⟩
    · obtain ⟨y, hy⟩ := List.exists_mem_of_ne_nil b hb
      obtain ⟨i, gi, _, h1, h2, _⟩ := hone.ents.2.1 y hy
      exact ⟨k', by simp, i, gi, h1, h2⟩

end FleCSPH.Ghosts
