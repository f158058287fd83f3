import Verif.Lemmas.GhostTable
import Mathlib.Data.List.Perm.Basic
/-! The invariant of the protocol. -/
namespace FleCSPH.Ghosts

variable {τ ω : Type} {G : Key → Option GCell} {cells : Finset Key}

/-- What a task can rely on: the table is part of the global tree, the cells owned by the process are the ones from the start, and they have all their children. -/
structure View (G : Key → Option GCell) (O : Key → Prop) (p : Nat) (t : Table) : Prop where
  good : Good G t
  mine : ∀ k c, t k = some c → (c.owner = p ↔ O k)
  full : ∀ k, O k → ∃ c g, t k = some c ∧ G k = some g ∧ c.kids = g.kids

/-- What a step with task `a` returns. -/
def Post (t : Table) (Need : τ → Key → Prop) (Done : List τ → List ω → Prop) (Ok : τ → Prop) (a : τ) : Outcome τ ω → Prop
  | .missing ms => ms ≠ [] ∧ ms.Nodup ∧ ∀ k ∈ ms, Need a k ∧ ∃ c, t k = some c ∧ emptyNode c = true
  | .done next out => Done next out ∧ (∀ b ∈ next, Ok b) ∧ ∀ k c, t k = some c → emptyNode c = true → Need a k → ∃ b ∈ next, Need b k

/-- What the protocol needs to know about the tasks. `Need a k`: the task needs the children of `k`; `Done p a next out`: what the task leads to, the same for all tables; `Ok p t a`: what the task needs
of the table; `cost`: how much work is left. -/
structure Tasks (P : Par τ ω) (G : Key → Option GCell) (O : Nat → Key → Prop) where
  Need : τ → Key → Prop
  Done : Nat → τ → List τ → List ω → Prop
  Ok : Nat → Table → τ → Prop
  cost : τ → Nat
  mono : ∀ p t t' a, (∀ k, (t k).isSome → (t' k).isSome) → Ok p t a → Ok p t' a
  dec : ∀ p a next out, Done p a next out → (next.map cost).sum < cost a
  step : ∀ p < P.n, ∀ t, View G (O p) p t → ∀ a, Ok p t a → ∃ r, P.step p t a = some r ∧ Post t Need (Done p a) (Ok p t) a r

/-- How the tasks and results of a process developed. -/
inductive Hist (Done : τ → List τ → List ω → Prop) (ts : List τ) : List τ → List ω → Prop
  | start : Hist Done ts ts []
  | step {l1 a l2 rs next out} (h : Hist Done ts (l1 ++ a :: l2) rs) (hd : Done a next out) : Hist Done ts (l1 ++ next ++ l2) (rs ++ out)

/-- A cell that was requested and has received nothing. -/
def Waiting (t : Table) (k : Key) : Prop := ∃ c, t k = some c ∧ c.ent = false ∧ c.requested = true ∧ c.kids = ∅

/-- A requested cell whose entity children are still missing. -/
def Half (G : Key → Option GCell) (t : Table) (k : Key) : Prop :=
  ∃ c g, t k = some c ∧ G k = some g ∧ c.ent = false ∧ c.requested = true ∧ c.toRecv = g.kids.card ∧ NodeKids G k c.kids

/-- What is known about a request. -/
def TrOK (G : Key → Option GCell) (n : Nat) (tbl : Nat → Table) (p : Nat) (x : Trans) : Prop :=
  x.keys ≠ [] ∧
  match x.stage with
  | .asked => x.owner < n ∧ ∀ k ∈ x.keys, Waiting (tbl p) k ∧ Has G n tbl x.owner k
  | .answered ns es => (∀ k ∈ x.keys, Waiting (tbl p) k) ∧ Answer G (Has G n tbl) x.keys ns es
  | .rest es => es ≠ [] ∧ (∀ k ∈ x.keys, Half G (tbl p) k) ∧ ∃ ns, Answer G (Has G n tbl) x.keys ns es

/-- The keys which are requested and not answered yet. -/
def pendingKeys (s : State τ ω) (p : Nat) : List Key := (s.toSend p).map Prod.snd ++ (s.trans p).flatMap Trans.keys

structure Inv (P : Par τ ω) (G : Key → Option GCell) (s0 : State τ ω) (K : Tasks P G (Mine s0)) (s : State τ ω) : Prop where
  view : ∀ p < P.n, View G (Mine s0 p) p (s.tbl p)
  own : ∀ p < P.n, ∀ k c, s.tbl p k = some c → Has G P.n s.tbl c.owner k
  send : ∀ p < P.n, ∀ x ∈ s.toSend p, Waiting (s.tbl p) x.2 ∧ Has G P.n s.tbl x.1 x.2
  tr : ∀ p < P.n, ∀ x ∈ s.trans p, TrOK G P.n s.tbl p x
  whole : ∀ p < P.n, ∀ k c, s.tbl p k = some c → c.requested = false → c.kids = ∅ ∨ ∃ g, G k = some g ∧ c.kids = g.kids
  dis : ∀ p < P.n, (pendingKeys s p).Nodup
  pend : ∀ p < P.n, ∀ k c, s.tbl p k = some c → c.requested = true → emptyNode c = true → k ∈ pendingKeys s p ∧ ∃ a ∈ s.tasks p, K.Need a k
  asked : ∀ p < P.n, (s.asked p).Nodup ∧ ∀ k ∈ s.asked p, ∃ c, s.tbl p k = some c ∧ c.requested = true
  sent : ∀ p < P.n, s.sent p = true → s.tasks p = []
  got : ∀ p < P.n, ∀ q < P.n, s.got p q = true → s.sent q = true
  ok : ∀ p < P.n, ∀ a ∈ s.tasks p, K.Ok p (s.tbl p) a
  hist : ∀ p < P.n, Hist (K.Done p) (s0.tasks p) (s.tasks p) (s.results p)

theorem view_start {P : Par τ ω} {s : State τ ω} (h : Start P G s) {p : Nat} (hp : p < P.n) : View G (Mine s p) p (s.tbl p) where
  good := h.good p hp
  mine := fun k c hc => ⟨fun ho => ⟨c, hc, ho⟩, fun ⟨c', hc', ho⟩ => by rw [hc] at hc'; cases hc'; exact ho⟩
  full := fun k ⟨c, hc, ho⟩ => by
    have := h.own p hp k c hc
    rw [ho] at this
    exact this.2

theorem inv_start {cells : Finset Key} {P : Par τ ω} {s : State τ ω} (hT : IsTree P.nch G cells) (h : Start P G s) (K : Tasks P G (Mine s)) (hok : ∀ p < P.n, ∀ a ∈ s.tasks p, K.Ok p (s.tbl p) a) :
    Inv P G s K s where
  view := fun p hp => view_start h hp
  own := h.own
  send := fun p hp x hx => by rw [h.toSend p hp] at hx; simp at hx
  tr := fun p hp x hx => by rw [h.trans p hp] at hx; simp at hx
  whole := fun p hp k c hc _ => (h.fresh p hp k c hc).imp_left And.left
  dis := fun p hp => by unfold pendingKeys; rw [h.trans p hp, h.toSend p hp]; simp
  pend := fun p hp k c hc hr hem => by
    rcases h.fresh p hp k c hc with h1 | ⟨g, hg, h1⟩
    · rw [h1.2] at hr; cases hr
    · rw [not_empty_of_full hT (h.good p hp) hc hg h1] at hem; cases hem
  asked := fun p hp => by rw [h.asked p hp]; simp
  sent := fun p hp hs => by rw [h.sent p hp] at hs; cases hs
  got := fun p hp q hq hs => by rw [h.got p hp q hq] at hs; cases hs
  ok := hok
  hist := fun p hp => by rw [h.results p hp]; exact .start

theorem upd_eq {β : Type} (f : Nat → β) (p : Nat) (x : β) : upd f p x p = x := by simp [upd]

theorem upd_ne {β : Type} (f : Nat → β) {p q : Nat} (x : β) (h : q ≠ p) : upd f p x q = f q := by simp [upd, h]

theorem upd_self {β : Type} (f : Nat → β) (p : Nat) : upd f p (f p) = f := by
  funext q
  by_cases h : q = p
  · rw [h, upd_eq]
  · rw [upd_ne _ _ h]

/-- Cells keep their children: so a process which has all of them keeps them. -/
theorem has_mono {n : Nat} {tbl tbl' : Nat → Table} (hg : ∀ p < n, Good G (tbl' p)) (h : ∀ p < n, ∀ k c, tbl p k = some c → ∃ c', tbl' p k = some c' ∧ c.kids ⊆ c'.kids) (o : Nat) (k : Key)
    (hh : Has G n tbl o k) : Has G n tbl' o k := by
  obtain ⟨ho, c, g, hc, hgk, hk⟩ := hh
  obtain ⟨c', hc', hs⟩ := h o ho k c hc
  obtain ⟨g', hg', _, hs', _⟩ := (hg o ho).sub k c' hc'
  rw [hgk] at hg'; cases hg'
  exact ⟨ho, c', g, hc', hgk, Finset.Subset.antisymm hs' (hk ▸ hs)⟩

theorem trOK_mono {n : Nat} {tbl tbl' : Nat → Table} {p : Nat} {x : Trans} (hm : ∀ o k, Has G n tbl o k → Has G n tbl' o k) (hk : ∀ k ∈ x.keys, tbl' p k = tbl p k)
    (h : TrOK G n tbl p x) : TrOK G n tbl' p x := by
  obtain ⟨owner, keys, stage⟩ := x
  refine ⟨h.1, ?_⟩
  cases stage with
  | asked =>
    obtain ⟨_, h1, h2⟩ := h
    refine ⟨h1, fun k hk' => ?_⟩
    obtain ⟨⟨c, hc⟩, h3⟩ := h2 k hk'
    exact ⟨⟨c, by rw [hk k hk']; exact hc.1, hc.2⟩, hm _ _ h3⟩
  | answered ns es =>
    obtain ⟨_, h1, h2⟩ := h
    refine ⟨fun k hk' => ?_, h2.mono hm⟩
    obtain ⟨c, hc⟩ := h1 k hk'
    exact ⟨c, by rw [hk k hk']; exact hc.1, hc.2⟩
  | rest es =>
    obtain ⟨_, h1, h2, ns, h3⟩ := h
    refine ⟨h1, fun k hk' => ?_, ns, h3.mono hm⟩
    obtain ⟨c, g, hc⟩ := h2 k hk'
    exact ⟨c, g, by rw [hk k hk']; exact hc.1, hc.2⟩

/-- `set_requested` changes nothing else. -/
theorem mark_some {t : Table} {ks : List Key} {k : Key} {c : Cell} (h : mark t ks k = some c) : ∃ c0, t k = some c0 ∧ c = { c0 with requested := if k ∈ ks then true else c0.requested } := by
  unfold mark at h
  split_ifs at h with hk
  · rw [Option.map_eq_some_iff] at h
    obtain ⟨a, ha, rfl⟩ := h
    exact ⟨a, ha, by simp [hk]⟩
  · exact ⟨c, h, by simp [hk]⟩

theorem mark_of_some {t : Table} {k : Key} {c : Cell} (ks : List Key) (h : t k = some c) : mark t ks k = some { c with requested := if k ∈ ks then true else c.requested } := by
  unfold mark
  split_ifs with hk <;> simp [h]

theorem mark_isSome (t : Table) (ks : List Key) (k : Key) : (mark t ks k).isSome = (t k).isSome := by
  unfold mark
  split_ifs <;> simp

theorem good_mark {t : Table} (ht : Good G t) (ks : List Key) : Good G (mark t ks) := by
  refine ⟨?_, ?_, ?_⟩
  · intro k c hc
    obtain ⟨c0, h0, rfl⟩ := mark_some hc
    exact ht.sub k c0 h0
  · intro j k
    rw [mark_isSome, ht.link]
    constructor
    · rintro ⟨c, hc, hj⟩
      exact ⟨_, mark_of_some ks hc, hj⟩
    · rintro ⟨c, hc, hj⟩
      obtain ⟨c0, h0, rfl⟩ := mark_some hc
      exact ⟨c0, h0, hj⟩
  · obtain ⟨c, hc, he⟩ := ht.root
    exact ⟨_, mark_of_some ks hc, he⟩

/-- The messages of `request_`. -/
theorem requests_mem {n : Nat} {l : List (Nat × Key)} {x : Trans} (h : x ∈ requests n l) :
    x.owner < n ∧ x.stage = .asked ∧ x.keys ≠ [] ∧ ∀ k, k ∈ x.keys ↔ (x.owner, k) ∈ l := by
  unfold requests at h
  rw [List.mem_filterMap] at h
  obtain ⟨o, ho, h⟩ := h
  dsimp only at h
  split_ifs at h with h0
  cases h
  refine ⟨List.mem_range.1 ho, rfl, h0, fun k => ?_⟩
  simp only [List.mem_map, List.mem_filter, decide_eq_true_eq]
  constructor
  · rintro ⟨⟨o', k'⟩, ⟨h1, h2⟩, h3⟩
    dsimp only at h2 h3
    rw [← h2, ← h3]
    exact h1
  · intro h1
    exact ⟨(o, k), ⟨h1, rfl⟩, rfl⟩

theorem requests_covers {n : Nat} {l : List (Nat × Key)} {o : Nat} {k : Key} (h : (o, k) ∈ l) (ho : o < n) : ∃ x ∈ requests n l, k ∈ x.keys := by
  have hmem : k ∈ (l.filter fun x => x.1 = o).map Prod.snd := by
    simp only [List.mem_map, List.mem_filter, decide_eq_true_eq]
    exact ⟨(o, k), ⟨h, rfl⟩, rfl⟩
  refine ⟨⟨o, _, .asked⟩, ?_, hmem⟩
  unfold requests
  rw [List.mem_filterMap]
  refine ⟨o, List.mem_range.2 ho, ?_⟩
  dsimp only
  rw [if_neg]
  intro h0
  rw [h0] at hmem
  simp at hmem

theorem requests_nodup (n : Nat) (l : List (Nat × Key)) (hl : (l.map Prod.snd).Nodup) : ((requests n l).flatMap Trans.keys).Nodup := by
  unfold requests
  have hln : l.Nodup := List.Nodup.of_map _ hl
  have hinj : ∀ o o' k, (o, k) ∈ l → (o', k) ∈ l → o = o' := by
    intro o o' k h1 h2
    have := List.inj_on_of_nodup_map hl h1 h2 rfl
    exact congrArg Prod.fst this
  have : ∀ r : List Nat, r.Nodup → ((r.filterMap fun o =>
      let ks := (l.filter fun x => x.1 = o).map Prod.snd
      if ks = [] then none else some ({ owner := o, keys := ks, stage := .asked } : Trans)).flatMap Trans.keys).Nodup ∧
      ∀ k, k ∈ ((r.filterMap fun o =>
      let ks := (l.filter fun x => x.1 = o).map Prod.snd
      if ks = [] then none else some ({ owner := o, keys := ks, stage := .asked } : Trans)).flatMap Trans.keys) → ∃ o ∈ r, (o, k) ∈ l := by
    intro r hr
    induction r with
    | nil => simp
    | cons o r ih =>
      rw [List.nodup_cons] at hr
      obtain ⟨h1, h2⟩ := ih hr.2
      rw [List.filterMap_cons]
      dsimp only
      have hmem : ∀ k, k ∈ (l.filter fun x => x.1 = o).map Prod.snd → (o, k) ∈ l := by
        intro k hk
        simp only [List.mem_map, List.mem_filter, decide_eq_true_eq] at hk
        obtain ⟨⟨o', k'⟩, ⟨h1, h2⟩, h3⟩ := hk
        dsimp only at h2 h3
        rw [← h2, ← h3]
        exact h1
      split_ifs with h0
      · refine ⟨h1, fun k hk => ?_⟩
        obtain ⟨o', ho', h⟩ := h2 k hk
        exact ⟨o', by simp [ho'], h⟩
      · rw [List.flatMap_cons]
        refine ⟨List.nodup_append.2 ⟨hl.sublist (List.Sublist.map _ List.filter_sublist), h1, ?_⟩, ?_⟩
        · intro x hx y hy hxy
          subst hxy
          obtain ⟨o', ho', h⟩ := h2 x hy
          rw [hinj o o' x (hmem x hx) h] at hr
          exact hr.1 ho'
        · intro k hk
          rw [List.mem_append] at hk
          rcases hk with hk | hk
          · exact ⟨o, by simp, hmem k hk⟩
          · obtain ⟨o', ho', h⟩ := h2 k hk
            exact ⟨o', by simp [ho'], h⟩
  exact (this (List.range n) List.nodup_range).1

/-- The missing cells which are not requested yet. -/
theorem unrequested_mem {t : Table} {ms : List Key} {o : Nat} {k : Key} : (o, k) ∈ unrequested t ms ↔ k ∈ ms ∧ ∃ c, t k = some c ∧ c.requested = false ∧ c.owner = o := by
  unfold unrequested
  rw [List.mem_filterMap]
  constructor
  · rintro ⟨k', hk', h⟩
    split at h
    · cases h
    · rename_i c hc
      split_ifs at h with hr
      cases h
      exact ⟨hk', c, hc, by simpa using hr, rfl⟩
  · rintro ⟨h1, c, hc, hr, rfl⟩
    exact ⟨k, h1, by rw [hc]; simp [hr]⟩

theorem unrequested_nodup {t : Table} {ms : List Key} (h : ms.Nodup) : ((unrequested t ms).map Prod.snd).Nodup := by
  have : ((unrequested t ms).map Prod.snd).Sublist ms := by
    clear h
    induction ms with
    | nil => simp [unrequested]
    | cons k ms ih =>
      unfold unrequested at ih ⊢
      rw [List.filterMap_cons]
      split
      · exact ih.cons _
      · rename_i b hb
        split at hb
        · cases hb
        · split_ifs at hb
          cases hb
          exact ih.cons_cons _
  exact h.sublist this

section
variable {P : Par τ ω} {s0 s : State τ ω} {K : Tasks P G (Mine s0)}

/-- A requested cell that is waited for is not complete. -/
theorem pending_requested (h : Inv P G s0 K s) {p : Nat} (hp : p < P.n) {k : Key} (hk : k ∈ pendingKeys s p) : ∃ c, s.tbl p k = some c ∧ c.requested = true := by
  unfold pendingKeys at hk
  rw [List.mem_append, List.mem_map, List.mem_flatMap] at hk
  rcases hk with ⟨x, hx, rfl⟩ | ⟨x, hx, hk⟩
  · obtain ⟨⟨c, hc, _, hr, _⟩, _⟩ := h.send p hp x hx
    exact ⟨c, hc, hr⟩
  · have h4 := (h.tr p hp x hx).2
    obtain ⟨owner, keys, stage⟩ := x
    cases stage with
    | asked => obtain ⟨c, hc, _, hr, _⟩ := (h4.2 k hk).1; exact ⟨c, hc, hr⟩
    | answered ns es => obtain ⟨c, hc, _, hr, _⟩ := h4.1 k hk; exact ⟨c, hc, hr⟩
    | rest es => obtain ⟨c, g, hc, _, _, hr, _⟩ := h4.2.1 k hk; exact ⟨c, hc, hr⟩

/-- A task step. -/
theorem inv_work (hT : IsTree P.nch G cells) (h : Inv P G s0 K s) {p : Nat} (hp : p < P.n) {l1 l2 : List τ} {a : τ} (hl : s.tasks p = l1 ++ a :: l2) :
    ∃ s', work P s p l1 a l2 = some s' ∧ Inv P G s0 K s' := by
  have hok : K.Ok p (s.tbl p) a := h.ok p hp a (by rw [hl]; simp)
  obtain ⟨r, hr, hpost⟩ := K.step p hp (s.tbl p) (h.view p hp) a hok
  unfold work
  rw [hr]
  cases r with
  | done next out =>
    obtain ⟨h1, hnok, h2⟩ := hpost
    refine ⟨_, rfl, ⟨h.view, h.own, h.send, h.tr, h.whole, h.dis, ?_, h.asked, ?_, h.got, ?_, ?_⟩⟩
    · intro q hq k c hc hrq hem
      obtain ⟨h3, b, hb, h4⟩ := h.pend q hq k c hc hrq hem
      refine ⟨h3, ?_⟩
      by_cases hqp : q = p
      · subst hqp
        show ∃ b ∈ upd s.tasks q (l1 ++ next ++ l2) q, K.Need b k
        rw [upd_eq]
        rw [hl, List.mem_append, List.mem_cons] at hb
        rcases hb with hb | rfl | hb
        · exact ⟨b, by simp [hb], h4⟩
        · obtain ⟨b', hb', h5⟩ := h2 k c hc hem h4
          exact ⟨b', by simp [hb'], h5⟩
        · exact ⟨b, by simp [hb], h4⟩
      · refine ⟨b, ?_, h4⟩
        show b ∈ upd s.tasks p (l1 ++ next ++ l2) q
        rw [upd_ne _ _ hqp]
        exact hb
    · intro q hq hs
      show upd s.tasks p (l1 ++ next ++ l2) q = []
      by_cases hqp : q = p
      · subst hqp
        have := h.sent q hq hs
        rw [hl] at this
        simp at this
      · rw [upd_ne _ _ hqp]
        exact h.sent q hq hs
    · intro q hq b hb
      change b ∈ upd s.tasks p (l1 ++ next ++ l2) q at hb
      by_cases hqp : q = p
      · subst hqp
        rw [upd_eq] at hb
        simp only [List.mem_append] at hb
        rcases hb with (hb | hb) | hb
        · exact h.ok q hq b (by rw [hl]; simp [hb])
        · exact hnok b hb
        · exact h.ok q hq b (by rw [hl]; simp [hb])
      · rw [upd_ne _ _ hqp] at hb
        exact h.ok q hq b hb
    · intro q hq
      show Hist (K.Done q) (s0.tasks q) (upd s.tasks p (l1 ++ next ++ l2) q) (upd s.results p (s.results p ++ out) q)
      by_cases hqp : q = p
      · subst hqp
        rw [upd_eq, upd_eq]
        have := h.hist q hq
        rw [hl] at this
        exact .step this h1
      · rw [upd_ne _ _ hqp, upd_ne _ _ hqp]
        exact h.hist q hq
  | missing ms =>
    obtain ⟨h1, h2, h3⟩ := hpost
    obtain ⟨new, hnew⟩ : ∃ new, new = unrequested (s.tbl p) ms := ⟨_, rfl⟩
    have hnn : (new.map Prod.snd).Nodup := hnew ▸ unrequested_nodup h2
    have hnm : ∀ o k, (o, k) ∈ new → K.Need a k ∧ ∃ c, s.tbl p k = some c ∧ emptyNode c = true ∧ c.requested = false ∧ c.owner = o := by
      intro o k hk
      rw [hnew, unrequested_mem] at hk
      obtain ⟨hk, c, hc, hrq, ho⟩ := hk
      obtain ⟨e1, c', hc', e3⟩ := h3 k hk
      rw [hc] at hc'; cases hc'
      exact ⟨e1, c, hc, e3, hrq, ho⟩
    obtain ⟨ks, hks⟩ : ∃ ks, ks = new.map Prod.snd := ⟨_, rfl⟩
    have hkm : ∀ k, k ∈ ks → ∃ o, (o, k) ∈ new := by
      intro k hk
      rw [hks, List.mem_map] at hk
      obtain ⟨⟨o, k'⟩, h4, rfl⟩ := hk
      exact ⟨o, h4⟩
    obtain ⟨tbl', htbl⟩ : ∃ tbl', tbl' = upd s.tbl p (mark (s.tbl p) ks) := ⟨_, rfl⟩
    have htp : tbl' p = mark (s.tbl p) ks := by rw [htbl, upd_eq]
    have htq : ∀ q, q ≠ p → tbl' q = s.tbl q := fun q hq => by rw [htbl, upd_ne _ _ hq]
    have hview : ∀ q < P.n, View G (Mine s0 q) q (tbl' q) := by
      intro q hq
      by_cases hqp : q = p
      · subst hqp
        rw [htp]
        have hv := h.view q hq
        refine ⟨good_mark hv.good _, ?_, ?_⟩
        · intro k c hc
          obtain ⟨c0, h0, rfl⟩ := mark_some hc
          exact hv.mine k c0 h0
        · intro k hk
          obtain ⟨c, g, hc, hg, hf⟩ := hv.full k hk
          exact ⟨_, g, mark_of_some ks hc, hg, hf⟩
      · rw [htq q hqp]; exact h.view q hq
    have hgood : ∀ q < P.n, Good G (tbl' q) := fun q hq => (hview q hq).good
    have hmono : ∀ o k, Has G P.n s.tbl o k → Has G P.n tbl' o k := by
      apply has_mono hgood
      intro q hq k c hc
      by_cases hqp : q = p
      · subst hqp
        rw [htp]
        exact ⟨_, mark_of_some ks hc, Finset.Subset.refl _⟩
      · rw [htq q hqp]
        exact ⟨c, hc, Finset.Subset.refl _⟩
    have hwait : ∀ o k, (o, k) ∈ new → Waiting (tbl' p) k ∧ Has G P.n s.tbl o k := by
      intro o k hk
      obtain ⟨_, c, hc, hem, hrq, ho⟩ := hnm o k hk
      have hkk : k ∈ ks := by rw [hks]; exact List.mem_map.2 ⟨(o, k), hk, rfl⟩
      have hce : c.ent = false := by
        cases hce : c.ent with
        | false => rfl
        | true => simp [emptyNode, hce] at hem
      refine ⟨⟨{ c with requested := if k ∈ ks then true else c.requested }, by rw [htp]; exact mark_of_some ks hc, hce, by simp [hkk], ?_⟩, ho ▸ h.own p hp k c hc⟩
      rcases h.whole p hp k c hc hrq with h0 | ⟨g, hg, hk'⟩
      · exact h0
      · rw [not_empty_of_full hT (h.view p hp).good hc hg hk'] at hem
        cases hem
    have hold : ∀ k ∈ pendingKeys s p, k ∉ ks := by
      intro k hk hn
      obtain ⟨c, hc, hr⟩ := pending_requested h hp hk
      obtain ⟨o, hn⟩ := hkm k hn
      obtain ⟨_, c', hc', _, hrq, _⟩ := hnm o k hn
      rw [hc] at hc'; cases hc'
      rw [hr] at hrq; cases hrq
    have hsame : ∀ k ∈ pendingKeys s p, tbl' p k = s.tbl p k := by
      intro k hk
      rw [htp]
      simp [mark, hold k hk]
    refine ⟨_, rfl, ?_⟩
    rw [← hnew, ← hks, ← htbl]
    refine ⟨hview, ?_, ?_, ?_, ?_, ?_, ?_, ?_, h.sent, h.got, ?_, h.hist⟩
    · intro q hq k c hc
      change tbl' q k = some c at hc
      apply hmono
      by_cases hqp : q = p
      · subst hqp
        rw [htp] at hc
        obtain ⟨c0, h0, rfl⟩ := mark_some hc
        exact h.own q hq k c0 h0
      · rw [htq q hqp] at hc
        exact h.own q hq k c hc
    · intro q hq x hx
      change x ∈ upd s.toSend p (s.toSend p ++ new) q at hx
      show Waiting (tbl' q) x.2 ∧ Has G P.n tbl' x.1 x.2
      by_cases hqp : q = p
      · subst hqp
        rw [upd_eq, List.mem_append] at hx
        rcases hx with hx | hx
        · obtain ⟨⟨c, hc⟩, h5⟩ := h.send q hq x hx
          refine ⟨⟨c, ?_, hc.2⟩, hmono _ _ h5⟩
          rw [hsame x.2 (by unfold pendingKeys; exact List.mem_append_left _ (List.mem_map.2 ⟨x, hx, rfl⟩))]
          exact hc.1
        · obtain ⟨e1, e2⟩ := hwait x.1 x.2 hx
          exact ⟨e1, hmono _ _ e2⟩
      · rw [upd_ne _ _ hqp] at hx
        rw [htq q hqp]
        obtain ⟨e1, e2⟩ := h.send q hq x hx
        exact ⟨e1, hmono _ _ e2⟩
    · intro q hq x hx
      change x ∈ s.trans q at hx
      show TrOK G P.n tbl' q x
      refine trOK_mono hmono (fun k hk => ?_) (h.tr q hq x hx)
      by_cases hqp : q = p
      · subst hqp
        exact hsame k (by unfold pendingKeys; exact List.mem_append_right _ (List.mem_flatMap.2 ⟨x, hx, hk⟩))
      · rw [htq q hqp]
    · intro q hq k c hc hrq
      change tbl' q k = some c at hc
      by_cases hqp : q = p
      · subst hqp
        rw [htp] at hc
        obtain ⟨c0, h0, rfl⟩ := mark_some hc
        by_cases hk : k ∈ ks
        · simp [hk] at hrq
        · simp only [hk, if_false] at hrq
          exact h.whole q hq k c0 h0 hrq
      · rw [htq q hqp] at hc
        exact h.whole q hq k c hc hrq
    · intro q hq
      show ((upd s.toSend p (s.toSend p ++ new) q).map Prod.snd ++ (s.trans q).flatMap Trans.keys).Nodup
      by_cases hqp : q = p
      · subst hqp
        rw [upd_eq, List.map_append, ← hks]
        have hd := h.dis q hq
        have hperm : (((s.toSend q).map Prod.snd ++ ks) ++ (s.trans q).flatMap Trans.keys).Perm (pendingKeys s q ++ ks) := by
          unfold pendingKeys
          rw [List.append_assoc, List.append_assoc]
          exact List.Perm.append_left _ List.perm_append_comm
        rw [hperm.nodup_iff]
        refine List.nodup_append.2 ⟨hd, hks ▸ hnn, ?_⟩
        intro x hx y hy hxy
        subst hxy
        exact hold x hx hy
      · rw [upd_ne _ _ hqp]
        exact h.dis q hq
    · intro q hq k c hc hrq hem
      change tbl' q k = some c at hc
      show k ∈ (upd s.toSend p (s.toSend p ++ new) q).map Prod.snd ++ (s.trans q).flatMap Trans.keys ∧ ∃ b ∈ s.tasks q, K.Need b k
      by_cases hqp : q = p
      · subst hqp
        rw [htp] at hc
        obtain ⟨c0, h0, rfl⟩ := mark_some hc
        rw [upd_eq, List.map_append, ← hks]
        by_cases hk : k ∈ ks
        · obtain ⟨o, hn⟩ := hkm k hk
          exact ⟨by simp [hk], a, by rw [hl]; simp, (hnm o k hn).1⟩
        · simp only [hk, if_false] at hrq
          obtain ⟨e1, e2⟩ := h.pend q hq k c0 h0 hrq hem
          refine ⟨?_, e2⟩
          unfold pendingKeys at e1
          simp only [List.mem_append] at e1 ⊢
          tauto
      · rw [htq q hqp] at hc
        rw [upd_ne _ _ hqp]
        exact h.pend q hq k c hc hrq hem
    · intro q hq
      show (upd s.asked p (s.asked p ++ ks) q).Nodup ∧ ∀ k ∈ upd s.asked p (s.asked p ++ ks) q, ∃ c, tbl' q k = some c ∧ c.requested = true
      by_cases hqp : q = p
      · subst hqp
        rw [upd_eq]
        obtain ⟨e1, e2⟩ := h.asked q hq
        refine ⟨List.nodup_append.2 ⟨e1, hks ▸ hnn, ?_⟩, ?_⟩
        · intro x hx y hy hxy
          subst hxy
          obtain ⟨c, hc, hr⟩ := e2 x hx
          obtain ⟨o, hy⟩ := hkm x hy
          obtain ⟨_, c', hc', _, hrq, _⟩ := hnm o x hy
          rw [hc] at hc'; cases hc'
          rw [hr] at hrq; cases hrq
        · intro k hk
          rw [htp]
          rcases List.mem_append.1 hk with hk | hk
          · obtain ⟨c, hc, hr⟩ := e2 k hk
            exact ⟨_, mark_of_some ks hc, by dsimp only; split_ifs <;> simp [hr]⟩
          · obtain ⟨o, hn⟩ := hkm k hk
            obtain ⟨_, c, hc, _⟩ := hnm o k hn
            exact ⟨_, mark_of_some ks hc, by simp [hk]⟩
      · rw [upd_ne _ _ hqp, htq q hqp]
        exact h.asked q hq
    · intro q hq b hb
      refine K.mono q (s.tbl q) (tbl' q) b (fun k hk => ?_) (h.ok q hq b hb)
      by_cases hqp : q = p
      · subst hqp
        rw [htp, mark_isSome]
        exact hk
      · rw [htq q hqp]
        exact hk

/-- The collected requests are sent. -/
theorem inv_flush (h : Inv P G s0 K s) {p : Nat} (hp : p < P.n) : Inv P G s0 K (flush P s p) := by
  have hnd : ((s.toSend p).map Prod.snd).Nodup := by
    have := h.dis p hp
    unfold pendingKeys at this
    exact (List.nodup_append.1 this).1
  have hkeys : ∀ k, k ∈ (requests P.n (s.toSend p)).flatMap Trans.keys ↔ k ∈ (s.toSend p).map Prod.snd := by
    intro k
    rw [List.mem_flatMap, List.mem_map]
    constructor
    · rintro ⟨x, hx, hk⟩
      exact ⟨_, ((requests_mem hx).2.2.2 k).1 hk, rfl⟩
    · rintro ⟨⟨o, k'⟩, hx, rfl⟩
      exact requests_covers hx (h.send p hp _ hx).2.1
  have hpk : ∀ q, ∀ k, k ∈ pendingKeys (flush P s p) q ↔ k ∈ pendingKeys s q := by
    intro q k
    unfold pendingKeys flush
    dsimp only
    by_cases hqp : q = p
    · subst hqp
      rw [upd_eq, upd_eq, List.flatMap_append]
      simp only [List.map_nil, List.nil_append, List.mem_append, hkeys]
      exact Or.comm
    · rw [upd_ne _ _ hqp, upd_ne _ _ hqp]
  refine ⟨h.view, h.own, ?_, ?_, h.whole, ?_, ?_, h.asked, h.sent, h.got, h.ok, h.hist⟩
  · intro q hq x hx
    change x ∈ upd s.toSend p [] q at hx
    by_cases hqp : q = p
    · subst hqp
      rw [upd_eq] at hx
      simp at hx
    · rw [upd_ne _ _ hqp] at hx
      exact h.send q hq x hx
  · intro q hq x hx
    change x ∈ upd s.trans p (s.trans p ++ requests P.n (s.toSend p)) q at hx
    show TrOK G P.n s.tbl q x
    by_cases hqp : q = p
    · subst hqp
      rw [upd_eq, List.mem_append] at hx
      rcases hx with hx | hx
      · exact h.tr q hq x hx
      · obtain ⟨e1, e2, e3, e4⟩ := requests_mem hx
        refine ⟨e3, ?_⟩
        rw [e2]
        exact ⟨e1, fun k hk => h.send q hq _ ((e4 k).1 hk)⟩
    · rw [upd_ne _ _ hqp] at hx
      exact h.tr q hq x hx
  · intro q hq
    by_cases hqp : q = p
    · subst hqp
      unfold pendingKeys flush
      dsimp only
      rw [upd_eq, upd_eq, List.flatMap_append, List.map_nil, List.nil_append]
      have hd := h.dis q hq
      unfold pendingKeys at hd
      rw [List.nodup_append] at hd
      refine List.nodup_append.2 ⟨hd.2.1, requests_nodup _ _ hnd, ?_⟩
      intro x hx y hy hxy
      subst hxy
      exact hd.2.2 x ((hkeys x).1 hy) x hx rfl
    · have := h.dis q hq
      unfold pendingKeys flush at *
      dsimp only
      rwa [upd_ne _ _ hqp, upd_ne _ _ hqp]
  · intro q hq k c hc hrq hem
    obtain ⟨e1, e2⟩ := h.pend q hq k c hc hrq hem
    exact ⟨(hpk q k).2 e1, e2⟩

/-- The owner answers a request. -/
theorem inv_serve (hT : IsTree P.nch G cells) (h : Inv P G s0 K s) {p : Nat} (hp : p < P.n) {l1 l2 : List Trans} {x : Trans} (hl : s.trans p = l1 ++ x :: l2) (hx : x.stage = .asked) :
    ∃ s', serve P s p l1 x l2 = some s' ∧ Inv P G s0 K s' := by
  have hxm : x ∈ s.trans p := by rw [hl]; simp
  have hok := h.tr p hp x hxm
  obtain ⟨hk0, hok⟩ := hok
  rw [hx] at hok
  obtain ⟨ho, hks⟩ := hok
  obtain ⟨ns, es, hrep, hans⟩ := reply_spec hT (h.view x.owner ho).good (h.own x.owner ho) x.keys (by
    intro k hk
    obtain ⟨⟨c, hc, hce, _⟩, _, c', g, hc', hg, hf⟩ := hks k hk
    refine ⟨c', g, hc', hg, ?_, hf⟩
    obtain ⟨g1, hg1, e1, _⟩ := (h.view p hp).good.sub k c hc
    obtain ⟨g2, hg2, e2, _⟩ := (h.view x.owner ho).good.sub k c' hc'
    rw [hg1] at hg2; cases hg2
    rw [e2, ← e1, hce])
  unfold serve
  rw [hrep]
  refine ⟨_, rfl, ⟨h.view, h.own, h.send, ?_, h.whole, ?_, ?_, h.asked, h.sent, h.got, h.ok, h.hist⟩⟩
  · intro q hq y hy
    change y ∈ upd s.trans p _ q at hy
    by_cases hqp : q = p
    · subst hqp
      rw [upd_eq, List.mem_append, List.mem_cons] at hy
      rcases hy with hy | rfl | hy
      · exact h.tr q hq y (by rw [hl]; simp [hy])
      · exact ⟨hk0, fun k hk => (hks k hk).1, hans⟩
      · exact h.tr q hq y (by rw [hl]; simp [hy])
    · rw [upd_ne _ _ hqp] at hy
      exact h.tr q hq y hy
  · intro q hq
    show ((s.toSend q).map Prod.snd ++ (upd s.trans p _ q).flatMap Trans.keys).Nodup
    by_cases hqp : q = p
    · subst hqp
      have := h.dis q hq
      unfold pendingKeys at this
      rw [hl] at this
      rw [upd_eq]
      simpa [List.flatMap_append, List.flatMap_cons] using this
    · rw [upd_ne _ _ hqp]
      exact h.dis q hq
  · intro q hq k c hc hrq hem
    obtain ⟨h1, h2⟩ := h.pend q hq k c hc hrq hem
    refine ⟨?_, h2⟩
    show k ∈ (s.toSend q).map Prod.snd ++ (upd s.trans p _ q).flatMap Trans.keys
    by_cases hqp : q = p
    · subst hqp
      unfold pendingKeys at h1
      rw [hl] at h1
      rw [upd_eq]
      simpa [List.flatMap_append, List.flatMap_cons] using h1
    · rw [upd_ne _ _ hqp]
      exact h1

/-- A reply changes the table of `p` at the requested cells and adds cells; the request is then either still waiting for the rest, or its cells have all their children. -/
theorem inv_table (hT : IsTree P.nch G cells) (h : Inv P G s0 K s) {p : Nat} (hp : p < P.n) {l1 l2 : List Trans} {x : Trans} (hl : s.trans p = l1 ++ x :: l2) {t' : Table} (hg' : Good G t')
    (hfr : Frame (Has G P.n s.tbl) x.keys (s.tbl p) t')
    (hold : ∀ k ∈ x.keys, ∃ c c', s.tbl p k = some c ∧ t' k = some c' ∧ c.requested = true ∧ c'.requested = true ∧ c.kids ⊆ c'.kids ∧ Has G P.n s.tbl c'.owner k ∧ (c'.owner = p ↔ c.owner = p))
    (new : List Trans)
    (hnew : (new = [] ∧ ∀ k ∈ x.keys, ∃ c' g, t' k = some c' ∧ G k = some g ∧ c'.kids = g.kids) ∨
      ∃ y, new = [y] ∧ y.keys = x.keys ∧ ∀ tbl', (∀ o k, Has G P.n s.tbl o k → Has G P.n tbl' o k) → tbl' p = t' → TrOK G P.n tbl' p y) :
    Inv P G s0 K { s with tbl := upd s.tbl p t', trans := upd s.trans p (l1 ++ new ++ l2) } := by
  obtain ⟨tbl', htbl⟩ : ∃ tbl', tbl' = upd s.tbl p t' := ⟨_, rfl⟩
  have htp : tbl' p = t' := by rw [htbl, upd_eq]
  have htq : ∀ q, q ≠ p → tbl' q = s.tbl q := fun q hq => by rw [htbl, upd_ne _ _ hq]
  have hgood : ∀ q < P.n, Good G (tbl' q) := by
    intro q hq
    by_cases hqp : q = p
    · rw [hqp, htp]; exact hg'
    · rw [htq q hqp]; exact (h.view q hq).good
  have hmono : ∀ o k, Has G P.n s.tbl o k → Has G P.n tbl' o k := by
    apply has_mono hgood
    intro q hq k c hc
    by_cases hqp : q = p
    · subst hqp
      rw [htp]
      by_cases hk : k ∈ x.keys
      · obtain ⟨c0, c', h1, h2, _, _, h3, _, _⟩ := hold k hk
        rw [hc] at h1; cases h1
        exact ⟨c', h2, h3⟩
      · exact ⟨c, hfr.old k hk c hc, Finset.Subset.refl _⟩
    · rw [htq q hqp]
      exact ⟨c, hc, Finset.Subset.refl _⟩
  have hdis := h.dis p hp
  unfold pendingKeys at hdis
  rw [hl] at hdis
  have hdtr := (List.nodup_append.1 hdis).2.1
  have hother : ∀ k, k ∈ (s.toSend p).map Prod.snd ∨ (∃ y, (y ∈ l1 ∨ y ∈ l2) ∧ k ∈ y.keys) → k ∉ x.keys := by
    rintro k (hk | ⟨y, hy, hk⟩) hkx
    · exact (List.nodup_append.1 hdis).2.2 k hk k (by simp [hkx]) rfl
    · rw [List.flatMap_append, List.flatMap_cons, List.nodup_append] at hdtr
      obtain ⟨_, h2, h3⟩ := hdtr
      rcases hy with hy | hy
      · exact h3 k (List.mem_flatMap.2 ⟨y, hy, hk⟩) k (by simp [hkx]) rfl
      · rw [List.nodup_append] at h2
        exact h2.2.2 k hkx k (List.mem_flatMap.2 ⟨y, hy, hk⟩) rfl
  have hkeep : ∀ k, k ∈ (s.toSend p).map Prod.snd ∨ (∃ y, (y ∈ l1 ∨ y ∈ l2) ∧ k ∈ y.keys) → tbl' p k = s.tbl p k := by
    intro k hk
    have hpk : k ∈ pendingKeys s p := by
      unfold pendingKeys
      rw [hl, List.mem_append, List.mem_flatMap]
      rcases hk with hk | ⟨y, hy, hk⟩
      · exact Or.inl hk
      · refine Or.inr ⟨y, ?_, hk⟩
        simp only [List.mem_append, List.mem_cons]
        tauto
    obtain ⟨c, hc, _⟩ := pending_requested h hp hpk
    rw [htp, hfr.old k (hother k hk) c hc, hc]
  -- where a cell of the new table comes from
  have hfrom : ∀ k c', t' k = some c' → (k ∈ x.keys ∧ c'.requested = true ∧ Has G P.n s.tbl c'.owner k ∧ ∃ c, s.tbl p k = some c ∧ c.requested = true) ∨ (k ∉ x.keys ∧ s.tbl p k = some c') ∨
      (s.tbl p k = none ∧ c'.requested = false ∧ c'.kids = ∅ ∧ Has G P.n s.tbl c'.owner k) := by
    intro k c' hc'
    by_cases hk : k ∈ x.keys
    · obtain ⟨c0, c1, h1, h2, h3, h4, _, h5, _⟩ := hold k hk
      rw [hc'] at h2; cases h2
      exact Or.inl ⟨hk, h4, h5, c0, h1, h3⟩
    · cases ht : s.tbl p k with
      | none => exact Or.inr (Or.inr ⟨rfl, hfr.new k c' ht hc'⟩)
      | some c =>
        have := hfr.old k hk c ht
        rw [hc'] at this
        exact Or.inr (Or.inl ⟨hk, this.symm⟩)
  have hpres : ∀ k, (s.tbl p k).isSome → (t' k).isSome := by
    intro k hk
    obtain ⟨c, hc⟩ := Option.isSome_iff_exists.1 hk
    by_cases hkx : k ∈ x.keys
    · obtain ⟨_, c', _, h2, _⟩ := hold k hkx
      rw [h2]; rfl
    · rw [hfr.old k hkx c hc]; rfl
  rw [← htbl]
  refine ⟨?_, ?_, ?_, ?_, ?_, ?_, ?_, ?_, h.sent, h.got, ?_, h.hist⟩
  · intro q hq
    show View G (Mine s0 q) q (tbl' q)
    by_cases hqp : q = p
    · subst hqp
      rw [htp]
      have hv := h.view q hq
      refine ⟨hg', ?_, ?_⟩
      · intro k c' hc'
        by_cases hk : k ∈ x.keys
        · obtain ⟨c0, c1, h1, h2, _, _, _, _, h3⟩ := hold k hk
          rw [hc'] at h2; cases h2
          rw [h3]
          exact hv.mine k c0 h1
        · cases ht : s.tbl q k with
          | none =>
            have h1 := hfr.new k c' ht hc'
            constructor
            · intro ho
              obtain ⟨_, c2, g2, h2, _⟩ := h1.2.2
              rw [ho, ht] at h2
              cases h2
            · intro hO
              obtain ⟨c2, g2, h2, _⟩ := hv.full k hO
              rw [ht] at h2
              cases h2
          | some c =>
            have := hfr.old k hk c ht
            rw [hc'] at this
            cases this
            exact hv.mine k c' ht
      · intro k hO
        obtain ⟨c, g, hc, hg, hf⟩ := hv.full k hO
        obtain ⟨_, c', g', h1, h2, h3⟩ := hmono q k ⟨hq, c, g, hc, hg, hf⟩
        rw [htp] at h1
        exact ⟨c', g', h1, h2, h3⟩
    · rw [htq q hqp]
      exact h.view q hq
  · intro q hq k c hc
    change tbl' q k = some c at hc
    apply hmono
    by_cases hqp : q = p
    · subst hqp
      rw [htp] at hc
      rcases hfrom k c hc with h1 | h1 | h1
      · exact h1.2.2.1
      · exact h.own q hq k c h1.2
      · exact h1.2.2.2
    · rw [htq q hqp] at hc
      exact h.own q hq k c hc
  · intro q hq y hy
    change y ∈ s.toSend q at hy
    show Waiting (tbl' q) y.2 ∧ Has G P.n tbl' y.1 y.2
    obtain ⟨⟨c, hc⟩, h5⟩ := h.send q hq y hy
    refine ⟨⟨c, ?_, hc.2⟩, hmono _ _ h5⟩
    by_cases hqp : q = p
    · subst hqp
      rw [hkeep y.2 (Or.inl (List.mem_map.2 ⟨y, hy, rfl⟩))]
      exact hc.1
    · rw [htq q hqp]
      exact hc.1
  · intro q hq y hy
    change y ∈ upd s.trans p (l1 ++ new ++ l2) q at hy
    show TrOK G P.n tbl' q y
    by_cases hqp : q = p
    · subst hqp
      rw [upd_eq] at hy
      have hcase : (y ∈ l1 ∨ y ∈ l2) ∨ y ∈ new := by
        simp only [List.mem_append] at hy
        tauto
      rcases hcase with hy' | hy'
      · have hym : y ∈ s.trans q := by
          rw [hl]
          simp only [List.mem_append, List.mem_cons]
          tauto
        exact trOK_mono hmono (fun k hk => hkeep k (Or.inr ⟨y, hy', hk⟩)) (h.tr q hq y hym)
      · rcases hnew with ⟨h0, _⟩ | ⟨z, hz, _, hz2⟩
        · rw [h0] at hy'; simp at hy'
        · rw [hz, List.mem_singleton] at hy'
          subst hy'
          exact hz2 tbl' hmono htp
    · rw [upd_ne _ _ hqp] at hy
      exact trOK_mono hmono (fun k _ => by rw [htq q hqp]) (h.tr q hq y hy)
  · intro q hq k c hc hrq
    change tbl' q k = some c at hc
    by_cases hqp : q = p
    · subst hqp
      rw [htp] at hc
      rcases hfrom k c hc with h1 | h1 | h1
      · rw [hrq] at h1; cases h1.2.1
      · exact h.whole q hq k c h1.2 hrq
      · exact Or.inl h1.2.2.1
    · rw [htq q hqp] at hc
      exact h.whole q hq k c hc hrq
  · intro q hq
    show ((s.toSend q).map Prod.snd ++ (upd s.trans p (l1 ++ new ++ l2) q).flatMap Trans.keys).Nodup
    by_cases hqp : q = p
    · subst hqp
      rw [upd_eq]
      rcases hnew with ⟨h0, _⟩ | ⟨z, hz, hzk, _⟩
      · rw [h0, List.append_nil]
        refine hdis.sublist ?_
        rw [List.flatMap_append, List.flatMap_append, List.flatMap_cons]
        exact List.Sublist.append_left (List.Sublist.append_left (List.sublist_append_right _ _) _) _
      · rw [hz]
        simpa [List.flatMap_append, List.flatMap_cons, hzk] using hdis
    · rw [upd_ne _ _ hqp]
      exact h.dis q hq
  · intro q hq k c hc hrq hem
    change tbl' q k = some c at hc
    show k ∈ (s.toSend q).map Prod.snd ++ (upd s.trans p (l1 ++ new ++ l2) q).flatMap Trans.keys ∧ ∃ b ∈ s.tasks q, K.Need b k
    by_cases hqp : q = p
    · subst hqp
      rw [htp] at hc
      rw [upd_eq]
      rcases hfrom k c hc with ⟨h1, h2, _, c0, h4, h5⟩ | ⟨h1, h2⟩ | h1
      · rcases hnew with ⟨h0, hfull⟩ | ⟨z, hz, hzk, _⟩
        · obtain ⟨c', g, e1, e2, e3⟩ := hfull k h1
          rw [hc] at e1; cases e1
          rw [not_empty_of_full hT hg' hc e2 e3] at hem
          cases hem
        · refine ⟨by rw [hz]; simp [hzk, h1], ?_⟩
          -- it was empty before
          have hem0 : emptyNode c0 = true := by
            cases he0 : emptyNode c0 with
            | true => rfl
            | false =>
              obtain ⟨g, hgk, e1, e2, e3, _⟩ := (h.view q hq).good.sub k c0 h4
              obtain ⟨c1, c2, f1, f2, _, _, f3, _, _⟩ := hold k h1
              rw [h4] at f1; cases f1
              rw [hc] at f2; cases f2
              obtain ⟨g', hgk', d1, d2, _⟩ := hg'.sub k c hc
              rw [hgk] at hgk'; cases hgk'
              have hce : c.ent = false := by
                cases hce : c.ent with
                | false => rfl
                | true => simp [emptyNode, hce] at hem
              have hfull := full_of_not_empty hT (h.view q hq).good h4 hgk (by rw [e1, ← d1, hce]) he0
              rw [not_empty_of_full hT hg' hc hgk (Finset.Subset.antisymm d2 (hfull ▸ f3))] at hem
              cases hem
          exact (h.pend q hq k c0 h4 h5 hem0).2
      · obtain ⟨hy, h5⟩ := h.pend q hq k c h2 hrq hem
        refine ⟨?_, h5⟩
        unfold pendingKeys at hy
        rw [hl] at hy
        simp only [List.flatMap_append, List.flatMap_cons, List.mem_append] at hy ⊢
        tauto
      · rw [hrq] at h1; cases h1.2.1
    · rw [htq q hqp] at hc
      rw [upd_ne _ _ hqp]
      exact h.pend q hq k c hc hrq hem
  · intro q hq
    show (s.asked q).Nodup ∧ ∀ k ∈ s.asked q, ∃ c, tbl' q k = some c ∧ c.requested = true
    obtain ⟨e1, e2⟩ := h.asked q hq
    by_cases hqp : q = p
    · subst hqp
      refine ⟨e1, fun k hk => ?_⟩
      rw [htp]
      obtain ⟨c, hc, hr⟩ := e2 k hk
      by_cases hk : k ∈ x.keys
      · obtain ⟨_, c', _, h2, _, h3, _⟩ := hold k hk
        exact ⟨c', h2, h3⟩
      · exact ⟨c, hfr.old k hk c hc, hr⟩
    · rw [htq q hqp]
      exact ⟨e1, e2⟩
  · intro q hq b hb
    refine K.mono q (s.tbl q) (tbl' q) b (fun k hk => ?_) (h.ok q hq b hb)
    by_cases hqp : q = p
    · subst hqp
      rw [htp]
      exact hpres k hk
    · rw [htq q hqp]
      exact hk

/-- `p` receives the node reply. -/
theorem inv_takeNodes (hT : IsTree P.nch G cells) (h : Inv P G s0 K s) {p : Nat} (hp : p < P.n) {l1 l2 : List Trans} {x : Trans} (hl : s.trans p = l1 ++ x :: l2) {ns : List NodeItem}
    {es : List EntItem} (hx : x.stage = .answered ns es) : ∃ s', takeNodes s p l1 x l2 ns es = some s' ∧ Inv P G s0 K s' := by
  have hxm : x ∈ s.trans p := by rw [hl]; simp
  obtain ⟨hk0, hok⟩ := h.tr p hp x hxm
  rw [hx] at hok
  obtain ⟨hw, hans⟩ := hok
  have hnd : x.keys.Nodup := by
    have := h.dis p hp
    unfold pendingKeys at this
    have := (List.nodup_append.1 this).2.1
    rw [hl, List.flatMap_append, List.flatMap_cons, List.nodup_append] at this
    exact (List.nodup_append.1 this.2.1).1
  obtain ⟨t', hr, hg', hfr, hpost⟩ := recvNodes_spec hT hans (s.tbl p) (h.view p hp).good hnd (by
    intro k hk
    obtain ⟨c, h1, h2, _, h3⟩ := hw k hk
    exact ⟨c, h1, h2, h3⟩)
  unfold takeNodes
  rw [hr]
  refine ⟨_, rfl, ?_⟩
  have hold : ∀ k ∈ x.keys, ∃ c c', s.tbl p k = some c ∧ t' k = some c' ∧ c.requested = true ∧ c'.requested = true ∧ c.kids ⊆ c'.kids ∧ Has G P.n s.tbl c'.owner k ∧
      (c'.owner = p ↔ c.owner = p) := by
    intro k hk
    obtain ⟨c, h1, h2, h3, h4⟩ := hw k hk
    obtain ⟨c', g, e1, e2, e3, e4, e5, e6, e7⟩ := hpost k hk c h1
    refine ⟨c, c', h1, e1, h3, by rw [e4, h3], by rw [h4]; exact Finset.empty_subset _, e7, ?_⟩
    -- a process does not wait for a cell it owns
    have hno : ∀ o, Has G P.n s.tbl o k → o ≠ p := by
      rintro o ⟨_, c2, g2, f1, f2, f3⟩ rfl
      rw [h1] at f1; cases f1
      have hem := not_empty_of_full hT (h.view o hp).good h1 f2 f3
      simp [emptyNode, h2, h4] at hem
    exact iff_of_false (hno _ e7) (hno _ (h.own p hp k c h1))
  by_cases hes : es = []
  · have := inv_table hT h hp hl hg' hfr hold [] (Or.inl ⟨rfl, fun k hk => by
      obtain ⟨c, h1, h2, h3, h4⟩ := hw k hk
      obtain ⟨c', g, e1, e2, e3, e4, e5, e6, e7⟩ := hpost k hk c h1
      refine ⟨c', g, e1, e2, ?_⟩
      ext i
      rw [e6 i]
      constructor
      · rintro ⟨gi, hgi, _⟩
        obtain ⟨g2, hg2, hi⟩ := (hT.child i k).1 (by rw [hgi]; rfl)
        rw [e2] at hg2; cases hg2
        exact hi
      · intro hi
        obtain ⟨gi, hgi⟩ := Option.isSome_iff_exists.1 ((hT.child i k).2 ⟨g, e2, hi⟩)
        exact ⟨gi, hgi, no_ents hans hes k hk i gi hgi⟩⟩)
    rw [List.append_nil] at this
    rw [hes]
    exact this
  · have hne : es.isEmpty = false := by
      cases es with
      | nil => exact absurd rfl hes
      | cons _ _ => rfl
    have := inv_table hT h hp hl hg' hfr hold [{ x with stage := .rest es }] (Or.inr ⟨_, rfl, rfl, fun tbl' hm htp => ⟨hk0, hes, fun k hk => by
      obtain ⟨c, h1, h2, h3, h4⟩ := hw k hk
      obtain ⟨c', g, e1, e2, e3, e4, e5, e6, e7⟩ := hpost k hk c h1
      exact ⟨c', g, by rw [htp]; exact e1, e2, e3, by rw [e4, h3], e5, e6⟩, ns, hans.mono hm⟩⟩)
    rw [hne]
    simpa using this

/-- `p` receives the entity reply. -/
theorem inv_takeEnts (hT : IsTree P.nch G cells) (h : Inv P G s0 K s) {p : Nat} (hp : p < P.n) {l1 l2 : List Trans} {x : Trans} (hl : s.trans p = l1 ++ x :: l2) {es : List EntItem}
    (hx : x.stage = .rest es) : ∃ s', takeEnts s p l1 l2 es = some s' ∧ Inv P G s0 K s' := by
  have hxm : x ∈ s.trans p := by rw [hl]; simp
  obtain ⟨hk0, hok⟩ := h.tr p hp x hxm
  rw [hx] at hok
  obtain ⟨_, hw, ns, hans⟩ := hok
  have hnd : x.keys.Nodup := by
    have := h.dis p hp
    unfold pendingKeys at this
    have := (List.nodup_append.1 this).2.1
    rw [hl, List.flatMap_append, List.flatMap_cons, List.nodup_append] at this
    exact (List.nodup_append.1 this.2.1).1
  obtain ⟨t', hr, hg', hfr, hpost⟩ := recvEnts_spec hT hans (s.tbl p) (h.view p hp).good hnd (by
    intro k hk
    obtain ⟨c, g, h1, h2, h3, _, h4, h5⟩ := hw k hk
    exact ⟨c, g, h1, h2, h3, h4, h5⟩)
  unfold takeEnts
  rw [hr]
  refine ⟨_, rfl, ?_⟩
  have := inv_table hT h hp hl hg' hfr (by
    intro k hk
    obtain ⟨c, g, h1, h2, h3, h4, h5, h6⟩ := hw k hk
    obtain ⟨c', g', e1, e2, e3, e4, e5, e6⟩ := hpost k hk c h1
    refine ⟨c, c', h1, e1, h4, by rw [e4, h4], ?_, by rw [e6]; exact h.own p hp k c h1, by rw [e6]⟩
    obtain ⟨g2, hg2, _, hs, _⟩ := (h.view p hp).good.sub k c h1
    rw [e2] at hg2; cases hg2
    rw [e5]
    exact hs) [] (Or.inl ⟨rfl, fun k hk => by
      obtain ⟨c, g, h1, _⟩ := hw k hk
      obtain ⟨c', g', e1, e2, e3, e4, e5, e6⟩ := hpost k hk c h1
      exact ⟨c', g', e1, e2, e5⟩⟩)
  rw [List.append_nil] at this
  exact this

/-- Nothing that can happen is undefined behaviour, and everything keeps the invariant. -/
theorem inv_next (hT : IsTree P.nch G cells) (h : Inv P G s0 K s) {r : Option (State τ ω)} (hn : Next P s r) : ∃ s', r = some s' ∧ Inv P G s0 K s' := by
  cases hn with
  | work p hp l1 a l2 hl => exact inv_work hT h hp hl
  | flush p hp => exact ⟨_, rfl, inv_flush h hp⟩
  | serve p hp l1 x l2 hl hx he => exact inv_serve hT h hp hl hx
  | takeNodes p hp l1 x l2 ns es hl hx he => exact inv_takeNodes hT h hp hl hx
  | takeEnts p hp l1 x l2 es hl hx he => exact inv_takeEnts hT h hp hl hx
  | finish p hp ht hs =>
    refine ⟨_, rfl, ⟨h.view, h.own, h.send, h.tr, h.whole, h.dis, h.pend, h.asked, ?_, ?_, h.ok, h.hist⟩⟩
    · intro q hq hs'
      change upd s.sent p true q = true at hs'
      by_cases hqp : q = p
      · rw [hqp]; exact ht
      · rw [upd_ne _ _ hqp] at hs'
        exact h.sent q hq hs'
    · intro q hq q' hq' hg
      show upd s.sent p true q' = true
      by_cases hqp : q' = p
      · rw [hqp, upd_eq]
      · rw [upd_ne _ _ hqp]
        exact h.got q hq q' hq' hg
  | done p q hp hq hs hg he =>
    refine ⟨_, rfl, ⟨h.view, h.own, h.send, h.tr, h.whole, h.dis, h.pend, h.asked, h.sent, ?_, h.ok, h.hist⟩⟩
    intro p' hp' q' hq' hg'
    change upd s.got p (upd (s.got p) q true) p' q' = true at hg'
    by_cases hpp : p' = p
    · subst hpp
      rw [upd_eq] at hg'
      by_cases hqq : q' = q
      · rw [hqq]; exact hs
      · rw [upd_ne _ _ hqq] at hg'
        exact h.got p' hp' q' hq' hg'
    · rw [upd_ne _ _ hpp] at hg'
      exact h.got p' hp' q' hq' hg'

/-- A request that is under way is for a cell without all its children, so a task is left. -/
theorem task_of_trans (hT : IsTree P.nch G cells) (h : Inv P G s0 K s) {p : Nat} (hp : p < P.n) (hx : s.trans p ≠ [] ∨ s.toSend p ≠ []) : s.tasks p ≠ [] := by
  have hmain : ∃ k c, s.tbl p k = some c ∧ c.requested = true ∧ emptyNode c = true := by
    have hwait : ∀ k, Waiting (s.tbl p) k → ∃ k c, s.tbl p k = some c ∧ c.requested = true ∧ emptyNode c = true := by
      rintro k ⟨c, h1, h2, h3, h4⟩
      exact ⟨k, c, h1, h3, by simp [emptyNode, h2, h4]⟩
    rcases hx with hx | hx
    swap
    · obtain ⟨x, hx⟩ := List.exists_mem_of_ne_nil _ hx
      exact hwait x.2 (h.send p hp x hx).1
    obtain ⟨x, hx⟩ := List.exists_mem_of_ne_nil _ hx
    obtain ⟨hk0, hok⟩ := h.tr p hp x hx
    obtain ⟨owner, keys, stage⟩ := x
    obtain ⟨k0, hk0'⟩ := List.exists_mem_of_ne_nil _ hk0
    cases stage with
    | asked => exact hwait k0 (hok.2 k0 hk0').1
    | answered ns es => exact hwait k0 (hok.1 k0 hk0')
    | rest es =>
      obtain ⟨hes, hh, ns, hans⟩ := hok
      obtain ⟨k, hk, i, gi, hgi, hge⟩ := some_ent hans hes
      obtain ⟨c, g, h1, h2, h3, h4, h5, h6⟩ := hh k hk
      refine ⟨k, c, h1, h4, ?_⟩
      cases hem : emptyNode c with
      | true => rfl
      | false =>
        have hfull := full_of_not_empty hT (h.view p hp).good h1 h2 h3 hem
        obtain ⟨g', hg', hi⟩ := (hT.child i k).1 (by rw [hgi]; rfl)
        rw [h2] at hg'; cases hg'
        rw [← hfull] at hi
        obtain ⟨gi', e1, e2⟩ := (h6 i).1 hi
        rw [hgi] at e1; cases e1
        rw [hge] at e2; cases e2
  obtain ⟨k, c, h1, h2, h3⟩ := hmain
  obtain ⟨_, a, ha, _⟩ := h.pend p hp k c h1 h2 h3
  exact List.ne_nil_of_mem ha
end

end FleCSPH.Ghosts
