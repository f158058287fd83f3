import Verif.Lemmas.GhostFmm
import Mathlib.Data.List.Count
import Mathlib.Data.List.Nodup
/-! The calls of `traversal_fmm` on several processes cover every pair once. -/
namespace FleCSPH.Ghosts

variable {G : Key → Option GCell} {cells : Finset Key} {nch : Nat} {t : Table} {mac bigger : Key → Key → Bool} {O : Key → Prop} {k1 k2 : Key} {next : List (Key × Key)} {out : List Call}

/-- The pair of cells contains the pair of entities. -/
def covT (e f : Key) (x : Key × Key) : Bool := decide (x.1 <:+ e) && decide (x.2 <:+ f)

def covC (e f : Key) (c : Call) : Bool := covT e f (c.sink, c.source)

theorem covT_iff {e f : Key} {x : Key × Key} : covT e f x = true ↔ x.1 <:+ e ∧ x.2 <:+ f := by
  unfold covT
  simp

theorem countP_eq_one {α : Type} (q : α → Bool) (l : List α) (hl : l.Nodup) (x : α) (hx : x ∈ l) (hq : q x = true) (hu : ∀ y ∈ l, q y = true → y = x) : l.countP q = 1 := by
  induction l with
  | nil => simp at hx
  | cons a l ih =>
    rw [List.nodup_cons] at hl
    rw [List.countP_cons]
    by_cases ha : a = x
    · subst ha
      have : l.countP q = 0 := by
        rw [List.countP_eq_zero]
        intro y hy hqy
        exact hl.1 (hu y (by simp [hy]) hqy ▸ hy)
      rw [this]
      simp [hq]
    · have h1 : q a = false := by
        cases hqa : q a with
        | false => rfl
        | true => exact absurd (hu a (by simp) hqa) ha
      rw [h1, ih hl.2 ((List.mem_cons.1 hx).resolve_left (Ne.symm ha)) fun y hy => hu y (by simp [hy])]
      simp

/-- The next cell on the way to a cell of the global tree. -/
theorem step_down (hT : IsTree nch G cells) {a e : Key} (he : (G e).isSome) (ha : a <:+ e) (hne : a ≠ e) : ∃ i, (i :: a) <:+ e ∧ ∀ g, G a = some g → i ∈ g.kids := by
  induction e with
  | nil => exact absurd (List.suffix_nil.1 ha) hne
  | cons j x ih =>
    rcases List.suffix_cons_iff.1 ha with h | h
    · exact absurd h hne
    · by_cases hax : a = x
      · subst hax
        refine ⟨j, List.suffix_rfl, fun g hg => ?_⟩
        obtain ⟨g', hg', hj⟩ := (hT.child j a).1 he
        rw [hg] at hg'; cases hg'
        exact hj
      · obtain ⟨g', hg', _⟩ := (hT.child j x).1 he
        obtain ⟨i, h1, h2⟩ := ih (by rw [hg']; rfl) h hax
        exact ⟨i, h1.trans (List.suffix_cons _ _), h2⟩

/-- One pair is replaced by pairs and calls which cover the same pairs of entities, each once. -/
theorem PairDone.count (hT : IsTree nch G cells) (hS : Sizes G mac bigger) (h : PairDone G mac bigger O k1 k2 next out) (hO : O k1) {e f : Key} {ge gf : GCell} (he : G e = some ge)
    (hee : ge.ent = true) (hf : G f = some gf) (hfe : gf.ent = true) (hc : ∀ a, a <:+ e → O a) :
    next.countP (covT e f) + out.countP (covC e f) = if covT e f (k1, k2) then 1 else 0 := by
  obtain ⟨hn, l1, l2, _, hx⟩ := h.below hO
  by_cases hcov : covT e f (k1, k2) = true
  swap
  · rw [if_neg hcov]
    have h1 : next.countP (covT e f) = 0 := by
      rw [List.countP_eq_zero]
      intro x hxn hxc
      obtain ⟨s1, s2, _⟩ := hx x hxn
      rw [covT_iff] at hxc
      exact hcov (covT_iff.2 ⟨s1.trans hxc.1, s2.trans hxc.2⟩)
    have h2 : out.countP (covC e f) = 0 := by
      rw [List.countP_eq_zero]
      intro c hco hcc
      cases h with
      | near => rw [List.mem_singleton] at hco; subst hco; exact hcov hcc
      | far => rw [List.mem_singleton] at hco; subst hco; exact hcov hcc
      | self => simp at hco
      | split1 => simp at hco
      | split2 => simp at hco
    rw [h1, h2]
  · rw [if_pos hcov]
    obtain ⟨s1, s2⟩ := covT_iff.1 hcov
    dsimp only at s1 s2
    have one : ∀ x ∈ next, covT e f x = true → next.countP (covT e f) = 1 := by
      intro x hxn hxc
      refine countP_eq_one _ _ hn x hxn hxc fun y hy hyc => ?_
      obtain ⟨_, _, a1, a2, _⟩ := hx x hxn
      obtain ⟨_, _, b1, b2, _⟩ := hx y hy
      rw [covT_iff] at hxc hyc
      exact Prod.ext (suffix_unique hyc.1 hxc.1 (b1.trans a1.symm)) (suffix_unique hyc.2 hxc.2 (b2.trans a2.symm))
    have ne : ∀ {k x : Key} {g gx : GCell}, G k = some g → G x = some gx → gx.ent = true → g.ent = false → k ≠ x := by
      rintro k x g gx hg hgx h1 h2 rfl
      rw [hg] at hgx; cases hgx
      rw [h1] at h2; cases h2
    cases h with
    | near h1 h2 =>
      rw [List.countP_nil, List.countP_singleton]
      exact (Nat.zero_add _).trans (if_pos hcov)
    | far h1 h2 h3 hne ha =>
      rw [List.countP_nil, List.countP_singleton]
      exact (Nat.zero_add _).trans (if_pos hcov)
    | self hg hge hk _ _ hm =>
      subst hk
      obtain ⟨i, i1, i2⟩ := step_down hT (by rw [he]; rfl) s1 (ne hg he hee hge)
      obtain ⟨j, j1, j2⟩ := step_down hT (by rw [hf]; rfl) s2 (ne hg hf hfe hge)
      rw [one (i :: k1, j :: k1) ((hm _).2 ⟨i, i2 _ hg, j, j2 _ hg, rfl, hc _ i1⟩) (covT_iff.2 ⟨i1, j1⟩), List.countP_nil]
    | @split1 g1 g2 h1 h2 h3 hne ha hb _ _ hm =>
      have hg1 : g1.ent = false := by
        cases hg1 : g1.ent with
        | false => rfl
        | true =>
          have := hS.first k1 k2 g1 h1 hg1 ha
          rw [hb] at this; cases this
      obtain ⟨i, i1, i2⟩ := step_down hT (by rw [he]; rfl) s1 (ne h1 he hee hg1)
      rw [one (i :: k1, k2) ((hm _).2 ⟨i, i2 _ h1, rfl, hc _ i1⟩) (covT_iff.2 ⟨i1, s2⟩), List.countP_nil]
    | @split2 g1 g2 h1 h2 h3 hne ha hb _ _ hm =>
      have hg2 : g2.ent = false := by
        cases hg2 : g2.ent with
        | false => rfl
        | true =>
          cases hg1 : g1.ent with
          | true => exact absurd ⟨hg1, hg2⟩ h3
          | false =>
            have := hS.second k1 k2 g1 g2 h1 h2 hg1 hg2 ha
            rw [hb] at this; cases this
      obtain ⟨j, j1, j2⟩ := step_down hT (by rw [hf]; rfl) s2 (ne h2 hf hfe hg2)
      rw [one (k1, j :: k2) ((hm _).2 ⟨j, j2 _ h2, rfl⟩) (covT_iff.2 ⟨s1, j1⟩), List.countP_nil]

/-- The whole history. -/
theorem hist_count (hT : IsTree nch G cells) (hS : Sizes G mac bigger) {ts tasks : List (Key × Key)} {rs : List Call}
    (h : Hist (fun x next out => PairDone G mac bigger O x.1 x.2 next out ∧ O x.1) ts tasks rs) {e f : Key} {ge gf : GCell} (he : G e = some ge) (hee : ge.ent = true) (hf : G f = some gf)
    (hfe : gf.ent = true) (hc : ∀ a, a <:+ e → O a) : tasks.countP (covT e f) + rs.countP (covC e f) = ts.countP (covT e f) := by
  induction h with
  | start => simp
  | @step l1 a l2 rs next out h hd ih =>
    have := hd.1.count hT hS hd.2 he hee hf hfe hc
    simp only [List.countP_append, List.countP_cons] at ih ⊢
    change _ = if covT e f a = true then 1 else 0 at this
    omega

/-- What is known about a call: its first cell and all cells above belong to the process, and the two cells are either two entities or far enough apart. -/
structure GoodCall (G : Key → Option GCell) (mac : Key → Key → Bool) (O : Key → Prop) (c : Call) : Prop where
  chain : ∀ a, a <:+ c.sink → O a
  near : c.isFar = false → (∃ g, G c.sink = some g ∧ g.ent = true) ∧ ∃ g, G c.source = some g ∧ g.ent = true
  far : c.isFar = true → mac c.sink c.source = true ∧ c.sink ≠ c.source ∧ ∃ g1 g2, G c.sink = some g1 ∧ G c.source = some g2 ∧ ¬ (g1.ent = true ∧ g2.ent = true)

theorem PairDone.chain (h : PairDone G mac bigger O k1 k2 next out) (hc : ∀ a, a <:+ k1 → O a) : (∀ x ∈ next, ∀ a, a <:+ x.1 → O a) ∧ ∀ c ∈ out, GoodCall G mac O c := by
  have hcons : ∀ i, O (i :: k1) → ∀ a, a <:+ i :: k1 → O a := by
    intro i hi a ha
    rcases List.suffix_cons_iff.1 ha with h | h
    · rw [h]; exact hi
    · exact hc a h
  cases h with
  | near h1 h2 =>
    refine ⟨by simp, fun c hm => ?_⟩
    rw [List.mem_singleton] at hm
    subst hm
    exact ⟨hc, fun _ => ⟨h1, h2⟩, fun h => by cases h⟩
  | far h1 h2 h3 hne ha =>
    refine ⟨by simp, fun c hm => ?_⟩
    rw [List.mem_singleton] at hm
    subst hm
    exact ⟨hc, fun h => (by cases h), fun _ => ⟨ha, hne, _, _, h1, h2, h3⟩⟩
  | self hg hge hk _ _ hm =>
    refine ⟨fun x hx => ?_, by simp⟩
    obtain ⟨i, _, j, _, rfl, ho⟩ := (hm x).1 hx
    exact hcons i ho
  | split1 h1 h2 h3 hne ha hb _ _ hm =>
    refine ⟨fun x hx => ?_, by simp⟩
    obtain ⟨i, _, rfl, ho⟩ := (hm x).1 hx
    exact hcons i ho
  | split2 h1 h2 h3 hne ha hb _ _ hm =>
    refine ⟨fun x hx => ?_, by simp⟩
    obtain ⟨j, _, rfl⟩ := (hm x).1 hx
    exact hc

theorem hist_calls {ts tasks : List (Key × Key)} {rs : List Call} (h : Hist (fun x next out => PairDone G mac bigger O x.1 x.2 next out ∧ O x.1) ts tasks rs)
    (hts : ∀ x ∈ ts, ∀ a, a <:+ x.1 → O a) : (∀ x ∈ tasks, ∀ a, a <:+ x.1 → O a) ∧ ∀ c ∈ rs, GoodCall G mac O c := by
  induction h with
  | start => exact ⟨hts, by simp⟩
  | @step l1 a l2 rs next out h hd ih =>
    obtain ⟨e1, e2⟩ := hd.1.chain (ih.1 a (by simp))
    constructor
    · intro x hx
      simp only [List.mem_append] at hx
      rcases hx with (hx | hx) | hx
      · exact ih.1 x (by simp [hx])
      · exact e1 x hx
      · exact ih.1 x (by simp [hx])
    · intro c hc
      rcases List.mem_append.1 hc with hc | hc
      · exact ih.2 c hc
      · exact e2 c hc

/-! ### What acts on the entities -/

theorem sum_one {β : Type} [DecidableEq β] (b : β) (ks : List β) (hks : ks.Nodup) (hm : b ∈ ks) : (ks.map fun k => if b = k then 1 else 0).sum = 1 := by
  induction ks with
  | nil => simp at hm
  | cons k ks ih =>
    rw [List.nodup_cons] at hks
    rw [List.map_cons, List.sum_cons]
    by_cases hk : b = k
    · rw [if_pos hk]
      have : (ks.map fun k => if b = k then 1 else 0).sum = 0 := by
        apply List.sum_eq_zero
        intro x hx
        obtain ⟨k', hk', rfl⟩ := List.mem_map.1 hx
        rw [if_neg]
        rintro rfl
        exact hks.1 (hk ▸ hk')
      rw [this]
    · rw [if_neg hk, ih hks.2 ((List.mem_cons.1 hm).resolve_left hk), Nat.zero_add]

theorem sum_cons_count {α β : Type} (q : α → β → Bool) (ks : List β) (a : α) (l : List α) :
    (ks.map fun k => (a :: l).countP fun c => q c k).sum = (ks.map fun k => l.countP fun c => q c k).sum + (ks.map fun k => if q a k = true then 1 else 0).sum := by
  induction ks with
  | nil => simp
  | cons k ks ih =>
    simp only [List.map_cons, List.sum_cons]
    rw [ih, List.countP_cons]
    omega

theorem sum_classes {α β : Type} [DecidableEq β] (cls : α → β) (q : α → Bool) (ks : List β) (hks : ks.Nodup) (l : List α) (h : ∀ c ∈ l, q c = true → cls c ∈ ks) :
    (ks.map fun k => l.countP fun c => q c && decide (cls c = k)).sum = l.countP q := by
  induction l with
  | nil => simp
  | cons a l ih =>
    rw [sum_cons_count (fun c k => q c && decide (cls c = k)), ih fun c hc => h c (by simp [hc]), List.countP_cons]
    congr 1
    cases hq : q a with
    | false => simp
    | true =>
      simp only [Bool.true_and, decide_eq_true_eq, if_true]
      exact sum_one _ _ hks (h a (by simp) hq)

theorem countP_split {α : Type} (q : α → Bool) (r : α → Option Bool) (l : List α) (h : ∀ c ∈ l, r c = some true ∨ r c = some false) :
    (l.countP fun c => q c && decide (r c = some false)) + (l.countP fun c => q c && decide (r c = some true)) = l.countP q := by
  induction l with
  | nil => simp
  | cons c l ih =>
    have ih := ih fun c hc => h c (by simp [hc])
    rw [List.countP_cons, List.countP_cons, List.countP_cons]
    rcases h c (by simp) with h1 | h1 <;> rw [h1] <;> cases q c <;> simp <;> omega

theorem mapM_some {α β : Type} (f : α → Option β) (g : α → β) (l : List α) (h : ∀ x ∈ l, f x = some (g x)) : l.mapM f = some (l.map g) := by
  induction l with
  | nil => rfl
  | cons a l ih =>
    rw [List.mapM_cons, h a (by simp), ih fun x hx => h x (by simp [hx])]
    rfl

/-- At the end every entity of the process is acted on once by each entity, and no other entity is acted on. -/
theorem actions_spec (hT : IsTree nch G cells) {p fuel : Nat} (hv : View G O p t) (hfu : ∀ k ∈ cells, k.length < fuel) {calls : List Call} (hg : ∀ c ∈ calls, GoodCall G mac O c) :
    ∃ acts, actions nch p t fuel calls = some acts ∧ (∀ x ∈ acts, (∃ g, G x.1 = some g ∧ g.ent = true) ∧ O x.1) ∧
      ∀ e f, (∃ g, G e = some g ∧ g.ent = true) → (∀ a, a <:+ e → O a) →
        acts.countP (fun x => decide (x.1 = e) && decide (x.2 <:+ f)) = calls.countP (covC e f) := by
  have hmem : ∀ {k : Key}, (t k).isSome → k ∈ cells := by
    intro k hk
    obtain ⟨c, hc⟩ := Option.isSome_iff_exists.1 hk
    obtain ⟨g, hg, _⟩ := hv.good.sub k c hc
    exact (hT.mem k).2 (by rw [hg]; rfl)
  have hown : ∀ {k}, (t k).map Cell.owner = some p ↔ O k := by
    intro k
    constructor
    · intro h
      cases hk : t k with
      | none => rw [hk] at h; simp at h
      | some c => rw [hk] at h; exact (hv.mine k c hk).1 (by simpa using h)
    · intro h
      obtain ⟨c, g, hc, _⟩ := hv.full k h
      rw [hc]
      simpa using (hv.mine k c hc).2 h
  have hent : ∀ {k c g}, t k = some c → G k = some g → c.ent = g.ent := by
    intro k c g hc hgk
    obtain ⟨g', hg', e, _⟩ := hv.good.sub k c hc
    rw [hgk] at hg'; cases hg'
    exact e
  obtain ⟨c0, hc0, _⟩ := hv.good.root
  obtain ⟨ks, k1, k2, k3⟩ := affectedNodes_spec hT hv.good p (isAffected t calls) fuel [] (by rw [hc0]; rfl) (fun x hx _ => by simpa using hfu x hx)
  have hks : ∀ k ∈ ks, (t k).isSome := by
    intro k hk
    have := ((k3 k).1 hk).2.2.1
    cases htk : t k with
    | none => rw [htk] at this; simp at this
    | some _ => rfl
  have hsub : ∀ k ∈ ks, ∃ l, subEnts nch p t fuel k = some l ∧ l.Nodup ∧ ∀ x, x ∈ l ↔ k <:+ x ∧ ∃ c, t x = some c ∧ c.ent = true ∧ c.owner = p := fun k hk =>
    subEnts_spec hT hv.good p fuel k (hks k hk) fun x hx _ => by have := hfu x hx; omega
  obtain ⟨sub, hsubdef⟩ : ∃ sub : Key → List Key, sub = fun k => (subEnts nch p t fuel k).getD [] := ⟨_, rfl⟩
  have hsub' : ∀ k ∈ ks, subEnts nch p t fuel k = some (sub k) ∧ (sub k).Nodup ∧ ∀ x, x ∈ sub k ↔ k <:+ x ∧ ∃ c, t x = some c ∧ c.ent = true ∧ c.owner = p := by
    intro k hk
    obtain ⟨l, l1, l2, l3⟩ := hsub k hk
    rw [hsubdef]
    dsimp only
    rw [l1]
    exact ⟨rfl, l2, l3⟩
  obtain ⟨down, hdown⟩ : ∃ down : Key → List (Key × Key), down = fun k => (sub k).flatMap fun e => (calls.filter fun c => c.isFar && decide (c.sink = k)).map fun c => (e, c.source) := ⟨_, rfl⟩
  have hM : (ks.mapM fun k => (subEnts nch p t fuel k).map fun es => es.flatMap fun e => (calls.filter fun c => c.isFar && decide (c.sink = k)).map fun c => (e, c.source)) = some (ks.map down) := by
    apply mapM_some
    intro k hk
    rw [(hsub' k hk).1, hdown]
    rfl
  have hact : actions nch p t fuel calls = some ((ks.map down).flatten ++ (calls.filter fun c => decide ((t c.sink).map Cell.ent = some true)).map fun c => (c.sink, c.source)) := by
    unfold actions
    rw [k1, Option.bind_some, hM]
    rfl
  refine ⟨_, hact, ?_, ?_⟩
  · intro x hx
    rcases List.mem_append.1 hx with hx | hx
    · obtain ⟨l, hl, hxl⟩ := List.mem_flatten.1 hx
      obtain ⟨k, hk, rfl⟩ := List.mem_map.1 hl
      rw [hdown] at hxl
      dsimp only at hxl
      obtain ⟨e, he, hxe⟩ := List.mem_flatMap.1 hxl
      obtain ⟨c, _, rfl⟩ := List.mem_map.1 hxe
      obtain ⟨_, ce, hce, hcee, hceo⟩ := ((hsub' k hk).2.2 e).1 he
      obtain ⟨g, hg, e1, _⟩ := hv.good.sub e ce hce
      exact ⟨⟨g, hg, e1 ▸ hcee⟩, (hv.mine e ce hce).1 hceo⟩
    · obtain ⟨c, hc, rfl⟩ := List.mem_map.1 hx
      rw [List.mem_filter, decide_eq_true_eq] at hc
      refine ⟨?_, (hg c hc.1).chain _ List.suffix_rfl⟩
      cases htc : t c.sink with
      | none => rw [htc] at hc; simp at hc
      | some cc =>
        rw [htc] at hc
        obtain ⟨g, hg, e1, _⟩ := hv.good.sub _ cc htc
        exact ⟨g, hg, by rw [← e1]; simpa using hc.2⟩
  · rintro e f ⟨ge, hge, hee⟩ hch
    obtain ⟨ce, ge', hce, hge', _⟩ := hv.full e (hch e List.suffix_rfl)
    rw [hge] at hge'; cases hge'
    have hcee : ce.ent = true := (hent hce hge).trans hee
    have hceo : ce.owner = p := (hv.mine e ce hce).2 (hch e List.suffix_rfl)
    rw [List.countP_append]
    -- the calls whose first cell is a node
    have hA : ((ks.map down).flatten).countP (fun x => decide (x.1 = e) && decide (x.2 <:+ f)) = calls.countP fun c => covC e f c && decide ((t c.sink).map Cell.ent = some false) := by
      rw [List.countP_flatten, List.map_map]
      have hone : ∀ k ∈ ks, ((fun l : List (Key × Key) => l.countP fun x => decide (x.1 = e) && decide (x.2 <:+ f)) ∘ down) k =
          calls.countP fun c => (covC e f c && decide ((t c.sink).map Cell.ent = some false)) && decide (c.sink = k) := by
        intro k hk
        obtain ⟨_, s2, s3⟩ := hsub' k hk
        have hkent := ((k3 k).1 hk).2.2.1
        rw [Function.comp_apply, hdown]
        dsimp only
        rw [List.countP_flatMap]
        have hval : ∀ e', ((List.countP fun x : Key × Key => decide (x.1 = e) && decide (x.2 <:+ f)) ∘ fun e' => (calls.filter fun c => c.isFar && decide (c.sink = k)).map fun c => (e', c.source)) e' =
            if e' = e then calls.countP fun c => (c.isFar && decide (c.sink = k)) && decide (c.source <:+ f) else 0 := by
          intro e'
          rw [Function.comp_apply, List.countP_map, List.countP_filter]
          split_ifs with he'
          · apply List.countP_congr
            intro c _
            simp [he', and_comm]
          · rw [List.countP_eq_zero]
            intro c _
            simp [he']
        rw [List.map_congr_left fun e' _ => hval e']
        have hsum : ∀ (l : List Key) (m : Nat), l.Nodup → (l.map fun e' => if e' = e then m else 0).sum = if e ∈ l then m else 0 := by
          intro l m hl
          induction l with
          | nil => simp
          | cons a l ih =>
            rw [List.nodup_cons] at hl
            rw [List.map_cons, List.sum_cons, ih hl.2]
            by_cases ha : a = e
            · subst ha
              simp [hl.1]
            · rw [if_neg ha]
              simp [Ne.symm ha]
        rw [hsum _ _ s2]
        by_cases hke : k <:+ e
        · rw [if_pos ((s3 e).2 ⟨hke, ce, hce, hcee, hceo⟩)]
          apply List.countP_congr
          intro c hc
          unfold covC covT
          simp only [Bool.and_eq_true, decide_eq_true_eq]
          constructor
          · rintro ⟨⟨_, rfl⟩, hs⟩
            exact ⟨⟨⟨hke, hs⟩, hkent⟩, rfl⟩
          · rintro ⟨⟨⟨_, hs⟩, _⟩, rfl⟩
            refine ⟨⟨?_, rfl⟩, hs⟩
            cases hfar : c.isFar with
            | true => rfl
            | false =>
              obtain ⟨⟨g, hgs, hgse⟩, _⟩ := (hg c hc).near hfar
              cases htc : t c.sink with
              | none => rw [htc] at hkent; simp at hkent
              | some cc =>
                rw [htc] at hkent
                have := hent htc hgs
                rw [hgse] at this
                simp [this] at hkent
        · rw [if_neg fun h => hke ((s3 e).1 h).1]
          symm
          rw [List.countP_eq_zero]
          intro c _ hcc
          unfold covC covT at hcc
          simp only [Bool.and_eq_true, decide_eq_true_eq] at hcc
          exact hke (hcc.2 ▸ hcc.1.1.1)
      rw [List.map_congr_left hone]
      apply sum_classes _ _ _ k2
      intro c hc hq
      rw [Bool.and_eq_true, decide_eq_true_eq] at hq
      rw [k3]
      refine ⟨List.nil_suffix, fun a _ ha => hown.2 ((hg c hc).chain a ha), hq.2, ?_⟩
      unfold isAffected
      rw [Bool.and_eq_true, decide_eq_true_eq]
      refine ⟨hq.2, List.any_eq_true.2 ⟨c, hc, ?_⟩⟩
      rw [Bool.and_eq_true, decide_eq_true_eq]
      refine ⟨?_, rfl⟩
      cases hfar : c.isFar with
      | true => rfl
      | false =>
        obtain ⟨⟨g, hgs, hgse⟩, _⟩ := (hg c hc).near hfar
        cases htc : t c.sink with
        | none => rw [htc] at hq; simp at hq
        | some cc =>
          have h1 := hq.2
          rw [htc] at h1
          have := hent htc hgs
          rw [hgse] at this
          simp [this] at h1
    -- the calls whose first cell is an entity
    have hB : ((calls.filter fun c => decide ((t c.sink).map Cell.ent = some true)).map fun c => (c.sink, c.source)).countP (fun x => decide (x.1 = e) && decide (x.2 <:+ f)) =
        calls.countP fun c => covC e f c && decide ((t c.sink).map Cell.ent = some true) := by
      rw [List.countP_map, List.countP_filter]
      apply List.countP_congr
      intro c hc
      unfold covC covT
      simp only [Function.comp_apply, Bool.and_eq_true, decide_eq_true_eq]
      constructor
      · rintro ⟨⟨he, hs⟩, ht⟩
        exact ⟨⟨he ▸ List.suffix_rfl, hs⟩, ht⟩
      · rintro ⟨⟨hs1, hs2⟩, ht⟩
        refine ⟨⟨?_, hs2⟩, ht⟩
        by_contra hne
        obtain ⟨i, ci, hci, hi, _⟩ := (path_in hv.good (x := e) (by rw [hce]; rfl) hs1).2 hne
        rw [hci] at ht
        obtain ⟨g, hgs, e1, e2, _⟩ := hv.good.sub _ ci hci
        have := e2 hi
        rw [(hT.leaf _ g hgs).1 (by rw [← e1]; simpa using ht)] at this
        simp at this
    rw [hA, hB]
    apply countP_split
    intro c hc
    obtain ⟨cc, _, hcc, _⟩ := hv.full _ ((hg c hc).chain _ List.suffix_rfl)
    rw [hcc]
    cases hce : cc.ent <;> simp [hce]

end FleCSPH.Ghosts
