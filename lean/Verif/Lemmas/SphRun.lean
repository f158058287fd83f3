import Verif.Model.SphRun
import Verif.Lemmas.StartupStart
import Verif.Lemmas.StartupCofm
import Verif.Lemmas.GhostFmm
import Verif.Lemmas.Sph
/-! The groups of `traversal_sph` on several processes. -/
namespace FleCSPH.SphRun
open FleCSPH.Spec FleCSPH.Ghosts FleCSPH.ShareTable FleCSPH.Startup

variable {d nch : Nat} {G : List Nat → Option GCell} {cells : Finset (List Nat)} {own : List Nat → Nat} {Val : List Nat → Data d} {r : Nat} {t : ShareTable.Table (Data d)}

/-- What the traversals see of the table. -/
abbrev seen (t : ShareTable.Table (Data d)) : Ghosts.Table := fun k => (t k).map ghostCell

theorem mapM_keys (t : ShareTable.Table (Data d)) (k : List Nat) (l : List Nat) :
    (l.mapM fun j => (t (j :: k)).map fun _ => j :: k) = (l.mapM fun j => (seen t (j :: k)).map fun c' => (j, c')).map fun ds => ds.map fun x => x.1 :: k := by
  induction l with
  | nil => rfl
  | cons j l ih =>
    rw [List.mapM_cons, List.mapM_cons, ih]
    cases h : t (j :: k) with
    | none => simp [seen, h]
    | some c =>
      simp only [seen, h, Option.map_some]
      cases (l.mapM fun j => ((t (j :: k)).map ghostCell).map fun c' => (j, c')) <;> simp

theorem keys_eq (t : ShareTable.Table (Data d)) (k : List Nat) (c : ShareTable.Cell (Data d)) :
    ShareTable.daughterKeys nch t k c = Ghosts.daughterKeys nch (seen t) k (ghostCell c) := by
  unfold ShareTable.daughterKeys Ghosts.daughterKeys Ghosts.daughters
  exact mapM_keys t k _

theorem kind' (h : Final G own Val r t) {k : List Nat} {c : ShareTable.Cell (Data d)} (hc : t k = some c) : c.node = !c.ent ∧ unset c = false := by
  obtain ⟨g, -, e1, e2⟩ := h.kind k c hc
  refine ⟨by rw [e1, e2], ?_⟩
  rw [unset, e2, ← e1]
  cases c.ent <;> rfl

theorem localEnts_eq (h : Final G own Val r t) : ∀ fuel k, localEnts nch t fuel k = subEnts nch r (seen t) fuel k
  | 0, _ => rfl
  | fuel + 1, k => by
    unfold localEnts subEnts
    cases hc : t k with
    | none => simp [seen, hc]
    | some c =>
      obtain ⟨e1, e2⟩ := kind' h hc
      simp only [seen, hc, Option.map_some, e2, Bool.false_eq_true, if_false]
      have ec : (ghostCell c).ent = c.ent := rfl
      have eo : (ghostCell c).owner = c.owner := rfl
      cases he : c.ent with
      | true =>
        rw [he] at e1 ec
        rw [e1, ec, eo]
        have := h.shared k c hc he
        simp only [Bool.not_true, Bool.false_eq_true, if_false, if_true]
        cases hs : c.shared with
        | true =>
          rw [hs] at this
          have hne : c.owner ≠ r := fun ho => by have := this.mpr ho; cases this
          simp [hne]
        | false => simp [this.mp hs]
      | false =>
        rw [he] at e1 ec
        rw [e1, ec]
        simp only [Bool.not_false, if_true, Bool.false_eq_true, if_false]
        rw [keys_eq]
        have : localEnts nch t fuel = subEnts nch r (seen t) fuel := funext fun k => localEnts_eq h fuel k
        rw [this]

/-- The traversal goes below the cell. -/
def Opened (t : ShareTable.Table (Data d)) (Val : List Nat → Data d) (sent : Nat) (k : List Nat) : Prop :=
  ∃ c n, t k = some c ∧ c.ent = false ∧ nodeOf (Val k) = some n ∧ (c.shared = true ∨ sent < n.sub)

/-- The cell is taken. -/
def Taken (t : ShareTable.Table (Data d)) (Val : List Nat → Data d) (sent : Nat) (k : List Nat) : Prop :=
  ∃ c, t k = some c ∧ c.shared = false ∧ ∀ n, c.ent = false → nodeOf (Val k) = some n → n.sub ≤ sent

theorem Taken.not_opened {sent : Nat} {k : List Nat} (h : Taken t Val sent k) : ¬ Opened t Val sent k := by
  rintro ⟨c, n, h1, h2, h3, h4⟩
  obtain ⟨c', g1, g2, g3⟩ := h
  rw [h1] at g1; cases g1
  rcases h4 with h4 | h4
  · rw [g2] at h4; cases h4
  · have := g3 n h2 h3; omega

theorem leaf_only (hT : IsTree nch G cells) {t' : Ghosts.Table} (ht : Good G t') {k : List Nat} {c : Ghosts.Cell} (hc : t' k = some c) (hce : c.ent = true) :
    ∀ x, k <:+ x → (t' x).isSome → x = k := by
  intro x hs hx
  by_contra hne
  obtain ⟨i, c', hc', hi, _⟩ := (path_in ht hx hs).2 (Ne.symm hne)
  rw [hc] at hc'; cases hc'
  obtain ⟨g, hg, e1, e2, _⟩ := ht.sub k c hc
  have := e2 hi
  rw [(hT.leaf k g hg).1 (e1 ▸ hce)] at this
  simp at this

theorem seen_some {k : List Nat} {c : ShareTable.Cell (Data d)} (hc : t k = some c) : seen t k = some (ghostCell c) := by simp [seen, hc]

theorem selected_spec (hT : IsTree nch G cells) (h : Final G own Val r t) (ht : Good G (seen t)) (hnode : ∀ k g, G k = some g → g.ent = false → ∃ n, nodeOf (Val k) = some n) (sent fuel : Nat) :
    ∀ k, (t k).isSome → (∀ x ∈ cells, k <:+ x → x.length < k.length + fuel) →
    ∃ l, selected nch t sent fuel k = some l ∧ l.Nodup ∧ ∀ x, x ∈ l ↔ k <:+ x ∧ Taken t Val sent x ∧ ∀ a, k <:+ a → a <:+ x → a ≠ x → Opened t Val sent a := by
  induction fuel with
  | zero =>
    intro k hk h'
    obtain ⟨c, hc⟩ := Option.isSome_iff_exists.1 hk
    obtain ⟨g, hg, _⟩ := h.kind k c hc
    have := h' k ((hT.mem k).2 (by rw [hg]; rfl)) List.suffix_rfl
    omega
  | succ fuel ih =>
    intro k hk h'
    obtain ⟨c, hc⟩ := Option.isSome_iff_exists.1 hk
    obtain ⟨e1, e2⟩ := kind' h hc
    unfold selected
    rw [hc]
    dsimp only
    rw [e2, if_neg (by simp)]
    cases hce : c.ent with
    | true =>
      rw [hce] at e1
      rw [e1, if_neg (by simp)]
      have honly := leaf_only hT ht (seen_some hc) hce
      refine ⟨_, rfl, by split_ifs <;> simp, fun x => ?_⟩
      constructor
      · intro hx
        split_ifs at hx with ho
        · simp at hx
        · rw [List.mem_singleton] at hx
          subst hx
          refine ⟨List.suffix_rfl, ⟨c, hc, by simpa using ho, fun n hn => by rw [hce] at hn; cases hn⟩, fun a h1 h2 h3 => absurd (suffix_antisymm' h2 h1) h3⟩
      · rintro ⟨hs, ⟨c', hc', ho, -⟩, -⟩
        have := honly x hs (by rw [seen_some hc']; rfl)
        subst this
        rw [hc] at hc'; cases hc'
        simp [ho]
    | false =>
      rw [hce] at e1
      rw [e1, Bool.not_false, if_pos rfl]
      obtain ⟨g, hg, ge, -⟩ := h.kind k c hc
      obtain ⟨n, hn⟩ := hnode k g hg (by rw [← ge, hce])
      rw [h.data k c hc, Option.bind_some, hn]
      dsimp only
      by_cases hop : c.shared = true ∨ sent < n.sub
      · have hopn : Opened t Val sent k := ⟨c, n, hc, hce, hn, hop⟩
        rw [if_pos (by simpa using hop), keys_eq]
        obtain ⟨ds, d1, d2, d3, d4⟩ := daughterKeys_kids hT ht (seen_some hc)
        rw [d1]
        obtain ⟨rs, r1, r2, r3⟩ := mapM_lists (selected nch t sent fuel)
          (fun b x => b <:+ x ∧ Taken t Val sent x ∧ ∀ a, b <:+ a → a <:+ x → a ≠ x → Opened t Val sent a) ds d2 (by
          intro a ha
          obtain ⟨i, hi, rfl⟩ := (d3 a).1 ha
          apply ih _ (by have := d4 _ ha; rwa [Option.isSome_map] at this)
          intro x hx hs
          have := h' x hx ((List.suffix_cons i k).trans hs)
          simp only [List.length_cons]
          omega) (by
          intro a ha a' ha' x hq hq'
          obtain ⟨i, hi, rfl⟩ := (d3 a).1 ha
          obtain ⟨i', hi', rfl⟩ := (d3 a').1 ha'
          exact suffix_unique hq.1 hq'.1 (by simp))
        rw [Option.bind_some, r1]
        refine ⟨_, rfl, r2, fun x => ?_⟩
        rw [r3]
        constructor
        · rintro ⟨a, ha, hs, h1, h2⟩
          obtain ⟨i, hi, rfl⟩ := (d3 a).1 ha
          refine ⟨(List.suffix_cons i k).trans hs, h1, fun b hb1 hb2 hb3 => ?_⟩
          rcases Nat.lt_or_ge k.length b.length with hlt | hge
          · exact h2 b (List.suffix_of_suffix_length_le hs hb2 (by rw [List.length_cons]; exact hlt)) hb2 hb3
          · have : b = k := (hb1.eq_of_length (le_antisymm hb1.length_le hge)).symm
            rw [this]; exact hopn
        · rintro ⟨hs, h1, h2⟩
          have hkx : k ≠ x := fun hkx => h1.not_opened (hkx ▸ hopn)
          have hx : (seen t x).isSome := by
            obtain ⟨c', hc', -⟩ := h1
            rw [seen_some hc']; rfl
          obtain ⟨i, c', hc', hi, hs2⟩ := (path_in ht hx hs).2 hkx
          rw [seen_some hc] at hc'; cases hc'
          exact ⟨i :: k, (d3 _).2 ⟨i, hi, rfl⟩, hs2, h1, fun b hb1 hb2 => h2 b ((List.suffix_cons i k).trans hb1) hb2⟩
      · rw [if_neg (by simpa using hop)]
        rw [not_or] at hop
        have htk : Taken t Val sent k := ⟨c, hc, by simpa using hop.1, fun n' _ hn' => by rw [hn] at hn'; cases hn'; omega⟩
        refine ⟨_, rfl, by simp, fun x => ?_⟩
        rw [List.mem_singleton]
        constructor
        · rintro rfl
          exact ⟨List.suffix_rfl, htk, fun a h1 h2 h3 => absurd (suffix_antisymm' h2 h1) h3⟩
        · rintro ⟨hs, h1, h2⟩
          by_contra hne
          exact htk.not_opened (h2 k List.suffix_rfl hs (Ne.symm hne))

/-- The groups of a process: they are cells of the tree, each group is the particles of the process below its cell, and every particle of the process is in one of them. -/
structure GroupsOk (G : List Nat → Option GCell) (own : List Nat → Nat) (r : Nat) (gs : List Group) : Prop where
  cell : ∀ a ∈ gs, (G a.cell).isSome
  below : ∀ a ∈ gs, ∀ e ∈ a.ents, a.cell <:+ e
  nodup : (gs.flatMap Group.ents).Nodup
  mem : ∀ e, e ∈ gs.flatMap Group.ents ↔ IsEnt G e ∧ own e = r

theorem ent_owner (hT : IsTree nch G cells) (h : Final G own Val r t) {e : List Nat} : (∃ c, seen t e = some c ∧ c.ent = true ∧ c.owner = r) ↔ IsEnt G e ∧ own e = r := by
  constructor
  · rintro ⟨c', hc', he, ho⟩
    obtain ⟨c, hc, rfl⟩ := Option.map_eq_some_iff.mp hc'
    obtain ⟨g, hg, e1, -⟩ := h.kind e c hc
    have hE : IsEnt G e := ⟨g, hg, by rw [← e1]; exact he⟩
    refine ⟨hE, ?_⟩
    obtain ⟨e', he', hs, ho'⟩ := (h.owner e c hc).1
    obtain ⟨g', hg', hge'⟩ := he'
    have hk : g.kids = ∅ := (hT.leaf e g hg).mp (by rw [← e1]; exact he)
    have : e' = e := by
      by_contra hne
      obtain ⟨u, hu⟩ := hs
      have hu' : u ≠ [] := fun h0 => hne (by rw [← hu, h0]; rfl)
      obtain ⟨u', j, rfl⟩ : ∃ u' j, u = u' ++ [j] := ⟨u.dropLast, u.getLast hu', (List.dropLast_append_getLast hu').symm⟩
      have : ∀ (w : List Nat), (G (w ++ (j :: e))).isSome → (G (j :: e)).isSome := by
        intro w
        induction w with
        | nil => exact id
        | cons i w ih => intro hi; obtain ⟨g1, hg1, -⟩ := (hT.child i _).mp hi; exact ih (Option.isSome_iff_exists.mpr ⟨g1, hg1⟩)
      have hj := this u' (by rw [show u' ++ (j :: e) = e' by rw [← hu]; simp, hg']; rfl)
      obtain ⟨g1, hg1, hj1⟩ := (hT.child j e).mp hj
      rw [hg] at hg1; cases hg1
      rw [hk] at hj1; simp at hj1
    rw [this] at ho'
    rw [ho']; exact ho
  · rintro ⟨⟨g, hg, he⟩, ho⟩
    have hs : SomeOf G own r e := ⟨e, ⟨g, hg, he⟩, List.suffix_rfl, ho⟩
    obtain ⟨c, hc⟩ := Option.isSome_iff_exists.mp ((h.mem e).mpr ⟨by rw [hg]; rfl, Or.inl hs⟩)
    obtain ⟨g', hg', e1, -⟩ := h.kind e c hc
    rw [hg] at hg'; cases hg'
    exact ⟨ghostCell c, seen_some hc, by rw [show (ghostCell c).ent = c.ent from rfl, e1, he], (h.owner e c hc).2 hs⟩

theorem mapM_some {α β : Type} {f : α → Option β} {g : α → β} : ∀ {l : List α}, (∀ x ∈ l, f x = some (g x)) → l.mapM f = some (l.map g)
  | [], _ => rfl
  | a :: l, h => by
    rw [List.mapM_cons, h a (by simp), mapM_some fun x hx => h x (by simp [hx])]
    rfl

theorem groups_spec (hT : IsTree nch G cells) (h : Final G own Val r t) (ht : Good G (seen t)) (hnode : ∀ k g, G k = some g → g.ent = false → ∃ n, nodeOf (Val k) = some n) (sent fuel : Nat)
    (hfuel : ∀ x ∈ cells, x.length < fuel) : ∃ gs, groupsOf nch t sent fuel = some gs ∧ GroupsOk G own r gs := by
  have hroot : (t []).isSome := by
    obtain ⟨c, hc, -⟩ := ht.root
    obtain ⟨c', hc', -⟩ := Option.map_eq_some_iff.mp hc
    rw [hc']; rfl
  obtain ⟨ks, s1, s2, s3⟩ := selected_spec hT h ht hnode sent fuel [] hroot fun x hx _ => by simpa using hfuel x hx
  have hin : ∀ k ∈ ks, (t k).isSome := fun k hk => by
    obtain ⟨c, hc, -⟩ := ((s3 k).1 hk).2.1
    rw [hc]; rfl
  obtain ⟨sub, hsub⟩ : ∃ sub : Key → List Key, ∀ k ∈ ks, subEnts nch r (seen t) fuel k = some (sub k) ∧ (sub k).Nodup ∧ ∀ x, x ∈ sub k ↔ k <:+ x ∧ IsEnt G x ∧ own x = r := by
    refine ⟨fun k => (subEnts nch r (seen t) fuel k).getD [], fun k hk => ?_⟩
    obtain ⟨l, l1, l2, l3⟩ := subEnts_spec hT ht r fuel k (by have := hin k hk; rwa [← Option.isSome_map (f := ghostCell)] at this) fun x hx _ => by have := hfuel x hx; omega
    have e : (subEnts nch r (seen t) fuel k).getD [] = l := by rw [l1]; rfl
    dsimp only
    rw [e]
    exact ⟨l1, l2, fun x => by rw [l3 x, ent_owner hT h]⟩
  have hgroup : ∀ k ∈ ks, groupAt nch t fuel k = some ⟨k, sub k⟩ := by
    intro k hk
    obtain ⟨c, hc⟩ := Option.isSome_iff_exists.mp (hin k hk)
    obtain ⟨e1, e2⟩ := kind' h hc
    unfold groupAt
    rw [hc]
    dsimp only
    cases hce : c.ent with
    | false =>
      rw [hce] at e1
      rw [e1, localEnts_eq h, (hsub k hk).1]
      rfl
    | true =>
      rw [hce] at e1
      rw [e1, if_neg (by simp)]
      obtain ⟨c', hc', hsh, -⟩ := ((s3 k).1 hk).2.1
      rw [hc] at hc'; cases hc'
      have hO := (h.shared k c hc hce).mp hsh
      have h1 := (hsub k hk).1
      obtain ⟨f, rfl⟩ : ∃ f, fuel = f + 1 := by
        obtain ⟨g, hg, -⟩ := h.kind k c hc
        have := hfuel k ((hT.mem k).2 (by rw [hg]; rfl))
        exact ⟨fuel - 1, by omega⟩
      unfold subEnts at h1
      rw [seen_some hc] at h1
      have ec : (ghostCell c).ent = true := hce
      have eo : (ghostCell c).owner = r := hO
      simp only [ec, eo, if_true] at h1
      rw [← Option.some.inj h1]
  refine ⟨ks.map fun k => ⟨k, sub k⟩, by unfold groupsOf; rw [s1, Option.bind_some, mapM_some hgroup], ?_, ?_, ?_, ?_⟩
  · intro a ha
    obtain ⟨k, hk, rfl⟩ := List.mem_map.mp ha
    obtain ⟨c, hc⟩ := Option.isSome_iff_exists.mp (hin k hk)
    obtain ⟨g, hg, -⟩ := h.kind k c hc
    rw [hg]; rfl
  · intro a ha e he
    obtain ⟨k, hk, rfl⟩ := List.mem_map.mp ha
    exact (((hsub k hk).2.2 e).1 he).1
  · rw [List.flatMap_map]
    rw [List.nodup_flatMap]
    refine ⟨fun k hk => (hsub k hk).2.1, s2.imp_of_mem fun {a b} ha hb hne => ?_⟩
    rw [Function.onFun, List.disjoint_left]
    intro x hxa hxb
    have h1 := (((hsub a ha).2.2 x).1 hxa).1
    have h2 := (((hsub b hb).2.2 x).1 hxb).1
    rcases List.suffix_or_suffix_of_suffix h1 h2 with h3 | h3
    · exact ((s3 a).1 ha).2.1.not_opened (((s3 b).1 hb).2.2 a List.nil_suffix h3 hne)
    · exact ((s3 b).1 hb).2.1.not_opened (((s3 a).1 ha).2.2 b List.nil_suffix h3 (Ne.symm hne))
  · intro e
    rw [List.flatMap_map, List.mem_flatMap]
    constructor
    · rintro ⟨k, hk, he⟩
      exact (((hsub k hk).2.2 e).1 he).2
    · intro he
      obtain ⟨c', hc', hce, hco⟩ := (ent_owner hT h).mpr he
      obtain ⟨c, hc, rfl⟩ := Option.map_eq_some_iff.mp hc'
      have hne : ¬ Opened t Val sent e := by
        rintro ⟨c2, n, g1, g2, -⟩
        rw [hc] at g1; cases g1
        rw [show (ghostCell c).ent = c.ent from rfl, g2] at hce; cases hce
      -- the highest cell above `e` below which the traversal does not go
      obtain ⟨a, ha, hna, hup⟩ : ∃ a, a <:+ e ∧ ¬ Opened t Val sent a ∧ ∀ b, b <:+ a → b ≠ a → Opened t Val sent b := by
        have : ∀ n a, a.length ≤ n → a <:+ e → ¬ Opened t Val sent a → ∃ a, a <:+ e ∧ ¬ Opened t Val sent a ∧ ∀ b, b <:+ a → b ≠ a → Opened t Val sent b := by
          intro n
          induction n with
          | zero =>
            intro a hl hs ho
            refine ⟨a, hs, ho, fun b hb hne => ?_⟩
            have ha0 : a = [] := List.length_eq_zero_iff.mp (by omega)
            subst ha0
            exact absurd (List.suffix_nil.mp hb) hne
          | succ n ih =>
            intro a hl hs ho
            by_cases hall : ∀ b, b <:+ a → b ≠ a → Opened t Val sent b
            · exact ⟨a, hs, ho, hall⟩
            · push Not at hall
              obtain ⟨b, hb, hne, hnb⟩ := hall
              refine ih b ?_ (hb.trans hs) hnb
              have : b.length ≠ a.length := fun hl => hne (hb.eq_of_length hl)
              have := hb.length_le
              omega
        exact this _ e le_rfl List.suffix_rfl hne
      have hta : (t a).isSome := by
        have := (path_in ht (x := e) (by rw [seen_some hc]; rfl) ha).1
        rwa [Option.isSome_map] at this
      obtain ⟨ca, hca⟩ := Option.isSome_iff_exists.mp hta
      have htak : Taken t Val sent a := by
        cases hcae : ca.ent with
        | true =>
          have := leaf_only hT ht (seen_some hca) hcae e ha (by rw [seen_some hc]; rfl)
          subst this
          rw [hc] at hca; cases hca
          exact ⟨c, hc, (h.shared e c hc hcae).mpr hco, fun n hn => by rw [hcae] at hn; cases hn⟩
        | false =>
          obtain ⟨g, hg, ge, -⟩ := h.kind a ca hca
          obtain ⟨n, hn⟩ := hnode a g hg (by rw [← ge, hcae])
          refine ⟨ca, hca, ?_, fun n' _ hn' => ?_⟩
          · by_contra hsh
            exact hna ⟨ca, n, hca, hcae, hn, Or.inl (by simpa using hsh)⟩
          · by_contra hlt
            exact hna ⟨ca, n', hca, hcae, hn', Or.inr (by omega)⟩
      have hak : a ∈ ks := (s3 a).2 ⟨List.nil_suffix, htak, fun b _ hb hne => hup b hb hne⟩
      exact ⟨a, hak, ((hsub a hak).2.2 e).2 ⟨ha, he⟩⟩

end FleCSPH.SphRun
