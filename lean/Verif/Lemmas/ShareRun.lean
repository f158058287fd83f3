import Verif.Lemmas.ShareUpdate
import Mathlib.Data.Nat.Bitwise
/-! All stages of `share_nodes_` on 2^m processes. -/
namespace FleCSPH.ShareTable
open FleCSPH.Ghosts

variable {V : Type} {G : Key → Option GCell} {cells : Finset Key} {own : Key → Nat} {Val : Key → V} {C : Consts V}

/-- The table of process `r` at the end. -/
structure Final (G : Key → Option GCell) (own : Key → Nat) (Val : Key → V) (r : Nat) (t : Table V) : Prop where
  mem : ∀ k, (t k).isSome ↔ Wanted G own r k
  kind : ∀ k c, t k = some c → ∃ g, G k = some g ∧ c.ent = g.ent ∧ c.node = !g.ent
  kids : ∀ k c j, t k = some c → (j ∈ c.kids ↔ (t (j :: k)).isSome)
  owner : ∀ k c, t k = some c → SomeOf G own c.owner k ∧ (SomeOf G own r k → c.owner = r)
  data : ∀ k c, t k = some c → c.data = some (Val k)
  shared : ∀ k c, t k = some c → c.ent = true → (c.shared = false ↔ c.owner = r)

theorem xor_group (r i s : Nat) : s / 2 ^ (i + 1) = r / 2 ^ (i + 1) ↔ s / 2 ^ i = r / 2 ^ i ∨ s / 2 ^ i = (r ^^^ 2 ^ i) / 2 ^ i := by
  have e1 : (r ^^^ 2 ^ i) / 2 ^ i = (r / 2 ^ i) ^^^ 1 := by rw [Nat.xor_div_two_pow]; simp
  have e2 : ((r / 2 ^ i) ^^^ 1) / 2 = (r / 2 ^ i) / 2 := by rw [Nat.xor_div_two]; simp
  have e3 : ((r / 2 ^ i) ^^^ 1) % 2 = (r / 2 ^ i + 1) % 2 := Nat.xor_mod_two_eq
  rw [e1, pow_succ, ← Nat.div_div_eq_div_mul, ← Nat.div_div_eq_div_mul]
  generalize s / 2 ^ i = a at *
  generalize r / 2 ^ i = b at *
  omega

theorem xor_other (r i : Nat) : (r ^^^ 2 ^ i) / 2 ^ i ≠ r / 2 ^ i := by
  have e1 : (r ^^^ 2 ^ i) / 2 ^ i = (r / 2 ^ i) ^^^ 1 := by rw [Nat.xor_div_two_pow]; simp
  have e3 : ((r / 2 ^ i) ^^^ 1) % 2 = (r / 2 ^ i + 1) % 2 := Nat.xor_mod_two_eq
  rw [e1]
  generalize r / 2 ^ i = b at *
  omega

theorem Tab.congr {L L' : Key → Prop} {r : Nat} {t : Table V} (h : Tab G own Val r L t) (hL : ∀ l, L l ↔ L' l) : Tab G own Val r L' t := by
  have : L = L' := funext fun l => propext (hL l)
  rw [← this]; exact h

/-- The tops of the other processes of the group of `r`. -/
def Others (G : Key → Option GCell) (own : Key → Nat) (i r : Nat) (l : Key) : Prop := ∃ s, s ≠ r ∧ s / 2 ^ i = r / 2 ^ i ∧ Top G own s l

/-- Stage `i` up to `cofm_update_`. -/
theorem exchange (hT : IsTree (2 ^ C.dim) G cells) (hD : ∀ k ∈ cells, k.length ≤ C.D) (hroot : ¬ Single G own []) {i r : Nat} (hr : ∃ e, IsEnt G e ∧ own e = r)
    (hp : ∃ e, IsEnt G e ∧ own e = r ^^^ 2 ^ i) {t tp : Table V} (h : Tab G own Val r (Others G own i r) t) (hq : Tab G own Val (r ^^^ 2 ^ i) (Others G own i (r ^^^ 2 ^ i)) tp) :
    ∃ es ns t', findNodes (2 ^ C.dim) tp (C.D + 1) = some (es, ns) ∧ load r t es ns = some t' ∧ Tab G own Val r (Others G own (i + 1) r) t' := by
  obtain ⟨e, he, heo⟩ := hp
  obtain ⟨es, ns, h1, h2, h3, h4, h5, h6⟩ := hq.findNodes hT ((hq.mem []).mpr (Or.inl ⟨e, he, List.nil_suffix, heo⟩)) hD
  -- which items these are
  have hitems : ∀ k, k ∈ (es ++ ns).map Item.key ↔ ∃ s, s / 2 ^ i = (r ^^^ 2 ^ i) / 2 ^ i ∧ Top G own s k := by
    intro k
    rw [h6, hq.mem]
    constructor
    · rintro ⟨h7 | ⟨l, ⟨s, -, h8, h9⟩, h10⟩, ⟨s', hs'⟩, hnp⟩
      · have := hs'.eq h7
        rw [← this] at hs'
        exact ⟨_, rfl, h7.isSome hT, hs', hnp⟩
      · have := single_not_above h9 ⟨s', hs'⟩ h10
        subst this
        exact ⟨s, h8, h9⟩
    · rintro ⟨s, h7, h8⟩
      refine ⟨?_, ⟨s, h8.2.1⟩, h8.2.2⟩
      by_cases e : s = r ^^^ 2 ^ i
      · rw [← e]
        exact Or.inl (h8.2.1.someOf hT h8.1)
      · exact Or.inr ⟨k, ⟨s, e, h7, h8⟩, List.suffix_refl _⟩
  have hne : ∀ s, s / 2 ^ i = (r ^^^ 2 ^ i) / 2 ^ i → s / 2 ^ i ≠ r / 2 ^ i := fun s e1 e2 => xor_other r i (e1.symm.trans e2)
  obtain ⟨t', h7, h8⟩ := h.load hT hroot hr es ns h2 h4 h5 (by
    intro x hx
    have h9 := h3 x hx
    obtain ⟨s, h10, h11⟩ := (hitems x.key).mp (List.mem_map.mpr ⟨x, hx, rfl⟩)
    have h12 : s = x.owner := h9.all.eq (h11.2.1.someOf hT h11.1)
    refine ⟨h9, h11.2.2, ?_, ?_⟩
    · rw [← h12]
      rintro rfl
      exact hne s h10 rfl
    · rintro ⟨s', -, h13, h14⟩
      have : s = s' := h14.2.1.eq (h11.2.1.someOf hT h11.1)
      rw [← this] at h13
      exact hne s h10 h13)
  refine ⟨es, ns, t', h1, h7, h8.congr ?_⟩
  intro l
  rw [hitems]
  constructor
  · rintro (⟨s, e1, e2, e3⟩ | ⟨s, e1, e2⟩)
    · exact ⟨s, e1, (xor_group r i s).mpr (Or.inl e2), e3⟩
    · refine ⟨s, ?_, (xor_group r i s).mpr (Or.inr e1), e2⟩
      rintro rfl
      exact hne s e1 rfl
  · rintro ⟨s, e1, e2, e3⟩
    rcases (xor_group r i s).mp e2 with e4 | e4
    · exact Or.inl ⟨s, e1, e4, e3⟩
    · exact Or.inr ⟨s, e4, e3⟩

theorem mapM_range {α : Type} (n : Nat) (F : Nat → Option α) (P : Nat → α → Prop) (h : ∀ r < n, ∃ x, F r = some x ∧ P r x) :
    ∃ l, (List.range n).mapM F = some l ∧ l.length = n ∧ ∀ r < n, ∃ x, l[r]? = some x ∧ P r x := by
  classical
  rcases Nat.eq_zero_or_pos n with rfl | hn
  · exact ⟨[], rfl, rfl, by intro r hr; omega⟩
  · obtain ⟨x0, -⟩ := h 0 hn
    obtain ⟨f, hf⟩ : ∃ f : Nat → α, ∀ r < n, F r = some (f r) ∧ P r (f r) := by
      refine ⟨fun r => if hr : r < n then (h r hr).choose else x0, ?_⟩
      intro r hr
      simp only [hr, dif_pos]
      exact (h r hr).choose_spec
    refine ⟨(List.range n).map f, mapM_some_of _ _ _ (fun r hr => (hf r (List.mem_range.mp hr)).1), by simp, ?_⟩
    intro r hr
    exact ⟨f r, by simp [hr], (hf r hr).2⟩

/-- The state before stage `i`. -/
def Inv (C : Consts V) (G : Key → Option GCell) (own : Key → Nat) (Val : Key → V) (m : Nat) (lo0 hi0 : Nat → Nat) (i : Nat) (s : List (Proc V)) : Prop :=
  s.length = 2 ^ m ∧ ∀ r < 2 ^ m, ∃ me, s[r]? = some me ∧ Tab G own Val r (Others G own i r) me.tbl ∧
    ((∀ q < 2 ^ m, q / 2 ^ i = r / 2 ^ i → me.lo ≤ lo0 q) ∧ ∃ q < 2 ^ m, q / 2 ^ i = r / 2 ^ i ∧ me.lo = lo0 q) ∧
    ((∀ q < 2 ^ m, q / 2 ^ i = r / 2 ^ i → hi0 q ≤ me.hi) ∧ ∃ q < 2 ^ m, q / 2 ^ i = r / 2 ^ i ∧ me.hi = hi0 q)

/-- The bounds of the processes before the exchange (the keys of their neighbours), with the smallest and the largest key at the ends. -/
structure Bounds (D dim n : Nat) (lo0 hi0 : Nat → Nat) : Prop where
  lo_first : lo0 0 = 2 ^ (D * dim)
  hi_last : hi0 (n - 1) = 2 * 2 ^ (D * dim) - 1
  lo_ge : ∀ q < n, 2 ≤ q → 2 ^ (D * dim) < lo0 q
  hi_le : ∀ q < n, q + 2 < n → hi0 q < 2 * 2 ^ (D * dim) - 1

/-- Stage `i`, without its last step. -/
theorem stage_spec (hT : IsTree (2 ^ C.dim) G cells) (hD : ∀ k ∈ cells, k.length ≤ C.D) {m : Nat} (hroot : ¬ Single G own []) (hown : ∀ r < 2 ^ m, ∃ e, IsEnt G e ∧ own e = r)
    {lo0 hi0 : Nat → Nat} {i : Nat} (hi : i < m) {s : List (Proc V)} (h : Inv C G own Val m lo0 hi0 i s) {r : Nat} (hr : r < 2 ^ m) :
    ∃ t' lo hi', stageOf C i s r = (cofmUpdate C.D C.dim (2 ^ C.dim) lo hi' C.f (C.D + 2) t' []).map (fun t'' => { tbl := t'', lo := lo, hi := hi' }) ∧
      Tab G own Val r (Others G own (i + 1) r) t' ∧
      ((∀ q < 2 ^ m, q / 2 ^ (i + 1) = r / 2 ^ (i + 1) → lo ≤ lo0 q) ∧ ∃ q < 2 ^ m, q / 2 ^ (i + 1) = r / 2 ^ (i + 1) ∧ lo = lo0 q) ∧
      ((∀ q < 2 ^ m, q / 2 ^ (i + 1) = r / 2 ^ (i + 1) → hi0 q ≤ hi') ∧ ∃ q < 2 ^ m, q / 2 ^ (i + 1) = r / 2 ^ (i + 1) ∧ hi' = hi0 q) := by
  obtain ⟨hlen, hs⟩ := h
  have hp : r ^^^ 2 ^ i < 2 ^ m := Nat.xor_lt_two_pow hr (Nat.pow_lt_pow_right (by decide) hi)
  obtain ⟨me, h1, h2, ⟨h3, q3, h3a, h3b, h3c⟩, h4, q4, h4a, h4b, h4c⟩ := hs r hr
  obtain ⟨pa, g1, g2, ⟨g3, p3, g3a, g3b, g3c⟩, g4, p4, g4a, g4b, g4c⟩ := hs _ hp
  obtain ⟨es, ns, t', e1, e2, e3⟩ := exchange hT hD hroot (hown r hr) (hown _ hp) h2 g2
  refine ⟨t', min pa.lo me.lo, max pa.hi me.hi, ?_, e3, ⟨?_, ?_⟩, ?_, ?_⟩
  · rw [stageOf, h1]
    simp only
    rw [g1]
    simp only
    rw [e1]
    simp only
    rw [e2]
  · intro q hq hqr
    rcases (xor_group r i q).mp hqr with e | e
    · exact (min_le_right _ _).trans (h3 q hq e)
    · exact (min_le_left _ _).trans (g3 q hq e)
  · rcases min_choice pa.lo me.lo with e | e
    · exact ⟨p3, g3a, (xor_group r i p3).mpr (Or.inr g3b), e.trans g3c⟩
    · exact ⟨q3, h3a, (xor_group r i q3).mpr (Or.inl h3b), e.trans h3c⟩
  · intro q hq hqr
    rcases (xor_group r i q).mp hqr with e | e
    · exact (h4 q hq e).trans (le_max_right _ _)
    · exact (g4 q hq e).trans (le_max_left _ _)
  · rcases max_choice pa.hi me.hi with e | e
    · exact ⟨p4, g4a, (xor_group r i p4).mpr (Or.inr g4b), e.trans g4c⟩
    · exact ⟨q4, h4a, (xor_group r i q4).mpr (Or.inl h4b), e.trans h4c⟩

theorem stage_middle (hdim : 0 < C.dim) (hT : IsTree (2 ^ C.dim) G cells) (hD : ∀ k ∈ cells, k.length ≤ C.D) {m : Nat} (hroot : ¬ Single G own []) (hown : ∀ r < 2 ^ m, ∃ e, IsEnt G e ∧ own e = r)
    {lo0 hi0 : Nat → Nat} (hB : Bounds C.D C.dim (2 ^ m) lo0 hi0) {i : Nat} (hi : i + 1 < m) {s : List (Proc V)} (h : Inv C G own Val m lo0 hi0 i s) :
    ∃ s', stage C i s = some s' ∧ Inv C G own Val m lo0 hi0 (i + 1) s' := by
  have hlen := h.1
  obtain ⟨l, h1, h2, h3⟩ := mapM_range (2 ^ m) (stageOf C i s) (fun r me => Tab G own Val r (Others G own (i + 1) r) me.tbl ∧
    ((∀ q < 2 ^ m, q / 2 ^ (i + 1) = r / 2 ^ (i + 1) → me.lo ≤ lo0 q) ∧ ∃ q < 2 ^ m, q / 2 ^ (i + 1) = r / 2 ^ (i + 1) ∧ me.lo = lo0 q) ∧
    ((∀ q < 2 ^ m, q / 2 ^ (i + 1) = r / 2 ^ (i + 1) → hi0 q ≤ me.hi) ∧ ∃ q < 2 ^ m, q / 2 ^ (i + 1) = r / 2 ^ (i + 1) ∧ me.hi = hi0 q)) (by
    intro r hr
    obtain ⟨t', lo, hi', e1, e2, e3, e4⟩ := stage_spec hT hD hroot hown (by omega) h hr
    refine ⟨{ tbl := t', lo := lo, hi := hi' }, ?_, e2, e3, e4⟩
    rw [e1, cofmUpdate_skip hdim]
    · rfl
    · obtain ⟨e, he, heo⟩ := hown r hr
      exact (e2.mem []).mpr (Or.inl ⟨e, he, List.nil_suffix, heo⟩)
    · obtain ⟨-, q, hq, hqr, rfl⟩ := e3
      obtain ⟨-, p, hp, hpr, rfl⟩ := e4
      rw [pow_succ, ← Nat.div_div_eq_div_mul, ← Nat.div_div_eq_div_mul] at hqr hpr
      -- the group cannot have both ends
      rcases Nat.lt_or_ge q 2 with h5 | h5
      · right
        apply hB.hi_le p hp
        by_contra hc
        have hm : 2 ^ (i + 1 + 1) ≤ 2 ^ m := Nat.pow_le_pow_right (by omega) (by omega)
        have hm2 : ∃ w, 2 ^ m = 2 ^ (i + 1 + 1) * w := ⟨2 ^ (m - (i + 1 + 1)), by rw [← pow_add]; congr 1; omega⟩
        obtain ⟨w, hw⟩ := hm2
        have hq0 : q / 2 ^ i / 2 = 0 := by
          rw [Nat.div_div_eq_div_mul, ← pow_succ]
          apply Nat.div_eq_of_lt
          have : 2 ^ 1 ≤ 2 ^ (i + 1) := Nat.pow_le_pow_right (by omega) (by omega)
          omega
        have hp0 : p / 2 ^ i / 2 = 0 := by omega
        rw [Nat.div_div_eq_div_mul, ← pow_succ] at hp0
        have hp1 : p < 2 ^ (i + 1) := by
          rcases Nat.div_eq_zero_iff.mp hp0 with e | e
          · have := Nat.two_pow_pos (i + 1); omega
          · exact e
        have : 2 ^ (i + 1 + 1) = 2 ^ (i + 1) * 2 := pow_succ _ _
        have : 2 ^ 1 ≤ 2 ^ (i + 1) := Nat.pow_le_pow_right (by omega) (by omega)
        omega
      · exact Or.inl (hB.lo_ge q hq h5))
  exact ⟨l, by rw [stage, hlen]; exact h1, h2, h3⟩

theorem Tab.final (hdim : 0 < C.dim) (hT : IsTree (2 ^ C.dim) G cells) {r : Nat} {L : Key → Prop} {t : Table V} (h : Tab G own Val r L t)
    (hL : ∀ s l, s ≠ r → Top G own s l → L l) (S : Key → Prop) (hS : ∀ k, ¬ Single G own k → S k) : Final G own Val r (doneIf Val S t) := by
  have hsome : ∀ k', (doneIf Val S t k').isSome = (t k').isSome := by
    intro k'; unfold doneIf; rw [Option.isSome_map]
  have hcase : ∀ k c', doneIf Val S t k = some c' → ∃ c, t k = some c ∧ ((unset c = false ∧ c' = c) ∨ (unset c = true ∧ c' = { c with shared := true, node := true, data := some (Val k) })) := by
    intro k c' hc'
    cases hc : t k with
    | none => rw [doneIf_none hc] at hc'; cases hc'
    | some c =>
      refine ⟨c, rfl, ?_⟩
      by_cases hu : unset c = true
      · right
        have hns : ¬ Single G own k := fun hs => by rw [(h.set_ k c hc).mpr hs] at hu; cases hu
        rw [doneIf_pos hc (hS k hns) hu] at hc'
        cases hc'
        exact ⟨hu, rfl⟩
      · left
        rw [doneIf_neg hc (fun h1 => hu h1.2)] at hc'
        cases hc'
        exact ⟨by simpa using hu, rfl⟩
  constructor
  · intro k
    rw [hsome]
    constructor
    · intro hk
      obtain ⟨c, hc⟩ := Option.isSome_iff_exists.mp hk
      obtain ⟨g, hg, -⟩ := h.ent k c hc
      refine ⟨by rw [hg]; rfl, ?_⟩
      rcases (h.mem k).mp hk with h1 | ⟨l, h1, h2⟩
      · exact Or.inl h1
      · right
        intro j pk e hs
        obtain ⟨s, -, h3⟩ := h.tops l h1
        subst e
        have := single_not_above h3 hs ((List.suffix_cons j pk).trans h2)
        rw [← this] at h2
        exact not_suffix_parent h2
    · rintro ⟨h1, h2 | h2⟩
      · exact (h.mem k).mpr (Or.inl h2)
      · exact h.full hT hL h2 h1
  · intro k c' hc'
    obtain ⟨c, hc, ⟨hu, rfl⟩ | ⟨hu, rfl⟩⟩ := hcase k c' hc'
    · obtain ⟨g, hg, he⟩ := h.ent _ _ hc
      refine ⟨g, hg, he, ?_⟩
      rw [← he]
      cases hce : c'.ent with
      | true => rw [h.one _ _ hc hce]; rfl
      | false =>
        unfold unset at hu
        rw [hce] at hu
        simpa using hu
    · obtain ⟨g, hg, he⟩ := h.ent _ _ hc
      refine ⟨g, hg, he, ?_⟩
      unfold unset at hu
      simp at hu
      simp [← he, hu.1]
  · intro k c' j hc'
    rw [hsome]
    obtain ⟨c, hc, ⟨hu, rfl⟩ | ⟨hu, rfl⟩⟩ := hcase k c' hc'
    · exact h.kids _ _ j hc
    · exact h.kids k c j hc
  · intro k c' hc'
    obtain ⟨c, hc, ⟨hu, rfl⟩ | ⟨hu, rfl⟩⟩ := hcase k c' hc'
    · exact h.owner _ _ hc
    · exact h.owner k c hc
  · intro k c' hc'
    obtain ⟨c, hc, ⟨hu, rfl⟩ | ⟨hu, rfl⟩⟩ := hcase k c' hc'
    · exact h.data _ _ hc ((h.set_ _ _ hc).mp hu)
    · rfl
  · intro k c' hc' he
    obtain ⟨c, hc, ⟨hu, rfl⟩ | ⟨hu, rfl⟩⟩ := hcase k c' hc'
    · exact h.shared _ _ hc he
    · unfold unset at hu
      simp at hu
      rw [show ({ c with shared := true, node := true, data := some (Val k) } : Cell V).ent = c.ent from rfl, hu.1] at he
      cases he

theorem stage_last (hdim : 0 < C.dim) (hT : IsTree (2 ^ C.dim) G cells) (hD : ∀ k ∈ cells, k.length ≤ C.D) (hV : ValOk (2 ^ C.dim) G C.f Val) {m : Nat} (hroot : ¬ Single G own [])
    (hown : ∀ r < 2 ^ m, ∃ e, IsEnt G e ∧ own e = r) (hlt : ∀ e, IsEnt G e → own e < 2 ^ m) {lo0 hi0 : Nat → Nat} (hB : Bounds C.D C.dim (2 ^ m) lo0 hi0) {i : Nat} (hi : i + 1 = m)
    {s : List (Proc V)} (h : Inv C G own Val m lo0 hi0 i s) :
    ∃ s', stage C i s = some s' ∧ s'.length = 2 ^ m ∧ ∀ r < 2 ^ m, ∃ me, s'[r]? = some me ∧ Final G own Val r me.tbl := by
  have hlen := h.1
  obtain ⟨l, h1, h2, h3⟩ := mapM_range (2 ^ m) (stageOf C i s) (fun r me => Final G own Val r me.tbl) (by
    intro r hr
    obtain ⟨t', lo, hi', e1, e2, e3, e4⟩ := stage_spec hT hD hroot hown (by omega) h hr
    have hgrp : ∀ q < 2 ^ m, q / 2 ^ (i + 1) = r / 2 ^ (i + 1) := by
      intro q hq
      rw [hi, Nat.div_eq_of_lt hq, Nat.div_eq_of_lt hr]
    have hpos := Nat.two_pow_pos m
    have hlo : lo ≤ 2 ^ (C.D * C.dim) := by rw [← hB.lo_first]; exact e3.1 0 hpos (hgrp 0 hpos)
    have hhi : 2 * 2 ^ (C.D * C.dim) - 1 ≤ hi' := by rw [← hB.hi_last]; exact e4.1 (2 ^ m - 1) (by omega) (hgrp _ (by omega))
    have hL : ∀ s l, s ≠ r → Top G own s l → Others G own (i + 1) r l := by
      intro s l hs hl
      refine ⟨s, hs, hgrp s ?_, hl⟩
      obtain ⟨e, he, -, ho⟩ := hl.2.1.someOf hT hl.1
      rw [← ho]; exact hlt e he
    have hroots : (t' []).isSome := by
      obtain ⟨e, he, heo⟩ := hown r hr
      exact (e2.mem []).mpr (Or.inl ⟨e, he, List.nil_suffix, heo⟩)
    have hupd := cofmUpdate_all hdim hT hD e2 hL hV hlo hhi (C.D + 2) [] (fun _ => False) hroots (by simp) (by intro a b h; exact h.elim)
    have hstart : doneIf Val (fun _ => False) t' = t' := by
      funext k
      cases hk : t' k with
      | none => exact doneIf_none hk
      | some c => exact doneIf_neg hk (fun h1 => h1.1)
    rw [hstart] at hupd
    refine ⟨_, by rw [e1, hupd]; rfl, ?_⟩
    exact e2.final hdim hT hL _ (fun k _ => Or.inr List.nil_suffix))
  exact ⟨l, by rw [stage, hlen]; exact h1, h2, h3⟩

/-- What the processes have before the exchange: each its own cells. -/
structure Before (C : Consts V) (G : Key → Option GCell) (own : Key → Nat) (Val : Key → V) (m : Nat) (s : List (Proc V)) (lo0 hi0 : Nat → Nat) : Prop where
  len : s.length = 2 ^ m
  tab : ∀ r < 2 ^ m, ∃ me, s[r]? = some me ∧ Tab G own Val r (fun _ => False) me.tbl ∧ me.lo = lo0 r ∧ me.hi = hi0 r
  bounds : Bounds C.D C.dim (2 ^ m) lo0 hi0

theorem stages_middle (hdim : 0 < C.dim) (hT : IsTree (2 ^ C.dim) G cells) (hD : ∀ k ∈ cells, k.length ≤ C.D) {m : Nat} (hroot : ¬ Single G own []) (hown : ∀ r < 2 ^ m, ∃ e, IsEnt G e ∧ own e = r)
    {lo0 hi0 : Nat → Nat} {s : List (Proc V)} (h : Before C G own Val m s lo0 hi0) : ∀ i, i + 1 ≤ m → ∃ s', stages C i s = some s' ∧ Inv C G own Val m lo0 hi0 i s' := by
  intro i
  induction i with
  | zero =>
    intro hi
    refine ⟨s, rfl, h.len, ?_⟩
    intro r hr
    obtain ⟨me, h1, h2, h3, h4⟩ := h.tab r hr
    refine ⟨me, h1, h2.congr ?_, ⟨?_, r, hr, rfl, h3⟩, ?_, r, hr, rfl, h4⟩
    · intro l
      simp only [false_iff]
      rintro ⟨s', hs', e, -⟩
      simp at e
      exact hs' e
    · intro q hq e
      simp at e
      rw [e, h3]
    · intro q hq e
      simp at e
      rw [e, h4]
  | succ i ih =>
    intro hi
    obtain ⟨s1, h1, h2⟩ := ih (by omega)
    obtain ⟨s2, h3, h4⟩ := stage_middle hdim hT hD hroot hown h.bounds (by omega) h2
    exact ⟨s2, by rw [stages, h1]; exact h3, h4⟩

theorem shareNodes_final (hdim : 0 < C.dim) (hT : IsTree (2 ^ C.dim) G cells) (hD : ∀ k ∈ cells, k.length ≤ C.D) (hV : ValOk (2 ^ C.dim) G C.f Val) {m : Nat}
    (hown : ∀ r < 2 ^ m, ∃ e, IsEnt G e ∧ own e = r) (hlt : ∀ e, IsEnt G e → own e < 2 ^ m) {lo0 hi0 : Nat → Nat} {s : List (Proc V)} (h : Before C G own Val m s lo0 hi0) :
    ∃ s', shareNodes C s = some s' ∧ s'.length = 2 ^ m ∧ ∀ r < 2 ^ m, ∃ me, s'[r]? = some me ∧ Final G own Val r me.tbl := by
  have hlog : Nat.log 2 s.length = m := by rw [h.len]; exact Nat.log_pow (by decide) m
  rw [shareNodes, hlog]
  cases m with
  | zero =>
    refine ⟨s, rfl, h.len, ?_⟩
    intro r hr
    obtain ⟨me, h1, h2, -, -⟩ := h.tab r hr
    refine ⟨me, h1, ?_⟩
    have hr0 : r = 0 := by simpa using hr
    have hall : ∀ k, AllOf G own 0 k := by
      intro k e he _
      have := hlt e he
      simpa using this
    have hfin := h2.final hdim hT (by
      intro s' l hs' hl
      exfalso
      apply hs'
      rw [hr0]
      exact (hall l).eq (hl.2.1.someOf hT hl.1)) (fun _ => False) (fun k hk => absurd ⟨0, hall k⟩ hk)
    have hsame : doneIf Val (fun _ => False) me.tbl = me.tbl := by
      funext k
      cases hk : me.tbl k with
      | none => exact doneIf_none hk
      | some c => exact doneIf_neg hk (fun h1 => h1.1)
    rw [hsame] at hfin
    exact hfin
  | succ m =>
    have hroot : ¬ Single G own [] := by
      rintro ⟨s', hs'⟩
      have hpos := Nat.two_pow_pos m
      have e : 2 ^ (m + 1) = 2 ^ m * 2 := pow_succ _ _
      obtain ⟨e0, he0, ho0⟩ := hown 0 (by omega)
      obtain ⟨e1, he1, ho1⟩ := hown 1 (by omega)
      have h1 := hs' e0 he0 List.nil_suffix
      have h2 := hs' e1 he1 List.nil_suffix
      omega
    obtain ⟨s1, h1, h2⟩ := stages_middle hdim hT hD hroot hown h m (by omega)
    obtain ⟨s2, h3, h4⟩ := stage_last hdim hT hD hV hroot hown hlt h.bounds rfl h2
    exact ⟨s2, by rw [stages, h1]; exact h3, h4⟩

end FleCSPH.ShareTable
