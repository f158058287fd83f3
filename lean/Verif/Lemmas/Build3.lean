import Verif.Lemmas.Build2

/-! The invariant of `build_tree`: the loop over the entities. -/
namespace FleCSPH.Tree
open FleCSPH.Spec FleCSPH.HCell FleCSPH.BuildTree

variable {D dim : Nat}

theorem sinv_lvl {E : Env} {X : Nat → Prop} {es : List Nat} {x : Nat} {t : Tbl} {cofm : List CofmCall} :
    ∀ p, (∀ r < p, ¬ Node E.D E.dim X (A E.dim r x)) → SInv E X es x 0 t cofm → SInv E X es x p t cofm
  | 0, _, h => h
  | p + 1, hn, h =>
    sinv_skip (sinv_lvl p (fun r hr => hn r (by omega)) h) (fun hh => hn p (by omega) hh.1)

theorem leaf_above {X : Nat → Prop} {x p r : Nat} (hdim : 0 < dim) (hx : FullKey D dim x) (hXx : X x)
    (hl : LeafAt D dim X x p) (hr : p < r) (hrD : r ≤ D) : Node D dim X (A dim r x) := by
  rcases hl.2.2 with h | ⟨y, hy, hne, he⟩
  · exact Or.inl ((A_eq_one hdim hx hrD).mpr (by omega))
  · exact Or.inr ⟨y, x, hy, hXx, hne, r, hrD, A_up he hr, rfl⟩

/-- The state after at least one entity has been inserted. -/
structure TInv (E : Env) (X : Nat → Prop) (es : List Nat) (x : Nat) (s : St) : Prop where
  full : ∀ y, X y → FullKey E.D E.dim y
  mem : X x
  max : ∀ y, X y → y ≤ x
  sub : ∀ y ∈ es, X y
  lt : es.Pairwise (· < ·)
  leaf : LeafAt E.D E.dim X x s.cd
  lek : s.lastekey = x
  lnk : s.lastnkey = A E.dim s.cd x
  inv : SInv E X es x 0 s.tbl s.cofm

theorem pairwise_idx {es : List Nat} (h : es.Pairwise (· < ·)) {i j x : Nat} (hi : es[i]? = some x) (hj : es[j]? = some x) :
    i = j := by
  obtain ⟨hi1, hi2⟩ := List.getElem?_eq_some_iff.mp hi
  obtain ⟨hj1, hj2⟩ := List.getElem?_eq_some_iff.mp hj
  have key : ∀ {a b : Nat} (ha : a < es.length) (hb : b < es.length), a < b → es[a] < es[b] :=
    fun ha hb hab => List.pairwise_iff_getElem.mp h _ _ ha hb hab
  rcases Nat.lt_trichotomy i j with h1 | h1 | h1
  · have := key hi1 hj1 h1; omega
  · exact h1
  · have := key hj1 hi1 h1; omega

theorem turn_next (E : Env) (hE : EnvOk E) (X : Nat → Prop) (es : List Nat) (x z : Nat) (s : St) (h : TInv E X es x s)
    (hlen : 0 < es.length) (hlast : es[es.length - 1]? = some x)
    (hz : E.ents.getD es.length E.hibound = z) (hzf : FullKey E.D E.dim z) (hxz : x < z)
    (hnf : (E.iamlast && es.length == E.ents.length) = false)
    (hlox : E.iam0 = false → E.lobound ≤ x) (hhix : E.iamlast = false → x ≤ E.hibound) :
    ∃ s', turn E es.length s = some (s', false) ∧
      TInv E (fun y => X y ∨ y = z) (if es.length < E.ents.length then es ++ [z] else es) z s' := by
  have hdim := hE.hdim
  have hx := h.full x h.mem
  have hcd : s.cd < E.D := h.leaf.1
  obtain ⟨u, hu, hu2⟩ := ascend_spec E hE X es x z false (by simp) h.full hx (fun _ => hzf) hlox hhix (E.D + 2)
    ⟨s.tbl, s.cofm, s.cd, A E.dim s.cd z, s.lastnkey⟩ false (Nat.le_of_lt hcd) (by show E.D < E.D + 2 + s.cd; omega) h.lnk rfl
    (sinv_lvl _ (fun r hr => leaf_not_node hdim h.full hx h.leaf (Nat.le_of_lt hr)) h.inv)
    (fun p h1 h2 => leaf_above hdim hx h.mem h.leaf h1 h2)
    (Or.inr ⟨rfl, leaf_not_node hdim h.full hx h.leaf (Nat.le_refl _)⟩)
  rw [if_neg (by simp)] at hu2
  obtain ⟨a1, a2, a3, a4, a5, a6⟩ := hu2
  have a1' : s.cd ≤ u.cd := a1
  have a5' : u.cd = s.cd ∨ A E.dim (u.cd - 1) x ≠ A E.dim (u.cd - 1) z := a5
  obtain ⟨t, p, hins, hlz, hinv⟩ := sinv_insert E hE X es x z es.length u h.full h.mem h.max hxz hzf a2 a3 a4 a6 h.sub
    (fun j hj => by have := pairwise_idx h.lt hj hlast; omega) rfl (by
      by_cases hc : u.cd = s.cd
      · left; rw [hc]; exact ⟨h.leaf, hlast, hlen⟩
      · right; right
        have hlt : s.cd < u.cd := by omega
        refine ⟨a5'.resolve_left hc, leaf_above hdim hx h.mem h.leaf hlt a2, ?_⟩
        intro q hq
        rw [leafAt_unique hq h.leaf]; exact hlt)
  refine ⟨⟨t, u.cofm, p, z, A E.dim p z, Nat.max s.maxDepth p⟩, ?_, ?_⟩
  · rw [turn]
    dsimp only
    rw [hz, hnf, pop_some (Nat.le_of_lt hcd)]
    simp only [Option.bind_eq_bind, Option.bind_some]
    rw [h.lek, hu]
    simp only [Option.bind_some, Bool.false_eq_true, if_false]
    rw [hins]
    rfl
  · refine ⟨?_, Or.inr rfl, ?_, ?_, ?_, hlz, rfl, rfl, hinv⟩
    · rintro y (hy | rfl)
      · exact h.full y hy
      · exact hzf
    · rintro y (hy | rfl)
      · have := h.max y hy; omega
      · exact Nat.le_refl _
    · intro y hy
      split at hy
      · rcases List.mem_append.mp hy with hy | hy
        · exact Or.inl (h.sub y hy)
        · exact Or.inr (by simpa using hy)
      · exact Or.inl (h.sub y hy)
    · split
      · rw [List.pairwise_append]
        refine ⟨h.lt, List.pairwise_singleton _ _, ?_⟩
        intro a ha b hb
        have := h.max a (h.sub a ha)
        simp at hb
        omega
      · exact h.lt

theorem turn_final (E : Env) (hE : EnvOk E) (X : Nat → Prop) (es : List Nat) (x : Nat) (s : St) (h : TInv E X es x s)
    (hlen : es.length = E.ents.length) (hl : E.iamlast = true) (hlox : E.iam0 = false → E.lobound ≤ x) :
    ∃ s', turn E es.length s = some (s', true) ∧ SInv E X es x (E.D + 1) s'.tbl s'.cofm := by
  have hdim := hE.hdim
  have hx := h.full x h.mem
  have hcd : s.cd < E.D := h.leaf.1
  obtain ⟨u, hu, hu2⟩ := ascend_spec E hE X es x (E.ents.getD es.length E.hibound) true (fun _ => hl) h.full hx
    (by simp) hlox (by simp [hl]) (E.D + 2)
    ⟨s.tbl, s.cofm, s.cd, A E.dim s.cd (E.ents.getD es.length E.hibound), s.lastnkey⟩ false (Nat.le_of_lt hcd)
    (by show E.D < E.D + 2 + s.cd; omega) h.lnk rfl
    (sinv_lvl _ (fun r hr => leaf_not_node hdim h.full hx h.leaf (Nat.le_of_lt hr)) h.inv)
    (fun p h1 h2 => leaf_above hdim hx h.mem h.leaf h1 h2)
    (Or.inr ⟨rfl, leaf_not_node hdim h.full hx h.leaf (Nat.le_refl _)⟩)
  rw [if_pos rfl] at hu2
  refine ⟨{ s with tbl := u.tbl, cofm := u.cofm, cd := u.cd, lastnkey := u.lastnkey }, ?_, hu2⟩
  rw [turn]
  dsimp only
  rw [show (E.iamlast && es.length == E.ents.length) = true from by rw [hl, hlen]; simp, pop_some (Nat.le_of_lt hcd)]
  simp only [Option.bind_eq_bind, Option.bind_some]
  rw [h.lek, hu]
  rfl

/-- What is assumed of the keys of a rank. -/
structure KeysOk (E : Env) : Prop where
  full : ∀ y ∈ E.ents, FullKey E.D E.dim y
  lt : E.ents.Pairwise (· < ·)
  lo : E.iam0 = false → ∀ y ∈ E.ents, E.lobound < y
  hi : E.iamlast = false → ∀ y ∈ E.ents, y < E.hibound

theorem ascend_still (E : Env) (final : Bool) (z x f : Nat) (s : Up) (b : Bool) (hf : final = false) (h : s.nkey = s.lastnkey) :
    ascend E final z x (f + 1) b s = some s := by
  rw [ascend, if_neg]
  simp [h, hf]

theorem tblRoot (k : Nat) : Tbl.emplace (fun _ => none) Key.root {} k = if k = 1 then some {} else none := rfl

theorem childOk_root (hdim : 0 < dim) : ChildOk dim (fun k => if k = 1 then some {} else none) := by
  intro c cell b hc hb
  dsimp only at hc ⊢
  by_cases h1 : c = 1
  · subst h1
    rw [if_pos rfl] at hc
    cases hc
    have := child_ne (dim := dim) (b := b) (c := 1) hdim (by decide)
    rw [if_neg this, getChild_eq]
    simp
  · rw [if_neg h1] at hc; cases hc

/-- The first turn on rank 0. -/
theorem turn_zero0 (E : Env) (hE : EnvOk E) (z : Nat) (rest : List Nat) (he : E.ents = z :: rest)
    (hz : FullKey E.D E.dim z) :
    ∃ s', turn E 0 ⟨Tbl.emplace (fun _ => none) Key.root {}, [], E.D, 0, Key.root, 0⟩ = some (s', false) ∧
      TInv E (fun y => y = z) [z] z s' := by
  have hdim := hE.hdim
  have hD := hE.hD
  have hAz : A E.dim (E.D - 1) z ≠ 0 := Nat.pos_iff_ne_zero.mp (A_pos hz (Nat.sub_le _ _))
  have hdig : A E.dim (E.D - 1) z = 1 * 2 ^ E.dim + A E.dim (E.D - 1) z % 2 ^ E.dim := by
    have := A_digit E.dim (E.D - 1) z
    rw [Nat.sub_add_cancel hD, show A E.dim E.D z = 1 from hz] at this
    exact this
  have hb : A E.dim (E.D - 1) z % 2 ^ E.dim < 2 ^ E.dim := Nat.mod_lt _ (Nat.pow_pos (by decide))
  let root : Cell := addChild {} (A E.dim (E.D - 1) z % 2 ^ E.dim)
  let t0 : Tbl := fun k => if k = 1 then some {} else none
  let t : Tbl := (t0.set 1 root).emplace (A E.dim (E.D - 1) z) { entityIdx := ((0 : Nat) : Int) }
  have hne1 : A E.dim (E.D - 1) z ≠ 1 := by
    rw [hdig]; exact child_ne hdim (by decide)
  have ht : ∀ k, t k = if k = A E.dim (E.D - 1) z then some { entityIdx := 0 } else if k = 1 then some root else none := by
    intro k
    show ((t0.set 1 root).emplace (A E.dim (E.D - 1) z) { entityIdx := ((0 : Nat) : Int) }) k = _
    rw [emplace_fresh _ (by rw [set_apply, if_neg hne1]; exact if_neg hne1), set_apply, set_apply]
    rcases Nat.decEq k (A E.dim (E.D - 1) z) with h1 | h1
    · rw [if_neg h1, if_neg h1]
      rcases Nat.decEq k 1 with h2 | h2
      · rw [if_neg h2, if_neg h2]; exact if_neg h2
      · rw [if_pos h2, if_pos h2]
    · rw [if_pos h1, if_pos h1]; rfl
  have hok : ChildOk E.dim t := by
    have h1 := childOk_link (p' := root) (new := { entityIdx := ((0 : Nat) : Int) }) (c := 1)
      (b := A E.dim (E.D - 1) z % 2 ^ E.dim) (t := t0) hdim (childOk_root hdim) (by decide) hb (if_pos rfl) rfl rfl
      (by rw [← hdig]; exact if_neg hne1) (by
        intro b' hb'
        rw [← hdig]
        apply if_neg
        have h2 : 2 ≤ 2 ^ E.dim := by
          calc 2 = 2 ^ 1 := rfl
            _ ≤ 2 ^ E.dim := Nat.pow_le_pow_right (by decide) hdim
        have := Nat.mul_le_mul (Nat.one_le_iff_ne_zero.mpr hAz) h2
        omega)
    rw [← hdig] at h1
    exact h1
  have hleaf : LeafAt E.D E.dim (fun y => y = z) z (E.D - 1) :=
    ⟨by omega, fun y hy _ => hy, Or.inl (by omega)⟩
  have hnode : ∀ c, Node E.D E.dim (fun y => y = z) c ↔ c = 1 := by
    intro c
    constructor
    · rintro (h | ⟨a, b, ha, hb, hne, -⟩)
      · exact h
      · exact absurd (ha.trans hb.symm) hne
    · exact Or.inl
  refine ⟨⟨t, [], E.D - 1, z, A E.dim (E.D - 1) z, Nat.max 0 (E.D - 1)⟩, ?_, ?_⟩
  · have hn : (E.iamlast && 0 == E.ents.length) = false := by rw [he]; simp
    rw [turn]
    dsimp only
    rw [hn, pop_some (Nat.le_refl _)]
    simp only [Option.bind_eq_bind, Option.bind_some]
    rw [ascend_still _ _ _ _ _ _ _ rfl (by
      show A E.dim E.D (E.ents.getD 0 E.hibound) = Key.root
      rw [he]; exact hz)]
    simp only [Option.bind_some, Bool.false_eq_true, if_false]
    rw [show E.ents.getD 0 E.hibound = z from by rw [he]; rfl]
    have hins : BuildTree.insert E 0 z 0 ⟨Tbl.emplace (fun _ => none) Key.root {}, [], E.D, A E.dim E.D z, Key.root⟩ =
        some (t, E.D - 1, A E.dim (E.D - 1) z) := by
      rw [BuildTree.insert]
      dsimp only
      rw [show Tbl.emplace (fun _ => none) Key.root {} Key.root = some {} from rfl]
      simp only [Option.bind_eq_bind, Option.bind_some]
      have hdesc : ∀ d, d = E.D - 1 + 1 → descend E z 0 d (Tbl.emplace (fun _ => none) Key.root {}) Key.root =
          some (Tbl.emplace (fun _ => none) Key.root {}, Key.root, E.D - 1, A E.dim (E.D - 1) z, A E.dim (E.D - 1) 0) := by
        rintro d rfl
        rw [descend, pop_some (Nat.sub_le _ _), pop_some (Nat.sub_le _ _)]
        simp only [Option.bind_eq_bind, Option.bind_some]
        rw [if_pos]
        rw [show A E.dim (E.D - 1) 0 = 0 from Nat.zero_div _]
        exact hAz
      rw [hdesc E.D (by omega)]
      simp only [Option.bind_some]
      rw [recover, if_neg (by simp)]
      simp only [Option.bind_some]
      rw [addEntity, if_pos (by rw [he]; simp)]
      rw [show Tbl.emplace (fun _ => none) Key.root {} Key.root = some {} from rfl]
      simp only [Option.bind_eq_bind, Option.bind_some]
      rw [lastValue_eq]
      rfl
    rw [hins]
    rfl
  · refine ⟨?_, rfl, fun y hy => Nat.le_of_eq hy, by simp, List.pairwise_singleton _ _, hleaf, rfl, rfl, ?_, ?_, ?_⟩
    · rintro y rfl; exact hz
    · refine ⟨?_, ?_, ?_, hok⟩
      · intro c cell hc
        have hc : t c = some cell := hc
        rw [ht] at hc
        by_cases h1 : c = A E.dim (E.D - 1) z
        · rw [if_pos h1] at hc
          cases hc
          exact Or.inr ⟨0, z, E.D - 1, rfl, hleaf, h1, rfl, rfl⟩
        · rw [if_neg h1] at hc
          by_cases h2 : c = 1
          · rw [if_pos h2] at hc
            cases hc
            exact Or.inl ⟨Or.inl h2, rfl⟩
          · rw [if_neg h2] at hc; cases hc
      · intro c hc
        rw [hnode] at hc
        subst hc
        refine ⟨root, ?_, rfl⟩
        show t 1 = some root
        rw [ht, if_neg (fun e => hne1 e.symm), if_pos rfl]
      · intro j y p hj hl
        cases j with
        | zero =>
          have hy : y = z := by simpa using hj.symm
          subst hy
          rw [leafAt_unique hl hleaf]
          refine ⟨{ entityIdx := 0 }, ?_, rfl, rfl⟩
          show t _ = _
          rw [ht, if_pos rfl]
        | succ j => simp at hj
    · intro c cell hc
      have hc : t c = some cell := hc
      have hn : cell.nodeIdx = -1 := by
        rw [ht] at hc
        split at hc
        · cases hc; rfl
        · split at hc
          · cases hc; rfl
          · cases hc
      constructor
      · intro h; exact absurd hn h
      · rintro ⟨hN, hcl, -⟩
        rw [hnode] at hN
        subst hN
        rcases hcl with hcl | ⟨q, hq, -⟩
        · exact absurd ⟨E.D, Nat.le_refl _, hz⟩ hcl
        · omega
    · refine ⟨?_, ?_⟩
      · intro c cell hc hne
        exfalso
        apply hne
        have hc : t c = some cell := hc
        rw [ht] at hc
        split at hc
        · cases hc; rfl
        · split at hc
          · cases hc; rfl
          · cases hc
      · intro m call hm; simp at hm

/-- The first turn on the other ranks. -/
theorem turn_zero1 (E : Env) (hE : EnvOk E) (hK : KeysOk E) (z : Nat) (rest : List Nat) (he : E.ents = z :: rest)
    (h0 : E.iam0 = false) :
    ∃ s', turn E 0 ⟨Tbl.emplace (fun _ => none) Key.root {}, [], E.D, E.lobound, Key.root, 0⟩ = some (s', false) ∧
      TInv E (fun y => y = E.lobound ∨ y = z) [z] z s' := by
  have hdim := hE.hdim
  have hz := hK.full z (by rw [he]; exact List.mem_cons_self)
  have hlz := hK.lo h0 z (by rw [he]; exact List.mem_cons_self)
  have hlo := hE.lo h0
  have hnode : ∀ c, Node E.D E.dim (fun y => y = E.lobound) c ↔ c = 1 := by
    intro c
    constructor
    · rintro (h | ⟨a, b, ha, hb, hne, -⟩)
      · exact h
      · exact absurd (ha.trans hb.symm) hne
    · exact Or.inl
  have hinv : SInv E (fun y => y = E.lobound) [] E.lobound E.D (Tbl.emplace (fun _ => none) Key.root {}) [] := by
    refine ⟨⟨?_, ?_, ?_, childOk_root hdim⟩, ?_, ?_, ?_⟩
    · intro c cell hc
      rw [tblRoot] at hc
      split at hc
      · cases hc
        rename_i h1
        exact Or.inl ⟨Or.inl h1, rfl⟩
      · cases hc
    · intro c hc
      rw [hnode] at hc
      subst hc
      exact ⟨{}, rfl, rfl⟩
    · intro j y p hj; simp at hj
    · intro c cell hc
      have hn : cell.nodeIdx = -1 := by
        rw [tblRoot] at hc
        split at hc
        · cases hc; rfl
        · cases hc
      constructor
      · intro h; exact absurd hn h
      · rintro ⟨hN, -, hcl, -⟩
        rw [hnode] at hN
        subst hN
        exact absurd ⟨E.D, Nat.le_refl _, hlo⟩ (hcl h0)
    · intro c cell hc hne
      exfalso
      apply hne
      rw [tblRoot] at hc
      split at hc
      · cases hc; rfl
      · cases hc
    · intro m call hm; simp at hm
  obtain ⟨t, p, hins, hleaf, hinv'⟩ := sinv_insert E hE (fun y => y = E.lobound) [] E.lobound z 0
    ⟨Tbl.emplace (fun _ => none) Key.root {}, [], E.D, A E.dim E.D z, Key.root⟩
    (by rintro y rfl; exact hlo) rfl (fun y hy => Nat.le_of_eq hy) hlz hz (Nat.le_refl _) (Eq.symm hlo)
    (by show A E.dim E.D E.lobound = A E.dim E.D z; rw [show A E.dim E.D E.lobound = 1 from hlo]; exact Eq.symm hz) hinv
    (by simp) (by simp) rfl (Or.inr (Or.inl ⟨rfl, fun y hy => hy, rfl⟩))
  rw [if_pos (by rw [he]; simp)] at hinv'
  refine ⟨⟨t, [], p, z, A E.dim p z, Nat.max 0 p⟩, ?_, ?_⟩
  · have hn : (E.iamlast && 0 == E.ents.length) = false := by rw [he]; simp
    rw [turn]
    dsimp only
    rw [hn, pop_some (Nat.le_refl _)]
    simp only [Option.bind_eq_bind, Option.bind_some]
    rw [ascend_still _ _ _ _ _ _ _ rfl (by
      show A E.dim E.D (E.ents.getD 0 E.hibound) = Key.root
      rw [he]; exact hz)]
    simp only [Option.bind_some, Bool.false_eq_true, if_false]
    rw [show E.ents.getD 0 E.hibound = z from by rw [he]; rfl]
    rw [hins]
    rfl
  · refine ⟨?_, Or.inr rfl, ?_, by simp, List.pairwise_singleton _ _, hleaf, rfl, rfl, hinv'⟩
    · rintro y (rfl | rfl)
      · exact hlo
      · exact hz
    · rintro y (rfl | rfl)
      · omega
      · exact Nat.le_refl _

/-- The keys a rank knows about after `build_tree`. -/
def Known (E : Env) (y : Nat) : Prop :=
  y ∈ E.ents ∨ (E.iam0 = false ∧ y = E.lobound) ∨ (E.iamlast = false ∧ y = E.hibound)

theorem turns_spec (E : Env) (hE : EnvOk E) (hK : KeysOk E) :
    ∀ (rest es : List Nat) (x : Nat) (s : St), E.ents = es ++ rest → 0 < es.length → es[es.length - 1]? = some x →
    TInv E (fun y => y ∈ es ∨ (E.iam0 = false ∧ y = E.lobound)) es x s →
    ∃ s' x' lvl, turns E (rest.length + 1) es.length s = some s' ∧
      SInv E (Known E) E.ents x' lvl s'.tbl s'.cofm ∧
      (if E.iamlast then FullKey E.D E.dim x' ∧ lvl = E.D + 1 else x' = E.hibound) := by
  intro rest
  induction rest with
  | nil =>
    intro es x s he hlen hlast h
    rw [List.append_nil] at he
    have hxm : x ∈ E.ents := by rw [he]; exact List.mem_of_getElem? hlast
    have hlox : E.iam0 = false → E.lobound ≤ x := fun h0 => Nat.le_of_lt (hK.lo h0 x hxm)
    cases hl : E.iamlast with
    | true =>
      obtain ⟨s', hs, hinv⟩ := turn_final E hE _ es x s h (by rw [he]) hl hlox
      refine ⟨s', x, E.D + 1, ?_, ?_, ?_⟩
      · rw [turns]
        simp only [List.length_nil, Option.bind_eq_bind]
        rw [hs]; rfl
      · have : (fun y => y ∈ es ∨ (E.iam0 = false ∧ y = E.lobound)) = Known E := by
          funext y
          rw [Known, he, hl]
          simp
        rw [this] at hinv
        rw [he]; exact hinv
      · rw [if_pos rfl]; exact ⟨h.full x h.mem, rfl⟩
    | false =>
      obtain ⟨s', hs, hinv⟩ := turn_next E hE _ es x E.hibound s h hlen hlast (by rw [he]; simp) (hE.hi hl)
        (hK.hi hl x hxm) (by rw [hl]; rfl) hlox (fun _ => Nat.le_of_lt (hK.hi hl x hxm))
      rw [if_neg (by rw [he]; exact Nat.lt_irrefl _)] at hinv
      refine ⟨s', E.hibound, 0, ?_, ?_, ?_⟩
      · rw [turns]
        simp only [List.length_nil, Option.bind_eq_bind]
        rw [hs]; rfl
      · have : (fun y => (y ∈ es ∨ (E.iam0 = false ∧ y = E.lobound)) ∨ y = E.hibound) = Known E := by
          funext y
          rw [Known, he, hl]
          simp [or_assoc]
        have := this ▸ hinv.inv
        rw [he]; exact this
      · rw [if_neg (by simp)]
  | cons z rest ih =>
    intro es x s he hlen hlast h
    have hxm : x ∈ E.ents := by rw [he]; exact List.mem_append_left _ (List.mem_of_getElem? hlast)
    have hzm : z ∈ E.ents := by rw [he]; simp
    have hlox : E.iam0 = false → E.lobound ≤ x := fun h0 => Nat.le_of_lt (hK.lo h0 x hxm)
    have hlt : es.length < E.ents.length := by rw [he]; simp
    have hxz : x < z := by
      have := hK.lt
      rw [he, List.pairwise_append] at this
      exact this.2.2 x (List.mem_of_getElem? hlast) z List.mem_cons_self
    obtain ⟨s', hs, hinv⟩ := turn_next E hE _ es x z s h hlen hlast (by rw [he]; simp) (hK.full z hzm) hxz
      (by have : ¬ es.length = E.ents.length := by omega
          simp [this]) hlox (fun h1 => Nat.le_of_lt (hK.hi h1 x hxm))
    rw [if_pos hlt] at hinv
    have hX : (fun y => (y ∈ es ∨ (E.iam0 = false ∧ y = E.lobound)) ∨ y = z) =
        (fun y => y ∈ es ++ [z] ∨ (E.iam0 = false ∧ y = E.lobound)) := by
      funext y
      simp only [List.mem_append, List.mem_singleton, eq_iff_iff]
      constructor <;> intro h <;> rcases h with (h | h) | h <;> simp [h]
    rw [hX] at hinv
    obtain ⟨s'', x', lvl, h1, h2, h3⟩ := ih (es ++ [z]) z s' (by rw [he]; simp) (by simp) (by simp) hinv
    refine ⟨s'', x', lvl, ?_, h2, h3⟩
    rw [turns]
    simp only [List.length_cons, Option.bind_eq_bind]
    rw [hs]
    simp only [Option.bind_some, Bool.false_eq_true, if_false]
    rw [List.length_append, List.length_singleton] at h1
    exact h1

/-- The whole of `build_tree` on one rank. -/
theorem build_spec (E : Env) (hE : EnvOk E) (hK : KeysOk E) (hne : E.ents ≠ []) :
    ∃ s x lvl, buildTree E = some s ∧ SInv E (Known E) E.ents x lvl s.tbl s.cofm ∧
      (if E.iamlast then FullKey E.D E.dim x ∧ lvl = E.D + 1 else x = E.hibound) := by
  obtain ⟨z, rest, he⟩ := List.exists_cons_of_ne_nil hne
  have hfirst : ∃ s', turn E 0 ⟨Tbl.emplace (fun _ => none) Key.root {}, [], E.D, if E.iam0 then 0 else E.lobound,
      Key.root, 0⟩ = some (s', false) ∧ TInv E (fun y => y ∈ [z] ∨ (E.iam0 = false ∧ y = E.lobound)) [z] z s' := by
    cases h0 : E.iam0 with
    | true =>
      obtain ⟨s', h1, h2⟩ := turn_zero0 E hE z rest he (hK.full z (by rw [he]; exact List.mem_cons_self))
      refine ⟨s', h1, ?_⟩
      have : (fun y => y = z) = (fun y => y ∈ [z] ∨ (true = false ∧ y = E.lobound)) := by
        funext y; simp
      rw [← this]; exact h2
    | false =>
      obtain ⟨s', h1, h2⟩ := turn_zero1 E hE hK z rest he h0
      refine ⟨s', h1, ?_⟩
      have : (fun y => y = E.lobound ∨ y = z) = (fun y => y ∈ [z] ∨ (false = false ∧ y = E.lobound)) := by
        funext y; simp [or_comm]
      rw [← this]; exact h2
  obtain ⟨s1, hs1, hinv1⟩ := hfirst
  obtain ⟨s, x, lvl, h1, h2, h3⟩ := turns_spec E hE hK rest [z] z s1 (by rw [he]; rfl) (by simp) (by simp) hinv1
  refine ⟨s, x, lvl, ?_, h2, h3⟩
  rw [buildTree, if_neg hne, show E.ents.length + 1 = (rest.length + 1) + 1 from by rw [he]; rfl, turns]
  simp only [Option.bind_eq_bind]
  rw [hs1]
  simp only [Option.bind_some, Bool.false_eq_true, if_false]
  exact h1

/-- On the last rank every node that does not reach the rank below is finished; on the others, those that reach neither
neighbour. -/
theorem build_fin (E : Env) (hE : EnvOk E) (hK : KeysOk E) (hne : E.ents ≠ []) :
    ∃ s, buildTree E = some s ∧ Canon E.D E.dim (Known E) E.ents s.tbl ∧ LogOk E.dim s.tbl s.cofm ∧
      ∀ c cell, s.tbl c = some cell → (cell.nodeIdx ≠ -1 ↔ Node E.D E.dim (Known E) c ∧
        (E.iam0 = false → ¬ H E.D E.dim c E.lobound) ∧ (E.iamlast = false → ¬ H E.D E.dim c E.hibound)) := by
  obtain ⟨s, x, lvl, h1, h2, h3⟩ := build_spec E hE hK hne
  refine ⟨s, h1, h2.canon, h2.log, ?_⟩
  intro c cell hc
  rw [h2.fin c cell hc, Closed]
  cases hl : E.iamlast with
  | true =>
    rw [if_pos hl] at h3
    constructor
    · rintro ⟨a, -, b, -⟩; exact ⟨a, b, by simp⟩
    · rintro ⟨a, b, -⟩
      refine ⟨a, ?_, b, by simp⟩
      by_cases hH : H E.D E.dim c x
      · obtain ⟨q, hq, he⟩ := hH
        exact Or.inr ⟨q, by omega, he.symm⟩
      · exact Or.inl hH
  | false =>
    rw [if_neg (by simp [hl])] at h3
    constructor
    · rintro ⟨a, -, b, d⟩; exact ⟨a, b, d⟩
    · rintro ⟨a, b, d⟩
      exact ⟨a, Or.inl (by rw [h3]; exact d rfl), b, d⟩

/-- Two equal keys in a row: the second inner loop runs past the deepest level. -/
theorem descend_dup (E : Env) (x : Nat) : ∀ (c : Nat) (t : Tbl) (p : Nat), descend E x x c t p = none
  | 0, _, _ => rfl
  | c + 1, t, p => by
    rw [descend]
    cases hp : BuildTree.pop E x c with
    | none => rfl
    | some k =>
      simp only [Option.bind_eq_bind, Option.bind_some]
      rw [if_neg (by simp)]
      cases t p with
      | none => rfl
      | some q =>
        simp only [Option.bind_some]
        cases setEntityIdx (addChild q (Key.lastValue E.dim k)) (-1) with
        | none => rfl
        | some q' => simp only [Option.bind_some]; exact descend_dup E x c _ _

end FleCSPH.Tree
