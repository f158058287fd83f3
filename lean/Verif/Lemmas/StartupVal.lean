import Verif.Lemmas.StartupRank
/-! The data of the cells after `build_tree`. -/
namespace FleCSPH.Startup
open FleCSPH.Spec FleCSPH.BuildTree FleCSPH.Tree FleCSPH.HCell FleCSPH.Ghosts FleCSPH.Cofm

variable {D dim : Nat} {V : Type} {X : Nat → Prop}

open Classical in
/-- The data of a cell, from the bottom up; the first number bounds the height. -/
noncomputable def valN (D dim : Nat) (X : Nat → Prop) (F : Nat → List V → List V → V) (val : Nat → V) : Nat → List Nat → V
  | 0, k => F (number dim k) [] []
  | n + 1, k =>
    if h : ∃ x, X x ∧ LeafP D dim X x k then val h.choose
    else F (number dim k)
      (((List.range (2 ^ dim)).filter fun j => decide ((globalTree D dim X (j :: k)).map GCell.ent = some true)).map fun j => valN D dim X F val n (j :: k))
      (((List.range (2 ^ dim)).filter fun j => decide ((globalTree D dim X (j :: k)).map GCell.ent = some false)).map fun j => valN D dim X F val n (j :: k))

/-- The data of a cell of the global tree. -/
noncomputable def valOf (D dim : Nat) (X : Nat → Prop) (F : Nat → List V → List V → V) (val : Nat → V) (k : List Nat) : V := valN D dim X F val (D + 1 - k.length) k

theorem cell_length {k : List Nat} (hk : InnerP D dim X k ∨ ∃ x, X x ∧ LeafP D dim X x k) : k.length ≤ D := by
  rcases hk with (h1 | ⟨x, y, hx, hy, -, h1, -⟩) | ⟨x, hx, h1⟩
  · rw [h1]; simp
  · have := h1.length_le; rwa [path_length] at this
  · have := h1.2.1.length_le; rwa [path_length] at this

theorem valOf_leaf (F : Nat → List V → List V → V) (val : Nat → V) {k : List Nat} {x : Nat} (hx : X x) (h : LeafP D dim X x k) : valOf D dim X F val k = val x := by
  have hl := cell_length (Or.inr ⟨x, hx, h⟩)
  obtain ⟨n, hn⟩ : ∃ n, D + 1 - k.length = n + 1 := ⟨D - k.length, by omega⟩
  have hex : ∃ x, X x ∧ LeafP D dim X x k := ⟨x, hx, h⟩
  rw [valOf, hn, valN, dif_pos hex]
  have := hex.choose_spec
  rw [h.2.2.1 _ this.1 this.2.2.1]

theorem valOf_inner (F : Nat → List V → List V → V) (val : Nat → V) {k : List Nat} (h : InnerP D dim X k) :
    valOf D dim X F val k = F (number dim k)
      (((List.range (2 ^ dim)).filter fun j => decide ((globalTree D dim X (j :: k)).map GCell.ent = some true)).map fun j => valOf D dim X F val (j :: k))
      (((List.range (2 ^ dim)).filter fun j => decide ((globalTree D dim X (j :: k)).map GCell.ent = some false)).map fun j => valOf D dim X F val (j :: k)) := by
  have hl := cell_length (Or.inl h)
  have hn : D + 1 - k.length = (D - k.length) + 1 := by omega
  have hne : ¬ ∃ x, X x ∧ LeafP D dim X x k := fun ⟨x, _, h'⟩ => innerP_not_leafP h h'
  conv_lhs => rw [valOf, hn, valN, dif_neg hne]
  have hc : ∀ j, valOf D dim X F val (j :: k) = valN D dim X F val (D - k.length) (j :: k) := by
    intro j
    rw [valOf, List.length_cons]
    congr 1
    omega
  simp only [hc]

theorem valOf_ok (hdim : 0 < dim) (hX : ∀ y, X y → FullKey D dim y) (F : Nat → List V → List V → V) (val : Nat → V) :
    ShareTable.ValOk (2 ^ dim) (globalTree D dim X) (fun k => F (ShareTable.code dim k)) (valOf D dim X F val) := by
  intro k g hg he
  rw [valOf_inner F val ((global_some hdim hX hg).2.1 he)]
  show _ = F (ShareTable.code dim k) _ _
  rw [code_eq]

theorem mapM_children {α : Type} (l : List Nat) (t : Nat → Option HCell.Cell) (p : HCell.Cell → Bool) (q : Nat → Bool) (g : HCell.Cell → Int) (w : Nat → α) (xs : List α)
    (h0 : ∀ b ∈ l, t b = none → q b = false)
    (h1 : ∀ b ∈ l, ∀ e, t b = some e → q b = p e)
    (h2 : ∀ b ∈ l, ∀ e, t b = some e → p e = true → 0 ≤ g e ∧ xs[(g e).toNat]? = some (w b)) :
    (((l.filterMap t).filter p).map g).mapM (at? xs) = some ((l.filter q).map w) := by
  induction l with
  | nil => rfl
  | cons b l ih =>
    have ih := ih (fun b hb => h0 b (List.mem_cons_of_mem _ hb)) (fun b hb => h1 b (List.mem_cons_of_mem _ hb)) (fun b hb => h2 b (List.mem_cons_of_mem _ hb))
    cases ht : t b with
    | none =>
      rw [List.filterMap_cons_none ht, List.filter_cons_of_neg (by rw [h0 b List.mem_cons_self ht]; decide)]
      exact ih
    | some e =>
      rw [List.filterMap_cons_some ht]
      have hq := h1 b List.mem_cons_self e ht
      by_cases hp : p e = true
      · obtain ⟨g1, g2⟩ := h2 b List.mem_cons_self e ht hp
        rw [List.filter_cons_of_pos hp, List.filter_cons_of_pos (hq.trans hp), List.map_cons, List.mapM_cons, ih, at?, if_pos g1, g2]
        rfl
      · rw [List.filter_cons_of_neg hp, List.filter_cons_of_neg (by rw [hq]; exact hp)]
        exact ih

variable {ks : List Nat} {t : Tbl} {cofm : List CofmCall}

/-- The nodes computed so far. -/
def Filled (D dim : Nat) (X : Nat → Prop) (F : Nat → List V → List V → V) (val : Nat → V) (cofm : List CofmCall) (acc : List V) : Prop :=
  ∀ (m : Nat) (call : CofmCall) (k : List Nat), m < acc.length → cofm[m]? = some call → Digits dim k → number dim k = call.key → acc[m]? = some (valOf D dim X F val k)

theorem eval_call (hdim : 0 < dim) (hX : ∀ y, X y → FullKey D dim y) (hks : ∀ x ∈ ks, X x) (h : RankTab D dim X ks t cofm) (F : Nat → List V → List V → V) (val : Nat → V)
    (acc : List V) (hacc : Filled D dim X F val cofm acc) {call : CofmCall} (hcall : cofm[acc.length]? = some call) :
    ∃ es ns k, call.ents.mapM (at? (ks.map val)) = some es ∧ call.nodes.mapM (at? acc) = some ns ∧ Digits dim k ∧ number dim k = call.key ∧
      F call.key es ns = valOf D dim X F val k := by
  obtain ⟨⟨cell, g1, g2⟩, g3, g4, g5, g6⟩ := h.log.ent _ _ hcall
  obtain ⟨k, hk, he⟩ := h.num call.key (by rw [g1]; rfl)
  rw [he] at g1 g3 g4 g5
  obtain ⟨hin, hall⟩ := (h.node k cell hk g1).mp (by rw [g2]; omega)
  have hkids : ∀ b ∈ List.range (2 ^ dim), Digits dim (b :: k) := by
    intro b hb j hj
    rcases List.mem_cons.mp hj with rfl | hj
    · exact List.mem_range.mp hb
    · exact hk j hj
  have hnum : ∀ b, number dim k * 2 ^ dim + b = number dim (b :: k) := fun b => rfl
  -- a missing child holds nothing
  have hnone : ∀ b ∈ List.range (2 ^ dim), t (number dim (b :: k)) = none → globalTree D dim X (b :: k) = none := by
    intro b hb ht
    rw [← Option.not_isSome_iff_eq_none, global_isSome hdim hX]
    rintro ⟨-, (h1 | ⟨x, y, hx, hy, hxy, h1, h2⟩) | ⟨x, hx, h1⟩⟩
    · cases h1
    · have := h.inner (b :: k) x (Or.inr ⟨x, y, hx, hy, hxy, h1, h2⟩) (hall x hx ((List.suffix_cons _ _).trans h1)) h1
      rw [ht] at this; cases this
    · have := h.leaf (b :: k) x h1 (hall x hx ((List.suffix_cons _ _).trans h1.2.1))
      rw [ht] at this; cases this
  have hmem : ∀ b ∈ List.range (2 ^ dim), ∀ e, t (number dim (b :: k)) = some e → e ∈ childCells dim t (number dim k) := by
    intro b hb e hbe
    rw [childCells, List.mem_filterMap]
    exact ⟨b, hb, by rw [hnum]; exact hbe⟩
  have hent : ∀ b ∈ List.range (2 ^ dim), ∀ e, t (number dim (b :: k)) = some e → e.nodeIdx = -1 →
      ∃ (j x : Nat), ks[j]? = some x ∧ LeafP D dim X x (b :: k) ∧ e.entityIdx = j := by
    intro b hb e hbe hn
    rcases h.kind _ _ (hkids b hb) hbe with ⟨-, h1⟩ | ⟨j, x, h1, h2, h3, -⟩
    · rcases g3 e (hmem b hb e hbe) with h2 | h2
      · exact absurd hn h2
      · exact absurd h1 h2
    · exact ⟨j, x, h1, h2, h3⟩
  have hnode : ∀ b ∈ List.range (2 ^ dim), ∀ e, t (number dim (b :: k)) = some e → e.nodeIdx ≠ -1 → InnerP D dim X (b :: k) :=
    fun b hb e hbe hn => ((h.node _ _ (hkids b hb) hbe).mp hn).1
  have gent : ∀ b ∈ List.range (2 ^ dim), ∀ e, t (number dim (b :: k)) = some e → e.nodeIdx = -1 → (globalTree D dim X (b :: k)).map GCell.ent = some true := by
    intro b hb e hbe hn
    obtain ⟨j, x, h1, h2, -⟩ := hent b hb e hbe hn
    obtain ⟨g, hg, hge⟩ := (isEnt_iff hdim hX).mpr ⟨hkids b hb, x, hks x (List.mem_of_getElem? h1), h2⟩
    rw [hg, Option.map_some, hge]
  have gnode : ∀ b ∈ List.range (2 ^ dim), ∀ e, t (number dim (b :: k)) = some e → e.nodeIdx ≠ -1 → (globalTree D dim X (b :: k)).map GCell.ent = some false := by
    intro b hb e hbe hn
    have hi := hnode b hb e hbe hn
    obtain ⟨g, hg⟩ := Option.isSome_iff_exists.mp ((global_isSome hdim hX).mpr ⟨hkids b hb, Or.inl hi⟩)
    rw [hg, Option.map_some]
    congr 1
    cases hge : g.ent with
    | false => rfl
    | true =>
      obtain ⟨x, -, hx⟩ := (global_some hdim hX hg).2.2.1 hge
      exact (innerP_not_leafP hi hx).elim
  refine ⟨((List.range (2 ^ dim)).filter fun j => decide ((globalTree D dim X (j :: k)).map GCell.ent = some true)).map fun j => valOf D dim X F val (j :: k),
    ((List.range (2 ^ dim)).filter fun j => decide ((globalTree D dim X (j :: k)).map GCell.ent = some false)).map fun j => valOf D dim X F val (j :: k), k, ?_, ?_, hk, he.symm, ?_⟩
  rotate_left 2
  · rw [valOf_inner F val hin, he]
  · rw [g4, childCells]
    simp only [hnum]
    apply mapM_children
    · intro b hb ht
      rw [hnone b hb ht]; rfl
    · intro b hb e hbe
      by_cases hn : e.nodeIdx = -1
      · rw [gent b hb e hbe hn]; simp [hn]
      · rw [gnode b hb e hbe hn]; simp [hn]
    · intro b hb e hbe hp
      have hn : e.nodeIdx = -1 := by simpa using hp
      obtain ⟨j, x, h1, h2, h3⟩ := hent b hb e hbe hn
      refine ⟨by omega, ?_⟩
      rw [h3, Int.toNat_natCast, List.getElem?_map, h1, valOf_leaf F val (hks x (List.mem_of_getElem? h1)) h2]; rfl
  · rw [g5, childCells]
    simp only [hnum]
    apply mapM_children
    · intro b hb ht
      rw [hnone b hb ht]; rfl
    · intro b hb e hbe
      by_cases hn : e.nodeIdx = -1
      · rw [gent b hb e hbe hn]; simp [hn]
      · rw [gnode b hb e hbe hn]; simp [hn]
    · intro b hb e hbe hp
      have hn : e.nodeIdx ≠ -1 := by simpa using hp
      obtain ⟨m, call', h1, h2, h3⟩ := h.log.idx _ _ hbe hn
      have hlt := g6 e.nodeIdx (by
        rw [g5]
        exact List.mem_map_of_mem (List.mem_filter.mpr ⟨hmem b hb e hbe, by simpa using hn⟩))
      refine ⟨by omega, ?_⟩
      rw [h2, Int.toNat_natCast]
      exact hacc m call' (b :: k) (by omega) h1 (hkids b hb) h3.symm

theorem evalCalls_spec (hdim : 0 < dim) (hX : ∀ y, X y → FullKey D dim y) (hks : ∀ x ∈ ks, X x) (h : RankTab D dim X ks t cofm) (F : Nat → List V → List V → V) (val : Nat → V) :
    ∀ (rest : List CofmCall) (acc : List V) (done : List CofmCall), cofm = done ++ rest → acc.length = done.length → Filled D dim X F val cofm acc →
      ∃ nodes, evalCalls F (ks.map val) rest acc = some nodes ∧ nodes.length = cofm.length ∧ Filled D dim X F val cofm nodes := by
  intro rest
  induction rest with
  | nil =>
    intro acc done hd hl hacc
    exact ⟨acc, rfl, by rw [hl, hd, List.append_nil], hacc⟩
  | cons call rest ih =>
    intro acc done hd hl hacc
    have hcall : cofm[acc.length]? = some call := by rw [hd, hl]; simp
    obtain ⟨es, ns, k, h1, h2, h3, h4, h5⟩ := eval_call hdim hX hks h F val acc hacc hcall
    rw [evalCalls, h1, h2]
    apply ih (acc ++ [F call.key es ns]) (done ++ [call]) (by rw [hd]; simp) (by simp [hl])
    intro m call' k' hm hc hk he
    rw [List.length_append, List.length_singleton] at hm
    rcases Nat.lt_or_ge m acc.length with hlt | hge
    · rw [List.getElem?_append_left hlt]
      exact hacc m call' k' hlt hc hk he
    · have hme : m = acc.length := by omega
      subst hme
      rw [hcall] at hc; cases hc
      have : k' = k := number_inj hdim hk h3 (he.trans h4.symm)
      rw [this, ← h5]; simp

end FleCSPH.Startup
