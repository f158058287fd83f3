import Verif.Lemmas.Cofm
/-! The summaries computed by `build_tree`: the particles below a cell are split among its children. -/
namespace FleCSPH.Cofm
open FleCSPH.Geometry FleCSPH.BuildTree FleCSPH.Spec FleCSPH.HCell FleCSPH.Tree

variable {D dim d : Nat}

open Classical in
theorem mem_below {ks : List Nat} {c j : Nat} : j ∈ below D dim ks c ↔ ∃ x, ks[j]? = some x ∧ H D dim c x := by
  unfold below
  rw [Finset.mem_filter, Finset.mem_range]
  constructor
  · rintro ⟨-, h⟩; exact h
  · rintro ⟨x, hx, h⟩; exact ⟨(List.getElem?_eq_some_iff.mp hx).1, x, hx, h⟩

/-- A node lies above the full-depth level. -/
theorem node_level {X : Nat → Prop} (hdim : 0 < dim) (hD : 0 < D) (hX : ∀ y, X y → FullKey D dim y) {c : Nat}
    (hN : Tree.Node D dim X c) : ∃ p, p + 1 ≤ D ∧ ∀ x, FullKey D dim x → H D dim c x → A dim (p + 1) x = c := by
  rcases hN with rfl | ⟨a, b, ha, hb, hne, q, hq, h1, h2⟩
  · refine ⟨D - 1, by omega, ?_⟩
    intro x hx _
    rw [Nat.sub_add_cancel hD]; exact hx
  · have hq0 : q ≠ 0 := by
      rintro rfl
      rw [A_zero] at h1 h2
      exact hne (h1.trans h2.symm)
    refine ⟨q - 1, by omega, ?_⟩
    rintro x hx ⟨r, hr, he⟩
    have := level_unique hdim hx (hX a ha) hr hq (he.trans h1.symm)
    rw [Nat.sub_add_cancel (by omega), ← this]; exact he

theorem below_child {ks : List Nat} {c p : Nat} (hdim : 0 < dim) (hc : 0 < c) (hp : p + 1 ≤ D)
    (hfull : ∀ x ∈ ks, FullKey D dim x) (hlev : ∀ x, FullKey D dim x → H D dim c x → A dim (p + 1) x = c) (b : Nat)
    (hb : b < 2 ^ dim) :
    (below D dim ks c).filter (fun j => A dim p (ks.getD j 0) % 2 ^ dim = b) = below D dim ks (c * 2 ^ dim + b) := by
  ext j
  rw [Finset.mem_filter, mem_below, mem_below]
  constructor
  · rintro ⟨⟨x, hx, hH⟩, hg⟩
    refine ⟨x, hx, p, by omega, ?_⟩
    have h1 := hlev x (hfull x (List.mem_of_getElem? hx)) hH
    rw [List.getD_eq_getElem?_getD, hx, Option.getD_some] at hg
    rw [A_digit, h1, hg]
  · rintro ⟨x, hx, hH⟩
    have hfx := hfull x (List.mem_of_getElem? hx)
    obtain ⟨q, hq, h1, h2⟩ := H_parent hdim hfx hc hb hH
    have hHc : H D dim c x := ⟨q + 1, hq, h2⟩
    refine ⟨⟨x, hx, hHc⟩, ?_⟩
    have h3 := hlev x hfx hHc
    have h4 := level_unique hdim hfx hfx hq hp (h2.trans h3.symm)
    have h5 : q = p := by omega
    subst h5
    rw [List.getD_eq_getElem?_getD, hx, Option.getD_some, h1, Nat.mul_comm c, Nat.mul_add_mod, Nat.mod_eq_of_lt hb]

theorem sum_range_list {M : Type} [AddCommMonoid M] (f : Nat → M) (n : Nat) :
    ∑ i ∈ Finset.range n, f i = ((List.range n).map f).sum := by
  induction n with
  | zero => rfl
  | succ n ih => rw [Finset.sum_range_succ, List.range_succ, List.map_append, List.sum_append, ih]; simp

theorem sum_children {ks : List Nat} {c p : Nat} (hdim : 0 < dim) (hc : 0 < c) (hp : p + 1 ≤ D)
    (hfull : ∀ x ∈ ks, FullKey D dim x) (hlev : ∀ x, FullKey D dim x → H D dim c x → A dim (p + 1) x = c)
    {M : Type} [AddCommMonoid M] (f : Nat → M) :
    ∑ j ∈ below D dim ks c, f j = ((List.range (2 ^ dim)).map fun b => ∑ j ∈ below D dim ks (c * 2 ^ dim + b), f j).sum := by
  rw [← sum_range_list, ← Finset.sum_fiberwise_of_maps_to (s := below D dim ks c) (t := Finset.range (2 ^ dim))
    (g := fun j => A dim p (ks.getD j 0) % 2 ^ dim)]
  · apply Finset.sum_congr rfl
    intro b hb
    rw [below_child hdim hc hp hfull hlev b (Finset.mem_range.mp hb)]
  · intro j _
    exact Finset.mem_range.mpr (Nat.mod_lt _ (Nat.pow_pos (by decide)))

theorem children_list {M : Type} [AddCommMonoid M] (f : Nat → M) (t : Tbl) (S : Nat → Finset Nat) (B : Nat → Finset Nat) (c : Nat)
    (l : List Nat)
    (h0 : ∀ b ∈ l, t (c * 2 ^ dim + b) = none → S b = ∅)
    (h1 : ∀ b ∈ l, ∀ e, t (c * 2 ^ dim + b) = some e → e.nodeIdx = -1 → S b = {e.entityIdx.toNat})
    (h2 : ∀ b ∈ l, ∀ e, t (c * 2 ^ dim + b) = some e → e.nodeIdx ≠ -1 → S b = B e.nodeIdx.toNat) :
    (l.map fun b => ∑ j ∈ S b, f j).sum =
      (((l.filterMap fun b => t (c * 2 ^ dim + b)).filter (fun e => e.nodeIdx == -1)).map fun e => f e.entityIdx.toNat).sum +
      (((l.filterMap fun b => t (c * 2 ^ dim + b)).filter (fun e => e.nodeIdx != -1)).map
        fun e => ∑ j ∈ B e.nodeIdx.toNat, f j).sum := by
  induction l with
  | nil => simp
  | cons b l ih =>
    have ih := ih (fun b hb => h0 b (List.mem_cons_of_mem _ hb)) (fun b hb => h1 b (List.mem_cons_of_mem _ hb))
      (fun b hb => h2 b (List.mem_cons_of_mem _ hb))
    rw [List.map_cons, List.sum_cons, ih]
    cases ht : t (c * 2 ^ dim + b) with
    | none =>
      rw [show List.filterMap (fun b => t (c * 2 ^ dim + b)) (b :: l) = List.filterMap (fun b => t (c * 2 ^ dim + b)) l from
        List.filterMap_cons_none ht, h0 b List.mem_cons_self ht, Finset.sum_empty, zero_add]
    | some e =>
      rw [show List.filterMap (fun b => t (c * 2 ^ dim + b)) (b :: l) = e :: List.filterMap (fun b => t (c * 2 ^ dim + b)) l from
        List.filterMap_cons_some ht]
      by_cases hn : e.nodeIdx = -1
      · rw [h1 b List.mem_cons_self e ht hn, Finset.sum_singleton]
        simp [hn, add_assoc]
      · rw [h2 b List.mem_cons_self e ht hn]
        simp [hn]
        rw [add_left_comm]


theorem mapM_at {α β : Type} (l : List α) (xs : List β) (g : β → Int) (F : β → α)
    (h : ∀ e ∈ xs, 0 ≤ g e ∧ l[(g e).toNat]? = some (F e)) : (xs.map g).mapM (at? l) = some (xs.map F) := by
  induction xs with
  | nil => rfl
  | cons e xs ih =>
    have he := h e List.mem_cons_self
    rw [List.map_cons, List.mapM_cons, ih (fun e he => h e (List.mem_cons_of_mem _ he)), at?, if_pos he.1, he.2]
    rfl

/-- The particles summarised by call `m`. -/
noncomputable def callSet (E : Env) (cofm : List CofmCall) (m : Nat) : Finset Nat :=
  match cofm[m]? with
  | some call => below E.D E.dim E.ents call.key
  | none => ∅

/-- The state of `cofm_` after the first calls. -/
def AccOk (big : ℝ) (E : Env) (cofm : List CofmCall) (body : Nat → Body d) (acc : List (Node d)) : Prop :=
  ∀ m < acc.length, ∃ N, acc[m]? = some N ∧ Summarises body (callSet E cofm m) N ∧ 0 ≤ N.radius ∧
    BoxTight big body (callSet E cofm m) N

variable {E : Env} {t : Tbl} {cofm : List CofmCall}

theorem eval_step (big : ℝ) (hE : EnvOk E) (hK : KeysOk E) (hne : E.ents ≠ [])
    (hcan : Canon E.D E.dim (Known E) E.ents t) (hlog : LogOk E.dim t cofm)
    (hfin : ∀ c cell, t c = some cell → (cell.nodeIdx ≠ -1 ↔ Tree.Node E.D E.dim (Known E) c ∧
        (E.iam0 = false → ¬ H E.D E.dim c E.lobound) ∧ (E.iamlast = false → ¬ H E.D E.dim c E.hibound)))
    (hKn : ∀ y, Known E y → FullKey E.D E.dim y)
    (bodies : List (Body d)) (hlen : bodies.length = E.ents.length) (hmass : ∀ b ∈ bodies, 0 < b.mass)
    (acc : List (Node d)) (hacc : AccOk big E cofm (bodyAt bodies) acc) (call : CofmCall) (hcall : cofm[acc.length]? = some call) :
    ∃ es ns N, call.ents.mapM (at? bodies) = some es ∧ call.nodes.mapM (at? acc) = some ns ∧
      computeCofm big es ns = some N ∧ Summarises (bodyAt bodies) (callSet E cofm acc.length) N ∧ 0 ≤ N.radius ∧
      BoxTight big (bodyAt bodies) (callSet E cofm acc.length) N := by
  have hdim := hE.hdim
  obtain ⟨⟨cell, g1, g2⟩, g3, g4, g5, g6⟩ := hlog.ent _ _ hcall
  obtain ⟨hN, hlo, hhi⟩ := (hfin _ _ g1).mp (by rw [g2]; omega)
  have hcpos := node_pos hKn hN
  obtain ⟨p, hp, hlev⟩ := node_level hdim hE.hD hKn hN
  have hS : callSet E cofm acc.length = below E.D E.dim E.ents call.key := by rw [callSet, hcall]
  -- the particles of a child
  have hbody : ∀ (j x : Nat), E.ents[j]? = some x → bodies[j]? = some (bodyAt bodies j) := by
    intro j x hj
    have h1 := (List.getElem?_eq_some_iff.mp hj).1
    rw [bodyAt, List.getD_eq_getElem?_getD, List.getElem?_eq_getElem (by omega)]; rfl
  have hc0 : ∀ b ∈ List.range (2 ^ E.dim), t (call.key * 2 ^ E.dim + b) = none →
      below E.D E.dim E.ents (call.key * 2 ^ E.dim + b) = ∅ := by
    intro b hb ht
    rw [List.mem_range] at hb
    rw [Finset.eq_empty_iff_forall_notMem]
    intro j hj
    obtain ⟨x, hx, hH⟩ := mem_below.mp hj
    have hxm := List.mem_of_getElem? hx
    have hfx := hK.full x hxm
    obtain ⟨q, hq, h1, h2⟩ := H_parent hdim hfx hcpos hb hH
    by_cases hother : ∃ y, Known E y ∧ y ≠ x ∧ A E.dim q y = A E.dim q x
    · obtain ⟨y, hy, hyx, hye⟩ := hother
      obtain ⟨cell', h3, -⟩ := hcan.node (call.key * 2 ^ E.dim + b)
        (Or.inr ⟨y, x, hy, Or.inl hxm, hyx, q, by omega, hye.trans h1, h1⟩)
      rw [ht] at h3; cases h3
    · have hl : LeafAt E.D E.dim (Known E) x q := by
        refine ⟨by omega, ?_, ?_⟩
        · intro y hy he
          apply Classical.byContradiction
          intro hyx
          exact hother ⟨y, hy, hyx, he⟩
        · rcases hN with h3 | ⟨a, a', ha, ha', haa, r, hr, h3, h4⟩
          · left
            exact (A_eq_one hdim hfx hq).mp (h2.trans h3)
          · right
            have hrq := level_unique hdim (hKn a ha) hfx hr hq (h3.trans h2.symm)
            subst hrq
            by_cases hax : a = x
            · exact ⟨a', ha', fun e => haa (hax.trans e.symm), h4.trans h2.symm⟩
            · exact ⟨a, ha, hax, h3.trans h2.symm⟩
      obtain ⟨cell', h3, -⟩ := hcan.leaf j x q hx hl
      rw [h1, ht] at h3; cases h3
  have hleafidx : ∀ b ∈ List.range (2 ^ E.dim), ∀ e, t (call.key * 2 ^ E.dim + b) = some e → e.nodeIdx = -1 →
      ∃ (j y q : Nat), E.ents[j]? = some y ∧ LeafAt E.D E.dim (Known E) y q ∧ call.key * 2 ^ E.dim + b = A E.dim q y ∧
        e.entityIdx = j := by
    intro b hb e he hn
    have hmem : e ∈ childCells E.dim t call.key := by
      rw [childCells, List.mem_filterMap]; exact ⟨b, hb, he⟩
    have hset := (g3 e hmem).resolve_left (fun h => h hn)
    rcases hcan.some_ _ _ he with ⟨-, h1⟩ | ⟨j, y, q, h1, h2, h3, h4, -⟩
    · exact absurd h1 hset
    · exact ⟨j, y, q, h1, h2, h3, h4⟩
  have hc1 : ∀ b ∈ List.range (2 ^ E.dim), ∀ e, t (call.key * 2 ^ E.dim + b) = some e → e.nodeIdx = -1 →
      below E.D E.dim E.ents (call.key * 2 ^ E.dim + b) = {e.entityIdx.toNat} := by
    intro b hb e he hn
    obtain ⟨j, y, q, h1, h2, h3, h4⟩ := hleafidx b hb e he hn
    have hq := h2.1
    ext i
    rw [Finset.mem_singleton, mem_below, h4, Int.toNat_natCast, h3]
    constructor
    · rintro ⟨x, hx, hH⟩
      have hxm := List.mem_of_getElem? hx
      rw [H_iff hdim (hK.full y (List.mem_of_getElem? h1)) (hK.full x hxm) (by omega)] at hH
      have := h2.2.1 x (Or.inl hxm) hH
      subst this
      exact pairwise_idx hK.lt hx h1
    · rintro rfl
      exact ⟨y, h1, q, by omega, rfl⟩
  have hnodeidx : ∀ b ∈ List.range (2 ^ E.dim), ∀ e, t (call.key * 2 ^ E.dim + b) = some e → e.nodeIdx ≠ -1 →
      ∃ (m : Nat) (call' : CofmCall), cofm[m]? = some call' ∧ e.nodeIdx = m ∧ call'.key = call.key * 2 ^ E.dim + b ∧
        m < acc.length := by
    intro b hb e he hn
    obtain ⟨m, call', h1, h2, h3⟩ := hlog.idx _ _ he hn
    refine ⟨m, call', h1, h2, h3, ?_⟩
    have hmem : e ∈ childCells E.dim t call.key := by
      rw [childCells, List.mem_filterMap]; exact ⟨b, hb, he⟩
    have := g6 e.nodeIdx (by
      rw [g5]
      exact List.mem_map_of_mem (List.mem_filter.mpr ⟨hmem, by simpa using hn⟩))
    omega
  have hc2 : ∀ b ∈ List.range (2 ^ E.dim), ∀ e, t (call.key * 2 ^ E.dim + b) = some e → e.nodeIdx ≠ -1 →
      below E.D E.dim E.ents (call.key * 2 ^ E.dim + b) = callSet E cofm e.nodeIdx.toNat := by
    intro b hb e he hn
    obtain ⟨m, call', h1, h2, h3, -⟩ := hnodeidx b hb e he hn
    rw [h2, Int.toNat_natCast, callSet, h1, ← h3]
  -- the two lists
  let leaves := (childCells E.dim t call.key).filter (fun e => e.nodeIdx == -1)
  let inner := (childCells E.dim t call.key).filter (fun e => e.nodeIdx != -1)
  have hleaves : ∀ e ∈ leaves, ∃ (j y : Nat), E.ents[j]? = some y ∧ e.entityIdx = j := by
    intro e he
    obtain ⟨he1, he2⟩ := List.mem_filter.mp he
    rw [childCells, List.mem_filterMap] at he1
    obtain ⟨b, hb, he1⟩ := he1
    obtain ⟨j, y, q, h1, -, -, h4⟩ := hleafidx b hb e he1 (by simpa using he2)
    exact ⟨j, y, h1, h4⟩
  have hinner : ∀ e ∈ inner, ∃ m : Nat, e.nodeIdx = m ∧ m < acc.length := by
    intro e he
    obtain ⟨he1, he2⟩ := List.mem_filter.mp he
    rw [childCells, List.mem_filterMap] at he1
    obtain ⟨b, hb, he1⟩ := he1
    obtain ⟨m, call', -, h2, -, h4⟩ := hnodeidx b hb e he1 (by simpa using he2)
    exact ⟨m, h2, h4⟩
  have hes : call.ents.mapM (at? bodies) = some ((leaves.map fun e => e.entityIdx.toNat).map (bodyAt bodies)) := by
    rw [g4, List.map_map]
    apply mapM_at
    intro e he
    obtain ⟨j, y, h1, h2⟩ := hleaves e he
    rw [h2]
    refine ⟨by omega, ?_⟩
    show bodies[j]? = some (bodyAt bodies (e.entityIdx.toNat))
    rw [h2]
    exact hbody j y h1
  have hget : ∀ e ∈ inner, acc[e.nodeIdx.toNat]? = some (acc.getD e.nodeIdx.toNat ⟨0, 0, 0, 0, 0, 0, 0⟩) := by
    intro e he
    obtain ⟨m, h1, h2⟩ := hinner e he
    rw [h1, Int.toNat_natCast, List.getD_eq_getElem?_getD, List.getElem?_eq_getElem h2]; rfl
  let ns : List (Finset Nat × Node d) :=
    inner.map fun e => (callSet E cofm e.nodeIdx.toNat, acc.getD e.nodeIdx.toNat ⟨0, 0, 0, 0, 0, 0, 0⟩)
  have hnsm : call.nodes.mapM (at? acc) = some (ns.map Prod.snd) := by
    rw [g5, List.map_map]
    apply mapM_at
    intro e he
    obtain ⟨m, h1, h2⟩ := hinner e he
    exact ⟨by rw [h1]; omega, hget e he⟩
  have hnonempty : (callSet E cofm acc.length).Nonempty := by
    rw [hS]
    obtain ⟨x, hx, hH⟩ : ∃ x ∈ E.ents, H E.D E.dim call.key x := by
      rcases hN with h1 | ⟨a, _, ha, -, -, r, hr, h1, -⟩
      · obtain ⟨x, l, he⟩ := List.exists_cons_of_ne_nil hne
        have hx : x ∈ E.ents := by rw [he]; exact List.mem_cons_self
        exact ⟨x, hx, E.D, Nat.le_refl _, by rw [h1]; exact hK.full x hx⟩
      · rcases ha with ha | ⟨h0, rfl⟩ | ⟨h0, rfl⟩
        · exact ⟨a, ha, r, hr, h1⟩
        · exact absurd ⟨r, hr, h1⟩ (hlo h0)
        · exact absurd ⟨r, hr, h1⟩ (hhi h0)
    obtain ⟨j, hj⟩ := List.mem_iff_getElem?.mp hx
    exact ⟨j, mem_below.mpr ⟨x, hj, hH⟩⟩
  have hsum : ∀ (M : Type) [AddCommMonoid M] (f : Nat → M), ∑ j ∈ callSet E cofm acc.length, f j =
      ((leaves.map fun e => e.entityIdx.toNat).map f).sum + (ns.map fun n => ∑ j ∈ n.1, f j).sum := by
    intro M _ f
    rw [hS, sum_children hdim hcpos hp hK.full hlev f,
      children_list (dim := E.dim) f t (fun b => below E.D E.dim E.ents (call.key * 2 ^ E.dim + b)) (callSet E cofm) call.key
        (List.range (2 ^ E.dim)) hc0 hc1 hc2, List.map_map, List.map_map]
    rfl
  obtain ⟨N, hN1, hN2, hN3⟩ := computeCofm_spec big (bodyAt bodies) (callSet E cofm acc.length)
    (leaves.map fun e => e.entityIdx.toNat) ns (by
      intro n hn
      obtain ⟨e, he, rfl⟩ := List.mem_map.mp hn
      obtain ⟨m, h1, h2⟩ := hinner e he
      obtain ⟨N, a1, a2, a3⟩ := hacc m h2
      have : acc.getD e.nodeIdx.toNat ⟨0, 0, 0, 0, 0, 0, 0⟩ = N := by
        rw [h1, Int.toNat_natCast, List.getD_eq_getElem?_getD, a1]; rfl
      dsimp only
      rw [this, h1, Int.toNat_natCast]
      exact ⟨a2, a3⟩) hsum (by
      intro j hj
      apply Classical.byContradiction
      intro hcon
      rw [not_or] at hcon
      -- count the particle j
      have h1 := hsum ℕ (fun i => if i = j then 1 else 0)
      rw [Finset.sum_ite_eq', if_pos hj] at h1
      have h2 : ((leaves.map fun e => e.entityIdx.toNat).map (fun i => if i = j then 1 else 0)).sum = 0 := by
        apply List.sum_eq_zero
        intro x hx
        obtain ⟨i, hi, rfl⟩ := List.mem_map.mp hx
        rw [if_neg]
        rintro rfl
        exact hcon.1 hi
      have h3 : (ns.map fun n => ∑ i ∈ n.1, (if i = j then 1 else 0)).sum = 0 := by
        apply List.sum_eq_zero
        intro x hx
        obtain ⟨n, hn, rfl⟩ := List.mem_map.mp hx
        rw [Finset.sum_ite_eq', if_neg]
        intro hjn
        exact hcon.2 ⟨n, hn, hjn⟩
      omega) (by
      intro j hj
      rw [hS] at hj
      obtain ⟨x, hx, -⟩ := mem_below.mp hj
      exact hmass _ (List.mem_of_getElem? (hbody j x hx))) hnonempty
  exact ⟨_, _, N, hes, hnsm, hN1, hN2, hN3⟩

theorem evalLog_spec (big : ℝ) (hE : EnvOk E) (hK : KeysOk E) (hne : E.ents ≠ [])
    (hcan : Canon E.D E.dim (Known E) E.ents t) (hlog : LogOk E.dim t cofm)
    (hfin : ∀ c cell, t c = some cell → (cell.nodeIdx ≠ -1 ↔ Tree.Node E.D E.dim (Known E) c ∧
        (E.iam0 = false → ¬ H E.D E.dim c E.lobound) ∧ (E.iamlast = false → ¬ H E.D E.dim c E.hibound)))
    (hKn : ∀ y, Known E y → FullKey E.D E.dim y)
    (bodies : List (Body d)) (hlen : bodies.length = E.ents.length) (hmass : ∀ b ∈ bodies, 0 < b.mass) :
    ∀ (calls pre : List CofmCall) (acc : List (Node d)), cofm = pre ++ calls → pre.length = acc.length →
    AccOk big E cofm (bodyAt bodies) acc →
    ∃ nodes, evalLog big bodies calls acc = some nodes ∧ nodes.length = cofm.length ∧ AccOk big E cofm (bodyAt bodies) nodes := by
  intro calls
  induction calls with
  | nil =>
    intro pre acc he hl hacc
    rw [List.append_nil] at he
    exact ⟨acc, rfl, by rw [he, hl], hacc⟩
  | cons call calls ih =>
    intro pre acc he hl hacc
    have hcall : cofm[acc.length]? = some call := by rw [he, ← hl]; simp
    obtain ⟨es, ns, N, h1, h2, h3, h4, h5⟩ := eval_step big hE hK hne hcan hlog hfin hKn bodies hlen hmass acc hacc call hcall
    rw [evalLog, h1, h2]
    simp only [Option.bind_eq_bind, Option.bind_some]
    rw [h3]
    simp only [Option.bind_some]
    apply ih (pre ++ [call]) (acc ++ [N]) (by rw [he]; simp) (by simp [hl])
    intro m hm
    rw [List.length_append, List.length_singleton] at hm
    rcases Nat.lt_or_ge m acc.length with h6 | h6
    · rw [List.getElem?_append_left h6]; exact hacc m h6
    · have : m = acc.length := by omega
      subst this
      exact ⟨N, List.getElem?_concat_length, h4, h5⟩

end FleCSPH.Cofm
