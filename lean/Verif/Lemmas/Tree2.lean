import Verif.Lemmas.Build3

/-! From the levels used in the proofs to the cells of the specification, and from one rank to all of them. -/
namespace FleCSPH.Tree
open FleCSPH.Spec FleCSPH.HCell FleCSPH.BuildTree

variable {D dim : Nat}

theorem inner_iff {X : Nat → Prop} (hdim : 0 < dim) (hX : ∀ y, X y → FullKey D dim y) (c : Nat) :
    InnerCell D dim X c ↔ Node D dim X c := by
  constructor
  · rintro (h | ⟨x, y, hx, hy, hne, ⟨p, hp, h1⟩, ⟨q, hq, h2⟩⟩)
    · exact Or.inl h
    · have : p = q := level_unique hdim (hX x hx) (hX y hy) hp hq (h1.trans h2.symm)
      subst this
      exact Or.inr ⟨x, y, hx, hy, hne, p, hp, h1, h2⟩
  · rintro (h | ⟨x, y, hx, hy, hne, p, hp, h1, h2⟩)
    · exact Or.inl h
    · exact Or.inr ⟨x, y, hx, hy, hne, ⟨p, hp, h1⟩, ⟨p, hp, h2⟩⟩

theorem leafAt_leafCell {X : Nat → Prop} (hdim : 0 < dim) (hX : ∀ y, X y → FullKey D dim y) {x p : Nat} (hx : X x)
    (h : LeafAt D dim X x p) : LeafCell D dim X x (A dim p x) := by
  have hfx := hX x hx
  have hp := h.1
  refine ⟨?_, ⟨⟨p, by omega, rfl⟩, ?_⟩, ?_⟩
  · intro e
    have := (A_eq_one hdim hfx (by omega)).mp e
    omega
  · rintro y hy ⟨q, hq, he⟩
    have : q = p := level_unique hdim (hX y hy) hfx hq (by omega) he
    subst this
    exact h.2.1 y hy he
  · rintro c' hc' ⟨⟨q, hq, rfl⟩, hal⟩
    have hqD : q ≠ D := by
      rintro rfl
      exact hc' hfx
    rcases Nat.lt_or_ge p q with h1 | h1
    · exfalso
      rcases h.2.2 with h2 | ⟨y, hy, hne, he⟩
      · omega
      · exact hne (hal y hy ⟨q, hq, A_up he h1⟩)
    · refine ⟨p - q, ?_⟩
      show A dim (p - q) (A dim q x) = _
      rw [← A_add, Nat.add_sub_of_le h1]

theorem leafCell_unique {X : Nat → Prop} {x c c' : Nat} (h : LeafCell D dim X x c) (h' : LeafCell D dim X x c') : c = c' := by
  obtain ⟨m, hm⟩ := h.2.2 c' h'.1 h'.2.1
  obtain ⟨m', hm'⟩ := h'.2.2 c h.1 h.2.1
  have h1 : c ≤ c' := by rw [← hm]; exact Nat.div_le_self _ _
  have h2 : c' ≤ c := by rw [← hm']; exact Nat.div_le_self _ _
  omega

theorem leafCell_iff {X : Nat → Prop} (hdim : 0 < dim) (hD : 0 < D) (hX : ∀ y, X y → FullKey D dim y) {x c : Nat} (hx : X x) :
    LeafCell D dim X x c ↔ ∃ p, LeafAt D dim X x p ∧ c = A dim p x := by
  constructor
  · intro h
    obtain ⟨p, hp⟩ := leafAt_exists (dim := dim) hD X x
    exact ⟨p, hp, leafCell_unique h (leafAt_leafCell hdim hX hx hp)⟩
  · rintro ⟨p, hp, rfl⟩
    exact leafAt_leafCell hdim hX hx hp

/-! ### All the ranks -/

/-- How the keys `X` of all ranks lie around those of one rank. -/
structure Around (E : Env) (X : Nat → Prop) : Prop where
  own : ∀ y ∈ E.ents, X y
  cases_ : ∀ y, X y → y ∈ E.ents ∨ (E.iam0 = false ∧ y ≤ E.lobound) ∨ (E.iamlast = false ∧ E.hibound ≤ y)
  lo : E.iam0 = false → X E.lobound
  hi : E.iamlast = false → X E.hibound

theorem pairwise_le_last {l : List Nat} {m : Nat} (h : l.Pairwise (· < ·)) (hm : l.getLast? = some m) : ∀ y ∈ l, y ≤ m := by
  obtain ⟨l', rfl⟩ := List.getLast?_eq_some_iff.mp hm
  intro y hy
  rw [List.pairwise_append] at h
  rcases List.mem_append.mp hy with h1 | h1
  · exact Nat.le_of_lt (h.2.2 y h1 m (by simp))
  · simp at h1; omega

theorem env_ok {minKey maxKey : Nat} (hdim : 0 < dim) (hD : 0 < D) (ranks : List (List Nat)) (hne : ∀ l ∈ ranks, l ≠ [])
    (hfull : ∀ y ∈ ranks.flatten, FullKey D dim y) (hlt : ranks.flatten.Pairwise (· < ·)) (r : Nat) (es : List Nat)
    (hr : ranks[r]? = some es) :
    ∃ E, envOf D dim minKey maxKey ranks r = some E ∧ E.D = D ∧ E.dim = dim ∧ E.ents = es ∧ EnvOk E ∧ KeysOk E ∧
      Around E (fun y => y ∈ ranks.flatten) := by
  obtain ⟨hrl, hre⟩ := List.getElem?_eq_some_iff.mp hr
  obtain ⟨pre, post, hsplit, hprelen⟩ : ∃ pre post, ranks = pre ++ es :: post ∧ pre.length = r := by
    refine ⟨ranks.take r, ranks.drop (r + 1), ?_, ?_⟩
    · rw [← hre, List.getElem_cons_drop, List.take_append_drop]
    · rw [List.length_take]; omega
  have hes : es ≠ [] := hne es (List.mem_of_getElem? hr)
  subst hprelen
  have hlt' := hlt
  rw [hsplit, List.flatten_append, List.flatten_cons, List.pairwise_append, List.pairwise_append] at hlt'
  obtain ⟨hpre, ⟨hesl, hpost, hesp⟩, hprees⟩ := hlt'
  -- the lower bound
  obtain ⟨lo, hlo, hlo1⟩ : ∃ lo, (if pre.length = 0 then some minKey else (ranks[pre.length - 1]?).bind List.getLast?) = some lo ∧
      (pre.length ≠ 0 → lo ∈ pre.flatten ∧ ∀ y ∈ pre.flatten, y ≤ lo) := by
    by_cases h0 : pre.length = 0
    · exact ⟨minKey, by rw [if_pos h0], fun h => absurd h0 h⟩
    · have hpne : pre ≠ [] := fun e => h0 (by rw [e]; rfl)
      obtain ⟨pre', l, rfl⟩ : ∃ pre' l, pre = pre' ++ [l] :=
        ⟨pre.dropLast, pre.getLast hpne, (List.dropLast_concat_getLast hpne).symm⟩
      have hl : l ≠ [] := hne l (by rw [hsplit]; simp)
      refine ⟨l.getLast hl, ?_, ?_⟩
      · rw [if_neg h0, hsplit]
        simp [List.getLast?_eq_some_getLast hl]
      · intro _
        refine ⟨by simp [List.getLast_mem hl], ?_⟩
        rw [List.flatten_append, List.pairwise_append] at hpre
        intro y hy
        rw [List.flatten_append] at hy
        have hll : l.Pairwise (· < ·) := by simpa using hpre.2.1
        rcases List.mem_append.mp hy with h1 | h1
        · exact Nat.le_of_lt (hpre.2.2 y h1 _ (by simp [List.getLast_mem hl]))
        · exact pairwise_le_last hll (List.getLast?_eq_some_getLast hl) y (by simpa using h1)
  obtain ⟨hi, hhi, hhi1⟩ : ∃ hi, (if pre.length + 1 = ranks.length then some maxKey else
      (ranks[pre.length + 1]?).bind List.head?) = some hi ∧
      (pre.length + 1 ≠ ranks.length → hi ∈ post.flatten ∧ ∀ y ∈ post.flatten, hi ≤ y) := by
    by_cases h0 : pre.length + 1 = ranks.length
    · exact ⟨maxKey, by rw [if_pos h0], fun h => absurd h0 h⟩
    · have hpne : post ≠ [] := by
        rintro rfl
        apply h0
        rw [hsplit]; simp
      obtain ⟨l, post', rfl⟩ := List.exists_cons_of_ne_nil hpne
      have hl : l ≠ [] := hne l (by rw [hsplit]; simp)
      obtain ⟨a, l', rfl⟩ := List.exists_cons_of_ne_nil hl
      refine ⟨a, ?_, ?_⟩
      · rw [if_neg h0, hsplit]
        simp
      · intro _
        refine ⟨by simp, ?_⟩
        intro y hy
        rw [List.flatten_cons, List.cons_append, List.pairwise_cons] at hpost
        rw [List.flatten_cons, List.cons_append] at hy
        rcases List.mem_cons.mp hy with h1 | h1
        · omega
        · exact Nat.le_of_lt (hpost.1 y h1)
  have hmem : ∀ y, y ∈ ranks.flatten ↔ y ∈ pre.flatten ∨ y ∈ es ∨ y ∈ post.flatten := by
    intro y
    rw [hsplit, List.flatten_append, List.flatten_cons, List.mem_append, List.mem_append]
  refine ⟨⟨D, dim, pre.length == 0, pre.length + 1 == ranks.length, lo, hi, es⟩, ?_, rfl, rfl, rfl, ?_, ?_, ?_⟩
  · rw [envOf, hr]
    simp only [Option.bind_eq_bind, Option.bind_some]
    rw [lowBound, highBound, hlo, hhi]
    rfl
  · refine ⟨hdim, hD, ?_, ?_⟩
    · intro h0
      have h0 : pre.length ≠ 0 := by simpa using h0
      exact hfull _ ((hmem _).mpr (Or.inl (hlo1 h0).1))
    · intro h0
      have h0 : pre.length + 1 ≠ ranks.length := by simpa using h0
      exact hfull _ ((hmem _).mpr (Or.inr (Or.inr (hhi1 h0).1)))
  · refine ⟨fun y hy => hfull y ((hmem y).mpr (Or.inr (Or.inl hy))), hesl, ?_, ?_⟩
    · intro h0 y hy
      have h0 : pre.length ≠ 0 := by simpa using h0
      exact hprees lo (hlo1 h0).1 y (List.mem_append_left _ hy)
    · intro h0 y hy
      have h0 : pre.length + 1 ≠ ranks.length := by simpa using h0
      exact hesp y hy hi (hhi1 h0).1
  · refine ⟨fun y hy => (hmem y).mpr (Or.inr (Or.inl hy)), ?_, ?_, ?_⟩
    · intro y hy
      rcases (hmem y).mp hy with h1 | h1 | h1
      · right; left
        have h0 : pre.length ≠ 0 := by
          intro e
          have : pre = [] := List.eq_nil_of_length_eq_zero e
          rw [this] at h1; simp at h1
        exact ⟨by simpa using h0, (hlo1 h0).2 y h1⟩
      · exact Or.inl h1
      · right; right
        have h0 : pre.length + 1 ≠ ranks.length := by
          intro e
          rw [hsplit, List.length_append, List.length_cons] at e
          have : post = [] := List.eq_nil_of_length_eq_zero (by omega)
          rw [this] at h1; simp at h1
        exact ⟨by simpa using h0, (hhi1 h0).2 y h1⟩
    · intro h0
      have h0 : pre.length ≠ 0 := by simpa using h0
      exact (hmem _).mpr (Or.inl (hlo1 h0).1)
    · intro h0
      have h0 : pre.length + 1 ≠ ranks.length := by simpa using h0
      exact (hmem _).mpr (Or.inr (Or.inr (hhi1 h0).1))

variable {E : Env} {X : Nat → Prop}

theorem known_sub (hA : Around E X) : ∀ y, Known E y → X y := by
  rintro y (h | ⟨h0, rfl⟩ | ⟨h0, rfl⟩)
  · exact hA.own y h
  · exact hA.lo h0
  · exact hA.hi h0

/-- A key of another rank that shares a cell with an own key has a neighbour bound in the same cell. -/
theorem known_between (hK : KeysOk E) (hA : Around E X) {x y p : Nat} (hx : x ∈ E.ents) (hy : X y) (hyx : y ≠ x)
    (h : A E.dim p y = A E.dim p x) :
    ∃ k, Known E k ∧ k ≠ x ∧ A E.dim p k = A E.dim p x ∧
      (y ∉ E.ents → (E.iam0 = false ∧ k = E.lobound) ∨ (E.iamlast = false ∧ k = E.hibound)) := by
  rcases hA.cases_ y hy with h1 | ⟨h0, h1⟩ | ⟨h0, h1⟩
  · exact ⟨y, Or.inl h1, hyx, h, fun h2 => absurd h1 h2⟩
  · have hlx := hK.lo h0 x hx
    refine ⟨E.lobound, Or.inr (Or.inl ⟨h0, rfl⟩), by omega, ?_, fun _ => Or.inl ⟨h0, rfl⟩⟩
    exact (A_sandwich h1 (Nat.le_of_lt hlx) h).trans h
  · have hxh := hK.hi h0 x hx
    refine ⟨E.hibound, Or.inr (Or.inr ⟨h0, rfl⟩), by omega, ?_, fun _ => Or.inr ⟨h0, rfl⟩⟩
    exact A_sandwich (Nat.le_of_lt hxh) h1 h.symm

/-- The leaves of own keys are those of the global tree. -/
theorem leafAt_known (hK : KeysOk E) (hA : Around E X) {x p : Nat} (hx : x ∈ E.ents) :
    LeafAt E.D E.dim (Known E) x p ↔ LeafAt E.D E.dim X x p := by
  constructor
  · rintro ⟨h1, h2, h3⟩
    refine ⟨h1, ?_, ?_⟩
    · intro y hy he
      apply Classical.byContradiction
      intro hne
      obtain ⟨k, hk, hkx, hke, -⟩ := known_between hK hA hx hy hne he
      exact hkx (h2 k hk hke)
    · rcases h3 with h3 | ⟨y, hy, hne, he⟩
      · exact Or.inl h3
      · exact Or.inr ⟨y, known_sub hA y hy, hne, he⟩
  · rintro ⟨h1, h2, h3⟩
    refine ⟨h1, fun y hy he => h2 y (known_sub hA y hy) he, ?_⟩
    rcases h3 with h3 | ⟨y, hy, hne, he⟩
    · exact Or.inl h3
    · obtain ⟨k, hk, hkx, hke, -⟩ := known_between hK hA hx hy hne he
      exact Or.inr ⟨k, hk, hkx, hke⟩

/-- A node is finished locally exactly when it is an inner cell of the global tree and all its keys are local. -/
theorem fin_iff (hE : EnvOk E) (hK : KeysOk E) (hA : Around E X) (hXf : ∀ y, X y → FullKey E.D E.dim y)
    (hne : E.ents ≠ []) (c : Nat) :
    (Node E.D E.dim (Known E) c ∧ (E.iam0 = false → ¬ H E.D E.dim c E.lobound) ∧
      (E.iamlast = false → ¬ H E.D E.dim c E.hibound)) ↔
    (Node E.D E.dim X c ∧ (∀ y, X y → H E.D E.dim c y → y ∈ E.ents)) := by
  have hdim := hE.hdim
  constructor
  · rintro ⟨hN, hlo, hhi⟩
    refine ⟨node_mono (known_sub hA) hN, ?_⟩
    intro y hy hH
    apply Classical.byContradiction
    intro hny
    -- an own key below c
    have hown : ∃ x ∈ E.ents, H E.D E.dim c x := by
      rcases hN with h1 | ⟨a, _, ha, -, -, p, hp, h1, -⟩
      · obtain ⟨x, l, he⟩ := List.exists_cons_of_ne_nil hne
        have hx : x ∈ E.ents := by rw [he]; exact List.mem_cons_self
        exact ⟨x, hx, E.D, Nat.le_refl _, by rw [h1]; exact hK.full x hx⟩
      · rcases ha with ha | ⟨h0, rfl⟩ | ⟨h0, rfl⟩
        · exact ⟨a, ha, p, hp, h1⟩
        · exact absurd ⟨p, hp, h1⟩ (hlo h0)
        · exact absurd ⟨p, hp, h1⟩ (hhi h0)
    obtain ⟨x, hx, p, hp, hxc⟩ := hown
    obtain ⟨q, hq, hyc⟩ := hH
    have hqp := level_unique hdim (hXf y hy) (hK.full x hx) hq hp (hyc.trans hxc.symm)
    subst hqp
    obtain ⟨k, hk, -, hke, hk2⟩ := known_between hK hA hx hy (fun e => hny (e ▸ hx)) (hyc.trans hxc.symm)
    rcases hk2 hny with ⟨h0, rfl⟩ | ⟨h0, rfl⟩
    · exact hlo h0 ⟨q, hq, hke.trans hxc⟩
    · exact hhi h0 ⟨q, hq, hke.trans hxc⟩
  · rintro ⟨hN, hall⟩
    refine ⟨?_, ?_, ?_⟩
    · rcases hN with h1 | ⟨a, b, ha, hb, hab, p, hp, h1, h2⟩
      · exact Or.inl h1
      · exact Or.inr ⟨a, b, Or.inl (hall a ha ⟨p, hp, h1⟩), Or.inl (hall b hb ⟨p, hp, h2⟩), hab, p, hp, h1, h2⟩
    · intro h0 hH
      have := hK.lo h0 _ (hall _ (hA.lo h0) hH)
      omega
    · intro h0 hH
      have := hK.hi h0 _ (hall _ (hA.hi h0) hH)
      omega

/-- An inner cell of the global tree that holds an own key is known to the rank. -/
theorem node_known (hE : EnvOk E) (hK : KeysOk E) (hA : Around E X) (hXf : ∀ y, X y → FullKey E.D E.dim y)
    {c x : Nat} (hx : x ∈ E.ents) (hH : H E.D E.dim c x) (hN : Node E.D E.dim X c) : Node E.D E.dim (Known E) c := by
  have hdim := hE.hdim
  obtain ⟨p, hp, hxc⟩ := hH
  rcases hN with h1 | ⟨a, b, ha, hb, hab, q, hq, h1, h2⟩
  · exact Or.inl h1
  · have hqp := level_unique hdim (hXf a ha) (hK.full x hx) hq hp (h1.trans hxc.symm)
    subst hqp
    obtain ⟨y, hy, hyx, hye⟩ : ∃ y, X y ∧ y ≠ x ∧ A E.dim q y = c := by
      by_cases hax : a = x
      · exact ⟨b, hb, fun e => hab (hax.trans e.symm), h2⟩
      · exact ⟨a, ha, hax, h1⟩
    obtain ⟨k, hk, hkx, hke, -⟩ := known_between hK hA hx hy hyx (hye.trans hxc.symm)
    exact Or.inr ⟨k, x, hk, Or.inl hx, hkx, q, hq, hke.trans hxc, hxc⟩

end FleCSPH.Tree
