import Verif.Lemmas.Build

/-! The invariant of `build_tree`: inserting the next key. -/
namespace FleCSPH.Tree
open FleCSPH.Spec FleCSPH.HCell FleCSPH.BuildTree

variable {D dim : Nat}

theorem node_mono {X Y : Nat → Prop} (h : ∀ y, X y → Y y) {c : Nat} (hc : Node D dim X c) : Node D dim Y c := by
  rcases hc with hc | ⟨a, b, ha, hb, r⟩
  · exact Or.inl hc
  · exact Or.inr ⟨a, b, h a ha, h b hb, r⟩

/-- A leaf cell is no node. -/
theorem leaf_not_node {X : Nat → Prop} {x p r : Nat} (hdim : 0 < dim) (hX : ∀ y, X y → FullKey D dim y) (hx : FullKey D dim x)
    (hl : LeafAt D dim X x p) (hr : r ≤ p) : ¬ Node D dim X (A dim r x) := by
  have hpD := hl.1
  rintro (h | ⟨a, b, ha, hb, hne, q, hq, h1, h2⟩)
  · have := (A_eq_one hdim hx (by omega)).mp h
    omega
  · have hqr := level_unique hdim (hX a ha) hx hq (by omega) h1
    subst hqr
    exact hne ((hl.2.1 a ha (A_up h1 hr)).trans (hl.2.1 b hb (A_up h2 hr)).symm)

theorem sinv_insert (E : Env) (hE : EnvOk E) (X : Nat → Prop) (es : List Nat) (x z i : Nat) (u : Up)
    (hX : ∀ y, X y → FullKey E.D E.dim y) (hXx : X x) (hmax : ∀ y, X y → y ≤ x) (hxz : x < z) (hz : FullKey E.D E.dim z)
    (hcd : u.cd ≤ E.D) (hl : u.lastnkey = A E.dim u.cd x) (hA : A E.dim u.cd x = A E.dim u.cd z)
    (h : SInv E X es x u.cd u.tbl u.cofm) (hes : ∀ y ∈ es, X y) (hlast : ∀ j, es[j]? = some x → j + 1 = i)
    (hlen : es.length = i)
    (hcase : (LeafAt E.D E.dim X x u.cd ∧ es[i - 1]? = some x ∧ 0 < i) ∨ (u.cd = E.D ∧ (∀ y, X y → y = x) ∧ es = []) ∨
      (A E.dim (u.cd - 1) x ≠ A E.dim (u.cd - 1) z ∧ Node E.D E.dim X (A E.dim u.cd x) ∧
        ∀ q, LeafAt E.D E.dim X x q → q < u.cd)) :
    ∃ (t : Tbl) (p : Nat), BuildTree.insert E i z x u = some (t, p, A E.dim p z) ∧
      LeafAt E.D E.dim (fun y => X y ∨ y = z) z p ∧
      SInv E (fun y => X y ∨ y = z) (if i < E.ents.length then es ++ [z] else es) z 0 t u.cofm := by
  have hdim := hE.hdim
  have hx := hX x hXx
  have hzX : ¬ X z := fun hc => by have := hmax z hc; omega
  -- sandwich
  have hsw : ∀ y q, X y → A E.dim q y = A E.dim q z → A E.dim q x = A E.dim q z := by
    intro y q hy he
    have := A_sandwich (hmax y hy) (Nat.le_of_lt hxz) he
    rw [this, he]
  -- the parent cell
  obtain ⟨P, hP, hPent⟩ : ∃ P, u.tbl (A E.dim u.cd x) = some P ∧
      ((LeafAt E.D E.dim X x u.cd ∧ P.entityIdx = (i : Int) - 1 ∧ 0 < i) ∨
        (Node E.D E.dim X (A E.dim u.cd x) ∧ P.entityIdx = -1)) := by
    rcases hcase with ⟨hlf, hi1, hi0⟩ | ⟨hD, hall, hnil⟩ | ⟨_, hnode, _⟩
    · obtain ⟨cell, h1, h2, -⟩ := h.canon.leaf (i - 1) x u.cd hi1 hlf
      exact ⟨cell, h1, Or.inl ⟨hlf, by rw [h2]; omega, hi0⟩⟩
    · have hnode : Node E.D E.dim X (A E.dim u.cd x) := Or.inl (by rw [hD]; exact hx)
      obtain ⟨cell, h1, h2⟩ := h.canon.node _ hnode
      exact ⟨cell, h1, Or.inr ⟨hnode, h2⟩⟩
    · obtain ⟨cell, h1, h2⟩ := h.canon.node _ hnode
      exact ⟨cell, h1, Or.inr ⟨hnode, h2⟩⟩
  have hPnode : P.nodeIdx = -1 := by
    apply Classical.byContradiction
    intro hc
    obtain ⟨-, hcl, -⟩ := (h.fin _ _ hP).mp hc
    rcases hcl with hcl | ⟨q, hq, he⟩
    · exact hcl ⟨u.cd, hcd, rfl⟩
    · have := level_unique hdim hx hx hcd (by omega) he
      omega
  -- any present cell holds some key
  have hpres : ∀ c cell, u.tbl c = some cell → c = 1 ∨ ∃ y q, X y ∧ q ≤ E.D ∧ A E.dim q y = c := by
    intro c cell hc
    rcases h.canon.some_ c cell hc with ⟨hN, -⟩ | ⟨j, y, q, hj, hlf, he, -, -⟩
    · rcases hN with hN | ⟨a, _, ha, -, -, q, hq, hq2, -⟩
      · exact Or.inl hN
      · exact Or.inr ⟨a, q, ha, hq, hq2⟩
    · exact Or.inr ⟨y, q, hes y (List.mem_of_getElem? hj), by have := hlf.1; omega, he.symm⟩
  -- nothing strictly inside a leaf or, for the first key, strictly inside the root
  have hfresh : (LeafAt E.D E.dim X x u.cd ∨ (u.cd = E.D ∧ (∀ y, X y → y = x) ∧ es = [])) →
      ∀ k, SBelow E.dim k (A E.dim u.cd x) → u.tbl k = none := by
    rintro hc k ⟨m, hm⟩
    cases hk : u.tbl k with
    | none => rfl
    | some cell =>
      exfalso
      have huniq : ∀ y, X y → A E.dim u.cd y = A E.dim u.cd x → y = x := by
        rcases hc with hlf | ⟨-, hall, -⟩
        · exact hlf.2.1
        · intro y hy _; exact hall y hy
      have hk1 : k ≠ 1 := by
        rintro rfl
        have h1 : A E.dim (m + 1) 1 = 0 := by
          apply Nat.div_eq_of_lt
          exact Nat.one_lt_two_pow (Nat.mul_ne_zero (Nat.succ_ne_zero m) (Nat.pos_iff_ne_zero.mp hdim))
        have := A_pos hx hcd
        omega
      have hlev : ∀ y q, X y → q ≤ E.D → A E.dim q y = k → y = x ∧ q < u.cd := by
        intro y q hy hq he
        have h1 : A E.dim (q + (m + 1)) y = A E.dim u.cd x := by rw [A_add, he, hm]
        have hqD : q + (m + 1) ≤ E.D := by
          rcases Nat.lt_or_ge E.D (q + (m + 1)) with h2 | h2
          · exfalso
            have h3 : A E.dim (q + (m + 1)) y = 0 := by
              rw [show q + (m + 1) = E.D + (q + (m + 1) - E.D) from by omega, A_add,
                show A E.dim E.D y = 1 from hX y hy]
              apply Nat.div_eq_of_lt
              exact Nat.one_lt_two_pow (Nat.mul_ne_zero (by omega) (Nat.pos_iff_ne_zero.mp hdim))
            have := A_pos hx hcd
            omega
          · exact h2
        have h2 := level_unique hdim (hX y hy) hx hqD hcd h1
        refine ⟨huniq y hy (by rw [← h2] at h1 ⊢; exact h1), by omega⟩
      rcases h.canon.some_ k cell hk with ⟨hN, -⟩ | ⟨j, y, q, hj, hlf, he, -, -⟩
      · rcases hN with hN | ⟨a, b, ha, hb, hne, q, hq, h1, h2⟩
        · exact hk1 hN
        · exact hne ((hlev a q ha hq h1).1.trans (hlev b q hb hq h2).1.symm)
      · have hXy := hes y (List.mem_of_getElem? hj)
        obtain ⟨rfl, hq⟩ := hlev y q hXy (by have := hlf.1; omega) he.symm
        rcases hc with hlf2 | ⟨-, -, hnil⟩
        · have := leafAt_unique hlf hlf2
          omega
        · rw [hnil] at hj; simp at hj
  have hinscase : ((∀ k, SBelow E.dim k (A E.dim u.cd x) → u.tbl k = none) ∧ P.nodeIdx = -1) ∨
      (A E.dim (u.cd - 1) x ≠ A E.dim (u.cd - 1) z ∧ P.entityIdx = -1) := by
    rcases hcase with hB | hAA | hC
    · exact Or.inl ⟨hfresh (Or.inl hB.1), hPnode⟩
    · exact Or.inl ⟨hfresh (Or.inr hAA), hPnode⟩
    · refine Or.inr ⟨hC.1, ?_⟩
      rcases hPent with ⟨h1, -, -⟩ | ⟨-, h2⟩
      · have := hC.2.2 _ h1
        omega
      · exact h2
  have hzf : ∀ p, p < u.cd → A E.dim p x ≠ A E.dim p z →
      ∀ k, (k = A E.dim p z ∨ SBelow E.dim k (A E.dim p z)) → u.tbl k = none := by
    intro p hp hpne k hk
    obtain ⟨m, hm⟩ : ∃ m, A E.dim m k = A E.dim p z := by
      rcases hk with rfl | ⟨m, hm⟩
      · exact ⟨0, by rw [A_zero]⟩
      · exact ⟨m + 1, hm⟩
    cases hk : u.tbl k with
    | none => rfl
    | some cell =>
      exfalso
      rcases hpres k cell hk with rfl | ⟨y, q, hy, hq, he⟩
      · rcases Nat.eq_zero_or_pos m with rfl | hm0
        · rw [A_zero] at hm
          have := (A_eq_one hdim hz (by omega)).mp hm.symm
          omega
        · have h1 : A E.dim m 1 = 0 := by
            apply Nat.div_eq_of_lt
            exact Nat.one_lt_two_pow (Nat.mul_ne_zero (by omega) (Nat.pos_iff_ne_zero.mp hdim))
          have := A_pos hz (show p ≤ E.D by omega)
          omega
      · have h1 : A E.dim (q + m) y = A E.dim p z := by rw [A_add, he, hm]
        have hqD : q + m ≤ E.D := by
          rcases Nat.lt_or_ge E.D (q + m) with h2 | h2
          · exfalso
            have h3 : A E.dim (q + m) y = 0 := by
              rw [show q + m = E.D + (q + m - E.D) from by omega, A_add,
                show A E.dim E.D y = 1 from hX y hy]
              apply Nat.div_eq_of_lt
              exact Nat.one_lt_two_pow (Nat.mul_ne_zero (by omega) (Nat.pos_iff_ne_zero.mp hdim))
            have := A_pos hz (show p ≤ E.D by omega)
            omega
          · exact h2
        have h2 := level_unique hdim (hX y hy) hz hqD (by omega) h1
        rw [h2] at h1
        exact hpne (hsw y p hy h1)
  obtain ⟨t, p, hp, hpne, hpe, hins, hok, hframe, hrow, hrec, hnew⟩ :=
    insert_spec E hdim i x z hx hz (by omega) u P hcd hl hA h.canon.child hP hinscase hzf
  have hpD : p < E.D := by omega
  -- leaf of the new key
  have hlz : LeafAt E.D E.dim (fun y => X y ∨ y = z) z p := by
    refine ⟨hpD, ?_, Or.inr ⟨x, Or.inl hXx, by omega, hpe⟩⟩
    rintro y (hy | rfl) he
    · exact absurd (hsw y p hy he) hpne
    · rfl
  -- in the leaf case the chain starts at the leaf
  have hgt : ∀ q, q ≤ E.D → A E.dim q x = A E.dim q z → p < q := by
    intro q hq he
    rcases Nat.lt_or_ge p q with h1 | h1
    · exact h1
    · exact absurd (A_up he h1) hpne
  have hle : ∀ q, u.cd ≤ q → A E.dim q x = A E.dim q z := fun q hq => A_up hA hq
  -- old leaves stay leaves
  have hleafkeep : ∀ y q, y ∈ es → LeafAt E.D E.dim X y q → (∀ r, p < r → r ≤ u.cd → A E.dim q y ≠ A E.dim r x) →
      LeafAt E.D E.dim (fun y => X y ∨ y = z) y q := by
    intro y q hy hlf hnr
    have hXy := hes y hy
    refine ⟨hlf.1, ?_, ?_⟩
    · rintro w (hw | rfl) he
      · exact hlf.2.1 w hw he
      · exfalso
        have h1 : A E.dim q x = A E.dim q w := hsw y q hXy he.symm
        have h2 : x = y := hlf.2.1 x hXx (h1.trans he)
        subst h2
        have hpq := hgt q (by have := hlf.1; omega) h1
        rcases hcase with ⟨hB, -, -⟩ | ⟨-, -, hnil⟩ | ⟨hC1, -, hC3⟩
        · have := leafAt_unique hlf hB
          exact hnr q hpq (by omega) rfl
        · rw [hnil] at hy; simp at hy
        · have := hC3 q hlf
          exact hC1 (A_up h1 (by omega))
    · rcases hlf.2.2 with h1 | ⟨w, hw, hwne, hwe⟩
      · exact Or.inl h1
      · exact Or.inr ⟨w, Or.inl hw, hwne, hwe⟩
  -- the leaf of x in the leaf case
  have hlx : P.entityIdx ≠ -1 → LeafAt E.D E.dim (fun y => X y ∨ y = z) x p ∧ es[i - 1]? = some x ∧ 0 < i ∧
      LeafAt E.D E.dim X x u.cd := by
    intro hpe1
    rcases hPent with ⟨hlf, -, hi⟩ | ⟨-, h2⟩
    · refine ⟨⟨hpD, ?_, Or.inr ⟨z, Or.inr rfl, by omega, hpe.symm⟩⟩, ?_, hi, hlf⟩
      · rintro y (hy | rfl) he
        · exact hlf.2.1 y hy (A_up he (by omega))
        · exact absurd he.symm hpne
      · rcases hcase with ⟨-, hi1, -⟩ | ⟨hD, -, -⟩ | ⟨-, -, hC3⟩
        · exact hi1
        · have := hlf.1; omega
        · have := hC3 _ hlf; omega
    · exact absurd h2 hpe1
  -- cells of the chain hold x and z
  have hrownode : ∀ r, p < r → r ≤ E.D → Node E.D E.dim (fun y => X y ∨ y = z) (A E.dim r x) := by
    intro r h1 h2
    have : A E.dim r x = A E.dim r z := A_up hpe (by omega)
    exact Or.inr ⟨x, z, Or.inl hXx, Or.inr rfl, by omega, r, h2, rfl, this.symm⟩
  -- old chain cells above p carry no node index
  have hrowold : ∀ r, p < r → r ≤ u.cd → ∀ cell, u.tbl (A E.dim r x) = some cell → cell.nodeIdx = -1 := by
    intro r h1 h2 cell hc
    apply Classical.byContradiction
    intro hcn
    obtain ⟨hN, hcl, -⟩ := (h.fin _ _ hc).mp hcn
    rcases hcl with hcl | ⟨q, hq, he⟩
    · exact hcl ⟨r, by omega, rfl⟩
    · have hrq := level_unique hdim hx hx (show r ≤ E.D by omega) (by omega) he
      subst hrq
      rcases hcase with ⟨hB, -, -⟩ | hAA | ⟨hC1, -, -⟩
      · rw [hfresh (Or.inl hB) _ (SBelow.of_A hq)] at hc
        cases hc
      · rw [hfresh (Or.inr hAA) _ (SBelow.of_A hq)] at hc
        cases hc
      · exact hC1 (A_up hpe (by omega))
  have hXnew : ∀ y, (X y ∨ y = z) → FullKey E.D E.dim y := by
    rintro y (hy | rfl)
    · exact hX y hy
    · exact hz
  -- the new cells were absent
  have hxabs : P.entityIdx ≠ -1 → u.tbl (A E.dim p x) = none := by
    intro he
    exact hfresh (Or.inl (hlx he).2.2.2) _ (SBelow.of_A hp)
  have hzabs : u.tbl (A E.dim p z) = none := hzf p hp hpne _ (Or.inl rfl)
  -- case analysis on a cell of the new table
  have hcases : ∀ c, (∃ r, p < r ∧ r ≤ u.cd ∧ c = A E.dim r x) ∨ (P.entityIdx ≠ -1 ∧ c = A E.dim p x) ∨
      (i < E.ents.length ∧ c = A E.dim p z) ∨
      ((∀ r, p < r → r ≤ u.cd → c ≠ A E.dim r x) ∧ (P.entityIdx ≠ -1 → c ≠ A E.dim p x) ∧
        (i < E.ents.length → c ≠ A E.dim p z) ∧ t c = u.tbl c) := by
    intro c
    by_cases h1 : ∃ r, p < r ∧ r ≤ u.cd ∧ c = A E.dim r x
    · exact Or.inl h1
    by_cases h2 : P.entityIdx ≠ -1 ∧ c = A E.dim p x
    · exact Or.inr (Or.inl h2)
    by_cases h3 : i < E.ents.length ∧ c = A E.dim p z
    · exact Or.inr (Or.inr (Or.inl h3))
    have g1 : ∀ r, p < r → r ≤ u.cd → c ≠ A E.dim r x := fun r a b e => h1 ⟨r, a, b, e⟩
    have g2 : P.entityIdx ≠ -1 → c ≠ A E.dim p x := fun a e => h2 ⟨a, e⟩
    have g3 : i < E.ents.length → c ≠ A E.dim p z := fun a e => h3 ⟨a, e⟩
    exact Or.inr (Or.inr (Or.inr ⟨g1, g2, g3, hframe c g1 g2 g3⟩))
  have hnx : ¬ Node E.D E.dim (fun y => X y ∨ y = z) (A E.dim p x) ∨ P.entityIdx = -1 := by
    by_cases he : P.entityIdx = -1
    · exact Or.inr he
    · exact Or.inl (leaf_not_node hdim hXnew hx (hlx he).1 (Nat.le_refl _))
  have hnz : ¬ Node E.D E.dim (fun y => X y ∨ y = z) (A E.dim p z) :=
    leaf_not_node hdim hXnew hz hlz (Nat.le_refl _)
  have hesget : ∀ (j y : Nat), es[j]? = some y → (if i < E.ents.length then es ++ [z] else es)[j]? = some y := by
    intro j y hj
    split
    · rw [List.getElem?_append_left (List.getElem?_eq_some_iff.mp hj).1]; exact hj
    · exact hj
  refine ⟨t, p, hins, hlz, ?_, ?_, ?_⟩
  · -- Canon
    refine ⟨?_, ?_, ?_, hok⟩
    · intro c cell hc
      rcases hcases c with ⟨r, h1, h2, rfl⟩ | ⟨he, rfl⟩ | ⟨hi, rfl⟩ | ⟨h1, h2, h3, h4⟩
      · obtain ⟨cell', e1, e2, -⟩ := hrow r h1 h2
        rw [e1] at hc
        cases hc
        exact Or.inl ⟨hrownode r h1 (by omega), e2⟩
      · rw [hrec he] at hc
        cases hc
        obtain ⟨a1, a2, a3, -⟩ := hlx he
        refine Or.inr ⟨i - 1, x, p, hesget _ _ a2, a1, rfl, ?_, rfl⟩
        show (i : Int) - 1 = ((i - 1 : Nat) : Int)
        omega
      · rw [hnew hi] at hc
        cases hc
        refine Or.inr ⟨i, z, p, ?_, hlz, rfl, rfl, rfl⟩
        rw [if_pos hi, ← hlen, List.getElem?_concat_length]
      · rw [h4] at hc
        rcases h.canon.some_ c cell hc with ⟨hN, he⟩ | ⟨j, y, q, hj, hlf, he, h5, h6⟩
        · exact Or.inl ⟨node_mono (fun y hy => Or.inl hy) hN, he⟩
        · refine Or.inr ⟨j, y, q, hesget _ _ hj, ?_, he, h5, h6⟩
          exact hleafkeep y q (List.mem_of_getElem? hj) hlf (fun r a b => by rw [← he]; exact h1 r a b)
    · intro c hN
      have hold : Node E.D E.dim X c → ∃ cell, t c = some cell ∧ cell.entityIdx = -1 := by
        intro hNX
        rcases hcases c with ⟨r, h1, h2, rfl⟩ | ⟨he, rfl⟩ | ⟨hi, rfl⟩ | ⟨h1, h2, h3, h4⟩
        · obtain ⟨cell', e1, e2, -⟩ := hrow r h1 h2
          exact ⟨cell', e1, e2⟩
        · rcases hnx with h5 | h5
          · exact absurd hN h5
          · exact absurd h5 he
        · exact absurd hN hnz
        · rw [h4]; exact h.canon.node c hNX
      rcases hN with hN1 | ⟨a, b, ha, hb, hne, q, hq, e1, e2⟩
      · exact hold (Or.inl hN1)
      · have hpair : ∀ y, X y → A E.dim q y = A E.dim q z → A E.dim q z = c → ∃ cell, t c = some cell ∧ cell.entityIdx = -1 := by
          intro y hy h1 h2
          have h3 := hsw y q hy h1
          have hpq := hgt q hq h3
          rcases Nat.lt_or_ge u.cd q with h4 | h4
          · apply hold
            rw [← h2, ← h3]
            rcases hcase with ⟨hB, -, -⟩ | ⟨hD, -, -⟩ | ⟨-, hC2, -⟩
            · rcases hB.2.2 with h5 | ⟨w, hw, hwne, hwe⟩
              · left; exact (A_eq_one hdim hx hq).mpr (by omega)
              · exact Or.inr ⟨w, x, hw, hXx, hwne, q, hq, A_up hwe (by omega), rfl⟩
            · omega
            · exact node_up hdim hX hx (by omega) hq hC2
          · obtain ⟨cell', f1, f2, -⟩ := hrow q hpq h4
            exact ⟨cell', by rw [← h2, ← h3]; exact f1, f2⟩
        rcases ha with ha | rfl
        · rcases hb with hb | rfl
          · exact hold (Or.inr ⟨a, b, ha, hb, hne, q, hq, e1, e2⟩)
          · exact hpair a ha (e1.trans e2.symm) e2
        · rcases hb with hb | rfl
          · exact hpair b hb (e2.trans e1.symm) e1
          · exact absurd rfl hne
    · intro j y q hj hlf
      -- which entity is it?
      by_cases hjz : i < E.ents.length ∧ j = i
      · obtain ⟨hi, rfl⟩ := hjz
        rw [if_pos hi, ← hlen, List.getElem?_concat_length] at hj
        cases hj
        have := leafAt_unique hlf hlz
        subst this
        exact ⟨_, hnew hi, rfl, rfl⟩
      · have hj' : es[j]? = some y := by
          by_cases hi : i < E.ents.length
          · rw [if_pos hi] at hj
            have hjl := (List.getElem?_eq_some_iff.mp hj).1
            rw [List.length_append, List.length_singleton] at hjl
            have : j ≠ i := fun e => hjz ⟨hi, e⟩
            rw [List.getElem?_append_left (by omega)] at hj
            exact hj
          · rw [if_neg hi] at hj; exact hj
        have hyes := List.mem_of_getElem? hj'
        have hXy := hes y hyes
        obtain ⟨q0, hq0⟩ := leafAt_exists (dim := E.dim) hE.hD X y
        obtain ⟨cell, f1, f2, f3⟩ := h.canon.leaf j y q0 hj' hq0
        by_cases hrowy : ∃ r, p < r ∧ r ≤ u.cd ∧ A E.dim q0 y = A E.dim r x
        · -- the leaf of y is on the chain: y is x and its leaf moved
          obtain ⟨r, h1, h2, h3⟩ := hrowy
          have hq0r := level_unique hdim (hX y hXy) hx (by have := hq0.1; omega) (by omega) h3
          subst hq0r
          have hxy : x = y := hq0.2.1 x hXx h3.symm
          subst hxy
          have hji := hlast j hj'
          have hrc : q0 = u.cd := by
            rcases hcase with ⟨hB, -, -⟩ | ⟨-, -, hnil⟩ | ⟨hC1, -, hC3⟩
            · exact leafAt_unique hq0 hB
            · rw [hnil] at hyes; simp at hyes
            · have := hC3 q0 hq0
              exact absurd (A_up hpe (by omega)) hC1
          subst hrc
          rw [hP] at f1
          cases f1
          have he : P.entityIdx ≠ -1 := by rw [f2]; omega
          have := leafAt_unique hlf (hlx he).1
          subst this
          refine ⟨_, hrec he, ?_, rfl⟩
          show (i : Int) - 1 = j
          omega
        · have hnr : ∀ r, p < r → r ≤ u.cd → A E.dim q0 y ≠ A E.dim r x := fun r a b e => hrowy ⟨r, a, b, e⟩
          have := leafAt_unique hlf (hleafkeep y q0 hyes hq0 hnr)
          subst this
          refine ⟨cell, ?_, f2, f3⟩
          rcases hcases (A E.dim q y) with ⟨r, h1, h2, h3⟩ | ⟨he, h3⟩ | ⟨hi, h3⟩ | ⟨h1, h2, h3, h4⟩
          · exact absurd h3 (hnr r h1 h2)
          · rw [h3, hxabs he] at f1; cases f1
          · rw [h3, hzabs] at f1; cases f1
          · rw [h4]; exact f1
  · -- finished nodes
    intro c cell hc
    rcases hcases c with ⟨r, h1, h2, rfl⟩ | ⟨he, rfl⟩ | ⟨hi, rfl⟩ | ⟨h1, h2, h3, h4⟩
    · obtain ⟨cell', e1, -, e3⟩ := hrow r h1 h2
      rw [e1] at hc
      cases hc
      have hneg : cell.nodeIdx = -1 := by rw [e3]; split; exact hPnode; rfl
      constructor
      · intro hc; exact absurd hneg hc
      · rintro ⟨-, hcl, -⟩
        rcases hcl with hcl | ⟨q, hq, -⟩
        · exact absurd ⟨r, by omega, (A_up hpe (by omega) : A E.dim r x = A E.dim r z).symm⟩ hcl
        · omega
    · rw [hrec he] at hc
      cases hc
      constructor
      · intro hc; exact absurd rfl hc
      · rintro ⟨hN, -⟩
        rcases hnx with h5 | h5
        · exact absurd hN h5
        · exact absurd h5 he
    · rw [hnew hi] at hc
      cases hc
      constructor
      · intro hc; exact absurd rfl hc
      · rintro ⟨hN, -⟩; exact absurd hN hnz
    · rw [h4] at hc
      rw [h.fin c cell hc]
      constructor
      · rintro ⟨hN, b1, b2, b3⟩
        refine ⟨node_mono (fun y hy => Or.inl hy) hN, Or.inl ?_, b2, b3⟩
        rintro ⟨q, hq, he⟩
        have hqx : A E.dim q x = c := by
          rcases hN with hN | ⟨a, _, ha, -, -, r, hr, e1, -⟩
          · have hqD := (A_eq_one hdim hz hq).mp (he.trans hN)
            rw [hqD, hN]; exact hx
          · have := level_unique hdim (hX a ha) hz hr hq (e1.trans he.symm)
            subst this
            rw [hsw a r ha (e1.trans he.symm), he]
        rcases b1 with b1 | ⟨r, hr, hr2⟩
        · exact b1 ⟨q, hq, hqx⟩
        · have hqr := level_unique hdim hx hx hq (by omega) (hqx.trans hr2)
          subst hqr
          exact h1 q (hgt q hq (hqx.trans he.symm)) (by omega) hqx.symm
      · rintro ⟨hN, b1, b2, b3⟩
        have hnz : ¬ H E.D E.dim c z := by
          rcases b1 with b1 | ⟨r, hr, -⟩
          · exact b1
          · omega
        refine ⟨?_, ?_, b2, b3⟩
        · rcases hN with hN | ⟨a, b, ha, hb, hne, q, hq, e1, e2⟩
          · exact Or.inl hN
          · rcases ha with ha | rfl
            · rcases hb with hb | rfl
              · exact Or.inr ⟨a, b, ha, hb, hne, q, hq, e1, e2⟩
              · exact absurd ⟨q, hq, e2⟩ hnz
            · exact absurd ⟨q, hq, e1⟩ hnz
        · by_cases hHx : H E.D E.dim c x
          · obtain ⟨q, hq, he⟩ := hHx
            refine Or.inr ⟨q, ?_, he.symm⟩
            rcases Nat.lt_or_ge q u.cd with h5 | h5
            · exact h5
            · exact absurd ⟨q, hq, (hle q h5).symm.trans he⟩ hnz
          · exact Or.inl hHx
  · -- the log
    have hkeep : ∀ c cell, u.tbl c = some cell → cell.nodeIdx ≠ -1 → t c = some cell := by
      intro c cell hc hcn
      rcases hcases c with ⟨r, h1, h2, rfl⟩ | ⟨he, rfl⟩ | ⟨hi, rfl⟩ | ⟨h1, h2, h3, h4⟩
      · exact absurd (hrowold r h1 h2 cell hc) hcn
      · rw [hxabs he] at hc; cases hc
      · rw [hzabs] at hc; cases hc
      · rw [h4]; exact hc
    refine ⟨?_, ?_⟩
    · intro c cell hc hcn
      rcases hcases c with ⟨r, h1, h2, rfl⟩ | ⟨he, rfl⟩ | ⟨hi, rfl⟩ | ⟨h1, h2, h3, h4⟩
      · obtain ⟨cell', e1, -, e3⟩ := hrow r h1 h2
        rw [e1] at hc
        cases hc
        have hneg : cell.nodeIdx = -1 := by rw [e3]; split; exact hPnode; rfl
        exact absurd hneg hcn
      · rw [hrec he] at hc
        cases hc
        exact absurd rfl hcn
      · rw [hnew hi] at hc
        cases hc
        exact absurd rfl hcn
      · rw [h4] at hc
        exact h.log.idx c cell hc hcn
    · intro m call hm
      obtain ⟨⟨cell, g1, g2⟩, g3, g4, g5, g6⟩ := h.log.ent m call hm
      have hcn : cell.nodeIdx ≠ -1 := by rw [g2]; omega
      obtain ⟨hN, hcl, -⟩ := (h.fin _ _ g1).mp hcn
      have hkpos := node_pos hX hN
      have hch : childCells E.dim t call.key = childCells E.dim u.tbl call.key := by
        rw [childCells, childCells]
        apply List.filterMap_congr
        intro b hb
        rw [List.mem_range] at hb
        -- the parent of a changed cell is no finished node
        have hpar : ∀ r, p < r → r ≤ E.D → call.key = A E.dim r x → False := by
          intro r h1 h2 he
          rcases Nat.lt_or_ge u.cd r with h3 | h3
          · rcases hcl with hcl | ⟨q, hq, hq2⟩
            · exact hcl ⟨r, h2, he.symm⟩
            · have := level_unique hdim hx hx h2 (by omega) (he.symm.trans hq2)
              omega
          · rw [he] at g1
            exact hcn (hrowold r h1 h3 cell g1)
        rcases hcases (call.key * 2 ^ E.dim + b) with ⟨r, h1, h2, h3⟩ | ⟨he, h3⟩ | ⟨hi, h3⟩ | ⟨h1, h2, h3, h4⟩
        · exfalso
          obtain ⟨q, hq, e1, e2⟩ := H_parent hdim hx hkpos hb ⟨r, by omega, h3.symm⟩
          have := level_unique hdim hx hx (show q ≤ E.D by omega) (show r ≤ E.D by omega) (e1.trans h3)
          exact hpar (q + 1) (by omega) hq e2.symm
        · exfalso
          obtain ⟨q, hq, e1, e2⟩ := H_parent hdim hx hkpos hb ⟨p, by omega, h3.symm⟩
          have := level_unique hdim hx hx (show q ≤ E.D by omega) (show p ≤ E.D by omega) (e1.trans h3)
          exact hpar (q + 1) (by omega) hq e2.symm
        · exfalso
          obtain ⟨q, hq, e1, e2⟩ := H_parent hdim hz hkpos hb ⟨p, by omega, h3.symm⟩
          have hqp := level_unique hdim hz hz (show q ≤ E.D by omega) (show p ≤ E.D by omega) (e1.trans h3)
          subst hqp
          exact hpar (q + 1) (by omega) hq (e2.symm.trans hpe.symm)
        · exact h4
      refine ⟨⟨cell, hkeep _ _ g1 hcn, g2⟩, ?_, ?_, ?_, g6⟩
      · rw [hch]; exact g3
      · rw [hch]; exact g4
      · rw [hch]; exact g5

end FleCSPH.Tree
