import Verif.Spec.Tree
import Verif.Model.BuildTree
import Verif.Props.C08

/-! Lemmas about cells and keys used for `build_tree`. -/
namespace FleCSPH.Tree
open FleCSPH.Spec FleCSPH.HCell FleCSPH.BuildTree

/-- `x` without its last `p` digits. -/
def A (dim p x : Nat) : Nat := x / 2 ^ (p * dim)

theorem A_zero (dim x : Nat) : A dim 0 x = x := by simp [A]

theorem A_add (dim p r x : Nat) : A dim (p + r) x = A dim r (A dim p x) := by
  simp only [A, Nat.div_div_eq_div_mul]
  rw [← Nat.pow_add, Nat.add_mul]

theorem A_succ (dim p x : Nat) : A dim (p + 1) x = A dim p x / 2 ^ dim := by
  rw [A_add]; simp [A]

theorem A_mono (dim p : Nat) {x y : Nat} (h : x ≤ y) : A dim p x ≤ A dim p y := Nat.div_le_div_right h

theorem A_up {dim p r x y : Nat} (h : A dim p x = A dim p y) (hr : p ≤ r) : A dim r x = A dim r y := by
  obtain ⟨k, rfl⟩ := Nat.exists_eq_add_of_le hr
  rw [A_add, A_add, h]

theorem A_sandwich {dim p x y z : Nat} (h1 : x ≤ y) (h2 : y ≤ z) (h : A dim p x = A dim p z) : A dim p y = A dim p x := by
  have a := A_mono dim p h1
  have b := A_mono dim p h2
  omega

theorem A_bounds {D dim p x : Nat} (hx : FullKey D dim x) (hp : p ≤ D) :
    2 ^ ((D - p) * dim) ≤ A dim p x ∧ A dim p x < 2 ^ ((D - p) * dim + 1) := by
  have h : A dim (D - p) (A dim p x) = 1 := by
    rw [← A_add, Nat.add_sub_of_le hp]; exact hx
  have hpos : 0 < 2 ^ ((D - p) * dim) := Nat.pow_pos (by decide)
  rw [A] at h
  have h3 := Nat.div_add_mod (A dim p x) (2 ^ ((D - p) * dim))
  have h4 := Nat.mod_lt (A dim p x) hpos
  rw [h] at h3
  rw [Nat.pow_succ]
  omega

theorem A_pos {D dim p x : Nat} (hx : FullKey D dim x) (hp : p ≤ D) : 0 < A dim p x :=
  Nat.lt_of_lt_of_le (Nat.pow_pos (by decide)) (A_bounds hx hp).1

theorem level_unique {D dim p r x y : Nat} (hdim : 0 < dim) (hx : FullKey D dim x) (hy : FullKey D dim y)
    (hp : p ≤ D) (hr : r ≤ D) (h : A dim p x = A dim r y) : p = r := by
  have key : ∀ {p r x y : Nat}, FullKey D dim x → FullKey D dim y → p ≤ D → r ≤ D → A dim p x = A dim r y → ¬ p < r := by
    intro p r x y hx hy hp hr h hlt
    have b1 := (A_bounds hx hp).1
    have b2 := (A_bounds hy hr).2
    have h3 : (D - r) * dim + 1 ≤ (D - p) * dim := by
      have : (D - r + 1) * dim ≤ (D - p) * dim := Nat.mul_le_mul_right _ (by omega)
      rw [Nat.add_mul] at this
      omega
    have h4 : 2 ^ ((D - r) * dim + 1) ≤ 2 ^ ((D - p) * dim) := Nat.pow_le_pow_right (by decide) h3
    omega
  rcases Nat.lt_trichotomy p r with h1 | h1 | h1
  · exact absurd h1 (key hx hy hp hr h)
  · exact h1
  · exact absurd h1 (key hy hx hr hp h.symm)

theorem A_eq_one {D dim p x : Nat} (hdim : 0 < dim) (hx : FullKey D dim x) (hp : p ≤ D) : A dim p x = 1 ↔ p = D := by
  constructor
  · intro h
    exact level_unique hdim hx hx hp (Nat.le_refl _) (h.trans (Eq.symm hx))
  · rintro rfl; exact hx

theorem A_digit (dim p x : Nat) : A dim p x = A dim (p + 1) x * 2 ^ dim + A dim p x % 2 ^ dim := by
  rw [A_succ]
  have := Nat.div_add_mod (A dim p x) (2 ^ dim)
  rw [Nat.mul_comm] at this
  exact this.symm

theorem lastValue_eq (dim v : Nat) : Key.lastValue dim v = v % 2 ^ dim := by
  rw [Key.lastValue, Nat.shiftLeft_eq, Nat.one_mul, Nat.and_two_pow_sub_one_eq_mod]

theorem child_or (dim c b : Nat) (hb : b < 2 ^ dim) : (c <<< dim) ||| b = c * 2 ^ dim + b := by
  rw [← Nat.shiftLeft_add_eq_or_of_lt hb, Nat.shiftLeft_eq]

/-- Two cells with the same child are equal. -/
theorem child_inj {dim c c' b b' : Nat} (hb : b < 2 ^ dim) (hb' : b' < 2 ^ dim)
    (h : c * 2 ^ dim + b = c' * 2 ^ dim + b') : c = c' ∧ b = b' := by
  have hq : 0 < 2 ^ dim := Nat.pow_pos (by decide)
  have h1 : (c * 2 ^ dim + b) / 2 ^ dim = c := by
    rw [Nat.mul_comm, Nat.mul_add_div hq, Nat.div_eq_of_lt hb, Nat.add_zero]
  have h2 : (c' * 2 ^ dim + b') / 2 ^ dim = c' := by
    rw [Nat.mul_comm, Nat.mul_add_div hq, Nat.div_eq_of_lt hb', Nat.add_zero]
  have : c = c' := by rw [← h1, ← h2, h]
  subst this
  exact ⟨rfl, by omega⟩

theorem child_ne {dim c b : Nat} (hdim : 0 < dim) (hc : 0 < c) : c * 2 ^ dim + b ≠ c := by
  have : 2 ≤ 2 ^ dim := by
    calc 2 = 2 ^ 1 := rfl
      _ ≤ 2 ^ dim := Nat.pow_le_pow_right (by decide) hdim
  have := Nat.mul_le_mul_left c this
  omega

theorem child_div {dim c b : Nat} (hb : b < 2 ^ dim) : (c * 2 ^ dim + b) / 2 ^ dim = c := by
  rw [Nat.mul_comm, Nat.mul_add_div (Nat.pow_pos (by decide)), Nat.div_eq_of_lt hb, Nat.add_zero]

/-! ### The table -/

theorem set_apply (t : Tbl) (k : Nat) (c : Cell) (j : Nat) : t.set k c j = if j = k then some c else t j := rfl

theorem emplace_fresh {t : Tbl} {k : Nat} (c : Cell) (h : t k = none) : t.emplace k c = t.set k c := by
  rw [Tbl.emplace, h]; rfl

theorem getChild_eq (x : Cell) (c : Nat) : getChild x c = x.ty.testBit c := by rw [getChild, and_bit_ne_zero]

/-- The child flags of a cell name exactly the cells present below it. -/
def ChildOk (dim : Nat) (t : Tbl) : Prop :=
  ∀ c cell b, t c = some cell → b < 2 ^ dim → (getChild cell b = true ↔ (t (c * 2 ^ dim + b)).isSome = true)

theorem childOk_link {dim : Nat} (hdim : 0 < dim) {t : Tbl} (h : ChildOk dim t) {c b : Nat} (hc : 0 < c) (hb : b < 2 ^ dim)
    {p p' new : Cell} (hp : t c = some p) (hp' : p'.ty = p.ty ||| (1 <<< b)) (hnew : new.ty = 0)
    (hf : t (c * 2 ^ dim + b) = none) (hf2 : ∀ b' < 2 ^ dim, t ((c * 2 ^ dim + b) * 2 ^ dim + b') = none) :
    ChildOk dim ((t.set c p').emplace (c * 2 ^ dim + b) new) := by
  have hne := child_ne (dim := dim) (b := b) hdim hc
  rw [emplace_fresh _ (by rw [set_apply, if_neg hne]; exact hf)]
  intro c1 cell1 b1 h1 hb1
  rw [set_apply, set_apply] at h1
  have hk : ((t.set c p').set (c * 2 ^ dim + b) new (c1 * 2 ^ dim + b1)).isSome =
      (decide (c1 = c ∧ b1 = b) || (t (c1 * 2 ^ dim + b1)).isSome) := by
    rw [set_apply, set_apply]
    by_cases e1 : c1 * 2 ^ dim + b1 = c * 2 ^ dim + b
    · have := child_inj hb1 hb e1
      rw [if_pos e1]; simp [this]
    · rw [if_neg e1]
      have : ¬ (c1 = c ∧ b1 = b) := by rintro ⟨rfl, rfl⟩; exact e1 rfl
      by_cases e2 : c1 * 2 ^ dim + b1 = c
      · rw [if_pos e2, e2, hp]; simp
      · rw [if_neg e2]; simp [this]
  rw [hk]
  by_cases e1 : c1 = c * 2 ^ dim + b
  · rw [if_pos e1] at h1
    cases h1
    have : ¬ (c1 = c ∧ b1 = b) := by rintro ⟨h3, -⟩; exact hne (e1.symm.trans h3)
    rw [getChild_eq, hnew, e1, hf2 b1 hb1]
    have h4 : ¬ (c * 2 ^ dim + b = c ∧ b1 = b) := fun h5 => hne h5.1
    simp [h4]
  · rw [if_neg e1] at h1
    by_cases e2 : c1 = c
    · rw [if_pos e2] at h1
      cases h1
      subst e2
      rw [getChild_eq, hp', Nat.testBit_or, Nat.one_shiftLeft, Nat.testBit_two_pow]
      have := h c1 p b1 hp hb1
      rw [getChild_eq] at this
      by_cases e3 : b1 = b
      · simp [e3]
      · have e4 : ¬ b = b1 := fun e => e3 e.symm
        simp [e3, e4, this]
    · rw [if_neg e2] at h1
      have h4 : ¬ (c1 = c ∧ b1 = b) := fun h5 => e2 h5.1
      rw [h c1 cell1 b1 h1 hb1]; simp [h4]

/-- `k` lies strictly inside `c`. -/
def SBelow (dim k c : Nat) : Prop := ∃ m, A dim (m + 1) k = c

theorem SBelow.child {dim k c b : Nat} (h : SBelow dim k c) (hb : b < 2 ^ dim) : SBelow dim (k * 2 ^ dim + b) c := by
  obtain ⟨m, hm⟩ := h
  refine ⟨m + 1, ?_⟩
  rw [show m + 1 + 1 = 1 + (m + 1) from by omega, A_add, show A dim 1 (k * 2 ^ dim + b) = k from by
    rw [show (1 : Nat) = 0 + 1 from rfl, A_succ, A_zero, child_div hb], hm]

theorem SBelow.of_A {dim p r x : Nat} (h : p < r) : SBelow dim (A dim p x) (A dim r x) :=
  ⟨r - p - 1, by rw [← A_add]; congr 1; omega⟩

theorem pop_some {E : Env} {k c : Nat} (h : c ≤ E.D) : BuildTree.pop E k c = some (A E.dim c k) := by
  rw [BuildTree.pop, if_pos h, Nat.shiftRight_eq_div_pow]; rfl

/-! ### The second inner loop -/

theorem descend_spec (E : Env) (hdim : 0 < E.dim) (x z : Nat) (hx : FullKey E.D E.dim x) (hxz : x ≠ z) :
    ∀ (c0 : Nat) (t : Tbl) (P : Cell), c0 ≤ E.D → A E.dim c0 x = A E.dim c0 z → ChildOk E.dim t → t (A E.dim c0 x) = some P →
    (((∀ k, SBelow E.dim k (A E.dim c0 x) → t k = none) ∧ P.nodeIdx = -1) ∨ (A E.dim (c0 - 1) x ≠ A E.dim (c0 - 1) z)) →
    ∃ (t' : Tbl) (p : Nat), p < c0 ∧ A E.dim p x ≠ A E.dim p z ∧ A E.dim (p + 1) x = A E.dim (p + 1) z ∧
      descend E z x c0 t (A E.dim c0 x) = some (t', A E.dim (p + 1) x, p, A E.dim p z, A E.dim p x) ∧
      ChildOk E.dim t' ∧
      (∀ k, (∀ r, p < r → r ≤ c0 → k ≠ A E.dim r x) → t' k = t k) ∧
      (∀ r, p < r → r < c0 → ∃ cell, t' (A E.dim r x) = some cell ∧ cell.entityIdx = -1 ∧ cell.nodeIdx = -1) ∧
      (∃ P', t' (A E.dim c0 x) = some P' ∧ P'.nodeIdx = P.nodeIdx ∧
        P'.entityIdx = if p + 1 = c0 then P.entityIdx else -1) := by
  intro c0
  induction c0 with
  | zero =>
    intro t P _ h0
    simp only [A_zero] at h0
    exact absurd h0 hxz
  | succ c ih =>
    intro t P hc0 hA hok hP hcase
    by_cases hne : A E.dim c x = A E.dim c z
    · rcases hcase with ⟨hfresh, hnode⟩ | h
      swap
      · exact absurd hne h
      have hdig := A_digit E.dim c z
      have hb : A E.dim c z % 2 ^ E.dim < 2 ^ E.dim := Nat.mod_lt _ (Nat.pow_pos (by decide))
      have hpos := A_pos hx hc0
      rw [← hA] at hdig
      have hsb : SBelow E.dim (A E.dim c x) (A E.dim (c + 1) x) := SBelow.of_A (Nat.lt_succ_self c)
      have hnone : t (A E.dim c z) = none := by rw [← hne]; exact hfresh _ hsb
      let p' : Cell := { addChild P (Key.lastValue E.dim (A E.dim c z)) with entityIdx := -1 }
      have hset : setEntityIdx (addChild P (Key.lastValue E.dim (A E.dim c z))) (-1) = some p' := by
        rw [setEntityIdx, if_pos]; exact hnode
      let t1 : Tbl := (t.set (A E.dim (c + 1) x) p').emplace (A E.dim c z) {}
      have ht1 : ∀ k, t1 k = if k = A E.dim c x then some {} else if k = A E.dim (c + 1) x then some p' else t k := by
        intro k
        have h1 : A E.dim c z ≠ A E.dim (c + 1) x := by
          intro e; rw [hdig] at e; exact child_ne hdim hpos e
        show ((t.set (A E.dim (c + 1) x) p').emplace (A E.dim c z) {}) k = _
        rw [emplace_fresh _ (by rw [set_apply, if_neg h1]; exact hnone), set_apply, set_apply, hne]
      have hok1 : ChildOk E.dim t1 := by
        have := childOk_link hdim hok hpos hb hP (p' := p') (new := {}) (by
          show P.ty ||| _ = _
          rw [lastValue_eq]) rfl (by rw [← hdig]; exact hnone) (by
            intro b' hb'
            rw [← hdig, ← hne]
            exact hfresh _ (hsb.child hb'))
        rw [← hdig] at this
        exact this
      have hfr1 : ∀ k, SBelow E.dim k (A E.dim c x) → t1 k = none := by
        rintro k ⟨m, hm⟩
        have hk1 : SBelow E.dim k (A E.dim (c + 1) x) := by
          refine ⟨m + 1, ?_⟩
          rw [A_succ E.dim (m + 1), hm, ← A_succ]
        have e1 : k ≠ A E.dim c x := by
          rintro rfl
          rw [← A_add] at hm
          have hcD : c ≤ E.D := by omega
          have : A E.dim (c + (m + 1)) x < A E.dim c x := by
            rw [A_add]
            apply Nat.div_lt_self (A_pos hx hcD)
            exact Nat.one_lt_two_pow (Nat.mul_ne_zero (Nat.succ_ne_zero m) (Nat.pos_iff_ne_zero.mp hdim))
          omega
        have e2 : k ≠ A E.dim (c + 1) x := by
          rintro rfl
          have h6 : A E.dim (m + 1) (A E.dim (c + 1) x) ≤ A E.dim (c + 1) x := Nat.div_le_self _ _
          rw [hm] at h6
          have h7 : A E.dim c x ≤ A E.dim (c + 1) x := h6
          rw [hne] at h7
          rw [hdig] at h7
          have : 2 ≤ 2 ^ E.dim := by
            calc 2 = 2 ^ 1 := rfl
              _ ≤ 2 ^ E.dim := Nat.pow_le_pow_right (by decide) hdim
          have := Nat.mul_le_mul_left (A E.dim (c + 1) x) this
          omega
        rw [ht1, if_neg e1, if_neg e2]
        exact hfresh k hk1
      obtain ⟨t', p, hp, hpne, hpe, hd, hok', hframe, hchain, P', hP', hPn, hPe⟩ :=
        ih t1 {} (by omega) hne hok1 (by rw [ht1, if_pos rfl]) (Or.inl ⟨hfr1, rfl⟩)
      refine ⟨t', p, by omega, hpne, hpe, ?_, hok', ?_, ?_, ?_⟩
      · rw [descend, pop_some (by omega), pop_some (by omega)]
        simp only [Option.bind_eq_bind, Option.bind_some]
        rw [if_neg (by simp [hne]), hP]
        simp only [Option.bind_some]
        rw [hset]
        simp only [Option.bind_some]
        have : descend E z x c t1 (A E.dim c z) = some (t', A E.dim (p + 1) x, p, A E.dim p z, A E.dim p x) := by
          rw [← hne]; exact hd
        exact this
      · intro k hk
        rw [hframe k (fun r h1 h2 => hk r h1 (by omega)), ht1, if_neg (hk c (by omega) (by omega)),
          if_neg (hk (c + 1) (by omega) (by omega))]
      · intro r hr1 hr2
        rcases Nat.lt_or_ge r c with h | h
        · exact hchain r hr1 h
        · have : r = c := by omega
          subst this
          refine ⟨P', hP', ?_, hPn⟩
          rw [hPe]; split <;> rfl
      · refine ⟨p', ?_, rfl, ?_⟩
        · rw [hframe, ht1, if_neg, if_pos rfl]
          · intro e
            have h8 : c + 1 = c := level_unique hdim hx hx hc0 (by omega) e
            omega
          · intro r h1 h2 e
            have h8 : c + 1 = r := level_unique hdim hx hx hc0 (by omega) e
            omega
        · rw [if_neg (by omega)]
    · refine ⟨t, c, by omega, hne, hA, ?_, hok, fun _ _ => rfl, ?_, P, hP, rfl, by rw [if_pos rfl]⟩
      · rw [descend, pop_some (by omega), pop_some (by omega)]
        simp only [Option.bind_eq_bind, Option.bind_some]
        rw [if_pos (fun e => hne e.symm)]
      · intro r h1 h2; omega

theorem link_apply {dim : Nat} (hdim : 0 < dim) {t : Tbl} {c b : Nat} (hc : 0 < c) (p' new : Cell)
    (hf : t (c * 2 ^ dim + b) = none) (k : Nat) :
    ((t.set c p').emplace (c * 2 ^ dim + b) new) k =
      if k = c * 2 ^ dim + b then some new else if k = c then some p' else t k := by
  rw [emplace_fresh _ (by rw [set_apply, if_neg (child_ne hdim hc)]; exact hf), set_apply, set_apply]

theorem insert_spec (E : Env) (hdim : 0 < E.dim) (i x z : Nat) (hx : FullKey E.D E.dim x) (hz : FullKey E.D E.dim z)
    (hxz : x ≠ z) (u : Up) (P : Cell) (hcd : u.cd ≤ E.D) (hl : u.lastnkey = A E.dim u.cd x)
    (hA : A E.dim u.cd x = A E.dim u.cd z) (hok : ChildOk E.dim u.tbl) (hP : u.tbl (A E.dim u.cd x) = some P)
    (hcase : ((∀ k, SBelow E.dim k (A E.dim u.cd x) → u.tbl k = none) ∧ P.nodeIdx = -1) ∨
      (A E.dim (u.cd - 1) x ≠ A E.dim (u.cd - 1) z ∧ P.entityIdx = -1))
    (hzf : ∀ p, p < u.cd → A E.dim p x ≠ A E.dim p z → ∀ k, (k = A E.dim p z ∨ SBelow E.dim k (A E.dim p z)) → u.tbl k = none) :
    ∃ (t : Tbl) (p : Nat), p < u.cd ∧ A E.dim p x ≠ A E.dim p z ∧ A E.dim (p + 1) x = A E.dim (p + 1) z ∧
      BuildTree.insert E i z x u = some (t, p, A E.dim p z) ∧ ChildOk E.dim t ∧
      (∀ k, (∀ r, p < r → r ≤ u.cd → k ≠ A E.dim r x) → (P.entityIdx ≠ -1 → k ≠ A E.dim p x) →
        (i < E.ents.length → k ≠ A E.dim p z) → t k = u.tbl k) ∧
      (∀ r, p < r → r ≤ u.cd → ∃ cell, t (A E.dim r x) = some cell ∧ cell.entityIdx = -1 ∧
        cell.nodeIdx = if r = u.cd then P.nodeIdx else -1) ∧
      (P.entityIdx ≠ -1 → t (A E.dim p x) = some { entityIdx := (i : Int) - 1 }) ∧
      (i < E.ents.length → t (A E.dim p z) = some { entityIdx := (i : Int) }) := by
  obtain ⟨t1, p, hp, hpne, hpe, hd, hok1, hframe, hchain, P', hP', hPn, hPe⟩ :=
    descend_spec E hdim x z hx hxz u.cd u.tbl P hcd hA hok hP (by
      rcases hcase with h | h
      · exact Or.inl h
      · exact Or.inr h.1)
  -- the chain in the first table
  have hrow : ∀ r, p < r → r ≤ u.cd → ∃ cell, t1 (A E.dim r x) = some cell ∧
      cell.entityIdx = (if r = u.cd ∧ p + 1 = u.cd then P.entityIdx else -1) ∧
      cell.nodeIdx = if r = u.cd then P.nodeIdx else -1 := by
    intro r h1 h2
    rcases Nat.lt_or_ge r u.cd with h | h
    · obtain ⟨cell, a1, a2, a3⟩ := hchain r h1 h
      exact ⟨cell, a1, by rw [a2, if_neg (by omega)], by rw [a3, if_neg (by omega)]⟩
    · have : r = u.cd := by omega
      subst this
      refine ⟨P', hP', ?_, by rw [hPn, if_pos rfl]⟩
      rw [hPe]
      by_cases h3 : p + 1 = u.cd
      · rw [if_pos h3, if_pos ⟨rfl, h3⟩]
      · rw [if_neg h3, if_neg (fun h4 => h3 h4.2)]
  have hpD : p + 1 ≤ E.D := by omega
  have hpos : 0 < A E.dim (p + 1) x := A_pos hx hpD
  have hdx := A_digit E.dim p x
  have hdz := A_digit E.dim p z
  rw [← hpe] at hdz
  have hbx : A E.dim p x % 2 ^ E.dim < 2 ^ E.dim := Nat.mod_lt _ (Nat.pow_pos (by decide))
  have hbz : A E.dim p z % 2 ^ E.dim < 2 ^ E.dim := Nat.mod_lt _ (Nat.pow_pos (by decide))
  have nex : ∀ r, p < r → r ≤ u.cd → A E.dim p x ≠ A E.dim r x := by
    intro r h1 h2 e
    have := level_unique hdim hx hx (by omega) (by omega) e
    omega
  have nez : ∀ r, p < r → r ≤ u.cd → A E.dim p z ≠ A E.dim r x := by
    intro r h1 h2 e
    have := level_unique hdim hz hx (by omega) (by omega) e
    omega
  have below1 : ∀ k, SBelow E.dim k (A E.dim p x) → ∀ r, p < r → r ≤ u.cd → k ≠ A E.dim r x := by
    rintro k ⟨m, hm⟩ r h1 h2 rfl
    have h3 : A E.dim (m + 1) (A E.dim r x) ≤ A E.dim r x := Nat.div_le_self _ _
    rw [hm] at h3
    have h4 : A E.dim (r - p) (A E.dim p x) < A E.dim p x := by
      apply Nat.div_lt_self (A_pos hx (by omega))
      exact Nat.one_lt_two_pow (Nat.mul_ne_zero (by omega) (Nat.pos_iff_ne_zero.mp hdim))
    rw [← A_add, Nat.add_sub_of_le (by omega)] at h4
    omega
  have below2 : ∀ k, SBelow E.dim k (A E.dim p z) → ∀ r, p < r → r ≤ u.cd → k ≠ A E.dim r x := by
    rintro k ⟨m, hm⟩ r h1 h2 rfl
    rw [← A_add] at hm
    have hrz : A E.dim r x = A E.dim r z := by
      have := A_up (r := r) hpe (by omega)
      exact this
    have h3 : A E.dim (r + (m + 1)) x = A E.dim (r + (m + 1)) z := A_up hpe (by omega)
    rw [h3] at hm
    have h4 : A E.dim (r + (m + 1)) z ≤ A E.dim r z := by rw [A_add]; exact Nat.div_le_self _ _
    rw [hm] at h4
    have h5 : A E.dim (r - p) (A E.dim p z) < A E.dim p z := by
      apply Nat.div_lt_self (A_pos hz (by omega))
      exact Nat.one_lt_two_pow (Nat.mul_ne_zero (by omega) (Nat.pos_iff_ne_zero.mp hdim))
    rw [← A_add, Nat.add_sub_of_le (by omega)] at h5
    omega
  have sxz : ∀ k, SBelow E.dim k (A E.dim p z) → k ≠ A E.dim p x := by
    rintro k ⟨m, hm⟩ rfl
    rw [← A_add] at hm
    have h3 : A E.dim (p + (m + 1)) x = A E.dim (p + (m + 1)) z := A_up hpe (by omega)
    rw [h3] at hm
    have h5 : A E.dim (m + 1) (A E.dim p z) < A E.dim p z := by
      apply Nat.div_lt_self (A_pos hz (by omega))
      exact Nat.one_lt_two_pow (Nat.mul_ne_zero (by omega) (Nat.pos_iff_ne_zero.mp hdim))
    rw [← A_add, hm] at h5
    omega
  -- the second table: the previous entity recovered
  obtain ⟨t2, ht2, hok2, hfr2, hrow2, hx2⟩ : ∃ t2 : Tbl,
      recover E i P.entityIdx (A E.dim (p + 1) x) (A E.dim p x) t1 = some t2 ∧ ChildOk E.dim t2 ∧
      (∀ k, (∀ r, p < r → r ≤ u.cd → k ≠ A E.dim r x) → (P.entityIdx ≠ -1 → k ≠ A E.dim p x) → t2 k = t1 k) ∧
      (∀ r, p < r → r ≤ u.cd → ∃ cell, t2 (A E.dim r x) = some cell ∧ cell.entityIdx = -1 ∧
        cell.nodeIdx = if r = u.cd then P.nodeIdx else -1) ∧
      (P.entityIdx ≠ -1 → t2 (A E.dim p x) = some { entityIdx := (i : Int) - 1 }) := by
    by_cases he : P.entityIdx = -1
    · refine ⟨t1, by rw [recover, if_neg (by simp [he])], hok1, fun _ _ _ => rfl, ?_, fun h => absurd he h⟩
      intro r h1 h2
      obtain ⟨cell, a1, a2, a3⟩ := hrow r h1 h2
      refine ⟨cell, a1, ?_, a3⟩
      rw [a2]; split
      · exact he
      · rfl
    · rcases hcase with ⟨hfresh, hnode⟩ | ⟨_, h⟩
      swap
      · exact absurd h he
      obtain ⟨q, hq, -, hqn⟩ := hrow (p + 1) (by omega) (by omega)
      have hqn' : q.nodeIdx = -1 := by rw [hqn, hnode]; split <;> rfl
      have hnone : t1 (A E.dim p x) = none := by
        rw [hframe _ (fun r h1 h2 => nex r h1 h2)]
        exact hfresh _ (SBelow.of_A hp)
      let p' : Cell := { addChild q (Key.lastValue E.dim (A E.dim p x)) with entityIdx := -1 }
      have hset : setEntityIdx (addChild q (Key.lastValue E.dim (A E.dim p x))) (-1) = some p' := by
        rw [setEntityIdx, if_pos]; exact hqn'
      have happ := link_apply hdim hpos p' { entityIdx := (i : Int) - 1 } (by rw [← hdx]; exact hnone)
      rw [← hdx] at happ
      refine ⟨(t1.set (A E.dim (p + 1) x) p').emplace (A E.dim p x) { entityIdx := (i : Int) - 1 }, ?_, ?_, ?_, ?_, ?_⟩
      · rw [recover, if_pos he, hq]
        simp only [Option.bind_eq_bind, Option.bind_some]
        rw [hset]; rfl
      · have := childOk_link hdim hok1 hpos hbx hq (p' := p') (new := { entityIdx := (i : Int) - 1 }) (by
          show q.ty ||| _ = _
          rw [lastValue_eq]) rfl (by rw [← hdx]; exact hnone) (by
            intro b' hb'
            rw [← hdx]
            have hsb : SBelow E.dim (A E.dim p x * 2 ^ E.dim + b') (A E.dim p x) := by
              refine ⟨0, ?_⟩
              rw [A_succ, A_zero, child_div hb']
            rw [hframe _ (below1 _ hsb)]
            exact hfresh _ ((SBelow.of_A hp).child hb'))
        rw [← hdx] at this
        exact this
      · intro k h1 h2
        rw [happ, if_neg (h2 he), if_neg (h1 (p + 1) (by omega) (by omega))]
      · intro r h1 h2
        by_cases hr : r = p + 1
        · subst hr
          refine ⟨p', by rw [happ, if_neg (fun e => nex _ h1 h2 e.symm), if_pos rfl], rfl, ?_⟩
          show q.nodeIdx = _
          rw [hqn', hnode]; split <;> rfl
        · obtain ⟨cell, a1, a2, a3⟩ := hrow r h1 h2
          refine ⟨cell, ?_, ?_, a3⟩
          · rw [happ, if_neg (fun e => nex _ h1 h2 e.symm), if_neg, a1]
            intro e
            exact hr (level_unique hdim hx hx (by omega) hpD e)
          · rw [a2, if_neg (fun h4 => hr (by omega))]
      · intro _
        rw [happ, if_pos rfl]
  -- the third table: the new entity
  obtain ⟨t3, ht3, hok3, hfr3, hrow3, hz3⟩ : ∃ t3 : Tbl,
      addEntity E i (A E.dim (p + 1) x) (A E.dim p z) t2 = some t3 ∧ ChildOk E.dim t3 ∧
      (∀ k, (∀ r, p < r → r ≤ u.cd → k ≠ A E.dim r x) → (i < E.ents.length → k ≠ A E.dim p z) → t3 k = t2 k) ∧
      (∀ r, p < r → r ≤ u.cd → ∃ cell, t3 (A E.dim r x) = some cell ∧ cell.entityIdx = -1 ∧
        cell.nodeIdx = if r = u.cd then P.nodeIdx else -1) ∧
      (i < E.ents.length → t3 (A E.dim p z) = some { entityIdx := (i : Int) }) := by
    by_cases hi : i < E.ents.length
    · obtain ⟨q, hq, hqe, hqn⟩ := hrow2 (p + 1) (by omega) (by omega)
      have hnone : t2 (A E.dim p z) = none := by
        rw [hfr2 _ nez (fun _ => fun e => hpne e.symm), hframe _ nez]
        exact hzf p hp hpne _ (Or.inl rfl)
      have happ := link_apply hdim hpos (addChild q (Key.lastValue E.dim (A E.dim p z))) { entityIdx := (i : Int) }
        (by rw [← hdz]; exact hnone)
      rw [← hdz] at happ
      refine ⟨(t2.set (A E.dim (p + 1) x) (addChild q (Key.lastValue E.dim (A E.dim p z)))).emplace (A E.dim p z)
          { entityIdx := (i : Int) }, ?_, ?_, ?_, ?_, ?_⟩
      · rw [addEntity, if_pos hi, hq]; rfl
      · have := childOk_link hdim hok2 hpos hbz hq (p' := addChild q (Key.lastValue E.dim (A E.dim p z)))
          (new := { entityIdx := (i : Int) }) (by
          show q.ty ||| _ = _
          rw [lastValue_eq]) rfl (by rw [← hdz]; exact hnone) (by
            intro b' hb'
            rw [← hdz]
            have hsb : SBelow E.dim (A E.dim p z * 2 ^ E.dim + b') (A E.dim p z) := by
              refine ⟨0, ?_⟩
              rw [A_succ, A_zero, child_div hb']
            rw [hfr2 _ (below2 _ hsb) (fun _ => sxz _ hsb), hframe _ (below2 _ hsb)]
            exact hzf p hp hpne _ (Or.inr hsb))
        rw [← hdz] at this
        exact this
      · intro k h1 h2
        rw [happ, if_neg (h2 hi), if_neg (h1 (p + 1) (by omega) (by omega))]
      · intro r h1 h2
        by_cases hr : r = p + 1
        · subst hr
          exact ⟨addChild q (Key.lastValue E.dim (A E.dim p z)),
            by rw [happ, if_neg (fun e => nez _ h1 h2 e.symm), if_pos rfl], hqe, hqn⟩
        · obtain ⟨cell, a1, a2, a3⟩ := hrow2 r h1 h2
          refine ⟨cell, ?_, a2, a3⟩
          rw [happ, if_neg (fun e => nez _ h1 h2 e.symm), if_neg, a1]
          intro e
          exact hr (level_unique hdim hx hx (by omega) hpD e)
      · intro _
        rw [happ, if_pos rfl]
    · exact ⟨t2, by rw [addEntity, if_neg hi], hok2, fun _ _ _ => rfl, hrow2, fun h => absurd h hi⟩
  refine ⟨t3, p, hp, hpne, hpe, ?_, hok3, ?_, hrow3, ?_, hz3⟩
  · rw [BuildTree.insert, hl, hP]
    simp only [Option.bind_eq_bind, Option.bind_some]
    rw [hd]
    simp only [Option.bind_some]
    rw [ht2]
    simp only [Option.bind_some]
    rw [ht3]
    rfl
  · intro k h1 h2 h3
    rw [hfr3 k h1 h3, hfr2 k h1 h2, hframe k h1]
  · intro he
    rw [hfr3 _ nex (fun _ => hpne), hx2 he]

end FleCSPH.Tree
