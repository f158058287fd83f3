import Mathlib.Tactic.IntervalCases
import Verif.Spec.Cell
import Verif.Lemmas.Morton

/-! C08: the attributes packed in a tree cell's word are independent, over every history of updates. -/
namespace FleCSPH
open Spec HCell

theorem and_bit_ne_zero (x i : Nat) : (x &&& (1 <<< i) != 0) = x.testBit i := by
  have e : x &&& (1 <<< i) = (x.testBit i).toNat <<< i := by
    apply Nat.eq_of_testBit_eq
    intro q
    rw [shiftBit_testBit, Nat.testBit_and, Nat.one_shiftLeft, Nat.testBit_two_pow]
    by_cases h : q = i
    · subst h; simp
    · have h' : ¬ i = q := fun e => h e.symm
      simp [h, h']
  rw [e, Nat.shiftLeft_eq]
  cases x.testBit i <;> simp

theorem clearBits_testBit (ty mask i : Nat) (hi : i < 32) :
    (clearBits ty mask).testBit i = (ty.testBit i && !mask.testBit i) := by
  rw [clearBits, Nat.testBit_and, Nat.testBit_xor, Nat.testBit_two_pow_sub_one]
  simp [hi]

theorem const_shift_testBit (k p q w : Nat) (hk : k < 2 ^ w) :
    (k <<< p).testBit q = (decide (p ≤ q ∧ q < p + w) && k.testBit (q - p)) := by
  rw [Nat.testBit_shiftLeft]
  by_cases h1 : p ≤ q
  · by_cases h2 : q < p + w
    · simp [h1, h2]
    · have : k.testBit (q - p) = false :=
        Nat.testBit_lt_two_pow (Nat.lt_of_lt_of_le hk (Nat.pow_le_pow_right (by omega) (by omega)))
      simp [this]
  · simp [h1]

/-- The word represents the attributes. -/
structure Rep (D : Nat) (ty : Nat) (a : CellAttr) : Prop where
  child : ∀ c < 2 ^ D, ty.testBit c = a.child c
  loc0 : ty.testBit (2 ^ D) = false
  loc1 : ty.testBit (2 ^ D + 1) = a.shared
  req : ty.testBit (2 ^ D + 2) = a.requested
  recv : ∀ i < 4, ty.testBit (2 ^ D + 3 + i) = a.toReceive.testBit i
  small : a.toReceive < 16

theorem rep_step {D : Nat} (hD : 2 ^ D + 7 ≤ 32) (x : Cell) (a : CellAttr) (h : Rep D x.ty a) (o : Op) (ho : OpOk D o) :
    Rep D (step D x o).ty (a.step o) := by
  have hl : localityDispl D = 2 ^ D := Nat.one_shiftLeft D
  have hr : requestedDispl D = 2 ^ D + 2 := by rw [requestedDispl, Nat.one_shiftLeft]
  have hn : nchildRecvDispl D = 2 ^ D + 3 := by rw [nchildRecvDispl, Nat.one_shiftLeft]
  have m3 : ∀ q, (localityMask D).testBit q = decide (q = 2 ^ D ∨ q = 2 ^ D + 1) := by
    intro q
    rw [localityMask, hl, const_shift_testBit 3 _ _ 2 (by decide)]
    by_cases h1 : 2 ^ D ≤ q ∧ q < 2 ^ D + 2
    · have : q = 2 ^ D ∨ q = 2 ^ D + 1 := by omega
      rcases this with h2 | h2 <;> subst h2 <;> simp [Nat.testBit_succ]
    · have : ¬ (q = 2 ^ D ∨ q = 2 ^ D + 1) := by omega
      simp [h1, this]
  have m1 : ∀ q, (requestedMask D).testBit q = decide (q = 2 ^ D + 2) := by
    intro q
    rw [requestedMask, hr, Nat.one_shiftLeft, Nat.testBit_two_pow]
    simp [eq_comm]
  have m15 : ∀ q, (nchildRecvMask D).testBit q = decide (2 ^ D + 3 ≤ q ∧ q < 2 ^ D + 7) := by
    intro q
    rw [nchildRecvMask, hn, const_shift_testBit 15 _ _ 4 (by decide)]
    by_cases h1 : 2 ^ D + 3 ≤ q ∧ q < 2 ^ D + 3 + 4
    · have h3 : 2 ^ D + 3 ≤ q ∧ q < 2 ^ D + 7 := by omega
      have h2 : q - (2 ^ D + 3) < 4 := by omega
      simp only [h1, and_self, decide_true, Bool.true_and]
      rw [show (15 : Nat) = 2 ^ 4 - 1 from rfl, Nat.testBit_two_pow_sub_one]
      simp [h2]
    · have h3 : ¬ (2 ^ D + 3 ≤ q ∧ q < 2 ^ D + 7) := by omega
      simp [h1]
  cases o with
  | addChild c =>
    have hc : c < 2 ^ D := ho
    have tb : ∀ q, (addChild x c).ty.testBit q = (x.ty.testBit q || decide (c = q)) := by
      intro q; simp only [addChild, Nat.testBit_or, Nat.one_shiftLeft, Nat.testBit_two_pow]
    refine ⟨?_, ?_, ?_, ?_, ?_, h.small⟩
    · intro i hi
      simp only [step, tb, h.child i hi, CellAttr.step]
      by_cases hic : i = c
      · simp [hic]
      · have : ¬ c = i := fun e => hic e.symm
        simp [hic, this]
    · have : ¬ c = 2 ^ D := by omega
      simp [step, tb, h.loc0, this]
    · have : ¬ c = 2 ^ D + 1 := by omega
      simp [step, tb, h.loc1, this, CellAttr.step]
    · have : ¬ c = 2 ^ D + 2 := by omega
      simp [step, tb, h.req, this, CellAttr.step]
    · intro i hi
      have : ¬ c = 2 ^ D + 3 + i := by omega
      simp [step, tb, h.recv i hi, this, CellAttr.step]
  | setShared =>
    have tb : ∀ q < 32, (setShared D x).ty.testBit q =
        ((x.ty.testBit q && !decide (q = 2 ^ D ∨ q = 2 ^ D + 1)) || decide (q = 2 ^ D + 1)) := by
      intro q hq
      simp only [setShared, Nat.testBit_or, clearBits_testBit _ _ _ hq, m3]
      congr 1
      rw [hl, show (2 : Nat) = 2 ^ 1 from rfl, Nat.shiftLeft_eq, ← Nat.pow_add, Nat.testBit_two_pow]
      congr 1; apply propext; constructor <;> intro e <;> omega
    refine ⟨?_, ?_, ?_, ?_, ?_, h.small⟩
    · intro i hi
      have h1 : ¬ (i = 2 ^ D) := by omega
      have h2 : ¬ (i = 2 ^ D + 1) := by omega
      simp [step, tb i (by omega), h.child i hi, CellAttr.step, h1, h2]
    · simp [step, tb (2 ^ D) (by omega)]
    · simp [step, tb (2 ^ D + 1) (by omega), CellAttr.step]
    · simp [step, tb (2 ^ D + 2) (by omega), h.req, CellAttr.step]
    · intro i hi
      have h1 : ¬ (2 ^ D + 3 + i = 2 ^ D) := by omega
      have h2 : ¬ (2 ^ D + 3 + i = 2 ^ D + 1) := by omega
      simp [step, tb _ (by omega : 2 ^ D + 3 + i < 32), h.recv i hi, CellAttr.step, h1, h2]
  | setRequested =>
    have tb : ∀ q < 32, (setRequested D x).ty.testBit q = (x.ty.testBit q || decide (q = 2 ^ D + 2)) := by
      intro q hq
      simp only [setRequested, Nat.testBit_or, clearBits_testBit _ _ _ hq, m1]
      by_cases hq2 : q = 2 ^ D + 2 <;> simp [hq2]
    refine ⟨?_, ?_, ?_, ?_, ?_, h.small⟩
    · intro i hi
      have h1 : ¬ (i = 2 ^ D + 2) := by omega
      simp [step, tb i (by omega), h.child i hi, CellAttr.step, h1]
    · simp [step, tb (2 ^ D) (by omega), h.loc0]
    · simp [step, tb (2 ^ D + 1) (by omega), h.loc1, CellAttr.step]
    · simp [step, tb (2 ^ D + 2) (by omega), CellAttr.step]
    · intro i hi
      have h1 : ¬ (2 ^ D + 3 + i = 2 ^ D + 2) := by omega
      simp [step, tb _ (by omega : 2 ^ D + 3 + i < 32), h.recv i hi, CellAttr.step, h1]
  | unsetRequested =>
    have tb : ∀ q < 32, (unsetRequested D x).ty.testBit q = (x.ty.testBit q && !decide (q = 2 ^ D + 2)) := by
      intro q hq
      simp only [unsetRequested, clearBits_testBit _ _ _ hq, m1]
    refine ⟨?_, ?_, ?_, ?_, ?_, h.small⟩
    · intro i hi
      have h1 : ¬ (i = 2 ^ D + 2) := by omega
      simp [step, tb i (by omega), h.child i hi, CellAttr.step, h1]
    · simp [step, tb (2 ^ D) (by omega), h.loc0]
    · simp [step, tb (2 ^ D + 1) (by omega), h.loc1, CellAttr.step]
    · simp [step, tb (2 ^ D + 2) (by omega), CellAttr.step]
    · intro i hi
      have h1 : ¬ (2 ^ D + 3 + i = 2 ^ D + 2) := by omega
      simp [step, tb _ (by omega : 2 ^ D + 3 + i < 32), h.recv i hi, CellAttr.step, h1]
  | setNchildrenToReceive n =>
    have hn16 : n < 16 := ho
    have tb : ∀ q < 32, (setNchildrenToReceive D x n).ty.testBit q =
        ((x.ty.testBit q && !decide (2 ^ D + 3 ≤ q ∧ q < 2 ^ D + 7)) ||
          (decide (2 ^ D + 3 ≤ q ∧ q < 2 ^ D + 7) && n.testBit (q - (2 ^ D + 3)))) := by
      intro q hq
      simp only [setNchildrenToReceive, Nat.testBit_mod_two_pow, Nat.testBit_or, clearBits_testBit _ _ _ hq, m15]
      rw [hn, const_shift_testBit n _ _ 4 (by omega)]
      simp only [hq, decide_true, Bool.true_and]
    refine ⟨?_, ?_, ?_, ?_, ?_, hn16⟩
    · intro i hi
      have h1 : ¬ (2 ^ D + 3 ≤ i) := by omega
      simp [step, tb i (by omega), h.child i hi, CellAttr.step, h1]
    · simp [step, tb (2 ^ D) (by omega), h.loc0]
    · simp [step, tb (2 ^ D + 1) (by omega), h.loc1, CellAttr.step]
    · simp [step, tb (2 ^ D + 2) (by omega), h.req, CellAttr.step]
    · intro i hi
      have h1 : 2 ^ D + 3 + i < 2 ^ D + 7 := by omega
      have h2 : 2 ^ D + 3 + i - (2 ^ D + 3) = i := by omega
      simp [step, tb _ (by omega : 2 ^ D + 3 + i < 32), CellAttr.step, h1, h2]

theorem rep_history {D : Nat} (hD : 2 ^ D + 7 ≤ 32) (ops : List Op) (hops : ∀ o ∈ ops, OpOk D o) (x : Cell)
    (a : CellAttr) (h : Rep D x.ty a) : Rep D (ops.foldl (step D) x).ty (ops.foldl CellAttr.step a) := by
  induction ops generalizing x a with
  | nil => exact h
  | cons o ops ih =>
    exact ih (fun p hp => hops p (List.mem_cons_of_mem _ hp)) _ _ (rep_step hD x a h o (hops o List.mem_cons_self))

theorem rep_init (D : Nat) : Rep D 0 {} := ⟨by simp, by simp, by simp, by simp, by simp, by simp⟩

theorem step_idx (D : Nat) (x : Cell) (o : Op) : (step D x o).nodeIdx = x.nodeIdx ∧ (step D x o).entityIdx = x.entityIdx := by
  cases o <;> exact ⟨rfl, rfl⟩

theorem isShared_eq {D : Nat} {x : Cell} {a : CellAttr} (h : Rep D x.ty a) : isShared D x = a.shared := by
  have e : (x.ty &&& localityMask D) >>> localityDispl D = (x.ty >>> 2 ^ D) % 4 := by
    apply Nat.eq_of_testBit_eq
    intro i
    rw [localityDispl, Nat.one_shiftLeft, Nat.testBit_shiftRight, Nat.testBit_and, localityMask, localityDispl,
      Nat.one_shiftLeft, const_shift_testBit 3 _ _ 2 (by decide), show (4 : Nat) = 2 ^ 2 from rfl,
      Nat.testBit_mod_two_pow, Nat.testBit_shiftRight, Nat.add_sub_cancel_left]
    rcases i with _ | _ | i
    · simp
    · simp [Nat.testBit_succ]
    · have : ¬ (i + 1 + 1 < 2) := by omega
      simp [this]
  rw [isShared, e]
  have b0 : ((x.ty >>> 2 ^ D) % 4).testBit 0 = false := by
    rw [show (4 : Nat) = 2 ^ 2 from rfl, Nat.testBit_mod_two_pow, Nat.testBit_shiftRight]; simp [h.loc0]
  have b1 : ((x.ty >>> 2 ^ D) % 4).testBit 1 = a.shared := by
    rw [show (4 : Nat) = 2 ^ 2 from rfl, Nat.testBit_mod_two_pow, Nat.testBit_shiftRight]; simp [h.loc1]
  have hlt : (x.ty >>> 2 ^ D) % 4 < 4 := Nat.mod_lt _ (by decide)
  generalize (x.ty >>> 2 ^ D) % 4 = w at *
  rw [← b1]
  interval_cases w <;> simp_all [Nat.testBit_succ]

theorem toReceive_eq {D : Nat} {x : Cell} {a : CellAttr} (h : Rep D x.ty a) : nchildrenToReceive D x = a.toReceive := by
  rw [nchildrenToReceive]
  apply Nat.eq_of_testBit_eq
  intro i
  rw [nchildRecvDispl, Nat.one_shiftLeft, Nat.testBit_and, Nat.testBit_shiftRight,
    show (15 : Nat) = 2 ^ 4 - 1 from rfl, Nat.testBit_two_pow_sub_one]
  by_cases hi : i < 4
  · simp [hi, h.recv i hi]
  · have : a.toReceive.testBit i = false :=
      Nat.testBit_lt_two_pow (Nat.lt_of_lt_of_le h.small (Nat.pow_le_pow_right (n := 2) (by omega) (by omega : 4 ≤ i)))
    simp [hi, this]

/-- Over any history of updates every attribute read back is the one the record of independent fields holds. -/
theorem C08_independent (D : Nat) (hD : 2 ^ D + 7 ≤ 32) (ops : List Op) (hops : ∀ o ∈ ops, OpOk D o) (n e : Int) :
    let x := ops.foldl (step D) { nodeIdx := n, entityIdx := e }
    let a := ops.foldl CellAttr.step {}
    (∀ c < 2 ^ D, getChild x c = a.child c) ∧ isShared D x = a.shared ∧ requested D x = a.requested ∧
      nchildrenToReceive D x = a.toReceive := by
  have h := rep_history hD ops hops { nodeIdx := n, entityIdx := e } {} (rep_init D)
  refine ⟨?_, isShared_eq h, ?_, toReceive_eq h⟩
  · intro c hc
    rw [getChild, and_bit_ne_zero]; exact h.child c hc
  · rw [requested, requestedMask, requestedDispl, Nat.one_shiftLeft D, and_bit_ne_zero]; exact h.req

theorem hasChild_eq {D : Nat} {x : Cell} {a : CellAttr} (h : Rep D x.ty a) :
    hasChild D x = true ↔ ∃ c < 2 ^ D, a.child c = true := by
  rw [hasChild, Nat.one_shiftLeft, Nat.one_shiftLeft, bne_iff_ne]
  constructor
  · intro hne
    obtain ⟨i, hi⟩ := Nat.exists_testBit_of_ne_zero hne
    rw [Nat.testBit_and, Nat.testBit_two_pow_sub_one, Bool.and_eq_true, decide_eq_true_eq] at hi
    exact ⟨i, hi.2, by rw [← h.child i hi.2]; exact hi.1⟩
  · rintro ⟨c, hc, hc2⟩ h0
    have : (x.ty &&& (2 ^ 2 ^ D - 1)).testBit c = true := by
      rw [Nat.testBit_and, Nat.testBit_two_pow_sub_one, h.child c hc, hc2]; simp [hc]
    rw [h0] at this
    simp at this

theorem foldl_count (f : Nat → Bool) (l : List Nat) (n : Nat) :
    l.foldl (fun n i => n + (f i).toNat) n = n + l.countP f := by
  induction l generalizing n with
  | nil => simp
  | cons x l ih => rw [List.foldl_cons, ih]; cases hx : f x <;> simp [hx]; omega

/-- A node is reported empty exactly when it has no child or announces more children than it has. -/
theorem C08_empty_node (D : Nat) (hD : 2 ^ D + 7 ≤ 32) (ops : List Op) (hops : ∀ o ∈ ops, OpOk D o) (n : Int) (hn : n ≠ -1) :
    let x := ops.foldl (step D) { nodeIdx := n, entityIdx := -1 }
    let a := ops.foldl CellAttr.step {}
    ∃ b, isEmptyNode D x = some b ∧
      (b = true ↔ (∀ c < 2 ^ D, a.child c = false) ∨
        ((List.range (2 ^ D)).countP a.child < a.toReceive)) := by
  have h := rep_history hD ops hops { nodeIdx := n, entityIdx := -1 } {} (rep_init D)
  have hidx : ∀ (l : List Op) (y : Cell), y.nodeIdx = n → (l.foldl (step D) y).nodeIdx = n := by
    intro l
    induction l with
    | nil => intro y hy; exact hy
    | cons o l ih => intro y hy; exact ih _ ((step_idx D y o).1.trans hy)
  have hnode := hidx ops { nodeIdx := n, entityIdx := -1 } rfl
  intro x a
  have hx : x.nodeIdx = n := hnode
  have hnc : nchildren D x = (List.range (2 ^ D)).countP a.child := by
    rw [nchildren, foldl_count, Nat.zero_add, Nat.one_shiftLeft]
    apply List.countP_congr
    intro c hc
    rw [List.mem_range] at hc
    rw [getChild, and_bit_ne_zero, h.child c hc]
  refine ⟨_, by rw [isEmptyNode, isNode, if_pos (Or.inl (by rw [hx]; exact hn))]; rfl, ?_⟩
  rw [hx, hnc, toReceive_eq h]
  have hb : (n != -1) = true := by simp [hn]
  rw [hb]
  dsimp only
  rw [Bool.true_and, Bool.or_eq_true, Bool.not_eq_true', decide_eq_true_eq]
  apply or_congr _ Iff.rfl
  rw [← Bool.not_eq_true, hasChild_eq h]
  constructor
  · intro h1 c hc
    cases h2 : a.child c with
    | false => rfl
    | true => exact absurd ⟨c, hc, h2⟩ h1
  · rintro h1 ⟨c, hc, h2⟩
    rw [h1 c hc] at h2; exact absurd h2 (by decide)

/-- Non-vacuity: dimensions 1, 2, 3 (and 4) fit in 32 bits; a history in dimension 3. -/
example : 2 ^ 3 + 7 ≤ 32 ∧ 2 ^ 4 + 7 ≤ 32 ∧
    (∀ o ∈ [Op.addChild 5, .setNchildrenToReceive 8, .setShared, .setRequested, .addChild 7, .unsetRequested], OpOk 3 o) ∧
    isEmptyNode 3 ([Op.addChild 5, .setNchildrenToReceive 8, .setShared, .setRequested, .addChild 7, .unsetRequested].foldl
      (step 3) { nodeIdx := 4 }) = some true := by
  refine ⟨by decide, by decide, ?_, by decide⟩
  intro o ho
  simp only [List.mem_cons, List.mem_nil_iff, or_false] at ho
  rcases ho with rfl | rfl | rfl | rfl | rfl | rfl <;> simp [OpOk]

end FleCSPH
