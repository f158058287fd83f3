import Verif.Model.Tensor
import Mathlib.Data.Real.Basic
import Mathlib.Data.List.FinRange
import Mathlib.Tactic.NormNum
import Mathlib.Tactic.Linarith
/-!
C46: `a += b`, `a -= b` and the operators built on them store the component-wise result for all operands, including `a` itself.
-/
namespace FleCSPH
open Tensor

variable {A T : Type} {n : Nat} [DecidableEq A]

theorem Tensor.loopFrom_eq (op : T → T → T) (a b : A) (hab : a ≠ b) (is : List (Fin n)) (hnd : is.Nodup) (m : Memory A T n) :
    (∀ c, c ≠ a → loopFrom op a b is m c = m c) ∧ ∀ i, loopFrom op a b is m a i = if i ∈ is then op (m a i) (m b i) else m a i := by
  induction is generalizing m with
  | nil => simp [loopFrom]
  | cons j is ih =>
    have hj := List.nodup_cons.1 hnd
    obtain ⟨h1, h2⟩ := ih hj.2 (Function.update m a (Function.update (m a) j (op (m a j) (m b j))))
    rw [loopFrom]
    refine ⟨fun c hc => by rw [h1 c hc, Function.update_of_ne hc], fun i => ?_⟩
    rw [h2 i, Function.update_self, Function.update_of_ne (Ne.symm hab)]
    by_cases hij : i = j
    · subst hij; simp [hj.1]
    · simp [Function.update_of_ne hij, hij]

theorem Tensor.scaleFrom_eq (op : T → T → T) (a : A) (val : T) (is : List (Fin n)) (hnd : is.Nodup) (m : Memory A T n) :
    (∀ c, c ≠ a → scaleFrom op a val is m c = m c) ∧ ∀ i, scaleFrom op a val is m a i = if i ∈ is then op (m a i) val else m a i := by
  induction is generalizing m with
  | nil => simp [scaleFrom]
  | cons j is ih =>
    have hj := List.nodup_cons.1 hnd
    obtain ⟨h1, h2⟩ := ih hj.2 (Function.update m a (Function.update (m a) j (op (m a j) val)))
    rw [scaleFrom]
    refine ⟨fun c hc => by rw [h1 c hc, Function.update_of_ne hc], fun i => ?_⟩
    rw [h2 i, Function.update_self]
    by_cases hij : i = j
    · subst hij; simp [hj.1]
    · simp [Function.update_of_ne hij, hij]

/-- `a op= b` for different objects: `a` holds the component-wise result, all other objects are unchanged. -/
theorem C46_compound_partial (op : T → T → T) (a b : A) (hab : a ≠ b) (m : Memory A T n) :
    (∀ i, compound op a b m a i = op (m a i) (m b i)) ∧ ∀ c, c ≠ a → compound op a b m c = m c := by
  unfold compound
  rw [if_pos hab]
  obtain ⟨h1, h2⟩ := loopFrom_eq op a b hab (List.finRange n) (List.nodup_finRange n) m
  exact ⟨fun i => by rw [h2 i, if_pos (List.mem_finRange i)], h1⟩

/-- `a += a` and `a -= a` do nothing, so they are wrong for every tensor with a component which is not zero. -/
theorem C46_violated (a : A) (m : Memory A ℝ n) (i : Fin n) (hi : m a i ≠ 0) :
    compound (· + ·) a a m a i ≠ m a i + m a i ∧ compound (· - ·) a a m a i ≠ m a i - m a i := by
  unfold compound
  rw [if_neg (by simp), if_neg (by simp)]
  constructor
  · intro h; apply hi; linarith
  · intro h; apply hi; linarith

/-- `a op= value` for a scalar, also when the scalar was read from `a`. -/
theorem C46_scalar (op : T → T → T) (a : A) (val : T) (m : Memory A T n) :
    (∀ i, compoundScalar op a val m a i = op (m a i) val) ∧ ∀ c, c ≠ a → compoundScalar op a val m c = m c := by
  obtain ⟨h1, h2⟩ := scaleFrom_eq op a val (List.finRange n) (List.nodup_finRange n) m
  exact ⟨fun i => by unfold compoundScalar; rw [h2 i, if_pos (List.mem_finRange i)], h1⟩

/-- `a + b` and `a - b` are right for all operands, equal or not: the copy is a new object. -/
theorem C46_binary (op : T → T → T) (tmp a b : A) (hb : tmp ≠ b) (m : Memory A T n) (i : Fin n) : binary op tmp a b m i = op (m a i) (m b i) := by
  unfold binary
  rw [(C46_compound_partial op tmp b hb _).1 i, Function.update_self, Function.update_of_ne (Ne.symm hb)]

/-- `a = b` for all operands, equal or not. -/
theorem C46_assign (a b : A) (m : Memory A T n) : assign a b m a = m b ∧ ∀ c, c ≠ a → assign a b m c = m c := by
  unfold assign
  by_cases hab : a = b
  · rw [if_neg (by simpa using hab)]; exact ⟨by rw [hab], fun _ _ => rfl⟩
  · rw [if_pos hab]
    obtain ⟨h1, h2⟩ := loopFrom_eq (fun _ y => y) a b hab (List.finRange n) (List.nodup_finRange n) m
    exact ⟨funext fun i => by rw [h2 i, if_pos (List.mem_finRange i)], h1⟩

/-- `operator==` decides equality of all components. -/
theorem C46_equal [DecidableEq T] (a b : Fin n → T) : equal a b = true ↔ a = b := by
  unfold equal
  simp [funext_iff]

/-- Non-vacuity: a tensor with a nonzero component, and two different objects. -/
example : ∃ m : Memory Bool ℝ 2, m true 0 ≠ 0 ∧ compound (· + ·) true false m true 0 = 5 :=
  ⟨fun b _ => if b then 2 else 3, by norm_num, by rw [(C46_compound_partial _ _ _ (by decide) _).1]; norm_num⟩

end FleCSPH
