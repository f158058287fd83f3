import Verif.Model.RoundedTotals
import Verif.Spec.Sizes
import Verif.Lemmas.Rounding
import Mathlib.Algebra.Order.BigOperators.Group.List
import Mathlib.Algebra.Order.BigOperators.Group.Finset
/-! Rounding errors of sums of numbers of any sign. -/
namespace FleCSPH.Rounded
open FleCSPH.Geometry FleCSPH.Sph FleCSPH.Reductions FleCSPH.Spec

variable {d n : Nat} {R : Rounding}

/-- `y` is `x` up to `k` roundings, relative to the size `m`. -/
def Err (R : Rounding) (k : Nat) (x y m : ℝ) : Prop := |x| ≤ m ∧ |y - x| ≤ ((1 + R.u) ^ k - 1) * m

theorem Err.refl (x : ℝ) : Err R 0 x x |x| := ⟨le_rfl, by simp⟩

theorem Err.size_nonneg {k : Nat} {x y m : ℝ} (h : Err R k x y m) : 0 ≤ m := (abs_nonneg x).trans h.1

theorem growth (a : Nat) : 1 ≤ (1 + R.u) ^ a := one_le_pow₀ (by linarith [R.nonneg])

theorem Err.mono {a b : Nat} (hab : a ≤ b) {x y m : ℝ} (h : Err R a x y m) : Err R b x y m :=
  ⟨h.1, h.2.trans (mul_le_mul_of_nonneg_right (sub_le_sub_right (pow_le_pow_right₀ (by linarith [R.nonneg]) hab) 1) h.size_nonneg)⟩

theorem Err.abs_le {k : Nat} {x y m : ℝ} (h : Err R k x y m) : |y| ≤ (1 + R.u) ^ k * m := by
  have := abs_add_le (y - x) x
  rw [sub_add_cancel] at this
  linarith [h.1, h.2]

theorem Err.fl {k : Nat} {x y m : ℝ} (h : Err R k x y m) : Err R (k + 1) x (R.fl y) m := by
  refine ⟨h.1, ?_⟩
  have h1 := R.err y
  have h2 := mul_le_mul_of_nonneg_left h.abs_le R.nonneg
  have h3 := abs_add_le (R.fl y - y) (y - x)
  rw [sub_add_sub_cancel] at h3
  have h4 := h.2
  rw [pow_succ]
  nlinarith

theorem Err.add {a b c : Nat} (ha : a ≤ c) (hb : b ≤ c) {x y m x' y' m' : ℝ} (h : Err R a x y m) (h' : Err R b x' y' m') : Err R c (x + x') (y + y') (m + m') := by
  have h := h.mono ha
  have h' := h'.mono hb
  refine ⟨(abs_add_le _ _).trans (add_le_add h.1 h'.1), ?_⟩
  rw [add_sub_add_comm, mul_add]
  exact (abs_add_le _ _).trans (add_le_add h.2 h'.2)

theorem Err.neg {a : Nat} {x y m : ℝ} (h : Err R a x y m) : Err R a (-x) (-y) m := by
  refine ⟨by rw [abs_neg]; exact h.1, ?_⟩
  rw [← neg_sub', abs_neg]
  exact h.2

theorem Err.sub {a b c : Nat} (ha : a ≤ c) (hb : b ≤ c) {x y m x' y' m' : ℝ} (h : Err R a x y m) (h' : Err R b x' y' m') : Err R c (x - x') (y - y') (m + m') := by
  rw [sub_eq_add_neg, sub_eq_add_neg]
  exact h.add ha hb h'.neg

theorem Err.mul {a b : Nat} {x y m x' y' m' : ℝ} (h : Err R a x y m) (h' : Err R b x' y' m') : Err R (a + b) (x * x') (y * y') (m * m') := by
  have hm := h.size_nonneg
  have hm' := h'.size_nonneg
  refine ⟨by rw [abs_mul]; exact mul_le_mul h.1 h'.1 (abs_nonneg _) hm, ?_⟩
  have h1 : y * y' - x * x' = (y - x) * y' + x * (y' - x') := by ring
  rw [h1]
  refine (abs_add_le _ _).trans ?_
  rw [abs_mul, abs_mul]
  have h2 := mul_le_mul h.2 h'.abs_le (abs_nonneg _) (mul_nonneg (by linarith [growth (R := R) a]) hm)
  have h3 := mul_le_mul h.1 h'.2 (abs_nonneg _) hm
  rw [pow_add]
  nlinarith

theorem Err.size {a : Nat} {x y m m' : ℝ} (h : Err R a x y m) (hm : m ≤ m') : Err R a x y m' :=
  ⟨h.1.trans hm, h.2.trans (mul_le_mul_of_nonneg_left hm (by linarith [growth (R := R) a]))⟩

theorem Err.congr {a : Nat} {x y m x' m' : ℝ} (h : Err R a x y m) (hx : x = x') (hm : m = m') : Err R a x' y m' := hx ▸ hm ▸ h

/-- `k` roundings are at most `2 k u`. -/
theorem growth_le (k : Nat) (hk : k * R.u ≤ 1) : (1 + R.u) ^ k - 1 ≤ 2 * k * R.u := by
  have h0 := R.nonneg
  induction k with
  | zero => simp
  | succ k ih =>
    push_cast at hk ⊢
    have hku : 0 ≤ k * R.u := mul_nonneg (Nat.cast_nonneg k) h0
    have hsq : ((k : ℝ) * R.u) * R.u ≤ R.u := by nlinarith
    -- a sharper bound is carried along
    have key : ∀ j : Nat, (j : ℝ) * R.u ≤ 1 → (1 + R.u) ^ j ≤ 1 + j * R.u + (j * R.u) ^ 2 := by
      intro j
      induction j with
      | zero => intro _; simp
      | succ j ih =>
        intro hj
        push_cast at hj ⊢
        have hju : 0 ≤ j * R.u := mul_nonneg (Nat.cast_nonneg j) h0
        have := ih (by linarith)
        rw [pow_succ]
        have h5 := mul_le_mul_of_nonneg_right this (by linarith : 0 ≤ 1 + R.u)
        have h6 : (j * R.u) ^ 2 * R.u ≤ j * R.u * R.u := by nlinarith [mul_nonneg hju h0]
        nlinarith
    have h7 := key (k + 1) (by push_cast; linarith)
    push_cast at h7
    nlinarith [mul_nonneg hku h0]

theorem err_foldl {ι : Type} (f x m : ι → ℝ) (k : Nat) (hf : ∀ i, Err R k (x i) (f i) (m i)) (l : List ι) {a : Nat} {X Y M : ℝ} (h : Err R a X Y M) (hk : k ≤ a) :
    Err R (a + l.length) (X + (l.map x).sum) (l.foldl (fun s i => R.fl (s + f i)) Y) (M + (l.map m).sum) := by
  induction l generalizing a X Y M with
  | nil => simpa using h
  | cons i l ih =>
    have h1 := (h.add le_rfl hk (hf i)).fl
    have := ih h1 (by omega)
    rw [List.foldl_cons, List.map_cons, List.map_cons, List.sum_cons, List.sum_cons, List.length_cons, ← add_assoc X, ← add_assoc M, show a + (l.length + 1) = a + 1 + l.length by omega]
    exact this

theorem err_rdot (v w : Point d) : Err R (d + 1) (dot v w) (rdot R v w) (∑ j, |v j| * |w j|) := by
  have h := err_foldl (R := R) (fun j => R.fl (v j * w j)) (fun j => v j * w j) (fun j => |v j| * |w j|) 1 (fun j => ((Err.refl _).mul (Err.refl _)).fl) (List.finRange d)
    ((Err.refl 0).mono (show 0 ≤ 1 by omega)) le_rfl
  rw [List.length_finRange, abs_zero, zero_add, zero_add, add_comm 1 d, ← List.ofFn_eq_map, ← List.ofFn_eq_map, List.sum_ofFn, List.sum_ofFn] at h
  exact h

/-- What a process holds which is no wall. -/
noncomputable def sumOn (f : Particle d → ℝ) (l : List (Reductions.Body d)) : ℝ := (((l.filter fun b => !b.wall).map fun b => b.data).map f).sum

theorem err_local (f x m : Particle d → ℝ) (k : Nat) (hf : ∀ a, Err R k (x a) (f a) (m a)) (l : List (Reductions.Body d)) {a : Nat} {X Y M : ℝ} (h : Err R a X Y M) (hk : k ≤ a) :
    Err R (a + (l.filter fun b => !b.wall).length) (X + sumOn x l) (localFrom R f Y l) (M + sumOn m l) := by
  induction l generalizing a X Y M with
  | nil => simpa [sumOn, localFrom] using h
  | cons b l ih =>
    cases hb : b.wall
    · have h1 := ih (h.add le_rfl hk (hf b.data)).fl (by omega)
      simp only [sumOn, localFrom, List.foldl_cons, List.filter_cons, hb, Bool.not_false, if_true, Bool.false_eq_true, if_false, List.map_cons, List.sum_cons, List.length_cons] at h1 ⊢
      rw [← add_assoc X, ← add_assoc M, show ∀ N, a + (N + 1) = a + 1 + N by intro N; omega]
      exact h1
    · have h1 := ih h hk
      simp only [sumOn, localFrom, List.foldl_cons, List.filter_cons, hb, Bool.not_true, if_true, Bool.false_eq_true, if_false] at h1 ⊢
      exact h1

theorem Combined.pos {ι : Type} {f : ι → ℝ} {l : List ι} {y : ℝ} (h : Combined R f l y) : 0 < l.length := by
  induction h with
  | one => simp
  | add _ _ h1 h2 => rw [List.length_append]; omega
  | order hp _ ih => rwa [← hp.length_eq]

theorem err_combined {ι : Type} {f : ι → ℝ} (x m : ι → ℝ) (k : Nat) (hf : ∀ i, Err R k (x i) (f i) (m i)) {l : List ι} {y : ℝ} (h : Combined R f l y) :
    Err R (k + l.length) (l.map x).sum y (l.map m).sum := by
  induction h with
  | one i => simpa using (hf i).mono (Nat.le_add_right k 1)
  | @add l1 l2 _ _ h1 h2 ih1 ih2 =>
    rw [List.map_append, List.map_append, List.sum_append, List.sum_append, List.length_append]
    have p1 := h1.pos
    have p2 := h2.pos
    have := (ih1.add (show k + l1.length ≤ k + (l1.length + l2.length) - 1 by omega) (show k + l2.length ≤ k + (l1.length + l2.length) - 1 by omega) ih2).fl
    rwa [show k + (l1.length + l2.length) - 1 + 1 = k + (l1.length + l2.length) by omega] at this
  | order hp _ ih => rwa [← (hp.map x).sum_eq, ← (hp.map m).sum_eq, ← hp.length_eq]

private theorem finRange_map_get {α β : Type} (l : List α) (g : α → β) : (List.finRange l.length).map (fun i => g l[i]) = l.map g := by
  refine List.ext_getElem (by simp) fun i _ _ => by simp

/-- A reduction of all processes. -/
theorem err_reduce {g X M : List (Reductions.Body d) → ℝ} {k : Nat} {procs : List (List (Reductions.Body d))} (hg : ∀ l ∈ procs, Err R k (X l) (g l) (M l)) {y : ℝ} (h : ReduceSum R g procs y) :
    Err R (k + procs.length) (procs.map X).sum y (procs.map M).sum := by
  have := err_combined (fun i : Fin procs.length => X procs[i]) (fun i => M procs[i]) k (fun i => hg _ (List.getElem_mem _)) h
  rwa [List.length_finRange, finRange_map_get procs X, finRange_map_get procs M] at this

theorem sum_sumOn (f : Particle d → ℝ) {ps : Fin n → Particle d} {procs : List (List (Reductions.Body d))} (h : Held ps procs) : (procs.map (sumOn f)).sum = total ps f := by
  have : (procs.map (sumOn f)).sum = (((procs.flatten.filter fun b => !b.wall).map fun b => b.data).map f).sum := by
    clear h
    induction procs with
    | nil => rfl
    | cons l procs ih => rw [List.map_cons, List.sum_cons, ih, List.flatten_cons, List.filter_append, List.map_append, List.map_append, List.sum_append, sumOn]
  rw [this, (h.map f).sum_eq, List.map_ofFn, List.sum_ofFn]; rfl

theorem held_le {ps : Fin n → Particle d} {procs : List (List (Reductions.Body d))} (h : Held ps procs) {l : List (Reductions.Body d)} (hl : l ∈ procs) : (l.filter fun b => !b.wall).length ≤ n := by
  have h1 := h.length_eq
  rw [List.length_map, List.length_ofFn] at h1
  rw [← h1]
  exact ((List.sublist_flatten_of_mem hl).filter _).length_le

/-- A total: each process adds `f` of its particles. -/
theorem err_total {ps : Fin n → Particle d} {procs : List (List (Reductions.Body d))} (h : Held ps procs) (f x m : Particle d → ℝ) (k : Nat) (hf : ∀ a, Err R k (x a) (f a) (m a)) {y : ℝ}
    (hy : ReduceSum R (localFrom R f 0) procs y) : Err R (k + n + procs.length) (total ps x) y (total ps m) := by
  rw [← sum_sumOn x h, ← sum_sumOn m h]
  refine err_reduce (fun l hl => ?_) hy
  have := err_local f x m k hf l ((Err.refl 0).mono (Nat.zero_le k)) le_rfl
  rw [abs_zero, zero_add, zero_add] at this
  exact this.mono (by have := held_le h hl; omega)

end FleCSPH.Rounded
