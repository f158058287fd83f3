import Verif.Model.Sph
import Verif.Spec.Sph
import Verif.Lemmas.Kernels3
/-! Sums over neighbour lists. -/
namespace FleCSPH.Sph
open FleCSPH.Geometry FleCSPH.Kernels FleCSPH.Spec

theorem accumulate_eq {α β : Type} [AddCommMonoid β] (l : List α) (f : α → β) : accumulate l f = (l.map f).sum := by
  have key : ∀ (l : List α) (z : β), l.foldl (fun s b => s + f b) z = z + (l.map f).sum := by
    intro l
    induction l with
    | nil => intro z; simp
    | cons a l ih => intro z; rw [List.foldl_cons, ih, List.map_cons, List.sum_cons, add_assoc]
  rw [accumulate, key, zero_add]

theorem foldl_sub_eq {α : Type} (l : List α) (f : α → ℝ) : l.foldl (fun s b => s - f b) 0 = -(l.map f).sum := by
  have key : ∀ (l : List α) (z : ℝ), l.foldl (fun s b => s - f b) z = z - (l.map f).sum := by
    intro l
    induction l with
    | nil => intro z; simp
    | cons a l ih => intro z; rw [List.foldl_cons, ih, List.map_cons, List.sum_cons]; ring
  rw [key, zero_sub]

/-- A pass whose function reads from the neighbours only what it does not write does not depend on the order. -/
theorem pass_eq {P V : Type} {n : Nat} (f : P → List P → P) (view : P → V) (g : P → List V → P)
    (hg : ∀ a l, f a l = g a (l.map view)) (hv : ∀ a l, view (f a l) = view a)
    (nbs : Fin n → List (Fin n)) (order : List (Fin n)) (hall : VisitsAll order) (s : Fin n → P) :
    pass f nbs order s = fun a => f (s a) ((nbs a).map s) := by
  have key : ∀ (l : List (Fin n)) (t : Fin n → P), l.Nodup → (∀ a, view (t a) = view (s a)) → (∀ a ∈ l, t a = s a) →
      ∀ a, (pass f nbs l t) a = if a ∈ l then f (s a) ((nbs a).map s) else t a := by
    intro l
    induction l with
    | nil => intro t _ _ _ a; simp [pass]
    | cons c l ih =>
      intro t hn hv1 he a
      have hc : f (t c) ((nbs c).map t) = f (s c) ((nbs c).map s) := by
        rw [hg, hg (s c), he c (List.mem_cons_self ..), List.map_map, List.map_map]
        congr 1
        exact List.map_congr_left fun b _ => hv1 b
      have hn' := List.nodup_cons.mp hn
      show pass f nbs l (Function.update t c (f (t c) ((nbs c).map t))) a = _
      rw [ih _ hn'.2 ?_ ?_ a]
      · by_cases h1 : a ∈ l
        · rw [if_pos h1, if_pos (List.mem_cons_of_mem _ h1)]
        · rw [if_neg h1]
          by_cases h2 : a = c
          · subst h2
            rw [if_pos (List.mem_cons_self ..), Function.update_self, hc]
          · rw [if_neg (by simp [h1, h2]), Function.update_of_ne h2]
      · intro b
        by_cases h2 : b = c
        · subst h2; rw [Function.update_self, hv, hv1]
        · rw [Function.update_of_ne h2, hv1]
      · intro b hb
        have : b ≠ c := fun h => hn'.1 (h ▸ hb)
        rw [Function.update_of_ne this]
        exact he b (List.mem_cons_of_mem _ hb)
  funext a
  have := key order s hall.nodup (fun _ => rfl) (fun _ _ => rfl) a
  rw [this, if_pos (hall.all a)]

theorem magnitude_sub_eq {d : Nat} (a b : Point d) : magnitude (a - b) = √(∑ j, (a j - b j) ^ 2) := by
  simp only [magnitude, Pi.sub_apply, sq]

theorem dot_comm {d : Nat} (a b : Point d) : dot a b = dot b a := by
  simp only [dot, mul_comm]

theorem dot_neg {d : Nat} (a b : Point d) : dot a (-b) = -dot a b := by
  simp [dot]

theorem dot_neg_neg {d : Nat} (a b : Point d) : dot (-a) (-b) = dot a b := by
  simp [dot]

theorem dot_sub {d : Nat} (a b c : Point d) : dot (a - b) c = dot a c - dot b c := by
  simp [dot, sub_mul]

theorem dot_smul {d : Nat} (a b : Point d) (c : ℝ) : dot a (c • b) = c * dot a b := by
  simp only [dot, Finset.mul_sum, Pi.smul_apply, smul_eq_mul]
  exact Finset.sum_congr rfl fun j _ => by ring

theorem dot_add {d : Nat} (a b c : Point d) : dot a (b + c) = dot a b + dot a c := by
  simp [dot, mul_add, Finset.sum_add_distrib]

theorem dot_self_nonneg {d : Nat} (a : Point d) : 0 ≤ dot a a := Finset.sum_nonneg fun _ _ => mul_self_nonneg _

theorem dot_list_sum {d : Nat} (a : Point d) {α : Type} (l : List α) (f : α → Point d) :
    dot a (l.map f).sum = (l.map fun b => dot a (f b)).sum := by
  induction l with
  | nil => simp [dot]
  | cons x l ih => rw [List.map_cons, List.sum_cons, dot_add, ih, List.map_cons, List.sum_cons]

theorem list_sum_apply {d : Nat} {α : Type} (l : List α) (f : α → Point d) (j : Fin d) :
    (l.map f).sum j = (l.map fun b => f b j).sum := by
  induction l with
  | nil => simp
  | cons x l ih => simp [ih]

theorem mu_symm {d : Nat} (eps h : ℝ) (v x : Point d) : mu eps h (-v) (-x) = mu eps h v x := by
  simp only [mu, dot_neg_neg]

variable {i : Fin 3}

theorem gradOf_antisymm (p : Params i) (a b : Particle (i + 1)) : gradOf p b a = -gradOf p a b := by
  have hm : magnitude (b.pos - a.pos) = magnitude (a.pos - b.pos) := by rw [← magnitude_neg, neg_sub]
  funext j
  simp only [gradOf, kernelGradient, hm, Pi.neg_apply, Pi.sub_apply, add_comm b.h]
  ring

theorem gradOf_zero (p : Params i) (a b : Particle (i + 1)) (hh : 0 < a.h + b.h)
    (hd : ¬ √(∑ j, (a.pos j - b.pos j) ^ 2) < (a.h + b.h) / 2) : gradOf p a b = 0 := by
  funext j
  simp only [gradOf, kernelGradient]
  rw [slope_out p.kernel i (by linarith) (by rw [magnitude_sub_eq]; linarith [not_lt.mp hd])]
  simp

theorem viscOf_symm (p : Params i) (a b : Particle (i + 1)) : viscOf p b a = viscOf p a b := by
  simp only [viscOf]
  have h1 : b.vhalf - a.vhalf = -(a.vhalf - b.vhalf) := (neg_sub _ _).symm
  have h2 : b.pos - a.pos = -(a.pos - b.pos) := (neg_sub _ _).symm
  rw [h1, h2, mu_symm, add_comm b.alpha, add_comm b.rho, add_comm b.cs, add_comm b.h]

theorem massOf_symm {d : Nat} (a b : Particle d) : b.mass * massOf b a = a.mass * massOf a b := by
  simp only [massOf, ne_comm]
  ring

/-- A sum over a neighbour list as a sum over all particles. -/
theorem sum_list {n : Nat} {β : Type} [AddCommMonoid β] (l : List (Fin n)) (hl : l.Nodup) (f : Fin n → β) :
    (l.map f).sum = ∑ b, if b ∈ l then f b else 0 := by
  rw [← Finset.sum_filter, ← List.sum_toFinset f hl]
  congr 1
  ext b
  simp

/-- An antisymmetric pair interaction adds up to zero. -/
theorem sum_antisymm {d n : Nat} (s : Fin n → Particle d) (nbs : Fin n → List (Fin n)) (hs : SymmetricLists s nbs)
    (F : Fin n → Fin n → ℝ) (hF : ∀ a b, F b a = -F a b)
    (h0 : ∀ a b, ¬ √(∑ j, ((s a).pos j - (s b).pos j) ^ 2) < ((s a).h + (s b).h) / 2 → F a b = 0) :
    ∑ a, ((nbs a).map (F a)).sum = 0 := by
  have e1 : ∑ a, ((nbs a).map (F a)).sum = ∑ a, ∑ b, if b ∈ nbs a then F a b else 0 :=
    Finset.sum_congr rfl fun a _ => sum_list _ (hs.nodup a) _
  have e2 : ∑ a, ∑ b, (if b ∈ nbs a then F a b else 0) = -∑ a, ∑ b, if b ∈ nbs a then F a b else 0 := by
    conv_lhs => rw [Finset.sum_comm]
    rw [← Finset.sum_neg_distrib]
    refine Finset.sum_congr rfl fun a _ => ?_
    rw [← Finset.sum_neg_distrib]
    refine Finset.sum_congr rfl fun b _ => ?_
    by_cases hab : √(∑ j, ((s a).pos j - (s b).pos j) ^ 2) < ((s a).h + (s b).h) / 2
    · by_cases hm : b ∈ nbs a
      · rw [if_pos hm, if_pos ((hs.symm a b hab).mp hm), hF]
      · rw [if_neg hm, if_neg fun h => hm ((hs.symm a b hab).mpr h), neg_zero]
    · have := h0 a b hab
      rw [hF a b, this]; simp
  rw [e1]
  linarith

end FleCSPH.Sph
