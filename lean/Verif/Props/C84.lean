import Verif.Lemmas.RoundedReach
import Verif.Lemmas.RoundedHeat
import Verif.Props.C80
/-!
C84: momentum and energy of the hydrodynamic forces in floating-point arithmetic.

Every operation is rounded (Model/RoundedForces.lean): the gradients of all eight kernels, both viscosities, the accelerations, the derivatives of the total and of the internal energy and the kicks. Missing for the full property:
overflow, underflow and fused operations; self-gravity. What pairs with one-sided lists exchange is bounded in C85.
-/
namespace FleCSPH.Rounded
open FleCSPH.Spec FleCSPH.Tree FleCSPH.Ghosts FleCSPH.Startup FleCSPH.Geometry FleCSPH.Traversal FleCSPH.Kernels FleCSPH.Sph

variable {R : Rounding} {i : Fin 3} {n : Nat}

/-- No division by zero. -/
def Regular (p : Params i) (a : Particle (i + 1)) : Prop := 0 ≤ p.eps ∧ 0 < a.h ∧ 0 < a.rho

/-- Particles of the same mass exert on each other forces which are opposite to the last bit, and take from each other opposite energies. -/
theorem C84_opposite (hR : Mirrored R) (p : Params i) (a b : Particle (i + 1)) (_ha : Regular p a) (_hb : Regular p b) (hm : a.mass = b.mass) : (∀ j, push R p b a j = -push R p a b j) ∧ work R p b a = -work R p a b :=
  ⟨push_opposite hR p a b hm, work_opposite hR p a b hm⟩

/-- With any masses the momenta and the energies exchanged by two particles are opposite up to `5 u`. -/
theorem C84_pair (hR : Mirrored R) (hu : R.u ≤ 1 / 16) (p : Params i) (a b : Particle (i + 1)) (_ha : Regular p a) (_hb : Regular p b) :
    (∀ j, |a.mass * push R p a b j + b.mass * push R p b a j| ≤ 5 * R.u * |a.mass * push R p a b j|) ∧ |a.mass * work R p a b + b.mass * work R p b a| ≤ 5 * R.u * |a.mass * work R p a b| :=
  ⟨push_close hR hu p a b, work_close hR hu p a b⟩

/-- Particles further apart than the mean of their smoothing lengths, up to eleven roundings, exchange exactly nothing. -/
theorem C84_reach (hu : R.u < 1) (p : Params i) (a b : Particle (i + 1)) (ha : 0 < a.h) (hb : 0 < b.h) (hd : (a.h + b.h) / 2 ≤ (1 - R.u) ^ 11 * √(∑ j, (a.pos j - b.pos j) ^ 2)) :
    push R p a b = 0 ∧ work R p a b = 0 :=
  ⟨push_zero hu p a b ha hb hd, work_zero hu p a b ha hb hd⟩

/-- What the particles would gain together if all contributions along axis `j` were taken with the same sign. -/
noncomputable def forces (R : Rounding) (p : Params i) (s : Fin n → Particle (i + 1)) (nbs : Fin n → List (Fin n)) (j : Fin (i + 1)) : ℝ :=
  ∑ a, (s a).mass * (((nbs a).map fun b => |push R p (s a) (s b) j|).sum + |p.external (s a) j|)

/-- The contributions of pairs of which only one particle has the other in its list. -/
noncomputable def lopsided (nbs : Fin n → List (Fin n)) (c : Fin n → Fin n → ℝ) : ℝ := ∑ a, ∑ b, if b ∈ nbs a ∧ a ∉ nbs b then |c a b| else 0

/-- With symmetric lists there are none. -/
theorem C84_symmetric (nbs : Fin n → List (Fin n)) (h : ∀ a b, b ∈ nbs a ↔ a ∈ nbs b) (c : Fin n → Fin n → ℝ) : lopsided nbs c = 0 := by
  refine Finset.sum_eq_zero fun a _ => Finset.sum_eq_zero fun b _ => if_neg ?_
  rintro ⟨h1, h2⟩
  exact h2 ((h a b).mp h1)

private def accView {d : Nat} (b : Particle d) : Particle d := { b with acc := 0, gacc := 0, gpot := 0 }
private def dedtView {d : Nat} (b : Particle d) : Particle d := { b with dedt := 0 }

private theorem acc_pass (p : Params i) (s : Fin n → Particle (i + 1)) (nbs : Fin n → List (Fin n)) (order : List (Fin n)) (hall : VisitsAll order) :
    pass (computeAccelerationR R p) nbs order s = fun a => computeAccelerationR R p (s a) ((nbs a).map s) :=
  pass_eq (computeAccelerationR R p) accView (computeAccelerationR R p) (fun a l => by simp only [computeAccelerationR, List.foldl_map]; rfl) (fun a l => rfl) nbs order hall s

private theorem total_close {N : Nat} (hN : (N + 1 : ℕ) * R.u ≤ 1) (nbs : Fin n → List (Fin n)) (hn : ∀ a, (nbs a).Nodup) (hlen : ∀ a, (nbs a).length ≤ N) (m : Fin n → ℝ)
    (hm : ∀ a, 0 ≤ m a) (t : Fin n → Fin n → ℝ) (x : Fin n → ℝ) (ht : ∀ a b, |m a * t a b + m b * t b a| ≤ 5 * R.u * |m a * t a b|) :
    |∑ a, m a * R.fl ((nbs a).foldl (fun s b => R.fl (s + t a b)) 0 + x a) - ∑ a, m a * x a| ≤
      (2 * N + 5) * R.u * ∑ a, m a * (((nbs a).map fun b => |t a b|).sum + |x a|) + lopsided nbs fun a b => m a * t a b := by
  have h0 := R.nonneg
  have e1 : ∑ a, m a * R.fl ((nbs a).foldl (fun s b => R.fl (s + t a b)) 0 + x a) - ∑ a, m a * x a =
      ∑ a, m a * (R.fl ((nbs a).foldl (fun s b => R.fl (s + t a b)) 0 + x a) - (((nbs a).map (t a)).sum + x a)) + ∑ a, ((nbs a).map fun b => m a * t a b).sum := by
    rw [← Finset.sum_sub_distrib, ← Finset.sum_add_distrib]
    refine Finset.sum_congr rfl fun a _ => ?_
    rw [List.sum_map_mul_left]
    ring
  have e2 : |∑ a, m a * (R.fl ((nbs a).foldl (fun s b => R.fl (s + t a b)) 0 + x a) - (((nbs a).map (t a)).sum + x a))| ≤
      2 * (N + 1) * R.u * ∑ a, m a * (((nbs a).map fun b => |t a b|).sum + |x a|) := by
    rw [Finset.mul_sum]
    refine (Finset.abs_sum_le_sum_abs _ _).trans (Finset.sum_le_sum fun a _ => ?_)
    rw [abs_mul, abs_of_nonneg (hm a), mul_left_comm]
    exact mul_le_mul_of_nonneg_left (sum_close (t a) (nbs a) (x a) (hlen a) hN) (hm a)
  have e3 := sum_pairs nbs hn (fun a b => m a * t a b) (fun a b => |m a * t a b|) (fun a b => abs_nonneg _) ht (by linarith)
  have e4 : ∑ a, ((nbs a).map fun b => |m a * t a b|).sum ≤ ∑ a, m a * (((nbs a).map fun b => |t a b|).sum + |x a|) := by
    refine Finset.sum_le_sum fun a _ => ?_
    have : ((nbs a).map fun b => |m a * t a b|).sum = m a * ((nbs a).map fun b => |t a b|).sum := by
      rw [← List.sum_map_mul_left]
      congr 1
      exact List.map_congr_left fun b _ => by rw [abs_mul, abs_of_nonneg (hm a)]
    rw [this, mul_add]
    linarith [mul_nonneg (hm a) (abs_nonneg (x a))]
  have e5 : 0 ≤ ∑ a, m a * (((nbs a).map fun b => |t a b|).sum + |x a|) :=
    Finset.sum_nonneg fun a _ => mul_nonneg (hm a) (add_nonneg (List.sum_nonneg (by simp)) (abs_nonneg _))
  have e6 := mul_le_mul_of_nonneg_left e4 (show 0 ≤ 5 * R.u / 2 by linarith)
  have e7 := mul_nonneg h0 e5
  rw [e1]
  refine (abs_add_le _ _).trans ?_
  unfold lopsided
  nlinarith

section
variable (hR : Mirrored R) {N : Nat} (hu : R.u ≤ 1 / 16) (hN : (N + 1 : ℕ) * R.u ≤ 1) (p : Params i) (s : Fin n → Particle (i + 1)) (nbs : Fin n → List (Fin n)) (hn : ∀ a, (nbs a).Nodup)
  (hlen : ∀ a, (nbs a).length ≤ N) (order : List (Fin n)) (hall : VisitsAll order) (hm : ∀ a, 0 ≤ (s a).mass)
include hR hu hN hn hlen hall hm

/-- After a pass of `compute_acceleration` with at most `N` neighbours for each particle, the rate of change of momentum along every axis is that of the external force up to `(2 N + 5) u` of all contributions
taken with the same sign, and to the contributions of pairs with one-sided lists. Whatever the visiting order. -/
theorem C84_momentum_partial (_hreg : ∀ a, Regular p (s a)) (j : Fin (i + 1)) :
    |∑ a, (s a).mass * (pass (computeAccelerationR R p) nbs order s a).acc j - ∑ a, (s a).mass * p.external (s a) j| ≤
      (2 * N + 5) * R.u * forces R p s nbs j + lopsided nbs fun a b => (s a).mass * push R p (s a) (s b) j := by
  rw [acc_pass p s nbs order hall]
  have := total_close hN nbs hn hlen (fun a => (s a).mass) hm (fun a b => push R p (s a) (s b) j) (fun a => p.external (s a) j) (fun a b => push_close hR hu p (s a) (s b) j)
  simp only [computeAccelerationR, List.foldl_map]
  exact this

/-- The same for the derivatives of the total energy: together they are the work of self-gravity. -/
theorem C84_energy_partial (_hreg : ∀ a, Regular p (s a)) :
    |∑ a, (s a).mass * (pass (computeDedtR R p) nbs order s a).dedt - ∑ a, (s a).mass * ∑ j, (s a).gacc j * (s a).vel j| ≤
      (4 * N + 18) * R.u * ∑ a, (s a).mass * (((nbs a).map fun b => |work R p (s a) (s b)|).sum + ∑ j, |(s a).gacc j| * |(s a).vel j|) + lopsided nbs fun a b => (s a).mass * work R p (s a) (s b) := by
  have h0 := R.nonneg
  have hfold : ∀ (l : List (Particle (i + 1))) (a : Particle (i + 1)) (z : ℝ), l.foldl (fun s b => R.fl (s - work R p a b)) z = l.foldl (fun s b => R.fl (s + -work R p a b)) z := by
    intro l a z
    simp only [sub_eq_add_neg]
  rw [pass_eq (computeDedtR R p) dedtView (computeDedtR R p) (fun a l => by simp only [computeDedtR, List.foldl_map]; rfl) (fun a l => rfl) nbs order hall s]
  have key := total_close hN nbs hn hlen (fun a => (s a).mass) hm (fun a b => -work R p (s a) (s b)) (fun a => rdot R (s a).gacc (s a).vel) (fun a b => by
    have := work_close hR hu p (s a) (s b)
    rw [mul_neg, mul_neg, ← neg_add, abs_neg, abs_neg]
    exact this)
  have hlop : (lopsided nbs fun a b => (s a).mass * -work R p (s a) (s b)) = lopsided nbs fun a b => (s a).mass * work R p (s a) (s b) := by
    unfold lopsided
    simp only [mul_neg, abs_neg]
  rw [hlop] at key
  simp only [abs_neg] at key
  have hdot : ∀ a, |rdot R (s a).gacc (s a).vel - ∑ j, (s a).gacc j * (s a).vel j| ≤ 8 * R.u * ∑ j, |(s a).gacc j| * |(s a).vel j| := by
    intro a
    have h1 := (err_rdot (R := R) (s a).gacc (s a).vel).mono (show (i : ℕ) + 1 + 1 ≤ 4 by omega)
    have h2 := growth_le (R := R) 4 (by push_cast; linarith)
    push_cast at h2
    exact h1.2.trans (mul_le_mul_of_nonneg_right (by linarith) h1.size_nonneg)
  have g0 : ∀ a, 0 ≤ ∑ j, |(s a).gacc j| * |(s a).vel j| := fun a => Finset.sum_nonneg fun j _ => mul_nonneg (abs_nonneg _) (abs_nonneg _)
  have w0 : ∀ a, 0 ≤ ((nbs a).map fun b => |work R p (s a) (s b)|).sum := fun a => List.sum_nonneg (by simp)
  have hsize : ∀ a, |rdot R (s a).gacc (s a).vel| ≤ 2 * ∑ j, |(s a).gacc j| * |(s a).vel j| := by
    intro a
    have h1 := hdot a
    have h2 := (Finset.abs_sum_le_sum_abs (fun j => (s a).gacc j * (s a).vel j) Finset.univ)
    simp only [abs_mul] at h2
    have h3 := abs_add_le (rdot R (s a).gacc (s a).vel - ∑ j, (s a).gacc j * (s a).vel j) (∑ j, (s a).gacc j * (s a).vel j)
    rw [sub_add_cancel] at h3
    have h4 : 8 * R.u * ∑ j, |(s a).gacc j| * |(s a).vel j| ≤ 1 / 2 * ∑ j, |(s a).gacc j| * |(s a).vel j| := mul_le_mul_of_nonneg_right (by linarith) (g0 a)
    linarith [g0 a]
  obtain ⟨W, hW⟩ : ∃ W, W = ∑ a, (s a).mass * (((nbs a).map fun b => |work R p (s a) (s b)|).sum + ∑ j, |(s a).gacc j| * |(s a).vel j|) := ⟨_, rfl⟩
  have k1 : ∑ a, (s a).mass * (((nbs a).map fun b => |work R p (s a) (s b)|).sum + |rdot R (s a).gacc (s a).vel|) ≤ 2 * W := by
    rw [hW, Finset.mul_sum]
    refine Finset.sum_le_sum fun a _ => ?_
    rw [mul_left_comm]
    exact mul_le_mul_of_nonneg_left (by linarith [hsize a, w0 a]) (hm a)
  have k2 : |∑ a, (s a).mass * rdot R (s a).gacc (s a).vel - ∑ a, (s a).mass * ∑ j, (s a).gacc j * (s a).vel j| ≤ 8 * R.u * W := by
    rw [← Finset.sum_sub_distrib, hW, Finset.mul_sum]
    refine (Finset.abs_sum_le_sum_abs _ _).trans (Finset.sum_le_sum fun a _ => ?_)
    rw [← mul_sub, abs_mul, abs_of_nonneg (hm a), mul_left_comm]
    refine mul_le_mul_of_nonneg_left ((hdot a).trans (mul_le_mul_of_nonneg_left (by linarith [w0 a]) (by linarith))) (hm a)
  have k3 := mul_le_mul_of_nonneg_left k1 (show 0 ≤ (2 * N + 5) * R.u by positivity)
  simp only [computeDedtR, List.foldl_map, sub_eq_add_neg (G := ℝ)] at key ⊢
  rw [← hW]
  have k4 := abs_add_le (∑ a, (s a).mass * R.fl ((nbs a).foldl (fun s_1 b => R.fl (s_1 + -work R p (s a) (s b))) 0 + rdot R (s a).gacc (s a).vel) - ∑ a, (s a).mass * rdot R (s a).gacc (s a).vel)
    (∑ a, (s a).mass * rdot R (s a).gacc (s a).vel - ∑ a, (s a).mass * ∑ j, (s a).gacc j * (s a).vel j)
  rw [sub_add_sub_cancel] at k4
  simp only [sub_eq_add_neg (G := ℝ)] at k2 k4
  linarith

end

private theorem cross_close (hu : R.u ≤ 1 / 100) {c y y' t t' : ℝ} (h : Err R 5 (c * y) t |c * y|) (h' : Err R 5 (c * y') t' |c * y'|) : |y * t' - y' * t| ≤ 12 * R.u * (|y| * |t'| + |y'| * |t|) := by
  have h0 := R.nonneg
  have g := growth_le (R := R) 5 (by push_cast; linarith)
  push_cast at g
  have key : ∀ {z t y : ℝ}, Err R 5 (c * z) t |c * z| → |y * t - y * (c * z)| ≤ 12 * R.u * (|y| * |t|) := by
    intro z t y h
    have e1 : |t - c * z| ≤ 10 * R.u * |c * z| := h.2.trans (mul_le_mul_of_nonneg_right (by linarith) (abs_nonneg _))
    have e2 := abs_sub t (t - c * z)
    rw [sub_sub_cancel] at e2
    have e3 : 10 * R.u * |c * z| ≤ 1 / 10 * |c * z| := mul_le_mul_of_nonneg_right (by linarith) (abs_nonneg _)
    have e4 : |c * z| ≤ 10 / 9 * |t| := by linarith
    have e5 := mul_le_mul_of_nonneg_left e4 (show 0 ≤ 10 * R.u by linarith)
    have e6 : 0 ≤ R.u * |t| := mul_nonneg h0 (abs_nonneg _)
    have e7 : |t - c * z| ≤ 12 * R.u * |t| := by linarith
    rw [← mul_sub, abs_mul]
    have := mul_le_mul_of_nonneg_left e7 (abs_nonneg y)
    linarith
  have k1 := key (y := y) h'
  have k2 := key (y := y') h
  have k3 := abs_sub (y * t' - y * (c * y')) (y' * t - y' * (c * y))
  rw [show y * t' - y * (c * y') - (y' * t - y' * (c * y)) = y * t' - y' * t by ring] at k3
  linarith

section
variable (hR : Mirrored R) {N : Nat} (hu : R.u ≤ 1 / 100) (hN : (N + 9 : ℕ) * R.u ≤ 1) (p : Params i) (s : Fin n → Particle (i + 1)) (nbs : Fin n → List (Fin n)) (hn : ∀ a, (nbs a).Nodup)
  (hlen : ∀ a, (nbs a).length ≤ N) (order : List (Fin n)) (hall : VisitsAll order) (hm : ∀ a, 0 ≤ (s a).mass)
include hR hu hN hn hlen hall hm

/-- The rate of change of the angular momentum in the plane of two axes, as that of the momentum. -/
theorem C84_angular_momentum_partial (_hreg : ∀ a, Regular p (s a)) (j k : Fin (i + 1)) :
    |∑ a, (s a).mass * ((s a).pos j * (pass (computeAccelerationR R p) nbs order s a).acc k - (s a).pos k * (pass (computeAccelerationR R p) nbs order s a).acc j) -
        ∑ a, (s a).mass * ((s a).pos j * p.external (s a) k - (s a).pos k * p.external (s a) j)| ≤
      (2 * N + 11) * R.u * ∑ a, (s a).mass * (((nbs a).map fun b => (|(s a).pos j| + |(s b).pos j|) * |push R p (s a) (s b) k| + (|(s a).pos k| + |(s b).pos k|) * |push R p (s a) (s b) j|).sum +
          (|(s a).pos j| * |p.external (s a) k| + |(s a).pos k| * |p.external (s a) j|)) +
        lopsided nbs fun a b => (s a).mass * ((s a).pos j * push R p (s a) (s b) k - (s a).pos k * push R p (s a) (s b) j) := by
  have h0 := R.nonneg
  have hN1 : (N + 1 : ℕ) * R.u ≤ 1 := by push_cast at hN ⊢; linarith
  rw [acc_pass p s nbs order hall]
  obtain ⟨A, hA⟩ : ∃ A : Fin n → Fin (i + 1) → ℝ, A = fun a l => (computeAccelerationR R p (s a) ((nbs a).map s)).acc l := ⟨_, rfl⟩
  have hAc : ∀ a l, |A a l - (((nbs a).map fun b => push R p (s a) (s b) l).sum + p.external (s a) l)| ≤ 2 * (N + 1) * R.u * (((nbs a).map fun b => |push R p (s a) (s b) l|).sum + |p.external (s a) l|) := by
    intro a l
    have := sum_close (R := R) (fun b => push R p (s a) (s b) l) (nbs a) (p.external (s a) l) (hlen a) hN1
    rw [hA]
    simpa only [computeAccelerationR, List.foldl_map] using this
  obtain ⟨z, hz⟩ : ∃ z : Fin n → Fin n → ℝ, z = fun a b => (s a).mass * ((|(s a).pos j| + |(s b).pos j|) * |push R p (s a) (s b) k| + (|(s a).pos k| + |(s b).pos k|) * |push R p (s a) (s b) j|) := ⟨_, rfl⟩
  have hz0 : ∀ a b, 0 ≤ z a b := fun a b => by rw [hz]; exact mul_nonneg (hm a) (by positivity)
  -- the pairs
  have hpair : ∀ a b, |(s a).mass * ((s a).pos j * push R p (s a) (s b) k - (s a).pos k * push R p (s a) (s b) j) + (s b).mass * ((s b).pos j * push R p (s b) (s a) k - (s b).pos k * push R p (s b) (s a) j)| ≤
      17 * R.u * z a b := by
    intro a b
    obtain ⟨c, hc⟩ := push_central (R := R) p (s a) (s b)
    have e1 := push_close hR (by linarith : R.u ≤ 1 / 16) p (s a) (s b) j
    have e2 := push_close hR (by linarith : R.u ≤ 1 / 16) p (s a) (s b) k
    have e3 := cross_close hu (hc j) (hc k)
    rw [abs_mul (s a).mass, abs_of_nonneg (hm a)] at e1 e2
    have e4 := mul_le_mul_of_nonneg_left e3 (hm a)
    have e5 := mul_le_mul_of_nonneg_left e2 (abs_nonneg ((s b).pos j))
    have e6 := mul_le_mul_of_nonneg_left e1 (abs_nonneg ((s b).pos k))
    have y1 := abs_sub ((s a).pos j) ((s b).pos j)
    have y2 := abs_sub ((s a).pos k) ((s b).pos k)
    have e7 := mul_le_mul_of_nonneg_right y1 (abs_nonneg (push R p (s a) (s b) k))
    have e8 := mul_le_mul_of_nonneg_right y2 (abs_nonneg (push R p (s a) (s b) j))
    have e9 := mul_le_mul_of_nonneg_left (add_le_add e7 e8) (show 0 ≤ 12 * R.u * (s a).mass by have := hm a; positivity)
    have q1 : (s a).mass * ((s a).pos j * push R p (s a) (s b) k - (s a).pos k * push R p (s a) (s b) j) + (s b).mass * ((s b).pos j * push R p (s b) (s a) k - (s b).pos k * push R p (s b) (s a) j) =
        (s a).mass * (((s a).pos j - (s b).pos j) * push R p (s a) (s b) k - ((s a).pos k - (s b).pos k) * push R p (s a) (s b) j) +
          (s b).pos j * ((s a).mass * push R p (s a) (s b) k + (s b).mass * push R p (s b) (s a) k) + -((s b).pos k * ((s a).mass * push R p (s a) (s b) j + (s b).mass * push R p (s b) (s a) j)) := by ring
    rw [q1]
    refine (abs_add_three _ _ _).trans ?_
    rw [abs_neg, abs_mul, abs_of_nonneg (hm a), abs_mul ((s b).pos j), abs_mul ((s b).pos k)]
    rw [hz]
    dsimp only
    have t1 : 0 ≤ R.u * ((s a).mass * (|(s a).pos j| * |push R p (s a) (s b) k|)) := mul_nonneg h0 (mul_nonneg (hm a) (by positivity))
    have t2 : 0 ≤ R.u * ((s a).mass * (|(s a).pos k| * |push R p (s a) (s b) j|)) := mul_nonneg h0 (mul_nonneg (hm a) (by positivity))
    nlinarith
  have e3 := sum_pairs nbs hn (fun a b => (s a).mass * ((s a).pos j * push R p (s a) (s b) k - (s a).pos k * push R p (s a) (s b) j)) z hz0 hpair (by linarith)
  obtain ⟨Z, hZ⟩ : ∃ Z, Z = ∑ a, (s a).mass * (((nbs a).map fun b => (|(s a).pos j| + |(s b).pos j|) * |push R p (s a) (s b) k| + (|(s a).pos k| + |(s b).pos k|) * |push R p (s a) (s b) j|).sum +
          (|(s a).pos j| * |p.external (s a) k| + |(s a).pos k| * |p.external (s a) j|)) := ⟨_, rfl⟩
  have e4 : ∑ a, ((nbs a).map (z a)).sum ≤ Z := by
    rw [hZ]
    refine Finset.sum_le_sum fun a _ => ?_
    rw [hz, mul_add, ← List.sum_map_mul_left]
    have := mul_nonneg (hm a) (show 0 ≤ |(s a).pos j| * |p.external (s a) k| + |(s a).pos k| * |p.external (s a) j| by positivity)
    linarith
  have e1 : ∑ a, (s a).mass * ((s a).pos j * A a k - (s a).pos k * A a j) - ∑ a, (s a).mass * ((s a).pos j * p.external (s a) k - (s a).pos k * p.external (s a) j) =
      ∑ a, (s a).mass * ((s a).pos j * (A a k - (((nbs a).map fun b => push R p (s a) (s b) k).sum + p.external (s a) k)) - (s a).pos k * (A a j - (((nbs a).map fun b => push R p (s a) (s b) j).sum + p.external (s a) j))) +
        ∑ a, ((nbs a).map fun b => (s a).mass * ((s a).pos j * push R p (s a) (s b) k - (s a).pos k * push R p (s a) (s b) j)).sum := by
    rw [← Finset.sum_sub_distrib, ← Finset.sum_add_distrib]
    refine Finset.sum_congr rfl fun a _ => ?_
    have : ((nbs a).map fun b => (s a).mass * ((s a).pos j * push R p (s a) (s b) k - (s a).pos k * push R p (s a) (s b) j)).sum =
        (s a).mass * ((s a).pos j * ((nbs a).map fun b => push R p (s a) (s b) k).sum - (s a).pos k * ((nbs a).map fun b => push R p (s a) (s b) j).sum) := by
      induction nbs a with
      | nil => simp
      | cons b l ih => simp only [List.map_cons, List.sum_cons, ih]; ring
    rw [this]
    ring
  have e2 : |∑ a, (s a).mass * ((s a).pos j * (A a k - (((nbs a).map fun b => push R p (s a) (s b) k).sum + p.external (s a) k)) - (s a).pos k * (A a j - (((nbs a).map fun b => push R p (s a) (s b) j).sum + p.external (s a) j)))| ≤
      2 * (N + 1) * R.u * Z := by
    rw [hZ, Finset.mul_sum]
    refine (Finset.abs_sum_le_sum_abs _ _).trans (Finset.sum_le_sum fun a _ => ?_)
    rw [abs_mul, abs_of_nonneg (hm a), mul_left_comm]
    refine mul_le_mul_of_nonneg_left ?_ (hm a)
    refine (abs_sub _ _).trans ?_
    rw [abs_mul, abs_mul]
    have q1 := mul_le_mul_of_nonneg_left (hAc a k) (abs_nonneg ((s a).pos j))
    have q2 := mul_le_mul_of_nonneg_left (hAc a j) (abs_nonneg ((s a).pos k))
    have q3 : |(s a).pos j| * ((nbs a).map fun b => |push R p (s a) (s b) k|).sum + |(s a).pos k| * ((nbs a).map fun b => |push R p (s a) (s b) j|).sum ≤
        ((nbs a).map fun b => (|(s a).pos j| + |(s b).pos j|) * |push R p (s a) (s b) k| + (|(s a).pos k| + |(s b).pos k|) * |push R p (s a) (s b) j|).sum := by
      rw [← List.sum_map_mul_left, ← List.sum_map_mul_left, ← List.sum_map_add]
      refine List.sum_le_sum fun b _ => ?_
      have r1 := mul_nonneg (abs_nonneg ((s b).pos j)) (abs_nonneg (push R p (s a) (s b) k))
      have r2 := mul_nonneg (abs_nonneg ((s b).pos k)) (abs_nonneg (push R p (s a) (s b) j))
      linarith
    have q4 := mul_le_mul_of_nonneg_left q3 (show 0 ≤ 2 * ((N : ℝ) + 1) * R.u by positivity)
    linarith
  have e5 : 0 ≤ Z := (Finset.sum_nonneg fun a _ => List.sum_nonneg (by simpa using fun b _ => hz0 a b)).trans e4
  have e6 := mul_le_mul_of_nonneg_left e4 (show 0 ≤ 17 * R.u / 2 by linarith)
  have e7 := mul_nonneg h0 e5
  rw [← hZ]
  have goal : |∑ a, (s a).mass * ((s a).pos j * A a k - (s a).pos k * A a j) - ∑ a, (s a).mass * ((s a).pos j * p.external (s a) k - (s a).pos k * p.external (s a) j)| ≤
      (2 * N + 11) * R.u * Z + lopsided nbs fun a b => (s a).mass * ((s a).pos j * push R p (s a) (s b) k - (s a).pos k * push R p (s a) (s b) j) := by
    rw [e1]
    refine (abs_add_le _ _).trans ?_
    unfold lopsided
    nlinarith
  rw [hA] at goal
  exact goal

end

private def dudtView {d : Nat} (b : Particle d) : Particle d := { b with dudt := 0 }

/-- In the formulation with the internal energy: after the passes of `compute_acceleration` and `compute_dudt` the rates of change of the kinetic and the internal energy cancel but for the work of the external
force, up to `2 (N + 9) u` of all exchanges taken with the same sign, and to the exchanges of pairs with one-sided lists. Whatever the visiting orders. -/
theorem C84_internal_partial (hR : Mirrored R) {N : Nat} (hN : (N + 9 : ℕ) * R.u ≤ 1) (p : Params i) (s : Fin n → Particle (i + 1)) (nbs : Fin n → List (Fin n)) (hn : ∀ a, (nbs a).Nodup)
    (hlen : ∀ a, (nbs a).length ≤ N) (order order' : List (Fin n)) (hall : VisitsAll order) (hall' : VisitsAll order') (hm : ∀ a, 0 ≤ (s a).mass) (_hreg : ∀ a, Regular p (s a)) {iteration : Int}
    (hit : ¬iteration < p.relaxationSteps) {t : Fin n → Particle (i + 1)} (ht : t = pass (computeDudtR R p iteration) nbs order' (pass (computeAccelerationR R p) nbs order s)) :
    |∑ a, (t a).mass * ((t a).dudt + ∑ j, (t a).vel j * (t a).acc j) - ∑ a, (s a).mass * ∑ j, (s a).vel j * p.external (s a) j| ≤
      2 * (N + 9) * R.u * ∑ a, (s a).mass * (2 * ((nbs a).map fun b => effort R p (s a) (s b)).sum + ∑ j, |(s a).vel j| * |p.external (s a) j|) +
        lopsided nbs fun a b => (s a).mass * effort R p (s a) (s b) := by
  have h0 := R.nonneg
  have e1 : t = fun a => computeDudtR R p iteration (computeAccelerationR R p (s a) ((nbs a).map s)) ((nbs a).map fun b => computeAccelerationR R p (s b) ((nbs b).map s)) := by
    rw [ht, acc_pass p s nbs order hall]
    rw [pass_eq (computeDudtR R p iteration) dudtView (computeDudtR R p iteration) (fun a l => by simp only [computeDudtR, List.foldl_map]; rfl) (fun a l => by unfold computeDudtR; split_ifs; all_goals rfl) nbs order' hall']
  have e2 : ∀ a, (t a).mass = (s a).mass ∧ (t a).vel = (s a).vel ∧ (t a).acc = (computeAccelerationR R p (s a) ((nbs a).map s)).acc ∧ (t a).dudt = (computeDudtR R p iteration (s a) ((nbs a).map s)).dudt := by
    intro a
    rw [e1]
    simp only [computeDudtR, if_neg hit, List.foldl_map]
    exact ⟨rfl, rfl, trivial, rfl⟩
  have e3 : ∀ a, Err R (N + 9) (((nbs a).map fun b => heat R p (s a) (s b)).sum + ∑ j, (s a).vel j * p.external (s a) j) ((t a).dudt + ∑ j, (t a).vel j * (t a).acc j)
      (2 * ((nbs a).map fun b => effort R p (s a) (s b)).sum + ∑ j, |(s a).vel j| * |p.external (s a) j|) := by
    intro a
    have := err_heat (R := R) p hit (s a) ((nbs a).map s) (N := N) (by rw [List.length_map]; exact hlen a) (by simpa using fun b _ => hm b)
    rw [List.map_map, List.map_map] at this
    rw [(e2 a).2.1, (e2 a).2.2.1, (e2 a).2.2.2]
    exact this
  have e4 := growth_le (R := R) (N + 9) hN
  push_cast at e4
  obtain ⟨Z, hZ⟩ : ∃ Z : Fin n → ℝ, Z = fun a => 2 * ((nbs a).map fun b => effort R p (s a) (s b)).sum + ∑ j, |(s a).vel j| * |p.external (s a) j| := ⟨_, rfl⟩
  have e5 : ∑ a, (t a).mass * ((t a).dudt + ∑ j, (t a).vel j * (t a).acc j) - ∑ a, (s a).mass * ∑ j, (s a).vel j * p.external (s a) j =
      ∑ a, (s a).mass * ((t a).dudt + ∑ j, (t a).vel j * (t a).acc j - (((nbs a).map fun b => heat R p (s a) (s b)).sum + ∑ j, (s a).vel j * p.external (s a) j)) +
        ∑ a, ((nbs a).map fun b => (s a).mass * heat R p (s a) (s b)).sum := by
    rw [← Finset.sum_sub_distrib, ← Finset.sum_add_distrib]
    refine Finset.sum_congr rfl fun a _ => ?_
    rw [List.sum_map_mul_left, (e2 a).1]
    ring
  have e6 : |∑ a, (s a).mass * ((t a).dudt + ∑ j, (t a).vel j * (t a).acc j - (((nbs a).map fun b => heat R p (s a) (s b)).sum + ∑ j, (s a).vel j * p.external (s a) j))| ≤ 2 * (N + 9) * R.u * ∑ a, (s a).mass * Z a := by
    rw [Finset.mul_sum]
    refine (Finset.abs_sum_le_sum_abs _ _).trans (Finset.sum_le_sum fun a _ => ?_)
    rw [abs_mul, abs_of_nonneg (hm a), mul_left_comm]
    refine mul_le_mul_of_nonneg_left ((e3 a).2.trans ?_) (hm a)
    rw [hZ]
    exact mul_le_mul_of_nonneg_right e4 (e3 a).size_nonneg
  have e7 := sum_pairs nbs hn (fun a b => (s a).mass * heat R p (s a) (s b)) (fun _ _ => 0) (K := 0) (fun _ _ => le_rfl) (fun a b => by rw [heat_opposite hR]; simp) le_rfl
  have e8 : (∑ a, ∑ b, if b ∈ nbs a ∧ a ∉ nbs b then |(s a).mass * heat R p (s a) (s b)| else 0) ≤ lopsided nbs fun a b => (s a).mass * effort R p (s a) (s b) := by
    refine Finset.sum_le_sum fun a _ => Finset.sum_le_sum fun b _ => ?_
    split_ifs with h
    · rw [abs_mul, abs_mul, abs_of_nonneg (hm a), abs_of_nonneg (effort_nonneg p (s a) (s b) (hm b))]
      exact mul_le_mul_of_nonneg_left (heat_le p (s a) (s b) (hm b)) (hm a)
    · rfl
  rw [e5]
  refine (abs_add_le _ _).trans ?_
  rw [hZ] at e6
  simp only [zero_div, zero_mul, zero_add] at e7
  exact add_le_add e6 (e7.trans e8)

/-! ### Kicks -/

/-- A kick of a velocity and of an energy is exact up to `8 u` of what is added. -/
theorem C84_kick (hu : R.u ≤ 1 / 16) {d : Nat} (dt : ℝ) (a : Particle d) :
    (∀ j, |(kickVR R dt a).vel j - (a.vel j + dt / 2 * (a.acc j + a.gacc j))| ≤ 8 * R.u * (|a.vel j| + |dt| / 2 * (|a.acc j| + |a.gacc j|))) ∧
      |(kickER R dt a).e - (a.e + dt / 2 * a.dedt)| ≤ 8 * R.u * (|a.e| + |dt| / 2 * |a.dedt|) := by
  have h2 := growth_le (R := R) 4 (by push_cast; linarith)
  push_cast at h2
  have hh : Err R 1 (dt / 2) (R.fl (1 / 2 * dt)) (|dt| / 2) := by
    refine (Err.refl (1 / 2 * dt)).fl.congr (by ring) ?_
    rw [abs_mul, abs_of_pos (by norm_num : (0 : ℝ) < 1 / 2)]; ring
  constructor
  · intro j
    have h := ((Err.refl (R := R) (a.vel j)).add (c := 3) (by omega) le_rfl ((hh.mul ((Err.refl (a.acc j)).add le_rfl le_rfl (Err.refl (a.gacc j))).fl).fl)).fl
    exact h.2.trans (mul_le_mul_of_nonneg_right (by norm_num; linarith) h.size_nonneg)
  · have h := ((Err.refl (R := R) a.e).add (c := 2) (by omega) le_rfl ((hh.mul (Err.refl a.dedt)).fl)).fl.mono (show 2 + 1 ≤ 4 by omega)
    exact h.2.trans (mul_le_mul_of_nonneg_right (by linarith) h.size_nonneg)

/-! ### A whole run -/

/-- The momentum of the particles along axis `j`. -/
noncomputable def momentum (s : Fin n → Particle (i + 1)) (j : Fin (i + 1)) : ℝ := ∑ a, (s a).mass * (s a).vel j

/-- The steps of a run without self-gravity and external force, with `k` kicks: the computation of the accelerations, kicks, and any other step, which leaves masses, velocities and accelerations as they are
(densities, pressures, drifts, energies, smoothing lengths, new neighbour lists). Along the run the steps in time are at most `T`, the sizes of the forces at most `F`, those of pairs with one-sided lists at most
`O`, the sum of the sizes of the momenta at most `V`, and no particle has more than `N` neighbours. The run starts before the first computation of the accelerations. -/
inductive Run (R : Rounding) (p : Params i) (j : Fin (i + 1)) (N : Nat) (T F O V : ℝ) (s₀ : Fin n → Particle (i + 1)) : Nat → (Fin n → Particle (i + 1)) → Prop
  | start (h : ∀ a, 0 ≤ (s₀ a).mass ∧ (s₀ a).acc = 0 ∧ (s₀ a).gacc = 0) : Run R p j N T F O V s₀ 0 s₀
  | accelerate {k : Nat} {s : Fin n → Particle (i + 1)} (nbs : Fin n → List (Fin n)) (order : List (Fin n)) (h : Run R p j N T F O V s₀ k s) (hall : VisitsAll order) (hreg : ∀ a, Regular p (s a)) (hn : ∀ a, (nbs a).Nodup)
      (hlen : ∀ a, (nbs a).length ≤ N) (hF : forces R p s nbs j ≤ F) (hO : (lopsided nbs fun a b => (s a).mass * push R p (s a) (s b) j) ≤ O) : Run R p j N T F O V s₀ k (pass (computeAccelerationR R p) nbs order s)
  | kick {k : Nat} {s : Fin n → Particle (i + 1)} (dt : ℝ) (h : Run R p j N T F O V s₀ k s) (hdt : |dt| ≤ T) (hV : ∑ a, (s a).mass * |(s a).vel j| ≤ V) : Run R p j N T F O V s₀ (k + 1) (applyAll (kickVR R dt) s)
  | other {k : Nat} {s t : Fin n → Particle (i + 1)} (h : Run R p j N T F O V s₀ k s) (hs : ∀ a, (t a).mass = (s a).mass ∧ (t a).vel = (s a).vel ∧ (t a).acc = (s a).acc ∧ (t a).gacc = (s a).gacc) :
      Run R p j N T F O V s₀ k t

/-- Along a run the momentum drifts by at most a fixed amount with every kick, proportional to the roundoff but for pairs with one-sided lists. -/
theorem C84_run_partial (hR : Mirrored R) {N : Nat} (hu : R.u ≤ 1 / 16) (hN : (N + 1 : ℕ) * R.u ≤ 1) (p : Params i) (hext : p.external = 0) (j : Fin (i + 1)) {T F O V : ℝ} (hF0 : 0 ≤ F) (hO0 : 0 ≤ O)
    {s₀ s : Fin n → Particle (i + 1)} {k : Nat} (h : Run R p j N T F O V s₀ k s) :
    |momentum s j - momentum s₀ j| ≤ k * (T / 2 * ((2 * N + 5) * R.u * F + O) + 8 * R.u * (V + T / 2 * (3 * F))) := by
  have h0 := R.nonneg
  have inv : |momentum s j - momentum s₀ j| ≤ k * (T / 2 * ((2 * N + 5) * R.u * F + O) + 8 * R.u * (V + T / 2 * (3 * F))) ∧ (∀ a, 0 ≤ (s a).mass ∧ (s a).gacc = 0) ∧
      |∑ a, (s a).mass * (s a).acc j| ≤ (2 * N + 5) * R.u * F + O ∧ ∑ a, (s a).mass * |(s a).acc j| ≤ 3 * F := by
    have hE : 0 ≤ (2 * N + 5) * R.u * F + O := by positivity
    induction h with
    | start h => exact ⟨by simp, fun a => ⟨(h a).1, (h a).2.2⟩, by simpa [(h _).2.1] using hE, by simpa [(h _).2.1] using hF0⟩
    | @accelerate k s nbs order h hall hreg hn hlen hF hO ih =>
      obtain ⟨i1, i2, -, -⟩ := ih
      have e1 := C84_momentum_partial hR hu hN p s nbs hn hlen order hall (fun a => (i2 a).1) hreg j
      rw [acc_pass p s nbs order hall] at e1 ⊢
      rw [hext] at e1
      simp only [Pi.zero_apply, mul_zero, Finset.sum_const_zero, sub_zero] at e1
      refine ⟨i1, fun a => ⟨(i2 a).1, rfl⟩, ?_, ?_⟩
      · have e2 := mul_le_mul_of_nonneg_left hF (show 0 ≤ (2 * N + 5) * R.u by positivity)
        exact e1.trans (by linarith)
      · have e3 : ∀ a, |(computeAccelerationR R p (s a) ((nbs a).map s)).acc j| ≤ 3 * (((nbs a).map fun b => |push R p (s a) (s b) j|).sum + |p.external (s a) j|) := by
          intro a
          have := sum_close (R := R) (fun b => push R p (s a) (s b) j) (nbs a) (p.external (s a) j) (hlen a) hN
          have q0 : 0 ≤ ((nbs a).map fun b => |push R p (s a) (s b) j|).sum + |p.external (s a) j| := add_nonneg (List.sum_nonneg (by simp)) (abs_nonneg _)
          have q1 : |((nbs a).map fun b => push R p (s a) (s b) j).sum + p.external (s a) j| ≤ ((nbs a).map fun b => |push R p (s a) (s b) j|).sum + |p.external (s a) j| := by
            refine (abs_add_le _ _).trans (add_le_add ?_ le_rfl)
            have : ∀ l : List (Fin n), |(l.map fun b => push R p (s a) (s b) j).sum| ≤ (l.map fun b => |push R p (s a) (s b) j|).sum := by
              intro l
              induction l with
              | nil => simp
              | cons b l ih => simpa using (abs_add_le _ _).trans (add_le_add le_rfl ih)
            exact this _
          have q2 : 2 * ((N : ℝ) + 1) * R.u ≤ 2 := by push_cast at hN; linarith
          have q3 := mul_le_mul_of_nonneg_right q2 q0
          have q4 : (computeAccelerationR R p (s a) ((nbs a).map s)).acc j = R.fl ((nbs a).foldl (fun z b => R.fl (z + push R p (s a) (s b) j)) 0 + p.external (s a) j) := by
            simp only [computeAccelerationR, List.foldl_map]
          rw [q4]
          have q5 := abs_add_le (R.fl ((nbs a).foldl (fun z b => R.fl (z + push R p (s a) (s b) j)) 0 + p.external (s a) j) - (((nbs a).map fun b => push R p (s a) (s b) j).sum + p.external (s a) j))
            (((nbs a).map fun b => push R p (s a) (s b) j).sum + p.external (s a) j)
          rw [sub_add_cancel] at q5
          linarith
        calc ∑ a, (s a).mass * |(computeAccelerationR R p (s a) ((nbs a).map s)).acc j| ≤ ∑ a, (s a).mass * (3 * (((nbs a).map fun b => |push R p (s a) (s b) j|).sum + |p.external (s a) j|)) :=
              Finset.sum_le_sum fun a _ => mul_le_mul_of_nonneg_left (e3 a) (i2 a).1
          _ = 3 * forces R p s nbs j := by
            rw [forces, Finset.mul_sum]
            exact Finset.sum_congr rfl fun a _ => by ring
          _ ≤ 3 * F := by linarith
    | @kick k s dt h hdt hV ih =>
      obtain ⟨i1, i2, i3, i4⟩ := ih
      refine ⟨?_, fun a => i2 a, i3, i4⟩
      have hT : 0 ≤ T := (abs_nonneg dt).trans hdt
      have e1 : |momentum (applyAll (kickVR R dt) s) j - momentum s j - dt / 2 * ∑ a, (s a).mass * (s a).acc j| ≤ 8 * R.u * (V + T / 2 * (3 * F)) := by
        have : momentum (applyAll (kickVR R dt) s) j - momentum s j - dt / 2 * ∑ a, (s a).mass * (s a).acc j =
            ∑ a, (s a).mass * ((kickVR R dt (s a)).vel j - ((s a).vel j + dt / 2 * ((s a).acc j + (s a).gacc j))) := by
          rw [momentum, momentum, ← Finset.sum_sub_distrib, Finset.mul_sum, ← Finset.sum_sub_distrib]
          refine Finset.sum_congr rfl fun a _ => ?_
          rw [(i2 a).2, Pi.zero_apply, add_zero]
          show (s a).mass * (kickVR R dt (s a)).vel j - _ - _ = _
          ring
        rw [this]
        refine (Finset.abs_sum_le_sum_abs _ _).trans ?_
        calc ∑ a, |(s a).mass * ((kickVR R dt (s a)).vel j - ((s a).vel j + dt / 2 * ((s a).acc j + (s a).gacc j)))| ≤ ∑ a, 8 * R.u * ((s a).mass * |(s a).vel j| + T / 2 * ((s a).mass * |(s a).acc j|)) := by
              refine Finset.sum_le_sum fun a _ => ?_
              rw [abs_mul, abs_of_nonneg (i2 a).1]
              have h1 := mul_le_mul_of_nonneg_left ((C84_kick hu dt (s a)).1 j) (i2 a).1
              rw [(i2 a).2] at h1 ⊢
              simp only [Pi.zero_apply, abs_zero, add_zero] at h1 ⊢
              have h2 := mul_le_mul_of_nonneg_right (show |dt| / 2 ≤ T / 2 by linarith) (mul_nonneg (i2 a).1 (abs_nonneg ((s a).acc j)))
              have h3 := mul_le_mul_of_nonneg_left h2 (show 0 ≤ 8 * R.u by linarith)
              linarith
          _ = 8 * R.u * (∑ a, (s a).mass * |(s a).vel j| + T / 2 * ∑ a, (s a).mass * |(s a).acc j|) := by
            rw [← Finset.mul_sum, Finset.sum_add_distrib, Finset.mul_sum (a := T / 2)]
          _ ≤ 8 * R.u * (V + T / 2 * (3 * F)) := mul_le_mul_of_nonneg_left (add_le_add hV (mul_le_mul_of_nonneg_left i4 (by linarith))) (by linarith)
      have e2 : |dt / 2 * ∑ a, (s a).mass * (s a).acc j| ≤ T / 2 * ((2 * N + 5) * R.u * F + O) := by
        rw [abs_mul]
        refine mul_le_mul ?_ i3 (abs_nonneg _) (by linarith)
        rw [abs_div, abs_of_pos (by norm_num : (0 : ℝ) < 2)]
        linarith
      have e3 : momentum (applyAll (kickVR R dt) s) j - momentum s₀ j = (momentum (applyAll (kickVR R dt) s) j - momentum s j - dt / 2 * ∑ a, (s a).mass * (s a).acc j) +
          (dt / 2 * ∑ a, (s a).mass * (s a).acc j) + (momentum s j - momentum s₀ j) := by ring
      rw [e3]
      refine (abs_add_three _ _ _).trans ?_
      push_cast
      linarith
    | @other k s t h hs ih =>
      obtain ⟨i1, i2, i3, i4⟩ := ih
      have em : momentum t j = momentum s j := Finset.sum_congr rfl fun a _ => by rw [(hs a).1, (hs a).2.1]
      refine ⟨by rw [em]; exact i1, fun a => ⟨by rw [(hs a).1]; exact (i2 a).1, by rw [(hs a).2.2.2]; exact (i2 a).2⟩, ?_, ?_⟩
      · rw [show ∑ a, (t a).mass * (t a).acc j = ∑ a, (s a).mass * (s a).acc j from Finset.sum_congr rfl fun a _ => by rw [(hs a).1, (hs a).2.2.1]]; exact i3
      · rw [show ∑ a, (t a).mass * |(t a).acc j| = ∑ a, (s a).mass * |(s a).acc j| from Finset.sum_congr rfl fun a _ => by rw [(hs a).1, (hs a).2.2.1]]; exact i4
  exact inv.1

/-! ### One-sided lists -/

/-- In the lists of a search which is right up to rounding (`C80_search_partial`), a pair with one-sided lists is at the edge: its distance is between the bounds of the search. -/
theorem C84_one_sided {d D dim : Nat} {ranks : List (List Nat)} {body : Nat → Cofm.Body d} {lower upper : Cofm.Body d → Cofm.Body d → ℝ} {q q' : Nat} {cs cs' : List (List Nat × List (List Nat))}
    (hs : ServedBetween D dim ranks body lower upper q cs) (hs' : ServedBetween D dim ranks body lower upper q' cs') (hdim : 0 < dim) (hfull : ∀ z ∈ ranks.flatten, FullKey D dim z)
    {e f : List Nat} {nb nb' : List (List Nat)} {x y : Nat} (hx : x ∈ ranks.flatten) (hy : y ∈ ranks.flatten) (hc : (e, nb) ∈ cs) (hc' : (f, nb') ∈ cs')
    (hex : LeafCell D dim (· ∈ ranks.flatten) x (number dim e)) (hfy : LeafCell D dim (· ∈ ranks.flatten) y (number dim f)) (h1 : f ∈ nb) (h2 : e ∉ nb') :
    lower (body y) (body x) < √(∑ i, ((body x).pos i - (body y).pos i) ^ 2) ∧ √(∑ i, ((body x).pos i - (body y).pos i) ^ 2) ≤ upper (body x) (body y) := by
  have de : Digits dim e := ((hs.all e).mp (List.mem_map_of_mem hc)).1
  have df : Digits dim f := ((hs'.all f).mp (List.mem_map_of_mem hc')).1
  constructor
  · by_contra hlt
    rw [not_lt] at hlt
    refine h2 (hs'.complete f nb' y hc' hy hfy e x hx de hex ?_)
    rw [show ∑ i, ((body y).pos i - (body x).pos i) ^ 2 = ∑ i, ((body x).pos i - (body y).pos i) ^ 2 from Finset.sum_congr rfl fun i _ => by ring]
    exact hlt
  · obtain ⟨-, z, hz, hlz, hd⟩ := hs.sound e nb x hc hx hex f h1
    have hzy : z = y := ((leaf_path hdim hfull df hy).mp hfy).2.2.1 z hz ((leaf_path hdim hfull df hz).mp hlz).2.1
    rwa [hzy] at hd

/-! ### The rounding of `double` treats both signs alike -/

/-- To the nearest integer, ties to the even one. -/
noncomputable def roundEven (x : ℝ) : ℤ := if Int.fract x = 1 / 2 then 2 * round (x / 2) else round x

private theorem round_neg_of {x : ℝ} (h : Int.fract x ≠ 1 / 2) : round (-x) = -round x := by
  have e : round x = ⌊x + 1 / 2⌋ := round_eq x
  obtain ⟨m, hm⟩ : ∃ m, m = round x := ⟨_, rfl⟩
  rw [← hm] at e ⊢
  obtain ⟨h1, h2⟩ := Int.floor_eq_iff.mp e.symm
  have h3 : (m : ℝ) ≠ x + 1 / 2 := by
    intro h3
    apply h
    rw [show x = ((m - 1 : ℤ) : ℝ) + 1 / 2 by push_cast; linarith, Int.fract_intCast_add, Int.fract_eq_self]
    norm_num
  have h4 := lt_of_le_of_ne h1 h3
  rw [round_eq, Int.floor_eq_iff]
  push_cast
  constructor <;> linarith

private theorem half_cases {x : ℝ} (h : Int.fract x = 1 / 2) : ∃ k : ℤ, (x = 2 * k + 1 / 2 ∧ round (x / 2) = k) ∨ (x = 2 * k + 3 / 2 ∧ round (x / 2) = k + 1) := by
  have e := Int.floor_add_fract x
  rw [h] at e
  obtain ⟨k, hk | hk⟩ := Int.even_or_odd' ⌊x⌋
  · refine ⟨k, Or.inl ⟨by rw [← e, hk]; push_cast; ring, ?_⟩⟩
    rw [round_eq, Int.floor_eq_iff, ← e, hk]
    push_cast
    constructor <;> linarith
  · refine ⟨k, Or.inr ⟨by rw [← e, hk]; push_cast; ring, ?_⟩⟩
    rw [round_eq, Int.floor_eq_iff, ← e, hk]
    push_cast
    constructor <;> linarith

theorem roundEven_near (x : ℝ) : |x - roundEven x| ≤ 1 / 2 := by
  unfold roundEven
  split_ifs with h
  · obtain ⟨k, ⟨h1, h2⟩ | ⟨h1, h2⟩⟩ := half_cases h <;> rw [h2, h1] <;> push_cast <;> rw [abs_le] <;> constructor <;> linarith
  · exact abs_sub_round x

private theorem roundEven_neg (x : ℝ) : roundEven (-x) = -roundEven x := by
  unfold roundEven
  by_cases h : Int.fract x = 1 / 2
  · have h' : Int.fract (-x) = 1 / 2 := by
      rw [Int.fract_neg (by rw [h]; norm_num), h]; norm_num
    rw [if_pos h, if_pos h', neg_div, round_neg_of]
    · ring
    · obtain ⟨k, ⟨h1, -⟩ | ⟨h1, -⟩⟩ := half_cases h
      · rw [show x / 2 = (k : ℝ) + 1 / 4 by rw [h1]; ring, Int.fract_intCast_add, Int.fract_eq_self.mpr (by norm_num)]; norm_num
      · rw [show x / 2 = (k : ℝ) + 3 / 4 by rw [h1]; ring, Int.fract_intCast_add, Int.fract_eq_self.mpr (by norm_num)]; norm_num
  · have h' : Int.fract (-x) ≠ 1 / 2 := by
      intro h'
      apply h
      rw [← neg_neg x, Int.fract_neg (by rw [h']; norm_num), h']; norm_num
    rw [if_neg h, if_neg h', round_neg_of h]

/-- Rounding to `p` binary digits, to nearest, ties to even; `double` has `p = 53`. -/
noncomputable def tiesToEven (p : Nat) : Rounding where
  fl := fun x => roundEven (x * 2 ^ ((p : ℤ) - 1 - Int.log 2 |x|)) * 2 ^ (Int.log 2 |x| + 1 - p)
  u := 2 ^ (-p : ℤ)
  nonneg := by positivity
  err := by
    intro x
    obtain ⟨e, he⟩ : ∃ e, e = Int.log 2 |x| := ⟨_, rfl⟩
    rw [← he]
    rcases eq_or_ne x 0 with rfl | hx
    · simp [roundEven]
    have h1 : (2 : ℝ) ^ e ≤ |x| := by
      rw [he]
      have := Int.zpow_log_le_self (b := 2) (by norm_num) (abs_pos.mpr hx)
      exact_mod_cast this
    have h2 : (2 : ℝ) ^ ((p : ℤ) - 1 - e) * 2 ^ (e + 1 - (p : ℤ)) = 1 := by
      rw [← zpow_add₀ (by norm_num)]
      rw [show (p : ℤ) - 1 - e + (e + 1 - p) = 0 by ring, zpow_zero]
    have h3 : (0 : ℝ) < 2 ^ (e + 1 - (p : ℤ)) := by positivity
    have h4 := roundEven_near (x * 2 ^ ((p : ℤ) - 1 - e))
    calc |(roundEven (x * 2 ^ ((p : ℤ) - 1 - e)) : ℝ) * 2 ^ (e + 1 - (p : ℤ)) - x| = |x * 2 ^ ((p : ℤ) - 1 - e) - roundEven (x * 2 ^ ((p : ℤ) - 1 - e))| * 2 ^ (e + 1 - (p : ℤ)) := by
          rw [← abs_of_pos h3, ← abs_mul, abs_of_pos h3, sub_mul, mul_assoc, h2, mul_one, abs_sub_comm]
      _ ≤ 1 / 2 * 2 ^ (e + 1 - (p : ℤ)) := mul_le_mul_of_nonneg_right h4 h3.le
      _ = 2 ^ (-p : ℤ) * 2 ^ e := by
        rw [show e + 1 - (p : ℤ) = 1 + (-p + e) by ring, zpow_add₀ (by norm_num), zpow_add₀ (by norm_num), zpow_one]
        ring
      _ ≤ 2 ^ (-p : ℤ) * |x| := mul_le_mul_of_nonneg_left h1 (by positivity)

theorem C84_double (p : Nat) : Mirrored (tiesToEven p) := by
  intro x
  show (roundEven (-x * 2 ^ ((p : ℤ) - 1 - Int.log 2 |(-x)|)) : ℝ) * 2 ^ (Int.log 2 |(-x)| + 1 - p) = -((roundEven (x * 2 ^ ((p : ℤ) - 1 - Int.log 2 |x|)) : ℝ) * 2 ^ (Int.log 2 |x| + 1 - p))
  rw [abs_neg, neg_mul, roundEven_neg]
  push_cast
  ring

/-! ### A case: three particles on a line with different masses, in `double` -/

/-- The particles of the case. -/
def exS : Fin 3 → Particle 1 := fun a => ⟨0, (a : ℕ) + 1, 2, fun _ => (a : ℕ), 0, 0, 0, 0, 0, 1, 1, 1, 1, 1, 1, 0, 0, 0, 0, 0, 0, 0, 0⟩

example : Mirrored (tiesToEven 53) ∧ (tiesToEven 53).u ≤ 1 / 16 ∧ ((3 + 1 : ℕ) : ℝ) * (tiesToEven 53).u ≤ 1 ∧ (∀ a, (![[0, 1], [0, 1, 2], [1, 2]] : Fin 3 → List (Fin 3)) a |>.Nodup) ∧
    (∀ a, ((![[0, 1], [0, 1, 2], [1, 2]] : Fin 3 → List (Fin 3)) a).length ≤ 3) ∧ VisitsAll ([2, 0, 1] : List (Fin 3)) ∧ (∀ a, 0 ≤ (exS a).mass ∧ 0 < (exS a).h ∧ 0 < (exS a).rho) ∧ (exS 0).mass ≠ (exS 1).mass := by
  have hu : (tiesToEven 53).u = 2 ^ (-53 : ℤ) := rfl
  refine ⟨C84_double 53, by rw [hu]; norm_num, by rw [hu]; norm_num, by decide, by decide, ⟨by decide, by decide⟩, fun a => ?_, ?_⟩
  · have : (0 : ℝ) ≤ (a : ℕ) := Nat.cast_nonneg _
    exact ⟨by simp only [exS]; linarith, by norm_num [exS], by norm_num [exS]⟩
  · simp [exS]

/-- A run with a kick: the bounds are the values along it. -/
example (p : Params 0) (hp : 0 ≤ p.eps) : ∃ T F O V s, Run (tiesToEven 53) p 0 3 T F O V exS 1 s :=
  ⟨1, _, _, _, _, .kick (1 / 2) (.accelerate ![[0, 1], [0, 1, 2], [1, 2]] [2, 0, 1]
    (.start fun a => ⟨by have : (0 : ℝ) ≤ (a : ℕ) := Nat.cast_nonneg _
                         simp only [exS]; linarith, rfl, rfl⟩) ⟨by decide, by decide⟩ (fun a => ⟨hp, by norm_num [exS], by norm_num [exS]⟩) (by decide) (by decide) le_rfl le_rfl)
    (by rw [abs_of_pos] <;> norm_num) le_rfl⟩

/-- The distance of the outer two is beyond their smoothing lengths if these are one. -/
example : ((1 : ℝ) + 1) / 2 ≤ (1 - (tiesToEven 53).u) ^ 11 * √(∑ j, ((exS 0).pos j - (exS 2).pos j) ^ 2) := by
  have hu : (tiesToEven 53).u = 2 ^ (-53 : ℤ) := rfl
  have : √(∑ j, ((exS 0).pos j - (exS 2).pos j) ^ 2) = 2 := by
    simp only [exS, Finset.univ_unique, Finset.sum_singleton]
    rw [show (((0 : Fin 3) : ℕ) - ((2 : Fin 3) : ℕ) : ℝ) ^ 2 = 2 ^ 2 by norm_num]
    exact Real.sqrt_sq (by norm_num)
  rw [this, hu]
  norm_num

end FleCSPH.Rounded
