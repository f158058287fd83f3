import Verif.Model.Rounding
import Verif.Lemmas.Geometry
import Mathlib.Algebra.Order.Ring.Pow
import Mathlib.Tactic.Linarith
import Mathlib.Tactic.Positivity
import Mathlib.Tactic.Ring
/-! Bounds on rounded distances. -/
namespace FleCSPH.Rounded
open FleCSPH.Geometry

variable {d : Nat} {R : Rounding}

/-- Two numbers which are not negative differ by at most `k` factors `1 - u`. -/
def Near (R : Rounding) (k : Nat) (x y : ℝ) : Prop := (1 - R.u) ^ k * x ≤ y ∧ (1 - R.u) ^ k * y ≤ x

theorem pow_mono (hu : R.u ≤ 1) {a b : Nat} (h : a ≤ b) : (1 - R.u) ^ b ≤ (1 - R.u) ^ a := pow_le_pow_of_le_one (by linarith) (by linarith [R.nonneg]) h

theorem pow_nonneg' (hu : R.u ≤ 1) (a : Nat) : 0 ≤ (1 - R.u) ^ a := pow_nonneg (by linarith) a

theorem pow_le_one' (hu : R.u ≤ 1) (a : Nat) : (1 - R.u) ^ a ≤ 1 := pow_le_one₀ (by linarith) (by linarith [R.nonneg])

theorem bernoulli (hu : R.u ≤ 1) (a : Nat) : 1 - a * R.u ≤ (1 - R.u) ^ a := by
  have := one_add_mul_le_pow (a := -R.u) (by linarith) a
  rw [sub_eq_add_neg 1 R.u]
  linarith

theorem fl_ge {x : ℝ} (hx : 0 ≤ x) : (1 - R.u) * x ≤ R.fl x := by
  have h := (abs_le.mp (R.err x)).1
  rw [abs_of_nonneg hx] at h
  linarith

theorem fl_le {x : ℝ} (hx : 0 ≤ x) : R.fl x ≤ (1 + R.u) * x := by
  have h := (abs_le.mp (R.err x)).2
  rw [abs_of_nonneg hx] at h
  linarith

theorem fl_nonneg (hu : R.u ≤ 1) {x : ℝ} (hx : 0 ≤ x) : 0 ≤ R.fl x := le_trans (mul_nonneg (by linarith) hx) (fl_ge hx)

theorem fl_nonpos (hu : R.u ≤ 1) {x : ℝ} (hx : x ≤ 0) : R.fl x ≤ 0 := by
  have h := (abs_le.mp (R.err x)).2
  rw [abs_of_nonpos hx] at h
  nlinarith

theorem near_fl {x : ℝ} (hx : 0 ≤ x) (hu : R.u ≤ 1) : Near R 1 x (R.fl x) := by
  refine ⟨by rw [pow_one]; exact fl_ge hx, ?_⟩
  rw [pow_one]
  have h := fl_le (R := R) hx
  calc (1 - R.u) * R.fl x ≤ (1 - R.u) * ((1 + R.u) * x) := mul_le_mul_of_nonneg_left h (by linarith)
    _ = x - R.u ^ 2 * x := by ring
    _ ≤ x := by nlinarith [sq_nonneg R.u]

theorem near_abs (hu : R.u ≤ 1) (x : ℝ) : Near R 1 |x| |R.fl x| := by
  have h := R.err x
  have h1 : |x| - |R.fl x| ≤ R.u * |x| := by
    have := abs_sub_abs_le_abs_sub x (R.fl x)
    rw [abs_sub_comm] at this
    linarith
  have h2 : |R.fl x| - |x| ≤ R.u * |x| := (abs_sub_abs_le_abs_sub _ _).trans h
  have h0 := abs_nonneg x
  refine ⟨by rw [pow_one]; linarith, ?_⟩
  rw [pow_one]
  calc (1 - R.u) * |R.fl x| ≤ (1 - R.u) * ((1 + R.u) * |x|) := mul_le_mul_of_nonneg_left (by linarith) (by linarith)
    _ = |x| - R.u ^ 2 * |x| := by ring
    _ ≤ |x| := by nlinarith [sq_nonneg R.u]

theorem Near.rfl' {x : ℝ} : Near R 0 x x := by simp [Near]

theorem Near.trans (hu : R.u ≤ 1) {a b : Nat} {x y z : ℝ} (h : Near R a x y) (h' : Near R b y z) : Near R (a + b) x z := by
  have ha := pow_nonneg' hu a
  have hb := pow_nonneg' hu b
  constructor
  · calc (1 - R.u) ^ (a + b) * x = (1 - R.u) ^ b * ((1 - R.u) ^ a * x) := by rw [pow_add]; ring
      _ ≤ (1 - R.u) ^ b * y := mul_le_mul_of_nonneg_left h.1 hb
      _ ≤ z := h'.1
  · calc (1 - R.u) ^ (a + b) * z = (1 - R.u) ^ a * ((1 - R.u) ^ b * z) := by rw [pow_add]; ring
      _ ≤ (1 - R.u) ^ a * y := mul_le_mul_of_nonneg_left h'.2 ha
      _ ≤ x := h.2

theorem Near.mono (hu : R.u ≤ 1) {a b : Nat} (hab : a ≤ b) {x y : ℝ} (hx : 0 ≤ x) (hy : 0 ≤ y) (h : Near R a x y) : Near R b x y :=
  ⟨(mul_le_mul_of_nonneg_right (pow_mono hu hab) hx).trans h.1, (mul_le_mul_of_nonneg_right (pow_mono hu hab) hy).trans h.2⟩

theorem Near.add {a : Nat} {x y x' y' : ℝ} (h : Near R a x y) (h' : Near R a x' y') : Near R a (x + x') (y + y') := by
  obtain ⟨h1, h2⟩ := h
  obtain ⟨h3, h4⟩ := h'
  constructor <;> rw [mul_add] <;> linarith

theorem Near.mul (hu : R.u ≤ 1) {a b : Nat} {x y x' y' : ℝ} (hx : 0 ≤ x) (hy : 0 ≤ y) (hx' : 0 ≤ x') (hy' : 0 ≤ y') (h : Near R a x y) (h' : Near R b x' y') : Near R (a + b) (x * x') (y * y') := by
  have ha := pow_nonneg' hu a
  have hb := pow_nonneg' hu b
  constructor
  · calc (1 - R.u) ^ (a + b) * (x * x') = ((1 - R.u) ^ a * x) * ((1 - R.u) ^ b * x') := by rw [pow_add]; ring
      _ ≤ y * y' := mul_le_mul h.1 h'.1 (mul_nonneg hb hx') hy
  · calc (1 - R.u) ^ (a + b) * (y * y') = ((1 - R.u) ^ a * y) * ((1 - R.u) ^ b * y') := by rw [pow_add]; ring
      _ ≤ x * x' := mul_le_mul h.2 h'.2 (mul_nonneg hb hy') hx

theorem Near.sqrt (hu : R.u ≤ 1) {a : Nat} {x y : ℝ} (h : Near R a x y) : Near R a √x √y := by
  have ha := pow_nonneg' hu a
  have key : ∀ {x y : ℝ}, (1 - R.u) ^ a * x ≤ y → (1 - R.u) ^ a * √x ≤ √y := by
    intro x y h
    rcases le_or_gt x 0 with hx | hx
    · rw [Real.sqrt_eq_zero_of_nonpos hx, mul_zero]; exact Real.sqrt_nonneg _
    · apply Real.le_sqrt_of_sq_le
      rw [mul_pow, Real.sq_sqrt hx.le]
      refine le_trans ?_ h
      refine mul_le_mul_of_nonneg_right ?_ hx.le
      rw [sq]
      exact mul_le_of_le_one_left ha (pow_le_one' hu a)
  exact ⟨key h.1, key h.2⟩

theorem near_fold (hu : R.u ≤ 1) {a : Nat} : ∀ (l : List (ℝ × ℝ)) {s t : ℝ}, 0 ≤ s → 0 ≤ t → Near R a s t → (∀ z ∈ l, 0 ≤ z.1 ∧ 0 ≤ z.2 ∧ Near R a z.1 z.2) →
    0 ≤ (l.map Prod.snd).foldl (fun s y => R.fl (s + y)) t ∧ Near R (a + l.length) (s + (l.map Prod.fst).sum) ((l.map Prod.snd).foldl (fun s y => R.fl (s + y)) t) := by
  intro l
  induction l generalizing a with
  | nil => intro s t hs ht h _; simpa using ⟨ht, h⟩
  | cons z l ih =>
    intro s t hs ht h hl
    obtain ⟨h1, h2, h3⟩ := hl z List.mem_cons_self
    have h4 := (h.add h3).trans hu (near_fl (add_nonneg ht h2) hu)
    have := ih (a := a + 1) (s := s + z.1) (t := R.fl (t + z.2)) (add_nonneg hs h1) (fl_nonneg hu (add_nonneg ht h2)) h4 fun z hz => by
      obtain ⟨g1, g2, g3⟩ := hl z (List.mem_cons_of_mem _ hz)
      exact ⟨g1, g2, g3.mono hu (by omega) g1 g2⟩
    simp only [List.map_cons, List.foldl_cons, List.sum_cons, List.length_cons]
    rw [show a + (l.length + 1) = a + 1 + l.length by omega, ← add_assoc s]
    exact this

theorem near_square (hu : R.u ≤ 1) (x : ℝ) : 0 ≤ R.fl (R.fl x * R.fl x) ∧ Near R 3 (x * x) (R.fl (R.fl x * R.fl x)) := by
  have h0 : 0 ≤ R.fl x * R.fl x := mul_self_nonneg _
  refine ⟨fl_nonneg hu h0, ?_⟩
  have h1 := (near_abs hu x).mul hu (abs_nonneg _) (abs_nonneg _) (abs_nonneg _) (abs_nonneg _) (near_abs hu x)
  rw [abs_mul_abs_self, abs_mul_abs_self] at h1
  exact h1.trans hu (near_fl h0 hu)

private theorem squares_sum (p q : Point d) : ((List.finRange d).map fun i => (p i - q i) * (p i - q i)).sum = Geometry.distance2 p q := by
  rw [Geometry.distance2, ← List.sum_ofFn, List.ofFn_eq_map]

/-- The sum of squares. -/
theorem near_distance2 (hu : R.u ≤ 1) (hd : d ≤ 3) (p q : Point d) : Near R 6 (Geometry.distance2 p q) (distance2 R p q) := by
  have hpos : 0 ≤ Geometry.distance2 p q := Finset.sum_nonneg fun _ _ => mul_self_nonneg _
  rw [← squares_sum] at hpos ⊢
  unfold distance2 squares
  obtain ⟨l, hl⟩ : ∃ l, l = List.finRange d := ⟨_, rfl⟩
  have hlen : l.length = d := by rw [hl, List.length_finRange]
  rw [← hl] at hpos ⊢
  cases l with
  | nil => simp [sum, Near]
  | cons i l =>
    obtain ⟨h1, h2⟩ := near_square hu (R := R) (p i - q i)
    have := near_fold hu (a := 3) (l.map fun i => ((p i - q i) * (p i - q i), R.fl (R.fl (p i - q i) * R.fl (p i - q i)))) (mul_self_nonneg _) h1 h2 (by
      intro z hz
      obtain ⟨j, -, rfl⟩ := List.mem_map.mp hz
      exact ⟨mul_self_nonneg _, near_square hu _⟩)
    rw [List.map_map, List.map_map, List.length_map] at this
    simp only [List.map_cons, sum, List.sum_cons] at hpos ⊢
    exact this.2.mono hu (by simp only [List.length_cons] at hlen; omega) hpos this.1

/-- The distance. -/
theorem near_distance (hu : R.u ≤ 1) (hd : d ≤ 3) (p q : Point d) : 0 ≤ distance R p q ∧ Near R 7 (Geometry.distance p q) (distance R p q) := by
  have hdist := distance_nonneg p q
  unfold distance
  split_ifs with h
  · subst h
    have e : ((List.finRange 1).map fun i => |R.fl (p i - q i)|).sum = |R.fl (p 0 - q 0)| := by
      rw [← List.ofFn_eq_map, List.sum_ofFn]; simp
    have e' : Geometry.distance p q = |p 0 - q 0| := by
      rw [Geometry.distance, Fin.sum_univ_one, Real.sqrt_mul_self_eq_abs]
    rw [e]
    refine ⟨abs_nonneg _, ?_⟩
    rw [e'] at hdist ⊢
    exact (near_abs hu _).mono hu (by omega) hdist (abs_nonneg _)
  · have := near_fold hu (a := 3) ((List.finRange d).map fun i => ((p i - q i) * (p i - q i), R.fl (R.fl (p i - q i) * R.fl (p i - q i)))) le_rfl le_rfl (Near.rfl'.mono hu (Nat.zero_le 3) le_rfl le_rfl) (by
      intro z hz
      obtain ⟨j, -, rfl⟩ := List.mem_map.mp hz
      exact ⟨mul_self_nonneg _, near_square hu _⟩)
    rw [List.map_map, List.map_map, List.length_map, List.length_finRange, zero_add] at this
    obtain ⟨h1, h2⟩ := this
    have h3 := (h2.sqrt hu).trans hu (near_fl (R := R) (Real.sqrt_nonneg _) hu)
    refine ⟨fl_nonneg hu (Real.sqrt_nonneg _), ?_⟩
    have e : √((List.finRange d).map (Prod.fst ∘ fun i => ((p i - q i) * (p i - q i), R.fl (R.fl (p i - q i) * R.fl (p i - q i))))).sum = Geometry.distance p q := by
      show √((List.finRange d).map fun i => (p i - q i) * (p i - q i)).sum = _
      rw [squares_sum]; rfl
    rw [e] at h3
    exact h3.mono hu (by omega) hdist (fl_nonneg hu (Real.sqrt_nonneg _))

/-- The rounded test of the distance passes when the distance is a little smaller. -/
theorem within_of (hu : R.u < 1) (hd : d ≤ 3) {p q : Point d} {r : ℝ} (h : Geometry.distance p q ≤ (1 - R.u) ^ 4 * r) : withinDistance2 R p q r := by
  have h0 := distance_nonneg p q
  have h1 := (near_distance2 hu.le hd p q (R := R)).2
  have h2 := fl_ge (R := R) (mul_self_nonneg r)
  rw [distance2_eq] at h1
  have hv : 0 < (1 - R.u) ^ 6 := pow_pos (by linarith) 6
  unfold withinDistance2
  have h3 : Geometry.distance p q ^ 2 ≤ ((1 - R.u) ^ 4 * r) ^ 2 := pow_le_pow_left₀ h0 h 2
  have h4 : (1 - R.u) ^ 6 * distance2 R p q ≤ (1 - R.u) ^ 6 * R.fl (r * r) := by
    refine h1.trans (h3.trans ?_)
    calc ((1 - R.u) ^ 4 * r) ^ 2 = (1 - R.u) ^ 6 * ((1 - R.u) ^ 2 * (r * r)) := by ring
      _ ≤ (1 - R.u) ^ 6 * ((1 - R.u) * (r * r)) := by
        refine mul_le_mul_of_nonneg_left (mul_le_mul_of_nonneg_right ?_ (mul_self_nonneg r)) hv.le
        nlinarith [R.nonneg]
      _ ≤ _ := mul_le_mul_of_nonneg_left h2 hv.le
  exact le_of_mul_le_mul_left h4 hv

/-- What passes the rounded test is not much further away. -/
theorem of_within (hu : R.u < 1) (hd : d ≤ 3) {p q : Point d} {r : ℝ} (hr : 0 ≤ r) (h : withinDistance2 R p q r) : (1 - R.u) ^ 4 * Geometry.distance p q ≤ r := by
  have h0 := distance_nonneg p q
  have h1 := (near_distance2 hu.le hd p q (R := R)).1
  have h2 := (near_fl (R := R) (mul_self_nonneg r) hu.le).2
  rw [distance2_eq] at h1
  unfold withinDistance2 at h
  refine le_of_sq_le_sq ?_ hr
  calc ((1 - R.u) ^ 4 * Geometry.distance p q) ^ 2 = (1 - R.u) ^ 1 * ((1 - R.u) ^ 1 * ((1 - R.u) ^ 6 * Geometry.distance p q ^ 2)) := by ring
    _ ≤ (1 - R.u) ^ 1 * ((1 - R.u) ^ 1 * R.fl (r * r)) := by
      refine mul_le_mul_of_nonneg_left (mul_le_mul_of_nonneg_left (h1.trans h) ?_) ?_ <;> exact pow_nonneg' hu.le 1
    _ ≤ (1 - R.u) ^ 1 * (r * r) := mul_le_mul_of_nonneg_left h2 (pow_nonneg' hu.le 1)
    _ ≤ 1 * (r * r) := mul_le_mul_of_nonneg_right (pow_le_one' hu.le 1) (mul_self_nonneg r)
    _ = r ^ 2 := by ring

/-! ### Distances from coordinates -/

theorem distance_mono {a b p q : Point d} (h : ∀ i, |a i - b i| ≤ |p i - q i|) : Geometry.distance a b ≤ Geometry.distance p q := by
  unfold Geometry.distance
  refine Real.sqrt_le_sqrt (Finset.sum_le_sum fun i _ => ?_)
  rw [← abs_mul_abs_self, ← abs_mul_abs_self (p i - q i)]
  exact mul_self_le_mul_self (abs_nonneg _) (h i)

theorem distance_scale {a b p q : Point d} {c : ℝ} (hc : 0 ≤ c) (h : ∀ i, |a i - b i| ≤ c * |p i - q i|) : Geometry.distance a b ≤ c * Geometry.distance p q := by
  have e : Geometry.distance (fun i => c * p i) (fun i => c * q i) = c * Geometry.distance p q := by
    unfold Geometry.distance
    rw [← Real.sqrt_sq hc, ← Real.sqrt_mul (sq_nonneg c), Finset.mul_sum, Real.sqrt_sq hc]
    congr 1
    refine Finset.sum_congr rfl fun i _ => by ring
  rw [← e]
  refine distance_mono fun i => ?_
  rw [← mul_sub, abs_mul, abs_of_nonneg hc]
  exact h i

theorem distance_add {a b p q : Point d} (hd : d ≤ 3) {e : ℝ} (he : 0 ≤ e) (h : ∀ i, |a i - b i| ≤ |p i - q i| + e) : Geometry.distance a b ≤ Geometry.distance p q + 2 * e := by
  have h1 : Geometry.distance a b ≤ Geometry.distance (fun i => |p i - q i|) (fun _ => -e) := distance_mono fun i => by
    rw [sub_neg_eq_add, abs_of_nonneg (add_nonneg (abs_nonneg _) he)]
    exact h i
  have h2 := distance_triangle (fun i => |p i - q i|) (fun _ => 0) (fun _ : Fin d => -e)
  have h3 : Geometry.distance (fun i => |p i - q i|) (fun _ => 0) ≤ Geometry.distance p q := distance_mono fun i => by rw [sub_zero, abs_abs]
  have h4 : Geometry.distance (fun _ : Fin d => (0 : ℝ)) (fun _ => -e) ≤ 2 * e := by
    unfold Geometry.distance
    refine Real.sqrt_le_iff.mpr ⟨by linarith, ?_⟩
    rw [Finset.sum_const, Finset.card_univ, Fintype.card_fin, nsmul_eq_mul]
    have : (d : ℝ) ≤ 3 := by exact_mod_cast hd
    nlinarith [sq_nonneg e]
  linarith

theorem distance_bound {p q : Point d} (hd : d ≤ 3) {e : ℝ} (he : 0 ≤ e) (h : ∀ i, |p i - q i| ≤ e) : Geometry.distance p q ≤ 2 * e := by
  have := distance_add (a := p) (b := q) (p := p) (q := p) hd he (fun i => by rw [sub_self, abs_zero, zero_add]; exact h i)
  rw [distance_self] at this
  linarith

theorem clamp_near (lo hi c : Point d) (i : Fin d) : |clamp lo hi c i - c i| ≤ max 0 (max (lo i - c i) (c i - hi i)) := by
  unfold clamp
  rcases le_total (lo i) (min (c i) (hi i)) with h1 | h1
  · rw [max_eq_right h1]
    rcases le_total (c i) (hi i) with h2 | h2
    · rw [min_eq_left h2, sub_self, abs_zero]; exact le_max_left _ _
    · rw [min_eq_right h2, abs_of_nonpos (by linarith), neg_sub]; exact le_max_of_le_right (le_max_right _ _)
  · rw [max_eq_left h1]
    rcases le_total (c i) (lo i) with h2 | h2
    · rw [abs_of_nonneg (by linarith)]; exact le_max_of_le_right (le_max_left _ _)
    · rw [abs_of_nonpos (by linarith), neg_sub]
      rcases le_total (c i) (hi i) with h3 | h3
      · rw [min_eq_left h3] at h1
        exact le_max_of_le_left (by linarith)
      · rw [min_eq_right h3] at h1
        exact le_max_of_le_right (le_max_of_le_right (by linarith))

end FleCSPH.Rounded
