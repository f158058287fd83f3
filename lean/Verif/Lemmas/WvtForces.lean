import Verif.Spec.Relaxation
import Verif.Lemmas.Wvt
import Verif.Lemmas.Geometry
import Verif.Lemmas.Kernels
import Verif.Lemmas.SphSum
/-! Lemmas on the pseudo-accelerations of the relaxation. -/
namespace FleCSPH.Wvt
open FleCSPH.Geometry FleCSPH.Kernels FleCSPH.Spec
open FleCSPH.Sph (Particle)

theorem length_eq {d : Nat} (x : Point d) : length x = mag x := by
  unfold length mag
  simp only [sq]

theorem distance_length {d : Nat} (x y : Point d) : distance x y = length fun k => x k - y k := by
  unfold distance length
  simp only [sq]

theorem length_nonneg {d : Nat} (x : Point d) : 0 ≤ length x := Real.sqrt_nonneg _

theorem push_eq {d : Nat} (acc x y : Point d) (w : ℝ) : push acc x y w = acc + fun j => w * unit (fun k => x k - y k) j := by
  unfold push
  split
  · funext j
    rw [Pi.add_apply, distance_length]
    unfold unit
    ring
  · rename_i h
    have h0 : length (fun k => x k - y k) = 0 := by
      rw [← distance_length]
      exact le_antisymm (not_lt.1 h) (distance_nonneg x y)
    funext j
    rw [Pi.add_apply]
    unfold unit
    rw [h0, div_zero, mul_zero, add_zero]

theorem diehlShape_eq {h : ℝ} (hh : 0 < h) (r : ℝ) : diehlShape h r = diehlLaw h r := by
  unfold diehlShape diehlLaw
  have e : h / (h + 3 / 10 * h) = 1 / (1 + 3 / 10) := by field_simp
  rw [e, sq, sq]

theorem strength_eq (p : Forces) (i : Fin 3) {ha hb : ℝ} (h1 : 0 < ha) (h2 : 0 < hb) (r : ℝ) : strength p i ha hb r = weight p.method p.kernel i ha hb r := by
  have e : (1 : ℝ) / 2 * (ha + hb) = (ha + hb) / 2 := by ring
  unfold strength weight
  rw [e]
  cases p.method with
  | arth => simp only; rw [show (i : ℕ) + 2 = (i + 1) + 1 from rfl, pow_succ]; ring
  | diehl => simp only; rw [diehlShape_eq (by linarith)]

theorem imageStrength_eq (p : Forces) (i : Fin 3) {ha hb : ℝ} (h1 : 0 < ha) (r : ℝ) :
    imageStrength p i ha hb r = imageWeight p.method p.kernel i ha hb r := by
  have e : (1 : ℝ) / 2 * (ha + hb) = (ha + hb) / 2 := by ring
  unfold imageStrength imageWeight
  rw [e]
  cases p.method with
  | arth => simp only; rw [show (i : ℕ) + 2 = (i + 1) + 1 from rfl, pow_succ]; ring
  | diehl => simp only; rw [diehlShape_eq h1]

theorem ownStrength_eq (p : Forces) (i : Fin 3) {ha : ℝ} (h1 : 0 < ha) (r : ℝ) :
    ownStrength p i ha r = imageWeight p.method p.kernel i ha ha r := by
  have e : (ha + ha) / 2 = ha := by ring
  unfold ownStrength imageWeight
  rw [e]
  cases p.method with
  | arth => simp only; rw [show (i : ℕ) + 2 = (i + 1) + 1 from rfl, pow_succ]; ring
  | diehl => simp only; rw [diehlShape_eq h1]

/-- The reflected point in the plane and in space. -/
theorem reflected_eq (i : Fin 3) (hi : i ≠ 0) (b : ℝ) (y : Point (i + 1)) (hy : y ≠ 0) :
    ∃ s, toSpherical i y = some s ∧ s 0 = length y ∧ reflected i b s = image b y := by
  obtain ⟨s, h1, h2, h3, -⟩ := round i y fun _ => hy
  have hm : mag y ≠ 0 := fun h => hy ((mag_eq_zero y).1 h)
  refine ⟨s, h1, by rw [h2, length_eq], ?_⟩
  have e : b + (b - s 0) = (2 * b - mag y) / mag y * s 0 := by
    rw [h2]
    field_simp
    ring
  unfold reflected
  rw [e, cartesian_scale, h3 hi]
  funext j
  unfold image unit
  rw [length_eq]
  ring

/-- The contribution of a neighbour to the sum. -/
noncomputable def term (p : Forces) (i : Fin 3) (a nb : Particle (i + 1)) : Point (i + 1) := fromNeighbour p i a 0 nb

theorem fromNeighbour_eq (p : Forces) (i : Fin 3) (a nb : Particle (i + 1)) (acc : Point (i + 1)) : fromNeighbour p i a acc nb = acc + term p i a nb := by
  unfold term fromNeighbour
  simp only [push_eq]
  split
  · rcases toSpherical i nb.pos with _ | s
    · simp only [zero_add]
    · simp only
      split
      · rw [zero_add, add_assoc]
      · rw [zero_add]
  · rw [zero_add]

theorem foldl_eq (p : Forces) (i : Fin 3) (a : Particle (i + 1)) (nbs : List (Particle (i + 1))) :
    nbs.foldl (fromNeighbour p i a) 0 = (nbs.map (term p i a)).sum := by
  have key : ∀ (l : List (Particle (i + 1))) (acc : Point (i + 1)), l.foldl (fromNeighbour p i a) acc = acc + (l.map (term p i a)).sum := by
    intro l
    induction l with
    | nil => intro acc; simp
    | cons x l ih => intro acc; rw [List.foldl_cons, ih, fromNeighbour_eq, List.map_cons, List.sum_cons, add_assoc]
  rw [key, zero_add]

/-- The particle does not see the edge, or there is no reflection. -/
theorem term_inside (p : Forces) (i : Fin 3) (a nb : Particle (i + 1)) (ha : 0 < a.h) (hb : 0 < nb.h) (h : p.edge ≠ .reflective ∨ length a.pos + a.h ≤ p.radius) :
    term p i a nb = fun j => weight p.method p.kernel i a.h nb.h (length fun k => a.pos k - nb.pos k) * unit (fun k => a.pos k - nb.pos k) j := by
  unfold term fromNeighbour
  simp only [push_eq]
  rw [if_neg (by rw [length_eq] at h; rintro ⟨h1, h2⟩; rcases h with h | h; exacts [h h1, absurd h2 (not_lt.2 h)]), strength_eq p i ha hb, distance_length, zero_add]

theorem term_edge (p : Forces) (i : Fin 3) (hi : i ≠ 0) (a nb : Particle (i + 1)) (ha : 0 < a.h) (hb : 0 < nb.h) (hy : nb.pos ≠ 0) (h1 : p.edge = .reflective)
    (h2 : p.radius < length a.pos + a.h) : term p i a nb =
      (fun j => weight p.method p.kernel i a.h nb.h (length fun k => a.pos k - nb.pos k) * unit (fun k => a.pos k - nb.pos k) j) +
        if length nb.pos < p.radius then imagePush p.method p.kernel i p.radius a nb.pos nb.h else 0 := by
  obtain ⟨s, hs1, hs2, hs3⟩ := reflected_eq i hi p.radius nb.pos hy
  unfold term fromNeighbour
  simp only [push_eq]
  rw [if_pos ⟨h1, by rw [length_eq] at h2; exact h2⟩, hs1]
  simp only
  rw [hs2, hs3, strength_eq p i ha hb, imageStrength_eq p i ha, distance_length, distance_length]
  split
  · rw [zero_add]; rfl
  · rw [zero_add, add_zero]

theorem terms_edge (p : Forces) (i : Fin 3) (hi : i ≠ 0) (a : Particle (i + 1)) (nbs : List (Particle (i + 1))) (ha : 0 < a.h) (hb : ∀ nb ∈ nbs, 0 < nb.h)
    (hy : ∀ nb ∈ nbs, nb.pos ≠ 0) (h1 : p.edge = .reflective) (h2 : p.radius < length a.pos + a.h) :
    (nbs.map (term p i a)).sum = pushes p.method p.kernel i a nbs + imagePushes p.method p.kernel i p.radius a nbs := by
  induction nbs with
  | nil => simp [pushes, imagePushes]
  | cons x l ih =>
    have ih := ih (fun nb h => hb nb (List.mem_cons_of_mem _ h)) fun nb h => hy nb (List.mem_cons_of_mem _ h)
    rw [List.map_cons, List.sum_cons, ih, term_edge p i hi a x ha (hb x List.mem_cons_self) (hy x List.mem_cons_self) h1 h2]
    unfold pushes imagePushes
    rw [List.map_cons, List.sum_cons, List.filter_cons]
    by_cases hx : length x.pos < p.radius
    · rw [if_pos hx, if_pos (by simpa using hx), List.map_cons, List.sum_cons]
      abel
    · rw [if_neg hx, if_neg (by simpa using hx)]
      abel

theorem terms_inside (p : Forces) (i : Fin 3) (a : Particle (i + 1)) (nbs : List (Particle (i + 1))) (ha : 0 < a.h) (hb : ∀ nb ∈ nbs, 0 < nb.h)
    (h : p.edge ≠ .reflective ∨ length a.pos + a.h ≤ p.radius) : (nbs.map (term p i a)).sum = pushes p.method p.kernel i a nbs := by
  unfold pushes
  congr 1
  exact List.map_congr_left fun nb hnb => term_inside p i a nb ha (hb nb hnb) h

theorem own_inside (p : Forces) (i : Fin 3) (a : Particle (i + 1)) (acc : Point (i + 1)) (h : p.edge ≠ .reflective ∨ length a.pos + a.h ≤ p.radius) :
    fromOwnImage p i a acc = acc := by
  unfold fromOwnImage
  rw [if_neg (by rw [length_eq] at h; rintro ⟨h1, h2⟩; rcases h with h | h; exacts [h h1, absurd h2 (not_lt.2 h)])]

theorem own_edge (p : Forces) (i : Fin 3) (hi : i ≠ 0) (a : Particle (i + 1)) (ha : 0 < a.h) (hx : a.pos ≠ 0) (h1 : p.edge = .reflective)
    (h2 : p.radius < length a.pos + a.h) (acc : Point (i + 1)) : fromOwnImage p i a acc = acc + imagePush p.method p.kernel i p.radius a a.pos a.h := by
  obtain ⟨s, hs1, hs2, hs3⟩ := reflected_eq i hi p.radius a.pos hx
  unfold fromOwnImage
  rw [if_pos ⟨h1, by rw [length_eq] at h2; exact h2⟩, hs1]
  simp only
  rw [push_eq, hs3, ownStrength_eq p i ha, distance_length]
  rfl

theorem own_add (p : Forces) (i : Fin 3) (a : Particle (i + 1)) (acc : Point (i + 1)) : fromOwnImage p i a acc = acc + fromOwnImage p i a 0 := by
  unfold fromOwnImage
  simp only [push_eq]
  split
  · rcases toSpherical i a.pos with _ | s
    · simp only [add_zero]
    · simp only [zero_add]
  · rw [add_zero]

theorem wvtForce_eq (p : Forces) (i : Fin 3) (a : Particle (i + 1)) (nbs : List (Particle (i + 1))) :
    wvtForce p i a nbs = if length a.pos ≤ p.radius then
      if p.edge = .frozen ∧ p.radius < length a.pos + a.h then removeRadialAcc a.pos ((nbs.map (term p i a)).sum + fromOwnImage p i a 0)
      else some ((nbs.map (term p i a)).sum + fromOwnImage p i a 0) else some 0 := by
  unfold wvtForce
  rw [foldl_eq, own_add, length_eq]

theorem removeRadial_eq {d : Nat} (x v : Point d) (hx : x ≠ 0) : removeRadialAcc x v = some fun j => 2 * tangential x v j := by
  have hm : mag x ≠ 0 := fun h => hx ((mag_eq_zero x).1 h)
  unfold removeRadialAcc
  rw [if_neg hm]
  show some (fun j => 2 * (v j - dot (fun j => 1 / mag x * x j) v * (1 / mag x * x j))) = _
  congr 1
  funext j
  unfold tangential unit dot
  simp only [length_eq]
  have e : ∀ k, 1 / mag x * x k = x k / mag x := fun k => by ring
  simp only [e]

theorem unit_length {d : Nat} (x : Point d) (hx : x ≠ 0) : ∑ j, unit x j * unit x j = 1 := by
  have hm : mag x ≠ 0 := fun h => hx ((mag_eq_zero x).1 h)
  unfold unit
  rw [length_eq]
  have e : ∀ j, x j / mag x * (x j / mag x) = (x j * x j) / (mag x * mag x) := fun j => by field_simp
  simp only [e]
  rw [← Finset.sum_div, ← mag_sq, div_self (mul_ne_zero hm hm)]

theorem tangential_orth {d : Nat} (x v : Point d) : ∑ j, tangential x v j * x j = 0 := by
  by_cases hx : x = 0
  · subst hx
    simp
  · have hm : mag x ≠ 0 := fun h => hx ((mag_eq_zero x).1 h)
    have e : ∀ j, tangential x v j * x j = mag x * (unit x j * v j - (∑ k, unit x k * v k) * (unit x j * unit x j)) := fun j => by
      unfold tangential
      have : x j = mag x * unit x j := by unfold unit; rw [length_eq]; field_simp
      rw [show (v j - (∑ k, unit x k * v k) * unit x j) * x j = (v j - (∑ k, unit x k * v k) * unit x j) * (mag x * unit x j) from by rw [← this]]
      ring
    simp only [e]
    rw [← Finset.mul_sum, Finset.sum_sub_distrib, ← Finset.mul_sum, unit_length x hx, mul_one, sub_self, mul_zero]

theorem diehlLaw_nonneg (h r : ℝ) : 0 ≤ diehlLaw h r := le_max_right _ _

theorem diehlLaw_zero {h r : ℝ} (hh : 0 < h) (hr : h ≤ r) : diehlLaw h r = 0 := by
  unfold diehlLaw
  refine max_eq_right (sub_nonpos.2 ?_)
  have hp : 0 < r + 3 / 10 * h := by linarith
  refine pow_le_pow_left₀ (by positivity) ?_ 2
  rw [div_le_div_iff₀ hp (by norm_num)]
  linarith

theorem diehlLaw_pos {h r : ℝ} (hr : 0 ≤ r) (hrh : r < h) : 0 < diehlLaw h r := by
  unfold diehlLaw
  have hp : 0 < r + 3 / 10 * h := by linarith
  refine lt_max_of_lt_left (sub_pos.2 ?_)
  refine pow_lt_pow_left₀ ?_ (by norm_num) (by norm_num)
  rw [div_lt_div_iff₀ (by norm_num) hp]
  linarith

theorem diehlLaw_anti {h r s : ℝ} (hh : 0 < h) (hr : 0 ≤ r) (hrs : r ≤ s) : diehlLaw h s ≤ diehlLaw h r := by
  unfold diehlLaw
  have hp : 0 < r + 3 / 10 * h := by linarith
  have hp' : 0 < s + 3 / 10 * h := by linarith
  refine max_le_max (sub_le_sub_right (pow_le_pow_left₀ (by positivity) ?_ 2) _) le_rfl
  exact div_le_div_of_nonneg_left hh.le hp (by linarith)

/-- 1/0.09 - 1/1.69 is less than 10.52. -/
theorem diehlLaw_le {h r : ℝ} (hh : 0 < h) (hr : 0 ≤ r) : diehlLaw h r ≤ 1052 / 100 := by
  refine (diehlLaw_anti hh le_rfl hr).trans ?_
  unfold diehlLaw
  have e : h / (0 + 3 / 10 * h) = 10 / 3 := by field_simp; ring
  rw [e]
  exact max_le (by norm_num) (by norm_num)

theorem kernel_nonneg {κ : Kernel} (hκ : Poly κ) (i : Fin 3) {r h : ℝ} (hh : 0 < h) (hr : 0 ≤ r) : 0 ≤ kernel κ i r h := by
  rw [kernel_eq hκ]
  have hs := sigma_pos hκ i
  have sp : 0 < scale κ := scale_pos
  refine mul_nonneg (by positivity) ?_
  rcases lt_or_ge (scale κ * r / h) (scale κ) with h1 | h1
  · exact (prof_pos hκ i (by positivity) h1).le
  · exact (prof_zero hκ i h1).ge

theorem kernel_zero {κ : Kernel} (hκ : Poly κ) (i : Fin 3) {r h : ℝ} (hh : 0 < h) (hr : h ≤ r) : kernel κ i r h = 0 := by
  have sp : 0 < scale κ := scale_pos
  rw [kernel_eq hκ, prof_zero hκ, mul_zero]
  rw [le_div_iff₀ hh]; exact mul_le_mul_of_nonneg_left hr sp.le

theorem kernel_pos {κ : Kernel} (hκ : Poly κ) (i : Fin 3) {r h : ℝ} (hr : 0 ≤ r) (hrh : r < h) : 0 < kernel κ i r h := by
  have hs := sigma_pos hκ i
  have sp : 0 < scale κ := scale_pos
  have hh : 0 < h := by linarith
  rw [kernel_eq hκ]
  refine mul_pos (by positivity) (prof_pos hκ i (by positivity) ?_)
  rw [div_lt_iff₀ hh]; exact mul_lt_mul_of_pos_left hrh sp

theorem kernel_anti {κ : Kernel} (hκ : Poly κ) (i : Fin 3) {r s h : ℝ} (hh : 0 < h) (hr : 0 ≤ r) (hrs : r ≤ s) : kernel κ i s h ≤ kernel κ i r h := by
  have hs := sigma_pos hκ i
  have sp : 0 < scale κ := scale_pos
  rw [kernel_eq hκ, kernel_eq hκ]
  refine mul_le_mul_of_nonneg_left (antitoneOn_prof hκ i ?_ ?_ ?_) (by positivity)
  · exact Set.mem_Ici.mpr (by positivity)
  · exact Set.mem_Ici.mpr (div_nonneg (mul_nonneg sp.le (hr.trans hrs)) hh.le)
  · exact div_le_div_of_nonneg_right (mul_le_mul_of_nonneg_left hrs sp.le) hh.le

/-- The kernel is at most its value at the centre of a particle of unit smoothing length, divided by the volume. -/
theorem kernel_le {κ : Kernel} (hκ : Poly κ) (i : Fin 3) {r h : ℝ} (hh : 0 < h) (hr : 0 ≤ r) : kernel κ i r h ≤ kernel κ i 0 1 / h ^ (i + 1 : ℕ) := by
  refine (kernel_anti hκ i hh le_rfl hr).trans (le_of_eq ?_)
  rw [kernel_eq hκ, kernel_eq hκ]
  simp only [mul_zero, zero_div, one_pow, div_one]
  ring

theorem weight_nonneg {p : Forces} (hp : Usable p) (i : Fin 3) {ha hb r : ℝ} (h1 : 0 < ha) (h2 : 0 < hb) (hr : 0 ≤ r) :
    0 ≤ weight p.method p.kernel i ha hb r := by
  unfold weight
  rcases hm : p.method with _ | _
  · exact mul_nonneg h1.le (diehlLaw_nonneg _ _)
  · exact mul_nonneg (by positivity) (kernel_nonneg (hp hm) i (by linarith) hr)

theorem weight_zero {p : Forces} (hp : Usable p) (i : Fin 3) {ha hb r : ℝ} (h1 : 0 < ha) (h2 : 0 < hb) (hr : (ha + hb) / 2 ≤ r) :
    weight p.method p.kernel i ha hb r = 0 := by
  unfold weight
  rcases hm : p.method with _ | _
  · simp only; rw [diehlLaw_zero (by linarith) hr, mul_zero]
  · simp only; rw [kernel_zero (hp hm) i (by linarith) hr, mul_zero]

theorem weight_pos {p : Forces} (hp : Usable p) (i : Fin 3) {ha hb r : ℝ} (h1 : 0 < ha) (h2 : 0 < hb) (hr : 0 ≤ r) (hrh : r < (ha + hb) / 2) :
    0 < weight p.method p.kernel i ha hb r := by
  unfold weight
  rcases hm : p.method with _ | _
  · exact mul_pos h1 (diehlLaw_pos hr hrh)
  · exact mul_pos (by positivity) (kernel_pos (hp hm) i hr hrh)

theorem imageWeight_nonneg {p : Forces} (hp : Usable p) (i : Fin 3) {ha hb r : ℝ} (h1 : 0 < ha) (h2 : 0 < hb) (hr : 0 ≤ r) :
    0 ≤ imageWeight p.method p.kernel i ha hb r := by
  unfold imageWeight
  rcases hm : p.method with _ | _
  · exact mul_nonneg h1.le (diehlLaw_nonneg _ _)
  · exact mul_nonneg (by positivity) (kernel_nonneg (hp hm) i (by linarith) hr)

theorem imageWeight_pos {p : Forces} (hp : Usable p) (i : Fin 3) {ha r : ℝ} (h1 : 0 < ha) (hr : 0 ≤ r) (hrh : r < ha) :
    0 < imageWeight p.method p.kernel i ha ha r := by
  unfold imageWeight
  rcases hm : p.method with _ | _
  · exact mul_pos h1 (diehlLaw_pos hr hrh)
  · exact mul_pos (by positivity) (kernel_pos (hp hm) i hr (by linarith))

theorem imageWeight_zero {p : Forces} (hp : Usable p) (i : Fin 3) {ha r : ℝ} (h1 : 0 < ha) (hr : ha ≤ r) : imageWeight p.method p.kernel i ha ha r = 0 := by
  unfold imageWeight
  rcases hm : p.method with _ | _
  · simp only; rw [diehlLaw_zero h1 hr, mul_zero]
  · simp only; rw [kernel_zero (hp hm) i (by linarith) (by linarith), mul_zero]

/-- The largest strength, per unit of smoothing length. -/
noncomputable def cap (p : Forces) (i : Fin 3) : ℝ :=
  match p.method with
  | .diehl => 1052 / 100
  | .arth => 2 ^ (i + 1 : ℕ) * kernel p.kernel i 0 1

theorem cap_nonneg {p : Forces} (hp : Usable p) (i : Fin 3) : 0 ≤ cap p i := by
  unfold cap
  rcases hm : p.method with _ | _
  · norm_num
  · exact mul_nonneg (by positivity) (kernel_nonneg (hp hm) i one_pos le_rfl)

theorem weight_le {p : Forces} (hp : Usable p) (i : Fin 3) {ha hb r H : ℝ} (h1 : 0 < ha) (h2 : 0 < hb) (h3 : ha ≤ H) (h4 : hb ≤ H) (hr : 0 ≤ r) :
    weight p.method p.kernel i ha hb r ≤ H * cap p i := by
  unfold weight cap
  rcases hm : p.method with _ | _
  · simp only
    exact mul_le_mul h3 (diehlLaw_le (by linarith) hr) (diehlLaw_nonneg _ _) (by linarith)
  · simp only
    have hh : 0 < (ha + hb) / 2 := by linarith
    have h0 := kernel_nonneg (hp hm) i one_pos (le_refl (0 : ℝ))
    calc ((ha + hb) / 2) ^ (i + 2 : ℕ) * kernel p.kernel i r ((ha + hb) / 2)
        ≤ ((ha + hb) / 2) ^ (i + 2 : ℕ) * (kernel p.kernel i 0 1 / ((ha + hb) / 2) ^ (i + 1 : ℕ)) :=
          mul_le_mul_of_nonneg_left (kernel_le (hp hm) i hh hr) (by positivity)
      _ = (ha + hb) / 2 * kernel p.kernel i 0 1 := by
          rw [show (i : ℕ) + 2 = (i + 1) + 1 from rfl, pow_succ]
          field_simp
      _ ≤ H * (2 ^ (i + 1 : ℕ) * kernel p.kernel i 0 1) := by
          refine mul_le_mul (by linarith) ?_ h0 (by linarith)
          exact le_mul_of_one_le_left h0 (one_le_pow₀ (by norm_num))

theorem imageWeight_le {p : Forces} (hp : Usable p) (i : Fin 3) {ha hb r H : ℝ} (h1 : 0 < ha) (h2 : 0 < hb) (h3 : ha ≤ H) (hr : 0 ≤ r) :
    imageWeight p.method p.kernel i ha hb r ≤ H * cap p i := by
  unfold imageWeight cap
  rcases hm : p.method with _ | _
  · simp only
    exact mul_le_mul h3 (diehlLaw_le h1 hr) (diehlLaw_nonneg _ _) (by linarith)
  · simp only
    have hh : 0 < (ha + hb) / 2 := by linarith
    have h0 := kernel_nonneg (hp hm) i one_pos (le_refl (0 : ℝ))
    calc ha ^ (i + 2 : ℕ) * kernel p.kernel i r ((ha + hb) / 2)
        ≤ ha ^ (i + 2 : ℕ) * (kernel p.kernel i 0 1 / ((ha + hb) / 2) ^ (i + 1 : ℕ)) :=
          mul_le_mul_of_nonneg_left (kernel_le (hp hm) i hh hr) (by positivity)
      _ = ha * ((ha / ((ha + hb) / 2)) ^ (i + 1 : ℕ) * kernel p.kernel i 0 1) := by
          have e : ∀ x y k : ℝ, x * ha * (k / y) = ha * (x / y * k) := fun x y k => by ring
          rw [div_pow ha ((ha + hb) / 2), show (i : ℕ) + 2 = (i + 1) + 1 from rfl, pow_succ ha (i + 1 : ℕ), e]
      _ ≤ H * (2 ^ (i + 1 : ℕ) * kernel p.kernel i 0 1) := by
          refine mul_le_mul h3 (mul_le_mul_of_nonneg_right (pow_le_pow_left₀ (by positivity) ?_ _) h0) (by positivity) (by linarith)
          rw [div_le_iff₀ hh]
          linarith

theorem length_unit_le {d : Nat} (w : ℝ) (v : Point d) : length (fun j => w * unit v j) ≤ |w| := by
  rw [length_eq, mag_smul]
  by_cases hv : v = 0
  · subst hv
    have : unit (0 : Point d) = 0 := by funext j; simp [unit]
    rw [this, (mag_eq_zero _).2 rfl, mul_zero]
    exact abs_nonneg w
  · have : mag (unit v) = 1 := mag_eq_of_sq _ _ zero_le_one (by rw [unit_length v hv, one_mul])
    rw [this, mul_one]

theorem length_add_le {d : Nat} (x y : Point d) : length (x + y) ≤ length x + length y := by
  simp only [length_eq, mag_eq_norm]
  exact norm_add_le (WithLp.toLp 2 x : EuclideanSpace ℝ (Fin d)) (WithLp.toLp 2 y)

theorem length_zero {d : Nat} : length (0 : Point d) = 0 := by simp [length]

theorem length_sum_le {d : Nat} (l : List (Point d)) (c : ℝ) (h : ∀ x ∈ l, length x ≤ c) : length l.sum ≤ l.length * c := by
  induction l with
  | nil => simp [length_zero]
  | cons x l ih =>
    have h1 := h x List.mem_cons_self
    have h2 := ih fun y hy => h y (List.mem_cons_of_mem _ hy)
    rw [List.sum_cons, List.length_cons, Nat.cast_add, Nat.cast_one]
    linarith [length_add_le x l.sum]

theorem term_le {p : Forces} (hp : Usable p) (i : Fin 3) {a nb : Particle (i + 1)} {H : ℝ} (ha : 0 < a.h) (hb : 0 < nb.h) (ha' : a.h ≤ H) (hb' : nb.h ≤ H) :
    length (term p i a nb) ≤ 2 * (H * cap p i) := by
  have hc : 0 ≤ H * cap p i := mul_nonneg (by linarith) (cap_nonneg hp i)
  have h1 : length (fun j => strength p i a.h nb.h (distance a.pos nb.pos) * unit (fun k => a.pos k - nb.pos k) j) ≤ H * cap p i := by
    refine (length_unit_le _ _).trans ?_
    rw [strength_eq p i ha hb, abs_of_nonneg (weight_nonneg hp i ha hb (distance_nonneg _ _))]
    exact weight_le hp i ha hb ha' hb' (distance_nonneg _ _)
  have h2 : ∀ y : Point (i + 1), length (fun j => imageStrength p i a.h nb.h (distance a.pos y) * unit (fun k => a.pos k - y k) j) ≤ H * cap p i := fun y => by
    refine (length_unit_le _ _).trans ?_
    rw [imageStrength_eq p i ha, abs_of_nonneg (imageWeight_nonneg hp i ha hb (distance_nonneg _ _))]
    exact imageWeight_le hp i ha hb ha' (distance_nonneg _ _)
  unfold term fromNeighbour
  simp only [push_eq, zero_add]
  split
  · rcases toSpherical i nb.pos with _ | s
    · simp only
      linarith
    · simp only
      split
      · exact (length_add_le _ _).trans (by linarith [h2 (reflected i p.radius s)])
      · linarith
  · linarith

theorem own_le {p : Forces} (hp : Usable p) (i : Fin 3) {a : Particle (i + 1)} {H : ℝ} (ha : 0 < a.h) (ha' : a.h ≤ H) :
    length (fromOwnImage p i a 0) ≤ H * cap p i := by
  have hc : 0 ≤ H * cap p i := mul_nonneg (by linarith) (cap_nonneg hp i)
  unfold fromOwnImage
  simp only [push_eq, zero_add]
  split
  · rcases toSpherical i a.pos with _ | s
    · simp only
      rw [length_zero]
      exact hc
    · simp only
      refine (length_unit_le _ _).trans ?_
      rw [ownStrength_eq p i ha, abs_of_nonneg (imageWeight_nonneg hp i ha ha (distance_nonneg _ _))]
      exact imageWeight_le hp i ha ha ha' (distance_nonneg _ _)
  · rw [length_zero]
    exact hc

theorem tangential_le {d : Nat} (x v : Point d) : length (tangential x v) ≤ length v := by
  by_cases hx : x = 0
  · subst hx
    have : tangential (0 : Point d) v = v := by funext j; simp [tangential, unit]
    rw [this]
  · unfold length
    refine Real.sqrt_le_sqrt ?_
    obtain ⟨c, hc⟩ : ∃ c, c = ∑ k, unit x k * v k := ⟨_, rfl⟩
    have e : ∀ j, tangential x v j ^ 2 = v j ^ 2 - 2 * c * (unit x j * v j) + c * c * (unit x j * unit x j) := fun j => by
      unfold tangential
      rw [← hc]
      ring
    simp only [e]
    rw [Finset.sum_add_distrib, Finset.sum_sub_distrib, ← Finset.mul_sum, ← Finset.mul_sum, unit_length x hx, ← hc]
    nlinarith [mul_self_nonneg c]

theorem force_le {p : Forces} (hp : Usable p) (i : Fin 3) (a : Particle (i + 1)) (nbs : List (Particle (i + 1))) {H : ℝ} (ha : 0 < a.h) (ha' : a.h ≤ H)
    (hb : ∀ nb ∈ nbs, 0 < nb.h ∧ nb.h ≤ H) (v : Point (i + 1)) (hv : wvtForce p i a nbs = some v) : length v ≤ (4 * nbs.length + 2) * (H * cap p i) := by
  have hc : 0 ≤ H * cap p i := mul_nonneg (by linarith) (cap_nonneg hp i)
  have hn : (0 : ℝ) ≤ nbs.length := Nat.cast_nonneg _
  have hs : length ((nbs.map (term p i a)).sum + fromOwnImage p i a 0) ≤ (2 * nbs.length + 1) * (H * cap p i) := by
    refine (length_add_le _ _).trans ?_
    have h1 := length_sum_le (nbs.map (term p i a)) (2 * (H * cap p i)) fun x hx => by
      obtain ⟨nb, hnb, rfl⟩ := List.mem_map.1 hx
      exact term_le hp i ha (hb nb hnb).1 ha' (hb nb hnb).2
    rw [List.length_map] at h1
    linarith [own_le hp i ha ha']
  rw [wvtForce_eq] at hv
  split at hv
  · split at hv
    · by_cases hx : a.pos = 0
      · unfold removeRadialAcc at hv
        rw [if_pos ((mag_eq_zero _).2 hx)] at hv
        cases hv
      · rw [removeRadial_eq _ _ hx] at hv
        obtain rfl := Option.some_inj.1 hv
        have h2 := tangential_le a.pos ((nbs.map (term p i a)).sum + fromOwnImage p i a 0)
        have h3 : ∀ w : Point (i + 1), length (fun j => 2 * w j) = 2 * length w := fun w => by
          rw [length_eq, mag_smul, length_eq]; norm_num
        rw [h3]
        linarith
    · obtain rfl := Option.some_inj.1 hv
      nlinarith [mul_nonneg hn hc]
  · obtain rfl := Option.some_inj.1 hv
    rw [length_zero]
    positivity

/-- A pass with a function which may fail: every particle ends with what the function gives on the values before the pass, if the function does not change what it reads of others. -/
theorem passM_eq {P V : Type} {n : Nat} (f : P → List P → Option P) (view : P → V) (g : P → List V → Option P)
    (hg : ∀ a l, f a l = g a (l.map view)) (hv : ∀ a l x, f a l = some x → view x = view a)
    (nbs : Fin n → List (Fin n)) (order : List (Fin n)) (hall : VisitsAll order) (s t : Fin n → P) (ht : Sph.passM f nbs order s = some t) (a : Fin n) :
    f (s a) ((nbs a).map s) = some (t a) := by
  have key : ∀ (l : List (Fin n)) (u t : Fin n → P), l.Nodup → (∀ a, view (u a) = view (s a)) → (∀ a ∈ l, u a = s a) → Sph.passM f nbs l u = some t →
      ∀ a, if a ∈ l then f (s a) ((nbs a).map s) = some (t a) else t a = u a := by
    intro l
    induction l with
    | nil =>
      intro u t _ _ _ h a
      have h' : some u = some t := h
      obtain rfl := Option.some_inj.1 h'
      rw [if_neg (by simp)]
    | cons b l ih =>
      intro u t hn h1 h2 h a
      have hb : b ∉ l := (List.nodup_cons.1 hn).1
      have hub : u b = s b := h2 b List.mem_cons_self
      have hread : f (u b) ((nbs b).map u) = f (s b) ((nbs b).map s) := by
        rw [hub, hg, hg, List.map_map, List.map_map]
        congr 1
        exact List.map_congr_left fun c _ => h1 c
      have h' : ((f (u b) ((nbs b).map u)).map (Function.update u b)).bind (fun u' => Sph.passM f nbs l u') = some t := h
      rw [hread] at h'
      rcases hx : f (s b) ((nbs b).map s) with _ | x
      · rw [hx] at h'; cases h'
      · rw [hx] at h'
        have h'' : Sph.passM f nbs l (Function.update u b x) = some t := h'
        have ih := ih (Function.update u b x) t (List.nodup_cons.1 hn).2 (fun c => by
          by_cases hc : c = b
          · subst hc; rw [Function.update_self]; exact hv _ _ _ hx
          · rw [Function.update_of_ne hc]; exact h1 c) (fun c hc => by
          have hcb : c ≠ b := fun e => by subst e; exact hb hc
          rw [Function.update_of_ne hcb]; exact h2 c (List.mem_cons_of_mem _ hc)) h'' a
        by_cases hab : a = b
        · subst hab
          rw [if_pos List.mem_cons_self]
          rw [if_neg hb, Function.update_self] at ih
          rw [hx, ih]
        · by_cases hal : a ∈ l
          · rw [if_pos hal] at ih
            rw [if_pos (List.mem_cons_of_mem _ hal)]
            exact ih
          · rw [if_neg hal, Function.update_of_ne hab] at ih
            rw [if_neg (by simp [hab, hal])]
            exact ih
  have h := key order s t hall.nodup (fun _ => rfl) (fun _ _ => rfl) ht a
  rwa [if_pos (hall.all a)] at h

theorem unit_neg {d : Nat} (x y : Point d) (j : Fin d) : unit (fun k => y k - x k) j = -unit (fun k => x k - y k) j := by
  unfold unit
  have : length (fun k => y k - x k) = length fun k => x k - y k := by
    unfold length
    congr 1
    exact Finset.sum_congr rfl fun k _ => by ring
  rw [this]
  ring

theorem length_comm {d : Nat} (x y : Point d) : length (fun k => y k - x k) = length fun k => x k - y k := by
  unfold length
  congr 1
  exact Finset.sum_congr rfl fun k _ => by ring

theorem sum_apply {d : Nat} (l : List (Point d)) (j : Fin d) : l.sum j = (l.map fun x => x j).sum := by
  induction l with
  | nil => rfl
  | cons x l ih => rw [List.sum_cons, Pi.add_apply, ih, List.map_cons, List.sum_cons]

/-! Rotations and reflections. -/
section rotation
variable {d : Nat} (A : Point d →ₗ[ℝ] Point d) (hA : ∀ x y : Point d, ∑ j, A x j * A y j = ∑ j, x j * y j)

include hA in
theorem length_map (x : Point d) : length (A x) = length x := by
  have := hA x x
  unfold length
  simp only [sq]
  rw [this]

theorem map_scale (c : ℝ) (x : Point d) : A (fun j => c * x j) = fun j => c * A x j := by
  have : (fun j => c * x j) = c • x := by funext j; rfl
  rw [this, map_smul]
  rfl

include hA in
theorem unit_map (x : Point d) : unit (A x) = A (unit x) := by
  have : unit x = fun j => 1 / length x * x j := by funext j; unfold unit; ring
  rw [this, map_scale]
  funext j
  unfold unit
  rw [length_map A hA]
  ring

theorem map_diff (x y : Point d) : (fun k => A x k - A y k) = A fun k => x k - y k := by
  have : (fun k => x k - y k) = x - y := rfl
  rw [this, map_sub]
  rfl

include hA in
theorem image_map (b : ℝ) (y : Point d) : image b (A y) = A (image b y) := by
  unfold image
  rw [length_map A hA, unit_map A hA, map_scale]

theorem map_ne_zero (hA : ∀ x y : Point d, ∑ j, A x j * A y j = ∑ j, x j * y j) {x : Point d} (hx : x ≠ 0) : A x ≠ 0 := fun h => hx (by
  rw [← mag_eq_zero, ← length_eq, ← length_map A hA, h]
  exact length_zero)

include hA in
theorem tangential_map (x v : Point d) : tangential (A x) (A v) = A (tangential x v) := by
  have e : tangential x v = v - fun j => (∑ k, unit x k * v k) * unit x j := by funext j; rfl
  have h1 : ∑ k, unit (A x) k * A v k = ∑ k, unit x k * v k := by rw [unit_map A hA, hA]
  rw [e, map_sub, map_scale]
  funext j
  unfold tangential
  rw [h1, unit_map A hA]
  rfl

end rotation

section rotation
variable {i : Fin 3} (A : Point (i + 1) →ₗ[ℝ] Point (i + 1)) (hA : ∀ x y : Point (i + 1), ∑ j, A x j * A y j = ∑ j, x j * y j)

/-- The particle moved by `A`. -/
def turn (a : Particle (i + 1)) : Particle (i + 1) := { a with pos := A a.pos }

include hA in
theorem pushes_map (m : Method) (κ : Kernel) (a : Particle (i + 1)) (nbs : List (Particle (i + 1))) :
    pushes m κ i (turn A a) (nbs.map (turn A)) = A (pushes m κ i a nbs) := by
  unfold pushes
  rw [map_list_sum, List.map_map, List.map_map]
  congr 1
  refine List.map_congr_left fun nb _ => ?_
  simp only [Function.comp_apply]
  rw [map_scale]
  simp only [turn]
  rw [map_diff, length_map A hA, unit_map A hA]

include hA in
theorem imagePush_map (m : Method) (κ : Kernel) (b : ℝ) (a : Particle (i + 1)) (y : Point (i + 1)) (hb : ℝ) :
    imagePush m κ i b (turn A a) (A y) hb = A (imagePush m κ i b a y hb) := by
  unfold imagePush
  rw [map_scale]
  simp only [turn]
  rw [image_map A hA, map_diff, length_map A hA, unit_map A hA]

include hA in
theorem imagePushes_map (m : Method) (κ : Kernel) (b : ℝ) (a : Particle (i + 1)) (nbs : List (Particle (i + 1))) :
    imagePushes m κ i b (turn A a) (nbs.map (turn A)) = A (imagePushes m κ i b a nbs) := by
  unfold imagePushes
  rw [map_list_sum, List.filter_map, List.map_map, List.map_map]
  congr 1
  have e : List.filter ((fun nb : Particle (i + 1) => decide (length nb.pos < b)) ∘ turn A) nbs = List.filter (fun nb => decide (length nb.pos < b)) nbs :=
    List.filter_congr fun nb _ => decide_eq_decide.2 (by
      show length (A nb.pos) < b ↔ length nb.pos < b
      rw [length_map A hA])
  rw [e]
  refine List.map_congr_left fun nb _ => ?_
  exact imagePush_map A hA m κ b a nb.pos nb.h

include hA in
theorem core_map (p : Forces) (a : Particle (i + 1)) (nbs : List (Particle (i + 1))) (ha : 0 < a.h) (hb : ∀ nb ∈ nbs, 0 < nb.h)
    (hr : p.edge = .reflective → i ≠ 0 ∧ a.pos ≠ 0 ∧ ∀ nb ∈ nbs, nb.pos ≠ 0) :
    ((nbs.map (turn A)).map (term p i (turn A a))).sum + fromOwnImage p i (turn A a) 0 = A ((nbs.map (term p i a)).sum + fromOwnImage p i a 0) := by
  have hl : length (turn A a).pos = length a.pos := length_map A hA a.pos
  have hb' : ∀ nb ∈ nbs.map (turn A), 0 < nb.h := fun nb h => by
    obtain ⟨x, hx, rfl⟩ := List.mem_map.1 h
    exact hb x hx
  by_cases he : p.edge = .reflective ∧ p.radius < length a.pos + a.h
  · obtain ⟨h1, h2⟩ := he
    obtain ⟨hi, hx, hy⟩ := hr h1
    have h2' : p.radius < length (turn A a).pos + (turn A a).h := by rw [hl]; exact h2
    rw [terms_edge p i hi a nbs ha hb hy h1 h2, own_edge p i hi a ha hx h1 h2, terms_edge p i hi (turn A a) (nbs.map (turn A)) ha hb' (fun nb h => by
      obtain ⟨x, hx, rfl⟩ := List.mem_map.1 h
      exact map_ne_zero A hA (hy x hx)) h1 h2', own_edge p i hi (turn A a) ha (map_ne_zero A hA hx) h1 h2']
    simp only [zero_add, map_add]
    rw [pushes_map A hA, imagePushes_map A hA]
    congr 1
    exact imagePush_map A hA p.method p.kernel p.radius a a.pos a.h
  · have h1 : p.edge ≠ .reflective ∨ length a.pos + a.h ≤ p.radius := by
      by_cases h : p.edge = .reflective
      · exact Or.inr (not_lt.1 fun h2 => he ⟨h, h2⟩)
      · exact Or.inl h
    have h1' : p.edge ≠ .reflective ∨ length (turn A a).pos + (turn A a).h ≤ p.radius := by rw [hl]; exact h1
    rw [terms_inside p i a nbs ha hb h1, own_inside p i a 0 h1, terms_inside p i (turn A a) _ ha hb' h1', own_inside p i (turn A a) 0 h1', add_zero, add_zero, pushes_map A hA]

end rotation

/-- On the line the image of every point is on the right. -/
theorem reflected_line (b : ℝ) (y : Point 1) : toSpherical 0 y = some ![mag y] ∧ reflected 0 b ![mag y] = fun _ => 2 * b - |y 0| := by
  refine ⟨rfl, ?_⟩
  have h : mag y = |y 0| := by
    unfold mag
    rw [Fin.sum_univ_one, Real.sqrt_mul_self_eq_abs]
  funext j
  have hj : j = (0 : Fin 1) := Subsingleton.elim (α := Fin 1) _ _
  subst hj
  show Function.update (![mag y] : Point 1) (0 : Fin 1) (b + (b - mag y)) (0 : Fin 1) = _
  rw [Function.update_self, h]
  ring

end FleCSPH.Wvt
