import Verif.Lemmas.RoundedCentre
import Verif.Lemmas.StartupTab
/-!
C83: what scalar_reductions.dat shows in floating-point arithmetic: every total is the exact total up to rounding errors, whatever the division into processes and the order in which MPI adds.
-/
namespace FleCSPH.Rounded
open FleCSPH.Geometry FleCSPH.Sph FleCSPH.Conservation FleCSPH.Reductions FleCSPH.Spec

variable {d n : Nat} {R P : Rounding}

/-- A number which is printed. -/
private theorem printed {k K : Nat} {x y m : ℝ} (h : Err R k x y m) (hkK : k ≤ K) (hK : K * R.u ≤ 1) : |P.fl y - x| ≤ (2 * K * R.u + 3 * P.u) * m := by
  have h' := h.mono hkK
  have hm := h.size_nonneg
  have hg := growth_le (R := R) K hK
  have h1 : |y - x| ≤ 2 * K * R.u * m := h'.2.trans (mul_le_mul_of_nonneg_right hg hm)
  have h2 : |y| ≤ 3 * m := by
    have := abs_add_le (y - x) x
    rw [sub_add_cancel] at this
    have h3 := mul_le_mul_of_nonneg_right (show 2 * K * R.u ≤ 2 by linarith) hm
    linarith [h.1]
  have h4 := (P.err y).trans (mul_le_mul_of_nonneg_left h2 P.nonneg)
  have h5 := abs_add_le (P.fl y - y) (y - x)
  rw [sub_add_sub_cancel] at h5
  nlinarith

private theorem half (x : ℝ) : Err R 0 (1 / 2 * x) (1 / 2 * x) (1 / 2 * |x|) := by
  have := (Err.refl (R := R) (1 / 2 : ℝ)).mul (Err.refl x)
  rwa [abs_of_pos (by norm_num : (0 : ℝ) < 1 / 2)] at this

private theorem speed_sq (v : Point d) : ∑ j, |v j| * |v j| = ∑ j, v j ^ 2 := Finset.sum_congr rfl fun j _ => by rw [← pow_two, sq_abs]

private theorem total_congr {ps : Fin n → Particle d} {f g : Particle d → ℝ} (h : ∀ a, f a = g a) : total ps f = total ps g := Finset.sum_congr rfl fun a _ => h (ps a)

private theorem total_div (ps : Fin n → Particle d) (f : Particle d → ℝ) : (total ps fun a => 1 / 2 * f a) = total ps f / 2 := by
  rw [total, ← Finset.mul_sum, total]; ring

section
variable {ps : Fin n → Particle d} {procs : List (List (Reductions.Body d))} (h : Held ps procs) {y : ℝ}
include h

private theorem err_mass (hy : ReduceSum R (massOn R) procs y) : Err R (n + procs.length) (total ps fun a => a.mass) y (total ps fun a => |a.mass|) :=
  (err_total h _ _ _ 0 (fun a => Err.refl a.mass) hy).mono (by omega)

private theorem err_momentum (j : Fin d) (hy : ReduceSum R (momentumOn R j) procs y) : Err R (1 + n + procs.length) (total ps fun a => a.mass * a.vel j) y (total ps fun a => |a.mass| * |a.vel j|) :=
  err_total h _ _ _ 1 (fun a => ((Err.refl a.mass).mul (Err.refl (a.vel j))).fl) hy

private theorem err_internal (hy : ReduceSum R (internalOn R) procs y) : Err R (1 + n + procs.length) (total ps fun a => a.mass * a.u) y (total ps fun a => |a.mass| * |a.u|) :=
  err_total h _ _ _ 1 (fun a => ((Err.refl a.mass).mul (Err.refl a.u)).fl) hy

private theorem err_angular {j k : Nat} (hj : j < d) (hk : k < d) (hy : ReduceSum R (angularOn R j k) procs y) :
    Err R (3 + n + procs.length) (total ps (moment j k hj hk)) y (total ps (momentSize j k hj hk)) := by
  refine err_total h _ _ _ 3 (fun a => ?_) hy
  have h1 : ∀ s t : ℝ, Err R 1 (s * t) (R.fl (s * t)) (|s| * |t|) := fun s t => ((Err.refl s).mul (Err.refl t)).fl
  have := ((Err.refl a.mass).mul (((h1 (a.pos ⟨j, hj⟩) (a.vel ⟨k, hk⟩)).sub le_rfl le_rfl (h1 (a.pos ⟨k, hk⟩) (a.vel ⟨j, hj⟩))).fl)).fl
  simp only [comp, dif_pos hj, dif_pos hk]
  exact this

private theorem err_kinetic (hy : ReduceSum R (kineticOn R) procs y) :
    Err R (d + 3 + n + procs.length) (total ps fun a => a.mass * (∑ j, a.vel j ^ 2) / 2) y (total ps fun a => |a.mass| * (∑ j, a.vel j ^ 2) / 2) := by
  refine err_total h _ _ _ (d + 3) (fun a => ?_) hy
  refine ((((half a.mass).fl.mul (err_rdot a.vel a.vel)).fl).mono (by omega)).congr ?_ ?_
  · rw [dot, Finset.sum_congr rfl fun j _ => (pow_two (a.vel j)).symm]; ring
  · rw [speed_sq]; ring

private theorem err_gravitational (hy : ReduceSum R (gravitationalOn R) procs y) :
    Err R (2 + n + procs.length) (total ps (fun a => a.mass * a.gpot) / 2) y (total ps (fun a => |a.mass| * |a.gpot|) / 2) := by
  have e : ∀ f : Particle d → ℝ, total ps f / 2 = (procs.map fun l => sumOn f l * (1 / 2)).sum := fun f => by
    rw [← sum_sumOn f h, List.sum_map_mul_right]; ring
  rw [e, e]
  refine err_reduce (fun l hl => ?_) hy
  have h1 := err_local (R := R) (fun a => R.fl (a.gpot * a.mass)) (fun a => a.mass * a.gpot) (fun a => |a.mass| * |a.gpot|) 1
    (fun a => (((Err.refl a.gpot).mul (Err.refl a.mass)).fl).congr (mul_comm _ _) (mul_comm _ _)) l ((Err.refl 0).mono (Nat.zero_le 1)) le_rfl
  rw [abs_zero, zero_add, zero_add] at h1
  have h2 := (h1.mul (Err.refl (1 / 2 : ℝ))).fl
  rw [abs_of_pos (by norm_num : (0 : ℝ) < 1 / 2)] at h2
  exact h2.mono (by have := held_le h hl; omega)

private theorem err_fmm {g : List (Reductions.Body d) → ℝ} {x m : Particle d → ℝ} {k : Nat} (hk : 2 ≤ k) (hg : ∀ l ∈ procs, Err R k (sumOn x l) (g l) (sumOn m l)) (fmm : Bool)
    (hy : ReduceSum R (fun l => if fmm then localFrom R (fun a => R.fl (R.fl (1 / 2 * a.gpot) * a.mass)) (g l) l else g l) procs y) :
    Err R (k + n + procs.length) (total ps x + if fmm then total ps (fun a => a.mass * a.gpot) / 2 else 0) y (total ps m + if fmm then total ps (fun a => |a.mass| * |a.gpot|) / 2 else 0) := by
  cases fmm
  · simp only [Bool.false_eq_true, if_false, add_zero] at hy ⊢
    rw [← sum_sumOn x h, ← sum_sumOn m h]
    exact (err_reduce hg hy).mono (by omega)
  · simp only [if_true] at hy ⊢
    rw [← total_div, ← total_div, ← sum_sumOn x h, ← sum_sumOn m h, ← sum_sumOn _ h, ← sum_sumOn _ h, ← List.sum_map_add, ← List.sum_map_add]
    refine err_reduce (fun l hl => ?_) hy
    refine (err_local (R := R) (fun a => R.fl (R.fl (1 / 2 * a.gpot) * a.mass)) (fun a => 1 / 2 * (a.mass * a.gpot)) (fun a => 1 / 2 * (|a.mass| * |a.gpot|)) 2 (fun a => ?_) l (hg l hl) hk).mono
      (by have := held_le h hl; omega)
    exact (((half a.gpot).fl.mul (Err.refl a.mass)).fl).congr (by ring) (by ring)

private theorem err_energy (phi : Point d → ℝ) (fmm : Bool) (hy : ReduceSum R (energyOn R false fmm phi) procs y) :
    Err R (d + 5 + 2 * n + procs.length) (total ps (mechanical phi) + if fmm then total ps (fun a => a.mass * a.gpot) / 2 else 0) y
      ((total ps fun a => |a.mass| * ((∑ j, a.vel j ^ 2) / 2 + |a.u| + |phi a.pos|)) + if fmm then total ps (fun a => |a.mass| * |a.gpot|) / 2 else 0) := by
  have hg : ∀ l ∈ procs, Err R (d + 5 + n) (sumOn (mechanical phi) l)
      (localFrom R (fun a => R.fl (a.mass * R.fl (R.fl (R.fl (1 / 2 * rdot R a.vel a.vel) + a.u) + phi a.pos))) 0 l)
      (sumOn (fun a => |a.mass| * ((∑ j, a.vel j ^ 2) / 2 + |a.u| + |phi a.pos|)) l) := fun l hl => by
    have h1 := err_local (R := R) (fun a => R.fl (a.mass * R.fl (R.fl (R.fl (1 / 2 * rdot R a.vel a.vel) + a.u) + phi a.pos))) (mechanical phi)
      (fun a => |a.mass| * ((∑ j, a.vel j ^ 2) / 2 + |a.u| + |phi a.pos|)) (d + 5) (fun a => ?_) l ((Err.refl 0).mono (Nat.zero_le (d + 5))) le_rfl
    · rw [abs_zero, zero_add, zero_add] at h1
      exact h1.mono (by have := held_le h hl; omega)
    · have e1 : Err R (d + 2) (1 / 2 * dot a.vel a.vel) (R.fl (1 / 2 * rdot R a.vel a.vel)) (1 / 2 * ∑ j, |a.vel j| * |a.vel j|) := by
        have := ((Err.refl (R := R) (1 / 2 : ℝ)).mul (err_rdot a.vel a.vel)).fl
        rw [abs_of_pos (by norm_num : (0 : ℝ) < 1 / 2)] at this
        exact this.mono (by omega)
      have e2 := (e1.add le_rfl (Nat.zero_le _) (Err.refl a.u)).fl
      have e3 := (e2.add le_rfl (Nat.zero_le _) (Err.refl (phi a.pos))).fl
      refine ((((Err.refl a.mass).mul e3).fl).mono (by omega)).congr ?_ ?_
      · rw [mechanical, dot, Finset.sum_congr rfl fun j _ => (pow_two (a.vel j)).symm]; ring
      · rw [speed_sq]; ring
  exact (err_fmm h (k := d + 5 + n) (by omega) hg fmm hy).mono (by omega)

private theorem err_evolved (phi : Point d → ℝ) (fmm : Bool) (hy : ReduceSum R (energyOn R true fmm phi) procs y) :
    Err R (2 + 2 * n + procs.length) ((total ps fun a => a.mass * a.e) + if fmm then total ps (fun a => a.mass * a.gpot) / 2 else 0) y
      ((total ps fun a => |a.mass| * |a.e|) + if fmm then total ps (fun a => |a.mass| * |a.gpot|) / 2 else 0) := by
  have hg : ∀ l ∈ procs, Err R (2 + n) (sumOn (fun a => a.mass * a.e) l) (localFrom R (fun a => R.fl (a.mass * a.e)) 0 l) (sumOn (fun a => |a.mass| * |a.e|) l) := fun l hl => by
    have h1 := err_local (R := R) (fun a => R.fl (a.mass * a.e)) (fun a => a.mass * a.e) (fun a => |a.mass| * |a.e|) 2
      (fun a => (((Err.refl a.mass).mul (Err.refl a.e)).fl).mono (by omega)) l ((Err.refl 0).mono (Nat.zero_le 2)) le_rfl
    rw [abs_zero, zero_add, zero_add] at h1
    exact h1.mono (by have := held_le h hl; omega)
  exact (err_fmm h (k := 2 + n) (by omega) hg fmm hy).mono (by omega)
end

/-- What a column shows: the quantity it is named after up to the factor `e` of the size of its terms. Nothing is said of the centre of mass. -/
inductive Shown (z : Setting d) (it : Nat) (t dt : ℝ) (ps : Fin n → Particle d) (e : ℝ) (name : String) (x : ℝ) : Prop
  | integer : name = "iteration" → x = it → Shown z it t dt ps e name x
  | near {X M : ℝ} : Column z it t dt ps name X → Size z t dt ps name M → |x - X| ≤ e * M → Shown z it t dt ps e name x
  | centre : name ∈ ["com_x", "com_y", "com_z"] → Shown z it t dt ps e name x

/-- C83: every number of a line of scalar_reductions.dat, with all operations rounded, is the quantity of all particles its column is named after (see C71) up to `2 K u + 3 p` times the size of its terms;
`K` is `2 n + processes + 8` for n particles, `u` the unit roundoff and `p` the relative error of a printed number. The particles, and whatever walls and periodic copies, may be divided among the processes
in any way, and MPI may add in any order. Left out: the centre of mass, which is not a reduction; underflow and overflow. -/
theorem C83_columns_partial (hd : d = 1 ∨ d = 2 ∨ d = 3) (z : Setting d) (hz : d = 3 ∨ z.fmm = false ∨ z.evolve = true) (it : Nat) (t dt : ℝ) (root : Point d) (ps : Fin n → Particle d)
    (procs : List (List (Reductions.Body d))) (h : Held ps procs) (hu : ((2 * n + procs.length + 8 : ℕ) : ℝ) * R.u ≤ 1) (row : Scalars) (hrow : RowWritten R P.fl z it t dt root procs row) :
    ∃ values, row.toks = values.map Tok.num ∧ List.Forall₂ (Shown z it t dt ps (2 * (2 * n + procs.length + 8 : ℕ) * R.u + 3 * P.u)) (columns z) values := by
  refine ⟨_, rfl, ?_⟩
  have hd3 : d ≤ 3 := by omega
  obtain ⟨K, hK⟩ : ∃ K, K = 2 * n + procs.length + 8 := ⟨_, rfl⟩
  rw [← hK] at hu ⊢
  have itc : Shown z it t dt ps (2 * K * R.u + 3 * P.u) "iteration" row.iteration := .integer rfl (by rw [hrow.iteration])
  have tc : Shown z it t dt ps (2 * K * R.u + 3 * P.u) "time" row.time := .near .time .time (by rw [hrow.time]; exact printed (Err.refl t) (Nat.zero_le K) hu)
  have dtc : Shown z it t dt ps (2 * K * R.u + 3 * P.u) "timestep" row.dt := .near .timestep .timestep (by rw [hrow.dt]; exact printed (Err.refl dt) (Nat.zero_le K) hu)
  have mc : Shown z it t dt ps (2 * K * R.u + 3 * P.u) "total_mass" row.mass := by
    obtain ⟨x, hx, e⟩ := hrow.mass
    exact .near .mass .mass (by rw [e]; exact printed (err_mass h hx) (by omega) hu)
  have ec : Shown z it t dt ps (2 * K * R.u + 3 * P.u) "total_energy" row.energy := by
    obtain ⟨x, hx, e⟩ := hrow.energy
    cases htk : z.thermokinetic
    · rw [htk] at hx
      exact .near (.energy htk) (.energy htk) (by rw [e]; exact printed (err_energy h z.phi z.fmm hx) (by omega) hu)
    · rw [htk] at hx
      exact .near (.evolved htk) (.evolved htk) (by rw [e]; exact printed (err_evolved h z.phi z.fmm hx) (by omega) hu)
  have kc : Shown z it t dt ps (2 * K * R.u + 3 * P.u) "kinetic_energy" row.kinetic := by
    obtain ⟨x, hx, e⟩ := hrow.kinetic
    exact .near .kinetic .kinetic (by rw [e]; exact printed (err_kinetic h hx) (by omega) hu)
  have ic : (z.fmm && !z.evolve) = false → Shown z it t dt ps (2 * K * R.u + 3 * P.u) "internal_energy" row.internal := fun hzz => by
    obtain ⟨x, hx, e⟩ := hrow.internal
    rw [hzz] at hx
    exact .near .internal .internal (by rw [e]; exact printed (err_internal h hx) (by omega) hu)
  have gc : (z.fmm && !z.evolve) = true → Shown z it t dt ps (2 * K * R.u + 3 * P.u) "gravitational_energy" row.internal := fun hzz => by
    obtain ⟨x, hx, e⟩ := hrow.internal
    rw [hzz] at hx
    exact .near .gravitational .gravitational (by rw [e]; exact printed (err_gravitational h hx) (by omega) hu)
  have hzz : d ≠ 3 → (z.fmm && !z.evolve) = false := fun hne => by
    rcases hz with e | e | e
    · exact absurd e hne
    · rw [e]; rfl
    · rw [e]; cases z.fmm <;> rfl
  have hmom := hrow.momentum
  have hang := hrow.angular
  have hroot := hrow.root
  obtain ⟨r0, r1, r2, r3, r4, r5, r6, mom, ang, rt⟩ := row
  simp only at itc tc dtc mc ec kc ic gc hmom hang hroot
  have vel : ∀ {j : Fin d} {y : ℝ}, (∃ x, ReduceSum R (momentumOn R j) procs x ∧ y = P.fl x) →
      |y - total ps fun a => a.mass * a.vel j| ≤ (2 * K * R.u + 3 * P.u) * total ps fun a => |a.mass| * |a.vel j| := fun {j y} hy => by
    obtain ⟨x, hx, rfl⟩ := hy
    exact printed (err_momentum h j hx) (by omega) hu
  have rot : ∀ {j k : Nat} (hj : j < d) (hk : k < d) {y : ℝ}, (∃ x, ReduceSum R (angularOn R j k) procs x ∧ y = P.fl x) →
      |y - total ps (moment j k hj hk)| ≤ (2 * K * R.u + 3 * P.u) * total ps (momentSize j k hj hk) := fun {j k} hj hk {y} hy => by
    obtain ⟨x, hx, rfl⟩ := hy
    exact printed (err_angular h hj hk hx) (by omega) hu
  rcases hd with rfl | rfl | rfl
  · simp only [show List.finRange 1 = [0] from rfl, planes] at hmom hang
    simp at hang hroot
    obtain ⟨m0, l0, e0, hl0, rfl⟩ := List.forall₂_cons_left_iff.mp hmom
    obtain rfl := List.forall₂_nil_left_iff.mp hl0
    subst hang hroot
    exact .cons itc (.cons tc (.cons dtc (.cons mc (.cons ec (.cons kc (.cons (ic (hzz (by omega))) (.cons (.near (.momX (by omega)) (.momX (by omega)) (vel e0)) .nil)))))))
  · simp only [show List.finRange 2 = [0, 1] from rfl, planes] at hmom hang
    simp at hang hroot
    obtain ⟨m0, l0, e0, hl0, rfl⟩ := List.forall₂_cons_left_iff.mp hmom
    obtain ⟨m1, l1, e1, hl1, rfl⟩ := List.forall₂_cons_left_iff.mp hl0
    obtain rfl := List.forall₂_nil_left_iff.mp hl1
    obtain ⟨a0, k0, f0, hk0, rfl⟩ := List.forall₂_cons_left_iff.mp hang
    obtain rfl := List.forall₂_nil_left_iff.mp hk0
    subst hroot
    exact .cons itc (.cons tc (.cons dtc (.cons mc (.cons ec (.cons kc (.cons (ic (hzz (by omega))) (.cons (.near (.momX (by omega)) (.momX (by omega)) (vel e0))
      (.cons (.near (.momY (by omega)) (.momY (by omega)) (vel e1)) (.cons (.near (.angZ2 (by omega)) (.angZ2 (by omega)) (rot _ _ f0)) .nil)))))))))
  · simp only [show List.finRange 3 = [0, 1, 2] from rfl, planes] at hmom hang
    simp at hang hroot
    obtain ⟨m0, l0, e0, hl0, rfl⟩ := List.forall₂_cons_left_iff.mp hmom
    obtain ⟨m1, l1, e1, hl1, rfl⟩ := List.forall₂_cons_left_iff.mp hl0
    obtain ⟨m2, l2, e2, hl2, rfl⟩ := List.forall₂_cons_left_iff.mp hl1
    obtain rfl := List.forall₂_nil_left_iff.mp hl2
    obtain ⟨a0, k0, f0, hk0, rfl⟩ := List.forall₂_cons_left_iff.mp hang
    obtain ⟨a1, k1, f1, hk1, rfl⟩ := List.forall₂_cons_left_iff.mp hk0
    obtain ⟨a2, k2, f2, hk2, rfl⟩ := List.forall₂_cons_left_iff.mp hk1
    obtain rfl := List.forall₂_nil_left_iff.mp hk2
    subst hroot
    have hlast : List.Forall₂ (Shown z it t dt ps (2 * K * R.u + 3 * P.u)) ["mom_x", "mom_y", "mom_z", "ang_mom_x", "ang_mom_y", "ang_mom_z", "com_x", "com_y", "com_z"]
        ([m0, m1, m2] ++ ([a0, a1, a2] ++ [P.fl (root 0), P.fl (root 1), P.fl (root 2)])) :=
      .cons (.near (.momX (by omega)) (.momX (by omega)) (vel e0)) (.cons (.near (.momY (by omega)) (.momY (by omega)) (vel e1)) (.cons (.near (.momZ (by omega)) (.momZ (by omega)) (vel e2))
        (.cons (.near (.angX (by omega)) (.angX (by omega)) (rot _ _ f0)) (.cons (.near (.angY (by omega)) (.angY (by omega)) (rot _ _ f1))
          (.cons (.near (.angZ (by omega)) (.angZ (by omega)) (rot _ _ f2)) (.cons (.centre (by decide)) (.cons (.centre (by decide)) (.cons (.centre (by decide)) .nil))))))))
    cases hg : (z.fmm && !z.evolve)
    · simp only [columns, hg, if_neg (show ¬(3 = 1) by decide), if_neg (show ¬(3 = 2) by decide), Bool.false_eq_true, if_false]
      exact .cons itc (.cons tc (.cons dtc (.cons mc (.cons ec (.cons kc (.cons (ic hg) hlast))))))
    · simp only [columns, hg, if_neg (show ¬(3 = 1) by decide), if_neg (show ¬(3 = 2) by decide), if_true]
      exact .cons itc (.cons tc (.cons dtc (.cons mc (.cons ec (.cons kc (.cons (gc hg) hlast))))))

private theorem combined_exists {ι : Type} (f : ι → ℝ) : ∀ {l : List ι}, l ≠ [] → ∃ x, Combined R f l x
  | [], h => absurd rfl h
  | [i], _ => ⟨_, .one i⟩
  | i :: j :: l, _ => by
    obtain ⟨x, hx⟩ := combined_exists f (l := j :: l) (by simp)
    exact ⟨_, .add (.one i) hx⟩

/-- A line is written whenever there is a process: the hypotheses of the other theorems can be met for any particles. -/
theorem C83_written (z : Setting d) (it : Nat) (t dt : ℝ) (root : Point d) (procs : List (List (Reductions.Body d))) (hp : procs ≠ []) : ∃ row, RowWritten R P.fl z it t dt root procs row := by
  have ex : ∀ g : List (Reductions.Body d) → ℝ, ∃ x, ReduceSum R g procs x := fun g => combined_exists _ (by
    intro e
    have := congrArg List.length e
    rw [List.length_finRange] at this
    exact hp (List.length_eq_zero_iff.mp this))
  have all : ∀ {α : Type} (l : List α) (g : α → List (Reductions.Body d) → ℝ), ∃ ys, List.Forall₂ (fun a y => ∃ x, ReduceSum R (g a) procs x ∧ y = P.fl x) l ys := fun l g => by
    induction l with
    | nil => exact ⟨[], .nil⟩
    | cons a l ih =>
      obtain ⟨ys, hys⟩ := ih
      obtain ⟨x, hx⟩ := ex (g a)
      exact ⟨P.fl x :: ys, .cons ⟨x, hx, rfl⟩ hys⟩
  obtain ⟨m, hm⟩ := ex (massOn R)
  obtain ⟨e, he⟩ := ex (energyOn R z.thermokinetic z.fmm z.phi)
  obtain ⟨k, hk⟩ := ex (kineticOn R)
  obtain ⟨w, hw⟩ := ex (if z.fmm && !z.evolve then gravitationalOn R else internalOn R)
  obtain ⟨ms, hms⟩ := all (List.finRange d) (momentumOn R)
  obtain ⟨as, has⟩ := all (planes d) fun p => angularOn R p.1 p.2
  exact ⟨⟨it, P.fl t, P.fl dt, P.fl m, P.fl e, P.fl k, P.fl w, ms, as, _⟩, rfl, rfl, rfl, ⟨m, hm, rfl⟩, ⟨e, he, rfl⟩, ⟨k, hk, rfl⟩, ⟨w, hw, rfl⟩, hms, has, rfl⟩

/-- A particle with these mass and velocity. -/
private noncomputable def moving (m : ℝ) (v : Point 2) : Particle 2 := ⟨0, m, 1, 0, v, v, 0, 0, 0, 1, 1, 1, 1, 1, 0, 0, 0, 0, 0, 0, 0, 0, 0⟩

/-- Non-vacuity: `double`, 13 digits, two particles of which one is on process 0 and one on process 2, process 1 holds a periodic copy. -/
example (fl print : ℝ → ℝ) (h1 : ∀ x, |fl x - x| ≤ 1 / 2 ^ 53 * |x|) (h2 : ∀ x, |print x - x| ≤ 1 / (2 * 10 ^ 12) * |x|) :
    let R : Rounding := ⟨fl, 1 / 2 ^ 53, by positivity, h1⟩
    let P : Rounding := ⟨print, 1 / (2 * 10 ^ 12), by positivity, h2⟩
    let procs : List (List (Reductions.Body 2)) := [[⟨false, moving 1 ![1, 0]⟩], [⟨true, moving 7 ![1, 0]⟩], [⟨false, moving 2 ![0, 1]⟩]]
    let z : Setting 2 := ⟨false, false, true, fun _ => 0⟩
    Held ![moving 1 ![1, 0], moving 2 ![0, 1]] procs ∧ ((2 * 2 + procs.length + 8 : ℕ) : ℝ) * R.u ≤ 1 ∧ ∃ row, RowWritten R P.fl z 3 1 1 0 procs row := by
  refine ⟨by simp [Held, List.ofFn_succ], by norm_num, C83_written _ _ _ _ _ _ (by simp)⟩

/-- A column shows one quantity. -/
private theorem column_unique {z : Setting d} {it : Nat} {t dt : ℝ} {ps : Fin n → Particle d} {a b : String} {x y : ℝ} (h : Column z it t dt ps a x) (h' : Column z it t dt ps b y) (e : a = b) :
    x = y := by
  cases h <;> cases h' <;> first | rfl | exact absurd e (by decide) | simp_all

private theorem size_unique {z : Setting d} {t dt : ℝ} {ps : Fin n → Particle d} {a b : String} {x y : ℝ} (h : Size z t dt ps a x) (h' : Size z t dt ps b y) (e : a = b) : x = y := by
  cases h <;> cases h' <;> first | rfl | exact absurd e (by decide) | simp_all

private theorem size_name {z : Setting d} {t dt : ℝ} {ps : Fin n → Particle d} {a : String} {x : ℝ} (h : Size z t dt ps a x) : a ≠ "iteration" := by
  cases h <;> decide

/-- C83: two lines written for the same particles on different numbers of processes, or on the same number with another order of the sums, agree up to the two errors. -/
theorem C83_processes_partial (hd : d = 1 ∨ d = 2 ∨ d = 3) (z : Setting d) (hz : d = 3 ∨ z.fmm = false ∨ z.evolve = true) (it : Nat) (t dt : ℝ) (root root' : Point d) (ps : Fin n → Particle d)
    (procs procs' : List (List (Reductions.Body d))) (h : Held ps procs) (h' : Held ps procs') (hu : ((2 * n + procs.length + 8 : ℕ) : ℝ) * R.u ≤ 1) (hu' : ((2 * n + procs'.length + 8 : ℕ) : ℝ) * R.u ≤ 1)
    (row row' : Scalars) (hrow : RowWritten R P.fl z it t dt root procs row) (hrow' : RowWritten R P.fl z it t dt root' procs' row') :
    ∃ values values' : List ℝ, row.toks = values.map Tok.num ∧ row'.toks = values'.map Tok.num ∧ values.length = (columns z).length ∧ values'.length = (columns z).length ∧
      ∀ (k : Nat) (name : String) (x x' M : ℝ), (columns z)[k]? = some name → values[k]? = some x → values'[k]? = some x' → name ∉ ["com_x", "com_y", "com_z"] → Size z t dt ps name M →
        |x - x'| ≤ (2 * (4 * n + procs.length + procs'.length + 16 : ℕ) * R.u + 6 * P.u) * M := by
  obtain ⟨v, e, hv⟩ := C83_columns_partial hd z hz it t dt root ps procs h hu row hrow
  obtain ⟨v', e', hv'⟩ := C83_columns_partial hd z hz it t dt root' ps procs' h' hu' row' hrow'
  refine ⟨v, v', e, e', hv.length_eq.symm, hv'.length_eq.symm, fun k name x x' M hn hx hx' hc hM => ?_⟩
  have get : ∀ {w : List ℝ} {q : String → ℝ → Prop} {y : ℝ}, List.Forall₂ q (columns z) w → w[k]? = some y → q name y := fun {w q y} hq hy => by
    obtain ⟨i1, j1⟩ := List.getElem?_eq_some_iff.mp hn
    obtain ⟨i2, j2⟩ := List.getElem?_eq_some_iff.mp hy
    rw [← j1, ← j2]
    exact List.Forall₂.get hq i1 i2
  have s1 := get hv hx
  have s2 := get hv' hx'
  cases s1 with
  | integer a _ => exact absurd a (size_name hM)
  | centre a => exact absurd a hc
  | @near X1 M1 c1 z1 b1 =>
    cases s2 with
    | integer a _ => exact absurd a (size_name hM)
    | centre a => exact absurd a hc
    | @near X2 M2 c2 z2 b2 =>
      rw [column_unique c2 c1 rfl, size_unique z2 hM rfl] at b2
      rw [size_unique z1 hM rfl] at b1
      have := abs_sub_le x X1 x'
      rw [abs_sub_comm X1 x'] at this
      push_cast at b1 b2 ⊢
      linarith

/-! ### Mass and centre of mass of the cells -/

section
open FleCSPH.Tree FleCSPH.Startup FleCSPH.Ghosts FleCSPH.Cofm
variable {D dim m : Nat} (hdim : 0 < dim) (hdim3 : dim ≤ 3) (hD : 0 < D) {ranks : List (List Nat)} (hm : ranks.length = 2 ^ m) (hne : ∀ l ∈ ranks, l ≠ []) (hfull : ∀ x ∈ ranks.flatten, FullKey D dim x)
  (hsorted : ranks.flatten.Pairwise (· < ·)) (hu : 64 * D * R.u ≤ 1)
include hdim hdim3 hD hm hne hfull hsorted hu

/-- C83 and C11: `build_tree` on `2^m` processes with rounding. It succeeds, and every node in the table of every process has the mass of the particles of all processes it holds up to `32 D u`, and their
centre of mass up to `136 D u` times the mean absolute value of the coordinates, whatever the number of particles. In particular this is so of the root, which every process has, and whose coordinates are
the last columns of scalar_reductions.dat in three dimensions. -/
theorem C83_centre_partial (big : ℝ) (body : Nat → Cofm.Body d) (hmass : ∀ x ∈ ranks.flatten, 0 < (body x).mass) : ∃ s, startup D dim (summarise R big) (fun x => .inl (body x)) ranks = some s ∧
    ∀ r < 2 ^ m, ∃ me, s[r]? = some me ∧ (∃ c, me.tbl [] = some c ∧ c.node = true) ∧ ∀ k c, me.tbl k = some c → c.node = true → ∃ N S, c.data = some (.inr (some N)) ∧
      (∀ x, x ∈ S ↔ x ∈ ranks.flatten ∧ Holds D dim (number dim k) x) ∧ |N.mass - ∑ x ∈ S, (body x).mass| ≤ 32 * D * R.u * ∑ x ∈ S, (body x).mass ∧
      ∀ i, |N.coords i - (∑ x ∈ S, (body x).mass * (body x).pos i) / ∑ x ∈ S, (body x).mass| ≤ 136 * D * R.u * ((∑ x ∈ S, (body x).mass * |(body x).pos i|) / ∑ x ∈ S, (body x).mass) := by
  have P : Parts D dim ranks := ⟨hdim, hD, hne, hfull, hsorted⟩
  have hu1 : R.u < 1 := by
    have : (1 : ℝ) ≤ D := by exact_mod_cast hD
    nlinarith [R.nonneg]
  obtain ⟨s, h1, -, h3⟩ := P.startup hm (summarise (d := d) R big) (fun x => .inl (body x))
  refine ⟨s, h1, fun r hr => ?_⟩
  obtain ⟨me, h4, h5⟩ := h3 r hr
  have hr0 : ranks[0]? = some (ranks[0]'(by rw [hm]; exact Nat.pow_pos (by decide))) := List.getElem?_eq_getElem _
  have hfl := P.flatten_ne hr0
  refine ⟨me, h4, ?_, fun k c hc hn => ?_⟩
  · have h6 : (me.tbl []).isSome := (h5.mem []).mpr ⟨(global_isSome hdim P.fullX).mpr ⟨fun _ h => (List.not_mem_nil h).elim, .inl (.inl rfl)⟩, .inr fun _ _ e => by cases e⟩
    obtain ⟨c, hc⟩ := Option.isSome_iff_exists.mp h6
    obtain ⟨g, hg, -, he⟩ := h5.kind [] c hc
    refine ⟨c, hc, ?_⟩
    rw [he]
    cases hge : g.ent with
    | false => rfl
    | true =>
      obtain ⟨x, -, hl⟩ := (global_some hdim P.fullX hg).2.2.1 hge
      exact absurd rfl hl.1
  · obtain ⟨g, hg, -, he⟩ := h5.kind k c hc
    obtain ⟨hd, hin, -⟩ := global_some hdim P.fullX hg
    have hge : g.ent = false := by
      cases hg' : g.ent with
      | false => rfl
      | true => rw [hn, hg'] at he; cases he
    obtain ⟨N, n1, n2⟩ := centred hu1 hdim3 big hdim hD hfl hfull body hmass hd (hin hge)
    have hS : ∀ x, x ∈ inside D dim ranks.flatten k ↔ x ∈ ranks.flatten ∧ Holds D dim (number dim k) x := fun x => by
      rw [mem_inside]
      exact and_congr_right fun hx => suffix_path hdim hd (hfull x hx)
    have hpos : ∀ j ∈ inside D dim ranks.flatten k, 0 < (body j).mass := fun j hj => hmass j ((hS j).mp hj).1
    have hnon : (inside D dim ranks.flatten k).Nonempty := by
      rcases hin hge with rfl | ⟨x, y, hx, -, -, h1, -⟩
      · obtain ⟨x, hx⟩ := List.exists_mem_of_ne_nil _ hfl
        exact ⟨x, mem_inside.mpr ⟨hx, List.nil_suffix⟩⟩
      · exact ⟨x, mem_inside.mpr ⟨hx, h1⟩⟩
    obtain ⟨q1, q2⟩ := n2.near hpos hnon hu
    exact ⟨N, _, by rw [h5.data k c hc, n1], hS, q1, q2⟩
end

/-- Non-vacuity: four particles in the plane on two processes, in `double`. -/
example : let ranks : List (List Nat) := [[0b1000000, 0b1110100], [0b1110111, 0b1111111]]
    (0 < 2 ∧ 2 ≤ 3 ∧ 0 < 3 ∧ ranks.length = 2 ^ 1 ∧ (∀ l ∈ ranks, l ≠ []) ∧ (∀ x ∈ ranks.flatten, FullKey 3 2 x) ∧ ranks.flatten.Pairwise (· < ·)) ∧ 64 * ((3 : ℕ) : ℝ) * (1 / 2 ^ 53) ≤ 1 :=
  ⟨by decide, by norm_num⟩

end FleCSPH.Rounded
