import Verif.Lemmas.RoundedEos
/-! Lemmas for C90: recovered internal energies and signal speeds. -/
namespace FleCSPH.Rounded
open FleCSPH.Spec FleCSPH.Geometry FleCSPH.Kernels FleCSPH.Sph

variable {R : Rounding} {d : Nat}

theorem err_eint (phi : Point d → ℝ) (a : Particle d) :
    Err R (d + 4) (a.e - 1 / 2 * dot a.vel a.vel - phi a.pos) (R.fl (R.fl (a.e - R.fl (1 / 2 * rdot R a.vel a.vel)) - phi a.pos)) (|a.e| + 1 / 2 * ∑ j, a.vel j ^ 2 + |phi a.pos|) := by
  have h1 := ((Err.refl (R := R) (1 / 2)).mul (err_rdot a.vel a.vel)).fl
  have h2 := ((Err.refl (R := R) a.e).sub (c := 0 + (d + 1) + 1) (by omega) le_rfl h1).fl
  have h3 := (h2.sub (c := 0 + (d + 1) + 1 + 1) le_rfl (by omega) (Err.refl (R := R) (phi a.pos))).fl
  refine (h3.mono (by omega)).size (le_of_eq ?_)
  rw [abs_of_pos (by norm_num : (0 : ℝ) < 1 / 2)]
  congr 3
  refine Finset.sum_congr rfl fun j _ => ?_
  rw [← sq, sq_abs]

theorem Err.min_zero {k : Nat} {x y m : ℝ} (h : Err R k x y m) : Err R k (min x 0) (min y 0) m := by
  refine ⟨le_trans ?_ h.1, le_trans ?_ h.2⟩
  · rcases le_total x 0 with hx | hx
    · rw [min_eq_left hx]
    · rw [min_eq_right hx, abs_zero]; exact abs_nonneg _
  · have := abs_min_sub_min_le_max y 0 x 0
    rwa [sub_self, abs_zero, max_eq_left (abs_nonneg _)] at this

theorem Err.max {k : Nat} {x y x' y' m : ℝ} (h : Err R k x y m) (h' : Err R k x' y' m) : Err R k (max x x') (max y y') m := by
  refine ⟨?_, ?_⟩
  · exact (abs_max_le_max_abs_abs).trans (max_le h.1 h'.1)
  · exact (abs_max_sub_max_le_max y y' x x').trans (max_le h.2 h'.2)

/-- One neighbour. -/
theorem err_signal (hu : 100 * R.u ≤ 1) (hd : d ≤ 3) {a b : Particle d} (hab : b.pos ≠ a.pos) (ha : 0 ≤ a.cs) (hb : 0 ≤ b.cs) :
    Err R 22 (max a.cs b.cs - min (dot (a.vel - b.vel) (fun j => (a.pos j - b.pos j) / Geometry.distance a.pos b.pos)) 0)
      (R.fl (max a.cs b.cs - min (rdot R (diff R a.vel b.vel) (fun j => R.fl (diff R a.pos b.pos j / distance R a.pos b.pos))) 0)) (max a.cs b.cs + ∑ j, |a.vel j - b.vel j|) := by
  have h0 := R.nonneg
  have hu1 : R.u < 1 := by linarith
  have hpos : 0 < Geometry.distance a.pos b.pos := by
    obtain ⟨j, hj⟩ := Function.ne_iff.mp hab
    refine Real.sqrt_pos.mpr (Finset.sum_pos' (fun j _ => mul_self_nonneg _) ⟨j, Finset.mem_univ _, mul_self_pos.mpr (sub_ne_zero.mpr (Ne.symm hj))⟩)
  have hn : NN R 7 (Geometry.distance a.pos b.pos) (distance R a.pos b.pos) := ⟨hpos.le, near_distance hu1.le hd a.pos b.pos⟩
  have hi := (hn.inv hu1 hpos).2.to_err (by push_cast; linarith) hu1.le
  have h1 : ∀ j, Err R 16 ((a.pos j - b.pos j) / Geometry.distance a.pos b.pos) (R.fl (diff R a.pos b.pos j / distance R a.pos b.pos)) 1 := by
    intro j
    have h2 : Err R 1 (a.pos j - b.pos j) (diff R a.pos b.pos j) |a.pos j - b.pos j| := (Err.refl _).fl
    have h3 := (h2.mul hi).fl
    rw [← div_eq_mul_inv, ← div_eq_mul_inv, ← div_eq_mul_inv] at h3
    refine (h3.mono (by omega)).size ((div_le_one hpos).mpr ?_)
    refine Real.le_sqrt_of_sq_le ?_
    rw [sq_abs, sq]
    exact Finset.single_le_sum (f := fun j => (a.pos j - b.pos j) * (a.pos j - b.pos j)) (fun j _ => mul_self_nonneg _) (Finset.mem_univ j)
  have h4 := err_rdot_both (R := R) (x := a.vel - b.vel) (v := diff R a.vel b.vel) (m := fun j => |a.vel j - b.vel j|) (fun j => (Err.refl (R := R) (a.vel j - b.vel j)).fl) h1
  have h5 := (h4.mono (show 0 + 1 + 16 + 1 + d ≤ 21 by omega)).min_zero
  have h6 := ((Err.refl (R := R) (max a.cs b.cs)).sub (c := 21) (by omega) le_rfl h5).fl
  refine h6.size (le_of_eq ?_)
  rw [abs_of_nonneg (le_max_of_le_left ha)]
  simp only [mul_one]

theorem err_vsig (hu : 100 * R.u ≤ 1) (hd : d ≤ 3) {a : Particle d} (ha : 0 ≤ a.cs) {M : ℝ} (hM : 0 ≤ M) (l : List (Particle d)) (hl : ∀ b ∈ l, 0 ≤ b.cs ∧ max a.cs b.cs + ∑ j, |a.vel j - b.vel j| ≤ M) :
    Err R 22 (computeSignalspeed a l).vsig (computeSignalspeedR R a l).vsig M := by
  have key : ∀ (l : List (Particle d)) {x y : ℝ}, (∀ b ∈ l, 0 ≤ b.cs ∧ max a.cs b.cs + ∑ j, |a.vel j - b.vel j| ≤ M) → Err R 22 x y M →
      Err R 22 (l.foldl (fun vsig b => if b.pos = a.pos then vsig else max vsig (max a.cs b.cs - min (dot (a.vel - b.vel) (fun j => (a.pos j - b.pos j) / Geometry.distance a.pos b.pos)) 0)) x)
        (l.foldl (fun vsig b => if b.pos = a.pos then vsig
          else max vsig (R.fl (max a.cs b.cs - min (rdot R (diff R a.vel b.vel) (fun j => R.fl (diff R a.pos b.pos j / distance R a.pos b.pos))) 0))) y) M := by
    intro l
    induction l with
    | nil => exact fun _ h => h
    | cons b l ih =>
      intro x y hl h
      rw [List.foldl_cons, List.foldl_cons]
      refine ih (fun c hc => hl c (List.mem_cons_of_mem _ hc)) ?_
      by_cases hab : b.pos = a.pos
      · rw [if_pos hab, if_pos hab]; exact h
      · rw [if_neg hab, if_neg hab]
        have hb := hl b List.mem_cons_self
        exact h.max ((err_signal hu hd hab ha hb.1).size hb.2)
  refine key l hl (((Err.refl (R := R) 0).mono (Nat.zero_le _)).size ?_)
  rw [abs_zero]; exact hM

end FleCSPH.Rounded
