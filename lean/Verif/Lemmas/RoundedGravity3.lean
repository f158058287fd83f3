import Verif.Lemmas.RoundedGravity2
import Verif.Lemmas.DistBuilt
import Verif.Lemmas.RoundingTree
import Verif.Lemmas.RoundedCentre
/-! Lemmas for C94: what the rounded criterion guarantees, and the data of the tree built with rounded summaries. -/
namespace FleCSPH.Rounded
open FleCSPH.Geometry FleCSPH.Cofm FleCSPH.Startup FleCSPH.Ghosts FleCSPH.DistGravity FleCSPH.Tree FleCSPH.Spec
open FleCSPH.Fmm (grav shift distance_eq_zero shift_smul grav_smul norm_euc_sub expand_err eucL)

variable {d nch E P : Nat} {R : Rounding} {G : Key → Option GCell} {cells : Finset Key} {Val : Key → Data d} {M : Key → ℝ}

/-- What the criterion says about the exact distances. -/
theorem mac_bound (hd : d ≤ 3) (hu : R.u < 1) {c1 c2 x y : Point d} {r1 r2 angle t : ℝ} (h1 : (1 - R.u) ^ P * Geometry.distance c1 x ≤ r1) (h2 : (1 - R.u) ^ P * Geometry.distance c2 y ≤ r2)
    (ht : 0 ≤ t) (hat : angle ≤ t * (1 - (P + 9 : ℕ) * R.u)) (h : mac R c1 r1 c2 r2 angle) : Geometry.distance c1 x + Geometry.distance c2 y ≤ t * Geometry.distance c1 c2 := by
  have hv : 0 < 1 - R.u := by linarith
  have d1 := distance_nonneg c1 x
  have d2 := distance_nonneg c2 y
  have d3 := distance_nonneg c1 c2
  have r10 : 0 ≤ r1 := le_trans (mul_nonneg (pow_nonneg hv.le _) d1) h1
  have r20 : 0 ≤ r2 := le_trans (mul_nonneg (pow_nonneg hv.le _) d2) h2
  obtain ⟨n1, n2⟩ := near_distance hu.le hd c1 c2
  have hge := fl_ge (R := R) (add_nonneg r10 r20)
  have hlt : (1 - R.u) * (r1 + r2) < R.fl (angle * distance R c1 c2) := lt_of_le_of_lt hge h
  have hpos : 0 < angle := by
    by_contra hn
    have h0 : angle * distance R c1 c2 ≤ 0 := mul_nonpos_of_nonpos_of_nonneg (not_lt.1 hn) n1
    have h3 := (abs_le.mp (R.err (angle * distance R c1 c2))).2
    rw [abs_of_nonpos h0] at h3
    have h4 : 0 ≤ (1 - R.u) * (r1 + r2) := mul_nonneg hv.le (by linarith)
    nlinarith
  have N : NN R 7 (Geometry.distance c1 c2) (distance R c1 c2) := ⟨d3, n1, n2⟩
  have NA := (((NN.refl (R := R) hpos.le).mul hu.le N).fl hu.le).2.2.2
  rw [Nat.zero_add] at NA
  have hp8 : 0 < (1 - R.u) ^ (7 + 1) := pow_pos hv _
  have s1 : (1 - R.u) ^ 9 * (r1 + r2) ≤ angle * Geometry.distance c1 c2 := by
    have := mul_le_mul_of_nonneg_left hlt.le hp8.le
    refine le_trans (le_of_eq ?_) (this.trans NA)
    ring
  have hpP : 0 < (1 - R.u) ^ (P + 9) := pow_pos hv _
  have s2 : (1 - R.u) ^ (P + 9) * (Geometry.distance c1 x + Geometry.distance c2 y) ≤ (1 - R.u) ^ 9 * (r1 + r2) := by
    have := mul_le_mul_of_nonneg_left (add_le_add h1 h2) (pow_pos hv 9).le
    refine le_trans (le_of_eq ?_) this
    rw [pow_add]; ring
  have s3 : angle * Geometry.distance c1 c2 ≤ (1 - R.u) ^ (P + 9) * (t * Geometry.distance c1 c2) := by
    have hb := bernoulli (R := R) hu.le (P + 9)
    have := mul_le_mul_of_nonneg_right (hat.trans (mul_le_mul_of_nonneg_left hb ht)) d3
    refine this.trans (le_of_eq ?_)
    ring
  exact le_of_mul_le_mul_left (s2.trans (s1.trans s3)) hpP

/-- What a call adds per unit of mass of its source, and its size. -/
noncomputable def unitS (Val : Key → Data d) (gc : ℝ) (e : Key) (x : Key × Key) : ℝ × Point d := shiftS (cen (Val e) - cen (Val x.1)) (gravS gc (cen (Val x.1)) (cen (Val x.2)) 1)

theorem valR_unit (gc : ℝ) (e : Key) (c : Ghosts.Call) : shift (cen (Val e) - cen (Val c.sink)) (valR Val M gc c.sink c.source) = M c.source • unit Val gc e (c.sink, c.source) := by
  rw [valR, grav_smul, shift_smul]; rfl

theorem valS_unit (gc : ℝ) (e : Key) (c : Ghosts.Call) : shiftS (cen (Val e) - cen (Val c.sink)) (valS Val M gc c.sink c.source) = M c.source • unitS Val gc e (c.sink, c.source) := by
  apply Prod.ext
  · simp only [valS, gravS, unitS, shiftS, Prod.smul_fst, smul_eq_mul, mul_add, Finset.mul_sum]
    congr 1
    · ring
    · exact Finset.sum_congr rfl fun i _ => by ring
  · funext i
    simp only [valS, gravS, unitS, shiftS, Prod.smul_snd, Pi.smul_apply, smul_eq_mul]
    ring

theorem norm_euc_mono {a b : Point d} (h : ∀ i, |a i| ≤ b i) : ‖euc a‖ ≤ ‖euc b‖ := by
  rw [EuclideanSpace.norm_eq, EuclideanSpace.norm_eq]
  apply Real.sqrt_le_sqrt
  apply Finset.sum_le_sum
  intro i _
  show ‖a i‖ ^ 2 ≤ ‖b i‖ ^ 2
  rw [Real.norm_eq_abs, Real.norm_eq_abs]
  exact pow_le_pow_left₀ (abs_nonneg _) ((h i).trans (le_abs_self _)) 2

theorem norm_euc_abs (a : Point d) : ‖euc fun i => |a i|‖ = ‖euc a‖ := by
  rw [EuclideanSpace.norm_eq, EuclideanSpace.norm_eq]
  congr 1
  apply Finset.sum_congr rfl
  intro i _
  show ‖|a i|‖ ^ 2 = ‖a i‖ ^ 2
  rw [Real.norm_eq_abs, abs_abs, Real.norm_eq_abs]

/-- The sizes of what acts between two particles. -/
theorem unit_size (gc : ℝ) {t : ℝ} (ht : 0 ≤ t) {x y c1 c2 : Point d} (hxy : x ≠ y) (hc : c1 ≠ c2) (h : Geometry.distance c1 x + Geometry.distance c2 y ≤ t * Geometry.distance c1 c2) :
    ‖euc (shiftS (x - c1) (gravS gc c1 c2 1)).2‖ ≤ |gc| * ((1 + t) ^ 2 / Geometry.distance x y ^ 2) ∧ (shiftS (x - c1) (gravS gc c1 c2 1)).1 ≤ |gc| * ((1 + t) ^ 2 / Geometry.distance x y) := by
  have hδ : 0 < Geometry.distance c1 c2 := lt_of_le_of_ne (distance_nonneg _ _) fun h0 => hc (distance_eq_zero.mp h0.symm)
  have hD : 0 < Geometry.distance x y := lt_of_le_of_ne (distance_nonneg _ _) fun h0 => hxy (distance_eq_zero.mp h0.symm)
  have d1 := distance_nonneg c1 x
  have d2 := distance_nonneg c2 y
  have htri : Geometry.distance x y ≤ (1 + t) * Geometry.distance c1 c2 := by
    have e1 : Geometry.distance x y ≤ Geometry.distance c1 x + Geometry.distance c1 c2 + Geometry.distance c2 y := by
      rw [distance_euc, distance_euc, distance_euc, distance_euc, dist_comm (euc c1) (euc x)]
      exact dist_triangle4 _ _ _ _
    linarith
  obtain ⟨δ, hδd⟩ : ∃ δ, δ = Geometry.distance c1 c2 := ⟨_, rfl⟩
  obtain ⟨L, hLd⟩ : ∃ L, L = Geometry.distance x y := ⟨_, rfl⟩
  have hinv : 1 / δ ≤ (1 + t) / L := by
    rw [hδd, hLd, div_le_div_iff₀ hδ hD]
    linarith
  have hi0 : 0 ≤ 1 / δ := by rw [hδd]; positivity
  constructor
  · have e1 : euc (shiftS (x - c1) (gravS gc c1 c2 1)).2 = (|gc| / δ ^ 3) • euc (fun i => |(c1 - c2) i|) := by
      rw [hδd]
      ext i
      show |gc| * 1 * |c1 i - c2 i| / _ = (|gc| / _) * |c1 i - c2 i|
      ring
    rw [e1, norm_smul, norm_euc_abs, Fmm.euc_sub, norm_euc_sub, ← hδd, Real.norm_eq_abs, abs_of_nonneg (by rw [hδd]; positivity)]
    have e2 : |gc| / δ ^ 3 * δ = |gc| * (1 / δ) ^ 2 := by
      have : δ ≠ 0 := by rw [hδd]; exact hδ.ne'
      field_simp
    rw [e2]
    refine mul_le_mul_of_nonneg_left ?_ (abs_nonneg gc)
    rw [← hLd, ← div_pow]
    exact pow_le_pow_left₀ hi0 hinv 2
  · have hcs : ∑ i, |(x - c1) i| * |c1 i - c2 i| ≤ t * δ ^ 2 := by
      have c := Real.sum_mul_le_sqrt_mul_sqrt Finset.univ (fun i => |(x - c1) i|) (fun i => |c1 i - c2 i|)
      have f1 : √(∑ i, |(x - c1) i| ^ 2) = Geometry.distance c1 x := by
        rw [distance_comm, ← norm_euc_sub, ← Fmm.euc_sub, EuclideanSpace.norm_eq]; rfl
      have f2 : √(∑ i, |c1 i - c2 i| ^ 2) = δ := by
        rw [hδd, ← norm_euc_sub, ← Fmm.euc_sub, EuclideanSpace.norm_eq]; rfl
      rw [f1, f2] at c
      refine c.trans ?_
      have : Geometry.distance c1 x ≤ t * δ := by rw [hδd]; linarith
      have h0 : 0 ≤ δ := by rw [hδd]; exact hδ.le
      nlinarith
    have e1 : (shiftS (x - c1) (gravS gc c1 c2 1)).1 = |gc| * (1 / δ) + |gc| / δ ^ 3 * ∑ i, |(x - c1) i| * |c1 i - c2 i| := by
      simp only [shiftS, gravS, ← hδd]
      rw [Finset.mul_sum]
      congr 1
      · ring
      · exact Finset.sum_congr rfl fun i _ => by ring
    rw [e1]
    have e2 : |gc| / δ ^ 3 * ∑ i, |(x - c1) i| * |c1 i - c2 i| ≤ |gc| / δ ^ 3 * (t * δ ^ 2) := mul_le_mul_of_nonneg_left hcs (by rw [hδd]; positivity)
    have e3 : |gc| / δ ^ 3 * (t * δ ^ 2) = |gc| * (t * (1 / δ)) := by
      have : δ ≠ 0 := by rw [hδd]; exact hδ.ne'
      field_simp
    rw [e3] at e2
    have e4 : |gc| * ((1 + t) * (1 / δ)) ≤ |gc| * ((1 + t) ^ 2 / L) := by
      refine mul_le_mul_of_nonneg_left ?_ (abs_nonneg gc)
      have := mul_le_mul_of_nonneg_left hinv (show 0 ≤ 1 + t by linarith)
      refine this.trans (le_of_eq ?_)
      ring
    rw [← hLd]
    linarith

/-- What acts between two leaves: its distance from Newton's law and its size. -/
theorem acts_bound (h : GeoR R nch G cells Val M E P) (hd : d ≤ 3) (hu : R.u < 1) (gc angle : ℝ) {e f : Key} (he : e ∈ leaves G cells) (hf : f ∈ leaves G cells) (hef : e ≠ f)
    {bigger : Key → Key → Bool} {x : Key × Key} (hx : Acts G (macOf R Val angle) bigger e f x) (hc : x.1 ∈ cells ∧ x.2 ∈ cells) {t : ℝ} (ht : 0 ≤ t) (hat : angle ≤ t * (1 - (P + 9 : ℕ) * R.u)) :
    (‖euc (unit Val gc e x).2 - euc (grav gc (cen (Val e)) (cen (Val f)) 1).2‖ ≤ |gc| * ((4 * t + 5 * t ^ 2 + 2 * t ^ 3) / Geometry.distance (cen (Val e)) (cen (Val f)) ^ 2) ∧
    |(unit Val gc e x).1 - (grav gc (cen (Val e)) (cen (Val f)) 1).1| ≤ |gc| * ((2 * t + t ^ 2) / Geometry.distance (cen (Val e)) (cen (Val f)))) ∧
    ‖euc (unitS Val gc e x).2‖ ≤ |gc| * ((1 + t) ^ 2 / Geometry.distance (cen (Val e)) (cen (Val f)) ^ 2) ∧
    (unitS Val gc e x).1 ≤ |gc| * ((1 + t) ^ 2 / Geometry.distance (cen (Val e)) (cen (Val f))) := by
  have hne := h.apart e he f hf hef
  obtain ⟨x1, x2⟩ := x
  obtain ⟨-, hfin, hs1, hs2⟩ := hx
  simp only at hs1 hs2 hc
  obtain ⟨ge, hge, hee⟩ := (mem_leaves h.tree).1 he
  obtain ⟨gf, hgf, hfe⟩ := (mem_leaves h.tree).1 hf
  obtain ⟨c1, c2⟩ : cen (Val x1) ≠ cen (Val x2) ∧ Geometry.distance (cen (Val x1)) (cen (Val e)) + Geometry.distance (cen (Val x2)) (cen (Val f)) ≤ t * Geometry.distance (cen (Val x1)) (cen (Val x2)) := by
    rcases hfin with ⟨⟨a, ha1, ha2⟩, ⟨b, hb1, hb2⟩⟩ | ⟨-, hm⟩
    · obtain rfl := leaf_suffix h.tree ha1 ha2 hs1 (by rw [hge]; rfl)
      obtain rfl := leaf_suffix h.tree hb1 hb2 hs2 (by rw [hgf]; rfl)
      refine ⟨hne, ?_⟩
      rw [distance_eq_zero.2 rfl, distance_eq_zero.2 rfl, add_zero]
      exact mul_nonneg ht (distance_nonneg _ _)
    · have hm := (h.macOf_iff hc.1 hc.2).1 hm
      exact ⟨mac_ne hd hu (h.rad_nonneg hc.1) (h.rad_nonneg hc.2) hm, mac_bound hd hu (h.inside x1 e hc.1 he hs1) (h.inside x2 f hc.2 hf hs2) ht hat hm⟩
  exact ⟨expand_err gc ht hne c1 c2, unit_size gc ht hne c1 c2⟩

end FleCSPH.Rounded
