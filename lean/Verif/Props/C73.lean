import Verif.Spec.InitialData
import Verif.Props.C43
import Mathlib.Tactic.Ring
import Mathlib.Tactic.Linarith
import Mathlib.Tactic.NormNum
import Mathlib.Tactic.FieldSimp
import Mathlib.MeasureTheory.Integral.IntervalIntegral.IntegrationByParts
/-! C73: initial data of single regions carries the mass and the energy the user asks for. -/
namespace FleCSPH.IdGen
open FleCSPH.Geometry FleCSPH.Kernels FleCSPH.DensityProfiles FleCSPH.Spec

variable {d : Nat}

/-- Site of a new lattice: only the position matters. -/
def site (x : Point d) : Out d := ⟨x, 0, 0, 0, 0, 0, 0, 0⟩

private theorem sum_const {β : Type} (l : List β) (f : β → ℝ) (c : ℝ) (h : ∀ b ∈ l, f b = c) : (l.map f).sum = l.length * c := by
  induction l with
  | nil => simp
  | cons b l ih =>
    rw [List.map_cons, List.sum_cons, ih fun x hx => h x (List.mem_cons_of_mem _ hx), h b List.mem_cons_self, List.length_cons]
    push_cast; ring

private theorem sedov_mass (z : Params) (prof : ℝ → ℝ) (mp E rb : ℝ) (shift : Nat → Point d) (bodies : List (Out d)) :
    ∀ b ∈ sedov z false prof mp E rb shift bodies, b.mass = mp := by
  intro b hb
  obtain ⟨a, ha, e⟩ := List.mem_mapIdx.mp hb
  rw [← e]; rfl

private theorem boxVolume_eq (edges : Fin d → ℝ) (h : ∀ i, 0 ≤ edges i) : boxVolume edges = ∏ i, edges i := by
  rw [boxVolume, Real.volume_Icc_pi_toReal (fun i => by have := h i; linarith)]
  exact Finset.prod_congr rfl fun i _ => by ring

private theorem ballVolume_two (R : ℝ) (h : 0 ≤ R) : ballVolume 2 R = Real.pi * R ^ 2 := by
  rw [ballVolume, EuclideanSpace.volume_ball_fin_two, ENNReal.toReal_mul, ENNReal.toReal_pow, ENNReal.toReal_ofReal h, ENNReal.toReal_ofReal Real.pi_pos.le, mul_comm]

private theorem ballVolume_three (R : ℝ) (h : 0 ≤ R) : ballVolume 3 R = Real.pi * 4 / 3 * R ^ 3 := by
  rw [ballVolume, EuclideanSpace.volume_ball_fin_three, ENNReal.toReal_mul, ENNReal.toReal_pow, ENNReal.toReal_ofReal h, ENNReal.toReal_ofReal (by have := Real.pi_pos; positivity), mul_comm]

/-- The region of `domain_type`: box or ball. -/
noncomputable def region (z : Params) (d : Nat) : ℝ := if z.domain = 0 then boxVolume (fun i : Fin d => ![z.L, z.W, z.H] (Fin.ofNat 3 i)) else ballVolume d z.R

private theorem total_eq (z : Params) (hz : 0 ≤ z.L ∧ 0 ≤ z.W ∧ 0 ≤ z.H ∧ 0 ≤ z.R) (hd : d = 1 ∧ z.domain = 0 ∨ (d = 2 ∨ d = 3) ∧ (z.domain = 0 ∨ z.domain = 1)) (i : Fin 3) (hi : (i : Nat) + 1 = d) :
    totalMass z (rhoConstant i) true d = some (z.rho * region z d) ∧ (d ≠ 1 → totalMassPlain z d = some (z.rho * region z d)) := by
  obtain ⟨h1, h2, h3, h4⟩ := hz
  have hpi := Real.pi_ne_zero
  have hb : ∀ i : Fin d, 0 ≤ ![z.L, z.W, z.H] (Fin.ofNat 3 i) := fun i => by
    generalize Fin.ofNat 3 (i : Nat) = j
    revert j; intro j
    have : j = 0 ∨ j = 1 ∨ j = 2 := by revert j; decide
    rcases this with rfl | rfl | rfl <;> simpa
  rcases hd with ⟨rfl, hdom⟩ | ⟨rfl | rfl, hdom | hdom⟩
  · refine ⟨?_, fun h => absurd rfl h⟩
    rw [region, if_pos hdom, boxVolume_eq _ hb, totalMass, if_pos rfl]; simp
  · have e : z.rho * region z 2 = z.rho * z.L * z.W := by rw [region, if_pos hdom, boxVolume_eq _ hb]; simp [Fin.prod_univ_succ, mul_assoc]
    rw [e, totalMass, totalMassPlain]; simp [hdom]
  · have e : z.rho * region z 2 = z.rho * Real.pi * (z.R * z.R) := by rw [region, if_neg (by omega), ballVolume_two _ h4]; ring
    rw [e, totalMass, totalMassPlain]; simp [hdom]
  · have e : z.rho * region z 3 = z.rho * z.L * z.W * z.H := by rw [region, if_pos hdom, boxVolume_eq _ hb]; simp [Fin.prod_univ_succ, mul_assoc]
    rw [e, totalMass, totalMassPlain]; simp [hdom]
  · have e : z.rho * region z 3 = z.rho * 4 / 3 * Real.pi * (z.R * z.R * z.R) := by rw [region, if_neg (by omega), ballVolume_three _ h4]; ring
    obtain rfl : i = 2 := Fin.ext (by omega)
    rw [e, totalMass, totalMassPlain]; simp [hdom, rhoConstant]; field_simp

/-- C73, mass of the blast wave: with the constant profile the masses of all particles sum up to density times content of the region, for boxes in all dimensions and balls in two and three, whatever the
lattice and its perturbation. -/
theorem C73_mass_partial (z : Params) (hz : 0 ≤ z.L ∧ 0 ≤ z.W ∧ 0 ≤ z.H ∧ 0 ≤ z.R) (hd : d = 1 ∧ z.domain = 0 ∨ (d = 2 ∨ d = 3) ∧ (z.domain = 0 ∨ z.domain = 1)) (i : Fin 3) (hi : (i : Nat) + 1 = d)
    (E rb v : ℝ) (shift : Nat → Point d) (xs : List (Point d)) (hne : xs ≠ []) :
    ∃ M, totalMass z (rhoConstant i) true d = some M ∧
      ((sedov z false (rhoConstant i) (M / xs.length) E rb shift (xs.map site)).map Out.mass).sum = z.rho * region z d ∧
      ((xs.mapIdx fun a x => nohBody z (rhoConstant i) (M / xs.length) v (shift a) a x).map Out.mass).sum = z.rho * region z d ∧
      (d ≠ 1 → totalMassPlain z d = some M ∧
        ((xs.mapIdx fun a x => collapseBody z (M / xs.length) a x).map Out.mass).sum = z.rho * region z d ∧
        ((xs.mapIdx fun a x => implosionBody z (M / xs.length) a x).map Out.mass).sum = z.rho * region z d) := by
  obtain ⟨h1, h2⟩ := total_eq z hz hd i hi
  have hn : (xs.length : ℝ) ≠ 0 := Nat.cast_ne_zero.mpr (List.length_pos_iff.mpr hne).ne'
  refine ⟨_, h1, ?_, ?_, fun h => ⟨h2 h, ?_, ?_⟩⟩
  · rw [sum_const _ _ _ (sedov_mass z _ _ E rb shift _)]
    rw [sedov, List.length_mapIdx, List.length_map]; field_simp
  all_goals
    rw [sum_const _ _ (z.rho * region z d / xs.length)]
    · rw [List.length_mapIdx]; field_simp
    · intro b hb
      obtain ⟨a, ha, e⟩ := List.mem_mapIdx.mp hb
      rw [← e]
      first | rfl | (unfold implosionBody; dsimp only; split_ifs <;> rfl)

/-- C73 fails for the mass in one dimension with the domain `[-R, R]`: the length of the box is used instead. -/
theorem C73_interval_violated : ∃ z : Params, z.domain = 1 ∧ ∃ M, totalMass z (rhoConstant 0) true 1 = some M ∧ M ≠ z.rho * ballVolume 1 z.R := by
  refine ⟨⟨5 / 3, 1, 1, 1, 1, 1, 3, 1, 1, 1⟩, rfl, _, rfl, ?_⟩
  have : ballVolume 1 1 = 2 := by
    rw [ballVolume, EuclideanSpace.volume_ball]
    have h : Real.Gamma ((1 : ℝ) / 2 + 1) = √Real.pi / 2 := by
      rw [Real.Gamma_add_one (by norm_num), Real.Gamma_one_half_eq]; ring
    simp only [Fintype.card_fin, pow_one, Nat.cast_one, h]
    have hp : √Real.pi ≠ 0 := (Real.sqrt_pos.mpr Real.pi_pos).ne'
    rw [show √Real.pi / (√Real.pi / 2) = 2 by field_simp]
    simp
  show (1 : ℝ) * 3 ≠ 1 * ballVolume 1 1
  rw [this]; norm_num

/-- The density the blast wave and Noh generators intend at radius `r`. -/
noncomputable def intended (z : Params) (prof : ℝ → ℝ) (r : ℝ) : ℝ := z.rho / prof 0 * prof (r / z.R)

private theorem scaled (z : Params) (prof : ℝ → ℝ) (hR : z.R ≠ 0) (h : MassWithin 2 prof 1 1) : MassWithin 2 (intended z prof) z.R (z.rho * (z.R * z.R * z.R) / prof 0) := by
  unfold MassWithin at h ⊢
  have e : ∀ s, shell 2 s * intended z prof s = z.R ^ 2 * (z.rho / prof 0) * (shell 2 (s / z.R) * prof (s / z.R)) := fun s => by
    simp only [shell, intended, Matrix.cons_val]
    field_simp
  simp only [e]
  rw [intervalIntegral.integral_const_mul, intervalIntegral.integral_comp_div (fun t => shell 2 t * prof t) hR, zero_div, div_self hR, ← h, smul_eq_mul]
  ring

/-- C73, mass of a sphere with a profile: the masses sum up to the integral of the density over the sphere, for the constant and the parabolic profile. -/
theorem C73_profile (z : Params) (hR : z.R ≠ 0) (hdom : z.domain = 1) (prof : ℝ → ℝ) (hp : prof = rhoConstant 2 ∨ prof = rhoParabolic 2) (c : Bool) (E rb : ℝ) (shift : Nat → Point 3) (xs : List (Point 3))
    (hne : xs ≠ []) : ∃ M, totalMass z prof c 3 = some M ∧
      MassWithin 2 (intended z prof) z.R ((sedov z false prof (M / xs.length) E rb shift (xs.map site)).map Out.mass).sum := by
  refine ⟨z.rho * (z.R * z.R * z.R) / prof 0, by simp [totalMass, hdom], ?_⟩
  have hn : (xs.length : ℝ) ≠ 0 := Nat.cast_ne_zero.mpr (List.length_pos_iff.mpr hne).ne'
  rw [sum_const _ _ _ (sedov_mass z _ _ E rb shift _), sedov, List.length_mapIdx, List.length_map, mul_div_cancel₀ _ hn]
  refine scaled z prof hR ?_
  rcases hp with rfl | rfl
  · have := C43_constant 2 1; rw [this.2.1] at this; exact this.1
  · have := C43_parabolic 2 1; rw [this.2.1] at this; exact this.1

/-- C73 fails for the circle with the parabolic profile: the mass is that of a constant density, twice the integral of the density the particles are given. -/
theorem C73_profile_violated : ∃ z : Params, z.domain = 1 ∧ ∃ M m, totalMass z (rhoParabolic 1) false 2 = some M ∧ MassWithin 1 (intended z (rhoParabolic 1)) z.R m ∧ M = 2 * m ∧ 0 < m := by
  have hpi := Real.pi_pos
  refine ⟨⟨5 / 3, 1, 1, 1, 1, 1, 1, 1, 1, 1⟩, rfl, Real.pi, Real.pi / 2, by simp [totalMass], ?_, by ring, by positivity⟩
  have h := (C43_parabolic 1 1).1
  rw [(C43_parabolic 1 1).2.1] at h
  unfold MassWithin at h ⊢
  have e : ∀ s, shell 1 s * intended ⟨5 / 3, 1, 1, 1, 1, 1, 1, 1, 1, 1⟩ (rhoParabolic 1) s = Real.pi / 2 * (shell 1 s * rhoParabolic 1 s) := fun s => by
    simp [intended, rhoParabolic]; field_simp
  simp only [e, intervalIntegral.integral_const_mul, ← h, mul_one]

private theorem massBlast_eq (rb mp : ℝ) (bodies : List (Out d)) : massBlast rb mp bodies = (bodies.map fun b => if magnitude b.pos < rb then mp else 0).sum := by
  rw [massBlast]
  suffices ∀ s, bodies.foldl (fun s b => if magnitude b.pos < rb then s + mp else s) s = s + (bodies.map fun b => if magnitude b.pos < rb then mp else 0).sum by rw [this, zero_add]
  induction bodies with
  | nil => simp
  | cons b l ih => intro s; rw [List.foldl_cons, ih, List.map_cons, List.sum_cons]; split_ifs <;> ring

private theorem massBlast_pos (rb mp : ℝ) (hm : 0 < mp) (bodies : List (Out d)) (h : ∃ b ∈ bodies, magnitude b.pos < rb) : 0 < massBlast rb mp bodies := by
  rw [massBlast_eq]
  obtain ⟨b, hb, hr⟩ := h
  have h0 : ∀ x ∈ bodies.map fun b => if magnitude b.pos < rb then mp else 0, (0 : ℝ) ≤ x := by
    intro x hx
    obtain ⟨b, -, rfl⟩ := List.mem_map.mp hx
    split_ifs <;> linarith
  have := List.single_le_sum h0 mp (List.mem_map.mpr ⟨b, hb, if_pos hr⟩)
  linarith

private theorem sum_mapIdx {β γ : Type} (l : List β) (f : Nat → β → γ) (k : γ → ℝ) (g : β → ℝ) (h : ∀ a b, k (f a b) = g b) : ((l.mapIdx f).map k).sum = (l.map g).sum := by
  have : (l.mapIdx f).map k = l.map g := by
    apply List.ext_getElem (by simp)
    intro n h1 h2
    simp [h]
  rw [this]

/-- C73, energy of the blast: compared with the same initial data without a blast, exactly the requested energy is added, all of it inside of the blast radius and the same amount per mass; everything else is
the same. New initial data, at least one particle inside of the radius. -/
theorem C73_energy_partial (z : Params) (prof : ℝ → ℝ) (mp E rb : ℝ) (hm : 0 < mp) (shift : Nat → Point d) (bodies : List (Out d)) (h : ∃ b ∈ bodies, magnitude b.pos < rb) :
    ((sedov z false prof mp E rb shift bodies).map fun b => b.mass * b.u).sum = ((sedov z false prof mp 0 rb shift bodies).map fun b => b.mass * b.u).sum + E ∧
    ∃ w, ∀ (a : Nat) (b : Out d), bodies[a]? = some b → ∃ q q0 : Out d, (sedov z false prof mp E rb shift bodies)[a]? = some q ∧ (sedov z false prof mp 0 rb shift bodies)[a]? = some q0 ∧
      q.u = q0.u + (if magnitude b.pos < rb then w else 0) ∧ q.pos = q0.pos ∧ q.vel = 0 ∧ q.mass = q0.mass ∧ q.rho = q0.rho ∧ q.h = q0.h ∧ q.id = a ∧ IdealGas z.gamma q.rho q.u q.P := by
  have hb := massBlast_pos rb mp hm bodies h
  constructor
  · simp only [sedov]
    rw [sum_mapIdx bodies _ _ (fun b => mp * (sedovBody z false prof mp 0 rb (massBlast rb mp bodies) 0 0 b).u + E / massBlast rb mp bodies * (if magnitude b.pos < rb then mp else 0)),
      sum_mapIdx bodies _ _ (fun b => mp * (sedovBody z false prof mp 0 rb (massBlast rb mp bodies) 0 0 b).u), List.sum_map_add, List.sum_map_mul_left _ _ (E / _), ← massBlast_eq]
    · field_simp
    · intro a b; rfl
    · intro a b
      simp only [sedovBody, Bool.false_eq_true, if_false]
      by_cases hr : magnitude b.pos < rb
      · simp only [if_pos hr]; ring
      · simp only [if_neg hr]; ring
  · refine ⟨E / massBlast rb mp bodies, fun a b hab => ⟨sedovBody z false prof mp E rb (massBlast rb mp bodies) (shift a) a b, sedovBody z false prof mp 0 rb (massBlast rb mp bodies) (shift a) a b,
      by rw [sedov, List.getElem?_mapIdx, hab]; rfl, by rw [sedov, List.getElem?_mapIdx, hab]; rfl, ?_, rfl, rfl, rfl, rfl, rfl, rfl, ?_⟩⟩
    · simp only [sedovBody]; split_ifs <;> simp
    · simp only [sedovBody, IdealGas]; ring

/-- Without a blast the particles have the pressure asked for, where the profile is at its central value. -/
theorem C73_pressure (z : Params) (prof : ℝ → ℝ) (mp rb : ℝ) (hg : z.gamma ≠ 1) (hr : 0 < z.rho) (shift : Point d) (a : Nat) (b : Out d) (h0 : prof 0 ≠ 0) (hc : prof (magnitude b.pos / z.R) = prof 0) (mb : ℝ) :
    (sedovBody z false prof mp 0 rb mb shift a b).P = z.P ∧ (sedovBody z false prof mp 0 rb mb shift a b).rho = z.rho := by
  have hg' : z.gamma - 1 ≠ 0 := sub_ne_zero.mpr hg
  have e : z.rho / prof 0 * prof (magnitude b.pos / z.R) = z.rho := by rw [hc]; field_simp
  refine ⟨?_, e⟩
  simp only [sedovBody, Bool.false_eq_true, if_false, e, zero_div, add_zero, ite_self]
  rw [Real.rpow_sub_one hr.ne']
  have : z.rho ^ z.gamma ≠ 0 := (Real.rpow_pos_of_pos hr _).ne'
  field_simp

/-- C73 fails if no particle lies inside of the blast radius: no energy is added and nothing is reported. -/
theorem C73_empty_violated (z : Params) (prof : ℝ → ℝ) (mp E rb : ℝ) (shift : Nat → Point d) (bodies : List (Out d)) (h : ∀ b ∈ bodies, rb ≤ magnitude b.pos) :
    sedov z false prof mp E rb shift bodies = sedov z false prof mp 0 rb shift bodies := by
  rw [sedov, sedov]
  apply List.ext_getElem (by simp)
  intro n h1 h2
  have hn : n < bodies.length := by simpa using h1
  have := h _ (List.getElem_mem hn)
  simp [sedovBody, not_lt.mpr this]

/-- C73 fails for modified initial data: the energy is divided by the mass new particles would have. One particle of mass 2 at the centre, new particles of mass 1: twice the energy is deposited. -/
theorem C73_modify_violated : ∃ (z : Params) (b : Out 1), ((sedov z true (fun _ => 1) 1 5 1 (fun _ => 0) [b]).map fun b => b.mass * b.u).sum = ((sedov z true (fun _ => 1) 1 0 1 (fun _ => 0) [b]).map fun b => b.mass * b.u).sum + 2 * 5 := by
  refine ⟨⟨2, 1, 1, 1, 1, 1, 1, 1, 1, 0⟩, ⟨0, 0, 2, 1, 0, 0, 1, 0⟩, ?_⟩
  have hz : magnitude (0 : Point 1) = 0 := by simp [magnitude]
  simp [sedov, sedovBody, massBlast, hz]
  ring

/-- C73, Noh: every particle not at the centre moves straight to the centre with the given speed; the one at the centre rests. Without lattice perturbation. -/
theorem C73_noh_partial (z : Params) (prof : ℝ → ℝ) (mp v : ℝ) (hv : 0 ≤ v) (a : Nat) (x : Point d) :
    (magnitude x = 0 → (nohBody z prof mp v 0 a x).vel = 0) ∧
    (0 < magnitude x → magnitude (nohBody z prof mp v 0 a x).vel = v ∧ (nohBody z prof mp v 0 a x).vel = -(v / magnitude x) • (nohBody z prof mp v 0 a x).pos) := by
  refine ⟨fun h => by simp [nohBody, h], fun h => ?_⟩
  have e : (nohBody z prof mp v 0 a x).vel = -(v / magnitude x) • (nohBody z prof mp v 0 a x).pos := by
    funext j
    simp only [nohBody, add_zero, gt_iff_lt, if_pos h, Pi.smul_apply, smul_eq_mul]
    ring
  refine ⟨?_, e⟩
  rw [e]
  simp only [nohBody, add_zero]
  have e2 : ∑ i, (-(v / magnitude x) • x) i * (-(v / magnitude x) • x) i = (v / magnitude x) ^ 2 * ∑ i, x i * x i := by
    rw [Finset.mul_sum]; exact Finset.sum_congr rfl fun i _ => by simp only [Pi.smul_apply, smul_eq_mul]; ring
  rw [magnitude, e2, Real.sqrt_mul (sq_nonneg _), Real.sqrt_sq (by positivity)]
  exact div_mul_cancel₀ v h.ne'

/-- C73 fails for the Noh problem with a perturbed lattice: the speed is scaled with the perturbed distance. -/
theorem C73_noh_violated : ∃ (z : Params) (shift x : Point 1), 0 < magnitude x ∧ magnitude (nohBody z (fun _ => 1) 1 1 shift 0 x).vel = 2 := by
  refine ⟨⟨2, 1, 1, 1, 1, 1, 1, 1, 1, 0⟩, fun _ => 1, fun _ => 1, ?_, ?_⟩ <;> simp [magnitude, nohBody]
  norm_num
  rw [show (4 : ℝ) = 2 ^ 2 by norm_num, Real.sqrt_sq (by norm_num)]

/-- C73, collapse and implosion inside of 0.8 of the radius: all particles have the given density and pressure, and the energy of the ideal gas. -/
theorem C73_uniform (z : Params) (hg : z.gamma ≠ 1) (hr : z.rho ≠ 0) (mp : ℝ) (a : Nat) (x : Point d) (b : Out d) (hb : b = collapseBody z mp a x ∨ magnitude x < 8 / 10 * z.R ∧ b = implosionBody z mp a x) :
    b.rho = z.rho ∧ b.P = z.P ∧ IdealGas z.gamma b.rho b.u b.P ∧ b.vel = 0 ∧ b.id = a := by
  have hg' : z.gamma - 1 ≠ 0 := sub_ne_zero.mpr hg
  have : b = collapseBody z mp a x := by
    rcases hb with h | ⟨h, h'⟩
    · exact h
    · rw [h', implosionBody]; exact if_neg (by linarith)
  rw [this]
  refine ⟨rfl, rfl, ?_, rfl, rfl⟩
  simp only [collapseBody, IdealGas]; field_simp

/-- C73, implosion: in a sphere of radius 1 the energy rises linearly from 1 at 0.8 to 10000 at the surface, with the pressure of the ideal gas. -/
theorem C73_implosion_partial (z : Params) (hR : z.R = 1) (mp : ℝ) (a : Nat) (x : Point d) (h : 8 / 10 ≤ magnitude x) :
    (implosionBody z mp a x).u = 1 + (10000 - 1) * ((magnitude x - 8 / 10) / (1 - 8 / 10)) ∧ IdealGas z.gamma (implosionBody z mp a x).rho (implosionBody z mp a x).u (implosionBody z mp a x).P := by
  have : magnitude x ≥ 8 / 10 * z.R := by rw [hR]; linarith
  have e : implosionBody z mp a x = { collapseBody z mp a x with
      u := magnitude x * ((10000 - 1) / (1 * z.R - 8 / 10 * z.R)) + (1 * z.R - (10000 - 1) / (1 * z.R - 8 / 10 * z.R) * (8 / 10) * z.R),
      P := (z.gamma - 1) * (collapseBody z mp a x).rho * (magnitude x * ((10000 - 1) / (1 * z.R - 8 / 10 * z.R)) + (1 * z.R - (10000 - 1) / (1 * z.R - 8 / 10 * z.R) * (8 / 10) * z.R)) } := if_pos this
  rw [e]
  refine ⟨?_, rfl⟩
  simp only [hR]
  ring

/-- C73 fails for the implosion in a sphere of another radius: at 0.8 of the radius the energy is the radius instead of 1. -/
theorem C73_implosion_violated (z : Params) (hR : 0 < z.R) (mp : ℝ) (a : Nat) (x : Point d) (h : magnitude x = 8 / 10 * z.R) : (implosionBody z mp a x).u = z.R := by
  simp only [implosionBody, h, ge_iff_le, le_refl, if_true]
  ring

/-- C73 fails for the wind tunnel: the number of particles written is not the number of lattice sites. A square of 2 × 2: one site, four particles are written from arrays with one entry. -/
theorem C73_wtunnel_violated : ∃ z : Params, 0 < z.L ∧ 0 < z.W ∧ ∀ pos, ∃ fuel0, ∀ fuel ≥ fuel0, wtunnel z fuel 2 0 pos = none := by
  refine ⟨⟨2, 1, 1, 1, 1, 1, 1, 1, 1, 0⟩, one_pos, one_pos, fun pos => ⟨2, fun fuel hf => ?_⟩⟩
  obtain ⟨k, rfl⟩ := Nat.exists_eq_add_of_le' hf
  simp only [wtunnel, Lattice.generate2, Lattice.loop, Lattice.visit, Lattice.inDomain2, Lattice.bTol]
  norm_num [Lattice.loop]

/-- C73 fails for the wind tunnel also if there are enough sites: the total mass is the density, not density times content. -/
theorem C73_tunnel_mass_violated : ∃ z : Params, z.rho = 1 ∧ z.L * z.W = 4 ∧ ∀ fuel nx lattice pos l, wtunnel z fuel nx lattice pos = some l → l.sum ≤ 1 := by
  refine ⟨⟨2, 1, 1, 1, 1, 1, 2, 2, 1, 0⟩, rfl, by norm_num, fun fuel nx lattice pos l h => ?_⟩
  simp only [wtunnel, Option.bind_eq_bind, Option.bind_eq_some_iff] at h
  obtain ⟨s, -, h⟩ := h
  split_ifs at h with hn
  rw [← Option.some.inj h, List.sum_replicate, nsmul_eq_mul]
  rcases Nat.eq_zero_or_pos s.posid with h0 | h0
  · rw [h0]; simp
  · rw [mul_one_div, div_le_one (by exact_mod_cast h0)]
    exact_mod_cast hn

/-- Two sites on a line, the first one in the blast zone. -/
example : ∃ b ∈ ([site (fun _ => 0), site (fun _ => 1)] : List (Out 1)), magnitude b.pos < 1 / 2 := ⟨_, List.mem_cons_self, by simp [site, magnitude]⟩
example : (0 : ℝ) < magnitude (fun _ : Fin 2 => (1 : ℝ)) := by simp [magnitude]
example : rhoParabolic 2 0 ≠ 0 := by have := Real.pi_ne_zero; simp [rhoParabolic]

end FleCSPH.IdGen
