import Mathlib.Tactic.Linarith
import Mathlib.Tactic.FieldSimp
import Mathlib.Tactic.Ring
import Mathlib.Tactic.Positivity
import Mathlib.Tactic.NormNum
import Mathlib.Analysis.Real.Pi.Bounds
import Mathlib.Analysis.SpecialFunctions.Complex.Arg
import Verif.Model.UniformSphere
/-!
C109: initial data of a sphere of gas for tests of the conservation of momentum.
-/
namespace FleCSPH.UniformSphere

/-- The random numbers are within their ranges. -/
def Draw.Ok (d : Draw) : Prop := 0 ≤ d.a ∧ d.a ≤ 1 ∧ 0 ≤ d.b ∧ d.b ≤ 1 ∧ 0 ≤ d.c ∧ d.c ≤ 1

theorem cube_root {t : ℝ} (ht : 0 ≤ t) : (t ^ (1 / 3 : ℝ)) ^ 3 = t := by
  rw [← Real.rpow_natCast, ← Real.rpow_mul ht]; norm_num

theorem radius_nonneg {d : Draw} (h : d.Ok) : 0 ≤ radius d := by
  have := Real.pi_pos
  have := h.1
  exact Real.rpow_nonneg (by positivity) _

/-- **C109**: the radii are uniform in volume: the volume within the radius of a particle is its random number, a part of the whole volume, 1. -/
theorem C109_uniform (d : Draw) (h : d.Ok) : volume (radius d) = d.a := by
  have hp := Real.pi_pos
  have ha := h.1
  unfold volume radius
  rw [cube_root (by positivity)]
  field_simp

/-- **C109**: the directions are uniform: the height of a particle over the equator, in units of its radius, runs evenly from −1 to 1 with its random number. -/
theorem C109_direction (n : ℕ) (v : ℝ) (d : Draw) (h : d.Ok) : (computed n v d).z = radius d * (2 * d.b - 1) := by
  obtain ⟨-, -, h1, h2, -⟩ := h
  show radius d * Real.cos (Real.arccos (2 * d.b - 1)) = _
  rw [Real.cos_arccos (by linarith) (by linarith)]

/-- **C109**: the computed particle is at its radius, and moves along it with the given speed. -/
theorem C109_radial (n : ℕ) (v : ℝ) (d : Draw) :
    (computed n v d).x ^ 2 + (computed n v d).y ^ 2 + (computed n v d).z ^ 2 = radius d ^ 2 ∧
    radius d * (computed n v d).vx = v * (computed n v d).x ∧ radius d * (computed n v d).vy = v * (computed n v d).y ∧ radius d * (computed n v d).vz = v * (computed n v d).z ∧
    (computed n v d).vx ^ 2 + (computed n v d).vy ^ 2 + (computed n v d).vz ^ 2 = v ^ 2 := by
  have h1 := Real.cos_sq_add_sin_sq (theta d)
  have h2 := Real.cos_sq_add_sin_sq (phi d)
  refine ⟨?_, ?_, ?_, ?_, ?_⟩ <;> simp only [computed]
  · linear_combination radius d ^ 2 * Real.sin (theta d) ^ 2 * h2 + radius d ^ 2 * h1
  · ring
  · ring
  · ring
  · linear_combination v ^ 2 * Real.sin (theta d) ^ 2 * h2 + v ^ 2 * h1

/-- **C109**: every point of the ball of volume 1 is the place of a particle for some random numbers, which are the share of the volume within its radius, the share of the heights below it, and the share of the circle before it. -/
theorem C109_fills (n : ℕ) (v : ℝ) (x y z : ℝ) (h : volume (Real.sqrt (x ^ 2 + y ^ 2 + z ^ 2)) ≤ 1) :
    ∃ d : Draw, d.Ok ∧ (computed n v d).x = x ∧ (computed n v d).y = y ∧ (computed n v d).z = z := by
  have hp := Real.pi_pos
  have hs0 : 0 ≤ x ^ 2 + y ^ 2 + z ^ 2 := by positivity
  have hr0 := Real.sqrt_nonneg (x ^ 2 + y ^ 2 + z ^ 2)
  have hr2 := Real.sq_sqrt hs0
  generalize Real.sqrt (x ^ 2 + y ^ 2 + z ^ 2) = r at h hr0 hr2
  have hv0 : 0 ≤ volume r := by unfold volume; positivity
  have hrad : ∀ b c : ℝ, radius ⟨volume r, b, c⟩ = r := by
    intro b c
    have : 3 / 4 * (1 / Real.pi) * volume r = r ^ 3 := by unfold volume; field_simp
    simp only [radius, this]
    rw [← Real.rpow_natCast, ← Real.rpow_mul hr0]; norm_num
  rcases hr0.eq_or_lt with h0 | h0
  · rw [← h0] at hr2
    have hx : x = 0 := by nlinarith [sq_nonneg x, sq_nonneg y, sq_nonneg z]
    have hy : y = 0 := by nlinarith [sq_nonneg x, sq_nonneg y, sq_nonneg z]
    have hz : z = 0 := by nlinarith [sq_nonneg x, sq_nonneg y, sq_nonneg z]
    refine ⟨⟨volume r, 0, 0⟩, ⟨hv0, h, le_rfl, zero_le_one, le_rfl, zero_le_one⟩, ?_, ?_, ?_⟩ <;> simp only [computed, hrad, hx, hy, hz] <;> rw [← h0] <;> simp only [zero_mul]
  · have hz1 : -1 ≤ z / r ∧ z / r ≤ 1 := by
      have : |z| ≤ r := abs_le_of_sq_le_sq (by nlinarith [sq_nonneg x, sq_nonneg y]) hr0
      obtain ⟨h1, h2⟩ := abs_le.1 this
      constructor
      · rw [le_div_iff₀ h0]; linarith
      · rw [div_le_iff₀ h0]; linarith
    have hnorm : r * Real.sqrt (1 - (z / r) ^ 2) = ‖(⟨x, y⟩ : ℂ)‖ := by
      rw [Complex.norm_def, Complex.normSq_mk]
      have : x * x + y * y = r ^ 2 * (1 - (z / r) ^ 2) := by field_simp; linarith
      rw [this, Real.sqrt_mul (sq_nonneg r), Real.sqrt_sq hr0]
    have hc := Complex.norm_mul_cos_arg ⟨x, y⟩
    have hs := Complex.norm_mul_sin_arg ⟨x, y⟩
    obtain ⟨c, hc0, hc1, hcc, hcs⟩ : ∃ c : ℝ, 0 ≤ c ∧ c ≤ 1 ∧ Real.cos (2 * Real.pi * c) = Real.cos (Complex.arg ⟨x, y⟩) ∧ Real.sin (2 * Real.pi * c) = Real.sin (Complex.arg ⟨x, y⟩) := by
      have h1 := Complex.neg_pi_lt_arg ⟨x, y⟩
      have h2 := Complex.arg_le_pi ⟨x, y⟩
      generalize Complex.arg ⟨x, y⟩ = g at h1 h2
      by_cases hg : 0 ≤ g
      · refine ⟨g / (2 * Real.pi), by positivity, ?_, ?_, ?_⟩
        · rw [div_le_one (by positivity)]; linarith
        · rw [mul_div_cancel₀ _ (by positivity)]
        · rw [mul_div_cancel₀ _ (by positivity)]
      · refine ⟨(g + 2 * Real.pi) / (2 * Real.pi), ?_, ?_, ?_, ?_⟩
        · apply div_nonneg <;> linarith
        · rw [div_le_one (by positivity)]; linarith
        · rw [mul_div_cancel₀ _ (by positivity), Real.cos_add_two_pi]
        · rw [mul_div_cancel₀ _ (by positivity), Real.sin_add_two_pi]
    have hb : 2 * ((z / r + 1) / 2) - 1 = z / r := by ring
    refine ⟨⟨volume r, (z / r + 1) / 2, c⟩, ⟨hv0, h, ?_, ?_, hc0, hc1⟩, ?_, ?_, ?_⟩
    · show 0 ≤ (z / r + 1) / 2; linarith [hz1.1]
    · show (z / r + 1) / 2 ≤ 1; linarith [hz1.2]
    · simp only [computed, hrad, theta, phi, hb, Real.sin_arccos, hcc]
      rw [mul_right_comm, hnorm, hc]
    · simp only [computed, hrad, theta, phi, hb, Real.sin_arccos, hcs]
      rw [mul_right_comm, hnorm, hs]
    · simp only [computed, hrad, theta, hb, Real.cos_arccos hz1.1 hz1.2]
      field_simp

/-- **C109**: the file has one particle for each draw, all of one mass, with the total mass 1. -/
theorem C109_mass (v : ℝ) (ds : List Draw) (h : ds ≠ []) : (file v ds).length = ds.length ∧ ((file v ds).map Particle.m).sum = 1 ∧ ∀ p ∈ file v ds, p.m = 1 / ds.length := by
  have hn : (ds.length : ℝ) ≠ 0 := by
    have := List.length_pos_iff.2 h
    exact_mod_cast this.ne'
  have hm : (file v ds).map Particle.m = List.replicate ds.length (1 / (ds.length : ℝ)) := by
    rw [file, List.map_map]
    exact List.map_eq_replicate_iff.2 fun _ _ => rfl
  refine ⟨by simp [file], ?_, ?_⟩
  · rw [hm, List.sum_replicate, nsmul_eq_mul]; field_simp
  · intro p hp
    obtain ⟨d, -, rfl⟩ := List.mem_map.1 hp
    rfl

/-- **C109**: the energies are those of the polytrope at the density of mass 1 in the unit sphere: the ideal gas with the exponent 3/2 has the pressure `0.5 rho ^ 1.5`. -/
theorem C109_energy (v : ℝ) (ds : List Draw) (p : Particle) (h : p ∈ file v ds) : (3 / 2 - 1) * density * p.u = pressure density ∧ density * (4 / 3 * Real.pi) = 1 := by
  obtain ⟨d, -, rfl⟩ := List.mem_map.1 h
  have hp := Real.pi_pos
  have hd : 0 < density := by unfold density volume; positivity
  constructor
  · show (3 / 2 - 1) * density * energy density = pressure density
    unfold energy pressure
    have h1 : density ^ (1.5 : ℝ) = density ^ (1.5 - 1 : ℝ) * density := by
      rw [← Real.rpow_add_one hd.ne']; norm_num
    rw [h1]; ring
  · unfold density volume; field_simp

/-- **C109**: a ball of the radius `h` has 200 times the volume of a particle in a unit sphere of as many particles. -/
theorem C109_smoothing (v : ℝ) (ds : List Draw) (p : Particle) (h : p ∈ file v ds) : ds.length * (volume p.h / volume 1) = 200 := by
  have hne : ds ≠ [] := by rintro rfl; simp [file] at h
  have hn : (0 : ℝ) < ds.length := by exact_mod_cast List.length_pos_iff.2 hne
  obtain ⟨d, -, rfl⟩ := List.mem_map.1 h
  have hp := Real.pi_pos
  have hV : 0 < volume 1 := by unfold volume; positivity
  show ds.length * (volume (smoothing ds.length) / volume 1) = 200
  have : smoothing ds.length ^ 3 = 200 / (ds.length / volume 1) * (3 / 4) / Real.pi := cube_root (by positivity)
  rw [volume, this]
  field_simp

/-- **C109 is violated**: what is written is no sphere: all particles are on one line, with equal coordinates and equal velocities along the axes. -/
theorem C109_line_violated (v : ℝ) (ds : List Draw) (p : Particle) (h : p ∈ file v ds) : p.y = p.x ∧ p.z = p.x ∧ p.vy = p.vx ∧ p.vz = p.vx := by
  obtain ⟨d, -, rfl⟩ := List.mem_map.1 h
  exact ⟨rfl, rfl, rfl, rfl⟩

/-- **C109 is violated**: the sphere which is computed has the volume 1, not the radius 1 from which densities, energies and smoothing lengths are computed: no particle is outside of the radius 0.63. -/
theorem C109_size_violated (d : Draw) (h : d.Ok) : radius d < 0.63 := by
  have hv := C109_uniform d h
  have h1 := h.2.1
  have hp := Real.pi_gt_three
  by_contra hc
  have h2 : (0.63 : ℝ) ^ 3 ≤ radius d ^ 3 := pow_le_pow_left₀ (by norm_num) (not_lt.1 hc) 3
  unfold volume at hv
  have hp2 := Real.pi_gt_d2
  have h3 : 4 / 3 * 3.14 * (0.63 : ℝ) ^ 3 ≤ 4 / 3 * Real.pi * radius d ^ 3 := by
    apply mul_le_mul _ h2 (by norm_num) (by positivity)
    linarith
  norm_num at h3
  linarith

/-- **C109 is violated**: nor is the momentum of the file that of the computed particles: with one particle on the axis, which is to move along z, the file has it at rest at the origin. -/
theorem C109_momentum_violated (v : ℝ) (hv : v ≠ 0) : ∃ d : Draw, d.Ok ∧ (computed 1 v d).vz = v ∧ ∀ p ∈ file v [d], p.vz = 0 ∧ p.vz ≠ v := by
  refine ⟨⟨1, 1, 0⟩, by norm_num [Draw.Ok], ?_, ?_⟩
  · simp only [computed, theta]; norm_num
  · intro p hp
    simp only [file, List.map_cons, List.map_nil, List.mem_singleton] at hp
    subst hp
    have h0 : (written (computed [(⟨1, 1, 0⟩ : Draw)].length v ⟨1, 1, 0⟩)).vz = 0 := by simp only [written, computed, theta]; norm_num
    exact ⟨h0, by rw [h0]; exact hv.symm⟩

/-- Two draws: the file is not empty and the theorems apply. -/
example : ∃ p ∈ file 3 [⟨1, 1 / 2, 0⟩, ⟨1 / 2, 1, 1 / 2⟩], p.y = p.x ∧ p.m = 1 / 2 ∧ p.vz = 3 := by
  refine ⟨_, List.mem_cons_self, ?_⟩
  refine ⟨rfl, ?_, ?_⟩
  · simp [written, computed]
  · simp only [written, computed, theta, phi]; norm_num

example : Draw.Ok ⟨1, 1 / 2, 0⟩ := by norm_num [Draw.Ok]

/-- A point below the equator, behind the x axis, is in the ball of volume 1. -/
example : volume (Real.sqrt ((-0.1) ^ 2 + (-0.2) ^ 2 + (-0.2) ^ 2)) ≤ 1 := by
  have h : Real.sqrt ((-0.1) ^ 2 + (-0.2) ^ 2 + (-0.2) ^ 2) = 0.3 := by
    rw [show ((-0.1 : ℝ) ^ 2 + (-0.2) ^ 2 + (-0.2) ^ 2) = 0.3 ^ 2 by norm_num, Real.sqrt_sq (by norm_num)]
  rw [h, volume]
  have := Real.pi_le_four
  norm_num
  linarith

end FleCSPH.UniformSphere
