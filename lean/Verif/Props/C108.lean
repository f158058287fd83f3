import Mathlib.Tactic.Linarith
import Mathlib.Tactic.FieldSimp
import Mathlib.Tactic.Ring
import Mathlib.Tactic.Positivity
import Mathlib.Tactic.NormNum
import Verif.Model.PnBinary
/-!
C108: initial data of neutron star binaries on post-newtonian orbits.
-/
namespace FleCSPH.PnBinary

/-! ### Specification -/

/-- All data sets of a star have `n` values. -/
def Star.Has (s : Star) (n : ℕ) : Prop := s.x.length = n ∧ s.y.length = n ∧ s.z.length = n ∧ s.h.length = n ∧ s.u.length = n ∧ s.m.length = n

/-- The sum of `m x` over the particles. -/
noncomputable def moment (m x : List ℝ) : ℝ := (List.zipWith (fun a b => a * b) m x).sum

/-! ### Lemmas -/

theorem bcast_same {f : ℝ → ℝ → ℝ} {a b : List ℝ} (h : a.length = b.length) : bcast f a b = some (List.zipWith f a b) := by
  unfold bcast; rw [if_pos h]

theorem bcast_none {f : ℝ → ℝ → ℝ} {a b : List ℝ} (h : a.length ≠ b.length) (ha : a.length ≠ 1) (hb : b.length ≠ 1) : bcast f a b = none := by
  unfold bcast; rw [if_neg h]
  match a, b with
  | [], [] => rfl
  | [], [w] => simp at hb
  | [], _ :: _ :: _ => rfl
  | [v], _ => simp at ha
  | _ :: _ :: _, [] => rfl
  | _ :: _ :: _, [w] => simp at hb
  | _ :: _ :: _, _ :: _ :: _ => rfl

/-- The mean place of a coordinate of a star, in the unit of the output. -/
noncomputable def mean (m x : List ℝ) : ℝ := (List.zipWith (fun v w => v * w) (scale (10 ^ 5) x) (scale (10 ^ 27) m)).sum / (scale (10 ^ 27) m).sum

theorem centre_eq {m x : List ℝ} (h : x.length = m.length) : centre (scale (10 ^ 27) m) (scale (10 ^ 5) x) = some (x.map fun v => v * 10 ^ 5 - mean m x) := by
  unfold centre
  rw [bcast_same (by simp [scale, h])]
  simp only [Option.map_some, mean, scale, List.map_map]
  rfl

/-- What the tool writes for two stars of the same number of particles. -/
theorem make_eq (G c km : ℝ) {n : ℕ} {s t : Star} (hs : s.Has n) (ht : t.Has n) :
    ∃ r x1 x2 : List ℝ, r = List.zipWith (fun a b => km * 10 ^ 5 * a / (a + b)) (scale (10 ^ 27) s.m) (scale (10 ^ 27) t.m) ∧
      x1 = List.zipWith (fun v r => -(v * 10 ^ 5 - mean s.m s.x) + (r - km * 10 ^ 5)) s.x r ∧
      x2 = List.zipWith (fun v r => v * 10 ^ 5 - mean t.m t.x + r) t.x r ∧
      make G c km s t = some
        { x := x1 ++ x2
          y := (s.y.map fun v => -(v * 10 ^ 5 - mean s.m s.y)) ++ (t.y.map fun v => v * 10 ^ 5 - mean t.m t.y)
          z := (s.z.map fun v => -(v * 10 ^ 5 - mean s.m s.z)) ++ (t.z.map fun v => -(v * 10 ^ 5 - mean t.m t.z))
          vx := List.zipWith (velX G c (scale (10 ^ 27) s.m).sum (scale (10 ^ 27) t.m).sum (km * 10 ^ 5)) x1 (s.y.map fun v => -(v * 10 ^ 5 - mean s.m s.y)) ++
            List.zipWith (velX G c (scale (10 ^ 27) t.m).sum (scale (10 ^ 27) s.m).sum (km * 10 ^ 5)) x2 (t.y.map fun v => v * 10 ^ 5 - mean t.m t.y)
          vy := List.zipWith (velY G c (scale (10 ^ 27) s.m).sum (scale (10 ^ 27) t.m).sum (km * 10 ^ 5)) x1 (s.y.map fun v => -(v * 10 ^ 5 - mean s.m s.y)) ++
            List.zipWith (velY G c (scale (10 ^ 27) t.m).sum (scale (10 ^ 27) s.m).sum (km * 10 ^ 5)) x2 (t.y.map fun v => v * 10 ^ 5 - mean t.m t.y)
          vz := [0, 0]
          u := scale (10 ^ 10) s.u ++ scale (10 ^ 10) t.u
          m := scale (10 ^ 27) s.m ++ scale (10 ^ 27) t.m
          h := scale (10 ^ 5) s.h ++ scale (10 ^ 5) t.h
          state := List.replicate n 1 ++ List.replicate n 2 } := by
  obtain ⟨s1, s2, s3, s4, s5, s6⟩ := hs
  obtain ⟨t1, t2, t3, t4, t5, t6⟩ := ht
  refine ⟨_, _, _, rfl, rfl, rfl, ?_⟩
  have hneg : ∀ l : List ℝ, ∀ a : ℝ, scale (-1) (l.map fun v => v * 10 ^ 5 - a) = l.map fun v => -(v * 10 ^ 5 - a) := by
    intro l a; simp only [scale, List.map_map]; apply List.map_congr_left; intro v _; simp
  unfold make
  simp only [centre_eq (s1.trans s6.symm), centre_eq (s2.trans s6.symm), centre_eq (s3.trans s6.symm), centre_eq (t1.trans t6.symm), centre_eq (t2.trans t6.symm), centre_eq (t3.trans t6.symm), hneg,
    offsets, bcast_same (show (scale (10 ^ 27) s.m).length = (scale (10 ^ 27) t.m).length by simp [scale, s6, t6]), Option.map_some, Option.bind_eq_bind, Option.bind_some, Option.pure_def]
  rw [bcast_same (by simp [scale, s1, s6, t6])]
  simp only [Option.bind_some]
  rw [bcast_same (by simp [scale, t1, s6, t6])]
  simp only [Option.bind_some]
  rw [bcast_same (by simp [scale, s1, s2, s6, t6]), bcast_same (by simp [scale, s1, s2, s6, t6])]
  simp only [Option.bind_some]
  rw [bcast_same (by simp [scale, t1, t2, s6, t6]), bcast_same (by simp [scale, t1, t2, s6, t6])]
  simp only [Option.bind_some, List.zipWith_map_left, List.zipWith_map_right, List.length_zipWith, s1, t1, s6, t6, scale, min_self, List.singleton_append]

theorem polar (x y : ℝ) : Real.sqrt (x ^ 2 + y ^ 2) * Real.cos (arctan2 y x) = x ∧ Real.sqrt (x ^ 2 + y ^ 2) * Real.sin (arctan2 y x) = y := by
  have hn : Real.sqrt (x ^ 2 + y ^ 2) = ‖(⟨x, y⟩ : ℂ)‖ := by
    rw [Complex.norm_def, Complex.normSq_mk, pow_two, pow_two]
  rw [hn]
  exact ⟨Complex.norm_mul_cos_arg ⟨x, y⟩, Complex.norm_mul_sin_arg ⟨x, y⟩⟩

theorem vel_angular (G c a b sep x y : ℝ) : x * velY G c a b sep x y - y * velX G c a b sep x y = omega G c a b sep * (x ^ 2 + y ^ 2) := by
  obtain ⟨hc, hs⟩ := polar x y
  unfold velX velY
  generalize Real.sqrt (x ^ 2 + y ^ 2) = R at hc hs
  generalize Real.cos (arctan2 y x) = C at hc
  generalize Real.sin (arctan2 y x) = S at hs
  subst hc; subst hs
  ring

theorem vel_radial (G c a b sep x y : ℝ) : x * velX G c a b sep x y + y * velY G c a b sep x y = rdot G c a b sep * Real.sqrt (x ^ 2 + y ^ 2) := by
  obtain ⟨hc, hs⟩ := polar x y
  have h1 := Real.cos_sq_add_sin_sq (arctan2 y x)
  unfold velX velY
  generalize Real.sqrt (x ^ 2 + y ^ 2) = R at hc hs
  generalize Real.cos (arctan2 y x) = C at hc h1
  generalize Real.sin (arctan2 y x) = S at hs h1
  subst hc; subst hs
  linear_combination rdot G c a b sep * R * h1

theorem omega_pos {G c a b sep : ℝ} (hG : 0 < G) (hc : 0 < c) (ha : 0 < a) (hb : 0 < b) (hs : 0 < sep) : 0 < omega G c a b sep := by
  unfold omega
  have he : 0 < (a / (a + b)) * (b / (a + b)) := by positivity
  have hf : 0 < G * (a + b) / (sep * c ^ 2) := by positivity
  dsimp only
  generalize (a / (a + b)) * (b / (a + b)) = e at he
  generalize G * (a + b) / (sep * c ^ 2) = f at hf
  have hk : 0 < Real.sqrt (G * (a + b) / sep ^ 3) := Real.sqrt_pos.2 (by positivity)
  refine mul_pos hk ?_
  nlinarith [sq_nonneg (1 - 3 / 4 * f), mul_pos he hf, mul_pos he (pow_pos hf 2), mul_pos (pow_pos he 2) (pow_pos hf 2), pow_pos hf 2]

theorem rdot_neg {G c a b sep : ℝ} (hG : 0 < G) (hc : 0 < c) (ha : 0 < a) (hb : 0 < b) (hs : 0 < sep) : rdot G c a b sep < 0 := by
  unfold rdot
  have : 0 < 64 / 5 * G ^ 3 * (a + b) ^ 2 * b * ((a / (a + b)) * (b / (a + b))) / (sep ^ 3 * c ^ 5) := by positivity
  dsimp only
  have h2 : -(64 / 5) * G ^ 3 * (a + b) ^ 2 * b * ((a / (a + b)) * (b / (a + b))) / (sep ^ 3 * c ^ 5) = -(64 / 5 * G ^ 3 * (a + b) ^ 2 * b * ((a / (a + b)) * (b / (a + b))) / (sep ^ 3 * c ^ 5)) := by ring
  rw [h2]; linarith

theorem moment_const (μ : ℝ) : ∀ (n : ℕ) (x : List ℝ), x.length = n → moment (List.replicate n μ) x = μ * x.sum
  | 0, x, h => by rw [List.length_eq_zero_iff.1 h]; simp [moment]
  | n + 1, [], h => by simp at h
  | n + 1, v :: x, h => by
    have ih := moment_const μ n x (by simpa using h)
    simp only [moment, List.replicate_succ, List.zipWith_cons_cons, List.sum_cons] at ih ⊢
    rw [ih]; ring

theorem moment_append {m m' x x' : List ℝ} (h : m.length = x.length) : moment (m ++ m') (x ++ x') = moment m x + moment m' x' := by
  simp only [moment, List.zipWith_append h, List.sum_append]

theorem sum_affine (a b : ℝ) : ∀ x : List ℝ, (x.map fun v => a * v + b).sum = a * x.sum + b * x.length
  | [] => by simp
  | v :: x => by
    simp only [List.map_cons, List.sum_cons, sum_affine a b x, List.length_cons]; push_cast; ring

theorem mean_const {μ : ℝ} (hμ : μ ≠ 0) {n : ℕ} (hn : n ≠ 0) {x : List ℝ} (h : x.length = n) : mean (List.replicate n μ) x = 10 ^ 5 * x.sum / n := by
  have h1 : scale (10 ^ 27) (List.replicate n μ) = List.replicate n (μ * 10 ^ 27) := by simp [scale]
  have h2 : List.zipWith (fun v w => v * w) (scale (10 ^ 5) x) (List.replicate n (μ * 10 ^ 27)) = List.zipWith (fun a b => a * b) (List.replicate n (μ * 10 ^ 27)) (scale (10 ^ 5) x) := by
    rw [List.zipWith_comm]; simp only [mul_comm]
  have h3 := moment_const (μ * 10 ^ 27) n (scale (10 ^ 5) x) (by simp [scale, h])
  have h4 : (scale (10 ^ 5) x).sum = 10 ^ 5 * x.sum := by
    have := sum_affine (10 ^ 5) 0 x
    simp only [add_zero, zero_mul] at this
    rw [← this, scale]; simp only [mul_comm]
  unfold mean
  rw [h1, h2]
  rw [moment] at h3
  rw [h3, h4, List.sum_replicate, nsmul_eq_mul]
  have : (n : ℝ) ≠ 0 := by exact_mod_cast hn
  field_simp

theorem sum_centred {μ : ℝ} (hμ : μ ≠ 0) {n : ℕ} (hn : n ≠ 0) {x : List ℝ} (h : x.length = n) (e d : ℝ) :
    (x.map fun v => e * (v * 10 ^ 5 - mean (List.replicate n μ) x) + d).sum = d * n := by
  have h1 : (fun v : ℝ => e * (v * 10 ^ 5 - mean (List.replicate n μ) x) + d) = fun v => (e * 10 ^ 5) * v + (d - e * mean (List.replicate n μ) x) := by funext v; ring
  rw [h1, sum_affine, h, mean_const hμ hn h]
  have : (n : ℝ) ≠ 0 := by exact_mod_cast hn
  field_simp; ring

theorem zip_const {f : ℝ → ℝ → ℝ} (r : ℝ) : ∀ (n : ℕ) (x : List ℝ), x.length = n → List.zipWith f x (List.replicate n r) = x.map fun v => f v r
  | 0, x, h => by rw [List.length_eq_zero_iff.1 h]; rfl
  | n + 1, [], h => by simp at h
  | n + 1, v :: x, h => by
    rw [List.replicate_succ, List.zipWith_cons_cons, zip_const r n x (by simpa using h)]; rfl

/-- The places along x for stars of equal numbers of particles and equal masses within each star. -/
theorem make_uniform (G c km : ℝ) {n : ℕ} {μ ν : ℝ} (hμ : 0 < μ) (hν : 0 < ν) {s t : Star} {b : File} (hs : s.Has n) (ht : t.Has n)
    (hm : s.m = List.replicate n μ) (hm' : t.m = List.replicate n ν) (h : make G c km s t = some b) :
    b.x = (s.x.map fun v => -1 * (v * 10 ^ 5 - mean s.m s.x) + -(km * 10 ^ 5 * ν / (μ + ν))) ++ (t.x.map fun v => 1 * (v * 10 ^ 5 - mean t.m t.x) + km * 10 ^ 5 * μ / (μ + ν)) ∧
    b.y = (s.y.map fun v => -1 * (v * 10 ^ 5 - mean s.m s.y) + 0) ++ (t.y.map fun v => 1 * (v * 10 ^ 5 - mean t.m t.y) + 0) ∧
    b.z = (s.z.map fun v => -1 * (v * 10 ^ 5 - mean s.m s.z) + 0) ++ (t.z.map fun v => -1 * (v * 10 ^ 5 - mean t.m t.z) + 0) ∧
    b.m = List.replicate n (μ * 10 ^ 27) ++ List.replicate n (ν * 10 ^ 27) := by
  obtain ⟨r, x1, x2, hr, h1, h2, hk⟩ := make_eq G c km hs ht
  rw [hk] at h
  obtain rfl := Option.some.inj h
  have hne : μ + ν ≠ 0 := by positivity
  have hr' : r = List.replicate n (km * 10 ^ 5 * μ / (μ + ν)) := by
    rw [hr, hm, hm']
    simp only [scale, List.map_replicate]
    rw [zip_const _ n _ (by simp), List.map_replicate]
    congr 1
    field_simp
  have hoff : km * 10 ^ 5 * μ / (μ + ν) - km * 10 ^ 5 = -(km * 10 ^ 5 * ν / (μ + ν)) := by field_simp; ring
  refine ⟨?_, ?_, ?_, ?_⟩
  · rw [h1, h2, hr', zip_const _ n _ hs.1, zip_const _ n _ ht.1]
    simp only [hoff, neg_mul, one_mul]
  · simp only [neg_mul, one_mul, add_zero]
  · simp only [neg_mul, one_mul, add_zero]
  · simp only [hm, hm', scale, List.map_replicate]

/-! ### Properties -/

/-- **C108** (partial: only for stars of the same number of particles, and but for `vz`): the tool ends normally, and the file has the particles of both stars in order, with masses, smoothing lengths and energies in cgs units, and the star of each in `state`. -/
theorem C108_particles_partial (G c km : ℝ) (n : ℕ) (s t : Star) (hs : s.Has n) (ht : t.Has n) :
    ∃ b, make G c km s t = some b ∧ b.m = (s.m ++ t.m).map (· * 10 ^ 27) ∧ b.h = (s.h ++ t.h).map (· * 10 ^ 5) ∧ b.u = (s.u ++ t.u).map (· * 10 ^ 10) ∧
      b.x.length = 2 * n ∧ b.y.length = 2 * n ∧ b.z.length = 2 * n ∧ b.vx.length = 2 * n ∧ b.vy.length = 2 * n ∧
      b.state = List.replicate n 1 ++ List.replicate n 2 := by
  obtain ⟨r, x1, x2, hr, h1, h2, hk⟩ := make_eq G c km hs ht
  obtain ⟨s1, s2, s3, s4, s5, s6⟩ := hs
  obtain ⟨t1, t2, t3, t4, t5, t6⟩ := ht
  have hrl : r.length = n := by rw [hr]; simp [scale, s6, t6]
  have hl1 : x1.length = n := by rw [h1]; simp [s1, hrl]
  have hl2 : x2.length = n := by rw [h2]; simp [t1, hrl]
  refine ⟨_, hk, ?_, ?_, ?_, ?_, ?_, ?_, ?_, ?_, rfl⟩ <;> simp [scale, hl1, hl2, s2, t2, s3, t3] <;> omega

/-- **C108** (partial: only for stars of the same number of particles, all of one mass in each star): the centre of mass is at the origin, wherever the stars are in their files, and the centres of the stars are on the x axis, the second at
the given separation to the right of the first. -/
theorem C108_centre_partial (G c km : ℝ) (n : ℕ) (hn : n ≠ 0) (μ ν : ℝ) (hμ : 0 < μ) (hν : 0 < ν) (s t : Star) (b : File) (hs : s.Has n) (ht : t.Has n)
    (hm : s.m = List.replicate n μ) (hm' : t.m = List.replicate n ν) (h : make G c km s t = some b) :
    moment b.m b.x = 0 ∧ moment b.m b.y = 0 ∧ moment b.m b.z = 0 ∧
    (b.x.drop n).sum / n - (b.x.take n).sum / n = km * 10 ^ 5 ∧
    (b.y.take n).sum = 0 ∧ (b.y.drop n).sum = 0 ∧ (b.z.take n).sum = 0 ∧ (b.z.drop n).sum = 0 := by
  obtain ⟨hx, hy, hz, hbm⟩ := make_uniform G c km hμ hν hs ht hm hm' h
  obtain ⟨s1, s2, s3, -⟩ := hs
  obtain ⟨t1, t2, t3, -⟩ := ht
  rw [hm] at hx hy hz
  rw [hm'] at hx hy hz
  have hn' : (n : ℝ) ≠ 0 := by exact_mod_cast hn
  have hne : μ + ν ≠ 0 := by positivity
  rw [hx, hy, hz, hbm]
  refine ⟨?_, ?_, ?_, ?_, ?_, ?_, ?_, ?_⟩
  · rw [moment_append (by simp [s1]), moment_const _ n _ (by simp [s1]), moment_const _ n _ (by simp [t1]), sum_centred hμ.ne' hn s1, sum_centred hν.ne' hn t1]
    field_simp; ring
  · rw [moment_append (by simp [s2]), moment_const _ n _ (by simp [s2]), moment_const _ n _ (by simp [t2]), sum_centred hμ.ne' hn s2, sum_centred hν.ne' hn t2]
    ring
  · rw [moment_append (by simp [s3]), moment_const _ n _ (by simp [s3]), moment_const _ n _ (by simp [t3]), sum_centred hμ.ne' hn s3, sum_centred hν.ne' hn t3]
    ring
  · rw [List.take_left' (by simp [s1]), List.drop_left' (by simp [s1]), sum_centred hμ.ne' hn s1, sum_centred hν.ne' hn t1]
    field_simp; ring
  · rw [List.take_left' (by simp [s2]), sum_centred hμ.ne' hn s2, zero_mul]
  · rw [List.drop_left' (by simp [s2]), sum_centred hν.ne' hn t2, zero_mul]
  · rw [List.take_left' (by simp [s3]), sum_centred hμ.ne' hn s3, zero_mul]
  · rw [List.drop_left' (by simp [s3]), sum_centred hν.ne' hn t3, zero_mul]

/-- **C108** (partial: only for stars of the same number of particles, and not along x): whatever the masses of the particles, the centre of mass of each star is on the x axis. -/
theorem C108_axis_partial (G c km : ℝ) (n : ℕ) (s t : Star) (b : File) (hs : s.Has n) (ht : t.Has n) (h : make G c km s t = some b) (hM : s.m.sum ≠ 0) (hN : t.m.sum ≠ 0) :
    moment (b.m.take n) (b.y.take n) = 0 ∧ moment (b.m.take n) (b.z.take n) = 0 ∧ moment (b.m.drop n) (b.y.drop n) = 0 ∧ moment (b.m.drop n) (b.z.drop n) = 0 := by
  obtain ⟨r, x1, x2, -, -, -, hk⟩ := make_eq G c km hs ht
  rw [hk] at h
  obtain rfl := Option.some.inj h
  obtain ⟨s1, s2, s3, s4, s5, s6⟩ := hs
  obtain ⟨t1, t2, t3, t4, t5, t6⟩ := ht
  have hsum : ∀ l : List ℝ, (scale (10 ^ 27) l).sum = l.sum * 10 ^ 27 := by
    intro l
    have := sum_affine (10 ^ 27) 0 l
    simp only [add_zero, zero_mul] at this
    rw [mul_comm l.sum, ← this, scale]; simp only [mul_comm]
  have lin : ∀ (e a : ℝ) (m x : List ℝ), x.length = m.length →
      moment (scale (10 ^ 27) m) (x.map fun v => e * (v * 10 ^ 5 - a)) = e * ((List.zipWith (fun v w => v * w) (scale (10 ^ 5) x) (scale (10 ^ 27) m)).sum - a * (scale (10 ^ 27) m).sum) := by
    intro e a m
    induction m with
    | nil => intro x hx; rw [List.length_eq_zero_iff.1 hx]; simp [moment, scale]
    | cons w m ih =>
      intro x hx
      match x, hx with
      | v :: x, hx =>
        have := ih x (by simpa using hx)
        simp only [moment, scale, List.map_cons, List.zipWith_cons_cons, List.sum_cons] at this ⊢
        rw [this]; ring
  have key : ∀ (e : ℝ) (m x : List ℝ), x.length = m.length → m.sum ≠ 0 → moment (scale (10 ^ 27) m) (x.map fun v => e * (v * 10 ^ 5 - mean m x)) = 0 := by
    intro e m x hx hm
    have hne : (scale (10 ^ 27) m).sum ≠ 0 := by rw [hsum]; positivity
    rw [lin e _ m x hx, mean, div_mul_cancel₀ _ hne]; ring
  have neg : ∀ (m x : List ℝ), (x.map fun v => -(v * 10 ^ 5 - mean m x)) = x.map fun v => -1 * (v * 10 ^ 5 - mean m x) := by intro m x; simp only [neg_mul, one_mul]
  have one : ∀ (m x : List ℝ), (x.map fun v => v * 10 ^ 5 - mean m x) = x.map fun v => 1 * (v * 10 ^ 5 - mean m x) := by intro m x; simp only [one_mul]
  dsimp only
  rw [List.take_left' (by simp [scale, s6]), List.take_left' (by simp [s2]), List.take_left' (by simp [s3]), List.drop_left' (by simp [scale, s6]), List.drop_left' (by simp [s2]), List.drop_left' (by simp [s3]),
    neg, neg, neg, one]
  exact ⟨key _ _ _ (s2.trans s6.symm) hM, key _ _ _ (s3.trans s6.symm) hM, key _ _ _ (t2.trans t6.symm) hN, key _ _ _ (t3.trans t6.symm) hN⟩

/-- **C108** (partial as `C108_centre_partial`): distances within each star are kept. -/
theorem C108_shape_partial (G c km : ℝ) (n : ℕ) (μ ν : ℝ) (hμ : 0 < μ) (hν : 0 < ν) (s t : Star) (b : File) (hs : s.Has n) (ht : t.Has n)
    (hm : s.m = List.replicate n μ) (hm' : t.m = List.replicate n ν) (h : make G c km s t = some b) (i j : ℕ) (hi : i < n) (hj : j < n) :
    ∃ x y z x' y' z' u v w u' v' w' X Y Z X' Y' Z' U V W U' V' W',
      (s.x[i]? = some x ∧ s.y[i]? = some y ∧ s.z[i]? = some z ∧ s.x[j]? = some x' ∧ s.y[j]? = some y' ∧ s.z[j]? = some z') ∧
      (t.x[i]? = some u ∧ t.y[i]? = some v ∧ t.z[i]? = some w ∧ t.x[j]? = some u' ∧ t.y[j]? = some v' ∧ t.z[j]? = some w') ∧
      (b.x[i]? = some X ∧ b.y[i]? = some Y ∧ b.z[i]? = some Z ∧ b.x[j]? = some X' ∧ b.y[j]? = some Y' ∧ b.z[j]? = some Z') ∧
      (b.x[n + i]? = some U ∧ b.y[n + i]? = some V ∧ b.z[n + i]? = some W ∧ b.x[n + j]? = some U' ∧ b.y[n + j]? = some V' ∧ b.z[n + j]? = some W') ∧
      (X - X') ^ 2 + (Y - Y') ^ 2 + (Z - Z') ^ 2 = (10 ^ 5) ^ 2 * ((x - x') ^ 2 + (y - y') ^ 2 + (z - z') ^ 2) ∧
      (U - U') ^ 2 + (V - V') ^ 2 + (W - W') ^ 2 = (10 ^ 5) ^ 2 * ((u - u') ^ 2 + (v - v') ^ 2 + (w - w') ^ 2) := by
  obtain ⟨hx, hy, hz, hbm⟩ := make_uniform G c km hμ hν hs ht hm hm' h
  obtain ⟨s1, s2, s3, -⟩ := hs
  obtain ⟨t1, t2, t3, -⟩ := ht
  have g : ∀ {l : List ℝ} {k : ℕ}, l.length = n → k < n → ∃ v, l[k]? = some v := fun hl hk => ⟨_, List.getElem?_eq_getElem (by omega)⟩
  have left : ∀ {l l' : List ℝ} {f f' : ℝ → ℝ} {k : ℕ} {v : ℝ}, l.length = n → k < n → l[k]? = some v → (l.map f ++ l'.map f')[k]? = some (f v) := by
    intro l l' f f' k v hl hk hv
    rw [List.getElem?_append_left (by simp [hl, hk]), List.getElem?_map, hv]; rfl
  have right : ∀ {l l' : List ℝ} {f f' : ℝ → ℝ} {k : ℕ} {v : ℝ}, l.length = n → l'[k]? = some v → (l.map f ++ l'.map f')[n + k]? = some (f' v) := by
    intro l l' f f' k v hl hv
    rw [List.getElem?_append_right (by simp [hl]), List.length_map, hl, Nat.add_sub_cancel_left, List.getElem?_map, hv]; rfl
  obtain ⟨x, e1⟩ := g s1 hi
  obtain ⟨y, e2⟩ := g s2 hi
  obtain ⟨z, e3⟩ := g s3 hi
  obtain ⟨x', e4⟩ := g s1 hj
  obtain ⟨y', e5⟩ := g s2 hj
  obtain ⟨z', e6⟩ := g s3 hj
  obtain ⟨u, f1⟩ := g t1 hi
  obtain ⟨v, f2⟩ := g t2 hi
  obtain ⟨w, f3⟩ := g t3 hi
  obtain ⟨u', f4⟩ := g t1 hj
  obtain ⟨v', f5⟩ := g t2 hj
  obtain ⟨w', f6⟩ := g t3 hj
  rw [hx, hy, hz]
  refine ⟨x, y, z, x', y', z', u, v, w, u', v', w', _, _, _, _, _, _, _, _, _, _, _, _, ⟨e1, e2, e3, e4, e5, e6⟩, ⟨f1, f2, f3, f4, f5, f6⟩,
    ⟨left s1 hi e1, left s2 hi e2, left s3 hi e3, left s1 hj e4, left s2 hj e5, left s3 hj e6⟩, ⟨right s1 f1, right s2 f2, right s3 f3, right s1 f4, right s2 f5, right s3 f6⟩, ?_, ?_⟩
  · ring
  · ring

/-- **C108** (partial: only for stars of the same number of particles): all particles turn about the z axis with one positive angular velocity, the newtonian one with the corrections of the first and second order, and fall towards the axis with
one speed for each star; the two speeds balance in momentum, and their sum is the rate at which the separation shrinks by the quadrupole formula. -/
theorem C108_orbit_partial (G c km : ℝ) (n : ℕ) (s t : Star) (b : File) (hs : s.Has n) (ht : t.Has n) (h : make G c km s t = some b)
    (hG : 0 < G) (hc : 0 < c) (hk : 0 < km) (hM : 0 < s.m.sum) (hN : 0 < t.m.sum) :
    ∃ w v v', 0 < w ∧ v < 0 ∧ v' < 0 ∧
      (∃ M N a, M = s.m.sum * 10 ^ 27 ∧ N = t.m.sum * 10 ^ 27 ∧ a = km * 10 ^ 5 ∧ M * v = N * v' ∧ v + v' = -(64 / 5) * (G ^ 3 * M * N * (M + N)) / (c ^ 5 * a ^ 3) ∧
        w = Real.sqrt (G * (M + N) / a ^ 3) * (1 - (3 - M * N / (M + N) ^ 2) / 2 * (G * (M + N) / (a * c ^ 2)) +
          (15 + 47 * (M * N / (M + N) ^ 2) + 3 * (M * N / (M + N) ^ 2) ^ 2) / 8 * (G * (M + N) / (a * c ^ 2)) ^ 2)) ∧
      (∀ (i : ℕ) (x y vx vy : ℝ), i < 2 * n → b.x[i]? = some x → b.y[i]? = some y → b.vx[i]? = some vx → b.vy[i]? = some vy →
        x * vy - y * vx = w * (x ^ 2 + y ^ 2) ∧ x * vx + y * vy = (if i < n then v else v') * Real.sqrt (x ^ 2 + y ^ 2)) := by
  obtain ⟨r, x1, x2, hr, h1, h2, hmk⟩ := make_eq G c km hs ht
  rw [hmk] at h
  obtain rfl := Option.some.inj h
  obtain ⟨s1, s2, s3, s4, s5, s6⟩ := hs
  obtain ⟨t1, t2, t3, t4, t5, t6⟩ := ht
  have hrl : r.length = n := by rw [hr]; simp [scale, s6, t6]
  have hl1 : x1.length = n := by rw [h1]; simp [s1, hrl]
  have hl2 : x2.length = n := by rw [h2]; simp [t1, hrl]
  have hsum : ∀ l : List ℝ, (scale (10 ^ 27) l).sum = l.sum * 10 ^ 27 := by
    intro l
    have := sum_affine (10 ^ 27) 0 l
    simp only [add_zero, zero_mul] at this
    rw [mul_comm l.sum, ← this, scale]; simp only [mul_comm]
  have hA : 0 < (scale (10 ^ 27) s.m).sum := by rw [hsum]; positivity
  have hB : 0 < (scale (10 ^ 27) t.m).sum := by rw [hsum]; positivity
  have hsep : 0 < km * 10 ^ 5 := by positivity
  rw [← hsum, ← hsum]
  generalize (scale (10 ^ 27) s.m).sum = M at hA ⊢
  generalize (scale (10 ^ 27) t.m).sum = N at hB ⊢
  generalize km * 10 ^ 5 = a at hsep ⊢
  have hsym : omega G c N M a = omega G c M N a := by
    unfold omega; dsimp only; rw [add_comm N M, mul_comm (N / (M + N))]
  have hne : M + N ≠ 0 := by positivity
  refine ⟨omega G c M N a, rdot G c M N a, rdot G c N M a, omega_pos hG hc hA hB hsep, rdot_neg hG hc hA hB hsep, rdot_neg hG hc hB hA hsep, ⟨M, N, a, rfl, rfl, rfl, ?_, ?_, ?_⟩, ?_⟩
  · unfold rdot; dsimp only; rw [add_comm N M]; field_simp
  · unfold rdot; dsimp only; rw [add_comm N M]; field_simp; ring
  · unfold omega; dsimp only
    have he : M / (M + N) * (N / (M + N)) = M * N / (M + N) ^ 2 := by field_simp
    rw [he]; ring
  · intro i x y vx vy hi hx hy hvx hvy
    dsimp only at hx hy hvx hvy
    by_cases hin : i < n
    · rw [List.getElem?_append_left (by simpa [hl1] using hin)] at hx
      rw [List.getElem?_append_left (by simpa [s2] using hin)] at hy
      rw [List.getElem?_append_left (by simpa [hl1, s2] using hin), List.getElem?_zipWith, hx, hy] at hvx
      rw [List.getElem?_append_left (by simpa [hl1, s2] using hin), List.getElem?_zipWith, hx, hy] at hvy
      obtain rfl := Option.some.inj hvx
      obtain rfl := Option.some.inj hvy
      rw [if_pos hin]
      exact ⟨vel_angular _ _ _ _ _ _ _, vel_radial _ _ _ _ _ _ _⟩
    · have hni : n ≤ i := by omega
      rw [List.getElem?_append_right (by simpa [hl1] using hni), hl1] at hx
      rw [List.getElem?_append_right (by simpa [s2] using hni), List.length_map, s2] at hy
      rw [List.getElem?_append_right (by simpa [hl1, s2] using hni), List.length_zipWith, List.length_map, hl1, s2, min_self, List.getElem?_zipWith, hx, hy] at hvx
      rw [List.getElem?_append_right (by simpa [hl1, s2] using hni), List.length_zipWith, List.length_map, hl1, s2, min_self, List.getElem?_zipWith, hx, hy] at hvy
      obtain rfl := Option.some.inj hvx
      obtain rfl := Option.some.inj hvy
      rw [if_neg hin, ← hsym]
      exact ⟨vel_angular _ _ _ _ _ _ _, vel_radial _ _ _ _ _ _ _⟩

/-! ### Where the tool departs from the property -/

/-- **C108 is violated**: stars with different numbers of particles (none of which is 1) always end in an exception, as the places of the stars are computed from the masses of the particles instead of the stars. -/
theorem C108_count_violated (G c km : ℝ) (s t : Star) (h : s.m.length ≠ t.m.length) (hs : s.m.length ≠ 1) (ht : t.m.length ≠ 1) : make G c km s t = none := by
  have ho : offsets (scale (10 ^ 27) s.m) (scale (10 ^ 27) t.m) (km * 10 ^ 5) = none := by
    unfold offsets
    rw [bcast_none (by simpa [scale] using h) (by simpa [scale] using hs) (by simpa [scale] using ht)]; rfl
  unfold make
  simp only [ho, Option.bind_eq_bind, Option.bind_none]
  simp only [Option.bind_fun_none]

/-- **C108 is violated**: the data set `vz` has always two values, not one for each particle. -/
theorem C108_vz_violated (G c km : ℝ) (n : ℕ) (hn : 2 ≤ n) (s t : Star) (b : File) (hs : s.Has n) (ht : t.Has n) (h : make G c km s t = some b) : b.vz.length ≠ b.x.length := by
  obtain ⟨b', hb', -, -, -, hl, -⟩ := C108_particles_partial G c km n s t hs ht
  rw [h] at hb'
  obtain rfl := Option.some.inj hb'
  obtain ⟨r, x1, x2, -, -, -, hk⟩ := make_eq G c km hs ht
  rw [hk] at h
  obtain rfl := Option.some.inj h
  rw [hl]
  simp only [List.length_cons, List.length_nil]
  omega

/-- **C108 is violated**: if the masses of two pairs of particles (the i-th ones and the j-th ones of the two stars) are in different ratios, the stars are torn: particles of the first star are moved by different distances. -/
theorem C108_masses_violated (G c km : ℝ) (n : ℕ) (s t : Star) (b : File) (hs : s.Has n) (ht : t.Has n) (h : make G c km s t = some b) (hk : km ≠ 0) (i j : ℕ) (p q p' q' x x' X X' : ℝ)
    (hp : s.m[i]? = some p) (hq : t.m[i]? = some q) (hp' : s.m[j]? = some p') (hq' : t.m[j]? = some q') (h1 : 0 < p) (h2 : 0 < q) (h3 : 0 < p') (h4 : 0 < q') (hne : p * q' ≠ p' * q)
    (hx : s.x[i]? = some x) (hx' : s.x[j]? = some x') (hX : b.x[i]? = some X) (hX' : b.x[j]? = some X') : X - X' ≠ -(x - x') * 10 ^ 5 := by
  obtain ⟨r, x1, x2, hr, e1, e2, hmk⟩ := make_eq G c km hs ht
  rw [hmk] at h
  obtain rfl := Option.some.inj h
  have key : ∀ (k : ℕ) (a b v V : ℝ), s.m[k]? = some a → t.m[k]? = some b → s.x[k]? = some v → (x1 ++ x2)[k]? = some V → 0 < a → 0 < b →
      V = -(v * 10 ^ 5 - mean s.m s.x) + (km * 10 ^ 5 * a / (a + b) - km * 10 ^ 5) := by
    intro k a b v V ha hb hv hV ha0 hb0
    have hlt : k < x1.length := by
      have := (List.getElem?_eq_some_iff.1 hv).1
      rw [e1, hr]; simp only [scale, List.length_zipWith, List.length_map, hs.1, hs.2.2.2.2.2, ht.2.2.2.2.2, min_self]; rw [hs.1] at this; exact this
    rw [List.getElem?_append_left hlt, e1, hr] at hV
    simp only [scale, List.getElem?_zipWith, List.getElem?_map, ha, hb, hv, Option.map_some] at hV
    have hV' := Option.some.inj hV
    rw [← hV']
    have : a + b ≠ 0 := by positivity
    have h27 : (a * 10 ^ 27 + b * 10 ^ 27) ≠ 0 := by positivity
    congr 2
    rw [div_eq_div_iff h27 this]; ring
  rw [key i p q x X hp hq hx hX h1 h2, key j p' q' x' X' hp' hq' hx' hX' h3 h4]
  intro hc
  have h5 : p + q ≠ 0 := by positivity
  have h6 : p' + q' ≠ 0 := by positivity
  have h7 : km * 10 ^ 5 * p / (p + q) = km * 10 ^ 5 * p' / (p' + q') := by linarith
  rw [div_eq_div_iff h5 h6] at h7
  have h8 : km * 10 ^ 5 * (p * q' - p' * q) = 0 := by linarith
  rcases mul_eq_zero.1 h8 with h9 | h9
  · exact hk (by linarith)
  · exact hne (by linarith)

/-! ### Examples -/

/-- A star of two particles of mass `μ`, not centred. -/
def pair (μ : ℝ) : Star := ⟨[1, 4], [0, 2], [0, 1], [1, 1], [5, 5], [μ, μ]⟩

theorem pair_has (μ : ℝ) : (pair μ).Has 2 := ⟨rfl, rfl, rfl, rfl, rfl, rfl⟩

/-- Stars of masses 2 and 6: the hypotheses of the partial theorems are met, with a separation of 45 km. -/
example : ∃ b, make 1 1 45 (pair 1) (pair 3) = some b ∧ moment b.m b.x = 0 ∧ (b.x.drop 2).sum / 2 - (b.x.take 2).sum / 2 = 45 * 10 ^ 5 ∧ b.vz.length ≠ b.x.length := by
  obtain ⟨b, hb, -⟩ := C108_particles_partial 1 1 45 2 _ _ (pair_has 1) (pair_has 3)
  have hc := C108_centre_partial 1 1 45 2 (by norm_num) 1 3 one_pos (by norm_num) _ _ b (pair_has 1) (pair_has 3) rfl rfl hb
  have ho := C108_orbit_partial 1 1 45 2 _ _ b (pair_has 1) (pair_has 3) hb one_pos one_pos (by norm_num) (by norm_num [pair]) (by norm_num [pair])
  have hs := C108_shape_partial 1 1 45 2 1 3 one_pos (by norm_num) _ _ b (pair_has 1) (pair_has 3) rfl rfl hb 0 1 (by norm_num) (by norm_num)
  exact ⟨b, hb, hc.1, by exact_mod_cast hc.2.2.2.1, C108_vz_violated 1 1 45 2 le_rfl _ _ b (pair_has 1) (pair_has 3) hb⟩

/-- A star with particles of different masses, not centred in its file: its centre is put on the x axis. -/
example : ∃ b, make 1 1 45 ⟨[1, 4], [0, 2], [0, 1], [1, 1], [5, 5], [1, 2]⟩ (pair 1) = some b ∧ moment (b.m.take 2) (b.y.take 2) = 0 := by
  obtain ⟨b, hb, -⟩ := C108_particles_partial 1 1 45 2 ⟨[1, 4], [0, 2], [0, 1], [1, 1], [5, 5], [1, 2]⟩ _ ⟨rfl, rfl, rfl, rfl, rfl, rfl⟩ (pair_has 1)
  exact ⟨b, hb, (C108_axis_partial 1 1 45 2 _ _ b ⟨rfl, rfl, rfl, rfl, rfl, rfl⟩ (pair_has 1) hb (by norm_num) (by norm_num [pair])).1⟩

/-- Stars of two and three particles are refused. -/
example : make 1 1 45 (pair 1) ⟨[1, 2, 3], [0, 0, 0], [0, 0, 0], [1, 1, 1], [5, 5, 5], [1, 1, 1]⟩ = none := C108_count_violated _ _ _ _ _ (by simp [pair]) (by simp [pair]) (by simp)

/-- A star of two particles of masses 1 and 2 beside one of two particles of mass 1 is torn: the distance along x of its particles, 3 km, changes. -/
example : ∃ b, make 1 1 45 ⟨[1, 4], [0, 2], [0, 1], [1, 1], [5, 5], [1, 2]⟩ (pair 1) = some b ∧ ∀ X X' : ℝ, b.x[0]? = some X → b.x[1]? = some X' → X - X' ≠ -(1 - 4) * 10 ^ 5 := by
  obtain ⟨b, hb, -⟩ := C108_particles_partial 1 1 45 2 ⟨[1, 4], [0, 2], [0, 1], [1, 1], [5, 5], [1, 2]⟩ _ ⟨rfl, rfl, rfl, rfl, rfl, rfl⟩ (pair_has 1)
  exact ⟨b, hb, fun X X' hX hX' => C108_masses_violated 1 1 45 2 _ _ b ⟨rfl, rfl, rfl, rfl, rfl, rfl⟩ (pair_has 1) hb (by norm_num) 0 1 1 1 2 1 1 4 X X' rfl rfl rfl rfl one_pos one_pos two_pos one_pos (by norm_num) rfl rfl hX hX'⟩

end FleCSPH.PnBinary
