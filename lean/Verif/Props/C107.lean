import Mathlib.Tactic.Linarith
import Mathlib.Tactic.FieldSimp
import Mathlib.Tactic.Ring
import Mathlib.Tactic.Positivity
import Mathlib.Tactic.NormNum
import Verif.Model.BinaryTool
/-!
C107: initial data of binary systems. The tool places two stars at a given distance on a circular orbit about their common centre of mass.
-/
namespace FleCSPH.BinaryTool

/-! ### Specification -/

/-- The sum of `m f` over particles. -/
noncomputable def moment (f : Row → ℝ) (s : List Row) : ℝ := (s.map fun p => p.m * f p).sum

/-- The centre of mass is the origin. -/
def Centred (s : List Row) : Prop := moment Row.x s = 0 ∧ moment Row.y s = 0 ∧ moment Row.z s = 0

/-- The total momentum is zero. -/
def AtRest (s : List Row) : Prop := moment Row.vx s = 0 ∧ moment Row.vy s = 0 ∧ moment Row.vz s = 0

/-- The velocity of a particle is `(ux, uy)` and that of a rigid rotation about the z axis with angular velocity `w`. -/
def Turns (w ux uy : ℝ) (q : Row) : Prop := q.vx = ux - w * q.y ∧ q.vy = uy + w * q.x

/-- The square of the distance of two particles. -/
def dist2 (p q : Row) : ℝ := (p.x - q.x) ^ 2 + (p.y - q.y) ^ 2 + (p.z - q.z) ^ 2

/-! ### Lemmas -/

theorem orbit_eq (w X Y vx vy : ℝ) (p : Row) : orbit w X Y vx vy p = { p with x := X, y := Y, vx := vx - w * Y, vy := vy + w * X } := by
  have hn : Real.sqrt (X * X + Y * Y) = ‖(⟨X, Y⟩ : ℂ)‖ := by
    rw [Complex.norm_def, Complex.normSq_mk]
  have hs := Complex.norm_mul_sin_arg ⟨X, Y⟩
  have hc := Complex.norm_mul_cos_arg ⟨X, Y⟩
  simp only [orbit, arctan2, hn, mul_assoc, hs, hc]

theorem first_eq (w off : ℝ) (p : Row) : first w off p = { p with x := p.x - off, y := p.y, vx := p.vx - w * p.y, vy := p.vy + w * (p.x - off) } := orbit_eq _ _ _ _ _ _

theorem second_eq (w off dir : ℝ) (p : Row) :
    second w off dir p = { p with x := dir * p.x + off, y := p.y, vx := dir * p.vx - w * p.y, vy := p.vy + w * (dir * p.x + off) } := orbit_eq _ _ _ _ _ _

theorem moment_append (f : Row → ℝ) (s t : List Row) : moment f (s ++ t) = moment f s + moment f t := by simp [moment]

theorem moment_single (f : Row → ℝ) (p : Row) : moment f [p] = p.m * f p := by simp [moment]

theorem total_append (s t : List Row) : total (s ++ t) = total s + total t := by simp [total]

/-- Sums over mapped rows, for a value which is an affine function of two values of the row. -/
theorem moment_map (g : Row → Row) (f f1 f2 : Row → ℝ) (a b c : ℝ) (hm : ∀ p, (g p).m = p.m) (hf : ∀ p, f (g p) = a * f1 p + b * f2 p + c) (s : List Row) :
    moment f (s.map g) = a * moment f1 s + b * moment f2 s + c * total s := by
  induction s with
  | nil => simp [moment, total]
  | cons p s ih =>
    simp only [moment, total, List.map_cons, List.sum_cons, hm, hf] at ih ⊢
    rw [ih]; ring

theorem first_m (w off : ℝ) (p : Row) : (first w off p).m = p.m := rfl
theorem second_m (w off dir : ℝ) (p : Row) : (second w off dir p).m = p.m := rfl

theorem total_first (w off : ℝ) (s : List Row) : total (s.map (first w off)) = total s := by simp [total, Function.comp_def, first_m]
theorem total_second (w off dir : ℝ) (s : List Row) : total (s.map (second w off dir)) = total s := by simp [total, Function.comp_def, second_m]

theorem first_x (w off : ℝ) (s : List Row) : moment Row.x (s.map (first w off)) = moment Row.x s - off * total s := by
  rw [moment_map (first w off) Row.x Row.x Row.x 1 0 (-off) (first_m w off) (fun p => by rw [first_eq]; ring)]; ring
theorem first_y (w off : ℝ) (s : List Row) : moment Row.y (s.map (first w off)) = moment Row.y s := by
  rw [moment_map (first w off) Row.y Row.y Row.y 1 0 0 (first_m w off) (fun p => by rw [first_eq]; ring)]; ring
theorem first_z (w off : ℝ) (s : List Row) : moment Row.z (s.map (first w off)) = moment Row.z s := by
  rw [moment_map (first w off) Row.z Row.z Row.z 1 0 0 (first_m w off) (fun p => by rw [first_eq]; ring)]; ring
theorem first_vx (w off : ℝ) (s : List Row) : moment Row.vx (s.map (first w off)) = moment Row.vx s - w * moment Row.y s := by
  rw [moment_map (first w off) Row.vx Row.vx Row.y 1 (-w) 0 (first_m w off) (fun p => by rw [first_eq]; ring)]; ring
theorem first_vy (w off : ℝ) (s : List Row) : moment Row.vy (s.map (first w off)) = moment Row.vy s + w * (moment Row.x s - off * total s) := by
  rw [moment_map (first w off) Row.vy Row.vy Row.x 1 w (-(w * off)) (first_m w off) (fun p => by rw [first_eq]; ring)]; ring
theorem first_vz (w off : ℝ) (s : List Row) : moment Row.vz (s.map (first w off)) = moment Row.vz s := by
  rw [moment_map (first w off) Row.vz Row.vz Row.vz 1 0 0 (first_m w off) (fun p => by rw [first_eq]; ring)]; ring

theorem second_x (w off d : ℝ) (s : List Row) : moment Row.x (s.map (second w off d)) = d * moment Row.x s + off * total s := by
  rw [moment_map (second w off d) Row.x Row.x Row.x d 0 off (second_m w off d) (fun p => by rw [second_eq]; ring)]; ring
theorem second_y (w off d : ℝ) (s : List Row) : moment Row.y (s.map (second w off d)) = moment Row.y s := by
  rw [moment_map (second w off d) Row.y Row.y Row.y 1 0 0 (second_m w off d) (fun p => by rw [second_eq]; ring)]; ring
theorem second_z (w off d : ℝ) (s : List Row) : moment Row.z (s.map (second w off d)) = moment Row.z s := by
  rw [moment_map (second w off d) Row.z Row.z Row.z 1 0 0 (second_m w off d) (fun p => by rw [second_eq]; ring)]; ring
theorem second_vx (w off d : ℝ) (s : List Row) : moment Row.vx (s.map (second w off d)) = d * moment Row.vx s - w * moment Row.y s := by
  rw [moment_map (second w off d) Row.vx Row.vx Row.y d (-w) 0 (second_m w off d) (fun p => by rw [second_eq]; ring)]; ring
theorem second_vy (w off d : ℝ) (s : List Row) : moment Row.vy (s.map (second w off d)) = moment Row.vy s + w * (d * moment Row.x s + off * total s) := by
  rw [moment_map (second w off d) Row.vy Row.vy Row.x 1 (w * d) (w * off) (second_m w off d) (fun p => by rw [second_eq]; ring)]; ring
theorem second_vz (w off d : ℝ) (s : List Row) : moment Row.vz (s.map (second w off d)) = moment Row.vz s := by
  rw [moment_map (second w off d) Row.vz Row.vz Row.vz 1 0 0 (second_m w off d) (fun p => by rw [second_eq]; ring)]; ring

theorem two_eq {G : ℝ} {a : Options} {s t : Star} {b : Binary} (h : make G a s (some t) = some b) :
    b.rows = s.rows.map (first (omega G (total s.rows + total t.rows) a.orbsep) (a.orbsep * total t.rows / (total s.rows + total t.rows))) ++
      t.rows.map (second (omega G (total s.rows + total t.rows) a.orbsep) (a.orbsep * total s.rows / (total s.rows + total t.rows)) a.dir2) ∧
    b.u = energies (s.rows.map Row.P ++ t.rows.map Row.P) (s.rows.map Row.m ++ t.rows.map Row.m) (s.rows.map Row.rho ++ t.rows.map Row.rho) ∧
    b.id = List.range (s.rows.length + t.rows.length) ∧ b.state = List.replicate s.rows.length 1 ++ List.replicate t.rows.length 2 := by
  simp only [make] at h
  split_ifs at h with h1 h2
  simp only [Option.map_some, Option.bind_some, Option.some.injEq] at h
  subst h
  exact ⟨rfl, rfl, rfl, rfl⟩

theorem point_eq {G : ℝ} {a : Options} {s : Star} {b : Binary} (hi : a.ident = false) (h : make G a s none = some b) :
    b.rows = s.rows.map (first (omega G (total s.rows + a.pm) a.orbsep) (a.orbsep * a.pm / (total s.rows + a.pm))) ++
      [⟨a.orbsep * total s.rows / (total s.rows + a.pm), 0, 0, 0, omega G (total s.rows + a.pm) a.orbsep * (a.orbsep * total s.rows / (total s.rows + a.pm)), 0, a.pm, a.pmd, a.pmp, a.pmh⟩] ∧
    b.id = List.range (s.rows.length + 1) ∧ b.state = List.replicate s.rows.length 1 ++ List.replicate s.rows.length 3 := by
  simp only [make, hi] at h
  split_ifs at h with h1 h2
  · simp at h2
  · simp only [Option.some.injEq] at h
    subst h
    exact ⟨rfl, rfl, rfl⟩

theorem omega_sq {G M sep : ℝ} (hG : 0 < G) (hM : 0 < M) (hs : 0 < sep) : 0 < omega G M sep ∧ omega G M sep ^ 2 * sep ^ 3 = G * M := by
  have h : 0 < G * M / sep ^ 3 := by positivity
  refine ⟨Real.sqrt_pos.2 h, ?_⟩
  rw [omega, Real.sq_sqrt h.le]
  field_simp

/-! ### Properties: two files -/

/-- **C107**: the script ends normally on two files if a separation is given and the first file has types. -/
theorem C107_runs (G : ℝ) (a : Options) (s t : Star) (ha : a.orbsep ≠ -1) (hs : s.hasType = true) : ∃ b, make G a s (some t) = some b := by
  simp [make, ha, hs]

/-- **C107**: the binary has the particles of both stars, in order, with their masses, densities, pressures, smoothing lengths and their place along the axis; the identifiers are 0, 1, 2, …, and `state` tells the star of each particle. -/
theorem C107_particles (G : ℝ) (a : Options) (s t : Star) (b : Binary) (h : make G a s (some t) = some b) :
    (b.rows.map fun q => (q.m, q.rho, q.P, q.h, q.z, q.vz)) = ((s.rows ++ t.rows).map fun p => (p.m, p.rho, p.P, p.h, p.z, p.vz)) ∧
    b.id = List.range b.rows.length ∧ b.u.length = b.rows.length ∧ b.state.length = b.rows.length ∧
    (∀ i, i < s.rows.length → b.state[i]? = some 1) ∧ (∀ i, i < t.rows.length → b.state[s.rows.length + i]? = some 2) := by
  obtain ⟨hr, hu, hi, hst⟩ := two_eq h
  refine ⟨?_, ?_, ?_, ?_, ?_, ?_⟩
  · rw [hr]; simp only [List.map_append, List.map_map]; rfl
  · rw [hi, hr]; simp
  · rw [hu, hr]; simp [energies]
  · rw [hst, hr]; simp
  · intro i hl; rw [hst, List.getElem?_append_left (by simpa using hl)]; simp [hl]
  · intro i hl; rw [hst, List.getElem?_append_right (by simp)]; simp [hl]

/-- **C107**: if the centre of mass of each star is at the origin of its file, that of the binary is at the origin, and the centres of the stars are on the x axis, the second at the given separation to the right of the first. -/
theorem C107_centre (G : ℝ) (a : Options) (s t : Star) (b : Binary) (h : make G a s (some t) = some b)
    (hs : Centred s.rows) (ht : Centred t.rows) (hM : 0 < total s.rows) (hN : 0 < total t.rows) :
    Centred b.rows ∧ total b.rows = total s.rows + total t.rows ∧
    moment Row.x (b.rows.drop s.rows.length) / total t.rows - moment Row.x (b.rows.take s.rows.length) / total s.rows = a.orbsep ∧
    moment Row.y (b.rows.take s.rows.length) = 0 ∧ moment Row.z (b.rows.take s.rows.length) = 0 ∧
    moment Row.y (b.rows.drop s.rows.length) = 0 ∧ moment Row.z (b.rows.drop s.rows.length) = 0 := by
  obtain ⟨hr, -⟩ := two_eq h
  obtain ⟨sx, sy, sz⟩ := hs
  obtain ⟨tx, ty, tz⟩ := ht
  have hne : total s.rows + total t.rows ≠ 0 := by positivity
  have htk := List.take_left' (l₁ := s.rows.map (first (omega G (total s.rows + total t.rows) a.orbsep) (a.orbsep * total t.rows / (total s.rows + total t.rows))))
    (l₂ := t.rows.map (second (omega G (total s.rows + total t.rows) a.orbsep) (a.orbsep * total s.rows / (total s.rows + total t.rows)) a.dir2))
    (i := s.rows.length) (by simp)
  have hdr := List.drop_left' (l₁ := s.rows.map (first (omega G (total s.rows + total t.rows) a.orbsep) (a.orbsep * total t.rows / (total s.rows + total t.rows))))
    (l₂ := t.rows.map (second (omega G (total s.rows + total t.rows) a.orbsep) (a.orbsep * total s.rows / (total s.rows + total t.rows)) a.dir2))
    (i := s.rows.length) (by simp)
  rw [hr, htk, hdr]
  refine ⟨⟨?_, ?_, ?_⟩, ?_, ?_, ?_, ?_, ?_, ?_⟩
  · rw [moment_append, first_x, second_x, sx, tx]; field_simp; ring
  · rw [moment_append, first_y, second_y, sy, ty, add_zero]
  · rw [moment_append, first_z, second_z, sz, tz, add_zero]
  · rw [total_append, total_first, total_second]
  · rw [first_x, second_x, sx, tx]; field_simp; ring
  · rw [first_y, sy]
  · rw [first_z, sz]
  · rw [second_y, ty]
  · rw [second_z, tz]

/-- **C107**: if moreover each star is at rest, the binary has no momentum. -/
theorem C107_momentum (G : ℝ) (a : Options) (s t : Star) (b : Binary) (h : make G a s (some t) = some b)
    (hs : Centred s.rows) (ht : Centred t.rows) (hs' : AtRest s.rows) (ht' : AtRest t.rows) (hM : 0 < total s.rows) (hN : 0 < total t.rows) : AtRest b.rows := by
  obtain ⟨hr, -⟩ := two_eq h
  obtain ⟨sx, sy, sz⟩ := hs
  obtain ⟨tx, ty, tz⟩ := ht
  obtain ⟨ux, uy, uz⟩ := hs'
  obtain ⟨vx, vy, vz⟩ := ht'
  have hne : total s.rows + total t.rows ≠ 0 := by positivity
  rw [hr]
  refine ⟨?_, ?_, ?_⟩
  · rw [moment_append, first_vx, second_vx, sy, ty, ux, vx]; ring
  · rw [moment_append, first_vy, second_vy, sx, tx, uy, vy]; field_simp; ring
  · rw [moment_append, first_vz, second_vz, uz, vz, add_zero]

/-- **C107**: every particle turns about the z axis with one angular velocity, besides its velocity within its star, and this is the velocity of the circular orbit of two points with the masses of the stars at the given separation: the
attraction of the stars is the centripetal force of each of them. -/
theorem C107_orbit (G : ℝ) (a : Options) (s t : Star) (b : Binary) (h : make G a s (some t) = some b)
    (hG : 0 < G) (ha : 0 < a.orbsep) (hM : 0 < total s.rows) (hN : 0 < total t.rows) :
    ∃ w, 0 < w ∧ List.Forall₂ (fun p q => Turns w p.vx p.vy q) s.rows (b.rows.take s.rows.length) ∧
      List.Forall₂ (fun p q => Turns w (a.dir2 * p.vx) p.vy q) t.rows (b.rows.drop s.rows.length) ∧
      (Centred s.rows → total s.rows * w ^ 2 * (-(moment Row.x (b.rows.take s.rows.length) / total s.rows)) = G * total s.rows * total t.rows / a.orbsep ^ 2) ∧
      (Centred t.rows → total t.rows * w ^ 2 * (moment Row.x (b.rows.drop s.rows.length) / total t.rows) = G * total s.rows * total t.rows / a.orbsep ^ 2) := by
  obtain ⟨hr, -⟩ := two_eq h
  obtain ⟨hw, hk⟩ := omega_sq hG (add_pos hM hN) ha
  have htk := List.take_left' (l₁ := s.rows.map (first (omega G (total s.rows + total t.rows) a.orbsep) (a.orbsep * total t.rows / (total s.rows + total t.rows))))
    (l₂ := t.rows.map (second (omega G (total s.rows + total t.rows) a.orbsep) (a.orbsep * total s.rows / (total s.rows + total t.rows)) a.dir2))
    (i := s.rows.length) (by simp)
  have hdr := List.drop_left' (l₁ := s.rows.map (first (omega G (total s.rows + total t.rows) a.orbsep) (a.orbsep * total t.rows / (total s.rows + total t.rows))))
    (l₂ := t.rows.map (second (omega G (total s.rows + total t.rows) a.orbsep) (a.orbsep * total s.rows / (total s.rows + total t.rows)) a.dir2))
    (i := s.rows.length) (by simp)
  have hne : total s.rows + total t.rows ≠ 0 := by positivity
  rw [hr, htk, hdr]
  generalize omega G (total s.rows + total t.rows) a.orbsep = w at hw hk ⊢
  have hw2 : w ^ 2 = G * (total s.rows + total t.rows) / a.orbsep ^ 3 := by rw [eq_div_iff (by positivity)]; exact hk
  refine ⟨w, hw, ?_, ?_, ?_, ?_⟩
  · rw [List.forall₂_map_right_iff, List.forall₂_same]
    intro p _; rw [first_eq]; exact ⟨rfl, rfl⟩
  · rw [List.forall₂_map_right_iff, List.forall₂_same]
    intro p _; rw [second_eq]; exact ⟨rfl, rfl⟩
  · rintro ⟨sx, -, -⟩
    rw [first_x, sx, hw2]; field_simp; ring
  · rintro ⟨tx, -, -⟩
    rw [second_x, tx, hw2]; field_simp; ring

/-- **C107**: the shape of each star is kept: distances within it are those of its file, for both orientations of the second. -/
theorem C107_shape (G : ℝ) (a : Options) (s t : Star) (b : Binary) (h : make G a s (some t) = some b) (hd : a.dir2 = 1 ∨ a.dir2 = -1) :
    (∀ (i j : ℕ) (p p' q q' : Row), s.rows[i]? = some p → s.rows[j]? = some p' → b.rows[i]? = some q → b.rows[j]? = some q' → dist2 q q' = dist2 p p') ∧
    (∀ (i j : ℕ) (p p' q q' : Row), t.rows[i]? = some p → t.rows[j]? = some p' → b.rows[s.rows.length + i]? = some q → b.rows[s.rows.length + j]? = some q' → dist2 q q' = dist2 p p') := by
  obtain ⟨hr, -⟩ := two_eq h
  have key : ∀ {i : ℕ} {p q : Row}, s.rows[i]? = some p → b.rows[i]? = some q → q = first (omega G (total s.rows + total t.rows) a.orbsep) (a.orbsep * total t.rows / (total s.rows + total t.rows)) p := by
    intro i p q hp hq
    have hl := (List.getElem?_eq_some_iff.1 hp).1
    rw [hr, List.getElem?_append_left (by simpa using hl), List.getElem?_map, hp] at hq
    exact (Option.some.inj hq).symm
  have key2 : ∀ {i : ℕ} {p q : Row}, t.rows[i]? = some p → b.rows[s.rows.length + i]? = some q →
      q = second (omega G (total s.rows + total t.rows) a.orbsep) (a.orbsep * total s.rows / (total s.rows + total t.rows)) a.dir2 p := by
    intro i p q hp hq
    rw [hr, List.getElem?_append_right (by simp), List.length_map, Nat.add_sub_cancel_left, List.getElem?_map, hp] at hq
    exact (Option.some.inj hq).symm
  constructor
  · intro i j p p' q q' h1 h2 h3 h4
    rw [key h1 h3, key h2 h4, first_eq, first_eq]; simp only [dist2]; ring
  · intro i j p p' q q' h1 h2 h3 h4
    rw [key2 h1 h3, key2 h2 h4, second_eq, second_eq]
    rcases hd with hd | hd <;> simp only [dist2, hd] <;> push_cast <;> ring

/-! ### Properties: one file and a point mass -/

/-- **C107** (partial: the data set `state` is wrong, see `C107_state_violated`): with a point mass, the binary has its centre of mass at the origin and no momentum, and the point mass is at the given separation from the centre of the star. -/
theorem C107_point_partial (G : ℝ) (a : Options) (s : Star) (b : Binary) (hi : a.ident = false) (h : make G a s none = some b)
    (hs : Centred s.rows) (hs' : AtRest s.rows) (hM : 0 < total s.rows) (hm : 0 < a.pm) :
    Centred b.rows ∧ AtRest b.rows ∧ total b.rows = total s.rows + a.pm ∧ b.id = List.range b.rows.length ∧
    ∃ q, b.rows[s.rows.length]? = some q ∧ q.m = a.pm ∧ q.x - moment Row.x (b.rows.take s.rows.length) / total s.rows = a.orbsep := by
  obtain ⟨hr, hid, -⟩ := point_eq hi h
  obtain ⟨sx, sy, sz⟩ := hs
  obtain ⟨ux, uy, uz⟩ := hs'
  have hne : total s.rows + a.pm ≠ 0 := by positivity
  have htk : ∀ r, (s.rows.map (first (omega G (total s.rows + a.pm) a.orbsep) (a.orbsep * a.pm / (total s.rows + a.pm))) ++ r).take s.rows.length =
      s.rows.map (first (omega G (total s.rows + a.pm) a.orbsep) (a.orbsep * a.pm / (total s.rows + a.pm))) := fun r => List.take_left' (by simp)
  refine ⟨⟨?_, ?_, ?_⟩, ⟨?_, ?_, ?_⟩, ?_, ?_, ?_⟩
  · rw [hr, moment_append, moment_single, first_x, sx]; dsimp only; field_simp; ring
  · rw [hr, moment_append, moment_single, first_y, sy]; dsimp only; ring
  · rw [hr, moment_append, moment_single, first_z, sz]; dsimp only; ring
  · rw [hr, moment_append, moment_single, first_vx, sy, ux]; dsimp only; ring
  · rw [hr, moment_append, moment_single, first_vy, sx, uy]; dsimp only; field_simp; ring
  · rw [hr, moment_append, moment_single, first_vz, uz]; dsimp only; ring
  · rw [hr, total_append, total_first]; simp [total]
  · rw [hid, hr]; simp
  · rw [hr, htk, List.getElem?_append_right (by simp)]
    refine ⟨_, by simp; rfl, rfl, ?_⟩
    rw [first_x, sx]; dsimp only; field_simp; ring

/-- **C107** (partial as `C107_point_partial`): the particles of the star keep their masses, densities, pressures and smoothing lengths, the point mass has those of the options; all turn about the z axis with the angular velocity of the circular
orbit: the attraction is the centripetal force of the point mass. -/
theorem C107_point_orbit_partial (G : ℝ) (a : Options) (s : Star) (b : Binary) (hi : a.ident = false) (h : make G a s none = some b)
    (hG : 0 < G) (ha : 0 < a.orbsep) (hM : 0 < total s.rows) (hm : 0 < a.pm) :
    ((b.rows.take s.rows.length).map fun q => (q.m, q.rho, q.P, q.h, q.z, q.vz)) = (s.rows.map fun p => (p.m, p.rho, p.P, p.h, p.z, p.vz)) ∧
    ∃ w, 0 < w ∧ List.Forall₂ (fun p q => Turns w p.vx p.vy q) s.rows (b.rows.take s.rows.length) ∧
      ∃ q, b.rows.drop s.rows.length = [q] ∧ (q.m, q.rho, q.P, q.h) = (a.pm, a.pmd, a.pmp, a.pmh) ∧ Turns w 0 0 q ∧ q.m * w ^ 2 * q.x = G * total s.rows * a.pm / a.orbsep ^ 2 := by
  obtain ⟨hr, -, -⟩ := point_eq hi h
  obtain ⟨hw, hk⟩ := omega_sq hG (add_pos hM hm) ha
  have hne : total s.rows + a.pm ≠ 0 := by positivity
  rw [hr, List.take_left' (by simp), List.drop_left' (by simp)]
  generalize omega G (total s.rows + a.pm) a.orbsep = w at hw hk ⊢
  have hw2 : w ^ 2 = G * (total s.rows + a.pm) / a.orbsep ^ 3 := by rw [eq_div_iff (by positivity)]; exact hk
  refine ⟨by rw [List.map_map]; rfl, w, hw, ?_, _, rfl, rfl, ⟨by simp, by simp⟩, ?_⟩
  · rw [List.forall₂_map_right_iff, List.forall₂_same]
    intro p _; rw [first_eq]; exact ⟨rfl, rfl⟩
  · dsimp only; rw [hw2]; field_simp

/-! ### Where the tool departs from the property -/

/-- **C107 is violated**: with a point mass the data set `state` has not one value for each particle, whatever the star, unless it is a single particle. -/
theorem C107_state_violated (G : ℝ) (a : Options) (s : Star) (b : Binary) (hi : a.ident = false) (h : make G a s none = some b) (hn : s.rows.length ≠ 1) :
    b.state.length ≠ b.rows.length := by
  obtain ⟨hr, -, hst⟩ := point_eq hi h
  rw [hr, hst]
  simp only [List.length_append, List.length_replicate, List.length_map, List.length_singleton]
  omega

/-- **C107 is violated**: the example of the help text, one file and two identical stars, never ends normally: the energies of the second star are read from arrays which do not exist. -/
theorem C107_identical_violated (G : ℝ) (a : Options) (s : Star) (hi : a.ident = true) : make G a s none = none := by
  simp [make, hi]

/-- **C107 is violated**: two files of which the first has no data set `type` are refused by an exception, although the tool is written to take zeros in this case. -/
theorem C107_type_violated (G : ℝ) (a : Options) (s t : Star) (hs : s.hasType = false) : make G a s (some t) = none := by
  simp [make, hs]

/-- **C107 is violated**: the energies written are those of the particles, not the specific ones which the code reads: for a gas with `P = (2/3) rho u` they are `m u`, the specific energy only if the particle has the mass 1 (or no pressure). -/
theorem C107_energy_violated (G : ℝ) (a : Options) (s t : Star) (b : Binary) (h : make G a s (some t) = some b) (i : ℕ) (p : Row) (e : ℝ)
    (hp : (s.rows ++ t.rows)[i]? = some p) (hr : 0 < p.rho) (hP : 0 < p.P) (hm : p.m ≠ 1) (he : b.u[i]? = some e) : p.P ≠ 2 / 3 * p.rho * e := by
  obtain ⟨-, hu, -⟩ := two_eq h
  rw [hu, energies, ← List.map_append, ← List.map_append, ← List.map_append] at he
  simp only [List.getElem?_zipWith, List.getElem?_map, hp, Option.map_some] at he
  have he' := Option.some.inj he
  intro hc
  rw [← he'] at hc
  have : p.P * (1 - p.m) = 0 := by
    have h2 : 2 / 3 * p.rho * (3 / 2 * p.P * p.m / p.rho) = p.P * p.m := by field_simp
    linarith
  rcases mul_eq_zero.1 this with h0 | h0
  · exact hP.ne' h0
  · exact hm (by linarith)

/-! ### Examples -/

/-- A star of two particles which turns: centred and at rest. -/
def pair (m : ℝ) : Star := ⟨[⟨1, 2, 0, 3, 0, 0, m, 1, 5, 1⟩, ⟨-1, -2, 0, -3, 0, 0, m, 1, 5, 1⟩], true⟩

theorem pair_centred (m : ℝ) : Centred (pair m).rows := by
  refine ⟨?_, ?_, ?_⟩ <;> simp [moment, pair]
theorem pair_rest (m : ℝ) : AtRest (pair m).rows := by
  refine ⟨?_, ?_, ?_⟩ <;> simp [moment, pair]
theorem pair_total (m : ℝ) : total (pair m).rows = 2 * m := by simp [total, pair]; ring

/-- Options with a separation of 10 and a point mass of 5; the second star mirrored. -/
def opts (i : Bool) : Options := ⟨i, 5, 10, 1, 1, 0, 1, -1⟩

/-- Stars of masses 2 and 6 at the separation 10: the hypotheses of the theorems on two files are met. -/
example : ∃ b, make 1 (opts false) (pair 1) (some (pair 3)) = some b ∧ Centred b.rows ∧ AtRest b.rows ∧ total b.rows = 8 := by
  obtain ⟨b, hb⟩ := C107_runs 1 (opts false) (pair 1) (pair 3) (by norm_num [opts]) rfl
  have h1 : 0 < total (pair 1).rows := by rw [pair_total]; norm_num
  have h3 : 0 < total (pair 3).rows := by rw [pair_total]; norm_num
  have hc := C107_centre 1 _ _ _ b hb (pair_centred 1) (pair_centred 3) h1 h3
  refine ⟨b, hb, hc.1, C107_momentum 1 _ _ _ b hb (pair_centred 1) (pair_centred 3) (pair_rest 1) (pair_rest 3) h1 h3, ?_⟩
  rw [hc.2.1, pair_total, pair_total]; norm_num

/-- The angular velocity there: its square is 8/1000. -/
example : ∃ b, make 1 (opts false) (pair 1) (some (pair 3)) = some b ∧ ∃ w, 0 < w ∧ total (pair 1).rows * w ^ 2 * (-(moment Row.x (b.rows.take 2) / total (pair 1).rows)) = 12 / 100 := by
  obtain ⟨b, hb⟩ := C107_runs 1 (opts false) (pair 1) (pair 3) (by norm_num [opts]) rfl
  have h1 : 0 < total (pair 1).rows := by rw [pair_total]; norm_num
  have h3 : 0 < total (pair 3).rows := by rw [pair_total]; norm_num
  obtain ⟨w, hw, -, -, hf, -⟩ := C107_orbit 1 _ _ _ b hb one_pos (by norm_num [opts]) h1 h3
  refine ⟨b, hb, w, hw, ?_⟩
  have := hf (pair_centred 1)
  rw [pair_total, pair_total] at this
  rw [pair_total]
  rw [show (pair 1).rows.length = 2 from rfl] at this
  rw [this]; norm_num [opts]

/-- The energy of a particle of mass 3 there is three times the specific one: 22.5 for 7.5. -/
example : ∃ b, make 1 (opts false) (pair 1) (some (pair 3)) = some b ∧ b.u[2]? = some (45 / 2) := by
  obtain ⟨b, hb⟩ := C107_runs 1 (opts false) (pair 1) (pair 3) (by norm_num [opts]) rfl
  refine ⟨b, hb, ?_⟩
  rw [(two_eq hb).2.1]
  simp [energies, pair]; norm_num

/-- A star of mass 2 and a point mass of 5: the hypotheses of `C107_point_partial` and `C107_state_violated` are met. -/
example : ∃ b, make 1 (opts false) (pair 1) none = some b ∧ Centred b.rows ∧ AtRest b.rows ∧ b.state.length ≠ b.rows.length := by
  obtain ⟨b, hb⟩ : ∃ b, make 1 (opts false) (pair 1) none = some b := by
    have : ¬ ((10 : ℝ) = -1) := by norm_num
    simp [make, opts, this]
  have hc := C107_point_partial 1 (opts false) (pair 1) b rfl hb (pair_centred 1) (pair_rest 1) (by rw [pair_total]; norm_num) (by norm_num [opts])
  obtain ⟨-, w, -⟩ := C107_point_orbit_partial 1 (opts false) (pair 1) b rfl hb one_pos (by norm_num [opts]) (by rw [pair_total]; norm_num) (by norm_num [opts])
  exact ⟨b, hb, hc.1, hc.2.1, C107_state_violated 1 _ _ b rfl hb (by simp [pair])⟩

end FleCSPH.BinaryTool
