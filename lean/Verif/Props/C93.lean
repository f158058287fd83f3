import Verif.Lemmas.KhGen
/-!
C93: the layers of Kelvin-Helmholtz data fill the periodic box. `KhGen.generate` is app/id_generators/KH/main.cc in two dimensions, `KhLayers.layer` is in `Spec/KhLayers.lean`; `Ok` in `Lemmas/KhGen.lean` holds the
restrictions of the parameters: positive extents, one of the lattices 0, 1, 2, at most 8000 particles in a row and at least one, and a separation of at most a third of the width.
-/
namespace FleCSPH.KhGen
noncomputable section
open KhLayers

/-- The position of a particle. -/
def xy (p : Particle) : ℝ × ℝ := (p.x, p.y)

/-- The generator ends and writes these particles. -/
def Writes (P : Params) (l : List Particle) : Prop := ∃ F, ∀ fuel ≥ F, generate P fuel = some l

/-- What the generator writes: a middle layer of `r + 1` rows from `-a` to `a`, a top layer of `q` rows from `b` on and a bottom layer of `q + 1` rows from `-W/2` to `-b`; the distance of rows is `d` in the middle and `d'` outside,
the top layer ends one such distance below `W/2`, and in every row the particles are equally spaced over the periodic length. Every particle has the state of its layer and as mass its density times the area of its cell. -/
def Layers (P : Params) (r q N : ℕ) (a b d d' : ℝ) (mid top bot : List Particle) : Prop :=
  let L := P.box_length
  let W := P.box_width
  let sh := if P.lattice_type = 0 then straight else staggered
  (1 ≤ N ∧ 0 < d ∧ 0 < d' ∧ 0 ≤ a ∧ a < b ∧ r * d = 2 * a ∧ b + q * d' = W / 2 ∧ (P.lattice_type ≠ 0 → r % 2 = 0 ∧ q % 2 = 0)) ∧
  mid.map xy = layer L P.nx (r + 1) sh (fun j => -a + j * d) ∧
  top.map xy = layer L N q sh (fun j => b + j * d') ∧
  bot.map xy = layer L N (q + 1) sh (fun j => -W / 2 + j * d') ∧
  (∀ p ∈ mid, p.vx = P.flow_velocity / 2 ∧ p.rho = P.rho_initial * P.density_ratio ∧ p.P = P.pressure_initial ∧ p.u = P.pressure_initial / ((P.poly_gamma - 1) * p.rho) ∧ p.m = p.rho * (L / P.nx * d)) ∧
  ∀ p ∈ top ++ bot, p.vx = -P.flow_velocity / 2 ∧ p.rho = P.rho_initial ∧ p.P = P.pressure_initial ∧ p.u = P.pressure_initial / ((P.poly_gamma - 1) * p.rho) ∧ p.m = p.rho * (L / N * d')

private theorem layers_aux {P : Params} (h : Ok P) : ∃ (N r q : ℕ) (sx y0 ys : ℝ), nxT P = N ∧ wM P = r * dy P (sep P) ∧ wT P = q * dy P (sepT P) ∧ 0 < gap P ∧ sx = N * sepT P / P.box_length ∧
    y0 = wM P / 2 + gap P ∧ ys = P.box_width / 2 / (y0 + sx * wT P) ∧ 0 < sx ∧ 0 < y0 ∧ 0 < ys ∧ (y0 + sx * wT P) * ys = P.box_width / 2 ∧ wM P ≤ P.box_width / 3 ∧
    ∃ mid top bot, Writes P (mid ++ (top ++ bot)) ∧
      Layers P r q N (wM P / 2 * ys) (y0 * ys) (dy P (sep P) * ys) (sx * dy P (sepT P) * ys) mid top bot ∧ ∀ p ∈ mid ++ (top ++ bot), p.vy = perturbation P p.x p.y := by
  obtain ⟨N, hN, hN1, hN2⟩ := h.nxT
  obtain ⟨a, b, hr, hq, hw3, hg⟩ := h.rows
  obtain ⟨sx, hsx⟩ : ∃ sx, sx = N * sepT P / P.box_length := ⟨_, rfl⟩
  obtain ⟨y0, hy0⟩ : ∃ y0, y0 = wM P / 2 + gap P := ⟨_, rfl⟩
  obtain ⟨ys, hys⟩ : ∃ ys, ys = P.box_width / 2 / (y0 + sx * wT P) := ⟨_, rfl⟩
  have hN0 : (0 : ℝ) < N := by exact_mod_cast hN1
  have hL := h.length
  have hW := h.width
  have p1 := h.sep_pos
  have p2 := h.sepT_pos
  have hd0 : 0 < dy P (sep P) := by linarith [(h.dy_bounds h.sep_pos).1]
  have hdT0 : 0 < dy P (sepT P) := by linarith [(h.dy_bounds h.sepT_pos).1]
  have hsx0 : 0 < sx := by rw [hsx]; positivity
  have hw0 : 0 ≤ wM P := by rw [hr]; positivity
  have hT0 : 0 ≤ wT P := by rw [hq]; positivity
  have hy00 : 0 < y0 := by rw [hy0]; linarith
  have hys0 : 0 < ys := by rw [hys]; positivity
  have hyW : (y0 + sx * wT P) * ys = P.box_width / 2 := by
    rw [hys, mul_div_cancel₀]
    positivity
  refine ⟨N, period P * a, period P * b, sx, y0, ys, hN, hr, hq, hg, hsx, hy0, hys, hsx0, hy00, hys0, hyW, hw3, _, _, _,
    ⟨P.nx + N + period P * a + period P * b + 2, fun fuel hf => h.generate hN hN1 hN2 hr hq hg fuel (by omega) hsx hy0 hys⟩, ?_, ?_⟩
  · have hxy : ∀ mid, xy ∘ make P ys mid = id := fun mid => funext fun p => rfl
    refine ⟨⟨hN1, by positivity, by positivity, by positivity, ?_, ?_, ?_, ?_⟩, ?_, ?_, ?_, ?_, ?_⟩
    · rw [hy0]; nlinarith
    · rw [hr]; ring
    · rw [← hyW, hq]; ring
    · intro hl
      rw [period, if_neg hl]
      omega
    · rw [List.map_map, hxy, List.map_id]
      exact congrArg _ (funext fun j => by ring)
    · rw [List.map_map, hxy, List.map_id]
      exact congrArg _ (funext fun j => by ring)
    · rw [List.map_map, hxy, List.map_id]
      refine congrArg _ (funext fun j => ?_)
      rw [show -P.box_width / 2 = -(P.box_width / 2) by ring, ← hyW]
      ring
    · intro p hp
      obtain ⟨p, -, rfl⟩ := List.mem_map.1 hp
      refine ⟨if_pos trivial, if_pos trivial, rfl, by simp only [make, if_true, div_div], ?_⟩
      simp only [make, if_true]
      unfold pmass0 dy sep
      split_ifs <;> ring
    · intro p hp
      rw [← List.map_append] at hp
      obtain ⟨p, -, rfl⟩ := List.mem_map.1 hp
      refine ⟨if_neg not_false, if_neg not_false, rfl, by simp only [make, if_false, div_div], ?_⟩
      simp only [make, if_false]
      have e : P.box_length / N * (sx * dy P (sepT P) * ys) = sepT P * dy P (sepT P) * ys := by
        rw [hsx]; field_simp
      rw [e]
      have hs2 := Real.mul_self_sqrt h.ratio.le
      unfold pmass0 dy rhoM
      rw [sepT]
      split_ifs
      · linear_combination (-(rhoT P * sep P * sep P * (√3 / 2) * ys)) * hs2
      · linear_combination (-(rhoT P * sep P * sep P * ys)) * hs2
  · intro p hp
    simp only [List.mem_append, List.mem_map] at hp
    rcases hp with ⟨p, -, rfl⟩ | ⟨p, -, rfl⟩ | ⟨p, -, rfl⟩ <;> rfl

/-- With parameters in the range `Ok` the generator ends and writes three layers which fill the box. -/
theorem C93_layers_partial (P : Params) (h : Ok P) :
    ∃ (r q N : ℕ) (a b d d' : ℝ) (mid top bot : List Particle), Writes P (mid ++ (top ++ bot)) ∧ Layers P r q N a b d d' mid top bot := by
  obtain ⟨N, r, q, sx, y0, ys, -, -, -, -, -, -, -, -, -, -, -, -, mid, top, bot, h1, h2, -⟩ := layers_aux h
  exact ⟨r, q, N, _, _, _, _, mid, top, bot, h1, h2⟩

private theorem writes_unique {P : Params} {l l' : List Particle} (h : Writes P l) (h' : Writes P l') : l = l' := by
  obtain ⟨F, h⟩ := h
  obtain ⟨F', h'⟩ := h'
  exact Option.some_inj.mp ((h (F + F') (by omega)).symm.trans (h' (F + F') (by omega)))

private theorem mem_layer {L : ℝ} {n r : ℕ} {sh hgt : ℕ → ℝ} {x y : ℝ} : (x, y) ∈ layer L n r sh hgt ↔ ∃ j < r, ∃ i < n, x = -L / 2 + (i + sh j) * (L / n) ∧ y = hgt j := by
  unfold layer
  simp only [List.mem_flatMap, List.mem_map, List.mem_range, Prod.mk.injEq]
  constructor
  · rintro ⟨j, hj, i, hi, h1, h2⟩; exact ⟨j, hj, i, hi, h1.symm, h2.symm⟩
  · rintro ⟨j, hj, i, hi, h1, h2⟩; exact ⟨j, hj, i, hi, h1.symm, h2.symm⟩

/-- Every particle is in the box, none on its upper faces. -/
theorem C93_inside_partial (P : Params) (h : Ok P) (l : List Particle) (hl : Writes P l) :
    ∀ p ∈ l, -P.box_length / 2 < p.x ∧ p.x < P.box_length / 2 ∧ -P.box_width / 2 ≤ p.y ∧ p.y < P.box_width / 2 := by
  obtain ⟨r, q, N, a, b, d, d', mid, top, bot, h1, ⟨h2, h3, h4, h5, h6, h7, h8, -⟩, m1, m2, m3, -, -⟩ := C93_layers_partial P h
  have hL := h.length
  have hsh : ∀ j, 0 < (if P.lattice_type = 0 then straight else staggered) j ∧ (if P.lattice_type = 0 then straight else staggered) j < 1 := by
    intro j
    by_cases h0 : P.lattice_type = 0
    · rw [if_pos h0]; norm_num [straight]
    · rw [if_neg h0]
      unfold staggered
      split_ifs <;> norm_num
  have hx : ∀ n i j : ℕ, i < n → -P.box_length / 2 < -P.box_length / 2 + (i + (if P.lattice_type = 0 then straight else staggered) j) * (P.box_length / n) ∧
      -P.box_length / 2 + (i + (if P.lattice_type = 0 then straight else staggered) j) * (P.box_length / n) < P.box_length / 2 := by
    intro n i j hi
    have hn : (0 : ℝ) < n := by exact_mod_cast (by omega : 0 < n)
    have hi' : (i : ℝ) + 1 ≤ n := by exact_mod_cast hi
    obtain ⟨s1, s2⟩ := hsh j
    have t1 : 0 < ((i : ℝ) + (if P.lattice_type = 0 then straight else staggered) j) * (P.box_length / n) := by positivity
    have t2 : ((i : ℝ) + (if P.lattice_type = 0 then straight else staggered) j) * (P.box_length / n) < n * (P.box_length / n) :=
      mul_lt_mul_of_pos_right (by linarith) (by positivity)
    rw [mul_div_cancel₀ _ hn.ne'] at t2
    constructor <;> linarith
  rw [writes_unique hl h1]
  intro p hp
  rcases List.mem_append.1 hp with hp | hp
  · have : xy p ∈ mid.map xy := List.mem_map_of_mem hp
    rw [m1] at this
    obtain ⟨j, hj, i, hi, e1, e2⟩ := mem_layer.1 this
    have t : (j : ℝ) * d ≤ r * d := mul_le_mul_of_nonneg_right (by exact_mod_cast Nat.lt_succ_iff.1 hj) h3.le
    have t' : (0 : ℝ) ≤ j * d := by positivity
    have t'' : (0 : ℝ) ≤ q * d' := by positivity
    refine ⟨e1 ▸ (hx _ i j hi).1, e1 ▸ (hx _ i j hi).2, ?_, ?_⟩ <;> rw [e2] <;> linarith
  · rcases List.mem_append.1 hp with hp | hp
    · have : xy p ∈ top.map xy := List.mem_map_of_mem hp
      rw [m2] at this
      obtain ⟨j, hj, i, hi, e1, e2⟩ := mem_layer.1 this
      have t : (j : ℝ) * d' < q * d' := mul_lt_mul_of_pos_right (by exact_mod_cast hj) h4
      have t' : (0 : ℝ) ≤ j * d' := by positivity
      refine ⟨e1 ▸ (hx _ i j hi).1, e1 ▸ (hx _ i j hi).2, ?_, ?_⟩ <;> rw [e2] <;> linarith
    · have : xy p ∈ bot.map xy := List.mem_map_of_mem hp
      rw [m3] at this
      obtain ⟨j, hj, i, hi, e1, e2⟩ := mem_layer.1 this
      have t : (j : ℝ) * d' ≤ q * d' := mul_le_mul_of_nonneg_right (by exact_mod_cast Nat.lt_succ_iff.1 hj) h4.le
      have t' : (0 : ℝ) ≤ j * d' := by positivity
      refine ⟨e1 ▸ (hx _ i j hi).1, e1 ▸ (hx _ i j hi).2, ?_, ?_⟩ <;> rw [e2] <;> linarith

private theorem perturbation_neg (P : Params) (x y : ℝ) : perturbation P x (-y) = -perturbation P x y := by
  have hs : P.KH_A * Real.sin (-2 * Real.pi * (x + 1 / 2) / P.KH_lambda) = -(P.KH_A * Real.sin (2 * Real.pi * (x + 1 / 2) / P.KH_lambda)) := by
    rw [show -2 * Real.pi * (x + 1 / 2) / P.KH_lambda = -(2 * Real.pi * (x + 1 / 2) / P.KH_lambda) by ring, Real.sin_neg]
    ring
  have e1 : (-y < 1 / 4 ∧ -y > 1 / 4 - 25 / 1000) ↔ (y > -(1 / 4) ∧ y < -(1 / 4) + 25 / 1000) := by constructor <;> rintro ⟨h1, h2⟩ <;> constructor <;> linarith
  have e2 : (-y > -(1 / 4) ∧ -y < -(1 / 4) + 25 / 1000) ↔ (y < 1 / 4 ∧ y > 1 / 4 - 25 / 1000) := by constructor <;> rintro ⟨h1, h2⟩ <;> constructor <;> linarith
  unfold perturbation
  dsimp only
  rw [hs]
  simp only [e1, e2]
  by_cases c1 : y < 1 / 4 ∧ y > 1 / 4 - 25 / 1000
  · have c2 : ¬ (y > -(1 / 4) ∧ y < -(1 / 4) + 25 / 1000) := fun h => by linarith [h.2, c1.2]
    rw [if_pos c1, if_neg c2, if_pos c1, neg_neg]
  · by_cases c2 : y > -(1 / 4) ∧ y < -(1 / 4) + 25 / 1000
    · rw [if_neg c1, if_pos c2, if_pos c2]
    · rw [if_neg c1, if_neg c2, if_neg c2, if_neg c1, neg_zero]

/-- The data is symmetric: to every particle above the lower face belongs one at the mirrored height with the same velocity along the layers, density and mass, and with the opposite perturbation. -/
theorem C93_symmetric_partial (P : Params) (h : Ok P) (l : List Particle) (hl : Writes P l) :
    ∀ p ∈ l, p.y ≠ -P.box_width / 2 → ∃ p' ∈ l, p'.x = p.x ∧ p'.y = -p.y ∧ p'.vx = p.vx ∧ p'.vy = -p.vy ∧ p'.rho = p.rho ∧ p'.m = p.m := by
  obtain ⟨N, r, q, sx, y0, ys, -, -, -, -, -, -, -, -, -, -, -, -, mid, top, bot, h1, hlay, hvy⟩ := layers_aux h
  generalize wM P / 2 * ys = a, y0 * ys = b, dy P (sep P) * ys = d, sx * dy P (sepT P) * ys = d' at hlay
  obtain ⟨⟨h2, h3, h4, h5, h6, h7, h8, hev⟩, m1, m2, m3, s1, s2⟩ := hlay
  rw [writes_unique hl h1]
  obtain ⟨sh, hsh⟩ : ∃ sh, sh = (if P.lattice_type = 0 then straight else staggered) := ⟨_, rfl⟩
  rw [← hsh] at m1 m2 m3
  have hpar : ∀ n j : ℕ, j ≤ n → (P.lattice_type ≠ 0 → n % 2 = 0) → sh (n - j) = sh j := by
    intro n j hj hn
    rw [hsh]
    by_cases h0 : P.lattice_type = 0
    · rw [if_pos h0]; rfl
    · rw [if_neg h0]
      have := hn h0
      unfold staggered
      rw [show (n - j) % 2 = j % 2 by omega]
  have fin : ∀ p p' : Particle, p ∈ mid ++ (top ++ bot) → p' ∈ mid ++ (top ++ bot) → p'.x = p.x → p'.y = -p.y → p'.vy = -p.vy := by
    intro p p' hp hp' e1 e2
    rw [hvy p hp, hvy p' hp', e1, e2, perturbation_neg]
  intro p hp hne
  rcases List.mem_append.1 hp with hp1 | hp1
  · have : xy p ∈ mid.map xy := List.mem_map_of_mem hp1
    rw [m1] at this
    obtain ⟨j, hj, i, hi, e1, e2⟩ := mem_layer.1 this
    have hm : (p.x, -p.y) ∈ mid.map xy := by
      rw [m1]
      refine mem_layer.2 ⟨r - j, by omega, i, hi, ?_, ?_⟩
      · rw [hpar r j (by omega) fun h0 => (hev h0).1]; exact e1
      · rw [e2, Nat.cast_sub (by omega)]; linarith
    obtain ⟨p', hp', e⟩ := List.mem_map.1 hm
    have ex : p'.x = p.x := congrArg Prod.fst e
    have ey : p'.y = -p.y := congrArg Prod.snd e
    have a1 := s1 p hp1
    have a2 := s1 p' hp'
    have erho : p'.rho = p.rho := a2.2.1.trans a1.2.1.symm
    exact ⟨p', List.mem_append_left _ hp', ex, ey, a2.1.trans a1.1.symm, fin p p' hp (List.mem_append_left _ hp') ex ey, erho, by rw [a2.2.2.2.2, a1.2.2.2.2, erho]⟩
  · have hm : (p.x, -p.y) ∈ (top ++ bot).map xy := by
      rw [List.map_append]
      rcases List.mem_append.1 hp1 with hp2 | hp2
      · have : xy p ∈ top.map xy := List.mem_map_of_mem hp2
        rw [m2] at this
        obtain ⟨j, hj, i, hi, e1, e2⟩ := mem_layer.1 this
        refine List.mem_append_right _ ?_
        rw [m3]
        refine mem_layer.2 ⟨q - j, by omega, i, hi, ?_, ?_⟩
        · rw [hpar q j (by omega) fun h0 => (hev h0).2]; exact e1
        · rw [e2, Nat.cast_sub (by omega)]; linarith
      · have : xy p ∈ bot.map xy := List.mem_map_of_mem hp2
        rw [m3] at this
        obtain ⟨j, hj, i, hi, e1, e2⟩ := mem_layer.1 this
        have hj0 : j ≠ 0 := by
          rintro rfl
          apply hne
          rw [e2, Nat.cast_zero]
          ring
        refine List.mem_append_left _ ?_
        rw [m2]
        refine mem_layer.2 ⟨q - j, by omega, i, hi, ?_, ?_⟩
        · rw [hpar q j (by omega) fun h0 => (hev h0).2]; exact e1
        · rw [e2, Nat.cast_sub (by omega)]; linarith
    obtain ⟨p', hp', e⟩ := List.mem_map.1 hm
    have ex : p'.x = p.x := congrArg Prod.fst e
    have ey : p'.y = -p.y := congrArg Prod.snd e
    have a1 := s2 p hp1
    have a2 := s2 p' hp'
    have erho : p'.rho = p.rho := a2.2.1.trans a1.2.1.symm
    exact ⟨p', List.mem_append_right _ hp', ex, ey, a2.1.trans a1.1.symm, fin p p' hp (List.mem_append_right _ hp') ex ey, erho, by rw [a2.2.2.2.2, a1.2.2.2.2, erho]⟩

private theorem sum_const (l : List Particle) (m : ℝ) (h : ∀ p ∈ l, p.m = m) : (l.map Particle.m).sum = l.length * m := by
  rw [List.map_congr_left h]
  simp

private theorem layer_length (L : ℝ) (n r : ℕ) (sh hgt : ℕ → ℝ) : (layer L n r sh hgt).length = r * n := by
  unfold layer
  simp [List.length_flatMap]

/-- The mass of the layers: each row stands for a strip as thick as the distance of the rows of its layer. -/
theorem C93_mass_partial (P : Params) (h : Ok P) (r q N : ℕ) (a b d d' : ℝ) (mid top bot : List Particle) (hlay : Layers P r q N a b d d' mid top bot) :
    (mid.map Particle.m).sum = P.rho_initial * P.density_ratio * (P.box_length * (2 * a + d)) ∧
    ((top ++ bot).map Particle.m).sum = P.rho_initial * (P.box_length * (P.box_width - 2 * b + d')) := by
  obtain ⟨⟨h2, h3, h4, h5, h6, h7, h8, hev⟩, m1, m2, m3, s1, s2⟩ := hlay
  have hn : (P.nx : ℝ) ≠ 0 := by exact_mod_cast h.nx_pos.ne'
  have hN : (N : ℝ) ≠ 0 := by exact_mod_cast (by omega : N ≠ 0)
  have l1 : mid.length = (r + 1) * P.nx := by rw [← List.length_map xy, m1, layer_length]
  have l2 : top.length = q * N := by rw [← List.length_map xy, m2, layer_length]
  have l3 : bot.length = (q + 1) * N := by rw [← List.length_map xy, m3, layer_length]
  constructor
  · rw [sum_const mid (P.rho_initial * P.density_ratio * (P.box_length / P.nx * d)) fun p hp => by rw [(s1 p hp).2.2.2.2, (s1 p hp).2.1], l1, ← h7]
    push_cast
    field_simp
  · rw [sum_const (top ++ bot) (P.rho_initial * (P.box_length / N * d')) fun p hp => by rw [(s2 p hp).2.2.2.2, (s2 p hp).2.1], List.length_append, l2, l3,
      show P.box_width = 2 * (b + q * d') by rw [h8]; ring]
    push_cast
    field_simp
    ring

/-- The layers together are heavier than the box. On a rectangular lattice, with an outer density not larger than the inner one, the mass is that of a middle strip as thick as its rows together and of the rest of the box, and of one more row of
the outer layers: the layers meet at half a distance of rows of the middle layer, and the outer layers have an odd number of rows. -/
theorem C93_mass_violated (P : Params) (h : Ok P) (h0 : P.lattice_type = 0) (hratio : 1 ≤ P.density_ratio) (l : List Particle) (hl : Writes P l) :
    ∃ H d' : ℝ, 0 < H ∧ H ≤ P.box_width ∧ 0 < d' ∧
      (l.map Particle.m).sum = P.rho_initial * P.density_ratio * (P.box_length * H) + P.rho_initial * (P.box_length * (P.box_width - H)) + P.rho_initial * (P.box_length * d') := by
  obtain ⟨N, r, q, sx, y0, ys, -, hr, hq, hg, -, hy0, -, hsx, hy00, hys, hyW, hw3, mid, top, bot, h1, hlay, -⟩ := layers_aux h
  obtain ⟨m1, m2⟩ := C93_mass_partial P h _ _ _ _ _ _ _ _ _ _ hlay
  obtain ⟨⟨h2, h3, h4, h5, h6, h7, h8, hev⟩, -⟩ := hlay
  have hsep : sep P ≤ sepT P := by
    have : 1 ≤ √P.density_ratio := Real.one_le_sqrt.2 hratio
    unfold sepT
    nlinarith [h.sep_pos]
  have hdy : ∀ s, dy P s = s ∧ dY P s = s := fun s => by
    unfold dY dy
    rw [h0]
    simp
  have hgap : gap P = sep P / 2 := by
    unfold gap
    rw [(hdy _).2, (hdy _).2, min_eq_left hsep]
  have e : y0 * ys * 2 = 2 * (wM P / 2 * ys) + dy P (sep P) * ys := by
    rw [hy0, hgap, (hdy _).1]; ring
  have hq0 : 0 ≤ q * (sx * dy P (sepT P) * ys) := by positivity
  have hH : 2 * (wM P / 2 * ys) + dy P (sep P) * ys ≤ P.box_width := by linarith
  refine ⟨2 * (wM P / 2 * ys) + dy P (sep P) * ys, sx * dy P (sepT P) * ys, by linarith, hH, h4, ?_⟩
  rw [writes_unique hl h1, List.map_append, List.sum_append, m1, m2, ← e]
  ring

/-- The perturbation is confined to two strips and bounded. -/
theorem C93_perturbation_partial (P : Params) (h : Ok P) (l : List Particle) (hl : Writes P l) :
    ∀ p ∈ l, |p.vy| ≤ |P.KH_A| ∧ (p.vy ≠ 0 → 9 / 40 < |p.y| ∧ |p.y| < 1 / 4) := by
  obtain ⟨N, r, q, sx, y0, ys, -, -, -, -, -, -, -, -, -, -, -, -, mid, top, bot, h1, -, hvy⟩ := layers_aux h
  rw [writes_unique hl h1]
  intro p hp
  rw [hvy p hp]
  have hb : ∀ t : ℝ, |P.KH_A * Real.sin t| ≤ |P.KH_A| := fun t => by
    rw [abs_mul]
    exact mul_le_of_le_one_right (abs_nonneg _) (Real.abs_sin_le_one t)
  unfold perturbation
  dsimp only
  by_cases c2 : p.y > -(1 / 4) ∧ p.y < -(1 / 4) + 25 / 1000
  · rw [if_pos c2]
    refine ⟨hb _, fun _ => ?_⟩
    rw [abs_of_neg (by linarith [c2.2])]
    exact ⟨by linarith [c2.2], by linarith [c2.1]⟩
  · rw [if_neg c2]
    by_cases c1 : p.y < 1 / 4 ∧ p.y > 1 / 4 - 25 / 1000
    · rw [if_pos c1]
      refine ⟨hb _, fun _ => ?_⟩
      rw [abs_of_pos (by linarith [c1.2])]
      exact ⟨by linarith [c1.2], by linarith [c1.1]⟩
    · rw [if_neg c1]
      exact ⟨by simp, fun h => absurd rfl h⟩

/-- The strips do not depend on the box: boxes up to a width of 0.45 get no perturbation at all. -/
theorem C93_narrow_violated (P : Params) (h : Ok P) (hW : P.box_width ≤ 9 / 20) (l : List Particle) (hl : Writes P l) : ∀ p ∈ l, p.vy = 0 := by
  intro p hp
  by_contra hne
  have h1 := ((C93_perturbation_partial P h l hl p hp).2 hne).1
  obtain ⟨-, -, h3, h4⟩ := C93_inside_partial P h l hl p hp
  have : |p.y| ≤ P.box_width / 2 := abs_le.2 ⟨by linarith, h4.le⟩
  linarith

/-- With the default width of 1 nothing of the middle layer is perturbed, at any resolution of at least 20 outer particles per unit length: the strips are away from the interface, which is close to one sixth of the width. -/
theorem C93_interface_violated (P : Params) (h : Ok P) (hW : P.box_width = 1) (hs : P.box_length / P.nx * √P.density_ratio ≤ 1 / 20) (hs' : P.box_length / P.nx * √P.density_ratio ≤ P.box_length / 20)
    (hv : P.flow_velocity ≠ 0) (l : List Particle) (hl : Writes P l) : ∀ p ∈ l, p.vx = P.flow_velocity / 2 → p.vy = 0 ∧ |p.y| < 9 / 40 := by
  have hl' := C93_perturbation_partial P h l hl
  obtain ⟨N, r, q, sx, y0, ys, hN, hr, hq, hg, hsx, hy0, -, hsx0, hy00, hys, hyW, hw3, mid, top, bot, h1, hlay, hvy⟩ := layers_aux h
  have hT : sepT P = P.box_length / P.nx * √P.density_ratio := rfl
  rw [← hT] at hs hs'
  have hTp := h.sepT_pos
  have hL := h.length
  rw [hW] at hw3 hyW
  have hdT : dY P (sepT P) ≤ 867 / 10000 := by
    have := sqrt3_bounds
    unfold dY dy
    split_ifs <;> nlinarith
  have hdTp := (h.dY_pos h.sepT_pos).1
  have hwT : 1 / 2 - wM P / 2 - gap P - 867 / 10000 ≤ wT P := by
    have := Int.lt_floor_add_one ((P.box_width / 2 - wM P / 2 - gap P) / dY P (sepT P))
    rw [div_lt_iff₀ hdTp, hW] at this
    unfold wT
    rw [hW]
    nlinarith
  have hsx1 : 955 / 1000 ≤ sx := by
    have := Int.lt_floor_add_one (P.box_length / sepT P + 1 / 10)
    have hN' : ((nxT P : ℤ) : ℝ) = N := by rw [hN]; rfl
    unfold nxT at hN'
    rw [hN'] at this
    have h3 : P.box_length / sepT P < N + 9 / 10 := by linarith
    rw [div_lt_iff₀ hTp] at h3
    rw [hsx, le_div_iff₀ hL]
    nlinarith
  have hwT0 : 0 ≤ wT P := by
    rw [hq]
    have := (h.dy_bounds h.sepT_pos).1
    have : 0 ≤ dy P (sepT P) := by linarith
    positivity
  have hwM0 : 0 ≤ wM P := by
    rw [hr]
    have := (h.dy_bounds h.sep_pos).1
    have : 0 ≤ dy P (sep P) := by linarith [h.sep_pos]
    positivity
  have ha : wM P / 2 * ys < 9 / 40 := by
    -- the part of the half box which is taken by the middle layer
    have hrest : 2 / 10 + 1 / 100 ≤ gap P + sx * wT P := by
      have : 955 / 1000 * (wT P + gap P) ≤ gap P + sx * wT P := by nlinarith
      have : 1 / 2 - wM P / 2 - 867 / 10000 ≤ wT P + gap P := by linarith
      linarith
    have hw6 : wM P / 2 ≤ 1 / 6 := by linarith
    have hsum : (wM P / 2 + (gap P + sx * wT P)) * ys = 1 / 2 := by rw [← hyW, hy0]; ring
    nlinarith
  generalize wM P / 2 * ys = a, y0 * ys = b, dy P (sep P) * ys = d, sx * dy P (sepT P) * ys = d' at hlay ha
  obtain ⟨⟨h2, h3, h4, h5, h6, h7, h8, hev⟩, m1, m2, m3, s1, s2⟩ := hlay
  rw [writes_unique hl h1] at hl' ⊢
  intro p hp hvx
  rcases List.mem_append.1 hp with hp1 | hp1
  · have : xy p ∈ mid.map xy := List.mem_map_of_mem hp1
    rw [m1] at this
    obtain ⟨j, hj, i, hi, e1, e2⟩ := mem_layer.1 this
    have t : (j : ℝ) * d ≤ r * d := mul_le_mul_of_nonneg_right (by exact_mod_cast Nat.lt_succ_iff.1 hj) h3.le
    have t' : (0 : ℝ) ≤ j * d := by positivity
    have hy : |p.y| < 9 / 40 := by
      rw [abs_lt]
      constructor <;> rw [e2] <;> linarith
    refine ⟨?_, hy⟩
    by_contra hne
    linarith [((hl' p hp).2 hne).1]
  · have := (s2 p hp1).1
    rw [this] at hvx
    exact absurd (by linarith) hv

/-- The default parameters with flow velocity 1: 100 particles per row, a box of length and width 1, density ratio 2. -/
def usual : Params where
  box_length := 1
  box_width := 1
  box_height := 1
  nx := 100
  lattice_type := 0
  density_ratio := 2
  rho_initial := 1
  pressure_initial := 1
  flow_velocity := 1
  poly_gamma := 7 / 5
  KH_A := 1 / 40
  KH_lambda := 1 / 6

private theorem sqrt2_bounds : 1 ≤ √2 ∧ √2 ≤ (3 / 2 : ℝ) :=
  ⟨Real.one_le_sqrt.2 (by norm_num), Real.sqrt_le_iff.2 ⟨by norm_num, by norm_num⟩⟩

theorem usual_ok : Ok usual where
  length := by norm_num [usual]
  width := by norm_num [usual]
  height := by norm_num [usual]
  ratio := by norm_num [usual]
  lattice := Or.inl rfl
  inner := by norm_num [usual]
  outer := by
    have := sqrt2_bounds.1
    simp only [usual]
    rw [div_le_iff₀ (by linarith)]
    push_cast
    linarith
  coarse := by
    have := sqrt2_bounds.2
    simp only [usual]
    push_cast
    linarith
  thin := by norm_num [usual]

-- the hypotheses hold for the default parameters, also with the triangular lattice
example : ∃ l, Writes usual l ∧ ∀ p ∈ l, p.vx = 1 / 2 → p.vy = 0 ∧ |p.y| < 9 / 40 := by
  obtain ⟨r, q, N, a, b, d, d', mid, top, bot, h1, -⟩ := C93_layers_partial usual usual_ok
  refine ⟨_, h1, C93_interface_violated usual usual_ok rfl ?_ ?_ (by norm_num [usual]) _ h1⟩ <;>
  · have := sqrt2_bounds.2
    simp only [usual]
    push_cast
    linarith

example : Ok { usual with lattice_type := 1, box_width := 3 / 2, nx := 30 } where
  length := by norm_num [usual]
  width := by norm_num [usual]
  height := by norm_num [usual]
  ratio := by norm_num [usual]
  lattice := Or.inr (Or.inl rfl)
  inner := by norm_num
  outer := by
    have := sqrt2_bounds.1
    simp only [usual]
    rw [div_le_iff₀ (by linarith)]
    push_cast
    linarith
  coarse := by
    have := sqrt2_bounds.2
    simp only [usual]
    push_cast
    linarith
  thin := by norm_num [usual]

-- a narrow box without perturbation; a box which carries too much mass
example : ∃ l, Writes { usual with box_width := 2 / 5 } l ∧ ∀ p ∈ l, p.vy = 0 := by
  have ok : Ok { usual with box_width := 2 / 5 } := { usual_ok with width := by norm_num, thin := by norm_num [usual] }
  obtain ⟨r, q, N, a, b, d, d', mid, top, bot, h1, -⟩ := C93_layers_partial _ ok
  exact ⟨_, h1, C93_narrow_violated _ ok (by norm_num) _ h1⟩

example : ∃ l, Writes { usual with density_ratio := 1 } l ∧ 1 < (l.map Particle.m).sum := by
  have ok : Ok { usual with density_ratio := 1 } := { usual_ok with ratio := by norm_num, outer := by norm_num [usual], coarse := by norm_num [usual] }
  obtain ⟨r, q, N, a, b, d, d', mid, top, bot, h1, -⟩ := C93_layers_partial _ ok
  obtain ⟨H, d', -, -, h2, h3⟩ := C93_mass_violated _ ok rfl le_rfl _ h1
  refine ⟨_, h1, ?_⟩
  rw [h3]
  simp only [usual]
  linarith

end
end FleCSPH.KhGen
