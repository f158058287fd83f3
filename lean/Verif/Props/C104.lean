import Verif.Lemmas.RtGen
import Verif.Spec.Period
/-!
C104: the layers of Rayleigh-Taylor data. `RtGen.generate` is app/id_generators/RT/main.cc in two dimensions, `RtLayers.rows` is in `Spec/RtLayers.lean`; `Ok` in `Lemmas/RtGen.lean` holds the restrictions of the parameters:
positive extents, densities and at least two and at most 8000 particles per row, one of the lattices 0, 1, 2, a width of at most 800000 separations, and a tolerance for the lattices not larger than the bottom separation.
-/
namespace FleCSPH.RtGen
noncomputable section
open RtLayers FleCSPH.Spec

/-- The position of a particle. -/
def xy (p : Particle) : ℝ × ℝ := (p.x, p.y)

/-- The generator ends and writes these particles. -/
def Writes (P : Params) (l : List Particle) : Prop := ∃ F, ∀ fuel ≥ F, generate P fuel = some l

/-- Separations of the layers, and distances of their rows. -/
def below (P : Params) : ℝ := P.box_length / ((P.nx : ℝ) - 1)
def above (P : Params) : ℝ := below P * √(1 / P.density_ratio)
def spacing (P : Params) (s : ℝ) : ℝ := if P.lattice_type = 0 then s else s * √3 / 2

/-- What the generator writes in a box of length `L`: a bottom layer of `R` rows which ends one distance of rows below the height 0, and a top layer of `Q` rows from the height 0 on. A row of either layer has all sites up to a millionth
of the length before the right face. The bottom layer holds the periods of the lattice which fit into half of the width, the top layer all rows up to a millionth of the length below its upper face. Every particle has the
state of its layer, its density times the area of its cell as mass, the smoothing length of its cell, and the pressure of the fluid above: the pressure 5/2 at the top and the weight of the column up to there. -/
def Layers (P : Params) (L : ℝ) (R Q : ℕ) (nb nt : ℕ → ℕ) (bot top : List Particle) : Prop :=
  let W := P.box_width
  let s := below P
  let s' := above P
  let d := spacing P s
  let d' := spacing P s'
  let sh := if P.lattice_type = 0 then straight else staggered
  bot.map xy = rows R nb (-L / 2) s (-(R * d)) d sh ∧
  top.map xy = rows Q nt (-L / 2) s' 0 d' sh ∧
  (∀ j i : ℕ, i < nb j ↔ (sh j + i) * s < L - L / 1000000) ∧
  (∀ j i : ℕ, i < nt j ↔ (sh j + i) * s' < L - L / 1000000) ∧
  (R * d ≤ W / 2 ∧ W / 2 < R * d + (if P.lattice_type = 0 then d else 2 * d) ∧ (P.lattice_type ≠ 0 → R % 2 = 0)) ∧
  (∀ j : ℕ, j < Q ↔ j * d' < W / 2 - L / 1000000) ∧
  (∀ p ∈ bot, p.rho = P.rho_initial ∧ p.P = 5 / 2 + P.gravity * (P.rho_initial * P.density_ratio * (W / 2) + P.rho_initial * -p.y) ∧ p.m = p.rho * (s * d)) ∧
  (∀ p ∈ top, p.rho = P.rho_initial * P.density_ratio ∧ p.P = 5 / 2 + P.gravity * (P.rho_initial * P.density_ratio * (W / 2 - p.y)) ∧ p.m = p.rho * (s' * d')) ∧
  ∀ p ∈ bot ++ top, p.vx = 0 ∧ p.u = p.P / ((P.poly_gamma - 1) * p.rho) ∧ p.h = P.eta * P.kernel_width * √(p.m / p.rho)

private theorem above_eq {P : Params} (h : Ok P) : sepT P = above P := sepT_eq h

private theorem sites_rows (P : Params) (lo hi : Lattice.Pos) (s : ℝ) : ((sites P.lattice_type lo hi s).map fun p => (p.x, p.y)) =
    rows (rowsIn P.lattice_type lo hi s) (inRow P.lattice_type lo hi s) lo.x s lo.y (spacing P s) (if P.lattice_type = 0 then straight else staggered) := by
  unfold sites rows
  rw [List.map_flatMap]
  congr 1
  funext j
  rw [List.map_map]
  refine List.map_congr_left fun i _ => ?_
  simp only [Function.comp, site, spacing]
  by_cases hl : P.lattice_type = 0
  · simp only [if_pos hl, straight]
    refine Prod.ext ?_ rfl
    dsimp only; ring
  · simp only [if_neg hl, staggered]
    refine Prod.ext ?_ rfl
    dsimp only
    rcases Nat.mod_two_eq_zero_or_one j with e | e <;> rw [e] <;> norm_num <;> ring

private theorem inRow_iff (P : Params) {lo hi : Lattice.Pos} {L s : ℝ} (hs : 0 < s) (h1 : lo.x = -L / 2) (h2 : hi.x = L / 2) (j i : ℕ) :
    i < inRow P.lattice_type lo hi s j ↔ ((if P.lattice_type = 0 then straight else staggered) j + i) * s < L - L / 1000000 := by
  unfold inRow
  rw [Lattice.lt_ticks _ _ _ hs]
  have e : (site P.lattice_type lo s j 0).x + i * s = -L / 2 + ((if P.lattice_type = 0 then straight else staggered) j + i) * s := by
    simp only [site, h1]
    by_cases hl : P.lattice_type = 0
    · simp only [if_pos hl, straight]; norm_num
    · simp only [if_neg hl, staggered]
      rcases Nat.mod_two_eq_zero_or_one j with e | e <;> rw [e] <;> norm_num <;> ring
  rw [e]
  unfold face Lattice.bTol
  rw [h1, h2]
  constructor <;> intro h <;> linarith

private theorem rowsIn_iff (P : Params) (h : Ok P) (j : ℕ) :
    j < rowsIn P.lattice_type (tLo P) (tHi P) (sepT P) ↔ j * spacing P (sepT P) < P.box_width / 2 - length P / 1000000 := by
  have hd : 0 < step P (sepT P) := by have := (step_bounds P h.sepT_pos).1; have := h.sepT_pos; linarith
  unfold rowsIn
  rw [show (if P.lattice_type = 0 then sepT P else sepT P * √3 / 2) = step P (sepT P) from rfl, Lattice.lt_ticks _ _ _ hd]
  unfold face Lattice.bTol tHi tLo
  dsimp only
  rw [show spacing P (sepT P) = step P (sepT P) from rfl]
  constructor <;> intro h <;> linarith

private theorem cell (P : Params) (h : Ok P) : pmass P = rho1 P * (sep P * spacing P (sep P)) ∧ pmass P = rho2 P * (sepT P * spacing P (sepT P)) := by
  have h1 : pmass P = rho1 P * (sep P * spacing P (sep P)) := by
    unfold pmass IdGen.equalMass spacing
    rw [if_neg (by decide), if_pos rfl]
    dsimp only
    rcases h.lattice with e | e | e <;> rw [e] <;> norm_num <;> ring
  refine ⟨h1, h1.trans ?_⟩
  have e : sepT P * sepT P * P.density_ratio = sep P * sep P := by
    rw [sepT_eq h]
    have := Real.mul_self_sqrt (show 0 ≤ 1 / P.density_ratio by have := h.ratio; positivity)
    calc _ = sep P * sep P * (√(1 / P.density_ratio) * √(1 / P.density_ratio)) * P.density_ratio := by ring
      _ = _ := by rw [this]; have := h.ratio.ne'; field_simp
  unfold spacing rho2
  split_ifs
  · linear_combination (-(rho1 P)) * e
  · linear_combination (-(rho1 P * (√3 / 2))) * e

private theorem map_sites (P : Params) (b : Prop) (c : ℕ) (l : List Lattice.Pos) :
    ((List.range l.length).map fun k => make P b (c + k) (l[k]?.getD ⟨0, 0, 0⟩)).map xy = l.map fun p => (p.x, p.y) := by
  refine List.ext_getElem (by simp) fun k h1 h2 => ?_
  have hk : k < l.length := by simpa using h2
  simp [make, xy, List.getElem?_eq_getElem hk]

private theorem layers_aux {P : Params} (h : Ok P) : ∃ R bot top, Writes P (bot ++ top) ∧ Layers P (length P) R (rowsIn P.lattice_type (tLo P) (tHi P) (sepT P))
    (inRow P.lattice_type (bLo P) (bHi P) (sep P)) (inRow P.lattice_type (tLo P) (tHi P) (sepT P)) bot top ∧
    (∀ p ∈ bot ++ top, p.vy = perturbation P p.x p.y) ∧ (bot ++ top).map Particle.id = List.range (bot ++ top).length := by
  obtain ⟨a, ha, hb1, hb2, -⟩ := h.bottom
  obtain ⟨c1, c2⟩ := cell P h
  refine ⟨period P * a, _, _, generates h, ⟨?_, ?_, fun j i => inRow_iff P h.sep_pos rfl rfl j i, fun j i => ?_, ⟨hb1, ?_, ?_⟩, fun j => ?_, ?_, ?_, ?_⟩, ?_, ?_⟩
  · have := map_sites P True 0 (bottomSites P)
    simp only [Nat.zero_add] at this
    rw [this]
    unfold bottomSites
    rw [sites_rows, bottom_rows h ha, ha]
    rfl
  · rw [map_sites]
    unfold topSites
    rw [sites_rows, above_eq h]
    rfl
  · rw [← above_eq h]
    exact inRow_iff P h.sepT_pos rfl rfl j i
  · refine hb2.trans_eq ?_
    show _ = _ * step P (sep P) + (if P.lattice_type = 0 then step P (sep P) else 2 * step P (sep P))
    unfold period
    split_ifs <;> push_cast <;> ring
  · intro hl
    unfold period
    rw [if_neg hl]; omega
  · rw [← above_eq h]
    exact rowsIn_iff P h j
  · intro p hp
    obtain ⟨k, -, rfl⟩ := List.mem_map.1 hp
    refine ⟨if_pos trivial, ?_, ?_⟩
    · simp only [make, if_true, IdGen.rtBottom, pressure0, rho1, rho2, tLo, tHi]
      ring
    · simp only [make, if_true]
      exact c1
  · intro p hp
    obtain ⟨k, -, rfl⟩ := List.mem_map.1 hp
    refine ⟨if_neg not_false, ?_, ?_⟩
    · simp only [make, if_false, IdGen.rtTop, pressure0, rho1, rho2, tHi]
      ring
    · simp only [make, if_false]
      rw [← above_eq h]
      exact c2
  · intro p hp
    rcases List.mem_append.1 hp with hp | hp <;> obtain ⟨k, -, rfl⟩ := List.mem_map.1 hp <;> exact ⟨rfl, rfl, rfl⟩
  · intro p hp
    rcases List.mem_append.1 hp with hp | hp <;> obtain ⟨k, -, rfl⟩ := List.mem_map.1 hp <;> rfl
  · rw [List.map_append, List.map_map, List.map_map, List.length_append, List.length_map, List.length_map, List.length_range, List.length_range, List.range_add]
    congr 1
    exact (List.map_congr_left fun k _ => rfl).trans (List.map_id _)

/-- With parameters in the range `Ok` the generator ends and writes two layers; the particles are numbered in the order of the file. Without periodic boundaries the box has the length asked for. -/
theorem C104_layers_partial (P : Params) (h : Ok P) :
    ∃ (L : ℝ) (R Q : ℕ) (nb nt : ℕ → ℕ) (bot top : List Particle), Writes P (bot ++ top) ∧ Layers P L R Q nb nt bot top ∧ (bot ++ top).map Particle.id = List.range (bot ++ top).length ∧
      0 < L ∧ (P.periodic_boundary_x = false → L = P.box_length) := by
  obtain ⟨R, bot, top, h1, h2, -, h3⟩ := layers_aux h
  refine ⟨_, R, _, _, _, bot, top, h1, h2, h3, h.length_bounds.1, fun hp => ?_⟩
  rcases h.length_cases with e | ⟨e, -⟩
  · exact e
  · rw [hp] at e; exact absurd e (by decide)

private theorem writes_unique {P : Params} {l l' : List Particle} (h : Writes P l) (h' : Writes P l') : l = l' := by
  obtain ⟨F, h⟩ := h
  obtain ⟨F', h'⟩ := h'
  exact Option.some_inj.mp ((h (F + F') (by omega)).symm.trans (h' (F + F') (by omega)))

private theorem shift_bounds (P : Params) (j : ℕ) : 0 ≤ (if P.lattice_type = 0 then straight else staggered) j ∧ (if P.lattice_type = 0 then straight else staggered) j ≤ 1 / 2 := by
  by_cases hl : P.lattice_type = 0
  · rw [if_pos hl]; norm_num [straight]
  · rw [if_neg hl]
    unfold staggered
    split_ifs <;> norm_num

/-- Periodic boundaries: if the search finds a length, every row of a layer has the same number of particles, and closes over the periodic length up to the tolerance, a fraction `lattice_mismatch_tolerance` of the top separation. The box
is at most two separations and the tolerance shorter than asked for. For tolerances of at most a quarter of the separations, and at most 200000 particles in a row. -/
theorem C104_periodic_partial (P : Params) (h : Ok P) (hp : P.periodic_boundary_x = true) (hq : P.mismatch ≤ 1 / 4) (hq' : P.mismatch * √(1 / P.density_ratio) ≤ 1 / 4) (h1 : P.nx ≤ 2000)
    (h2 : P.nx ≤ 1990 * √(1 / P.density_ratio)) :
    IdGen.layerLength P.box_length (below P) (above P) P.mismatch = none ∨
    ∃ (L : ℝ) (N M R Q : ℕ) (bot top : List Particle), Writes P (bot ++ top) ∧ Layers P L R Q (fun _ => N) (fun _ => M) bot top ∧ 0 < N ∧ 0 < M ∧
      (L ≤ N * below P ∧ N * below P < L + P.mismatch * above P) ∧ (L ≤ M * above P ∧ M * above P < L + P.mismatch * above P) ∧ P.box_length - 2 * below P - P.mismatch * above P < L := by
  have hs := h.sep_pos
  have hT := h.sepT_pos
  have hlen : length P = (IdGen.layerLength P.box_length (sep P) (sepT P) P.mismatch).getD P.box_length := by unfold length; rw [if_pos hp]
  cases hl : IdGen.layerLength P.box_length (sep P) (sepT P) P.mismatch with
  | none => exact Or.inl (by rw [← above_eq h]; exact hl)
  | some W =>
    refine Or.inr ?_
    obtain ⟨R, bot, top, w1, w2, -, -⟩ := layers_aux h
    rw [hl, Option.getD_some] at hlen
    have hfit : ∃ j n : ℕ, 0 < j ∧ 0 < n ∧ P.nx ≤ j + 2 ∧ j ≤ 100 * P.nx ∧ length P = min (n * sepT P) (j * sep P) ∧ |n * sepT P - j * sep P| < P.mismatch * sepT P := by
      rcases h.length_cases' hl with ⟨j, n, t⟩
      exact ⟨j, n, by rw [hlen]; exact t⟩
    obtain ⟨N, M, hN, hM, hN1, hN2, hmin, hab⟩ := hfit
    obtain ⟨f1, f2⟩ := abs_lt.1 hab
    have l1 : length P ≤ N * sep P := hmin ▸ min_le_right _ _
    have l2 : length P ≤ M * sepT P := hmin ▸ min_le_left _ _
    have l3 : N * sep P < length P + P.mismatch * sepT P ∧ M * sepT P < length P + P.mismatch * sepT P := by
      have hm : 0 ≤ P.mismatch * sepT P := mul_nonneg h.mismatch hT.le
      rcases min_choice (M * sepT P) (N * sep P) with e | e <;> rw [e] at hmin <;> constructor <;> linarith
    have b1 : P.mismatch * sepT P ≤ 1 / 4 * sep P := by rw [sepT_eq h]; nlinarith
    have b2 : P.mismatch * sepT P ≤ 1 / 4 * sepT P := by nlinarith
    have L0 := h.length_bounds.1
    have nN : (N : ℝ) ≤ 200000 := by
      have : (N : ℝ) ≤ 100 * P.nx := by exact_mod_cast hN2
      have : (P.nx : ℝ) ≤ 2000 := by exact_mod_cast h1
      linarith
    have c1 : length P / 1000000 ≤ 2 / 10 * sep P := by
      have : length P ≤ 200000 * sep P := l1.trans (mul_le_mul_of_nonneg_right nN hs.le)
      linarith
    have c2 : length P / 1000000 ≤ 2 / 10 * sepT P := by
      have h3 : (N : ℝ) ≤ 100 * P.nx := by exact_mod_cast hN2
      have h5 : (N : ℝ) * sep P ≤ 199000 * √(1 / P.density_ratio) * sep P := mul_le_mul_of_nonneg_right (by linarith) hs.le
      have h6 : length P ≤ 199000 * sepT P := by rw [sepT_eq h]; linarith
      linarith
    have count : ∀ (n : ℕ) (t : ℝ) (f : ℕ → ℕ), 0 < n → 0 < t → length P ≤ n * t → n * t < length P + 1 / 4 * t → length P / 1000000 ≤ 2 / 10 * t →
        (∀ j i : ℕ, i < f j ↔ ((if P.lattice_type = 0 then straight else staggered) j + i) * t < length P - length P / 1000000) → f = fun _ => n := by
      intro n t f hn ht a1 a2 a3 hf
      funext j
      obtain ⟨s1, s2⟩ := shift_bounds P j
      have k1 : ¬ n < f j := by
        rw [hf]
        intro hc
        have : (0 : ℝ) ≤ (if P.lattice_type = 0 then straight else staggered) j * t := by positivity
        have : 0 < length P / 1000000 := by positivity
        linarith
      have k2 : n - 1 < f j := by
        rw [hf, Nat.cast_sub hn, Nat.cast_one]
        have : (if P.lattice_type = 0 then straight else staggered) j * t ≤ 1 / 2 * t := mul_le_mul_of_nonneg_right s2 ht.le
        linarith
      omega
    have e1 := count N (sep P) _ hN hs l1 (by linarith [l3.1]) c1 w2.2.2.1
    have e2 := count M (sepT P) _ hM hT l2 (by linarith [l3.2]) c2 (by rw [above_eq h]; exact w2.2.2.2.1)
    rw [e1, e2] at w2
    rw [← above_eq h]
    refine ⟨length P, N, M, R, _, bot, top, w1, w2, hN, hM, ⟨l1, l3.1⟩, ⟨l2, l3.2⟩, ?_⟩
    have hL : P.box_length = (P.nx - 1) * sep P := by rw [← h.over, div_mul_cancel₀ _ hs.ne']
    have hn : (P.nx : ℝ) ≤ N + 2 := by exact_mod_cast hN1
    show P.box_length - 2 * sep P - _ < _
    have : (P.nx - 1) * sep P ≤ (N + 1) * sep P := mul_le_mul_of_nonneg_right (by linarith) hs.le
    rw [hL]
    linarith [l3.1]

private theorem mem_rows {r : ℕ} {n : ℕ → ℕ} {x0 s y0 d x y : ℝ} {sh : ℕ → ℝ} : (x, y) ∈ rows r n x0 s y0 d sh ↔ ∃ j < r, ∃ i < n j, x = x0 + (sh j + i) * s ∧ y = y0 + j * d := by
  unfold rows
  simp only [List.mem_flatMap, List.mem_map, List.mem_range, Prod.mk.injEq]
  constructor
  · rintro ⟨j, hj, i, hi, h1, h2⟩; exact ⟨j, hj, i, hi, h1.symm, h2.symm⟩
  · rintro ⟨j, hj, i, hi, h1, h2⟩; exact ⟨j, hj, i, hi, h1.symm, h2.symm⟩

private theorem nodup_rows (r : ℕ) (n : ℕ → ℕ) (x0 s y0 d : ℝ) (sh : ℕ → ℝ) (hs : 0 < s) (hd : 0 < d) : (rows r n x0 s y0 d sh).Nodup := by
  unfold rows
  rw [List.nodup_flatMap]
  refine ⟨fun j _ => ?_, ?_⟩
  · refine List.Nodup.map (fun a b hab => ?_) List.nodup_range
    have h1 : x0 + (sh j + a) * s = x0 + (sh j + b) * s := congrArg Prod.fst hab
    have : (a : ℝ) = b := by
      have := mul_right_cancel₀ hs.ne' (add_left_cancel h1)
      linarith
    exact_mod_cast this
  · refine List.Nodup.pairwise_of_forall_ne List.nodup_range fun a _ b _ hab => ?_
    intro p hp hp'
    obtain ⟨i, -, rfl⟩ := List.mem_map.1 hp
    obtain ⟨i', -, e⟩ := List.mem_map.1 hp'
    have h1 : y0 + b * d = y0 + a * d := congrArg Prod.snd e
    have h2 : (b : ℝ) = a := mul_right_cancel₀ hd.ne' (add_left_cancel h1)
    exact hab (by exact_mod_cast h2.symm)

private theorem spacing_pos (P : Params) {s : ℝ} (hs : 0 < s) : 0 < spacing P s := by
  have := (step_bounds P hs).1
  have : 0 < step P s := by linarith
  exact this

/-- Every particle is in the box, none on its upper faces; the layers are on either side of the height 0. -/
theorem C104_inside_partial (P : Params) (h : Ok P) (L : ℝ) (R Q : ℕ) (nb nt : ℕ → ℕ) (bot top : List Particle) (hL : 0 < L) (hl : Layers P L R Q nb nt bot top) :
    (∀ p ∈ bot ++ top, -L / 2 ≤ p.x ∧ p.x < L / 2 ∧ -P.box_width / 2 ≤ p.y ∧ p.y < P.box_width / 2) ∧ (∀ p ∈ bot, p.y < 0) ∧ ∀ p ∈ top, 0 ≤ p.y := by
  obtain ⟨m1, m2, n1, n2, ⟨r1, -, -⟩, q1, -⟩ := hl
  have hs : 0 < below P := h.sep_pos
  have hT : 0 < above P := above_eq h ▸ h.sepT_pos
  have hd := spacing_pos P hs
  have hd' := spacing_pos P hT
  have hW := h.width
  have htol : 0 < L / 1000000 := by positivity
  have hb : ∀ p ∈ bot, -L / 2 ≤ p.x ∧ p.x < L / 2 ∧ -P.box_width / 2 ≤ p.y ∧ p.y < 0 := by
    intro p hp
    have : xy p ∈ bot.map xy := List.mem_map_of_mem hp
    rw [m1] at this
    obtain ⟨j, hj, i, hi, e1, e2⟩ := mem_rows.1 this
    have t1 := (n1 j i).1 hi
    have t2 := (shift_bounds P j).1
    have t3 : 0 ≤ ((if P.lattice_type = 0 then straight else staggered) j + i) * below P := by positivity
    have t4 : ((j : ℝ) + 1) * spacing P (below P) ≤ R * spacing P (below P) := mul_le_mul_of_nonneg_right (by exact_mod_cast hj) hd.le
    have t5 : 0 ≤ (j : ℝ) * spacing P (below P) := by positivity
    rw [e1, e2]
    refine ⟨by linarith, by linarith, by linarith, by linarith⟩
  have ht : ∀ p ∈ top, -L / 2 ≤ p.x ∧ p.x < L / 2 ∧ 0 ≤ p.y ∧ p.y < P.box_width / 2 := by
    intro p hp
    have : xy p ∈ top.map xy := List.mem_map_of_mem hp
    rw [m2] at this
    obtain ⟨j, hj, i, hi, e1, e2⟩ := mem_rows.1 this
    have t1 := (n2 j i).1 hi
    have t2 := (shift_bounds P j).1
    have t3 : 0 ≤ ((if P.lattice_type = 0 then straight else staggered) j + i) * above P := by positivity
    have t4 := (q1 j).1 hj
    have t5 : 0 ≤ (j : ℝ) * spacing P (above P) := by positivity
    rw [e1, e2]
    refine ⟨by linarith, by linarith, by linarith, by linarith⟩
  refine ⟨fun p hp => ?_, fun p hp => (hb p hp).2.2.2, fun p hp => (ht p hp).2.2.1⟩
  rcases List.mem_append.1 hp with hp | hp
  · obtain ⟨a, b, c, d⟩ := hb p hp
    exact ⟨a, b, c, by linarith⟩
  · obtain ⟨a, b, c, d⟩ := ht p hp
    exact ⟨a, b, by linarith, d⟩

/-- No two particles are at the same position. -/
theorem C104_distinct_partial (P : Params) (h : Ok P) (l : List Particle) (hl : Writes P l) : (l.map xy).Nodup := by
  obtain ⟨L, R, Q, nb, nt, bot, top, h1, h2, -, hL, -⟩ := C104_layers_partial P h
  obtain ⟨-, hb, ht⟩ := C104_inside_partial P h L R Q nb nt bot top hL h2
  have hs : 0 < below P := h.sep_pos
  have hT : 0 < above P := above_eq h ▸ h.sepT_pos
  rw [writes_unique hl h1, List.map_append]
  refine List.Nodup.append ?_ ?_ ?_
  · rw [h2.1]; exact nodup_rows _ _ _ _ _ _ _ hs (spacing_pos P hs)
  · rw [h2.2.1]; exact nodup_rows _ _ _ _ _ _ _ hT (spacing_pos P hT)
  · intro q hq hq'
    obtain ⟨p, hp, rfl⟩ := List.mem_map.1 hq
    obtain ⟨p', hp', e⟩ := List.mem_map.1 hq'
    have : p'.y = p.y := congrArg Prod.snd e
    linarith [hb p hp, ht p' hp']

private theorem sum_const (l : List Particle) (m : ℝ) (h : ∀ p ∈ l, p.m = m) : (l.map Particle.m).sum = l.length * m := by
  rw [List.map_congr_left h]
  simp

private theorem rows_length (r n : ℕ) (x0 s y0 d : ℝ) (sh : ℕ → ℝ) : (rows r (fun _ => n) x0 s y0 d sh).length = r * n := by
  unfold rows
  simp [List.length_flatMap]

/-- Mass: layers whose rows have `N` and `M` particles have the masses of the rectangles their cells fill. -/
theorem C104_mass_partial (P : Params) (L : ℝ) (N M R Q : ℕ) (bot top : List Particle) (hl : Layers P L R Q (fun _ => N) (fun _ => M) bot top) :
    (bot.map Particle.m).sum = P.rho_initial * ((N * below P) * (R * spacing P (below P))) ∧
    (top.map Particle.m).sum = P.rho_initial * P.density_ratio * ((M * above P) * (Q * spacing P (above P))) := by
  obtain ⟨m1, m2, -, -, -, -, s1, s2, -⟩ := hl
  have l1 : bot.length = R * N := by rw [← List.length_map xy, m1, rows_length]
  have l2 : top.length = Q * M := by rw [← List.length_map xy, m2, rows_length]
  constructor
  · rw [sum_const bot (P.rho_initial * (below P * spacing P (below P))) fun p hp => by rw [(s1 p hp).2.2, (s1 p hp).1], l1]
    push_cast; ring
  · rw [sum_const top (P.rho_initial * P.density_ratio * (above P * spacing P (above P))) fun p hp => by rw [(s2 p hp).2.2, (s2 p hp).1], l2]
    push_cast; ring

/-- The perturbation: `-A (1 + cos(2 π k x / L)) cos(π y / w)` inside of the stripe `|y| < w / 2`, nothing outside. It is at most twice the amplitude and nowhere upwards; for an integral mode `k` it is periodic with the length
of the box. -/
theorem C104_perturbation_partial (P : Params) (h : Ok P) (hA : 0 ≤ P.amplitude) (l : List Particle) (hl : Writes P l) :
    ∃ (L : ℝ) (f : ℝ → ℝ → ℝ), (∃ R Q nb nt bot top, l = bot ++ top ∧ Layers P L R Q nb nt bot top) ∧ 0 < L ∧ (∀ p ∈ l, p.vy = f p.x p.y) ∧
      (∀ x y, |y| < P.stripe / 2 → f x y = -P.amplitude * (1 + Real.cos (2 * Real.pi * P.mode * x / L)) * Real.cos (Real.pi * y / P.stripe)) ∧ (∀ x y, P.stripe / 2 ≤ |y| → f x y = 0) ∧
      (∀ x y, -(2 * P.amplitude) ≤ f x y ∧ f x y ≤ 0) ∧ ∀ k : ℤ, P.mode = k → ∀ x y, f (x + L) y = f x y := by
  obtain ⟨R, bot, top, h1, h2, h3, -⟩ := layers_aux h
  have hL := h.length_bounds.1
  have hin : ∀ x y, |y| < P.stripe / 2 → perturbation P x y = -P.amplitude * (1 + Real.cos (2 * Real.pi * P.mode * x / length P)) * Real.cos (Real.pi * y / P.stripe) := by
    intro x y hy
    unfold perturbation
    rw [if_pos (by linarith)]
    congr 4
    ring
  have hout : ∀ x y, P.stripe / 2 ≤ |y| → perturbation P x y = 0 := fun x y hy => if_neg (by linarith)
  refine ⟨length P, perturbation P, ⟨R, _, _, _, bot, top, writes_unique hl h1, h2⟩, hL, ?_, hin, hout, fun x y => ?_, fun k hk x y => ?_⟩
  · rw [writes_unique hl h1]; exact h3
  · rcases lt_or_ge |y| (P.stripe / 2) with hy | hy
    · rw [hin x y hy]
      have hw : 0 < P.stripe := by linarith [abs_nonneg y]
      obtain ⟨y1, y2⟩ := abs_lt.1 hy
      have c0 : 0 ≤ Real.cos (Real.pi * y / P.stripe) := by
        refine Real.cos_nonneg_of_neg_pi_div_two_le_of_le ?_ ?_
        · rw [le_div_iff₀ hw]; nlinarith [Real.pi_pos]
        · rw [div_le_iff₀ hw]; nlinarith [Real.pi_pos]
      have c1 := Real.cos_le_one (Real.pi * y / P.stripe)
      have d1 := Real.cos_le_one (2 * Real.pi * P.mode * x / length P)
      have d0 := Real.neg_one_le_cos (2 * Real.pi * P.mode * x / length P)
      generalize Real.cos (Real.pi * y / P.stripe) = c at *
      generalize Real.cos (2 * Real.pi * P.mode * x / length P) = e at *
      have g1 : 0 ≤ P.amplitude * ((1 + e) * c) := mul_nonneg hA (mul_nonneg (by linarith) c0)
      have g2 : P.amplitude * ((1 + e) * c) ≤ P.amplitude * 2 := mul_le_mul_of_nonneg_left (by nlinarith) hA
      constructor <;> nlinarith
    · rw [hout x y hy]
      constructor <;> linarith
  · rcases lt_or_ge |y| (P.stripe / 2) with hy | hy
    · rw [hin _ y hy, hin _ y hy]
      have : 2 * Real.pi * P.mode * (x + length P) / length P = 2 * Real.pi * P.mode * x / length P + k * (2 * Real.pi) := by
        rw [hk]; field_simp
      rw [this, Real.cos_add_int_mul_two_pi]
    · rw [hout _ y hy, hout _ y hy]

/-- The time step suggested in the file: the pressures which enter its speed of sound are never set. With the default flow velocity of 0 it is a division by zero, with any other it does not depend on the fluid. -/
theorem C104_timestep_violated (P : Params) : (P.flow_velocity ≤ 0 → timestep P = none) ∧ (0 < P.flow_velocity → timestep P = some (P.cfl * below P / P.flow_velocity)) := by
  have hcs : √(P.poly_gamma * max (0 / rho1 P) (0 / rho2 P)) = 0 := by simp
  unfold timestep
  dsimp only
  rw [hcs]
  constructor
  · intro hv
    rw [if_pos (max_eq_left hv)]
  · intro hv
    rw [max_eq_right hv.le, if_neg hv.ne']
    rfl

private theorem firstFit_first {n : ℕ} (hn : 0 < n) {fits : Int → Prop} {extent : Int → ℝ} (h : fits n) : IdGen.firstFit n fits extent = some (extent n) := by
  unfold IdGen.firstFit
  obtain ⟨m, hm⟩ : ∃ m, (100 * (n : Int) - n).toNat = m + 1 := ⟨(100 * (n : Int) - n).toNat - 1, by omega⟩
  rw [hm, List.range_succ_eq_map, List.map_cons, List.find?_cons_of_pos (by simpa using h)]
  simp

private theorem firstFit_second {n : ℕ} (hn : 0 < n) {fits : Int → Prop} {extent : Int → ℝ} (h0 : ¬ fits n) (h : fits (n + 1 : ℕ)) : IdGen.firstFit n fits extent = some (extent (n + 1 : ℕ)) := by
  unfold IdGen.firstFit
  obtain ⟨m, hm⟩ : ∃ m, (100 * (n : Int) - n).toNat = m + 2 := ⟨(100 * (n : Int) - n).toNat - 2, by omega⟩
  rw [hm, List.range_succ_eq_map, List.map_cons, List.find?_cons_of_neg (by simpa using h0), List.range_succ_eq_map, List.map_cons, List.map_cons, List.find?_cons_of_pos (by simpa using h)]
  simp

private theorem truncate_nat (n : ℕ) : IdGen.truncate (n : ℝ) = n := by
  unfold IdGen.truncate
  rw [if_pos (by positivity), Int.floor_natCast]

/-- Two layers of the same density: the box asked for fits both lattices, and gets one separation shorter nevertheless. -/
theorem C104_length_violated (P : Params) (h : Ok P) (h1 : P.density_ratio = 1) (hn : 3 ≤ P.nx) (hp : P.periodic_boundary_x = true) (hm : 0 < P.mismatch) :
    FitsPeriod P.box_length (below P) (P.mismatch * below P) ∧ above P = below P ∧
    ∃ (R Q : ℕ) (nb nt : ℕ → ℕ) (bot top : List Particle), Writes P (bot ++ top) ∧ Layers P (P.box_length - below P) R Q nb nt bot top := by
  have hs := h.sep_pos
  have hL : P.box_length = (P.nx - 1) * sep P := by rw [← h.over, div_mul_cancel₀ _ hs.ne']
  have hT : above P = below P := by unfold above; rw [h1]; simp
  refine ⟨⟨P.nx - 1, by omega, ?_, ?_⟩, hT, ?_⟩
  · rw [Nat.cast_sub (by omega), Nat.cast_one]; exact hL.le
  · rw [Nat.cast_sub (by omega), Nat.cast_one, hL]
    have : 0 < P.mismatch * below P := mul_pos hm hs
    change _ * sep P < _
    linarith
  · obtain ⟨R, bot, top, w1, w2, -, -⟩ := layers_aux h
    have hlen : length P = P.box_length - below P := by
      unfold length IdGen.layerLength
      have e : P.box_length / sep P = ((P.nx - 1 : ℕ) : ℝ) := by rw [h.over, Nat.cast_sub (by omega), Nat.cast_one]
      have e2 : ((P.nx - 1 : ℕ) : Int) - 1 = ((P.nx - 2 : ℕ) : Int) := by omega
      have hTs : sepT P = sep P := (above_eq h).trans hT
      have ho : IdGen.otherDown (sep P) (sepT P) ((P.nx - 2 : ℕ) : Int) = (P.nx - 2 : ℕ) * sep P := by
        unfold IdGen.otherDown Lattice.bTol
        rw [hTs, mul_div_cancel_right₀ _ hs.ne']
        have : ⌊(((P.nx - 2 : ℕ) : Int) : ℝ) + 1 / 1000000⌋ = ((P.nx - 2 : ℕ) : Int) := by
          rw [Int.floor_eq_iff]
          constructor <;> linarith
        rw [this]; rfl
      rw [if_pos hp, e, truncate_nat, e2, firstFit_first (by omega)]
      · rw [Option.getD_some, ho]
        show min _ ((((P.nx - 2 : ℕ) : Int) : ℝ) * sep P) = _ - sep P
        rw [hL, Int.cast_natCast, min_self, Nat.cast_sub (by omega)]
        push_cast; ring
      · rw [ho, Int.cast_natCast, sub_self, abs_zero]
        exact mul_pos hm h.sepT_pos
    rw [hlen] at w2
    exact ⟨R, _, _, _, bot, top, w1, w2⟩

/-! ### The parameters of data/RT_2d.par -/

def usual : Params where
  box_length := 1 / 2
  box_width := 3 / 2
  nx := 30
  lattice_type := 1
  density_ratio := 2
  rho_initial := 1
  poly_gamma := 7 / 5
  mismatch := 1 / 20
  periodic_boundary_x := true
  gravity := 1
  flow_velocity := 0
  cfl := 1 / 4
  amplitude := 1 / 5
  stripe := 1 / 10
  mode := 1
  eta := 3 / 2
  kernel_width := 2

private theorem half_bounds : (7 / 10 : ℝ) ≤ √(1 / 2) ∧ √(1 / 2) ≤ (71 / 100 : ℝ) :=
  ⟨Real.le_sqrt_of_sq_le (by norm_num), Real.sqrt_le_iff.2 ⟨by norm_num, by norm_num⟩⟩

theorem usual_ok : Ok usual where
  length := by norm_num [usual]
  width := by norm_num [usual]
  ratio := by norm_num [usual]
  rho := by norm_num [usual]
  lattice := Or.inr (Or.inl rfl)
  coarse := by norm_num [usual]
  fine := by norm_num [usual]
  tall := by norm_num [usual]
  mismatch := by norm_num [usual]
  fits := by have := half_bounds; simp only [usual]; linarith

/-- The search finds 29 separations of the bottom and 41 of the top lattice. -/
theorem usual_found : IdGen.layerLength usual.box_length (below usual) (above usual) usual.mismatch = some (41 * above usual) := by
  have hs : (0 : ℝ) < below usual := usual_ok.sep_pos
  have hT : (0 : ℝ) < above usual := above_eq usual_ok ▸ usual_ok.sepT_pos
  have hr : below usual = √2 * above usual := by
    have e : √(1 / 2 : ℝ) = 1 / √2 := by rw [Real.sqrt_div zero_le_one, Real.sqrt_one]
    unfold above
    rw [show usual.density_ratio = 2 from rfl, e]
    have : √(2 : ℝ) ≠ 0 := (Real.sqrt_pos.2 (by norm_num)).ne'
    field_simp
  have b1 : (14142 / 10000 : ℝ) < √2 := Real.lt_sqrt_of_sq_lt (by norm_num)
  have b2 : √2 < (14143 / 10000 : ℝ) := (Real.sqrt_lt' (by norm_num)).2 (by norm_num)
  have hq : ∀ j : Int, (j : ℝ) * below usual / above usual = j * √2 := fun j => by rw [hr]; field_simp
  have o28 : IdGen.otherDown (below usual) (above usual) (28 : ℕ) = 39 * above usual := by
    unfold IdGen.otherDown Lattice.bTol
    rw [hq, show ⌊(((28 : ℕ) : Int) : ℝ) * √2 + 1 / 1000000⌋ = 39 by rw [Int.floor_eq_iff]; push_cast; constructor <;> linarith]
    norm_num
  have o29 : IdGen.otherDown (below usual) (above usual) (28 + 1 : ℕ) = 41 * above usual := by
    unfold IdGen.otherDown Lattice.bTol
    rw [hq, show ⌊(((28 + 1 : ℕ) : Int) : ℝ) * √2 + 1 / 1000000⌋ = 41 by rw [Int.floor_eq_iff]; push_cast; constructor <;> linarith]
    norm_num
  unfold IdGen.layerLength
  have e : IdGen.truncate (usual.box_length / below usual) - 1 = ((28 : ℕ) : Int) := by
    rw [show usual.box_length / below usual = ((29 : ℕ) : ℝ) by norm_num [usual, below], truncate_nat]
    norm_num
  have hm : usual.mismatch = 1 / 20 := rfl
  rw [e, firstFit_second (by norm_num)]
  · rw [o29, hr, min_eq_left]
    push_cast
    nlinarith
  · rw [o28, hm, hr]
    push_cast
    rw [abs_lt]
    rintro ⟨h, -⟩
    nlinarith
  · rw [o29, hm, hr]
    push_cast
    rw [abs_lt]
    constructor <;> nlinarith

-- the hypotheses hold for these parameters: layers of rows with equally many particles
example : ∃ (L : ℝ) (N M R Q : ℕ) (bot top : List Particle), Writes usual (bot ++ top) ∧ Layers usual L R Q (fun _ => N) (fun _ => M) bot top ∧ 0 < N ∧ 0 < M := by
  have hb := half_bounds
  rcases C104_periodic_partial usual usual_ok rfl (by norm_num [usual]) (by simp only [usual]; linarith) (by norm_num [usual]) (by simp only [usual]; push_cast; linarith) with h | h
  · rw [usual_found] at h; exact absurd h (by simp)
  · obtain ⟨L, N, M, R, Q, bot, top, h1, h2, h3, h4, -⟩ := h
    exact ⟨L, N, M, R, Q, bot, top, h1, h2, h3, h4⟩

example : timestep usual = none := (C104_timestep_violated usual).1 le_rfl

example : ∃ (R Q : ℕ) (nb nt : ℕ → ℕ) (bot top : List Particle), Writes { usual with density_ratio := 1 } (bot ++ top) ∧ Layers { usual with density_ratio := 1 } (1 / 2 - 1 / 2 / 29) R Q nb nt bot top := by
  have ok : Ok { usual with density_ratio := 1 } := { usual_ok with ratio := by norm_num, fits := by norm_num [usual] }
  have := (C104_length_violated _ ok rfl (by norm_num [usual]) rfl (by norm_num [usual])).2.2
  rwa [show below { usual with density_ratio := 1 } = 1 / 2 / 29 by norm_num [below, usual]] at this

end
end FleCSPH.RtGen
