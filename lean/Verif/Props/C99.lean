import Verif.Lemmas.SodGen
/-!
C99: the one-dimensional data of a shock tube stands for its initial states. `SodGen.generate` is app/id_generators/sodtube/main.cc in one dimension, `TubeCells` in `Spec/TubeCells.lean` has the states of the tests and the
profile of a tube. A particle stands for the interval of length mass/density which begins at its position.
-/
namespace FleCSPH.SodGen
noncomputable section
open FleCSPH.Lattice FleCSPH.IdGen TubeCells Classical

/-- The generator ends and writes this file. -/
def Writes (P : Params) (f : File) : Prop := ∃ F, ∀ fuel ≥ F, generate P fuel = some f

/-- A particle in the middle and one outside. -/
private def inner (P : Params) (t : Tube) (x m : ℝ) (k : ℕ) : Particle := ⟨x, t.v1, t.rho1, t.P1, t.P1 / (P.gamma - 1) / t.rho1, m, P.eta * P.width * (m / t.rho1), k⟩
private def outer (P : Params) (t : Tube) (x m : ℝ) (k : ℕ) : Particle := ⟨x, t.v2, t.rho2, t.P2, t.P2 / (P.gamma - 1) / t.rho2, m, P.eta * P.width * (m / t.rho2), k⟩

private def lay (P : Params) (t : Tube) (b : Blocks) (sep lrsep m1 m2 : ℝ) (nc n k : ℕ) : Particle :=
  if k < nc then inner P t (place b sep lrsep nc n k) m1 k else outer P t (place b sep lrsep nc n k) m2 k

private theorem particle_eq (P : Params) (t : Tube) {b : Blocks} {sep lrsep : ℝ} {nc n : ℕ} (hf : Fits b sep lrsep nc n) (h1 : b.cmin < b.cmax) (h2 : b.rmin = b.cmax)
    (h3 : ∀ i < n, b.lmin + (i : ℝ) * lrsep ≤ b.cmin - bTol * (b.cmax - b.cmin)) (m1 m2 : ℝ) (pos : ℕ → Pos) (k : ℕ) (hk : k < nc + n + n) (hp : pos k = pt (place b sep lrsep nc n k)) :
    particle P t b m1 m2 pos k = lay P t b sep lrsep m1 m2 nc n k := by
  have htol : 0 < bTol * (b.cmax - b.cmin) := mul_pos (by norm_num [bTol]) (by linarith)
  have hmid : inDomain1 (pt b.cmin) (pt b.cmax) (pos k) ↔ k < nc := by
    rw [hp]
    show (place b sep lrsep nc n k > b.cmin - bTol * (b.cmax - b.cmin) ∧ place b sep lrsep nc n k < b.cmax - bTol * (b.cmax - b.cmin)) ↔ _
    unfold place
    by_cases c1 : k < nc
    · rw [if_pos c1]
      have : 0 < sep := hf.mid.2.1
      have : (0 : ℝ) ≤ k * sep := by positivity
      exact ⟨fun _ => c1, fun _ => ⟨by linarith, hf.mid.2.2.1 k c1⟩⟩
    · rw [if_neg c1]
      refine ⟨fun h => ?_, fun h => absurd h c1⟩
      exfalso
      by_cases c2 : k < nc + n
      · rw [if_pos c2] at h
        have : 0 < lrsep := hf.right.2.1
        have : (0 : ℝ) ≤ ((k - nc : ℕ) : ℝ) * lrsep := by positivity
        linarith [h.2]
      · rw [if_neg c2] at h
        have := h3 (k - (nc + n)) (by omega)
        linarith [h.1]
  simp only [particle, lay, hmid]
  by_cases c : k < nc
  · simp only [if_pos c, hp]; rfl
  · simp only [if_neg c, hp]; rfl

private theorem range_map_eq (P : Params) (t : Tube) {b : Blocks} {sep lrsep : ℝ} {nc n : ℕ} (hf : Fits b sep lrsep nc n) (h1 : b.cmin < b.cmax) (h2 : b.rmin = b.cmax)
    (h3 : ∀ i < n, b.lmin + (i : ℝ) * lrsep ≤ b.cmin - bTol * (b.cmax - b.cmin)) (m1 m2 : ℝ) (s : Lattice.State) (hs : s.posid = nc + n + n)
    (hp : ∀ k < nc + n + n, s.pos k = pt (place b sep lrsep nc n k)) :
    (List.range s.posid).map (particle P t b m1 m2 s.pos) = (List.range (nc + n + n)).map (lay P t b sep lrsep m1 m2 nc n) := by
  rw [hs]
  exact List.map_congr_left fun k hk => particle_eq P t hf h1 h2 h3 m1 m2 s.pos k (List.mem_range.1 hk) (hp k (List.mem_range.1 hk))

private theorem separation_eq (P : Params) (K : ℕ) (hK : (P.nx - 1) / 3 = K) (h1 : 1 ≤ K) : separation P = some (P.box_length / (3 * K)) := by
  unfold separation adjusted
  rw [hK, if_neg (by omega)]
  congr 2
  rw [show K * 3 + 1 - 1 = 3 * K by omega]
  push_cast
  ring

private theorem mass_core (P : Params) (hm : P.equal_mass = true) {t : Tube} (ht : tube P.test = some t) {K : ℕ} (hK : (P.nx - 1) / 3 = K) (hK1 : 1 ≤ K) {n : ℕ} {s r L : ℝ} {b : Blocks}
    (hs : s = P.box_length / (3 * K)) (hr : r = t.rho1 * s / t.rho2) (hb : adjust P r (blocks P.box_length) = (L, b)) (hf : Fits b s r K n) (h1 : b.cmin < b.cmax) (h2 : b.rmin = b.cmax)
    (h3 : ∀ i < n, b.lmin + (i : ℝ) * r ≤ b.cmin - bTol * (b.cmax - b.cmin)) :
    Writes P ⟨(List.range (K + n + n)).map (lay P t b s r (t.rho1 * s) (t.rho1 * s) K n), K + n + n, timestep P t s, L⟩ := by
  refine ⟨enough b s r, fun fuel hfuel => ?_⟩
  obtain ⟨st, e1, e2, e3⟩ := hf.filled fuel hfuel
  unfold generate
  simp only [ht, separation_eq P K hK hK1, ← hs, hm, if_true, ← hr, hb, hf.counted fuel hfuel true, e1, Option.bind_eq_bind, Option.bind_some]
  rw [range_map_eq P t hf h1 h2 h3 _ _ st e2 e3, e2]
  rfl

private theorem sep_core (P : Params) (hm : P.equal_mass = false) {t : Tube} (ht : tube P.test = some t) {K : ℕ} (hK : (P.nx - 1) / 3 = K) (hK1 : 1 ≤ K) {n : ℕ} {s : ℝ}
    (hs : s = P.box_length / (3 * K)) (hf : Fits (blocks P.box_length) s s K n) (hL : 0 < P.box_length)
    (h3 : ∀ i < n, -P.box_length / 2 + (i : ℝ) * s ≤ -P.box_length / 6 - bTol * (P.box_length / 6 - -P.box_length / 6)) :
    Writes P ⟨(List.range (K + n + n)).map (lay P t (blocks P.box_length) s s (t.rho1 / K) (t.rho2 / n) K n), K + n + n, timestep P t s, P.box_length⟩ := by
  refine ⟨enough (blocks P.box_length) s s, fun fuel hfuel => ?_⟩
  obtain ⟨st, e1, e2, e3⟩ := hf.filled fuel hfuel
  unfold generate
  simp only [ht, separation_eq P K hK hK1, ← hs, hm, hf.counted fuel hfuel false, e1, Option.bind_eq_bind, Option.bind_some, Bool.false_eq_true, if_false]
  rw [range_map_eq P t hf (by show -P.box_length / 6 < P.box_length / 6; linarith) rfl h3 _ _ st e2 e3, e2]
  rfl

private theorem writes_unique {P : Params} {f g : File} (h : Writes P f) (h' : Writes P g) : f = g := by
  obtain ⟨F, h⟩ := h
  obtain ⟨F', h'⟩ := h'
  exact Option.some_inj.mp ((h (F + F') (by omega)).symm.trans (h' (F + F') (by omega)))

/-- A block whose length is a number of separations takes this number. -/
private theorem takes_exact {lo hi s : ℝ} {n : ℕ} (hs : 0 < s) (h : hi - lo = n * s) (hn : n < 1000000) : Takes lo hi s n := by
  have hn' : (n : ℝ) < 1000000 := by exact_mod_cast hn
  have h0 : (0 : ℝ) ≤ n * s := by positivity
  refine ⟨by linarith, hs, fun i hi' => ?_, ?_⟩
  · have : (i : ℝ) + 1 ≤ n := by exact_mod_cast hi'
    rw [h]
    unfold bTol
    nlinarith
  · rw [h]
    unfold bTol
    linarith

/-- The restrictions: at least one particle per block, fewer than a million, a positive length and one of the tests. -/
structure Ok (P : Params) (K : ℕ) : Prop where
  number : (P.nx - 1) / 3 = K
  some : 1 ≤ K
  many : K < 1000000
  length : 0 < P.box_length
  test : 1 ≤ P.test ∧ P.test ≤ 6

/-- The state of a particle. -/
def gas (p : Particle) : Gas := ⟨p.vx, p.rho, p.P⟩

/-- The interval a particle stands for: as long as its mass needs with its density. -/
def Covers (p : Particle) (x : ℝ) : Prop := p.x ≤ x ∧ x < p.x + p.m / p.rho

private theorem mem_lay {P : Params} {t : Tube} {b : Blocks} {s r m1 m2 : ℝ} {K n : ℕ} {p : Particle} :
    p ∈ (List.range (K + n + n)).map (lay P t b s r m1 m2 K n) ↔
      (∃ i < K, p = inner P t (b.cmin + (i : ℝ) * s) m1 i) ∨ (∃ i < n, p = outer P t (b.rmin + (i : ℝ) * r) m2 (K + i)) ∨ ∃ i < n, p = outer P t (b.lmin + (i : ℝ) * r) m2 (K + n + i) := by
  simp only [List.mem_map, List.mem_range]
  constructor
  · rintro ⟨k, hk, rfl⟩
    by_cases c1 : k < K
    · exact Or.inl ⟨k, c1, by simp [lay, place, c1]⟩
    · by_cases c2 : k < K + n
      · refine Or.inr (Or.inl ⟨k - K, by omega, ?_⟩)
        rw [lay, place, if_neg c1, if_neg c1, if_pos c2, show K + (k - K) = k by omega]
      · refine Or.inr (Or.inr ⟨k - (K + n), by omega, ?_⟩)
        rw [lay, place, if_neg c1, if_neg c1, if_neg c2, show K + n + (k - (K + n)) = k by omega]
  · rintro (⟨i, hi, rfl⟩ | ⟨i, hi, rfl⟩ | ⟨i, hi, rfl⟩)
    · exact ⟨i, by omega, by simp [lay, place, hi]⟩
    · refine ⟨K + i, by omega, ?_⟩
      rw [lay, place, if_neg (by omega), if_neg (by omega), if_pos (by omega), show K + i - K = i by omega]
    · refine ⟨K + n + i, by omega, ?_⟩
      rw [lay, place, if_neg (by omega), if_neg (by omega), if_neg (by omega), show K + n + i - (K + n) = i by omega]

private theorem ids_lay (P : Params) (t : Tube) (b : Blocks) (s r m1 m2 : ℝ) (K n : ℕ) : ((List.range (K + n + n)).map (lay P t b s r m1 m2 K n)).map Particle.id = List.range (K + n + n) := by
  rw [List.map_map]
  conv_rhs => rw [← List.map_id (List.range (K + n + n))]
  refine List.map_congr_left fun k _ => ?_
  simp only [Function.comp, lay]
  split_ifs <;> rfl

/-- The numbers of the periodic tube with equal masses. -/
private theorem periodic_aux {P : Params} {K : ℕ} (h : Ok P K) (hm : P.equal_mass = true) (hp : P.periodic = true) : ∃ (t : Tube) (n : ℕ) (s r L : ℝ) (b : Blocks), tube P.test = some t ∧
    s = P.box_length / (3 * K) ∧ r = t.rho1 * s / t.rho2 ∧ 0 < s ∧ s ≤ r ∧ K * s = P.box_length / 3 ∧ L = P.box_length / 3 + 2 * (n * r) ∧ n * r ≤ P.box_length / 3 ∧ P.box_length / 3 < n * r + r ∧
    b = ⟨-P.box_length / 6, P.box_length / 6, P.box_length / 6, L / 2, -L / 2, -P.box_length / 6⟩ ∧
    Writes P ⟨(List.range (K + n + n)).map (lay P t b s r (t.rho1 * s) (t.rho1 * s) K n), K + n + n, timestep P t s, L⟩ := by
  obtain ⟨t, ht⟩ := tube_exists h.test.1 h.test.2
  obtain ⟨r2, r12, -, -, -⟩ := tube_states ht
  obtain ⟨s, hs⟩ : ∃ s, s = P.box_length / (3 * K) := ⟨_, rfl⟩
  obtain ⟨r, hr⟩ : ∃ r, r = t.rho1 * s / t.rho2 := ⟨_, rfl⟩
  have hL := h.length
  have hK0 : (0 : ℝ) < K := by exact_mod_cast h.some
  have hKm : (K : ℝ) < 1000000 := by exact_mod_cast h.many
  have hs0 : 0 < s := by rw [hs]; positivity
  have hsr : s ≤ r := by
    rw [hr, le_div_iff₀ r2]; nlinarith
  have hr0 : 0 < r := by linarith
  have hKs : K * s = P.box_length / 3 := by rw [hs]; field_simp
  have hq : 0 ≤ P.box_length / (3 * r) := by positivity
  obtain ⟨n, hn⟩ : ∃ n : ℕ, truncate (P.box_length / (3 * r)) = (n : ℤ) := by
    rw [truncate, if_pos hq]
    exact Int.eq_ofNat_of_zero_le (Int.floor_nonneg.2 hq)
  have hn' := hn
  rw [truncate, if_pos hq, Int.floor_eq_iff, le_div_iff₀ (by positivity), div_lt_iff₀ (by positivity)] at hn'
  obtain ⟨n1, n2⟩ := hn'
  push_cast at n1 n2
  have hnr : n * r ≤ P.box_length / 3 := by linarith
  have hnK : n ≤ K := by
    have : (n : ℝ) * r ≤ K * r := by nlinarith
    exact_mod_cast le_of_mul_le_mul_right this hr0
  obtain ⟨L, hLdef⟩ : ∃ L, L = P.box_length / 3 + 2 * (n * r) := ⟨_, rfl⟩
  refine ⟨t, n, s, r, L, _, ht, hs, hr, hs0, hsr, hKs, hLdef, hnr, by linarith, rfl, ?_⟩
  refine mass_core P hm ht h.number h.some hs hr ?_ ⟨?_, ?_, ?_⟩ ?_ rfl ?_
  · rw [adjust, if_pos hp, hn, blocks]
    simp only [Int.cast_natCast, Prod.mk.injEq, Blocks.mk.injEq, true_and, and_true]
    have : P.box_length / 3 + 2 * (n : ℝ) * r = L := by rw [hLdef]; ring
    rw [this]
    exact ⟨rfl, rfl, rfl⟩
  · exact takes_exact hs0 (by show P.box_length / 6 - -P.box_length / 6 = _; rw [hKs]; ring) h.many
  · exact takes_exact hr0 (by show L / 2 - P.box_length / 6 = _; rw [hLdef]; ring) (by have := h.many; omega)
  · exact takes_exact hr0 (by show -P.box_length / 6 - -L / 2 = _; rw [hLdef]; ring) (by have := h.many; omega)
  · show -P.box_length / 6 < P.box_length / 6
    linarith
  · intro i hi
    show -L / 2 + (i : ℝ) * r ≤ -P.box_length / 6 - bTol * (P.box_length / 6 - -P.box_length / 6)
    have hi' : (i : ℝ) + 1 ≤ n := by exact_mod_cast hi
    have : (i : ℝ) * r + r ≤ n * r := by nlinarith
    have hb : bTol * (P.box_length / 6 - -P.box_length / 6) ≤ r := by
      have : P.box_length / 6 - -P.box_length / 6 = K * s := by rw [hKs]; ring
      rw [this]
      unfold bTol
      nlinarith
    rw [hLdef]
    linarith

/-- With equal masses and periodic boundaries: the generator ends; the particles are numbered; each point of the box is in the interval of exactly one of them, which has the state of the tube there; all masses are equal, the
pressure is that of an ideal gas with the energy written, the smoothing length is `eta * width` times the length of the interval; and the box is shorter than wanted by less than two outer separations. -/
theorem C99_profile_partial (P : Params) (K : ℕ) (h : Ok P K) (hm : P.equal_mass = true) (hp : P.periodic = true) (hg : P.gamma ≠ 1) :
    ∃ f, Writes P f ∧ f.particles.map Particle.id = List.range f.nparticles ∧
      (∀ x, -f.box_length / 2 ≤ x → x < f.box_length / 2 → ∃! p, p ∈ f.particles ∧ Covers p x) ∧
      (∀ p ∈ f.particles, ∀ x, Covers p x → -f.box_length / 2 ≤ x ∧ x < f.box_length / 2 ∧ gas p = profile (states P.test.toNat).1 (states P.test.toNat).2 (P.box_length / 6) x) ∧
      (∀ p ∈ f.particles, 0 < p.m ∧ p.P = (P.gamma - 1) * p.rho * p.u ∧ p.h = P.eta * P.width * (p.m / p.rho) ∧ p.m = (states P.test.toNat).1.rho * (P.box_length / (3 * K))) ∧
      f.box_length ≤ P.box_length ∧ P.box_length - 2 * ((states P.test.toNat).1.rho / (states P.test.toNat).2.rho * (P.box_length / (3 * K))) < f.box_length := by
  obtain ⟨t, n, s, r, L, b, ht, hs, hr, hs0, hsr, hKs, hLdef, hnr, hnr', hb, hw⟩ := periodic_aux h hm hp
  obtain ⟨r2, r12, p1, p2, k, -, -, htest, hst⟩ := tube_states ht
  have hr0 : 0 < r := by linarith
  have hn0 : 0 ≤ n * r := by positivity
  have hL := h.length
  have hr1 : t.rho1 ≠ 0 := by linarith
  have hg' : P.gamma - 1 ≠ 0 := sub_ne_zero.2 hg
  have e1 : t.rho1 * s / t.rho1 = s := mul_div_cancel_left₀ s hr1
  rw [htest, Int.toNat_natCast, hst]
  have c1 : ∀ (y : ℝ) (i : ℕ) (x : ℝ), Covers (inner P t y (t.rho1 * s) i) x ↔ y ≤ x ∧ x < y + s := fun y i x => by
    unfold Covers inner
    rw [e1]
  have c2 : ∀ (y : ℝ) (i : ℕ) (x : ℝ), Covers (outer P t y (t.rho1 * s) i) x ↔ y ≤ x ∧ x < y + r := fun y i x => by
    unfold Covers outer
    rw [← hr]
  -- where the intervals are
  have w1 : ∀ i < K, ∀ x : ℝ, b.cmin + (i : ℝ) * s ≤ x → x < b.cmin + i * s + s → -P.box_length / 6 ≤ x ∧ x < P.box_length / 6 := by
    intro i hi x a1 a2
    have hi' : (i : ℝ) + 1 ≤ K := by exact_mod_cast hi
    have : (i : ℝ) * s + s ≤ K * s := by nlinarith
    have : (0 : ℝ) ≤ i * s := by positivity
    rw [hb] at a1 a2
    dsimp only at a1 a2
    constructor <;> linarith
  have w2 : ∀ i < n, ∀ x : ℝ, b.rmin + (i : ℝ) * r ≤ x → x < b.rmin + i * r + r → P.box_length / 6 ≤ x ∧ x < L / 2 := by
    intro i hi x a1 a2
    have hi' : (i : ℝ) + 1 ≤ n := by exact_mod_cast hi
    have : (i : ℝ) * r + r ≤ n * r := by nlinarith
    have : (0 : ℝ) ≤ i * r := by positivity
    rw [hb] at a1 a2
    dsimp only at a1 a2
    constructor <;> linarith
  have w3 : ∀ i < n, ∀ x : ℝ, b.lmin + (i : ℝ) * r ≤ x → x < b.lmin + i * r + r → -L / 2 ≤ x ∧ x < -P.box_length / 6 := by
    intro i hi x a1 a2
    have hi' : (i : ℝ) + 1 ≤ n := by exact_mod_cast hi
    have : (i : ℝ) * r + r ≤ n * r := by nlinarith
    have : (0 : ℝ) ≤ i * r := by positivity
    rw [hb] at a1 a2
    dsimp only at a1 a2
    constructor <;> linarith
  refine ⟨_, hw, ids_lay .., ?_, ?_, ?_, by show L ≤ _; linarith, ?_⟩
  · intro x x1 x2
    simp only at x1 x2
    by_cases a1 : x < -P.box_length / 6
    · obtain ⟨i, hi, ⟨hi1, hi2⟩, hi3⟩ := cell_index (lo := b.lmin) (x := x) (n := n) hr0 (by rw [hb]; exact x1) (by rw [hb]; show x < -L / 2 + n * r; linarith)
      refine ⟨_, ⟨mem_lay.2 (Or.inr (Or.inr ⟨i, hi, rfl⟩)), (c2 _ _ _).2 ⟨hi1, hi2⟩⟩, ?_⟩
      rintro q ⟨hq, hc⟩
      rcases mem_lay.1 hq with ⟨j, hj, rfl⟩ | ⟨j, hj, rfl⟩ | ⟨j, hj, rfl⟩
      · rw [c1] at hc
        linarith [(w1 j hj x hc.1 hc.2).1]
      · rw [c2] at hc
        linarith [(w2 j hj x hc.1 hc.2).1]
      · rw [c2] at hc
        rw [hi3 j hc.1 hc.2]
    · by_cases a2 : x < P.box_length / 6
      · obtain ⟨i, hi, ⟨hi1, hi2⟩, hi3⟩ := cell_index (lo := b.cmin) (x := x) (n := K) hs0 (by rw [hb]; exact not_lt.1 a1) (by rw [hb]; show x < -P.box_length / 6 + K * s; linarith)
        refine ⟨_, ⟨mem_lay.2 (Or.inl ⟨i, hi, rfl⟩), (c1 _ _ _).2 ⟨hi1, hi2⟩⟩, ?_⟩
        rintro q ⟨hq, hc⟩
        rcases mem_lay.1 hq with ⟨j, hj, rfl⟩ | ⟨j, hj, rfl⟩ | ⟨j, hj, rfl⟩
        · rw [c1] at hc
          rw [hi3 j hc.1 hc.2]
        · rw [c2] at hc
          linarith [(w2 j hj x hc.1 hc.2).1]
        · rw [c2] at hc
          linarith [(w3 j hj x hc.1 hc.2).2]
      · obtain ⟨i, hi, ⟨hi1, hi2⟩, hi3⟩ := cell_index (lo := b.rmin) (x := x) (n := n) hr0 (by rw [hb]; exact not_lt.1 a2) (by rw [hb]; show x < P.box_length / 6 + n * r; linarith)
        refine ⟨_, ⟨mem_lay.2 (Or.inr (Or.inl ⟨i, hi, rfl⟩)), (c2 _ _ _).2 ⟨hi1, hi2⟩⟩, ?_⟩
        rintro q ⟨hq, hc⟩
        rcases mem_lay.1 hq with ⟨j, hj, rfl⟩ | ⟨j, hj, rfl⟩ | ⟨j, hj, rfl⟩
        · rw [c1] at hc
          linarith [(w1 j hj x hc.1 hc.2).2]
        · rw [c2] at hc
          rw [hi3 j hc.1 hc.2]
        · rw [c2] at hc
          linarith [(w3 j hj x hc.1 hc.2).2]
  · intro p hpm x hc
    unfold profile
    rcases mem_lay.1 hpm with ⟨j, hj, rfl⟩ | ⟨j, hj, rfl⟩ | ⟨j, hj, rfl⟩
    · rw [c1] at hc
      obtain ⟨y1, y2⟩ := w1 j hj x hc.1 hc.2
      rw [if_pos ⟨by linarith, y2⟩]
      exact ⟨by show -L / 2 ≤ x; linarith, by show x < L / 2; linarith, rfl⟩
    · rw [c2] at hc
      obtain ⟨y1, y2⟩ := w2 j hj x hc.1 hc.2
      rw [if_neg fun h => absurd h.2 (not_lt.2 y1)]
      exact ⟨by show -L / 2 ≤ x; linarith, y2, rfl⟩
    · rw [c2] at hc
      obtain ⟨y1, y2⟩ := w3 j hj x hc.1 hc.2
      rw [if_neg fun h => by linarith [h.1]]
      exact ⟨y1, by show x < L / 2; linarith, rfl⟩
  · intro p hpm
    have m0 : 0 < t.rho1 * s := mul_pos (by linarith) hs0
    rcases mem_lay.1 hpm with ⟨j, hj, rfl⟩ | ⟨j, hj, rfl⟩ | ⟨j, hj, rfl⟩
    · refine ⟨m0, ?_, rfl, by show t.rho1 * s = _; rw [hs]⟩
      simp only [inner]; field_simp
    · refine ⟨m0, ?_, rfl, by show t.rho1 * s = _; rw [hs]⟩
      simp only [outer]; field_simp
    · refine ⟨m0, ?_, rfl, by show t.rho1 * s = _; rw [hs]⟩
      simp only [outer]; field_simp
  · show P.box_length - 2 * (t.rho1 / t.rho2 * (P.box_length / (3 * K))) < L
    have : t.rho1 / t.rho2 * (P.box_length / (3 * K)) = r := by rw [hr, hs]; ring
    rw [this]
    linarith

private theorem mass_sum (P : Params) (t : Tube) (b : Blocks) (s r m1 m2 : ℝ) (K n : ℕ) : (((List.range (K + n + n)).map (lay P t b s r m1 m2 K n)).map Particle.m).sum = K * m1 + 2 * n * m2 := by
  have e1 : (List.range K).map (Particle.m ∘ lay P t b s r m1 m2 K n) = (List.range K).map fun _ => m1 :=
    List.map_congr_left fun k hk => by simp only [Function.comp, lay, if_pos (List.mem_range.1 hk)]; rfl
  have e2 : (List.range (n + n)).map ((Particle.m ∘ lay P t b s r m1 m2 K n) ∘ fun x => K + x) = (List.range (n + n)).map fun _ => m2 :=
    List.map_congr_left fun k hk => by simp only [Function.comp, lay, if_neg (show ¬ K + k < K by omega)]; rfl
  rw [List.map_map, Nat.add_assoc, List.range_add, List.map_append, List.sum_append, List.map_map, e1, e2]
  simp only [List.map_const', List.length_range, List.sum_replicate, nsmul_eq_mul]
  push_cast
  ring

/-- The mass of the periodic tube is that of its profile. -/
theorem C99_mass_partial (P : Params) (K : ℕ) (h : Ok P K) (hm : P.equal_mass = true) (hp : P.periodic = true) (f : File) (hw : Writes P f) :
    (f.particles.map Particle.m).sum = (states P.test.toNat).1.rho * (P.box_length / 3) + (states P.test.toNat).2.rho * (f.box_length - P.box_length / 3) := by
  obtain ⟨t, n, s, r, L, b, ht, hs, hr, hs0, hsr, hKs, hLdef, hnr, hnr', hb, hw'⟩ := periodic_aux h hm hp
  obtain ⟨r2, -, -, -, k, -, -, htest, hst⟩ := tube_states ht
  rw [writes_unique hw hw', htest, Int.toNat_natCast, hst, mass_sum]
  dsimp only
  have : t.rho1 * s = t.rho2 * r := by rw [hr]; field_simp
  rw [← hKs, hLdef, ← hKs, this]
  linear_combination (K : ℝ) * this.symm

/-- With few particles the outer parts are lost: if the middle has fewer particles than the ratio of the densities, all particles are in the middle and the box is a third of the one wanted. -/
theorem C99_lost_violated (P : Params) (K : ℕ) (h : Ok P K) (hm : P.equal_mass = true) (hp : P.periodic = true) (hK : K * (states P.test.toNat).2.rho < (states P.test.toNat).1.rho) (f : File) (hw : Writes P f) :
    f.nparticles = K ∧ f.box_length = P.box_length / 3 ∧ ∀ p ∈ f.particles, gas p = (states P.test.toNat).1 := by
  obtain ⟨t, n, s, r, L, b, ht, hs, hr, hs0, hsr, hKs, hLdef, hnr, hnr', hb, hw'⟩ := periodic_aux h hm hp
  obtain ⟨r2, -, -, -, k, -, -, htest, hst⟩ := tube_states ht
  rw [htest, Int.toNat_natCast, hst] at hK ⊢
  dsimp only at hK ⊢
  have hn : n = 0 := by
    by_contra hne
    have h1 : (1 : ℝ) ≤ n := by exact_mod_cast Nat.one_le_iff_ne_zero.2 hne
    have : K * s < r := by
      rw [hr, lt_div_iff₀ r2]
      nlinarith
    nlinarith
  subst hn
  rw [writes_unique hw hw']
  refine ⟨rfl, by show L = _; rw [hLdef]; simp, fun p hpm => ?_⟩
  rcases mem_lay.1 hpm with ⟨j, hj, rfl⟩ | ⟨j, hj, rfl⟩ | ⟨j, hj, rfl⟩
  · rfl
  · omega
  · omega

/-- The numbers of the tube with equal masses and open ends. -/
private theorem open_aux {P : Params} {K : ℕ} (h : Ok P K) (hm : P.equal_mass = true) (hp : P.periodic = false) : ∃ (t : Tube) (n : ℕ) (s r : ℝ), tube P.test = some t ∧
    s = P.box_length / (3 * K) ∧ r = t.rho1 * s / t.rho2 ∧ 0 < s ∧ s ≤ r ∧ K * s = P.box_length / 3 ∧ (n : ℝ) * r < P.box_length / 3 * (1 - bTol) + r ∧ P.box_length / 3 * (1 - bTol) ≤ n * r ∧
    Writes P ⟨(List.range (K + n + n)).map (lay P t (blocks P.box_length) s r (t.rho1 * s) (t.rho1 * s) K n), K + n + n, timestep P t s, P.box_length⟩ := by
  obtain ⟨t, ht⟩ := tube_exists h.test.1 h.test.2
  obtain ⟨r2, r12, -, -, -⟩ := tube_states ht
  obtain ⟨s, hs⟩ : ∃ s, s = P.box_length / (3 * K) := ⟨_, rfl⟩
  obtain ⟨r, hr⟩ : ∃ r, r = t.rho1 * s / t.rho2 := ⟨_, rfl⟩
  have hL := h.length
  have hK0 : (0 : ℝ) < K := by exact_mod_cast h.some
  have hs0 : 0 < s := by rw [hs]; positivity
  have hsr : s ≤ r := by
    rw [hr, le_div_iff₀ r2]; nlinarith
  have hr0 : 0 < r := by linarith
  have hKs : K * s = P.box_length / 3 := by rw [hs]; field_simp
  have hD : 0 < P.box_length / 3 * (1 - bTol) := mul_pos (by linarith) (by norm_num [bTol])
  have hq : 0 ≤ P.box_length / 3 * (1 - bTol) / r := by positivity
  obtain ⟨n, hn⟩ : ∃ n : ℕ, n = ⌈P.box_length / 3 * (1 - bTol) / r⌉₊ := ⟨_, rfl⟩
  have n1 : P.box_length / 3 * (1 - bTol) ≤ n * r := by
    have := Nat.le_ceil (P.box_length / 3 * (1 - bTol) / r)
    rw [← hn, div_le_iff₀ hr0] at this
    exact this
  have n2 : (n : ℝ) * r < P.box_length / 3 * (1 - bTol) + r := by
    have := Nat.ceil_lt_add_one hq
    rw [← hn, ← sub_lt_iff_lt_add, lt_div_iff₀ hr0] at this
    linarith
  have tk : ∀ lo hi : ℝ, hi - lo = P.box_length / 3 → Takes lo hi r n := by
    intro lo hi e
    refine ⟨by linarith, hr0, fun i hi' => ?_, by rw [e]; linarith⟩
    have : (i : ℝ) + 1 ≤ n := by exact_mod_cast hi'
    rw [e]
    nlinarith
  refine ⟨t, n, s, r, ht, hs, hr, hs0, hsr, hKs, n2, n1, mass_core P hm ht h.number h.some hs hr ?_ ⟨?_, ?_, ?_⟩ ?_ rfl ?_⟩
  · rw [adjust, hp]; rfl
  · exact takes_exact hs0 (by show P.box_length / 6 - -P.box_length / 6 = _; rw [hKs]; ring) h.many
  · exact tk _ _ (by show -(-P.box_length / 2) - P.box_length / 6 = _; ring)
  · exact tk _ _ (by show -P.box_length / 6 - -P.box_length / 2 = _; ring)
  · show -P.box_length / 6 < P.box_length / 6
    linarith
  · intro i hi
    show -P.box_length / 2 + (i : ℝ) * r ≤ -P.box_length / 6 - bTol * (P.box_length / 6 - -P.box_length / 6)
    have hi' : (i : ℝ) + 1 ≤ n := by exact_mod_cast hi
    have : (i : ℝ) * r + r ≤ n * r := by nlinarith
    have e : P.box_length / 6 - -P.box_length / 6 = P.box_length / 3 := by ring
    rw [e]
    linarith

/-- With equal masses and open ends: every particle has the state of the tube at its position and is in the box; the intervals of the particles cover the box up to a millionth of a third at the ends of the outer parts, and
the mass is at most one particle per outer part more than that of the profile. -/
theorem C99_open_partial (P : Params) (K : ℕ) (h : Ok P K) (hm : P.equal_mass = true) (hp : P.periodic = false) :
    ∃ f, Writes P f ∧ f.box_length = P.box_length ∧ f.particles.map Particle.id = List.range f.nparticles ∧
      (∀ p ∈ f.particles, -P.box_length / 2 ≤ p.x ∧ p.x < P.box_length / 2 ∧ gas p = profile (states P.test.toNat).1 (states P.test.toNat).2 (P.box_length / 6) p.x ∧
        p.m = (states P.test.toNat).1.rho * (P.box_length / (3 * K)) ∧ p.h = P.eta * P.width * (p.m / p.rho)) ∧
      (∀ x, -P.box_length / 2 ≤ x → x < P.box_length / 2 - P.box_length / 3 / 1000000 → (x < -P.box_length / 6 - P.box_length / 3 / 1000000 ∨ -P.box_length / 6 ≤ x) → ∃ p ∈ f.particles, Covers p x) ∧
      (1 - 1 / 1000000) * (2 * (states P.test.toNat).2.rho * (P.box_length / 3)) ≤ (f.particles.map Particle.m).sum - (states P.test.toNat).1.rho * (P.box_length / 3) ∧
      (f.particles.map Particle.m).sum < (states P.test.toNat).1.rho * (P.box_length / 3) + 2 * (states P.test.toNat).2.rho * (P.box_length / 3) + 2 * ((states P.test.toNat).1.rho * (P.box_length / (3 * K))) := by
  obtain ⟨t, n, s, r, ht, hs, hr, hs0, hsr, hKs, n2, n1, hw⟩ := open_aux h hm hp
  obtain ⟨r2, r12, p1, p2, k, -, -, htest, hst⟩ := tube_states ht
  have hr0 : 0 < r := by linarith
  have hL := h.length
  have hr1 : t.rho1 ≠ 0 := by linarith
  have e1 : t.rho1 * s / t.rho1 = s := mul_div_cancel_left₀ s hr1
  have hm2 : t.rho1 * s = t.rho2 * r := by rw [hr]; field_simp
  have hbt : bTol = 1 / 1000000 := rfl
  rw [htest, Int.toNat_natCast, hst]
  refine ⟨_, hw, rfl, ids_lay .., ?_, ?_, ?_, ?_⟩
  · intro p hpm
    unfold profile
    rcases mem_lay.1 hpm with ⟨j, hj, rfl⟩ | ⟨j, hj, rfl⟩ | ⟨j, hj, rfl⟩
    · have hj' : (j : ℝ) + 1 ≤ K := by exact_mod_cast hj
      have : (j : ℝ) * s + s ≤ K * s := by nlinarith
      have : (0 : ℝ) ≤ j * s := by positivity
      have y1 : -P.box_length / 6 ≤ -P.box_length / 6 + (j : ℝ) * s := by linarith
      have y2 : -P.box_length / 6 + (j : ℝ) * s < P.box_length / 6 := by linarith
      refine ⟨by show -P.box_length / 2 ≤ -P.box_length / 6 + (j : ℝ) * s; linarith, by show -P.box_length / 6 + (j : ℝ) * s < P.box_length / 2; linarith, ?_, by show t.rho1 * s = _; rw [hs], rfl⟩
      rw [if_pos ⟨by show -(P.box_length / 6) ≤ -P.box_length / 6 + (j : ℝ) * s; linarith, y2⟩]
      rfl
    · have hj' : (j : ℝ) + 1 ≤ n := by exact_mod_cast hj
      have : (j : ℝ) * r + r ≤ n * r := by nlinarith
      have : (0 : ℝ) ≤ j * r := by positivity
      have y1 : P.box_length / 6 ≤ P.box_length / 6 + (j : ℝ) * r := by linarith
      have y2 : P.box_length / 6 + (j : ℝ) * r < P.box_length / 2 := by rw [hbt] at n2; linarith
      refine ⟨by show -P.box_length / 2 ≤ P.box_length / 6 + (j : ℝ) * r; linarith, y2, ?_, by show t.rho1 * s = _; rw [hs], rfl⟩
      rw [if_neg fun hh => absurd hh.2 (not_lt.2 y1)]
      rfl
    · have hj' : (j : ℝ) + 1 ≤ n := by exact_mod_cast hj
      have : (j : ℝ) * r + r ≤ n * r := by nlinarith
      have : (0 : ℝ) ≤ j * r := by positivity
      have y1 : -P.box_length / 2 ≤ -P.box_length / 2 + (j : ℝ) * r := by linarith
      have y2 : -P.box_length / 2 + (j : ℝ) * r < -P.box_length / 6 := by rw [hbt] at n2; linarith
      refine ⟨y1, by show -P.box_length / 2 + (j : ℝ) * r < P.box_length / 2; linarith, ?_, by show t.rho1 * s = _; rw [hs], rfl⟩
      rw [if_neg fun hh => by have : -(P.box_length / 6) ≤ -P.box_length / 2 + (j : ℝ) * r := hh.1; linarith]
      rfl
  · intro x x1 x2 x3
    rw [hbt] at n1
    by_cases a1 : x < -P.box_length / 6
    · obtain ⟨i, hi, hi1, -⟩ := cell_index (lo := -P.box_length / 2) (x := x) (n := n) hr0 x1 (by rcases x3 with x3 | x3 <;> linarith)
      refine ⟨_, mem_lay.2 (Or.inr (Or.inr ⟨i, hi, rfl⟩)), ?_⟩
      unfold Covers outer
      rw [← hr]
      exact hi1
    · by_cases a2 : x < P.box_length / 6
      · obtain ⟨i, hi, hi1, -⟩ := cell_index (lo := -P.box_length / 6) (x := x) (n := K) hs0 (not_lt.1 a1) (by linarith)
        refine ⟨_, mem_lay.2 (Or.inl ⟨i, hi, rfl⟩), ?_⟩
        unfold Covers inner
        rw [e1]
        exact hi1
      · obtain ⟨i, hi, hi1, -⟩ := cell_index (lo := P.box_length / 6) (x := x) (n := n) hr0 (not_lt.1 a2) (by linarith)
        refine ⟨_, mem_lay.2 (Or.inr (Or.inl ⟨i, hi, rfl⟩)), ?_⟩
        unfold Covers outer
        rw [← hr]
        exact hi1
  · rw [mass_sum]
    dsimp only
    rw [hbt] at n1
    have e : (K : ℝ) * (t.rho1 * s) = t.rho1 * (P.box_length / 3) := by rw [← hKs]; ring
    rw [e, hm2]
    nlinarith
  · rw [mass_sum]
    dsimp only
    rw [hbt] at n2
    have e : (K : ℝ) * (t.rho1 * s) = t.rho1 * (P.box_length / 3) := by rw [← hKs]; ring
    rw [e, ← hs, hm2]
    nlinarith

/-- The data of `data/sodtube_t1_n100.par` with the cubic spline: Sod's problem, 100 particles, length 3, equal masses, open ends. -/
def usual : Params := ⟨3, 100, 1, 7 / 5, 6 / 5, 2, true, false⟩

theorem usual_ok : Ok usual 33 := ⟨rfl, by norm_num, by norm_num, by norm_num [usual], by decide⟩

/-- The outer parts of this tube have the mass 10/33 instead of 1/4: in each are five particles, where the mass is enough for 4.125. -/
theorem C99_open_violated (f : File) (hw : Writes usual f) : f.nparticles = 43 ∧ (f.particles.map Particle.m).sum = 1 + 10 / 33 ∧
    (states 1).1.rho * (usual.box_length / 3) + (states 1).2.rho * (usual.box_length - usual.box_length / 3) = 1 + 1 / 4 := by
  obtain ⟨t, n, s, r, ht, hs, hr, -, -, -, n2, n1, hw'⟩ := open_aux usual_ok rfl rfl
  have ht' : t = ⟨1, 125 / 1000, 1, 1 / 10, 0, 0⟩ := by
    rw [show tube usual.test = some ⟨1, 125 / 1000, 1, 1 / 10, 0, 0⟩ from if_pos rfl] at ht
    exact (Option.some_inj.1 ht).symm
  have hs' : s = 1 / 33 := by rw [hs]; norm_num [usual]
  have hr' : r = 8 / 33 := by rw [hr, hs', ht']; norm_num
  have hL : usual.box_length = 3 := rfl
  rw [hr', hL] at n1 n2
  unfold bTol at n1 n2
  have hn : n = 5 := by
    have h1 : (4 : ℝ) < n := by linarith
    have h2 : (n : ℝ) < 6 := by linarith
    have h1' : 4 < n := by exact_mod_cast h1
    have h2' : n < 6 := by exact_mod_cast h2
    omega
  subst hn
  rw [writes_unique hw hw', mass_sum, hs', ht', hL]
  refine ⟨rfl, by norm_num, by norm_num [states]⟩

/-- The numbers of the tube with equal separations. -/
private theorem separation_aux {P : Params} {K : ℕ} (h : Ok P K) (hm : P.equal_mass = false) : ∃ (t : Tube) (s : ℝ), tube P.test = some t ∧ s = P.box_length / (3 * K) ∧ 0 < s ∧ K * s = P.box_length / 3 ∧
    Writes P ⟨(List.range (K + K + K)).map (lay P t (blocks P.box_length) s s (t.rho1 / K) (t.rho2 / K) K K), K + K + K, timestep P t s, P.box_length⟩ := by
  obtain ⟨t, ht⟩ := tube_exists h.test.1 h.test.2
  obtain ⟨s, hs⟩ : ∃ s, s = P.box_length / (3 * K) := ⟨_, rfl⟩
  have hL := h.length
  have hK0 : (0 : ℝ) < K := by exact_mod_cast h.some
  have hKm : (K : ℝ) < 1000000 := by exact_mod_cast h.many
  have hs0 : 0 < s := by rw [hs]; positivity
  have hKs : K * s = P.box_length / 3 := by rw [hs]; field_simp
  refine ⟨t, s, ht, hs, hs0, hKs, sep_core P hm ht h.number h.some hs ⟨?_, ?_, ?_⟩ hL ?_⟩
  · exact takes_exact hs0 (by show P.box_length / 6 - -P.box_length / 6 = _; rw [hKs]; ring) h.many
  · exact takes_exact hs0 (by show -(-P.box_length / 2) - P.box_length / 6 = _; rw [hKs]; ring) h.many
  · exact takes_exact hs0 (by show -P.box_length / 6 - -P.box_length / 2 = _; rw [hKs]; ring) h.many
  · intro i hi
    have hi' : (i : ℝ) + 1 ≤ K := by exact_mod_cast hi
    have : (i : ℝ) * s + s ≤ K * s := by nlinarith
    have e : P.box_length / 6 - -P.box_length / 6 = K * s := by rw [hKs]; ring
    rw [e]
    unfold bTol
    nlinarith

/-- With equal separations: the particles are at equal distances over the whole box, a number of them in each third, with the states of the tube; the masses are right up to the factor 3/length. -/
theorem C99_separation_partial (P : Params) (K : ℕ) (h : Ok P K) (hm : P.equal_mass = false) :
    ∃ f, Writes P f ∧ f.box_length = P.box_length ∧ f.nparticles = 3 * K ∧ f.particles.map Particle.id = List.range f.nparticles ∧
      (∀ i < 3 * K, ∃ p ∈ f.particles, p.x = -P.box_length / 2 + i * (P.box_length / (3 * K))) ∧
      (∀ p ∈ f.particles, (∃ i < 3 * K, p.x = -P.box_length / 2 + i * (P.box_length / (3 * K))) ∧ gas p = profile (states P.test.toNat).1 (states P.test.toNat).2 (P.box_length / 6) p.x ∧
        p.m = p.rho * (P.box_length / (3 * K)) * (3 / P.box_length)) ∧
      (f.particles.map Particle.m).sum = (states P.test.toNat).1.rho + 2 * (states P.test.toNat).2.rho := by
  obtain ⟨t, s, ht, hs, hs0, hKs, hw⟩ := separation_aux h hm
  obtain ⟨r2, r12, p1, p2, k, -, -, htest, hst⟩ := tube_states ht
  have hL := h.length
  have hK0 : (0 : ℝ) < K := by exact_mod_cast h.some
  have hmm : ∀ rho : ℝ, rho / K = rho * s * (3 / P.box_length) := fun rho => by rw [hs]; field_simp
  rw [htest, Int.toNat_natCast, hst, ← hs]
  refine ⟨_, hw, rfl, by show K + K + K = 3 * K; ring, ids_lay .., ?_, ?_, ?_⟩
  · intro i hi
    by_cases c1 : i < K
    · exact ⟨_, mem_lay.2 (Or.inr (Or.inr ⟨i, c1, rfl⟩)), rfl⟩
    · by_cases c2 : i < K + K
      · refine ⟨_, mem_lay.2 (Or.inl ⟨i - K, by omega, rfl⟩), ?_⟩
        show -P.box_length / 6 + ((i - K : ℕ) : ℝ) * s = _
        rw [Nat.cast_sub (by omega)]
        linarith
      · refine ⟨_, mem_lay.2 (Or.inr (Or.inl ⟨i - (K + K), by omega, rfl⟩)), ?_⟩
        show P.box_length / 6 + ((i - (K + K) : ℕ) : ℝ) * s = _
        rw [Nat.cast_sub (by omega)]
        push_cast
        linarith
  · intro p hpm
    unfold profile
    rcases mem_lay.1 hpm with ⟨j, hj, rfl⟩ | ⟨j, hj, rfl⟩ | ⟨j, hj, rfl⟩
    all_goals
      have hj' : (j : ℝ) + 1 ≤ K := by exact_mod_cast hj
      have h1 : (j : ℝ) * s + s ≤ K * s := by nlinarith
      have h2 : (0 : ℝ) ≤ j * s := by positivity
    · refine ⟨⟨K + j, by omega, ?_⟩, ?_, hmm _⟩
      · show -P.box_length / 6 + (j : ℝ) * s = _
        push_cast
        linarith
      · rw [if_pos ⟨by show -(P.box_length / 6) ≤ -P.box_length / 6 + (j : ℝ) * s; linarith, by show -P.box_length / 6 + (j : ℝ) * s < P.box_length / 6; linarith⟩]
        rfl
    · refine ⟨⟨K + K + j, by omega, ?_⟩, ?_, hmm _⟩
      · show P.box_length / 6 + (j : ℝ) * s = _
        push_cast
        linarith
      · rw [if_neg fun hh => by have : P.box_length / 6 + (j : ℝ) * s < P.box_length / 6 := hh.2; linarith]
        rfl
    · refine ⟨⟨j, by omega, rfl⟩, ?_, hmm _⟩
      rw [if_neg fun hh => by have : -(P.box_length / 6) ≤ -P.box_length / 2 + (j : ℝ) * s := hh.1; linarith]
      rfl
  · rw [mass_sum]
    dsimp only
    field_simp

/-- In a long box with equal separations no particle is in the support of the kernel of another: the smoothing lengths do not grow with the box. -/
theorem C99_support_violated (P : Params) (K : ℕ) (h : Ok P K) (hm : P.equal_mass = false) (hlong : 3 * (P.eta * P.width) ≤ P.box_length) (f : File) (hw : Writes P f) :
    1 < f.particles.length ∧ ∀ p ∈ f.particles, ∀ q ∈ f.particles, p.id ≠ q.id → p.h ≤ |p.x - q.x| := by
  obtain ⟨t, s, ht, hs, hs0, hKs, hw'⟩ := separation_aux h hm
  obtain ⟨r2, r12, p1, p2, k, -, -, htest, hst⟩ := tube_states ht
  have hL := h.length
  have hK1 := h.some
  have hK0 : (0 : ℝ) < K := by exact_mod_cast h.some
  rw [writes_unique hw hw']
  refine ⟨by simp; omega, fun p hp q hq hne => ?_⟩
  -- the place of a particle on the common lattice
  have key : ∀ p ∈ (List.range (K + K + K)).map (lay P t (blocks P.box_length) s s (t.rho1 / K) (t.rho2 / K) K K), ∃ i : ℕ, p.x = -P.box_length / 2 + i * s ∧ p.h = P.eta * P.width / K ∧
      p.id = if i < K then i + K + K else if i < K + K then i - K else i - K := by
    intro p hpm
    have hr1 : t.rho1 ≠ 0 := by linarith
    have hr2 : t.rho2 ≠ 0 := by linarith
    rcases mem_lay.1 hpm with ⟨j, hj, rfl⟩ | ⟨j, hj, rfl⟩ | ⟨j, hj, rfl⟩
    · refine ⟨K + j, ?_, ?_, ?_⟩
      · show -P.box_length / 6 + (j : ℝ) * s = _
        push_cast
        linarith
      · simp only [inner]; field_simp
      · rw [if_neg (by omega), if_pos (by omega)]; show j = _; omega
    · refine ⟨K + K + j, ?_, ?_, ?_⟩
      · show P.box_length / 6 + (j : ℝ) * s = _
        push_cast
        linarith
      · simp only [outer]; field_simp
      · rw [if_neg (by omega), if_neg (by omega)]; show K + j = _; omega
    · refine ⟨j, rfl, ?_, ?_⟩
      · simp only [outer]; field_simp
      · rw [if_pos hj]; show K + K + j = _; omega
  obtain ⟨i, i1, i2, i3⟩ := key p hp
  obtain ⟨j, j1, -, j3⟩ := key q hq
  have hij : i ≠ j := by
    rintro rfl
    exact hne (i3.trans j3.symm)
  have hd : (1 : ℝ) ≤ |(i : ℝ) - j| := by
    have : (1 : ℤ) ≤ |(i : ℤ) - j| := Int.one_le_abs (sub_ne_zero.2 (by exact_mod_cast hij))
    exact_mod_cast this
  have e : p.x - q.x = ((i : ℝ) - j) * s := by rw [i1, j1]; ring
  rw [e, abs_mul, abs_of_pos hs0, i2]
  have : P.eta * P.width / K ≤ s := by
    rw [hs, div_le_div_iff₀ hK0 (by positivity)]
    nlinarith
  nlinarith

/-- The time step written crosses at most half of the middle separation at the speed of sound of any particle. -/
theorem C99_timestep_partial (P : Params) (K : ℕ) (h : Ok P K) (hg : 0 < P.gamma) : ∃ f, Writes P f ∧ 0 < f.timestep ∧ ∀ p ∈ f.particles, f.timestep * √(P.gamma * p.P / p.rho) ≤ 1 / 2 * (P.box_length / (3 * K)) := by
  have main : ∀ (t : Tube) (s : ℝ), tube P.test = some t → 0 < s → s = P.box_length / (3 * K) → 0 < timestep P t s ∧ timestep P t s * √(P.gamma * t.P1 / t.rho1) ≤ 1 / 2 * (P.box_length / (3 * K)) ∧
      timestep P t s * √(P.gamma * t.P2 / t.rho2) ≤ 1 / 2 * (P.box_length / (3 * K)) := by
    intro t s ht hs0 hs
    obtain ⟨r2, r12, p1, p2, -⟩ := tube_states ht
    have r1 : 0 < t.rho1 := by linarith
    have hmx : 0 < max (t.P1 / t.rho1) (t.P2 / t.rho2) := lt_max_of_lt_left (div_pos p1 r1)
    have hc : 0 < √(P.gamma * max (t.P1 / t.rho1) (t.P2 / t.rho2)) := Real.sqrt_pos.2 (mul_pos hg hmx)
    refine ⟨by unfold timestep; positivity, ?_, ?_⟩ <;>
    · rw [← hs]
      unfold timestep
      rw [div_mul_eq_mul_div, div_le_iff₀ hc]
      refine mul_le_mul_of_nonneg_left (Real.sqrt_le_sqrt ?_) (by positivity)
      rw [mul_div_assoc]
      exact mul_le_mul_of_nonneg_left (by first | exact le_max_left _ _ | exact le_max_right _ _) hg.le
  have fin : ∀ (t : Tube) (s r m1 m2 L : ℝ) (b : Blocks) (n : ℕ), tube P.test = some t → 0 < s → s = P.box_length / (3 * K) →
      Writes P ⟨(List.range (K + n + n)).map (lay P t b s r m1 m2 K n), K + n + n, timestep P t s, L⟩ →
      ∃ f, Writes P f ∧ 0 < f.timestep ∧ ∀ p ∈ f.particles, f.timestep * √(P.gamma * p.P / p.rho) ≤ 1 / 2 * (P.box_length / (3 * K)) := by
    intro t s r m1 m2 L b n ht hs0 hs hw
    obtain ⟨a1, a2, a3⟩ := main t s ht hs0 hs
    refine ⟨_, hw, a1, fun p hp => ?_⟩
    rcases mem_lay.1 hp with ⟨j, hj, rfl⟩ | ⟨j, hj, rfl⟩ | ⟨j, hj, rfl⟩
    · exact a2
    · exact a3
    · exact a3
  cases hm : P.equal_mass with
  | false =>
    obtain ⟨t, s, ht, hs, hs0, -, hw⟩ := separation_aux h hm
    exact fin t s _ _ _ _ _ _ ht hs0 hs hw
  | true =>
    cases hp : P.periodic with
    | false =>
      obtain ⟨t, n, s, r, ht, hs, -, hs0, -, -, -, -, hw⟩ := open_aux h hm hp
      exact fin t s _ _ _ _ _ _ ht hs0 hs hw
    | true =>
      obtain ⟨t, n, s, r, L, b, ht, hs, -, hs0, -, -, -, -, -, -, hw⟩ := periodic_aux h hm hp
      exact fin t s _ _ _ _ _ _ ht hs0 hs hw

-- the hypotheses hold: the tube of the data directory with periodic boundaries, one with few particles, a long one
example : ∃ f, Writes { usual with periodic := true } f ∧ f.particles ≠ [] := by
  obtain ⟨f, h1, -, h2, -⟩ := C99_profile_partial { usual with periodic := true } 33 { usual_ok with } rfl rfl (by norm_num [usual])
  refine ⟨f, h1, ?_⟩
  rintro h0
  have hlen : (-f.box_length / 2 ≤ 0 ∧ (0 : ℝ) < f.box_length / 2) := by
    obtain ⟨g, g1, -, -, -, -, -, g2⟩ := C99_profile_partial { usual with periodic := true } 33 { usual_ok with } rfl rfl (by norm_num [usual])
    rw [writes_unique h1 g1]
    have : (0 : ℝ) < g.box_length := lt_trans (by norm_num [usual, states]) g2
    constructor <;> linarith
  obtain ⟨p, ⟨hp, -⟩, -⟩ := h2 0 hlen.1 hlen.2
  rw [h0] at hp
  exact absurd hp List.not_mem_nil

example : Ok { usual with nx := 22 } 7 ∧ ((7 : ℕ) : ℝ) * (states usual.test.toNat).2.rho < (states usual.test.toNat).1.rho :=
  ⟨⟨rfl, by norm_num, by norm_num, by norm_num [usual], by decide⟩, by
    show ((7 : ℕ) : ℝ) * (states 1).2.rho < (states 1).1.rho
    norm_num [states]⟩

example : Ok { usual with box_length := 9, equal_mass := false } 33 ∧ 3 * (usual.eta * usual.width) ≤ 9 := ⟨⟨rfl, by norm_num, by norm_num, by norm_num, by decide⟩, by norm_num [usual]⟩

end
end FleCSPH.SodGen
