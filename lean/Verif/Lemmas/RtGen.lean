import Verif.Lemmas.Lattice
import Verif.Model.RtGen
import Verif.Spec.RtLayers
/-! Lemmas for the generator of Rayleigh-Taylor data. -/
namespace FleCSPH.RtGen
noncomputable section
open FleCSPH.Lattice FleCSPH.IdGen Classical

/-- A site of one of the lattices. -/
def site (lattice : Int) (lo : Pos) (s : ℝ) (j i : ℕ) : Pos :=
  ⟨lo.x + (if lattice = 0 then (0 : ℝ) else ((j % 2 : ℕ) : ℝ)) * s / 2 + i * s, lo.y + j * (if lattice = 0 then s else s * √3 / 2), 0⟩

/-- The tolerance at the faces of a box. -/
def face (lo hi : Pos) : ℝ := bTol * (hi.x - lo.x)

/-- The number of particles in a row, and the number of rows. -/
def inRow (lattice : Int) (lo hi : Pos) (s : ℝ) (j : ℕ) : ℕ := ticks (hi.x - face lo hi) s (site lattice lo s j 0).x
def rowsIn (lattice : Int) (lo hi : Pos) (s : ℝ) : ℕ := ticks (hi.y - face lo hi) (if lattice = 0 then s else s * √3 / 2) lo.y

/-- All sites of a block. -/
def sites (lattice : Int) (lo hi : Pos) (s : ℝ) : List Pos :=
  (List.range (rowsIn lattice lo hi s)).flatMap fun j => (List.range (inRow lattice lo hi s j)).map fun i => site lattice lo s j i

theorem filter_range (p : ℕ → Bool) (n m : ℕ) (h : n ≤ m) (h1 : ∀ i < n, p i = true) (h2 : ∀ i, n ≤ i → p i = false) : (List.range m).filter p = List.range n := by
  obtain ⟨k, rfl⟩ := Nat.exists_eq_add_of_le h
  rw [List.range_add, List.filter_append, List.filter_eq_self.2 fun i hi => h1 i (List.mem_range.1 hi), List.filter_eq_nil_iff.2, List.append_nil]
  intro i hi
  obtain ⟨t, -, rfl⟩ := List.mem_map.1 hi
  rw [h2 (n + t) (by omega)]
  simp

theorem flatMap_range {α : Type} (f : ℕ → List α) (n m : ℕ) (h : n ≤ m) (h2 : ∀ i, n ≤ i → f i = []) : (List.range m).flatMap f = (List.range n).flatMap f := by
  obtain ⟨k, rfl⟩ := Nat.exists_eq_add_of_le h
  have : (List.map (fun x => n + x) (List.range k)).flatMap f = [] := by
    rw [List.flatMap_eq_nil_iff]
    intro i hi
    obtain ⟨t, -, rfl⟩ := List.mem_map.1 hi
    exact h2 _ (by omega)
  rw [List.range_add, List.flatMap_append, this, List.append_nil]

/-- What a block changes. -/
theorem block (c : Bool) (lattice : Int) (lo hi : Pos) (s : ℝ) (hs : 0 < s) (hw : 0 < hi.x - lo.x) : ∃ F, ∀ fuel ≥ F, ∀ st : State,
    ∃ st', generate2 fuel c lattice 0 lo hi s st = some st' ∧ st'.posid = st.posid + (sites lattice lo hi s).length ∧
      ∀ k, st'.pos k = if c then st.pos k else if k < st.posid then st.pos k else ((sites lattice lo hi s)[k - st.posid]?).getD (st.pos k) := by
  have h3 : (0 : ℝ) < √3 := Real.sqrt_pos.2 (by norm_num)
  have htol : 0 < face lo hi := mul_pos (by norm_num [bTol]) hw
  obtain ⟨d, hd⟩ : ∃ d, d = (if lattice = 0 then s else s * √3 / 2) := ⟨_, rfl⟩
  have hd0 : 0 < d := by rw [hd]; split_ifs <;> positivity
  have hy : ∀ j i, (site lattice lo s j i).y = lo.y + j * d := fun j i => by rw [hd]; rfl
  have hx : ∀ j i, (site lattice lo s j i).x = (site lattice lo s j 0).x + i * s := fun j i => by simp [site]
  obtain ⟨cand, hcand⟩ : ∃ cand, cand = (List.range (ticks hi.y d lo.y)).flatMap fun j => (List.range (ticks hi.x s (site lattice lo s j 0).x)).map fun i => site lattice lo s j i := ⟨_, rfl⟩
  have hx0 : ∀ j, lo.x ≤ (site lattice lo s j 0).x := fun j => by
    have : (0 : ℝ) ≤ (if lattice = 0 then (0 : ℝ) else ((j % 2 : ℕ) : ℝ)) * s / 2 := by split_ifs <;> positivity
    simp only [site, Nat.cast_zero, zero_mul, add_zero]
    linarith
  have hfilter : cand.filter (fun p => decide (inDomain2 0 lo hi p)) = sites lattice lo hi s := by
    have hdom : ∀ j i, inDomain2 0 lo hi (site lattice lo s j i) ↔ j < rowsIn lattice lo hi s ∧ i < inRow lattice lo hi s j := by
      intro j i
      unfold rowsIn inRow
      rw [← hd, lt_ticks _ _ _ hd0, lt_ticks _ _ _ hs, ← hx, ← hy j i]
      unfold inDomain2
      have e : face lo hi = bTol * (hi.x - lo.x) := rfl
      dsimp only
      rw [← e]
      have t1 : lo.x - face lo hi < (site lattice lo s j i).x := by
        have := hx0 j
        have : (0 : ℝ) ≤ i * s := by positivity
        rw [hx]; linarith
      have t2 : lo.y - face lo hi < (site lattice lo s j i).y := by
        have : (0 : ℝ) ≤ j * d := by positivity
        rw [hy]; linarith
      constructor
      · rintro ⟨⟨-, h1, -, h2⟩, -⟩
        exact ⟨h2, h1⟩
      · rintro ⟨h1, h2⟩
        exact ⟨⟨t1, h2, t2, h1⟩, fun h => absurd h (by decide)⟩
    have le_ticks : ∀ p b step : ℝ, ticks (b - face lo hi) step p ≤ ticks b step p ∨ step ≤ 0 := by
      intro p b step
      rcases le_or_gt step 0 with h | h
      · exact Or.inr h
      · exact Or.inl (Nat.ceil_le_ceil (div_le_div_of_nonneg_right (by linarith) h.le))
    rw [hcand, List.filter_flatMap]
    have hrow : ∀ j, ((List.range (ticks hi.x s (site lattice lo s j 0).x)).map fun i => site lattice lo s j i).filter (fun p => decide (inDomain2 0 lo hi p)) =
        if j < rowsIn lattice lo hi s then (List.range (inRow lattice lo hi s j)).map fun i => site lattice lo s j i else [] := by
      intro j
      rw [List.filter_map]
      by_cases hj : j < rowsIn lattice lo hi s
      · rw [if_pos hj, filter_range _ (inRow lattice lo hi s j)]
        · exact (le_ticks _ _ _).resolve_right (not_le.2 hs)
        · intro i hi'
          exact decide_eq_true ((hdom j i).2 ⟨hj, hi'⟩)
        · intro i hi'
          exact decide_eq_false fun h => absurd ((hdom j i).1 h).2 (by omega)
      · rw [if_neg hj, List.map_eq_nil_iff, List.filter_eq_nil_iff]
        intro i _
        have : ¬ inDomain2 0 lo hi (site lattice lo s j i) := fun h => hj ((hdom j i).1 h).1
        simpa using this
    simp only [hrow]
    rw [flatMap_range _ (rowsIn lattice lo hi s)]
    · unfold sites
      rw [List.flatMap_def, List.flatMap_def]
      congr 1
      refine List.map_congr_left fun j hj => ?_
      rw [if_pos (List.mem_range.1 hj)]
    · unfold rowsIn
      rw [← hd]
      exact (le_ticks _ _ _).resolve_right (not_le.2 hd0)
    · intro j hj
      rw [if_neg (by omega)]
  refine ⟨ticks hi.y d lo.y + ticks hi.x s lo.x + 1, fun fuel hf st => ?_⟩
  have key : generate2 fuel c lattice 0 lo hi s st = some (cand.foldl (fun st p => visit c (inDomain2 0 lo hi) p st) st) := by
    rw [hcand, foldl_flatMap']
    simp only [List.foldl_map]
    unfold generate2
    have hfx : ∀ j, ticks hi.x s (site lattice lo s j 0).x < fuel := fun j => by
      have := ticks_anti hi.x s _ _ hs (hx0 j)
      omega
    by_cases hl : lattice = 0
    · rw [if_pos hl] at hd
      subst hd
      have := loop2_eq hi.x hi.y d d hs hs id (fun _ => lo.x) (fun x y st => visit c (inDomain2 0 lo hi) ⟨x, y, 0⟩ st) fuel lo.y 0 st (by omega)
        (fun j => by have := hfx j; simpa [site, hl] using this)
      simp only [if_pos hl]
      rw [this]
      simp [site, hl]
    · rw [if_neg hl] at hd
      subst hd
      have := loop2_eq hi.x hi.y s (s * √3 / 2) hs hd0 Lattice.flip (fun yo => lo.x + yo * s / 2) (fun x y st => visit c (inDomain2 0 lo hi) ⟨x, y, 0⟩ st) fuel lo.y 0 st (by omega)
        (fun j => by have := hfx j; rw [flip_iter]; simpa [site, hl] using this)
      simp only [if_neg hl]
      rw [this]
      simp only [flip_iter]
      simp [site, hl]
  refine ⟨_, key, ?_, fun k => ?_⟩
  · rw [(visits c _ _ st).1, hfilter]
  · rw [(visits c _ _ st).2 k, hfilter]

/-- The parameters the generator is good for. -/
structure Ok (P : Params) : Prop where
  length : 0 < P.box_length
  width : 0 < P.box_width
  ratio : 0 < P.density_ratio
  rho : 0 < P.rho_initial
  lattice : P.lattice_type = 0 ∨ P.lattice_type = 1 ∨ P.lattice_type = 2
  coarse : 2 ≤ P.nx
  fine : P.nx ≤ 8000
  tall : P.box_width ≤ 800000 * (P.box_length / ((P.nx : ℝ) - 1))
  mismatch : 0 ≤ P.mismatch
  fits : P.mismatch * √(1 / P.density_ratio) ≤ 1

variable {P : Params}

theorem Ok.nx_pos (h : Ok P) : (0 : ℝ) < (P.nx : ℝ) - 1 := by
  have : (2 : ℝ) ≤ P.nx := by exact_mod_cast h.coarse
  linarith

theorem Ok.sep_pos (h : Ok P) : 0 < sep P := div_pos h.length h.nx_pos

theorem sepT_eq (h : Ok P) : sepT P = sep P * √(1 / P.density_ratio) := by
  unfold sepT equalMass rho2 rho1
  rw [if_neg (by decide), if_pos rfl]
  dsimp only
  congr 2
  have := h.rho.ne'
  have := h.ratio.ne'
  field_simp

theorem Ok.sepT_pos (h : Ok P) : 0 < sepT P := by
  rw [sepT_eq h]
  exact mul_pos h.sep_pos (Real.sqrt_pos.2 (by have := h.ratio; positivity))

/-- The distance of rows with separation `s`. -/
def step (P : Params) (s : ℝ) : ℝ := if P.lattice_type = 0 then s else s * √3 / 2

theorem step_bounds (P : Params) {s : ℝ} (hs : 0 < s) : 86 / 100 * s < step P s ∧ step P s ≤ s := by
  have h1 : (1732 / 1000 : ℝ) < √3 := Real.lt_sqrt_of_sq_lt (by norm_num)
  have h2 : √3 < 1734 / 1000 := (Real.sqrt_lt' (by norm_num)).2 (by norm_num)
  unfold step
  split_ifs
  · constructor <;> linarith
  · constructor <;> nlinarith

/-- Rows in a period of the lattice. -/
def period (P : Params) : ℕ := if P.lattice_type = 0 then 1 else 2

theorem Ok.dy_eq (h : Ok P) : dy P = period P * step P (sep P) := by
  unfold dy period step
  rcases h.lattice with h | h | h <;> rw [h] <;> norm_num <;> ring

/-- The bottom layer holds a whole number of periods. -/
theorem Ok.bottom (h : Ok P) : ∃ a : ℕ, (bLo P).y = -(((period P * a : ℕ) : ℝ) * step P (sep P)) ∧ ((period P * a : ℕ) : ℝ) * step P (sep P) ≤ P.box_width / 2 ∧
    P.box_width / 2 < ((period P * (a + 1) : ℕ) : ℝ) * step P (sep P) ∧ period P * a < 1000000 := by
  have hs := (step_bounds P h.sep_pos).1
  have hs0 := h.sep_pos
  have hw := h.width
  have hp : (1 : ℝ) ≤ period P ∧ (period P : ℝ) ≤ 2 := by unfold period; split_ifs <;> norm_num
  have hdy : 0 < dy P := by rw [h.dy_eq]; nlinarith
  have h0 : 0 ≤ P.box_width / 2 / dy P := by positivity
  obtain ⟨a, ha⟩ := Int.eq_ofNat_of_zero_le (Int.floor_nonneg.2 h0)
  have ea : ((⌊P.box_width / 2 / dy P⌋ : Int) : ℝ) = a := by rw [ha]; rfl
  have f1 := Int.floor_le (P.box_width / 2 / dy P)
  have f2 := Int.lt_floor_add_one (P.box_width / 2 / dy P)
  rw [ea, le_div_iff₀ hdy] at f1
  rw [ea, div_lt_iff₀ hdy] at f2
  have e : (a : ℝ) * dy P = ((period P * a : ℕ) : ℝ) * step P (sep P) := by rw [h.dy_eq]; push_cast; ring
  refine ⟨a, ?_, by rw [← e]; exact f1, ?_, ?_⟩
  · unfold bLo truncate
    rw [if_pos h0, ea, ← e]
    dsimp only
    ring
  · have : ((period P * (a + 1) : ℕ) : ℝ) * step P (sep P) = (a + 1) * dy P := by rw [h.dy_eq]; push_cast; ring
    rw [this]; exact f2
  · rw [e] at f1
    have h8 : P.box_width ≤ 800000 * sep P := h.tall
    have : ((period P * a : ℕ) : ℝ) < 1000000 := by
      by_contra hc
      have hc := not_lt.1 hc
      nlinarith
    exact_mod_cast this

theorem firstFit_cases {n : Int} {fits : Int → Prop} {extent : Int → ℝ} {W : ℝ} (h : firstFit n fits extent = some W) : ∃ j, 0 < j ∧ n ≤ j ∧ j < 100 * n ∧ fits j ∧ W = extent j := by
  unfold firstFit at h
  rw [Option.map_eq_some_iff] at h
  obtain ⟨j, hj, rfl⟩ := h
  have h1 := List.mem_of_find?_eq_some hj
  have h2 : fits j := by simpa using List.find?_some hj
  obtain ⟨i, hi, rfl⟩ := List.mem_map.mp h1
  have hi := List.mem_range.mp hi
  exact ⟨n + i, by omega, by omega, by omega, h2, rfl⟩

theorem Ok.over (h : Ok P) : P.box_length / sep P = P.nx - 1 := by
  unfold sep
  rw [div_div_cancel₀ h.length.ne']

/-- A length which is found fits both lattices. -/
theorem Ok.length_cases' (h : Ok P) {W : ℝ} (hl : layerLength P.box_length (sep P) (sepT P) P.mismatch = some W) :
    ∃ j n : ℕ, 0 < j ∧ 0 < n ∧ P.nx ≤ j + 2 ∧ j ≤ 100 * P.nx ∧ W = min (n * sepT P) (j * sep P) ∧ |n * sepT P - j * sep P| < P.mismatch * sepT P := by
  have hs := h.sep_pos
  have hT := h.sepT_pos
  have htol : P.mismatch * sepT P ≤ sep P := by
    have := h.fits
    rw [sepT_eq h]
    nlinarith
  unfold layerLength at hl
  obtain ⟨j, j0, j1, j2, hf, rfl⟩ := firstFit_cases hl
  rw [h.over] at j1 j2
  have ht : truncate ((P.nx : ℝ) - 1) = (P.nx : Int) - 1 := by
    unfold truncate
    rw [if_pos h.nx_pos.le, show ((P.nx : ℝ) - 1) = (((P.nx : Int) - 1 : Int) : ℝ) by push_cast; rfl, Int.floor_intCast]
  rw [ht] at j1 j2
  obtain ⟨m, hm⟩ : ∃ m : Int, otherDown (sep P) (sepT P) j = m * sepT P := ⟨⌊(j : ℝ) * sep P / sepT P + bTol⌋, rfl⟩
  rw [hm] at hf ⊢
  obtain ⟨f1, f2⟩ := abs_lt.mp hf
  have hj : (1 : ℝ) ≤ j := by exact_mod_cast j0
  have hja : sep P ≤ j * sep P := le_mul_of_one_le_left hs.le hj
  have hm0 : 0 < m := by
    by_contra hc
    have hc : (m : ℝ) ≤ 0 := by exact_mod_cast not_lt.mp hc
    have : (m : ℝ) * sepT P ≤ 0 := mul_nonpos_of_nonpos_of_nonneg hc hT.le
    linarith
  have ej : ((j.toNat : Nat) : ℝ) = j := by have := Int.toNat_of_nonneg j0.le; exact_mod_cast this
  have em : ((m.toNat : Nat) : ℝ) = m := by have := Int.toNat_of_nonneg hm0.le; exact_mod_cast this
  refine ⟨j.toNat, m.toNat, by omega, by omega, by omega, by omega, ?_, ?_⟩
  · rw [ej, em]
  · rw [ej, em]; exact hf

/-- The length of the box is that asked for, or fits both lattices. -/
theorem Ok.length_cases (h : Ok P) : RtGen.length P = P.box_length ∨
    P.periodic_boundary_x = true ∧ ∃ j n : ℕ, 0 < j ∧ 0 < n ∧ P.nx ≤ j + 2 ∧ j ≤ 100 * P.nx ∧ RtGen.length P = min (n * sepT P) (j * sep P) ∧ |n * sepT P - j * sep P| < P.mismatch * sepT P := by
  unfold RtGen.length
  by_cases hp : P.periodic_boundary_x = true
  · rw [if_pos hp]
    cases hl : layerLength P.box_length (sep P) (sepT P) P.mismatch with
    | none => exact Or.inl rfl
    | some W => exact Or.inr ⟨hp, h.length_cases' hl⟩
  · rw [if_neg hp]; exact Or.inl rfl

theorem Ok.length_bounds (h : Ok P) : 0 < RtGen.length P ∧ RtGen.length P ≤ 800000 * sep P := by
  have hs := h.sep_pos
  have hT := h.sepT_pos
  have hn : (P.nx : ℝ) ≤ 8000 := by exact_mod_cast h.fine
  have hL : P.box_length = (P.nx - 1) * sep P := by rw [← h.over, div_mul_cancel₀ _ hs.ne']
  rcases h.length_cases with e | ⟨-, j, n, hj, hn0, -, hj2, e, -⟩
  · rw [e]
    exact ⟨h.length, by rw [hL]; nlinarith⟩
  · have h1 : (0 : ℝ) < j := by exact_mod_cast hj
    have h2 : (0 : ℝ) < n := by exact_mod_cast hn0
    have h3 : (j : ℝ) ≤ 100 * P.nx := by exact_mod_cast hj2
    rw [e]
    refine ⟨lt_min (by positivity) (by positivity), (min_le_right _ _).trans ?_⟩
    nlinarith

theorem bottom_rows (h : Ok P) {R : ℕ} (hR : (bLo P).y = -((R : ℝ) * step P (sep P))) : rowsIn P.lattice_type (bLo P) (bHi P) (sep P) = R := by
  obtain ⟨l1, l2⟩ := h.length_bounds
  have hst := (step_bounds P h.sep_pos).1
  have hs := h.sep_pos
  have hface : 0 < face (bLo P) (bHi P) ∧ face (bLo P) (bHi P) < step P (sep P) := by
    have e : face (bLo P) (bHi P) = RtGen.length P / 1000000 := by unfold face bHi bLo bTol; dsimp only; ring
    rw [e]
    constructor
    · positivity
    · linarith
  have hd0 : 0 < step P (sep P) := by linarith
  have key : ∀ j, j < rowsIn P.lattice_type (bLo P) (bHi P) (sep P) ↔ j < R := by
    intro j
    unfold rowsIn
    rw [show (if P.lattice_type = 0 then sep P else sep P * √3 / 2) = step P (sep P) from rfl, lt_ticks _ _ _ hd0, hR]
    show _ < (0 : ℝ) - _ ↔ _
    constructor
    · intro hj
      by_contra hc
      have : (R : ℝ) ≤ j := by exact_mod_cast not_lt.1 hc
      nlinarith
    · intro hj
      have : (j : ℝ) + 1 ≤ R := by exact_mod_cast hj
      nlinarith
  have k1 := key R
  have k2 := key (rowsIn P.lattice_type (bLo P) (bHi P) (sep P))
  omega

/-- What a particle at a site is, with the state of the bottom or the top layer. -/
def make (P : Params) (bottom : Prop) (k : ℕ) (p : Pos) : Particle :=
  let rho := if bottom then rho1 P else rho2 P
  let pr := if bottom then rtBottom pressure0 P.gravity (rho1 P) (rho2 P) (tLo P).y (tHi P).y p.y else rtTop pressure0 P.gravity (rho2 P) (tHi P).y p.y
  { id := k, x := p.x, y := p.y, vx := 0, vy := perturbation P p.x p.y, rho := rho, P := pr, u := uFromEos P.poly_gamma rho pr, m := pmass P, h := P.eta * P.kernel_width * √(pmass P / rho) }

def bottomSites (P : Params) : List Pos := sites P.lattice_type (bLo P) (bHi P) (sep P)
def topSites (P : Params) : List Pos := sites P.lattice_type (tLo P) (tHi P) (sepT P)

theorem mem_bottom (h : Ok P) {p : Pos} (hp : p ∈ bottomSites P) : inDomain1 ⟨(bLo P).y, 0, 0⟩ ⟨(bHi P).y, 0, 0⟩ ⟨p.y, 0, 0⟩ := by
  obtain ⟨a, ha, -, -, hsmall⟩ := h.bottom
  have hd0 : 0 < step P (sep P) := by have := (step_bounds P h.sep_pos).1; have := h.sep_pos; linarith
  obtain ⟨j, hj, hp⟩ := List.mem_flatMap.1 hp
  obtain ⟨i, -, rfl⟩ := List.mem_map.1 hp
  rw [bottom_rows h ha, List.mem_range] at hj
  have hy : (site P.lattice_type (bLo P) (sep P) j i).y = -(((period P * a : ℕ) : ℝ) * step P (sep P)) + j * step P (sep P) := by rw [← ha]; rfl
  generalize period P * a = R at ha hj hy hsmall
  have h1 : (j : ℝ) + 1 ≤ R := by exact_mod_cast hj
  have h2 : (R : ℝ) < 1000000 := by exact_mod_cast hsmall
  have h3 : (0 : ℝ) ≤ j := by positivity
  unfold inDomain1 bTol
  dsimp only
  rw [hy, ha, show (bHi P).y = 0 from rfl]
  constructor <;> nlinarith

theorem mem_top (h : Ok P) {p : Pos} (hp : p ∈ topSites P) : ¬ inDomain1 ⟨(bLo P).y, 0, 0⟩ ⟨(bHi P).y, 0, 0⟩ ⟨p.y, 0, 0⟩ := by
  obtain ⟨a, ha, -, -, -⟩ := h.bottom
  have hd0 : 0 < step P (sep P) := by have := (step_bounds P h.sep_pos).1; have := h.sep_pos; linarith
  have hd1 : 0 < step P (sepT P) := by have := (step_bounds P h.sepT_pos).1; have := h.sepT_pos; linarith
  obtain ⟨j, hj, hp⟩ := List.mem_flatMap.1 hp
  obtain ⟨i, -, rfl⟩ := List.mem_map.1 hp
  have hy : (site P.lattice_type (tLo P) (sepT P) j i).y = 0 + j * step P (sepT P) := rfl
  rintro ⟨-, h2⟩
  dsimp only at h2
  rw [hy, ha, show (bHi P).y = 0 from rfl] at h2
  have : (0 : ℝ) ≤ j * step P (sepT P) := by positivity
  have : (0 : ℝ) ≤ ((period P * a : ℕ) : ℝ) * step P (sep P) := by positivity
  unfold bTol at h2
  linarith

/-- What the generator writes. -/
theorem generates (h : Ok P) : ∃ F, ∀ fuel ≥ F, generate P fuel =
    some ((List.range (bottomSites P).length).map (fun k => make P True k ((bottomSites P)[k]?.getD ⟨0, 0, 0⟩)) ++
      (List.range (topSites P).length).map (fun k => make P False ((bottomSites P).length + k) ((topSites P)[k]?.getD ⟨0, 0, 0⟩))) := by
  obtain ⟨l1, -⟩ := h.length_bounds
  have wb : 0 < (bHi P).x - (bLo P).x := by unfold bHi bLo; dsimp only; linarith
  have wt : 0 < (tHi P).x - (tLo P).x := by unfold tHi tLo; dsimp only; linarith
  obtain ⟨F1, e1⟩ := block true P.lattice_type (bLo P) (bHi P) (sep P) h.sep_pos wb
  obtain ⟨F2, e2⟩ := block true P.lattice_type (tLo P) (tHi P) (sepT P) h.sepT_pos wt
  obtain ⟨F3, e3⟩ := block false P.lattice_type (bLo P) (bHi P) (sep P) h.sep_pos wb
  obtain ⟨F4, e4⟩ := block false P.lattice_type (tLo P) (tHi P) (sepT P) h.sepT_pos wt
  refine ⟨F1 + F2 + F3 + F4, fun fuel hf => ?_⟩
  obtain ⟨s1, g1, n1, -⟩ := e1 fuel (by omega) ⟨0, fun _ => ⟨0, 0, 0⟩⟩
  obtain ⟨s2, g2, n2, -⟩ := e2 fuel (by omega) ⟨s1.posid, fun _ => ⟨0, 0, 0⟩⟩
  obtain ⟨s3, g3, n3, p3⟩ := e3 fuel (by omega) ⟨0, fun _ => ⟨0, 0, 0⟩⟩
  obtain ⟨s4, g4, n4, p4⟩ := e4 fuel (by omega) ⟨s1.posid, s3.pos⟩
  change s1.posid = 0 + (bottomSites P).length at n1
  change s2.posid = s1.posid + (topSites P).length at n2
  change s3.posid = 0 + (bottomSites P).length at n3
  change s4.posid = s1.posid + (topSites P).length at n4
  simp only [Nat.zero_add] at n1 n3
  have hb : blocks P fuel = some ⟨s1.posid, s2.posid - s1.posid, s4.pos⟩ := by
    unfold blocks
    simp only [Option.bind_eq_bind, g1, g2, g3, g4, Option.bind_some]
    rw [if_pos ⟨by omega, by omega⟩]
  have n2' : s2.posid - s1.posid = (topSites P).length := by omega
  unfold generate
  rw [hb]
  simp only [Option.bind_eq_bind, Option.bind_some]
  show some _ = some _
  rw [n2', n1, List.range_add, List.map_append, List.map_map]
  congr 2
  · refine List.map_congr_left fun k hk => ?_
    have hk := List.mem_range.1 hk
    have hpos : s4.pos k = (bottomSites P)[k] := by
      rw [p4 k, if_neg (by decide), if_pos (by simp only; omega)]
      show s3.pos k = _
      rw [p3 k, if_neg (by decide), if_neg (by simp)]
      show ((bottomSites P)[k - 0]?).getD _ = _
      rw [Nat.sub_zero, List.getElem?_eq_getElem hk]; rfl
    have hd := mem_bottom h (List.getElem_mem hk)
    unfold particle make
    simp only [hpos, List.getElem?_eq_getElem hk, Option.getD_some, if_pos hd, if_true]
  · refine List.map_congr_left fun k hk => ?_
    have hk := List.mem_range.1 hk
    have hpos : s4.pos ((bottomSites P).length + k) = (topSites P)[k] := by
      rw [p4, if_neg (by decide), if_neg (by simp only; omega)]
      show ((topSites P)[(bottomSites P).length + k - s1.posid]?).getD _ = _
      rw [n1, Nat.add_sub_cancel_left, List.getElem?_eq_getElem hk]; rfl
    have hd := mem_top h (List.getElem_mem hk)
    unfold particle make
    simp only [Function.comp, hpos, List.getElem?_eq_getElem hk, Option.getD_some, if_neg hd, if_false]

end
end FleCSPH.RtGen
