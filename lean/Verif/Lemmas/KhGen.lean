import Verif.Lemmas.Lattice
import Verif.Model.KhGen
import Verif.Spec.KhLayers
/-! Lemmas for the generator of Kelvin-Helmholtz data. -/
namespace FleCSPH.KhGen
noncomputable section
open FleCSPH.Lattice Classical

/-- Entries of equally long pieces. -/
theorem getElem?_pieces {α : Type} (f : ℕ → ℕ → α) (n r q : ℕ) :
    ((List.range r).flatMap fun j => (List.range n).map fun i => f j i)[q]? = if q < r * n then some (f (q / n) (q % n)) else none := by
  induction r with
  | zero => simp
  | succ r ih =>
    have hlen : ((List.range r).flatMap fun j => (List.range n).map fun i => f j i).length = r * n := by
      simp [List.length_flatMap]
    rw [List.range_succ, List.flatMap_append, List.getElem?_append, hlen, ih]
    by_cases h : q < r * n
    · rw [if_pos h, if_pos h, if_pos (by nlinarith)]
    · rw [if_neg h]
      simp only [List.flatMap_cons, List.flatMap_nil, List.append_nil, List.getElem?_map]
      by_cases h' : q < (r + 1) * n
      · rw [if_pos h']
        obtain ⟨t, rfl⟩ : ∃ t, q = n * r + t := ⟨q - n * r, by rw [Nat.mul_comm n r]; omega⟩
        have h1 : t < n := by rw [Nat.add_mul, one_mul, Nat.mul_comm n r] at h'; omega
        rw [Nat.mul_add_div (by omega), Nat.div_eq_of_lt h1, Nat.mul_add_mod, Nat.mod_eq_of_lt h1, Nat.mul_comm n r, Nat.add_sub_cancel_left, List.getElem?_range h1]
        rfl
      · rw [if_neg h', List.getElem?_eq_none (by rw [List.length_range]; rw [Nat.add_mul, one_mul] at h'; omega)]; rfl

/-- A site of one of the lattices. -/
def site (lattice : Int) (lo : Pos) (s : ℝ) (j i : ℕ) : Pos :=
  ⟨lo.x + (if lattice = 0 then (0 : ℝ) else ((j % 2 : ℕ) : ℝ)) * s / 2 + i * s, lo.y + j * (if lattice = 0 then s else s * √3 / 2), 0⟩

/-- A block whose candidates are all inside of the domain. -/
theorem block (fuel : ℕ) (c : Bool) (lattice : Int) (lo hi : Pos) (s : ℝ) (hs : 0 < s) (n r : ℕ) (st : State)
    (hx1 : ∀ j i : ℕ, i < n → (site lattice lo s j i).x < hi.x - bTol * (hi.x - lo.x)) (hx2 : hi.x ≤ lo.x + n * s)
    (hy1 : ∀ j i : ℕ, j < r → (site lattice lo s j i).y < hi.y - bTol * (hi.x - lo.x)) (hy2 : hi.y ≤ (site lattice lo s r 0).y)
    (hw : 0 < hi.x - lo.x) (hf : n < fuel ∧ r < fuel) :
    ∃ st', generate2 fuel c lattice 0 lo hi s st = some st' ∧ st'.posid = st.posid + r * n ∧
      ∀ k, st'.pos k = if c = false ∧ st.posid ≤ k ∧ k < st.posid + r * n then site lattice lo s ((k - st.posid) / n) ((k - st.posid) % n) else st.pos k := by
  have h3 : (0 : ℝ) < √3 := Real.sqrt_pos.2 (by norm_num)
  have htol : 0 < bTol * (hi.x - lo.x) := mul_pos (by norm_num [bTol]) hw
  have key : generate2 fuel c lattice 0 lo hi s st =
      some (((List.range r).flatMap fun j => (List.range n).map fun i => site lattice lo s j i).foldl (fun st p => visit c (inDomain2 0 lo hi) p st) st) := by
    have hticks : ∀ p b step : ℝ, ∀ m : ℕ, 0 < step → (∀ i < m, p + i * step < b) → b ≤ p + m * step → ticks b step p = m := by
      intro p b step m hstep h1 h2
      have a1 : ¬ m < ticks b step p := by rw [lt_ticks b step p hstep]; exact not_lt.2 h2
      have a2 : ∀ i < m, i < ticks b step p := fun i hi => (lt_ticks b step p hstep i).2 (h1 i hi)
      rcases Nat.eq_zero_or_pos m with h | h
      · omega
      · have := a2 (m - 1) (by omega); omega
    rw [foldl_flatMap']
    simp only [List.foldl_map]
    unfold generate2
    by_cases hl : lattice = 0
    · simp only [site, if_pos hl, zero_mul, zero_div, add_zero] at hx1 hy1 hy2 ⊢
      have ty := hticks lo.y hi.y s r hs (fun i hi' => by have := hy1 i 0 hi'; linarith) hy2
      have tx := hticks lo.x hi.x s n hs (fun i hi' => by have := hx1 0 i hi'; linarith) hx2
      have := loop2_eq hi.x hi.y s s hs hs id (fun _ => lo.x) (fun x y st => visit c (inDomain2 0 lo hi) ⟨x, y, 0⟩ st) fuel lo.y 0 st (by omega) (fun j => by omega)
      rw [this, ty, tx]
    · simp only [site, if_neg hl] at hx1 hy1 hy2 ⊢
      have hdy : 0 < s * √3 / 2 := by positivity
      have ty := hticks lo.y hi.y (s * √3 / 2) r hdy (fun i hi' => by have := hy1 i 0 hi'; linarith) hy2
      have tx : ∀ j : ℕ, ticks hi.x s (lo.x + Lattice.flip^[j] 0 * s / 2) = n := by
        intro j
        rw [flip_iter]
        refine hticks _ _ _ _ hs (fun i hi' => by have := hx1 j i hi'; linarith) ?_
        have : (0 : ℝ) ≤ ((j % 2 : ℕ) : ℝ) * s / 2 := by positivity
        linarith
      have := loop2_eq hi.x hi.y s (s * √3 / 2) hs hdy Lattice.flip (fun yo => lo.x + yo * s / 2) (fun x y st => visit c (inDomain2 0 lo hi) ⟨x, y, 0⟩ st) fuel lo.y 0 st (by omega)
        (fun j => by have := tx j; omega)
      rw [this, ty]
      simp only [tx]
      simp only [flip_iter]
  have hdom : (((List.range r).flatMap fun j => (List.range n).map fun i => site lattice lo s j i).filter (fun p => decide (inDomain2 0 lo hi p))) =
      (List.range r).flatMap fun j => (List.range n).map fun i => site lattice lo s j i := by
    rw [List.filter_eq_self]
    intro p hp
    obtain ⟨j, hj, hp⟩ := List.mem_flatMap.1 hp
    obtain ⟨i, hi', rfl⟩ := List.mem_map.1 hp
    rw [List.mem_range] at hj hi'
    refine decide_eq_true ⟨⟨?_, hx1 j i hi', ?_, hy1 j i hj⟩, fun h => absurd h (by decide)⟩
    · have a1 : (0 : ℝ) ≤ (if lattice = 0 then (0 : ℝ) else ((j % 2 : ℕ) : ℝ)) * s / 2 := by split_ifs <;> positivity
      have a2 : (0 : ℝ) ≤ i * s := by positivity
      show lo.x + _ * s / 2 + i * s > lo.x - _
      linarith
    · have a1 : (0 : ℝ) ≤ j * (if lattice = 0 then s else s * √3 / 2) := by split_ifs <;> positivity
      show lo.y + _ > lo.y - _
      linarith
  refine ⟨_, key, ?_, fun k => ?_⟩
  · rw [(visits c _ _ st).1, hdom]
    simp [List.length_flatMap]
  · rw [(visits c _ _ st).2 k, hdom]
    cases c with
    | true => simp
    | false =>
      simp only [Bool.false_eq_true, if_false, true_and]
      rw [getElem?_pieces]
      by_cases h1 : k < st.posid
      · rw [if_pos h1, if_neg (by omega)]
      · by_cases h2 : k - st.posid < r * n
        · rw [if_neg h1, if_pos h2, if_pos (by omega)]; rfl
        · rw [if_neg h1, if_neg h2, if_neg (by omega)]; rfl

theorem pieces_eq {α : Type} (f : ℕ → ℕ → α) (n r : ℕ) :
    ((List.range r).flatMap fun j => (List.range n).map fun i => f j i) = (List.range (r * n)).map fun q => f (q / n) (q % n) := by
  refine List.ext_getElem? fun q => ?_
  rw [getElem?_pieces, List.getElem?_map]
  by_cases h : q < r * n
  · rw [if_pos h, List.getElem?_range h]; rfl
  · rw [if_neg h, List.getElem?_eq_none (by simpa using h)]; rfl

/-- What a block changes. -/
def write (c : Bool) (lattice : Int) (lo : Pos) (s : ℝ) (n r : ℕ) (st : State) : State :=
  ⟨st.posid + r * n, fun k => if c = false ∧ st.posid ≤ k ∧ k < st.posid + r * n then site lattice lo s ((k - st.posid) / n) ((k - st.posid) % n) else st.pos k⟩

/-- The parameters the generator is good for. -/
structure Ok (P : Params) : Prop where
  length : 0 < P.box_length
  width : 0 < P.box_width
  height : P.box_height ≠ 0
  ratio : 0 < P.density_ratio
  lattice : P.lattice_type = 0 ∨ P.lattice_type = 1 ∨ P.lattice_type = 2
  inner : P.nx ≤ 8000
  outer : P.nx / √P.density_ratio ≤ 8000
  coarse : √P.density_ratio ≤ P.nx
  thin : P.box_length / P.nx ≤ P.box_width / 3

variable {P : Params}

theorem sqrt3_bounds : (866 / 1000 : ℝ) < √3 / 2 ∧ √3 / 2 < 867 / 1000 := by
  constructor
  · have : (1732 / 1000 : ℝ) < √3 := Real.lt_sqrt_of_sq_lt (by norm_num)
    linarith
  · have : √3 < 1734 / 1000 := (Real.sqrt_lt' (by norm_num)).2 (by norm_num)
    linarith

theorem Ok.nx_pos (h : Ok P) : 0 < P.nx := by
  have := (Real.sqrt_pos.2 h.ratio).trans_le h.coarse
  exact_mod_cast this

theorem Ok.sep_pos (h : Ok P) : 0 < sep P := div_pos h.length (by exact_mod_cast h.nx_pos)

theorem Ok.sepT_pos (h : Ok P) : 0 < sepT P := mul_pos h.sep_pos (Real.sqrt_pos.2 h.ratio)

theorem Ok.nx_sep (h : Ok P) : P.nx * sep P = P.box_length := by
  have : (P.nx : ℝ) ≠ 0 := by exact_mod_cast h.nx_pos.ne'
  unfold sep
  field_simp

theorem Ok.dy_bounds (h : Ok P) {s : ℝ} (hs : 0 < s) : 866 / 1000 * s ≤ dy P s ∧ dy P s ≤ s := by
  have := sqrt3_bounds
  unfold dy
  split_ifs <;> constructor <;> nlinarith

theorem Ok.dy_site (h : Ok P) (s : ℝ) : (if P.lattice_type = 0 then s else s * √3 / 2) = dy P s := by
  unfold dy
  rcases h.lattice with h | h | h <;> simp [h] <;> ring

/-- The number of rows of a period. -/
def period (P : Params) : ℕ := if P.lattice_type = 0 then 1 else 2

theorem Ok.dY_eq (h : Ok P) (s : ℝ) : dY P s = period P * dy P s := by
  unfold dY dy period
  rcases h.lattice with h | h | h <;> simp [h]

theorem Ok.dY_pos (h : Ok P) {s : ℝ} (hs : 0 < s) : 0 < dY P s ∧ dY P s ≤ 2 * s := by
  have := sqrt3_bounds
  unfold dY dy
  split_ifs <;> constructor <;> nlinarith

/-- `Nx_t` as a natural number. -/
theorem Ok.nxT (h : Ok P) : ∃ N : ℕ, nxT P = N ∧ 1 ≤ N ∧ N ≤ 8000 := by
  have hr := Real.sqrt_pos.2 h.ratio
  have e : P.box_length / sepT P = P.nx / √P.density_ratio := by
    have := h.sep_pos
    rw [← h.nx_sep, sepT]
    field_simp
  have h1 : 1 ≤ P.box_length / sepT P := by rw [e, le_div_iff₀ hr]; linarith [h.coarse]
  have h2 : P.box_length / sepT P ≤ 8000 := by rw [e]; exact h.outer
  have h3 : 1 ≤ KhGen.nxT P := Int.le_floor.2 (by push_cast; linarith)
  have h4 : KhGen.nxT P < 8001 := Int.floor_lt.2 (by push_cast; linarith)
  exact ⟨(KhGen.nxT P).toNat, by omega, by omega, by omega⟩

/-- One block of the generator. -/
theorem Ok.block (h : Ok P) (fuel : ℕ) (c : Bool) (s : ℝ) (hs : 0 < s) (n r : ℕ) (hn : 1 ≤ n) (hn' : n ≤ 8000) (hf : n < fuel ∧ r < fuel) (lo hi : Pos) (st : State)
    (h1 : lo.x = -(n * s) / 2 + s * margin P) (h2 : hi.x = n * s / 2) (h3 : ∀ j : ℕ, j < r → lo.y + j * dy P s + 1 / 100 * dy P s ≤ hi.y) (h4 : hi.y ≤ lo.y + r * dy P s) :
    generate2 fuel c P.lattice_type 0 lo hi s st = some (write c P.lattice_type lo s n r st) := by
  have hn1 : (1 : ℝ) ≤ n := by exact_mod_cast hn
  have hn2 : (n : ℝ) ≤ 8000 := by exact_mod_cast hn'
  have hm : 1 / 4 ≤ margin P ∧ margin P ≤ 1 / 2 ∧ ∀ j : ℕ, margin P + (if P.lattice_type = 0 then (0 : ℝ) else ((j % 2 : ℕ) : ℝ)) / 2 ≤ 3 / 4 := by
    unfold margin
    refine ⟨by split_ifs <;> norm_num, by split_ifs <;> norm_num, fun j => ?_⟩
    have : ((j % 2 : ℕ) : ℝ) ≤ 1 := by exact_mod_cast (by omega : j % 2 ≤ 1)
    split_ifs <;> linarith
  obtain ⟨m1, m2, m3⟩ := hm
  have hw : hi.x - lo.x = n * s - s * margin P := by rw [h1, h2]; ring
  have ht : bTol * (hi.x - lo.x) ≤ 8 / 1000 * s := by
    rw [hw, bTol]
    nlinarith [mul_pos hs (by linarith : (0 : ℝ) < margin P)]
  have hd := h.dy_bounds hs
  obtain ⟨st', e1, e2, e3⟩ := KhGen.block fuel c P.lattice_type lo hi s hs n r st
    (by
      intro j i hi'
      have hi2 : (i : ℝ) + 1 ≤ n := by exact_mod_cast hi'
      have := m3 j
      show lo.x + _ * s / 2 + i * s < _
      rw [h2, h1] at *
      have : (margin P + (if P.lattice_type = 0 then (0 : ℝ) else ((j % 2 : ℕ) : ℝ)) / 2 + i) * s ≤ (3 / 4 + (n - 1)) * s := by
        apply mul_le_mul_of_nonneg_right _ hs.le
        linarith
      linarith)
    (by rw [h1, h2]; nlinarith)
    (by
      intro j i hj
      have := h3 j hj
      show lo.y + j * (if P.lattice_type = 0 then s else s * √3 / 2) < _
      rw [h.dy_site]
      linarith)
    (by
      show hi.y ≤ lo.y + r * (if P.lattice_type = 0 then s else s * √3 / 2)
      rw [h.dy_site]
      exact h4)
    (by rw [hw]; nlinarith) hf
  rw [e1]
  cases st' with
  | mk a b =>
    have : b = _ := funext e3
    dsimp only at e2
    rw [e2, this]
    rfl

/-- The numbers of rows of the middle block (less one) and of the top block. -/
theorem Ok.rows (h : Ok P) : ∃ a b : ℕ, wM P = (period P * a : ℕ) * dy P (sep P) ∧ wT P = (period P * b : ℕ) * dy P (sepT P) ∧ wM P ≤ P.box_width / 3 ∧ 0 < gap P := by
  obtain ⟨h1, h2⟩ := h.dY_pos h.sep_pos
  obtain ⟨h3, h4⟩ := h.dY_pos h.sepT_pos
  have hw := h.width
  have a1 : 0 ≤ ⌊P.box_width / (3 * dY P (sep P))⌋ := Int.floor_nonneg.2 (by positivity)
  have e1 : wM P ≤ P.box_width / 3 := by
    have := Int.floor_le (P.box_width / (3 * dY P (sep P)))
    rw [le_div_iff₀ (by positivity)] at this
    unfold wM
    linarith
  have g1 : gap P ≤ P.box_width / 3 := by
    have : gap P ≤ dY P (sep P) / 2 := by
      unfold gap
      linarith [min_le_left (dY P (sep P)) (dY P (sepT P))]
    have := h.thin
    unfold sep at *
    linarith
  have g2 : 0 < gap P := by
    unfold gap
    have := lt_min h1 h3
    linarith
  have a2 : 0 ≤ ⌊(P.box_width / 2 - wM P / 2 - gap P) / dY P (sepT P)⌋ := Int.floor_nonneg.2 (div_nonneg (by linarith) h3.le)
  obtain ⟨a, ha⟩ := Int.eq_ofNat_of_zero_le a1
  obtain ⟨b, hb⟩ := Int.eq_ofNat_of_zero_le a2
  refine ⟨a, b, ?_, ?_, e1, g2⟩
  · rw [wM, ha, h.dY_eq]; push_cast; ring
  · rw [wT, hb, h.dY_eq]; push_cast; ring

/-- The three blocks. -/
theorem Ok.blocks (h : Ok P) {N r q : ℕ} (hN : KhGen.nxT P = N) (hN1 : 1 ≤ N) (hN2 : N ≤ 8000) (hr : wM P = r * dy P (sep P)) (hq : wT P = q * dy P (sepT P)) (fuel : ℕ)
    (hf : P.nx < fuel ∧ N < fuel ∧ r + 1 < fuel ∧ q + 1 < fuel) :
    ∃ pos, blocks P fuel = some ⟨(r + 1) * P.nx, q * N, (q + 1) * N, pos⟩ ∧
      (∀ k < (r + 1) * P.nx, pos k = site P.lattice_type (mLo P) (sep P) (k / P.nx) (k % P.nx)) ∧
      (∀ k < q * N, pos ((r + 1) * P.nx + k) = site P.lattice_type (tLo P) (sepT P) (k / N) (k % N)) ∧
      ∀ k < (q + 1) * N, pos ((r + 1) * P.nx + q * N + k) = site P.lattice_type (bLo P) (sepT P) (k / N) (k % N) := by
  have hd := (h.dy_bounds h.sep_pos).1
  have hdT := (h.dy_bounds h.sepT_pos).1
  have p1 := h.sep_pos
  have p2 := h.sepT_pos
  have M := fun c st => h.block fuel c (sep P) h.sep_pos P.nx (r + 1) h.nx_pos h.inner ⟨hf.1, hf.2.2.1⟩ (mLo P) (mHi P) st
    (by rw [h.nx_sep]; rfl) (by rw [h.nx_sep]; rfl)
    (by
      intro j hj
      have : (j : ℝ) * dy P (sep P) ≤ r * dy P (sep P) := mul_le_mul_of_nonneg_right (by exact_mod_cast Nat.lt_succ_iff.1 hj) (by linarith)
      simp only [mLo, mHi]
      linarith)
    (by simp only [mLo, mHi]; push_cast; linarith)
  have T := fun c st => h.block fuel c (sepT P) h.sepT_pos N q hN1 hN2 ⟨hf.2.1, by omega⟩ (tLo P) (tHi P) st
    (by simp only [tLo, hN]; push_cast; ring) (by simp only [tHi, hN]; push_cast; ring)
    (by
      intro j hj
      have : ((j : ℝ) + 1) * dy P (sepT P) ≤ q * dy P (sepT P) := mul_le_mul_of_nonneg_right (by exact_mod_cast hj) (by linarith)
      simp only [tLo, tHi]
      linarith)
    (by simp only [tLo, tHi]; linarith)
  have B := fun c st => h.block fuel c (sepT P) h.sepT_pos N (q + 1) hN1 hN2 ⟨hf.2.1, by omega⟩ (bLo P) (bHi P) st
    (by simp only [bLo, hN]; push_cast; ring) (by simp only [bHi, hN]; push_cast; ring)
    (by
      intro j hj
      have : (j : ℝ) * dy P (sepT P) ≤ q * dy P (sepT P) := mul_le_mul_of_nonneg_right (by exact_mod_cast Nat.lt_succ_iff.1 hj) (by linarith)
      simp only [bLo, bHi]
      linarith)
    (by simp only [bLo, bHi]; push_cast; linarith)
  have e : (r + 1) * P.nx + (q + 1) * N + q * N - (q + 1) * N = (r + 1) * P.nx + q * N := by omega
  refine ⟨(write false P.lattice_type (bLo P) (sepT P) N (q + 1) ⟨(r + 1) * P.nx + q * N, (write false P.lattice_type (tLo P) (sepT P) N q ⟨(r + 1) * P.nx,
    (write false P.lattice_type (mLo P) (sep P) P.nx (r + 1) ⟨0, fun _ => ⟨0, 0, 0⟩⟩).pos⟩).pos⟩).pos, ?_, ?_, ?_, ?_⟩
  · have w : ∀ c lo s n r (st : State), (write c P.lattice_type lo s n r st).posid = st.posid + r * n := fun _ _ _ _ _ _ => rfl
    unfold KhGen.blocks
    simp only [M, T, B, Option.bind_eq_bind, Option.bind_some, w, zero_add, Nat.add_sub_cancel_left, e, and_self, if_true]
  · intro k hk
    simp only [write, true_and]
    rw [if_neg (by omega), if_neg (by omega), if_pos ⟨by omega, by omega⟩]
    rfl
  · intro k hk
    simp only [write, true_and]
    rw [if_neg (by omega), if_pos ⟨by omega, by omega⟩, Nat.add_sub_cancel_left]
  · intro k hk
    simp only [write, true_and]
    rw [if_pos ⟨by omega, by omega⟩, Nat.add_sub_cancel_left]

/-- The fields of a particle at a position. -/
def make (P : Params) (ys : ℝ) (mid : Prop) (p : ℝ × ℝ) : Particle :=
  { x := p.1
    y := p.2
    vx := if mid then P.flow_velocity / 2 else -P.flow_velocity / 2
    vy := perturbation P p.1 p.2
    rho := if mid then rhoM P else rhoT P
    P := P.pressure_initial
    u := P.pressure_initial / (P.poly_gamma - 1) / if mid then rhoM P else rhoT P
    m := pmass0 P * ys }

def shift (P : Params) : ℕ → ℝ := if P.lattice_type = 0 then KhLayers.straight else KhLayers.staggered

theorem shift_eq (P : Params) (j : ℕ) : margin P + (if P.lattice_type = 0 then (0 : ℝ) else ((j % 2 : ℕ) : ℝ)) / 2 = shift P j := by
  unfold margin shift KhLayers.straight KhLayers.staggered
  by_cases h : P.lattice_type = 0
  · simp [h]
  · rcases Nat.mod_two_eq_zero_or_one j with h' | h' <;> simp [h, h'] <;> norm_num

theorem Ok.site_y (h : Ok P) (lo : Pos) (s : ℝ) (j i : ℕ) : (site P.lattice_type lo s j i).y = lo.y + j * dy P s := by
  rw [← h.dy_site]; rfl

/-- The whole generator. -/
theorem Ok.generate (h : Ok P) {N r q : ℕ} (hN : KhGen.nxT P = N) (hN1 : 1 ≤ N) (hN2 : N ≤ 8000) (hr : wM P = r * dy P (sep P)) (hq : wT P = q * dy P (sepT P)) (hg : 0 < gap P) (fuel : ℕ)
    (hf : P.nx < fuel ∧ N < fuel ∧ r + 1 < fuel ∧ q + 1 < fuel) {sx y0 ys : ℝ} (hsx : sx = N * sepT P / P.box_length) (hy0 : y0 = wM P / 2 + gap P)
    (hys : ys = P.box_width / 2 / (y0 + sx * wT P)) :
    generate P fuel = some (
      (KhLayers.layer P.box_length P.nx (r + 1) (shift P) (fun j => (-(wM P / 2) + j * dy P (sep P)) * ys)).map (make P ys True) ++
      ((KhLayers.layer P.box_length N q (shift P) (fun j => (y0 + sx * (j * dy P (sepT P))) * ys)).map (make P ys False) ++
      (KhLayers.layer P.box_length N (q + 1) (shift P) (fun j => (-y0 + sx * (j * dy P (sepT P) - wT P)) * ys)).map (make P ys False))) := by
  obtain ⟨pos, e, e1, e2, e3⟩ := h.blocks hN hN1 hN2 hr hq fuel hf
  have hN0 : (0 : ℝ) < N := by exact_mod_cast hN1
  have hL := h.length
  have p2 := h.sepT_pos
  have hd := (h.dy_bounds h.sep_pos).1
  have hdT := (h.dy_bounds h.sepT_pos).1
  have p1 := h.sep_pos
  have hd0 : 0 < dy P (sep P) := by linarith
  have hdT0 : 0 < dy P (sepT P) := by linarith
  have hsx0 : 0 < sx := by rw [hsx]; positivity
  have hst : yxStretch P = sx := by
    rw [hsx, yxStretch]
    show ((KhGen.nxT P : ℤ) : ℝ) * _ / _ = _
    rw [hN]; rfl
  have hz : yzStretch P = 1 := div_self h.height
  have hw0 : 0 ≤ wM P := by rw [hr]; positivity
  have hT0 : 0 ≤ wT P := by rw [hq]; positivity
  have hy00 : 0 < y0 := by rw [hy0]; linarith
  obtain ⟨A, hA⟩ : ∃ A, A = (r + 1) * P.nx := ⟨_, rfl⟩
  obtain ⟨B, hB⟩ : ∃ B, B = q * N := ⟨_, rfl⟩
  obtain ⟨C, hC⟩ : ∃ C, C = (q + 1) * N := ⟨_, rfl⟩
  have hC0 : 0 < C := by rw [hC]; positivity
  rw [← hA, ← hB, ← hC] at e
  rw [← hA] at e1 e2
  rw [← hB] at e2
  rw [← hA, ← hB, ← hC] at e3
  -- positions after the first stretching
  have t2 : ∀ k < B, stretchOuter P (pos (A + k)) = ⟨-P.box_length / 2 + ((k % N : ℕ) + shift P (k / N)) * (P.box_length / N), y0 + sx * ((k / N : ℕ) * dy P (sepT P)), 0⟩ := by
    intro k hk
    rw [e2 k hk]
    unfold stretchOuter
    simp only [h.site_y, hst, hz, mul_one, ← hy0]
    have ey : (tLo P).y = y0 := by rw [hy0]; simp only [tLo]; ring
    have : (0 : ℝ) ≤ (k / N : ℕ) * dy P (sepT P) := by positivity
    rw [ey, if_pos (by linarith), ← shift_eq]
    simp only [site, Pos.mk.injEq]
    refine ⟨?_, by ring, trivial⟩
    rw [hsx]
    simp only [tLo, hN]
    push_cast
    field_simp
    ring
  have t3 : ∀ k < C, stretchOuter P (pos (A + B + k)) =
      ⟨-P.box_length / 2 + ((k % N : ℕ) + shift P (k / N)) * (P.box_length / N), -y0 + sx * ((k / N : ℕ) * dy P (sepT P) - wT P), 0⟩ := by
    intro k hk
    rw [e3 k hk]
    unfold stretchOuter
    simp only [h.site_y, hst, hz, mul_one, ← hy0]
    have ey : (bLo P).y = -y0 - wT P := by rw [hy0]; simp only [bLo]; ring
    have hj : k / N ≤ q := by
      have : k / N < q + 1 := Nat.div_lt_of_lt_mul (by rw [Nat.mul_comm]; omega)
      omega
    have : ((k / N : ℕ) : ℝ) * dy P (sepT P) ≤ wT P := by
      rw [hq]
      exact mul_le_mul_of_nonneg_right (by exact_mod_cast hj) hdT0.le
    rw [ey, if_neg (by linarith), ← shift_eq]
    simp only [site, Pos.mk.injEq]
    refine ⟨?_, by ring, trivial⟩
    rw [hsx]
    simp only [bLo, hN]
    push_cast
    field_simp
    ring
  have hfirst : |(stretchOuter P (pos (A + B))).y| = y0 + sx * wT P := by
    have := t3 0 hC0
    rw [Nat.add_zero] at this
    rw [this]
    simp only [Nat.zero_div, Nat.cast_zero, zero_mul, zero_sub]
    rw [show -y0 + sx * -wT P = -(y0 + sx * wT P) by ring, abs_neg, abs_of_pos (by positivity)]
  unfold KhGen.generate
  rw [e]
  simp only [Option.bind_eq_bind, Option.bind_some]
  unfold stretched
  dsimp only
  rw [if_neg (by omega)]
  simp only [Option.bind_some]
  rw [if_pos (show A ≤ A + B ∧ A + B < A + C + B by omega), hfirst, show 1 / 2 * P.box_width / (y0 + sx * wT P) = ys by rw [hys]; ring]
  show some _ = some _
  congr 1
  unfold KhLayers.layer
  simp only [pieces_eq, List.map_map]
  rw [← hA, ← hB, ← hC, show A + C + B = A + (B + C) by omega, List.range_add, List.range_add, List.map_append, List.map_append, List.map_map, List.map_append, List.map_map, List.map_map]
  congr 1
  · refine List.map_congr_left fun k hk => ?_
    rw [List.mem_range] at hk
    simp only [particle, make, Function.comp, if_true, hk, if_pos]
    rw [if_neg (by omega), e1 k hk]
    have e4 : (site P.lattice_type (mLo P) (sep P) (k / P.nx) (k % P.nx)).x = -P.box_length / 2 + ((k % P.nx : ℕ) + shift P (k / P.nx)) * (P.box_length / P.nx) := by
      rw [← shift_eq]
      simp only [site, mLo, sep]
      ring
    have e5 : (site P.lattice_type (mLo P) (sep P) (k / P.nx) (k % P.nx)).y = -(wM P / 2) + (k / P.nx : ℕ) * dy P (sep P) := by
      rw [h.site_y]
      simp only [mLo]
      ring
    rw [e4, e5]
  · congr 1
    · refine List.map_congr_left fun k hk => ?_
      rw [List.mem_range] at hk
      simp only [particle, make, Function.comp, if_false]
      rw [if_pos (by omega), if_neg (by omega), if_neg (by omega), t2 k hk]
    · refine List.map_congr_left fun k hk => ?_
      rw [List.mem_range] at hk
      simp only [particle, make, Function.comp, if_false]
      rw [if_pos (by omega), if_neg (by omega), if_neg (by omega), ← Nat.add_assoc, t3 k hk]

end
end FleCSPH.KhGen
