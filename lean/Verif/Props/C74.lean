import Verif.Spec.InitialData
import Verif.Props.C47margin
import Mathlib.Analysis.Calculus.Deriv.Mul
import Mathlib.Analysis.Calculus.Deriv.Add
import Mathlib.Tactic.Ring
import Mathlib.Tactic.Linarith
import Mathlib.Tactic.NormNum
import Mathlib.Tactic.FieldSimp
/-! C74: initial data of several blocks: every particle has the state of its block, its mass is the density of the block times the volume of a lattice cell, layers are in equilibrium. -/
namespace FleCSPH.IdGen
open FleCSPH.Geometry FleCSPH.Kernels FleCSPH.Lattice FleCSPH.Spec
open Classical

/-- What a generating pass does to the arrays: the sites before stay, new ones satisfy `Q`. -/
private def Adds (Q : Pos → Prop) (s0 s : Lattice.State) : Prop := s0.posid ≤ s.posid ∧ (∀ k < s0.posid, s.pos k = s0.pos k) ∧ ∀ k, s0.posid ≤ k → k < s.posid → Q (s.pos k)

private theorem adds_visit {Q dom : Pos → Prop} {s0 : Lattice.State} (hd : ∀ p, dom p → Q p) (p : Pos) (s s' : Lattice.State) (h : Adds Q s0 s) (e : some (visit false dom p s) = some s') : Adds Q s0 s' := by
  obtain rfl := Option.some.inj e
  unfold visit
  simp only [Bool.false_eq_true, if_false]
  split_ifs with hp
  · refine ⟨by have := h.1; simp only; omega, fun k hk => ?_, fun k h1 h2 => ?_⟩
    · have : k ≠ s.posid := by have := h.1; omega
      simp only [Function.update_of_ne this]; exact h.2.1 k hk
    · by_cases hk : k = s.posid
      · subst hk; simp only [Function.update_self]; exact hd p hp
      · simp only [Function.update_of_ne hk]
        exact h.2.2 k h1 (by simp only at h2; omega)
  · exact h

private theorem inv_loop (I : Lattice.State → Prop) (hi step : ℝ) (next : ℝ → ℝ) (body : ℝ → ℝ → Lattice.State → Option Lattice.State) :
    ∀ fuel p s st st', (∀ (i : Nat) s st st', I st → body (p + i * step) s st = some st' → I st') → I st → loop fuel hi step next body p s st = some st' → I st' := by
  intro fuel
  induction fuel with
  | zero => intro p s st st' _ _ h; simp [loop] at h
  | succ fuel ih =>
    intro p s st st' hb h0 h
    rw [loop] at h
    split_ifs at h
    · obtain ⟨st1, h1, h2⟩ := Option.bind_eq_some_iff.mp h
      refine ih _ _ _ _ (fun i s st st' hI he => ?_) (hb 0 _ _ _ h0 (by simpa using h1)) h2
      refine hb (i + 1) s st st' hI ?_
      rw [← he]; congr 1; push_cast; ring
    · exact Option.some.inj h ▸ h0

private theorem adds_generate (d fuel : Nat) (lattice : Int) (lo hi : Pos) (sep : ℝ) (s0 s : Lattice.State) (h : generate d fuel false lattice lo hi sep s0 = some s) :
    Adds (inDomain1 lo hi) s0 s := by
  have h0 : Adds (inDomain1 lo hi) s0 s0 := ⟨le_rfl, fun _ _ => rfl, fun k h1 h2 => by omega⟩
  have h2 : ∀ dom p, inDomain2 dom lo hi p → inDomain1 lo hi p := fun dom p hp => ⟨hp.1.1, hp.1.2.1⟩
  have h3 : ∀ dom p, inDomain3 dom lo hi p → inDomain1 lo hi p := fun dom p hp => ⟨hp.1.1, hp.1.2.1⟩
  unfold generate at h
  split_ifs at h with hd1 hd2
  · unfold generate1 at h
    exact inv_loop _ _ _ _ _ _ _ _ _ _ (fun i _ st st' hI he => adds_visit (fun p hp => hp) _ _ _ hI he) h0 h
  · unfold generate2 at h
    dsimp only at h
    split_ifs at h
    all_goals
      refine inv_loop _ _ _ _ _ _ _ _ _ _ (fun j _ st1 st2 h1 e1 => ?_) h0 h
      exact inv_loop _ _ _ _ _ _ _ _ _ _ (fun i _ st3 st4 h3 e3 => adds_visit (h2 _) _ _ _ h3 e3) h1 e1
  · unfold generate3 at h
    dsimp only at h
    split_ifs at h
    on_goal 4 => exact Option.some.inj h ▸ h0
    all_goals
      refine inv_loop _ _ _ _ _ _ _ _ _ _ (fun l _ st1 st2 h1 e1 => ?_) h0 h
      refine inv_loop _ _ _ _ _ _ _ _ _ _ (fun j _ st5 st6 h5 e5 => ?_) h1 e1
      exact inv_loop _ _ _ _ _ _ _ _ _ _ (fun i _ st7 st8 h7 e7 => adds_visit (h3 _) _ _ _ h7 e7) h5 e5

/-- The two states differ by `n` sites in front. -/
private def Shifted (n : Nat) (a b : Lattice.State) : Prop := a.posid = n + b.posid ∧ ∀ k < b.posid, a.pos (n + k) = b.pos k

private theorem shifted_visit {n : Nat} (dom : Pos → Prop) (p : Pos) {a b a' : Lattice.State} (h : Shifted n a b) (e : some (visit false dom p a) = some a') :
    ∃ b', some (visit false dom p b) = some b' ∧ Shifted n a' b' := by
  obtain rfl := Option.some.inj e
  refine ⟨_, rfl, ?_⟩
  unfold visit
  simp only [Bool.false_eq_true, if_false]
  split_ifs with hp
  · refine ⟨by have := h.1; simp only; omega, fun k hk => ?_⟩
    simp only at hk
    by_cases hkb : k = b.posid
    · rw [hkb, ← h.1]; simp
    · have h1 : n + k ≠ a.posid := by have := h.1; omega
      simp only [Function.update_of_ne hkb, Function.update_of_ne h1]
      exact h.2 k (by omega)
  · exact h

private theorem shifted_loop {n : Nat} (hi step : ℝ) (next : ℝ → ℝ) (body : ℝ → ℝ → Lattice.State → Option Lattice.State)
    (hb : ∀ p s a b a', Shifted n a b → body p s a = some a' → ∃ b', body p s b = some b' ∧ Shifted n a' b') :
    ∀ fuel p s a b a', Shifted n a b → loop fuel hi step next body p s a = some a' → ∃ b', loop fuel hi step next body p s b = some b' ∧ Shifted n a' b' := by
  intro fuel
  induction fuel with
  | zero => intro p s a b a' _ h; simp [loop] at h
  | succ fuel ih =>
    intro p s a b a' h0 h
    rw [loop] at h ⊢
    split_ifs at h ⊢
    · obtain ⟨a1, h1, h2⟩ := Option.bind_eq_some_iff.mp h
      obtain ⟨b1, g1, g2⟩ := hb _ _ _ _ _ h0 h1
      obtain ⟨b', g3, g4⟩ := ih _ _ _ _ _ g2 h2
      exact ⟨b', Option.bind_eq_some_iff.mpr ⟨b1, g1, g3⟩, g4⟩
    · obtain rfl := Option.some.inj h
      exact ⟨b, rfl, h0⟩

private theorem shifted_generate {n : Nat} (d fuel : Nat) (lattice : Int) (lo hi : Pos) (sep : ℝ) (a b a' : Lattice.State) (h0 : Shifted n a b) (h : generate d fuel false lattice lo hi sep a = some a') :
    ∃ b', generate d fuel false lattice lo hi sep b = some b' ∧ Shifted n a' b' := by
  unfold generate at h ⊢
  split_ifs at h ⊢ with hd1 hd2
  · unfold generate1 at h ⊢
    exact shifted_loop _ _ _ _ (fun _ _ _ _ _ h e => by exact shifted_visit _ _ h e) _ _ _ _ _ _ h0 h
  · unfold generate2 at h ⊢
    dsimp only at h ⊢
    split_ifs at h ⊢
    all_goals
      refine shifted_loop _ _ _ _ (fun _ _ _ _ _ h1 e1 => ?_) _ _ _ _ _ _ h0 h
      exact shifted_loop _ _ _ _ (fun _ _ _ _ _ h e => by exact shifted_visit _ _ h e) _ _ _ _ _ _ h1 e1
  · unfold generate3 at h ⊢
    dsimp only at h ⊢
    split_ifs at h ⊢
    on_goal 4 => exact ⟨b, rfl, Option.some.inj h ▸ h0⟩
    all_goals
      refine shifted_loop _ _ _ _ (fun _ _ _ _ _ h1 e1 => ?_) _ _ _ _ _ _ h0 h
      refine shifted_loop _ _ _ _ (fun _ _ _ _ _ h2 e2 => ?_) _ _ _ _ _ _ h1 e1
      exact shifted_loop _ _ _ _ (fun _ _ _ _ _ h e => by exact shifted_visit _ _ h e) _ _ _ _ _ _ h2 e2

/-- The sites which the lattice generator (C47) puts into a box of its own, from `lo` to `hi` with separation `sep`, when it starts with empty arrays. -/
def Filled (d fuel : Nat) (lattice : Int) (lo hi : Pos) (sep : ℝ) (sites : List Pos) : Prop :=
  ∃ s, generate d fuel false lattice lo hi sep ⟨0, fun _ => ⟨0, 0, 0⟩⟩ = some s ∧ sites = (List.range s.posid).map s.pos

private theorem filled_of (d fuel : Nat) (lattice : Int) (lo hi : Pos) (sep : ℝ) (a a' : Lattice.State) (h : generate d fuel false lattice lo hi sep a = some a') {pos : Nat → Pos}
    (hp : ∀ k < a'.posid, pos k = a'.pos k) : Filled d fuel lattice lo hi sep ((List.range' a.posid (a'.posid - a.posid)).map pos) := by
  obtain ⟨s, h1, h2, h3⟩ := shifted_generate (n := a.posid) d fuel lattice lo hi sep a ⟨0, fun _ => ⟨0, 0, 0⟩⟩ a' ⟨rfl, fun k hk => by simp at hk⟩ h
  refine ⟨s, h1, ?_⟩
  rw [show a'.posid - a.posid = s.posid by omega, List.range'_eq_map_range, List.map_map]
  refine List.map_congr_left fun k hk => ?_
  have hk := List.mem_range.mp hk
  show pos (a.posid + k) = _
  rw [hp _ (by omega), h3 k hk]

private theorem centre_not_side (z : Params) (p : Pos) (h : inDomain1 (rboxMin z) (rboxMax z) p ∨ inDomain1 (lboxMin z) (lboxMax z) p) : ¬ inDomain1 (cboxMin z) (cboxMax z) p := by
  rintro ⟨h1, h2⟩
  rcases h with ⟨h3, h4⟩ | ⟨h3, h4⟩ <;> simp only [bTol, cboxMin, cboxMax, rboxMin, rboxMax, lboxMin, lboxMax] at h1 h2 h3 h4 <;> linarith

/-- The state of a block of a shock tube: velocity, density, pressure, energy of the ideal gas, smoothing length for the mass `m`. -/
def HasState (z : Params) (d : Nat) (v rho P m : ℝ) (f : Fluid) : Prop :=
  f.vx = v ∧ f.rho = rho ∧ f.P = P ∧ f.mass = m ∧ IdealGas z.gamma f.rho f.u f.P ∧ f.h = z.eta * z.width * (m / rho) ^ (1 / (d : ℝ))

private theorem sodBody_state (z : Params) (hg : z.gamma ≠ 1) (t : Tube) (h1 : t.rho1 ≠ 0) (h2 : t.rho2 ≠ 0) (d : Nat) (m1 m2 : ℝ) (p : Pos) :
    (inDomain1 (cboxMin z) (cboxMax z) p → HasState z d t.v1 t.rho1 t.P1 m1 (sodBody z t d m1 m2 p)) ∧
    (¬ inDomain1 (cboxMin z) (cboxMax z) p → HasState z d t.v2 t.rho2 t.P2 m2 (sodBody z t d m1 m2 p)) := by
  have hg' : z.gamma - 1 ≠ 0 := sub_ne_zero.mpr hg
  refine ⟨fun h => ?_, fun h => ?_⟩
  · rw [sodBody, if_pos h]
    refine ⟨rfl, rfl, rfl, rfl, ?_, rfl⟩
    simp only [IdealGas]; field_simp
  · rw [sodBody, if_neg h]
    refine ⟨rfl, rfl, rfl, rfl, ?_, rfl⟩
    simp only [IdealGas]; field_simp

private theorem sites (z : Params) (d fuel : Nat) (lattice : Int) (sep lrsep : ℝ) (pos : Nat → Pos) (n1 n2 : Nat) (s : Lattice.State) (h : sodSites z d fuel lattice sep lrsep pos = some (n1, n2, s)) :
    n1 ≤ n2 ∧ n2 ≤ s.posid ∧ (∀ k < n1, inDomain1 (cboxMin z) (cboxMax z) (s.pos k)) ∧ (∀ k, n1 ≤ k → k < n2 → inDomain1 (rboxMin z) (rboxMax z) (s.pos k)) ∧
    (∀ k, n2 ≤ k → k < s.posid → inDomain1 (lboxMin z) (lboxMax z) (s.pos k)) ∧
    Filled d fuel lattice (cboxMin z) (cboxMax z) sep ((List.range n1).map s.pos) ∧ Filled d fuel lattice (rboxMin z) (rboxMax z) lrsep ((List.range' n1 (n2 - n1)).map s.pos) ∧
    Filled d fuel lattice (lboxMin z) (lboxMax z) lrsep ((List.range' n2 (s.posid - n2)).map s.pos) := by
  simp only [sodSites, Option.bind_eq_bind, Option.bind_eq_some_iff] at h
  obtain ⟨s1, e1, s2, e2, s3, e3, e4⟩ := h
  have e4 := Option.some.inj e4
  obtain ⟨rfl, rfl, rfl⟩ : s1.posid = n1 ∧ s2.posid = n2 ∧ s3 = s := by simpa using e4
  obtain ⟨a1, a2, a3⟩ := adds_generate _ _ _ _ _ _ _ _ e1
  obtain ⟨b1, b2, b3⟩ := adds_generate _ _ _ _ _ _ _ _ e2
  obtain ⟨c1, c2, c3⟩ := adds_generate _ _ _ _ _ _ _ _ e3
  refine ⟨b1, c1, fun k hk => ?_, fun k h1 h2 => ?_, c3, ?_, filled_of _ _ _ _ _ _ _ _ e2 fun k hk => c2 k hk, filled_of _ _ _ _ _ _ _ _ e3 fun k hk => rfl⟩
  on_goal 3 =>
    have := filled_of _ _ _ _ _ _ _ _ e1 (pos := s3.pos) fun k hk => by rw [c2 k (by omega), b2 k hk]
    rwa [Nat.sub_zero, ← List.range_eq_range'] at this
  · rw [c2 k (by omega), b2 k hk]; exact a3 k (Nat.zero_le _) hk
  · rw [c2 k h2]; exact b3 k h1 h2

private theorem tube_rho {test : Int} {t : Tube} (h : tube test = some t) : t.rho1 ≠ 0 ∧ t.rho2 ≠ 0 := by
  unfold tube at h
  split_ifs at h <;> (obtain rfl := Option.some.inj h; constructor <;> norm_num)

/-- The particles of a shock tube `l`: groups generated in the middle, the right and the left block, in this order; those of the middle block, and only those, have the middle state and the mass `m1`, the
others the outer state and the mass `m2`. The sites are those of lattices of separation `sep` in the middle and `lrsep` at the sides. -/
def ThreeBlocks (z : Params) (d fuel : Nat) (lattice : Int) (sep lrsep : ℝ) (t : Tube) (m1 m2 : ℝ) (l mid right left : List (Pos × Fluid)) : Prop :=
  l = mid ++ right ++ left ∧
  Filled d fuel lattice (cboxMin z) (cboxMax z) sep (mid.map Prod.fst) ∧ Filled d fuel lattice (rboxMin z) (rboxMax z) lrsep (right.map Prod.fst) ∧
  Filled d fuel lattice (lboxMin z) (lboxMax z) lrsep (left.map Prod.fst) ∧
  (∀ q ∈ mid, inDomain1 (cboxMin z) (cboxMax z) q.1 ∧ HasState z d t.v1 t.rho1 t.P1 m1 q.2) ∧
  (∀ q ∈ right, inDomain1 (rboxMin z) (rboxMax z) q.1 ∧ HasState z d t.v2 t.rho2 t.P2 m2 q.2) ∧
  ∀ q ∈ left, inDomain1 (lboxMin z) (lboxMax z) q.1 ∧ HasState z d t.v2 t.rho2 t.P2 m2 q.2

private theorem three (z : Params) (hg : z.gamma ≠ 1) {test : Int} {t : Tube} (ht : tube test = some t) (d fuel : Nat) (lattice : Int) (sep lrsep : ℝ) (pos : Nat → Pos) (n1 n2 : Nat) (s : Lattice.State)
    (hs : sodSites z d fuel lattice sep lrsep pos = some (n1, n2, s)) (m1 m2 : ℝ) :
    ∃ mid right left, ThreeBlocks z d fuel lattice sep lrsep t m1 m2 ((List.range s.posid).map fun k => (s.pos k, sodBody z t d m1 m2 (s.pos k))) mid right left ∧ mid.length = n1 ∧ right.length = n2 - n1 := by
  obtain ⟨r1, r2⟩ := tube_rho ht
  obtain ⟨a1, a2, a3, a4, a5, a6, a7, a8⟩ := sites z d fuel lattice _ _ pos n1 n2 s hs
  have hb := fun p => sodBody_state z hg t r1 r2 d m1 m2 p
  refine ⟨(List.range n1).map fun k => (s.pos k, sodBody z t d m1 m2 (s.pos k)), (List.range' n1 (n2 - n1)).map fun k => (s.pos k, sodBody z t d m1 m2 (s.pos k)),
    (List.range' n2 (s.posid - n2)).map fun k => (s.pos k, sodBody z t d m1 m2 (s.pos k)), ⟨?_, ?_, ?_, ?_, ?_, ?_, ?_⟩, by simp, by simp⟩
  on_goal 2 => rw [List.map_map]; exact a6
  on_goal 2 => rw [List.map_map]; exact a7
  on_goal 2 => rw [List.map_map]; exact a8
  · rw [← List.map_append, ← List.map_append]
    congr 1
    rw [List.range_eq_range', List.range_eq_range', List.append_assoc, show n2 = n1 + (n2 - n1) by omega, Nat.add_sub_cancel_left]
    rw [show s.posid = n1 + ((n2 - n1) + (s.posid - n2)) by omega]
    have e1 := @List.range'_append_1 n1 (n2 - n1) (s.posid - n2)
    have e2 := @List.range'_append_1 0 n1 ((n2 - n1) + (s.posid - n2))
    rw [Nat.zero_add] at e2
    rw [← e2, ← e1]
    congr 3
    omega
  · intro q hq
    obtain ⟨k, hk, rfl⟩ := List.mem_map.mp hq
    exact ⟨a3 k (List.mem_range.mp hk), (hb _).1 (a3 k (List.mem_range.mp hk))⟩
  · intro q hq
    obtain ⟨k, hk, rfl⟩ := List.mem_map.mp hq
    have hk := List.mem_range'_1.mp hk
    have h := a4 k hk.1 (by omega)
    exact ⟨h, (hb _).2 (centre_not_side z _ (.inl h))⟩
  · intro q hq
    obtain ⟨k, hk, rfl⟩ := List.mem_map.mp hq
    have hk := List.mem_range'_1.mp hk
    have h := a5 k hk.1 (by omega)
    exact ⟨h, (hb _).2 (centre_not_side z _ (.inr h))⟩

/-- C74, shock tube with equal masses: the blocks are filled with lattices of the separations for which a particle has the mass of a lattice cell (see `C74_equal_mass`), and every particle has the state of
the block it was generated in and this mass. For every test, lattice and dimension. -/
theorem C74_sod_states (z : Params) (hg : z.gamma ≠ 1) (test : Int) (d fuel : Nat) (lattice : Int) (sep : ℝ) (pos : Nat → Pos) (l : List (Pos × Fluid)) (h : sodEqualMass z test d fuel lattice sep pos = some l) :
    ∃ t, tube test = some t ∧ ∃ mid right left, ThreeBlocks z d fuel lattice sep (equalMass d lattice t.rho1 t.rho2 sep).2 t (equalMass d lattice t.rho1 t.rho2 sep).1 (equalMass d lattice t.rho1 t.rho2 sep).1 l mid right left := by
  simp only [sodEqualMass, Option.bind_eq_bind, Option.bind_eq_some_iff] at h
  obtain ⟨t, ht, ⟨n1, n2, s⟩, hs, hl⟩ := h
  obtain rfl := Option.some.inj hl
  obtain ⟨mid, right, left, h, -, -⟩ := three z hg ht d fuel lattice _ _ pos n1 n2 s hs (equalMass d lattice t.rho1 t.rho2 sep).1 (equalMass d lattice t.rho1 t.rho2 sep).1
  exact ⟨t, ht, mid, right, left, h⟩

/-- C74, shock tube with equal separations: the states are right; the masses are the densities over the numbers of particles of the middle and of the right block, so they are the masses of lattice cells only
in blocks of volume 1, see `C74_separation_violated`. -/
theorem C74_separation_partial (z : Params) (hg : z.gamma ≠ 1) (test : Int) (d fuel : Nat) (lattice : Int) (sep : ℝ) (pos : Nat → Pos) (l : List (Pos × Fluid))
    (h : sodEqualSeparation z test d fuel lattice sep pos = some l) :
    ∃ t, tube test = some t ∧ ∃ mid right left, ThreeBlocks z d fuel lattice sep sep t (t.rho1 / mid.length) (t.rho2 / right.length) l mid right left := by
  simp only [sodEqualSeparation, Option.bind_eq_bind, Option.bind_eq_some_iff] at h
  obtain ⟨t, ht, ⟨n1, n2, s⟩, hs, hl⟩ := h
  obtain rfl := Option.some.inj hl
  obtain ⟨mid, right, left, h, h1, h2⟩ := three z hg ht d fuel lattice _ _ pos n1 n2 s hs (t.rho1 / n1) (t.rho2 / (n2 - n1 : Nat))
  refine ⟨t, ht, mid, right, left, ?_⟩
  rw [h1, h2]; exact h

private theorem det3 (a b c d e f g h i : ℝ) :
    (!![a, b, c; d, e, f; g, h, i] : Matrix (Fin 3) (Fin 3) ℝ).det = a * e * i - a * f * h - b * d * i + b * f * g + c * d * h - c * e * g := by
  rw [Matrix.det_fin_three]; simp

private theorem cellVolume_one (lattice : Int) (sep : ℝ) (h : 0 ≤ sep) : cellVolume 1 lattice sep = sep := by
  rw [cellVolume, if_pos rfl]; simp [cell1, abs_of_nonneg h]

private theorem cellVolume_two (lattice : Int) (sep : ℝ) : cellVolume 2 lattice sep = sep * sep * (if lattice = 0 then 1 else √3 / 2) := by
  rw [cellVolume, if_neg (by omega), if_pos rfl]
  unfold cell2
  split_ifs
  · rw [Matrix.det_fin_two_of, abs_of_nonneg]
    · ring
    · nlinarith [mul_self_nonneg sep]
  · have e : sep * (√3 / 2 * sep) - 0 * (sep / 2) = sep * sep * (√3 / 2) := by ring
    rw [Matrix.det_fin_two_of, e, abs_of_nonneg]
    exact mul_nonneg (mul_self_nonneg _) (by positivity)

private theorem cellVolume_three (lattice : Int) (sep : ℝ) (h : 0 ≤ sep) : cellVolume 3 lattice sep = sep * sep * sep * (if lattice = 0 then 1 else 1 / √2) := by
  have e23 : √3 / 2 * √(2 / 3) = 1 / √2 := by
    have h2 : √2 * √2 = (2 : ℝ) := Real.mul_self_sqrt (by norm_num)
    have h2' : √2 ≠ (0 : ℝ) := (Real.sqrt_pos.mpr (by norm_num)).ne'
    have h3' : √3 ≠ (0 : ℝ) := (Real.sqrt_pos.mpr (by norm_num)).ne'
    rw [Real.sqrt_div (by norm_num)]
    field_simp
    nlinarith
  rw [cellVolume, if_neg (by omega), if_neg (by omega)]
  unfold cell3
  split_ifs
  · rw [det3, abs_of_nonneg]
    · ring
    · nlinarith [mul_nonneg (mul_self_nonneg sep) h]
  · rw [det3]
    rw [← e23, abs_of_nonneg]
    · ring
    · have : 0 ≤ sep * sep * sep * (√3 / 2 * √(2 / 3)) := by positivity
      linarith

/-- C74, masses: a particle has the mass of a lattice cell, in the middle block with its density and separation and in the outer blocks with theirs. Shock tube and Rayleigh-Taylor layers. -/
theorem C74_equal_mass (d : Nat) (hd : d = 1 ∨ d = 2 ∨ d = 3) (lattice : Int) (hl : lattice = 0 ∨ lattice = 1 ∨ lattice = 2) (rho1 rho2 sep : ℝ) (h1 : 0 < rho1) (h2 : 0 < rho2) (hs : 0 ≤ sep) :
    (equalMass d lattice rho1 rho2 sep).1 = rho1 * cellVolume d lattice sep ∧ (equalMass d lattice rho1 rho2 sep).1 = rho2 * cellVolume d lattice (equalMass d lattice rho1 rho2 sep).2 := by
  have hq : 0 < rho1 / rho2 := div_pos h1 h2
  have hlat : ∀ a b : ℝ, (if lattice = 1 ∨ lattice = 2 then a else b) = if lattice = 0 then b else a := fun a b => by
    rcases hl with rfl | rfl | rfl <;> simp
  rcases hd with rfl | rfl | rfl
  · have e : equalMass 1 lattice rho1 rho2 sep = (rho1 * sep, rho1 * sep / rho2) := by simp [equalMass]
    rw [e]
    refine ⟨by rw [cellVolume_one _ _ hs], ?_⟩
    dsimp only
    rw [cellVolume_one _ _ (by positivity)]; field_simp
  · have e : equalMass 2 lattice rho1 rho2 sep = (rho1 * sep * sep * (if lattice = 1 ∨ lattice = 2 then √3 / 2 else 1), sep * √(rho1 / rho2)) := by simp [equalMass]
    rw [e, hlat]
    dsimp only
    rw [cellVolume_two, cellVolume_two]
    have := Real.mul_self_sqrt hq.le
    refine ⟨by ring, ?_⟩
    rw [show sep * √(rho1 / rho2) * (sep * √(rho1 / rho2)) = sep * sep * (√(rho1 / rho2) * √(rho1 / rho2)) by ring, this]
    field_simp
  · have e : equalMass 3 lattice rho1 rho2 sep = (rho1 * sep * sep * sep * (if lattice = 1 ∨ lattice = 2 then 1 / √2 else 1), sep * (rho1 / rho2) ^ (1 / 3 : ℝ)) := by simp [equalMass]
    rw [e, hlat]
    dsimp only
    have hc : (rho1 / rho2) ^ (1 / 3 : ℝ) * (rho1 / rho2) ^ (1 / 3 : ℝ) * (rho1 / rho2) ^ (1 / 3 : ℝ) = rho1 / rho2 := by
      rw [← Real.rpow_add hq, ← Real.rpow_add hq]; norm_num
    have hcp : 0 < (rho1 / rho2) ^ (1 / 3 : ℝ) := Real.rpow_pos_of_pos hq _
    rw [cellVolume_three _ _ hs, cellVolume_three _ _ (by positivity)]
    refine ⟨by ring, ?_⟩
    generalize (rho1 / rho2) ^ (1 / 3 : ℝ) = c at hc
    rw [show sep * c * (sep * c) * (sep * c) = sep * sep * sep * (c * c * c) by ring, hc]
    field_simp

/-- A tube of length 6 with separation 1: sites -1, 0 in the middle, 1, 2 at the right, -3, -2 at the left. -/
noncomputable def tube6 : Params := ⟨2, 1, 1, 1, 1, 1, 6, 1, 1, 0⟩

private theorem tube6_sites (pos : Nat → Pos) : ∃ s, sodSites tube6 1 5 0 1 1 pos = some (2, 4, s) ∧ s.posid = 6 := by
  simp only [sodSites, generate, if_true, generate1, loop, visit, inDomain1, bTol, tube6, cboxMin, cboxMax, rboxMin, rboxMax, lboxMin, lboxMax]
  norm_num [loop, visit, inDomain1, bTol]

/-- C74 fails for the shock tube with equal separations if blocks have another volume than 1: in a tube of length 6 the middle block of length 2 and density 1 gets the mass 1. -/
theorem C74_separation_violated (pos : Nat → Pos) : ∃ l, sodEqualSeparation tube6 1 1 5 0 1 pos = some l ∧ ((l.take 2).map fun q => q.2.mass).sum = 1 ∧
    (cboxMax tube6).x - (cboxMin tube6).x = 2 ∧ ∀ q ∈ l.take 2, q.2.rho = 1 ∧ inDomain1 (cboxMin tube6) (cboxMax tube6) q.1 := by
  obtain ⟨s, hs, hp⟩ := tube6_sites pos
  obtain ⟨a1, a2, a3, -⟩ := sites tube6 1 5 0 _ _ pos 2 4 s hs
  have ht : tube 1 = some ⟨1, 125 / 1000, 1, 1 / 10, 0, 0⟩ := by simp [tube]
  refine ⟨_, by simp only [sodEqualSeparation, ht, hs, Option.bind_eq_bind, Option.bind_some]; rfl, ?_, by norm_num [cboxMin, cboxMax, tube6], ?_⟩
  · rw [hp]
    simp [List.range_succ, sodBody, a3 0 (by omega), a3 1 (by omega)]
    norm_num
  · rw [hp]
    simp [List.range_succ, sodBody, a3 0 (by omega), a3 1 (by omega)]

/-- C74, Rayleigh-Taylor layers: both layers are in hydrostatic equilibrium under the acceleration `g` downwards, the pressure is continuous at the interface and has the given value at the top. -/
theorem C74_rt (P0 g rho1 rho2 ymin ymax : ℝ) (h0 : ymin = 0) :
    (∀ y, HasDerivAt (rtBottom P0 g rho1 rho2 ymin ymax) (-(rho1 * g)) y) ∧ (∀ y, HasDerivAt (rtTop P0 g rho2 ymax) (-(rho2 * g)) y) ∧
    rtBottom P0 g rho1 rho2 ymin ymax 0 = rtTop P0 g rho2 ymax 0 ∧ rtTop P0 g rho2 ymax ymax = P0 := by
  refine ⟨fun y => ?_, fun y => ?_, by rw [rtBottom, rtTop, h0]; ring, by rw [rtTop]; ring⟩
  · have := (((hasDerivAt_id y).const_mul rho1).const_sub (rho2 * (ymax - ymin))).const_mul g |>.const_add P0
    refine this.congr_deriv ?_
    ring
  · have := ((hasDerivAt_id y).const_sub ymax).const_mul (g * rho2) |>.const_add P0
    refine this.congr_deriv ?_
    ring

/-- C74, water column: hydrostatic equilibrium, and the energy of the ideal gas (also of the Rayleigh-Taylor layers). -/
theorem C74_fluid (P0 g rho gamma : ℝ) (hr : rho ≠ 0) (hg : gamma ≠ 1) : (∀ y, HasDerivAt (fluidPressure P0 g rho) (-(rho * g)) y) ∧ ∀ P, IdealGas gamma rho (uFromEos gamma rho P) P := by
  have hg' : gamma - 1 ≠ 0 := sub_ne_zero.mpr hg
  refine ⟨fun y => ?_, fun P => ?_⟩
  · have := ((hasDerivAt_id y).const_mul (rho * g)).const_sub P0
    refine this.congr_deriv ?_
    ring
  · simp only [IdealGas, uFromEos]; field_simp

/-- C74, Kelvin-Helmholtz layers in two dimensions: after the stretching a particle still has the mass of a lattice cell, in the middle block and, between sites on the same side, in the outer blocks. -/
theorem C74_kh_2d (lattice : Int) (hl : lattice = 0 ∨ lattice = 1 ∨ lattice = 2) (rhoM rhoT ratio sep sx y0 ys : ℝ) (hT : rhoM = rhoT * ratio) (hr : 0 < ratio) (hsx : 0 < sx) (hys : 0 ≤ ys)
    (p q1 q2 : Pos) :
    (span2 p q1 q2 = cellVolume 2 lattice sep → khMass 2 lattice rhoM sep ys 1 = rhoM * span2 (khMiddle ys 1 p) (khMiddle ys 1 q1) (khMiddle ys 1 q2)) ∧
    ((0 < p.y ∧ 0 < q1.y ∧ 0 < q2.y ∨ p.y ≤ 0 ∧ q1.y ≤ 0 ∧ q2.y ≤ 0) → span2 p q1 q2 = cellVolume 2 lattice (khOuterSep 2 ratio sep) →
      khMass 2 lattice rhoM sep ys 1 = rhoT * span2 (khOuter sx 1 y0 ys 1 p) (khOuter sx 1 y0 ys 1 q1) (khOuter sx 1 y0 ys 1 q2)) := by
  have hlat : ∀ a b : ℝ, (if lattice = 1 ∨ lattice = 2 then a else b) = if lattice = 0 then b else a := fun a b => by
    rcases hl with rfl | rfl | rfl <;> simp
  have hm : khMass 2 lattice rhoM sep ys 1 = rhoM * (cellVolume 2 lattice sep * ys) := by
    rw [khMass, if_neg (by omega), hlat, cellVolume_two]; ring
  have ho : cellVolume 2 lattice (khOuterSep 2 ratio sep) = ratio * cellVolume 2 lattice sep := by
    rw [khOuterSep, if_neg (by omega), cellVolume_two, cellVolume_two, show sep * √ratio * (sep * √ratio) = sep * sep * (√ratio * √ratio) by ring, Real.mul_self_sqrt hr.le]; ring
  refine ⟨fun h => ?_, fun hy h => ?_⟩
  · rw [hm, ← h]
    simp only [span2, khMiddle, Matrix.det_fin_two_of]
    rw [show (q1.x - p.x) * (q2.y * ys - p.y * ys) - (q1.y * ys - p.y * ys) * (q2.x - p.x) = ((q1.x - p.x) * (q2.y - p.y) - (q1.y - p.y) * (q2.x - p.x)) * ys by ring, abs_mul, abs_of_nonneg hys]
  · rw [hm, hT]
    have e : span2 (khOuter sx 1 y0 ys 1 p) (khOuter sx 1 y0 ys 1 q1) (khOuter sx 1 y0 ys 1 q2) = span2 p q1 q2 * ys := by
      simp only [span2, khOuter, Matrix.det_fin_two_of]
      rw [← abs_of_nonneg hys, ← abs_mul, abs_of_nonneg hys]
      congr 1
      rcases hy with ⟨a, b, c⟩ | ⟨a, b, c⟩
      · simp only [gt_iff_lt, a, b, c, if_true]; field_simp; ring
      · simp only [gt_iff_lt, not_lt.mpr a, not_lt.mpr b, not_lt.mpr c, if_false]; field_simp; ring
    rw [e, h, ho]; ring

/-- The same in three dimensions. -/
theorem C74_kh_3d (lattice : Int) (hl : lattice = 0 ∨ lattice = 1 ∨ lattice = 2) (rhoM rhoT ratio sep sx sz y0 ys zs : ℝ) (hT : rhoM = rhoT * ratio) (hr : 0 < ratio) (hs : 0 ≤ sep) (hsx : 0 < sx)
    (hsz : 0 < sz) (hys : 0 ≤ ys) (hzs : 0 ≤ zs) (p q1 q2 q3 : Pos) :
    (span3 p q1 q2 q3 = cellVolume 3 lattice sep → khMass 3 lattice rhoM sep ys zs = rhoM * span3 (khMiddle ys zs p) (khMiddle ys zs q1) (khMiddle ys zs q2) (khMiddle ys zs q3)) ∧
    ((0 < p.y ∧ 0 < q1.y ∧ 0 < q2.y ∧ 0 < q3.y ∨ p.y ≤ 0 ∧ q1.y ≤ 0 ∧ q2.y ≤ 0 ∧ q3.y ≤ 0) → span3 p q1 q2 q3 = cellVolume 3 lattice (khOuterSep 3 ratio sep) →
      khMass 3 lattice rhoM sep ys zs = rhoT * span3 (khOuter sx sz y0 ys zs p) (khOuter sx sz y0 ys zs q1) (khOuter sx sz y0 ys zs q2) (khOuter sx sz y0 ys zs q3)) := by
  have hlat : ∀ a b : ℝ, (if lattice = 1 ∨ lattice = 2 then a else b) = if lattice = 0 then b else a := fun a b => by
    rcases hl with rfl | rfl | rfl <;> simp
  have hm : khMass 3 lattice rhoM sep ys zs = rhoM * (cellVolume 3 lattice sep * (ys * zs)) := by
    rw [khMass, if_pos rfl, hlat, cellVolume_three _ _ hs]; ring
  have hc : ratio ^ (1 / 3 : ℝ) * ratio ^ (1 / 3 : ℝ) * ratio ^ (1 / 3 : ℝ) = ratio := by
    rw [← Real.rpow_add hr, ← Real.rpow_add hr]; norm_num
  have hcp : 0 < ratio ^ (1 / 3 : ℝ) := Real.rpow_pos_of_pos hr _
  have ho : cellVolume 3 lattice (khOuterSep 3 ratio sep) = ratio * cellVolume 3 lattice sep := by
    rw [khOuterSep, if_pos rfl, cellVolume_three _ _ hs, cellVolume_three _ _ (by positivity)]
    generalize ratio ^ (1 / 3 : ℝ) = c at hc
    rw [show sep * c * (sep * c) * (sep * c) = sep * sep * sep * (c * c * c) by ring, hc]; ring
  have hyz : 0 ≤ ys * zs := mul_nonneg hys hzs
  refine ⟨fun h => ?_, fun hy h => ?_⟩
  · rw [hm, ← h]
    simp only [span3, khMiddle, det3]
    rw [← abs_of_nonneg hyz, ← abs_mul]
    congr 2; ring
  · rw [hm, hT]
    have e : span3 (khOuter sx sz y0 ys zs p) (khOuter sx sz y0 ys zs q1) (khOuter sx sz y0 ys zs q2) (khOuter sx sz y0 ys zs q3) = span3 p q1 q2 q3 * (ys * zs) := by
      simp only [span3, khOuter, det3]
      rw [← abs_of_nonneg hyz, ← abs_mul]
      congr 1
      rcases hy with ⟨a, b, c, e⟩ | ⟨a, b, c, e⟩
      · simp only [gt_iff_lt, a, b, c, e, if_true]; field_simp; ring
      · simp only [gt_iff_lt, not_lt.mpr a, not_lt.mpr b, not_lt.mpr c, not_lt.mpr e, if_false]; field_simp; ring
    rw [e, h, ho]; ring

/-- The hypotheses of `C74_sod_states` are met: a tube of length 6 with separation 1 and equal densities. -/
example : ∃ l, sodEqualMass tube6 2 1 5 0 1 (fun _ => ⟨0, 0, 0⟩) = some l ∧ l.length = 6 := by
  obtain ⟨s, hs, hp⟩ := tube6_sites fun _ => ⟨0, 0, 0⟩
  have ht : tube 2 = some ⟨1, 1, 4 / 10, 4 / 10, -2, 2⟩ := by simp [tube]
  refine ⟨_, by simp only [sodEqualMass, ht, equalMass, if_true, mul_one, div_one, hs, Option.bind_eq_bind, Option.bind_some]; rfl, by simp [hp]⟩

/-- A cell of the middle block of a Kelvin-Helmholtz run. -/
example : span2 ⟨0, 0, 0⟩ ⟨1, 0, 0⟩ ⟨0, 1, 0⟩ = cellVolume 2 0 1 := by
  rw [cellVolume_two]; simp [span2, Matrix.det_fin_two_of]

end FleCSPH.IdGen
