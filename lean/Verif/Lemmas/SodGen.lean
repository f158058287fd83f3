import Verif.Lemmas.Lattice
import Verif.Model.SodGen
import Verif.Spec.TubeCells
/-! Lemmas for the generator of shock tubes. -/
namespace FleCSPH.SodGen
noncomputable section
open FleCSPH.Lattice FleCSPH.IdGen Classical

/-- What filling a block with `n` particles does. -/
def after (c : Bool) (lo sep : ℝ) (n : ℕ) (st : Lattice.State) : Lattice.State :=
  ⟨st.posid + n, fun k => if c = false ∧ st.posid ≤ k ∧ k < st.posid + n then pt (lo + ((k - st.posid : ℕ) : ℝ) * sep) else st.pos k⟩

/-- A block takes `n` particles: these and no more are before its end. -/
def Takes (lo hi sep : ℝ) (n : ℕ) : Prop := lo ≤ hi ∧ 0 < sep ∧ (∀ i < n, lo + (i : ℝ) * sep < hi - bTol * (hi - lo)) ∧ hi - bTol * (hi - lo) ≤ lo + n * sep

theorem fill_eq {lo hi sep : ℝ} {n : ℕ} (h : Takes lo hi sep n) (fuel : ℕ) (hf : ticks hi sep lo < fuel) (c : Bool) (st : Lattice.State) : fill fuel c lo hi sep st = some (after c lo sep n st) := by
  obtain ⟨hw, hs, h1, h2⟩ := h
  have htol : 0 ≤ bTol * (hi - lo) := mul_nonneg (by norm_num [bTol]) (by linarith)
  have key : fill fuel c lo hi sep st = some (((List.range (ticks hi sep lo)).map fun i : ℕ => pt (lo + i * sep)).foldl (fun st p => visit c (inDomain1 (pt lo) (pt hi)) p st) st) := by
    rw [List.foldl_map]
    exact loop_eq hi sep hs id _ (fun x _ st => visit c (inDomain1 (pt lo) (pt hi)) ⟨x, 0, 0⟩ st) fuel lo 0 st hf fun i st => rfl
  have hn : n ≤ ticks hi sep lo := by
    rcases Nat.eq_zero_or_pos n with h0 | h0
    · omega
    · have := (lt_ticks hi sep lo hs (n - 1)).2 (by have := h1 (n - 1) (by omega); linarith)
      omega
  have hfil : (((List.range (ticks hi sep lo)).map fun i : ℕ => pt (lo + i * sep)).filter fun p => decide (inDomain1 (pt lo) (pt hi) p)) = (List.range n).map fun i : ℕ => pt (lo + i * sep) := by
    obtain ⟨e, he⟩ := Nat.exists_eq_add_of_le hn
    rw [he, List.range_add, List.map_append, List.filter_append, List.filter_eq_self.2, List.filter_eq_nil_iff.2, List.append_nil]
    · intro p hp
      simp only [List.mem_map, List.mem_range] at hp
      obtain ⟨_, ⟨i, -, rfl⟩, rfl⟩ := hp
      simp only [decide_eq_true_eq]
      rintro ⟨-, h⟩
      have h' : lo + ((n + i : ℕ) : ℝ) * sep < hi - bTol * (hi - lo) := h
      have : (0 : ℝ) ≤ i * sep := by positivity
      push_cast at h'
      linarith
    · intro p hp
      simp only [List.mem_map, List.mem_range] at hp
      obtain ⟨i, hi', rfl⟩ := hp
      refine decide_eq_true ⟨?_, h1 i hi'⟩
      show lo + i * sep > lo - bTol * (hi - lo)
      by_cases h0 : lo = hi
      · have h3 := h1 i hi'
        have : (0 : ℝ) ≤ i * sep := by positivity
        rw [h0] at h3 ⊢
        linarith
      · have : 0 < bTol * (hi - lo) := mul_pos (by norm_num [bTol]) (sub_pos.2 (lt_of_le_of_ne hw h0))
        have : (0 : ℝ) ≤ i * sep := by positivity
        linarith
  rw [key]
  congr 1
  have hv := visits c (inDomain1 (pt lo) (pt hi)) ((List.range (ticks hi sep lo)).map fun i : ℕ => pt (lo + i * sep)) st
  rw [hfil] at hv
  have e1 := hv.1
  have e2 := hv.2
  rw [List.length_map, List.length_range] at e1
  generalize List.foldl _ st _ = s at e1 e2
  obtain ⟨q, pos⟩ := s
  simp only [after, Lattice.State.mk.injEq]
  refine ⟨e1, funext fun k => ?_⟩
  rw [show pos k = _ from e2 k]
  cases c with
  | true => simp
  | false =>
    simp only [Bool.false_eq_true, if_false, true_and]
    by_cases a1 : k < st.posid
    · rw [if_pos a1, if_neg (by omega)]
    · rw [if_neg a1]
      by_cases a2 : k < st.posid + n
      · rw [if_pos (by omega), List.getElem?_map, List.getElem?_range (by omega)]; rfl
      · rw [if_neg (by omega), List.getElem?_eq_none (by rw [List.length_map, List.length_range]; omega)]; rfl

theorem count_eq {lo hi sep : ℝ} {n : ℕ} (h : Takes lo hi sep n) (fuel : ℕ) (hf : ticks hi sep lo < fuel) (posid : ℕ) : count fuel lo hi sep posid = some n := by
  rw [count, fill_eq h fuel hf]
  simp [after]

/-- Enough rounds for all loops. -/
def enough (b : Blocks) (sep lrsep : ℝ) : ℕ := ticks b.cmax sep b.cmin + ticks b.rmax lrsep b.rmin + ticks b.lmax lrsep b.lmin + 1

/-- All three blocks. -/
structure Fits (b : Blocks) (sep lrsep : ℝ) (nc n : ℕ) : Prop where
  mid : Takes b.cmin b.cmax sep nc
  right : Takes b.rmin b.rmax lrsep n
  left : Takes b.lmin b.lmax lrsep n

theorem Fits.counted {b : Blocks} {sep lrsep : ℝ} {nc n : ℕ} (h : Fits b sep lrsep nc n) (fuel : ℕ) (hf : enough b sep lrsep ≤ fuel) (e : Bool) :
    SodGen.counted fuel e b sep lrsep = some (nc + n + n, nc, n) := by
  unfold enough at hf
  simp only [SodGen.counted, count_eq h.mid fuel (by omega), count_eq h.right fuel (by omega), count_eq h.left fuel (by omega), Option.bind_eq_bind, Option.bind_some]
  rfl

/-- The position of a particle. -/
def place (b : Blocks) (sep lrsep : ℝ) (nc n k : ℕ) : ℝ :=
  if k < nc then b.cmin + (k : ℝ) * sep else if k < nc + n then b.rmin + ((k - nc : ℕ) : ℝ) * lrsep else b.lmin + ((k - (nc + n) : ℕ) : ℝ) * lrsep

theorem Fits.filled {b : Blocks} {sep lrsep : ℝ} {nc n : ℕ} (h : Fits b sep lrsep nc n) (fuel : ℕ) (hf : enough b sep lrsep ≤ fuel) :
    ∃ s : Lattice.State, SodGen.filled fuel (nc + n + n) b sep lrsep = some s ∧ s.posid = nc + n + n ∧ ∀ k < nc + n + n, s.pos k = pt (place b sep lrsep nc n k) := by
  unfold enough at hf
  refine ⟨after false b.lmin lrsep n (after false b.rmin lrsep n (after false b.cmin sep nc ⟨0, fun _ => pt 0⟩)), ?_, ?_, ?_⟩
  · simp only [SodGen.filled, fill_eq h.mid fuel (by omega), fill_eq h.right fuel (by omega), fill_eq h.left fuel (by omega), Option.bind_eq_bind, Option.bind_some]
    rw [if_pos (by simp [after])]
    rfl
  · simp [after]
  · intro k hk
    simp only [after, Nat.zero_add, true_and, Nat.zero_le, place, Nat.sub_zero]
    by_cases h1 : k < nc
    · rw [if_neg (by omega), if_neg (by omega), if_pos h1, if_pos h1]
    · by_cases h2 : k < nc + n
      · rw [if_neg (by omega), if_pos (by omega), if_neg h1, if_pos h2]
      · rw [if_pos (by omega), if_neg h1, if_neg h2]

/-- The tests. -/
theorem tube_states {test : Int} {t : Tube} (h : tube test = some t) : 0 < t.rho2 ∧ t.rho2 ≤ t.rho1 ∧ 0 < t.P1 ∧ 0 < t.P2 ∧ ∃ k : ℕ, 1 ≤ k ∧ k ≤ 6 ∧ test = k ∧ TubeCells.states k = (⟨t.v1, t.rho1, t.P1⟩, ⟨t.v2, t.rho2, t.P2⟩) := by
  unfold tube at h
  split_ifs at h with h1 h2 h3 h4 h5 h6
  · cases h; exact ⟨by norm_num, by norm_num, by norm_num, by norm_num, 1, by norm_num, by norm_num, h1, by norm_num [TubeCells.states]⟩
  · cases h; exact ⟨by norm_num, by norm_num, by norm_num, by norm_num, 2, by norm_num, by norm_num, h2, by norm_num [TubeCells.states]⟩
  · cases h; exact ⟨by norm_num, by norm_num, by norm_num, by norm_num, 3, by norm_num, by norm_num, h3, by norm_num [TubeCells.states]⟩
  · cases h; exact ⟨by norm_num, by norm_num, by norm_num, by norm_num, 4, by norm_num, by norm_num, h4, by norm_num [TubeCells.states]⟩
  · cases h; exact ⟨by norm_num, by norm_num, by norm_num, by norm_num, 5, by norm_num, by norm_num, h5, by norm_num [TubeCells.states]⟩
  · cases h; exact ⟨by norm_num, by norm_num, by norm_num, by norm_num, 6, by norm_num, by norm_num, h6, by norm_num [TubeCells.states]⟩

theorem tube_exists {test : Int} (h1 : 1 ≤ test) (h2 : test ≤ 6) : ∃ t, tube test = some t := by
  unfold tube
  have : test = 1 ∨ test = 2 ∨ test = 3 ∨ test = 4 ∨ test = 5 ∨ test = 6 := by omega
  rcases this with h | h | h | h | h | h <;> subst h <;> simp

/-- The cell a point is in. -/
theorem cell_index {lo s x : ℝ} {n : ℕ} (hs : 0 < s) (h1 : lo ≤ x) (h2 : x < lo + n * s) :
    ∃ i < n, (lo + (i : ℝ) * s ≤ x ∧ x < lo + i * s + s) ∧ ∀ j : ℕ, lo + (j : ℝ) * s ≤ x → x < lo + j * s + s → j = i := by
  have h0 : 0 ≤ (x - lo) / s := div_nonneg (by linarith) hs.le
  refine ⟨⌊(x - lo) / s⌋₊, ?_, ⟨?_, ?_⟩, fun j a1 a2 => ?_⟩
  · rw [Nat.floor_lt h0, div_lt_iff₀ hs]; linarith
  · have := Nat.floor_le h0
    rw [le_div_iff₀ hs] at this; linarith
  · have := Nat.lt_floor_add_one ((x - lo) / s)
    rw [div_lt_iff₀ hs] at this; linarith
  · symm
    rw [Nat.floor_eq_iff h0, le_div_iff₀ hs, div_lt_iff₀ hs]
    constructor <;> linarith

end
end FleCSPH.SodGen
