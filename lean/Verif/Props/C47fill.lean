import Verif.Props.C47
/-! C47, completeness: the generators leave out no site of the lattice inside of the domain. -/
namespace FleCSPH
open Lattice
open Classical

namespace Lattice

theorem writes_of {ι : Type} (l : List ι) (P : ι → Pos) (dom : Pos → Prop) (gen : Bool → State → Option State)
    (hgen : ∀ c st, gen c st = some (l.foldl (fun st t => visit c dom (P t) st) st)) (t : ι) (ht : t ∈ l) (hd : dom (P t)) : Writes gen (P t) := by
  intro st
  have hg : gen false st = some ((l.map P).foldl (fun st p => visit false dom p st) st) := by rw [hgen, List.foldl_map]
  refine ⟨_, hg, ?_⟩
  obtain ⟨v1, v2⟩ := visits false dom (l.map P) st
  have hm : P t ∈ (l.map P).filter (fun p => decide (dom p)) := List.mem_filter.2 ⟨List.mem_map.2 ⟨t, ht, rfl⟩, by simpa using hd⟩
  obtain ⟨k, hk, hkk⟩ := List.mem_iff_getElem.1 hm
  refine ⟨st.posid + k, by omega, by omega, ?_⟩
  rw [v2]
  simp only [Bool.false_eq_true, if_false]
  rw [if_neg (by omega), Nat.add_sub_cancel_left, List.getElem?_eq_getElem hk, Option.getD_some, hkk]

theorem inDomain2_of (domain : Int) (lo hi p : Pos) (h : Inner2 lo hi p) (hb : domain = 1 → movedBall2 lo hi p) : inDomain2 domain lo hi p := by
  obtain ⟨⟨a1, a2⟩, a3, a4⟩ := h
  refine ⟨?_, fun hd => ?_⟩
  · dsimp only [bTol]
    refine ⟨?_, ?_, ?_, ?_⟩ <;> linarith
  · have := hb hd
    unfold movedBall2 at this
    dsimp only [bTol]
    rw [show hi.x - 1 / 1000000 * (hi.x - lo.x) - (lo.x - 1 / 1000000 * (hi.x - lo.x)) = hi.x - lo.x by ring,
      show hi.y - 1 / 1000000 * (hi.x - lo.x) - (lo.y - 1 / 1000000 * (hi.x - lo.x)) = hi.y - lo.y by ring]
    generalize min (hi.x - lo.x) (hi.y - lo.y) = m at this ⊢
    nlinarith [this]

theorem inDomain3_of (domain : Int) (lo hi p : Pos) (h : Inner3 lo hi p) (hb : domain = 1 → movedBall3 lo hi p) : inDomain3 domain lo hi p := by
  obtain ⟨⟨⟨a1, a2⟩, a3, a4⟩, a5, a6⟩ := h
  refine ⟨?_, fun hd => ?_⟩
  · dsimp only [bTol]
    refine ⟨?_, ?_, ?_, ?_, ?_, ?_⟩ <;> linarith
  · have := hb hd
    unfold movedBall3 at this
    dsimp only [bTol]
    rw [show hi.x - 1 / 1000000 * (hi.x - lo.x) - (lo.x - 1 / 1000000 * (hi.x - lo.x)) = hi.x - lo.x by ring,
      show hi.y - 1 / 1000000 * (hi.x - lo.x) - (lo.y - 1 / 1000000 * (hi.x - lo.x)) = hi.y - lo.y by ring,
      show hi.z - 1 / 1000000 * (hi.x - lo.x) - (lo.z - 1 / 1000000 * (hi.x - lo.x)) = hi.z - lo.z by ring]
    generalize min (min (hi.x - lo.x) (hi.y - lo.y)) (hi.z - lo.z) = m at this ⊢
    nlinarith [this]

theorem half_eq (j : Nat) : (if j % 2 = 1 then 1 / 2 else 0 : ℝ) = ((j % 2 : ℕ) : ℝ) / 2 := by
  rcases Nat.mod_two_eq_zero_or_one j with h | h <;> simp [h]

end Lattice

/-- One dimension: all multiples of the separation from the lower end on. -/
theorem C47_fill_1d (lo hi : Pos) (sep : ℝ) (hs : 0 < sep) : ∃ fuel0, ∀ fuel ≥ fuel0, ∀ i : ℕ,
    Inner1 lo hi ⟨lo.x + i * sep, 0, 0⟩ → Writes (fun c => generate1 fuel c lo hi sep) ⟨lo.x + i * sep, 0, 0⟩ := by
  refine ⟨ticks hi.x sep lo.x + 1, fun fuel hf i h => ?_⟩
  obtain ⟨h1, h2⟩ := h
  dsimp only at h1 h2
  refine writes_of (List.range (ticks hi.x sep lo.x)) (fun i : ℕ => ⟨lo.x + i * sep, 0, 0⟩) (inDomain1 lo hi) _ ?_ i ?_ ?_
  · intro c st
    exact loop_eq hi.x sep hs id _ (fun x _ st => visit c (inDomain1 lo hi) ⟨x, 0, 0⟩ st) fuel lo.x 0 st (by omega) fun _ _ => rfl
  · rw [List.mem_range, lt_ticks _ _ _ hs]
    linarith
  · dsimp only [inDomain1, bTol]
    constructor <;> linarith

/-- Two dimensions, rectangular lattice. -/
theorem C47_fill_2d_rectangular (domain : Int) (lo hi : Pos) (sep : ℝ) (hs : 0 < sep) : ∃ fuel0, ∀ fuel ≥ fuel0, ∀ i j : ℕ,
    Inner2 lo hi ⟨lo.x + i * sep, lo.y + j * sep, 0⟩ → (domain = 1 → movedBall2 lo hi ⟨lo.x + i * sep, lo.y + j * sep, 0⟩) →
    Writes (fun c => generate2 fuel c 0 domain lo hi sep) ⟨lo.x + i * sep, lo.y + j * sep, 0⟩ := by
  refine ⟨ticks hi.y sep lo.y + ticks hi.x sep lo.x + 1, fun fuel hf i j h hb => ?_⟩
  have hd := inDomain2_of domain lo hi _ h hb
  obtain ⟨⟨h1, h2⟩, h3, h4⟩ := h
  dsimp only at h1 h2 h3 h4
  refine writes_of (indices 1 (fun _ => ticks hi.y sep lo.y) (fun _ _ => ticks hi.x sep lo.x))
    (fun t => ⟨lo.x + t.2.2 * sep, lo.y + t.2.1 * sep, 0⟩) (inDomain2 domain lo hi) _ ?_ (0, j, i) ?_ hd
  · intro c st
    rw [← fold_indices 1 _ _ (fun _ j i st => visit c (inDomain2 domain lo hi) ⟨lo.x + i * sep, lo.y + j * sep, 0⟩ st)]
    simp only [generate2, if_true]
    rw [loop2_eq hi.x hi.y sep sep hs hs id (fun _ => lo.x) (fun x y st => visit c (inDomain2 domain lo hi) ⟨x, y, 0⟩ st) fuel lo.y 0 st (by omega) (fun _ => by omega)]
    simp
  · rw [mem_indices, lt_ticks _ _ _ hs, lt_ticks _ _ _ hs]
    refine ⟨one_pos, ?_, ?_⟩ <;> linarith

/-- Two dimensions, triangular lattice. -/
theorem C47_fill_2d_triangular (lattice domain : Int) (hl : lattice ≠ 0) (lo hi : Pos) (sep : ℝ) (hs : 0 < sep) : ∃ fuel0, ∀ fuel ≥ fuel0, ∀ i j : ℕ,
    Inner2 lo hi (triangularSite lo sep i j) → (domain = 1 → movedBall2 lo hi (triangularSite lo sep i j)) →
    Writes (fun c => generate2 fuel c lattice domain lo hi sep) (triangularSite lo sep i j) := by
  have hdy : 0 < sep * √3 / 2 := by positivity
  refine ⟨ticks hi.y (sep * √3 / 2) lo.y + ticks hi.x sep lo.x + 1, fun fuel hf i j h hb => ?_⟩
  have hsx : ∀ j : Nat, lo.x ≤ lo.x + ((j % 2 : ℕ) : ℝ) * sep / 2 := by
    intro j
    have : (0 : ℝ) ≤ ((j % 2 : ℕ) : ℝ) * sep / 2 := by positivity
    linarith
  have e : triangularSite lo sep i j = ⟨lo.x + ((j % 2 : ℕ) : ℝ) * sep / 2 + i * sep, lo.y + j * (sep * √3 / 2), 0⟩ := by
    unfold triangularSite
    rw [half_eq]
    congr 1 <;> ring
  rw [e] at h hb ⊢
  have hd := inDomain2_of domain lo hi _ h hb
  obtain ⟨⟨h1, h2⟩, h3, h4⟩ := h
  dsimp only at h1 h2 h3 h4
  have hw : lo.x < hi.x := by linarith [hsx j]
  refine writes_of (indices 1 (fun _ => ticks hi.y (sep * √3 / 2) lo.y) (fun _ j => ticks hi.x sep (lo.x + ((j % 2 : ℕ) : ℝ) * sep / 2)))
    (fun t => ⟨lo.x + ((t.2.1 % 2 : ℕ) : ℝ) * sep / 2 + t.2.2 * sep, lo.y + t.2.1 * (sep * √3 / 2), 0⟩) (inDomain2 domain lo hi) _ ?_ (0, j, i) ?_ hd
  · intro c st
    rw [← fold_indices 1 _ _ (fun _ j i st => visit c (inDomain2 domain lo hi)
      ⟨lo.x + ((j % 2 : ℕ) : ℝ) * sep / 2 + i * sep, lo.y + j * (sep * √3 / 2), 0⟩ st)]
    simp only [generate2, if_neg hl]
    rw [loop2_eq hi.x hi.y sep (sep * √3 / 2) hs hdy flip (fun yo => lo.x + yo * sep / 2) (fun x y st => visit c (inDomain2 domain lo hi) ⟨x, y, 0⟩ st) fuel lo.y 0 st
      (by omega) (fun j => by rw [flip_iter]; have := ticks_anti hi.x sep _ _ hs (hsx j); omega)]
    simp only [flip_iter, List.range_one, List.foldl_cons, List.foldl_nil]
  · rw [mem_indices, lt_ticks _ _ _ hdy, lt_ticks _ _ _ hs]
    refine ⟨one_pos, ?_, ?_⟩ <;> linarith

/-- Three dimensions, rectangular lattice. -/
theorem C47_fill_3d_rectangular (domain : Int) (lo hi : Pos) (sep : ℝ) (hs : 0 < sep) : ∃ fuel0, ∀ fuel ≥ fuel0, ∀ i j l : ℕ,
    Inner3 lo hi ⟨lo.x + i * sep, lo.y + j * sep, lo.z + l * sep⟩ → (domain = 1 → movedBall3 lo hi ⟨lo.x + i * sep, lo.y + j * sep, lo.z + l * sep⟩) →
    Writes (fun c => generate3 fuel c 0 domain lo hi sep) ⟨lo.x + i * sep, lo.y + j * sep, lo.z + l * sep⟩ := by
  refine ⟨ticks hi.z sep lo.z + ticks hi.y sep lo.y + ticks hi.x sep lo.x + 1, fun fuel hf i j l h hb => ?_⟩
  have hd := inDomain3_of domain lo hi _ h hb
  obtain ⟨⟨⟨h1, h2⟩, h3, h4⟩, h5, h6⟩ := h
  dsimp only at h1 h2 h3 h4 h5 h6
  have h0 : (0 : ℝ) ≤ i * sep := by positivity
  refine writes_of (indices (ticks hi.z sep lo.z) (fun _ => ticks hi.y sep lo.y) (fun _ _ => ticks hi.x sep lo.x))
    (fun t => ⟨lo.x + t.2.2 * sep, lo.y + t.2.1 * sep, lo.z + t.1 * sep⟩) (inDomain3 domain lo hi) _ ?_ (l, j, i) ?_ hd
  · intro c st
    rw [← fold_indices _ _ _ (fun l j i st => visit c (inDomain3 domain lo hi) ⟨lo.x + i * sep, lo.y + j * sep, lo.z + l * sep⟩ st)]
    simp only [generate3, if_true]
    rw [loop3_eq hi.x hi.y hi.z sep sep sep hs hs hs id id (fun _ => lo.y) (fun _ _ => lo.x) (fun x y z st => visit c (inDomain3 domain lo hi) ⟨x, y, z⟩ st) fuel lo.z 0 0 st
      (by omega) (fun _ => by omega) (fun _ _ => by omega)]
  · rw [mem_indices, lt_ticks _ _ _ hs, lt_ticks _ _ _ hs, lt_ticks _ _ _ hs]
    refine ⟨?_, ?_, ?_⟩ <;> linarith

namespace Lattice

theorem stackedSite_eq (s : ℕ → ℕ) (lo : Pos) (sep : ℝ) (i j l : ℕ) : stackedSite s lo sep i j l = stackPos s lo sep (l, j, i) := by
  unfold stackedSite stackPos
  rw [half_eq]
  congr 1 <;> ring

theorem stack_writes (φ : Nat → Nat) (hφ : ∀ l, φ l ≤ 3) (next : ℝ → ℝ) (hnext : ∀ l : Nat, next^[l] 0 = (φ l : ℝ)) (domain : Int) (lo hi : Pos) (sep : ℝ) (hs : 0 < sep)
    (fuel : Nat) (hf : fuel ≥ ticks hi.z (sep * √(2 / 3)) lo.z + ticks hi.y (sep * √3 / 2) (lo.y - sep * √3 / 2) + ticks hi.x sep (lo.x - 2 * sep) + 1) (i j l : ℕ)
    (h : Inner3 lo hi (stackedSite φ lo sep i j l)) (hb : domain = 1 → movedBall3 lo hi (stackedSite φ lo sep i j l)) :
    Writes (fun c st => loop fuel hi.z (sep * √(2 / 3)) next (fun z zo => loop fuel hi.y (sep * √3 / 2) flip (fun y yo =>
        loop fuel hi.x sep id (fun x _ st => some (visit c (inDomain3 domain lo hi) ⟨x, y, z⟩ st)) (lo.x + (yo - zo) * sep / 2) 0)
          (lo.y - zo * (sep * √3 / 2) / 3) 0) lo.z 0 st) (stackedSite φ lo sep i j l) := by
  have hd := inDomain3_of domain lo hi _ h hb
  rw [stackedSite_eq] at h hd ⊢
  refine writes_of (stackIdx φ lo hi sep) (stackPos φ lo sep) (inDomain3 domain lo hi) _
    (fun c st => stack_fold c (inDomain3 domain lo hi) φ hφ next hnext lo hi sep hs fuel hf st) (l, j, i) ?_ hd
  rw [stack_mem φ lo hi sep hs]
  obtain ⟨⟨⟨h1, h2⟩, h3, h4⟩, h5, h6⟩ := h
  refine ⟨?_, ?_, ?_⟩ <;> linarith

end Lattice

/-- Three dimensions, hexagonal close packing: layers alternate. -/
theorem C47_fill_3d_hcp (domain : Int) (lo hi : Pos) (sep : ℝ) (hs : 0 < sep) : ∃ fuel0, ∀ fuel ≥ fuel0, ∀ i j l : ℕ,
    Inner3 lo hi (stackedSite (· % 2) lo sep i j l) → (domain = 1 → movedBall3 lo hi (stackedSite (· % 2) lo sep i j l)) →
    Writes (fun c => generate3 fuel c 1 domain lo hi sep) (stackedSite (· % 2) lo sep i j l) :=
  ⟨_, fun fuel hf i j l h hb => stack_writes (· % 2) (fun l => by omega) flip flip_iter domain lo hi sep hs fuel hf i j l h hb⟩

/-- Three dimensions, what the code generates for face-centred cubic packing: the shifts repeat after four layers (instead of three, see `C47_3d_fcc_violated`). -/
theorem C47_fill_3d_fcc_partial (domain : Int) (lo hi : Pos) (sep : ℝ) (hs : 0 < sep) : ∃ fuel0, ∀ fuel ≥ fuel0, ∀ i j l : ℕ,
    Inner3 lo hi (stackedSite (· % 4) lo sep i j l) → (domain = 1 → movedBall3 lo hi (stackedSite (· % 4) lo sep i j l)) →
    Writes (fun c => generate3 fuel c 2 domain lo hi sep) (stackedSite (· % 4) lo sep i j l) :=
  ⟨_, fun fuel hf i j l h hb => stack_writes (· % 4) (fun l => by omega) cycle cycle_iter domain lo hi sep hs fuel hf i j l h hb⟩

/-- Sites inside: the unit cube with separation 1/2 has the sites at 1/2, in each lattice. -/
example : Inner3 ⟨0, 0, 0⟩ ⟨1, 1, 1⟩ ⟨0 + (1 : ℕ) * (1 / 2), 0 + (1 : ℕ) * (1 / 2), 0 + (1 : ℕ) * (1 / 2)⟩ := by
  unfold Inner3 Inner2 Inner1; norm_num

example : Inner3 ⟨0, 0, 0⟩ ⟨1, 1, 1⟩ (stackedSite (· % 2) ⟨0, 0, 0⟩ (1 / 2) 1 0 0) := by
  unfold Inner3 Inner2 Inner1 stackedSite; norm_num

example : Inner2 ⟨0, 0, 0⟩ ⟨1, 1, 1⟩ (triangularSite ⟨0, 0, 0⟩ (1 / 2) 1 0) := by
  unfold Inner2 Inner1 triangularSite; norm_num

end FleCSPH
