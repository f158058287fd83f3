import Verif.Lemmas.Lattice
import Verif.Spec.Lattice
/-!
C47: every generated position lies in the requested domain, distinct particles are at least the separation apart, and the counting pass returns the number of particles
the generation pass writes.
-/
namespace FleCSPH
open Lattice
open Classical

namespace Lattice

theorem generates_of {ι : Type} (l : List ι) (hn : l.Nodup) (P : ι → Pos) (dom : Pos → Prop) (gen : Bool → State → Option State)
    (hgen : ∀ c st, gen c st = some (l.foldl (fun st t => visit c dom (P t) st) st)) (inside : Pos → Prop) (hin : ∀ t ∈ l, dom (P t) → inside (P t))
    (apart : Pos → Pos → Prop) (hap : ∀ t ∈ l, ∀ t' ∈ l, t ≠ t' → apart (P t) (P t')) : Generates gen inside apart := by
  have hg : ∀ c st, gen c st = some ((l.map P).foldl (fun st p => visit c dom p st) st) := fun c st => by rw [hgen, List.foldl_map]
  obtain ⟨l', hl'⟩ : ∃ l', l' = l.filter fun t => decide (dom (P t)) := ⟨_, rfl⟩
  have hgood : (l.map P).filter (fun p => decide (dom p)) = l'.map P := by rw [List.filter_map, hl']; rfl
  have hl'n : l'.Nodup := by rw [hl']; exact hn.filter _
  refine ⟨l'.length, fun st => ⟨⟨_, hg true st, ?_, ?_⟩, _, hg false st, ?_, ?_, ?_, ?_⟩⟩
  · rw [(visits true dom _ st).1, hgood, List.length_map]
  · funext k
    rw [(visits true dom _ st).2 k]; simp
  · rw [(visits false dom _ st).1, hgood, List.length_map]
  · intro k hk
    rw [(visits false dom _ st).2 k, hgood]
    simp only [Bool.false_eq_true, if_false]
    rcases hk with hk | hk
    · rw [if_pos hk]
    · rw [if_neg (by omega), List.getElem?_eq_none (by rw [List.length_map]; omega)]; rfl
  · intro k hk
    rw [(visits false dom _ st).2, hgood]
    simp only [Bool.false_eq_true, if_false]
    rw [if_neg (by omega), Nat.add_sub_cancel_left, List.getElem?_eq_getElem (by rw [List.length_map]; exact hk), Option.getD_some, List.getElem_map]
    have hm : l'[k] ∈ l' := List.getElem_mem hk
    generalize l'[k] = t at hm
    rw [hl', List.mem_filter] at hm
    exact hin _ hm.1 (by simpa using hm.2)
  · intro k hk k' hk' hkk
    rw [(visits false dom _ st).2, (visits false dom _ st).2, hgood]
    simp only [Bool.false_eq_true, if_false]
    rw [if_neg (by omega), if_neg (by omega), Nat.add_sub_cancel_left, Nat.add_sub_cancel_left, List.getElem?_eq_getElem (by rw [List.length_map]; exact hk),
      List.getElem?_eq_getElem (by rw [List.length_map]; exact hk'), Option.getD_some, Option.getD_some, List.getElem_map, List.getElem_map]
    have hne : l'[k] ≠ l'[k'] := fun h => hkk ((List.Nodup.getElem_inj_iff hl'n).1 h)
    have hm : l'[k] ∈ l' := List.getElem_mem hk
    have hm' : l'[k'] ∈ l' := List.getElem_mem hk'
    generalize l'[k] = t at hm hne ⊢
    generalize l'[k'] = t' at hm' hne ⊢
    rw [hl', List.mem_filter] at hm hm'
    exact hap _ hm.1 _ hm'.1 hne

theorem one_le_sq {a : ℤ} (h : a ≠ 0) : 1 ≤ a ^ 2 := by
  have : 0 < a ^ 2 := by positivity
  omega

theorem triangular (A B : ℤ) (h : A % 2 = B % 2) (h0 : ¬(A = 0 ∧ B = 0)) : 4 ≤ A ^ 2 + 3 * B ^ 2 := by
  have hB : B ≤ -2 ∨ B = -1 ∨ B = 0 ∨ B = 1 ∨ 2 ≤ B := by omega
  have hA : A ≤ -2 ∨ A = -1 ∨ A = 0 ∨ A = 1 ∨ 2 ≤ A := by omega
  rcases hB with hB | rfl | rfl | rfl | hB
  · nlinarith [sq_nonneg A]
  · have : A ≠ 0 := by omega
    have := one_le_sq this
    omega
  · rcases hA with hA | rfl | rfl | rfl | hA
    · nlinarith
    · omega
    · omega
    · omega
    · nlinarith
  · have : A ≠ 0 := by omega
    have := one_le_sq this
    omega
  · nlinarith [sq_nonneg A]

/-- Neighbouring layers shifted by one position. -/
theorem stacked (A B a b s : ℤ) (hs : s = 1 ∨ s = -1) (hA : A = 2 * a + (b % 2) - s ∨ A = 2 * a - (b % 2) - s) (hB : B = 3 * b - s) : 4 ≤ 3 * A ^ 2 + B ^ 2 := by
  by_cases hb : b = 0
  · subst hb
    have h1 : A ≠ 0 := by omega
    have h2 : B ≠ 0 := by omega
    have := one_le_sq h1
    have := one_le_sq h2
    omega
  · have : B ≤ -2 ∨ 2 ≤ B := by omega
    have h1 : 4 ≤ B ^ 2 := by rcases this with h | h <;> nlinarith
    nlinarith [sq_nonneg A]

end Lattice

/-- One dimension: for every positive separation the loop ends, counts what it writes, inside of the half-open interval and apart. -/
theorem C47_1d (lo hi : Pos) (sep : ℝ) (hs : 0 < sep) :
    ∃ fuel0, ∀ fuel ≥ fuel0, Generates (fun c => generate1 fuel c lo hi sep) (Box1 lo hi) (fun p q => sep ^ 2 ≤ dist2 p q) := by
  refine ⟨ticks hi.x sep lo.x + 1, fun fuel hf => ?_⟩
  refine generates_of (List.range (ticks hi.x sep lo.x)) List.nodup_range (fun i => ⟨lo.x + i * sep, 0, 0⟩) (inDomain1 lo hi) _ ?_ _ ?_ _ ?_
  · intro c st
    exact loop_eq hi.x sep hs id _ (fun x _ st => visit c (inDomain1 lo hi) ⟨x, 0, 0⟩ st) fuel lo.x 0 st (by omega) fun _ _ => rfl
  · intro i hi' _
    rw [List.mem_range, lt_ticks _ _ _ hs] at hi'
    refine ⟨?_, hi'⟩
    have : (0 : ℝ) ≤ i * sep := by positivity
    dsimp only; linarith
  · intro i _ j _ hij
    unfold dist2
    have h1 : ((i : ℤ) - j) ≠ 0 := by omega
    have h2 : (1 : ℝ) ≤ (((i : ℤ) - j : ℤ) : ℝ) ^ 2 := by exact_mod_cast one_le_sq h1
    push_cast at h2
    dsimp only
    nlinarith [mul_le_mul_of_nonneg_left h2 (sq_nonneg sep)]

/-- Two dimensions, rectangular and triangular lattices, box and circle (moved by the tolerance). -/
theorem C47_2d (lattice domain : Int) (lo hi : Pos) (sep : ℝ) (hs : 0 < sep) :
    ∃ fuel0, ∀ fuel ≥ fuel0, Generates (fun c => generate2 fuel c lattice domain lo hi sep)
      (fun p => Box2 lo hi p ∧ (domain = 1 → movedBall2 lo hi p)) (fun p q => sep ^ 2 ≤ dist2 p q) := by
  have h3 : (√3 : ℝ) ^ 2 = 3 := Real.sq_sqrt (by norm_num)
  have h3p : (0 : ℝ) < √3 := Real.sqrt_pos.2 (by norm_num)
  have hball : ∀ p, inDomain2 domain lo hi p → domain = 1 → movedBall2 lo hi p := by
    rintro p ⟨-, h⟩ hd
    have := h hd
    unfold movedBall2
    dsimp only [bTol] at this
    rw [show hi.x - 1 / 1000000 * (hi.x - lo.x) - (lo.x - 1 / 1000000 * (hi.x - lo.x)) = hi.x - lo.x by ring,
      show hi.y - 1 / 1000000 * (hi.x - lo.x) - (lo.y - 1 / 1000000 * (hi.x - lo.x)) = hi.y - lo.y by ring] at this
    generalize min (hi.x - lo.x) (hi.y - lo.y) = m at this ⊢
    nlinarith [this]
  by_cases hl : lattice = 0
  · refine ⟨ticks hi.y sep lo.y + ticks hi.x sep lo.x + 1, fun fuel hf => ?_⟩
    refine generates_of (indices 1 (fun _ => ticks hi.y sep lo.y) (fun _ _ => ticks hi.x sep lo.x)) (nodup_indices _ _ _)
      (fun t => ⟨lo.x + t.2.2 * sep, lo.y + t.2.1 * sep, 0⟩) (inDomain2 domain lo hi) _ ?_ _ ?_ _ ?_
    · intro c st
      rw [← fold_indices 1 _ _ (fun _ j i st => visit c (inDomain2 domain lo hi) ⟨lo.x + i * sep, lo.y + j * sep, 0⟩ st)]
      simp only [generate2, if_pos hl]
      rw [loop2_eq hi.x hi.y sep sep hs hs id (fun _ => lo.x) (fun x y st => visit c (inDomain2 domain lo hi) ⟨x, y, 0⟩ st) fuel lo.y 0 st (by omega) (fun _ => by omega)]
      simp
    · rintro ⟨l, j, i⟩ ht hd
      obtain ⟨-, hj, hi'⟩ := (mem_indices _ _ _ _ _ _).1 ht
      rw [lt_ticks _ _ _ hs] at hj hi'
      have h1 : (0 : ℝ) ≤ i * sep := by positivity
      have h2 : (0 : ℝ) ≤ j * sep := by positivity
      exact ⟨⟨⟨by dsimp only; linarith, hi'⟩, by dsimp only; linarith, hj⟩, hball _ hd⟩
    · rintro ⟨l, j, i⟩ ht ⟨l', j', i'⟩ ht' hne
      have hl0 := ((mem_indices _ _ _ _ _ _).1 ht).1
      have hl0' := ((mem_indices _ _ _ _ _ _).1 ht').1
      unfold dist2
      dsimp only
      have h1 : (1 : ℝ) ≤ (((i : ℤ) - i' : ℤ) : ℝ) ^ 2 + (((j : ℤ) - j' : ℤ) : ℝ) ^ 2 := by
        have : (1 : ℤ) ≤ ((i : ℤ) - i') ^ 2 + ((j : ℤ) - j') ^ 2 := by
          by_cases hij : ((i : ℤ) - i') = 0
          · have hjj : ((j : ℤ) - j') ≠ 0 := by
              intro h
              apply hne
              simp only [Prod.mk.injEq]
              omega
            have := one_le_sq hjj
            nlinarith [sq_nonneg ((i : ℤ) - i')]
          · have := one_le_sq hij
            nlinarith [sq_nonneg ((j : ℤ) - j')]
        exact_mod_cast this
      push_cast at h1
      nlinarith [mul_le_mul_of_nonneg_left h1 (sq_nonneg sep)]
  · have hdy : 0 < sep * √3 / 2 := by positivity
    refine ⟨ticks hi.y (sep * √3 / 2) lo.y + ticks hi.x sep lo.x + 1, fun fuel hf => ?_⟩
    have hsx : ∀ j : Nat, lo.x ≤ lo.x + ((j % 2 : ℕ) : ℝ) * sep / 2 := by
      intro j
      have : (0 : ℝ) ≤ ((j % 2 : ℕ) : ℝ) * sep / 2 := by positivity
      linarith
    refine generates_of (indices 1 (fun _ => ticks hi.y (sep * √3 / 2) lo.y) (fun _ j => ticks hi.x sep (lo.x + ((j % 2 : ℕ) : ℝ) * sep / 2))) (nodup_indices _ _ _)
      (fun t => ⟨lo.x + ((t.2.1 % 2 : ℕ) : ℝ) * sep / 2 + t.2.2 * sep, lo.y + t.2.1 * (sep * √3 / 2), 0⟩) (inDomain2 domain lo hi) _ ?_ _ ?_ _ ?_
    · intro c st
      rw [← fold_indices 1 _ _ (fun _ j i st => visit c (inDomain2 domain lo hi)
        ⟨lo.x + ((j % 2 : ℕ) : ℝ) * sep / 2 + i * sep, lo.y + j * (sep * √3 / 2), 0⟩ st)]
      simp only [generate2, if_neg hl]
      rw [loop2_eq hi.x hi.y sep (sep * √3 / 2) hs hdy flip (fun yo => lo.x + yo * sep / 2) (fun x y st => visit c (inDomain2 domain lo hi) ⟨x, y, 0⟩ st) fuel lo.y 0 st
        (by omega) (fun j => by rw [flip_iter]; have := ticks_anti hi.x sep _ _ hs (hsx j); omega)]
      simp only [flip_iter, List.range_one, List.foldl_cons, List.foldl_nil]
    · rintro ⟨l, j, i⟩ ht hd
      obtain ⟨-, hj, hi'⟩ := (mem_indices _ _ _ _ _ _).1 ht
      rw [lt_ticks _ _ _ hs] at hi'
      rw [lt_ticks _ _ _ hdy] at hj
      have h1 : (0 : ℝ) ≤ i * sep := by positivity
      have h2 : (0 : ℝ) ≤ j * (sep * √3 / 2) := by positivity
      have := hsx j
      exact ⟨⟨⟨by dsimp only; linarith, hi'⟩, by dsimp only; linarith, hj⟩, hball _ hd⟩
    · rintro ⟨l, j, i⟩ ht ⟨l', j', i'⟩ ht' hne
      have hl0 := ((mem_indices _ _ _ _ _ _).1 ht).1
      have hl0' := ((mem_indices _ _ _ _ _ _).1 ht').1
      have h1 := triangular (2 * ((i : ℤ) - i') + ((j % 2 : ℕ) : ℤ) - ((j' % 2 : ℕ) : ℤ)) ((j : ℤ) - j') (by push_cast; omega) (by
        rintro ⟨ha, hb⟩
        apply hne
        have hjj : j = j' := by omega
        subst hjj
        have hii : i = i' := by omega
        have hll : l = l' := by omega
        rw [hii, hll])
      unfold dist2
      dsimp only
      generalize j % 2 = a at h1 ⊢
      generalize j' % 2 = b at h1 ⊢
      have h2 : (4 : ℝ) ≤ ((2 * ((i : ℤ) - i') + (a : ℤ) - (b : ℤ) : ℤ) : ℝ) ^ 2 + 3 * (((j : ℤ) - j' : ℤ) : ℝ) ^ 2 := by exact_mod_cast h1
      push_cast at h2
      have e : (lo.x + a * sep / 2 + i * sep - (lo.x + b * sep / 2 + i' * sep)) ^ 2 + (lo.y + j * (sep * √3 / 2) - (lo.y + j' * (sep * √3 / 2))) ^ 2 + (0 - 0) ^ 2 =
          sep ^ 2 / 4 * ((2 * ((i : ℝ) - i') + a - b) ^ 2 + 3 * ((j : ℝ) - j') ^ 2) := by
        linear_combination (sep ^ 2 / 4 * ((j : ℝ) - j') ^ 2) * h3
      rw [e]
      nlinarith [mul_le_mul_of_nonneg_left h2 (sq_nonneg sep)]

namespace Lattice

theorem ball3 (domain : Int) (lo hi p : Pos) (h : inDomain3 domain lo hi p) (hd : domain = 1) : movedBall3 lo hi p := by
  have := h.2 hd
  unfold movedBall3
  dsimp only [bTol] at this
  rw [show hi.x - 1 / 1000000 * (hi.x - lo.x) - (lo.x - 1 / 1000000 * (hi.x - lo.x)) = hi.x - lo.x by ring,
    show hi.y - 1 / 1000000 * (hi.x - lo.x) - (lo.y - 1 / 1000000 * (hi.x - lo.x)) = hi.y - lo.y by ring,
    show hi.z - 1 / 1000000 * (hi.x - lo.x) - (lo.z - 1 / 1000000 * (hi.x - lo.x)) = hi.z - lo.z by ring] at this
  generalize min (min (hi.x - lo.x) (hi.y - lo.y)) (hi.z - lo.z) = m at this ⊢
  nlinarith [this]

/-- The candidates of the stacked lattices; `φ` is the phase of a layer. -/
noncomputable def stackPos (φ : Nat → Nat) (lo : Pos) (sep : ℝ) (t : Nat × Nat × Nat) : Pos :=
  ⟨lo.x + (((t.2.1 % 2 : ℕ) : ℝ) - (φ t.1 : ℝ)) * sep / 2 + t.2.2 * sep, lo.y - (φ t.1 : ℝ) * (sep * √3 / 2) / 3 + t.2.1 * (sep * √3 / 2), lo.z + t.1 * (sep * √(2 / 3))⟩

noncomputable def stackIdx (φ : Nat → Nat) (lo hi : Pos) (sep : ℝ) : List (Nat × Nat × Nat) :=
  indices (ticks hi.z (sep * √(2 / 3)) lo.z) (fun l => ticks hi.y (sep * √3 / 2) (lo.y - (φ l : ℝ) * (sep * √3 / 2) / 3))
    fun l j => ticks hi.x sep (lo.x + (((j % 2 : ℕ) : ℝ) - (φ l : ℝ)) * sep / 2)

theorem stack_mem (φ : Nat → Nat) (lo hi : Pos) (sep : ℝ) (hs : 0 < sep) (t : Nat × Nat × Nat) :
    t ∈ stackIdx φ lo hi sep ↔ (stackPos φ lo sep t).z < hi.z ∧ (stackPos φ lo sep t).y < hi.y ∧ (stackPos φ lo sep t).x < hi.x := by
  obtain ⟨l, j, i⟩ := t
  have h1 : (0 : ℝ) < sep * √3 / 2 := by positivity
  have h2 : (0 : ℝ) < sep * √(2 / 3) := by positivity
  unfold stackIdx stackPos
  rw [mem_indices, lt_ticks _ _ _ h2, lt_ticks _ _ _ h1, lt_ticks _ _ _ hs]

theorem stack_fold (c : Bool) (dom : Pos → Prop) (φ : Nat → Nat) (hφ : ∀ l, φ l ≤ 3) (next : ℝ → ℝ) (hnext : ∀ l : Nat, next^[l] 0 = (φ l : ℝ)) (lo hi : Pos) (sep : ℝ) (hs : 0 < sep)
    (fuel : Nat) (hf : fuel ≥ ticks hi.z (sep * √(2 / 3)) lo.z + ticks hi.y (sep * √3 / 2) (lo.y - sep * √3 / 2) + ticks hi.x sep (lo.x - 2 * sep) + 1) (st : State) :
    loop fuel hi.z (sep * √(2 / 3)) next (fun z zo => loop fuel hi.y (sep * √3 / 2) flip (fun y yo =>
        loop fuel hi.x sep id (fun x _ st => some (visit c dom ⟨x, y, z⟩ st)) (lo.x + (yo - zo) * sep / 2) 0) (lo.y - zo * (sep * √3 / 2) / 3) 0) lo.z 0 st =
      some ((stackIdx φ lo hi sep).foldl (fun st t => visit c dom (stackPos φ lo sep t) st) st) := by
  have h1 : (0 : ℝ) < sep * √3 / 2 := by positivity
  have h2 : (0 : ℝ) < sep * √(2 / 3) := by positivity
  have hφ' : ∀ l, ((φ l : ℕ) : ℝ) ≤ 3 := fun l => by exact_mod_cast hφ l
  rw [loop3_eq hi.x hi.y hi.z sep (sep * √3 / 2) (sep * √(2 / 3)) hs h1 h2 next flip (fun zo => lo.y - zo * (sep * √3 / 2) / 3) (fun zo yo => lo.x + (yo - zo) * sep / 2)
    (fun x y z st => visit c dom ⟨x, y, z⟩ st) fuel lo.z 0 0 st (by omega) (fun l => by
      have := ticks_anti hi.y (sep * √3 / 2) (lo.y - sep * √3 / 2) (lo.y - next^[l] 0 * (sep * √3 / 2) / 3) h1 (by rw [hnext]; nlinarith [hφ' l])
      omega) (fun l j => by
      have := ticks_anti hi.x sep (lo.x - 2 * sep) (lo.x + (flip^[j] 0 - next^[l] 0) * sep / 2) hs (by
        rw [hnext, flip_iter]
        have := hφ' l
        have h0 : (0 : ℝ) ≤ ((j % 2 : ℕ) : ℝ) := Nat.cast_nonneg _
        nlinarith)
      omega)]
  simp only [hnext, flip_iter]
  unfold stackIdx stackPos
  rw [← fold_indices _ _ _ (fun l j i st => visit c dom ⟨lo.x + (((j % 2 : ℕ) : ℝ) - (φ l : ℝ)) * sep / 2 + i * sep,
    lo.y - (φ l : ℝ) * (sep * √3 / 2) / 3 + j * (sep * √3 / 2), lo.z + l * (sep * √(2 / 3))⟩ st)]

theorem stack_dist2 (φ : Nat → Nat) (lo : Pos) (sep : ℝ) (l j i l' j' i' : Nat) :
    dist2 (stackPos φ lo sep (l, j, i)) (stackPos φ lo sep (l', j', i')) =
      sep ^ 2 / 12 * (((3 * (2 * ((i : ℤ) - i') + ((j % 2 : ℕ) : ℤ) - ((j' % 2 : ℕ) : ℤ) - ((φ l : ℤ) - φ l')) ^ 2 + (3 * ((j : ℤ) - j') - ((φ l : ℤ) - φ l')) ^ 2 +
        8 * ((l : ℤ) - l') ^ 2 : ℤ)) : ℝ) := by
  have h3 : (√3 : ℝ) ^ 2 = 3 := Real.sq_sqrt (by norm_num)
  have h23 : (√(2 / 3) : ℝ) ^ 2 = 2 / 3 := Real.sq_sqrt (by norm_num)
  unfold dist2 stackPos
  dsimp only
  generalize j % 2 = a
  generalize j' % 2 = b
  push_cast
  linear_combination (sep ^ 2 / 36 * (3 * ((j : ℝ) - j') - ((φ l : ℝ) - φ l')) ^ 2) * h3 + (sep ^ 2 * ((l : ℝ) - l') ^ 2) * h23

theorem stack_same (φ : Nat → Nat) (lo : Pos) (sep : ℝ) (l j i j' i' : Nat) (hne : (l, j, i) ≠ (l, j', i')) :
    sep ^ 2 ≤ dist2 (stackPos φ lo sep (l, j, i)) (stackPos φ lo sep (l, j', i')) := by
  rw [stack_dist2]
  have h1 := triangular (2 * ((i : ℤ) - i') + ((j % 2 : ℕ) : ℤ) - ((j' % 2 : ℕ) : ℤ)) ((j : ℤ) - j') (by push_cast; omega) (by
    rintro ⟨ha, hb⟩
    apply hne
    have hjj : j = j' := by omega
    subst hjj
    have hii : i = i' := by omega
    rw [hii])
  have h2 : (12 : ℤ) ≤ 3 * (2 * ((i : ℤ) - i') + ((j % 2 : ℕ) : ℤ) - ((j' % 2 : ℕ) : ℤ) - ((φ l : ℤ) - φ l)) ^ 2 + (3 * ((j : ℤ) - j') - ((φ l : ℤ) - φ l)) ^ 2 +
      8 * ((l : ℤ) - l) ^ 2 := by
    rw [sub_self, sub_self, sub_zero, sub_zero]
    nlinarith
  have h3 := (Int.cast_le (R := ℝ)).2 h2
  rw [show ((12 : ℤ) : ℝ) = 12 by norm_num] at h3
  nlinarith [mul_le_mul_of_nonneg_left h3 (sq_nonneg sep)]

theorem stack_far (φ : Nat → Nat) (lo : Pos) (sep : ℝ) (l j i l' j' i' : Nat) (hl : (l : ℤ) - l' ≤ -2 ∨ 2 ≤ (l : ℤ) - l') :
    sep ^ 2 ≤ dist2 (stackPos φ lo sep (l, j, i)) (stackPos φ lo sep (l', j', i')) := by
  rw [stack_dist2]
  have h2 : (12 : ℤ) ≤ 3 * (2 * ((i : ℤ) - i') + ((j % 2 : ℕ) : ℤ) - ((j' % 2 : ℕ) : ℤ) - ((φ l : ℤ) - φ l')) ^ 2 + (3 * ((j : ℤ) - j') - ((φ l : ℤ) - φ l')) ^ 2 +
      8 * ((l : ℤ) - l') ^ 2 := by
    have : 4 ≤ ((l : ℤ) - l') ^ 2 := by rcases hl with h | h <;> nlinarith
    have h1 := sq_nonneg (2 * ((i : ℤ) - i') + ((j % 2 : ℕ) : ℤ) - ((j' % 2 : ℕ) : ℤ) - ((φ l : ℤ) - φ l'))
    have h2 := sq_nonneg (3 * ((j : ℤ) - j') - ((φ l : ℤ) - φ l'))
    nlinarith
  have h3 := (Int.cast_le (R := ℝ)).2 h2
  rw [show ((12 : ℤ) : ℝ) = 12 by norm_num] at h3
  nlinarith [mul_le_mul_of_nonneg_left h3 (sq_nonneg sep)]

theorem stack_next (φ : Nat → Nat) (lo : Pos) (sep : ℝ) (l j i l' j' i' : Nat) (hl : (l : ℤ) - l' = 1 ∨ (l : ℤ) - l' = -1)
    (hφ : (φ l : ℤ) - φ l' = 1 ∨ (φ l : ℤ) - φ l' = -1) :
    sep ^ 2 ≤ dist2 (stackPos φ lo sep (l, j, i)) (stackPos φ lo sep (l', j', i')) := by
  rw [stack_dist2]
  have h1 : 4 ≤ 3 * (2 * ((i : ℤ) - i') + ((j % 2 : ℕ) : ℤ) - ((j' % 2 : ℕ) : ℤ) - ((φ l : ℤ) - φ l')) ^ 2 + (3 * ((j : ℤ) - j') - ((φ l : ℤ) - φ l')) ^ 2 := by
    generalize (φ l : ℤ) - φ l' = s at hφ ⊢
    by_cases hb : (j : ℤ) - j' = 0
    · have hjj : j = j' := by omega
      subst hjj
      have h1 : 2 * ((i : ℤ) - i') + ((j % 2 : ℕ) : ℤ) - ((j % 2 : ℕ) : ℤ) - s ≠ 0 := by omega
      have h2 : 3 * ((j : ℤ) - j) - s ≠ 0 := by omega
      have := one_le_sq h1
      have := one_le_sq h2
      omega
    · have : 3 * ((j : ℤ) - j') - s ≤ -2 ∨ 2 ≤ 3 * ((j : ℤ) - j') - s := by omega
      have h1 : 4 ≤ (3 * ((j : ℤ) - j') - s) ^ 2 := by rcases this with h | h <;> nlinarith
      have h2 := sq_nonneg (2 * ((i : ℤ) - i') + ((j % 2 : ℕ) : ℤ) - ((j' % 2 : ℕ) : ℤ) - s)
      omega
  have h2 : (12 : ℤ) ≤ 3 * (2 * ((i : ℤ) - i') + ((j % 2 : ℕ) : ℤ) - ((j' % 2 : ℕ) : ℤ) - ((φ l : ℤ) - φ l')) ^ 2 + (3 * ((j : ℤ) - j') - ((φ l : ℤ) - φ l')) ^ 2 +
      8 * ((l : ℤ) - l') ^ 2 := by
    have : ((l : ℤ) - l') ^ 2 = 1 := by rcases hl with h | h <;> rw [h] <;> norm_num
    rw [this]
    omega
  have h3 := (Int.cast_le (R := ℝ)).2 h2
  rw [show ((12 : ℤ) : ℝ) = 12 by norm_num] at h3
  nlinarith [mul_le_mul_of_nonneg_left h3 (sq_nonneg sep)]

theorem stack_any (φ : Nat → Nat) (lo : Pos) (sep : ℝ) (l j i l' j' i' : Nat) (hl : l ≠ l') :
    2 / 3 * sep ^ 2 ≤ dist2 (stackPos φ lo sep (l, j, i)) (stackPos φ lo sep (l', j', i')) := by
  rw [stack_dist2]
  have h2 : (8 : ℤ) ≤ 3 * (2 * ((i : ℤ) - i') + ((j % 2 : ℕ) : ℤ) - ((j' % 2 : ℕ) : ℤ) - ((φ l : ℤ) - φ l')) ^ 2 + (3 * ((j : ℤ) - j') - ((φ l : ℤ) - φ l')) ^ 2 +
      8 * ((l : ℤ) - l') ^ 2 := by
    have := one_le_sq (show (l : ℤ) - l' ≠ 0 by omega)
    have h1 := sq_nonneg (2 * ((i : ℤ) - i') + ((j % 2 : ℕ) : ℤ) - ((j' % 2 : ℕ) : ℤ) - ((φ l : ℤ) - φ l'))
    have h2 := sq_nonneg (3 * ((j : ℤ) - j') - ((φ l : ℤ) - φ l'))
    omega
  have h3 := (Int.cast_le (R := ℝ)).2 h2
  rw [show ((8 : ℤ) : ℝ) = 8 by norm_num] at h3
  nlinarith [mul_le_mul_of_nonneg_left h3 (sq_nonneg sep)]

theorem stack_inside (φ : Nat → Nat) (domain : Int) (lo hi : Pos) (sep : ℝ) (hs : 0 < sep) (t : Nat × Nat × Nat) (ht : t ∈ stackIdx φ lo hi sep)
    (hd : inDomain3 domain lo hi (stackPos φ lo sep t)) :
    WideBox3 lo hi (stackPos φ lo sep t) ∧ (domain = 1 → movedBall3 lo hi (stackPos φ lo sep t)) := by
  obtain ⟨h1, h2, h3⟩ := (stack_mem φ lo hi sep hs t).1 ht
  have hz : lo.z ≤ (stackPos φ lo sep t).z := by
    have : (0 : ℝ) ≤ t.1 * (sep * √(2 / 3)) := by positivity
    unfold stackPos; dsimp only; linarith
  obtain ⟨a1, -, a2, -, -, -⟩ := hd.1
  dsimp only [bTol] at a1 a2
  exact ⟨⟨⟨by linarith, h3⟩, ⟨by linarith, h2⟩, hz, h1⟩, ball3 domain lo hi _ hd⟩

end Lattice

/-- Three dimensions, rectangular lattice. -/
theorem C47_3d_rectangular (domain : Int) (lo hi : Pos) (sep : ℝ) (hs : 0 < sep) :
    ∃ fuel0, ∀ fuel ≥ fuel0, Generates (fun c => generate3 fuel c 0 domain lo hi sep)
      (fun p => Box3 lo hi p ∧ (domain = 1 → movedBall3 lo hi p)) (fun p q => sep ^ 2 ≤ dist2 p q) := by
  refine ⟨ticks hi.z sep lo.z + ticks hi.y sep lo.y + ticks hi.x sep lo.x + 1, fun fuel hf => ?_⟩
  refine generates_of (indices (ticks hi.z sep lo.z) (fun _ => ticks hi.y sep lo.y) (fun _ _ => ticks hi.x sep lo.x)) (nodup_indices _ _ _)
    (fun t => ⟨lo.x + t.2.2 * sep, lo.y + t.2.1 * sep, lo.z + t.1 * sep⟩) (inDomain3 domain lo hi) _ ?_ _ ?_ _ ?_
  · intro c st
    rw [← fold_indices _ _ _ (fun l j i st => visit c (inDomain3 domain lo hi) ⟨lo.x + i * sep, lo.y + j * sep, lo.z + l * sep⟩ st)]
    simp only [generate3, if_true]
    rw [loop3_eq hi.x hi.y hi.z sep sep sep hs hs hs id id (fun _ => lo.y) (fun _ _ => lo.x) (fun x y z st => visit c (inDomain3 domain lo hi) ⟨x, y, z⟩ st) fuel lo.z 0 0 st
      (by omega) (fun _ => by omega) (fun _ _ => by omega)]
  · rintro ⟨l, j, i⟩ ht hd
    obtain ⟨hl, hj, hi'⟩ := (mem_indices _ _ _ _ _ _).1 ht
    rw [lt_ticks _ _ _ hs] at hl hj hi'
    have h1 : (0 : ℝ) ≤ i * sep := by positivity
    have h2 : (0 : ℝ) ≤ j * sep := by positivity
    have h3 : (0 : ℝ) ≤ l * sep := by positivity
    exact ⟨⟨⟨⟨by dsimp only; linarith, hi'⟩, by dsimp only; linarith, hj⟩, by dsimp only; linarith, hl⟩, ball3 domain lo hi _ hd⟩
  · rintro ⟨l, j, i⟩ - ⟨l', j', i'⟩ - hne
    unfold dist2
    dsimp only
    have h1 : (1 : ℝ) ≤ (((i : ℤ) - i' : ℤ) : ℝ) ^ 2 + (((j : ℤ) - j' : ℤ) : ℝ) ^ 2 + (((l : ℤ) - l' : ℤ) : ℝ) ^ 2 := by
      have : (1 : ℤ) ≤ ((i : ℤ) - i') ^ 2 + ((j : ℤ) - j') ^ 2 + ((l : ℤ) - l') ^ 2 := by
        have e1 := sq_nonneg ((i : ℤ) - i')
        have e2 := sq_nonneg ((j : ℤ) - j')
        have e3 := sq_nonneg ((l : ℤ) - l')
        by_cases hij : ((i : ℤ) - i') = 0
        · by_cases hjj : ((j : ℤ) - j') = 0
          · have := one_le_sq (show ((l : ℤ) - l') ≠ 0 by
              intro h
              apply hne
              simp only [Prod.mk.injEq]
              omega)
            omega
          · have := one_le_sq hjj
            omega
        · have := one_le_sq hij
          omega
      exact_mod_cast this
    push_cast at h1
    nlinarith [mul_le_mul_of_nonneg_left h1 (sq_nonneg sep)]

/-- Three dimensions, hexagonal close packing: apart, and inside of the box up to the tolerance at the lower faces. -/
theorem C47_3d_hcp_partial (domain : Int) (lo hi : Pos) (sep : ℝ) (hs : 0 < sep) :
    ∃ fuel0, ∀ fuel ≥ fuel0, Generates (fun c => generate3 fuel c 1 domain lo hi sep)
      (fun p => WideBox3 lo hi p ∧ (domain = 1 → movedBall3 lo hi p)) (fun p q => sep ^ 2 ≤ dist2 p q) := by
  refine ⟨ticks hi.z (sep * √(2 / 3)) lo.z + ticks hi.y (sep * √3 / 2) (lo.y - sep * √3 / 2) + ticks hi.x sep (lo.x - 2 * sep) + 1, fun fuel hf => ?_⟩
  refine generates_of (stackIdx (· % 2) lo hi sep) (nodup_indices _ _ _) (stackPos (· % 2) lo sep) (inDomain3 domain lo hi) _ ?_ _ ?_ _ ?_
  · intro c st
    exact stack_fold c (inDomain3 domain lo hi) (· % 2) (fun l => by omega) flip flip_iter lo hi sep hs fuel hf st
  · exact fun t ht hd => stack_inside (· % 2) domain lo hi sep hs t ht hd
  · rintro ⟨l, j, i⟩ - ⟨l', j', i'⟩ - hne
    by_cases h1 : l = l'
    · subst h1; exact stack_same _ lo sep l j i j' i' hne
    · by_cases h2 : (l : ℤ) - l' = 1 ∨ (l : ℤ) - l' = -1
      · exact stack_next _ lo sep l j i l' j' i' h2 (by omega)
      · exact stack_far _ lo sep l j i l' j' i' (by omega)

/-- Three dimensions, face-centred cubic packing: in boxes not higher than four layers particles are apart; in all boxes they are at least √(2/3) of the separation apart. -/
theorem C47_3d_fcc_partial (domain : Int) (lo hi : Pos) (sep : ℝ) (hs : 0 < sep) :
    ∃ fuel0, ∀ fuel ≥ fuel0, Generates (fun c => generate3 fuel c 2 domain lo hi sep)
      (fun p => WideBox3 lo hi p ∧ (domain = 1 → movedBall3 lo hi p))
      (fun p q => 2 / 3 * sep ^ 2 ≤ dist2 p q ∧ (hi.z ≤ lo.z + 4 * (sep * √(2 / 3)) → sep ^ 2 ≤ dist2 p q)) := by
  refine ⟨ticks hi.z (sep * √(2 / 3)) lo.z + ticks hi.y (sep * √3 / 2) (lo.y - sep * √3 / 2) + ticks hi.x sep (lo.x - 2 * sep) + 1, fun fuel hf => ?_⟩
  refine generates_of (stackIdx (· % 4) lo hi sep) (nodup_indices _ _ _) (stackPos (· % 4) lo sep) (inDomain3 domain lo hi) _ ?_ _ ?_ _ ?_
  · intro c st
    exact stack_fold c (inDomain3 domain lo hi) (· % 4) (fun l => by omega) cycle cycle_iter lo hi sep hs fuel hf st
  · exact fun t ht hd => stack_inside (· % 4) domain lo hi sep hs t ht hd
  · rintro ⟨l, j, i⟩ ht ⟨l', j', i'⟩ ht' hne
    have hsq := sq_nonneg sep
    refine ⟨?_, fun hz => ?_⟩
    · by_cases h1 : l = l'
      · subst h1; have := stack_same (· % 4) lo sep l j i j' i' hne; linarith
      · exact stack_any _ lo sep l j i l' j' i' h1
    · have hlt : ∀ t ∈ stackIdx (· % 4) lo hi sep, t.1 < 4 := by
        intro t ht
        have h1 := ((stack_mem _ lo hi sep hs t).1 ht).1
        unfold stackPos at h1
        dsimp only at h1
        have h2 : (t.1 : ℝ) * (sep * √(2 / 3)) < 4 * (sep * √(2 / 3)) := by linarith
        have h3 : (t.1 : ℝ) < 4 := lt_of_mul_lt_mul_right h2 (by positivity)
        exact_mod_cast h3
      have hl := hlt _ ht
      have hl' := hlt _ ht'
      dsimp only at hl hl'
      by_cases h1 : l = l'
      · subst h1; exact stack_same _ lo sep l j i j' i' hne
      · by_cases h2 : (l : ℤ) - l' = 1 ∨ (l : ℤ) - l' = -1
        · exact stack_next _ lo sep l j i l' j' i' h2 (by omega)
        · exact stack_far _ lo sep l j i l' j' i' (by omega)

/-- Other types generate nothing. -/
theorem C47_3d_other (lattice domain : Int) (h : lattice ≠ 0 ∧ lattice ≠ 1 ∧ lattice ≠ 2) (lo hi : Pos) (sep : ℝ) (fuel : Nat) :
    Generates (fun c => generate3 fuel c lattice domain lo hi sep) (fun _ => False) (fun _ _ => False) := by
  refine ⟨0, fun st => ⟨⟨st, ?_, rfl, rfl⟩, st, ?_, rfl, fun _ _ => rfl, fun _ h => absurd h (Nat.not_lt_zero _), fun _ h => absurd h (Nat.not_lt_zero _)⟩⟩ <;>
  simp [generate3, h.1, h.2.1, h.2.2]

namespace Lattice

/-- A candidate in the domain is written. -/
theorem generated_mem {ι : Type} (l : List ι) (P : ι → Pos) (dom : Pos → Prop) (gen : Bool → State → Option State)
    (hgen : ∀ c st, gen c st = some (l.foldl (fun st t => visit c dom (P t) st) st)) (inside : Pos → Prop) (apart : Pos → Pos → Prop) (h : Generates gen inside apart) :
    (∀ t ∈ l, dom (P t) → inside (P t)) ∧ ∀ t ∈ l, ∀ t' ∈ l, dom (P t) → dom (P t') → P t ≠ P t' → apart (P t) (P t') := by
  obtain ⟨n, h⟩ := h
  obtain ⟨-, st2, e1, e2, -, e4, e5⟩ := h ⟨0, fun _ => ⟨0, 0, 0⟩⟩
  have hg : gen false ⟨0, fun _ => ⟨0, 0, 0⟩⟩ = some ((l.map P).foldl (fun st p => visit false dom p st) ⟨0, fun _ => ⟨0, 0, 0⟩⟩) := by rw [hgen, List.foldl_map]
  rw [hg, Option.some.injEq] at e1
  have hv := visits false dom (l.map P) ⟨0, fun _ => ⟨0, 0, 0⟩⟩
  rw [e1] at hv
  obtain ⟨v1, v2⟩ := hv
  rw [e2] at v1
  dsimp only at v1
  have key : ∀ t ∈ l, dom (P t) → ∃ k < n, st2.pos (0 + k) = P t := by
    intro t ht hd
    have hm : P t ∈ (l.map P).filter (fun p => decide (dom p)) := List.mem_filter.2 ⟨List.mem_map.2 ⟨t, ht, rfl⟩, by simpa using hd⟩
    obtain ⟨k, hk, hkk⟩ := List.mem_iff_getElem.1 hm
    refine ⟨k, by omega, ?_⟩
    rw [v2 (0 + k)]
    simp [List.getElem?_eq_getElem hk, hkk]
  refine ⟨fun t ht hd => ?_, fun t ht t' ht' hd hd' hne => ?_⟩
  · obtain ⟨k, hk, hkk⟩ := key t ht hd
    rw [← hkk]; exact e4 k hk
  · obtain ⟨k, hk, hkk⟩ := key t ht hd
    obtain ⟨k', hk', hkk'⟩ := key t' ht' hd'
    rw [← hkk, ← hkk']
    refine e5 k hk k' hk' ?_
    rintro rfl
    exact hne (hkk.symm.trans hkk')

end Lattice

/-- Face-centred cubic packing in every box with room for five layers is wrong: the fifth layer lies directly above the fourth, at √(2/3) of the separation. -/
theorem C47_3d_fcc_violated (domain : Int) (hd : domain ≠ 1) (lo hi : Pos) (sep : ℝ) (hs : 0 < sep) (hx : lo.x < hi.x)
    (hy : lo.y < hi.y - (hi.x - lo.x) / 1000000) (hz : lo.z + 4 * (sep * √(2 / 3)) < hi.z - (hi.x - lo.x) / 1000000) :
    ∃ fuel0, ∀ fuel ≥ fuel0, ¬Generates (fun c => generate3 fuel c 2 domain lo hi sep) (fun _ => True) (fun p q => sep ^ 2 ≤ dist2 p q) := by
  refine ⟨ticks hi.z (sep * √(2 / 3)) lo.z + ticks hi.y (sep * √3 / 2) (lo.y - sep * √3 / 2) + ticks hi.x sep (lo.x - 2 * sep) + 1, fun fuel hf hgen => ?_⟩
  have h2 := (generated_mem (stackIdx (· % 4) lo hi sep) (stackPos (· % 4) lo sep) (inDomain3 domain lo hi) _ (fun c st =>
    stack_fold c (inDomain3 domain lo hi) (· % 4) (fun l => by omega) cycle cycle_iter lo hi sep hs fuel hf st) _ _ hgen).2
  have hdz : 0 < sep * √(2 / 3) := by positivity
  have hP : stackPos (· % 4) lo sep (3, 1, 1) = ⟨lo.x, lo.y, lo.z + 3 * (sep * √(2 / 3))⟩ := by
    unfold stackPos; norm_num; ring
  have hQ : stackPos (· % 4) lo sep (4, 0, 0) = ⟨lo.x, lo.y, lo.z + 4 * (sep * √(2 / 3))⟩ := by
    unfold stackPos; norm_num
  have hdom : ∀ z, lo.z ≤ z → z ≤ lo.z + 4 * (sep * √(2 / 3)) → inDomain3 domain lo hi ⟨lo.x, lo.y, z⟩ := by
    intro z h1 h2
    refine ⟨?_, fun h => absurd h hd⟩
    dsimp only [bTol]
    refine ⟨?_, ?_, ?_, ?_, ?_, ?_⟩ <;> linarith
  have := h2 (3, 1, 1) ((stack_mem _ lo hi sep hs _).2 (by rw [hP]; dsimp only; refine ⟨?_, ?_, ?_⟩ <;> linarith)) (4, 0, 0)
    ((stack_mem _ lo hi sep hs _).2 (by rw [hQ]; dsimp only; refine ⟨?_, ?_, ?_⟩ <;> linarith))
    (by rw [hP]; exact hdom _ (by linarith) (by linarith)) (by rw [hQ]; exact hdom _ (by linarith) le_rfl)
    (by rw [hP, hQ]; intro h; have := congrArg Pos.z h; dsimp only at this; linarith)
  rw [hP, hQ] at this
  unfold dist2 at this
  dsimp only at this
  have h23 : (√(2 / 3) : ℝ) ^ 2 = 2 / 3 := Real.sq_sqrt (by norm_num)
  have hsq : 0 < sep ^ 2 := by positivity
  have e : (lo.x - lo.x) ^ 2 + (lo.y - lo.y) ^ 2 + (lo.z + 3 * (sep * √(2 / 3)) - (lo.z + 4 * (sep * √(2 / 3)))) ^ 2 = 2 / 3 * sep ^ 2 := by
    linear_combination sep ^ 2 * h23
  rw [e] at this
  linarith

/-- The close packings start below the box and the test of the domain lets particles pass there, when the separation is less than the tolerance. -/
theorem C47_3d_hcp_box_violated (domain : Int) (hd : domain ≠ 1) (lo hi : Pos) (sep : ℝ) (hs : 0 < sep) (hsep : sep < (hi.x - lo.x) / 1000000)
    (hy : hi.x - lo.x ≤ hi.y - lo.y) (hz : hi.x - lo.x ≤ hi.z - lo.z) :
    ∃ fuel0, ∀ fuel ≥ fuel0, ¬Generates (fun c => generate3 fuel c 1 domain lo hi sep) (fun p => lo.x ≤ p.x) (fun _ _ => True) := by
  refine ⟨ticks hi.z (sep * √(2 / 3)) lo.z + ticks hi.y (sep * √3 / 2) (lo.y - sep * √3 / 2) + ticks hi.x sep (lo.x - 2 * sep) + 1, fun fuel hf hgen => ?_⟩
  have h2 := (generated_mem (stackIdx (· % 2) lo hi sep) (stackPos (· % 2) lo sep) (inDomain3 domain lo hi) _ (fun c st =>
    stack_fold c (inDomain3 domain lo hi) (· % 2) (fun l => by omega) flip flip_iter lo hi sep hs fuel hf st) _ _ hgen).1
  have hdz : sep * √(2 / 3) ≤ sep * 1 := by
    apply mul_le_mul_of_nonneg_left _ hs.le
    rw [Real.sqrt_le_one]; norm_num
  have hdy : sep * √3 ≤ sep * 2 := by
    apply mul_le_mul_of_nonneg_left _ hs.le
    rw [Real.sqrt_le_left (by norm_num)]; norm_num
  have hdz0 : 0 < sep * √(2 / 3) := by positivity
  have hdy0 : 0 < sep * √3 := by positivity
  have hP : stackPos (· % 2) lo sep (1, 2, 0) = ⟨lo.x - sep / 2, lo.y + 5 / 6 * (sep * √3), lo.z + sep * √(2 / 3)⟩ := by
    unfold stackPos; norm_num; constructor <;> ring
  have := h2 (1, 2, 0) ((stack_mem _ lo hi sep hs _).2 (by rw [hP]; dsimp only; refine ⟨?_, ?_, ?_⟩ <;> linarith)) (by
    rw [hP]
    refine ⟨?_, fun h => absurd h hd⟩
    dsimp only [bTol]
    refine ⟨?_, ?_, ?_, ?_, ?_, ?_⟩ <;> linarith)
  rw [hP] at this
  dsimp only at this
  linarith

/-- The circle of the test is not the circle of the domain: with this separation a particle of the rectangular lattice lies outside of the circle. -/
theorem C47_circle_violated : ∃ fuel0, ∀ fuel ≥ fuel0,
    ¬Generates (fun c => generate2 fuel c 0 1 ⟨0, 0, 0⟩ ⟨2, 2, 0⟩ (292892 / 1000000)) (ball2 ⟨0, 0, 0⟩ ⟨2, 2, 0⟩) (fun _ _ => True) := by
  have hs : (0 : ℝ) < 292892 / 1000000 := by norm_num
  refine ⟨ticks 2 (292892 / 1000000) 0 + 1, fun fuel hf hgen => ?_⟩
  have h2 := (generated_mem (indices 1 (fun _ => ticks 2 (292892 / 1000000) 0) (fun _ _ => ticks 2 (292892 / 1000000) 0))
    (fun t => ⟨0 + t.2.2 * (292892 / 1000000), 0 + t.2.1 * (292892 / 1000000), 0⟩) (inDomain2 1 ⟨0, 0, 0⟩ ⟨2, 2, 0⟩) _ (fun c st => by
      rw [← fold_indices 1 _ _ (fun _ j i st => visit c (inDomain2 1 ⟨0, 0, 0⟩ ⟨2, 2, 0⟩) ⟨0 + i * (292892 / 1000000), 0 + j * (292892 / 1000000), 0⟩ st)]
      simp only [generate2, if_true]
      rw [loop2_eq 2 2 _ _ hs hs id (fun _ => 0) (fun x y st => visit c (inDomain2 1 ⟨0, 0, 0⟩ ⟨2, 2, 0⟩) ⟨x, y, 0⟩ st) fuel 0 0 st (by omega) (fun _ => by omega)]
      simp only [List.range_one, List.foldl_cons, List.foldl_nil]) _ _ hgen).1
  have := h2 (0, 1, 1) ((mem_indices _ _ _ _ _ _).2 ⟨by norm_num, by rw [lt_ticks _ _ _ hs]; norm_num, by rw [lt_ticks _ _ _ hs]; norm_num⟩) (by
    unfold inDomain2 bTol
    norm_num)
  unfold ball2 at this
  norm_num at this

/-- A separation which is not positive: the loop never ends. -/
theorem C47_no_separation (lo hi : Pos) (sep : ℝ) (hs : sep ≤ 0) (hx : lo.x < hi.x) (fuel : Nat) (c : Bool) (st : State) : generate1 fuel c lo hi sep st = none :=
  loop_stuck hi.x sep hs id _ fuel lo.x 0 st hx

/-- Non-vacuity: boxes with room for five layers exist. -/
example : ∃ (lo hi : Pos), lo.x < hi.x ∧ lo.y < hi.y - (hi.x - lo.x) / 1000000 ∧ lo.z + 4 * (1 * √(2 / 3)) < hi.z - (hi.x - lo.x) / 1000000 := by
  refine ⟨⟨0, 0, 0⟩, ⟨1, 1, 10⟩, by norm_num, by norm_num, ?_⟩
  have : √(2 / 3 : ℝ) ≤ 1 := by rw [Real.sqrt_le_one]; norm_num
  dsimp only
  linarith

end FleCSPH
