import Verif.Model.Share
import Mathlib.Data.List.Flatten
import Mathlib.Data.List.Perm.Basic
import Mathlib.Tactic.Ring
import Mathlib.Data.Nat.Bitwise
/-! C17: the exchange of the tops of the trees. -/
namespace FleCSPH.Share

variable {α : Type}

theorem xor_one (y : Nat) : (y ^^^ 1) / 2 = y / 2 ∧ (y ^^^ 1) % 2 = (y + 1) % 2 := by
  refine ⟨?_, Nat.xor_mod_two_eq⟩
  rw [Nat.xor_div_two]
  simp

theorem div_xor (r i : Nat) : (r ^^^ 2 ^ i) / 2 ^ i = (r / 2 ^ i) ^^^ 1 := by
  rw [Nat.xor_div_two_pow]
  simp

/-- The processes which agree with `r` except in the last `i` bits. -/
def group (size i r : Nat) : List Nat := (List.range size).filter fun s => s / 2 ^ i = r / 2 ^ i

theorem mem_group (size i r s : Nat) : s ∈ group size i r ↔ s < size ∧ s / 2 ^ i = r / 2 ^ i := by simp [group]

theorem group_succ (size i r : Nat) : (group size i r ++ group size i (r ^^^ 2 ^ i)).Perm (group size (i + 1) r) := by
  have h := List.filter_append_perm (fun s => decide (s / 2 ^ i = r / 2 ^ i)) (group size (i + 1) r)
  have e1 : (group size (i + 1) r).filter (fun s => decide (s / 2 ^ i = r / 2 ^ i)) = group size i r := by
    unfold group
    rw [List.filter_filter]
    apply List.filter_congr
    intro s _
    rw [← Bool.decide_and, decide_eq_decide, pow_succ, ← Nat.div_div_eq_div_mul, ← Nat.div_div_eq_div_mul]
    constructor
    · exact fun h => h.1
    · exact fun h => ⟨h, by rw [h]⟩
  have e2 : (group size (i + 1) r).filter (fun s => !decide (s / 2 ^ i = r / 2 ^ i)) = group size i (r ^^^ 2 ^ i) := by
    unfold group
    rw [List.filter_filter]
    apply List.filter_congr
    intro s _
    rw [← decide_not, ← Bool.decide_and, decide_eq_decide, div_xor, pow_succ, ← Nat.div_div_eq_div_mul, ← Nat.div_div_eq_div_mul]
    obtain ⟨h1, h2⟩ := xor_one (r / 2 ^ i)
    constructor
    · rintro ⟨h3, h4⟩; omega
    · intro h3
      rw [h3]
      exact ⟨by omega, h1⟩
  rw [e1, e2] at h
  exact h

theorem log_two_pow (k : Nat) : nonPower2 (2 ^ k) = false ∧ dim (2 ^ k) = k := by
  have : Nat.log 2 (2 ^ k) = k := Nat.log_pow (by decide) k
  have h : nonPower2 (2 ^ k) = false := by unfold nonPower2; rw [this]; simp
  refine ⟨h, ?_⟩
  unfold dim
  rw [h, this]; simp

/-- After `i` stages on 2^k processes. -/
theorem stages_power (k : Nat) (own : Nat → List (Item α)) (lo hi : Nat → Int) (ho : ∀ r < 2 ^ k, ∀ x ∈ own r, x.owner = r) (i : Nat) (hi' : i ≤ k) (r : Nat) (hr : r < 2 ^ k) :
    let P := stages (2 ^ k) (fun r => { tree := own r, n2 := [], lo := lo r, hi := hi r }) i r
    P.tree.Perm ((group (2 ^ k) i r).flatMap own) ∧
      ((∀ s ∈ group (2 ^ k) i r, P.lo ≤ lo s) ∧ ∃ s ∈ group (2 ^ k) i r, P.lo = lo s) ∧ ((∀ s ∈ group (2 ^ k) i r, hi s ≤ P.hi) ∧ ∃ s ∈ group (2 ^ k) i r, P.hi = hi s) := by
  induction i generalizing r with
  | zero =>
    have hg : group (2 ^ k) 0 r = [r] := by
      unfold group
      simp only [pow_zero, Nat.div_one]
      rw [List.filter_eq]
      simp [List.count_range, hr]
    simp only [stages, hg]
    simp
  | succ i ih =>
    have hp : r ^^^ 2 ^ i < 2 ^ k := Nat.xor_lt_two_pow hr (Nat.pow_lt_pow_right (by decide) (by omega))
    obtain ⟨a1, ⟨a2, a3⟩, a4, a5⟩ := ih (by omega) r hr
    obtain ⟨b1, ⟨b2, b3⟩, b4, b5⟩ := ih (by omega) _ hp
    have hpart : partner (2 ^ k) i r = some (r ^^^ 2 ^ i) := by unfold partner; simp only; rw [if_pos hp]
    have hpart2 : ∀ r, partner2 (2 ^ k) i r = none := by intro r; unfold partner2; rw [(log_two_pow k).1]; simp
    obtain ⟨S, hS⟩ : ∃ S, S = stages (2 ^ k) (fun r => ({ tree := own r, n2 := [], lo := lo r, hi := hi r } : Proc α)) i := ⟨_, rfl⟩
    rw [← hS] at a1 a2 a3 a4 a5 b1 b2 b3 b4 b5
    have hstep : stages (2 ^ k) (fun r => ({ tree := own r, n2 := [], lo := lo r, hi := hi r } : Proc α)) (i + 1) r =
        { S r with tree := load r (S r).tree (S (r ^^^ 2 ^ i)).tree, lo := min (S (r ^^^ 2 ^ i)).lo (S r).lo, hi := max (S (r ^^^ 2 ^ i)).hi (S r).hi } := by
      show second (2 ^ k) i (first (2 ^ k) i (stages (2 ^ k) _ i)) r = _
      rw [← hS]
      unfold second
      rw [hpart2]
      show first (2 ^ k) i S r = _
      unfold first
      rw [hpart]
    rw [hstep]
    have hgrp := group_succ (2 ^ k) i r
    have hmem : ∀ s, s ∈ group (2 ^ k) (i + 1) r ↔ s ∈ group (2 ^ k) i r ∨ s ∈ group (2 ^ k) i (r ^^^ 2 ^ i) := fun s => by rw [← hgrp.mem_iff, List.mem_append]
    refine ⟨?_, ⟨?_, ?_⟩, ?_, ?_⟩
    · have hfil : (S (r ^^^ 2 ^ i)).tree.filter (fun x => decide (x.owner ≠ r)) = (S (r ^^^ 2 ^ i)).tree := by
        rw [List.filter_eq_self]
        intro x hx
        obtain ⟨s, hs, hxs⟩ := List.mem_flatMap.1 (b1.mem_iff.1 hx)
        obtain ⟨hs1, hs2⟩ := (mem_group _ _ _ _).1 hs
        rw [decide_eq_true_eq, ho s hs1 x hxs]
        rintro rfl
        rw [div_xor] at hs2
        have := (xor_one (s / 2 ^ i)).2
        rw [← hs2] at this
        omega
      show (load r (S r).tree (S (r ^^^ 2 ^ i)).tree).Perm _
      unfold load
      rw [hfil]
      refine (a1.append b1).trans ?_
      rw [← List.flatMap_append]
      exact hgrp.flatMap_right own
    · intro s hs
      rcases (hmem s).1 hs with h | h
      · exact (min_le_right _ _).trans (a2 s h)
      · exact (min_le_left _ _).trans (b2 s h)
    · rcases min_choice (S (r ^^^ 2 ^ i)).lo (S r).lo with h | h
      · obtain ⟨s, h1, h2⟩ := b3
        exact ⟨s, (hmem s).2 (Or.inr h1), h.trans h2⟩
      · obtain ⟨s, h1, h2⟩ := a3
        exact ⟨s, (hmem s).2 (Or.inl h1), h.trans h2⟩
    · intro s hs
      rcases (hmem s).1 hs with h | h
      · exact (a4 s h).trans (le_max_right _ _)
      · exact (b4 s h).trans (le_max_left _ _)
    · rcases max_choice (S (r ^^^ 2 ^ i)).hi (S r).hi with h | h
      · obtain ⟨s, h1, h2⟩ := b5
        exact ⟨s, (hmem s).2 (Or.inr h1), h.trans h2⟩
      · obtain ⟨s, h1, h2⟩ := a5
        exact ⟨s, (hmem s).2 (Or.inl h1), h.trans h2⟩

/-- If the number of processes is a power of two, then at the end each process has the boundary nodes and entities of all processes, each once, and its bounds are those of all processes. -/
theorem C17_power_partial (k : Nat) (own : Nat → List (Item α)) (lo hi : Nat → Int) (ho : ∀ r < 2 ^ k, ∀ x ∈ own r, x.owner = r) (r : Nat) (hr : r < 2 ^ k) :
    let P := shareNodes (2 ^ k) own lo hi r
    P.tree.Perm ((List.range (2 ^ k)).flatMap own) ∧ ((∀ s < 2 ^ k, P.lo ≤ lo s) ∧ ∃ s < 2 ^ k, P.lo = lo s) ∧ ((∀ s < 2 ^ k, hi s ≤ P.hi) ∧ ∃ s < 2 ^ k, P.hi = hi s) := by
  have h := stages_power k own lo hi ho k le_rfl r hr
  have hg : group (2 ^ k) k r = List.range (2 ^ k) := by
    unfold group
    rw [List.filter_eq_self]
    intro s hs
    rw [decide_eq_true_eq, Nat.div_eq_of_lt hr, Nat.div_eq_of_lt (List.mem_range.1 hs)]
  rw [hg] at h
  simp only [List.mem_range] at h
  unfold shareNodes
  rw [(log_two_pow k).2]
  exact h

/-- Each of `r` has an item. -/
def sample (r : Nat) : List (Item Nat) := [{ owner := r, val := 10 * r }]

example : ∀ r < 4, ∀ x ∈ sample r, x.owner = r := by simp [sample]

example : ((shareNodes 4 sample (fun r => r) (fun r => r + 1) 2).tree.map Item.val, (shareNodes 4 sample (fun r => r) (fun r => r + 1) 2).lo) = ([20, 30, 0, 10], 0) := by decide +kernel

theorem dim_nonpower (D size : Nat) (h1 : 2 ^ D < size) (h2 : size < 2 ^ (D + 1)) : nonPower2 size = true ∧ dim size = D + 1 := by
  have hl : Nat.log 2 size = D := Nat.log_eq_of_pow_le_of_lt_pow h1.le h2
  have h : nonPower2 size = true := by unfold nonPower2; rw [hl]; simpa using h1
  refine ⟨h, ?_⟩
  unfold dim; rw [h, hl]; simp

/-- The upper half of the processes. -/
theorem div_half (D i r : Nat) (hi : i < D) : (r ^^^ 2 ^ i) / 2 ^ D = r / 2 ^ D := by
  rw [Nat.xor_div_two_pow, Nat.div_eq_of_lt (Nat.pow_lt_pow_right (by decide) hi)]
  simp

/-- Before the last stage nothing from the upper half is in the lower half, and `n2` is empty. -/
theorem stages_nonpower (D size : Nat) (h1 : 2 ^ D < size) (h2 : size < 2 ^ (D + 1)) (own : Nat → List (Item α)) (lo hi : Nat → Int) (ho : ∀ r < size, ∀ x ∈ own r, x.owner = r) (i : Nat)
    (hi' : i ≤ D) (r : Nat) (hr : r < size) :
    let P := stages size (fun r => { tree := own r, n2 := [], lo := lo r, hi := hi r }) i r
    P.n2 = [] ∧ (r < 2 ^ D → ∀ x ∈ P.tree, x.owner < 2 ^ D) := by
  obtain ⟨hn, hd⟩ := dim_nonpower D size h1 h2
  have hT : 2 ^ (D + 1) = 2 * 2 ^ D := by rw [pow_succ]; ring
  induction i generalizing r with
  | zero => exact ⟨rfl, fun hlt x hx => by rw [ho r hr x hx]; exact hlt⟩
  | succ i ih =>
    obtain ⟨S, hS⟩ : ∃ S, S = stages size (fun r => ({ tree := own r, n2 := [], lo := lo r, hi := hi r } : Proc α)) i := ⟨_, rfl⟩
    have ih : ∀ r < size, (S r).n2 = [] ∧ (r < 2 ^ D → ∀ x ∈ (S r).tree, x.owner < 2 ^ D) := fun r hr => by rw [hS]; exact ih (by omega) r hr
    have hF : ∀ r < size, (first size i S r).n2 = [] ∧ (r < 2 ^ D → ∀ x ∈ (first size i S r).tree, x.owner < 2 ^ D) := by
      intro r hr
      unfold first
      cases hp : partner size i r with
      | none => exact ih r hr
      | some p =>
        unfold partner at hp
        simp only at hp
        split_ifs at hp with hps
        obtain rfl := Option.some.inj hp
        refine ⟨(ih r hr).1, fun hlt x hx => ?_⟩
        have hx : x ∈ load r (S r).tree (S (r ^^^ 2 ^ i)).tree := hx
        rcases List.mem_append.1 hx with hx | hx
        · exact (ih r hr).2 hlt x hx
        · refine (ih _ hps).2 ?_ x (List.mem_filter.1 hx).1
          have := div_half D i r (by omega)
          rw [Nat.div_eq_of_lt hlt] at this
          rcases Nat.div_eq_zero_iff.1 this with h | h
          · simp at h
          · exact h
    have hst : stages size (fun r => ({ tree := own r, n2 := [], lo := lo r, hi := hi r } : Proc α)) (i + 1) r = second size i (first size i S) r := by rw [hS]; rfl
    rw [hst]
    obtain ⟨F, hFdef⟩ : ∃ F, F = first size i S := ⟨_, rfl⟩
    show (second size i (first size i S) r).n2 = [] ∧ (r < 2 ^ D → ∀ x ∈ (second size i (first size i S) r).tree, x.owner < 2 ^ D)
    rw [← hFdef] at hF ⊢
    unfold second
    cases hp : partner2 size i r with
    | none => exact hF r hr
    | some p =>
      -- the partner is not the process itself before the last stage
      have hpr : p ≠ r := by
        rintro rfl
        unfold partner2 at hp
        rw [if_pos hn] at hp
        simp only [hd, Nat.add_sub_cancel] at hp
        have hg : ghostsRank size p = if p < 2 ^ D then p + 2 ^ D else p := by
          unfold ghostsRank
          simp only [hd, Nat.add_sub_cancel]
          split_ifs <;> omega
        have hhalf := div_half D i (ghostsRank size p) (by omega)
        have hne : ghostsRank size p ^^^ 2 ^ i ≠ ghostsRank size p := by
          intro he
          have := div_xor (ghostsRank size p) i
          rw [he] at this
          have h3 := (xor_one (ghostsRank size p / 2 ^ i)).2
          rw [← this] at h3
          omega
        have hlow : ¬ ghostsRank size p < 2 ^ D := by rw [hg]; split_ifs <;> omega
        have hlow' : ¬ ghostsRank size p ^^^ 2 ^ i < 2 ^ D := by
          intro hl
          rw [Nat.div_eq_of_lt hl] at hhalf
          rcases Nat.div_eq_zero_iff.1 hhalf.symm with h | h
          · simp at h
          · exact hlow h
        have hup : ghostsRank size p ^^^ 2 ^ i < 2 ^ (D + 1) :=
          Nat.xor_lt_two_pow (by rw [hg]; split_ifs <;> omega) (Nat.pow_lt_pow_right (by decide) (by omega))
        split_ifs at hp with c1 c2 c3 c4
        · simp only [Option.some.injEq] at hp
          rw [hg] at hp hne c1 c2 c3 c4 hlow' hup
          split_ifs at * <;> omega
        · simp only [Option.some.injEq] at hp
          rw [hg] at hp hne c1 c2 c3 c4 hlow' hup
          split_ifs at * <;> omega
      have hps : (sent2 size F r) = [] ∨ ¬ r < 2 ^ D := by
        by_cases hlt : r < 2 ^ D
        · left
          unfold sent2 ghostsRank
          simp only [hd, Nat.add_sub_cancel]
          rw [if_neg (show ¬ r + 2 ^ D > 2 ^ (D + 1) - 1 by omega), if_neg (by have := Nat.two_pow_pos D; omega)]
          exact (hF r hr).1
        · exact Or.inr hlt
      simp only [if_neg hpr]
      split_ifs with hg
      · refine ⟨(hF r hr).1, fun hlt => ?_⟩
        exfalso
        unfold ghostsRank at hg
        simp only [hd, Nat.add_sub_cancel] at hg
        rw [if_neg (show ¬ r + 2 ^ D > 2 ^ (D + 1) - 1 by omega)] at hg
        have := Nat.two_pow_pos D
        omega
      · refine ⟨?_, (hF r hr).2⟩
        show (F r).n2 ++ sent2 size F r = []
        rw [(hF r hr).1]
        rcases hps with h | h
        · rw [h]; rfl
        · exfalso
          apply hg
          unfold ghostsRank
          simp only [hd, Nat.add_sub_cancel]
          rw [if_pos (by omega)]

/-- In every stage the partners of both exchanges are symmetric, for every number of processes: a process which exchanges with `p` is the one `p` exchanges with. So the exchanges of a stage
always meet, and none waits for ever. -/
theorem C17_matched (size i r p : Nat) (hr : r < size) (hi : i < dim size) :
    (partner size i r = some p → p < size ∧ partner size i p = some r) ∧ (partner2 size i r = some p → p < size ∧ partner2 size i p = some r) := by
  have hback : ∀ a, (a ^^^ 2 ^ i) ^^^ 2 ^ i = a := fun a => by rw [Nat.xor_assoc, Nat.xor_self, Nat.xor_zero]
  constructor
  · intro h
    unfold partner at h ⊢
    simp only at h ⊢
    split_ifs at h with hp
    obtain rfl := Option.some.inj h
    rw [hback, if_pos hr]
    exact ⟨hp, rfl⟩
  · intro h
    by_cases hn : nonPower2 size = true
    · obtain ⟨D, h1, h2⟩ : ∃ D, 2 ^ D < size ∧ size < 2 ^ (D + 1) :=
        ⟨Nat.log 2 size, by unfold nonPower2 at hn; simpa using hn, Nat.lt_pow_succ_log_self (by decide) size⟩
      have hd := (dim_nonpower D size h1 h2).2
      have hT : 2 ^ (D + 1) = 2 * 2 ^ D := by rw [pow_succ]; ring
      have hpos := Nat.two_pow_pos D
      have hg : ∀ r, ghostsRank size r = if r < 2 ^ D then r + 2 ^ D else r := by
        intro r
        unfold ghostsRank
        simp only [hd, Nat.add_sub_cancel]
        split_ifs <;> omega
      have hlast : ∀ a, 2 ^ D ≤ a → a < 2 ^ (D + 1) → a ^^^ 2 ^ D = a - 2 ^ D := by
        intro a ha ha'
        have e1 : (a ^^^ 2 ^ D) / 2 ^ D = 0 := by
          rw [Nat.xor_div_two_pow, Nat.div_self hpos, Nat.div_eq_of_lt_le (k := 1) (by omega) (by omega)]
          rfl
        have e2 : (a ^^^ 2 ^ D) % 2 ^ D = a % 2 ^ D := by rw [Nat.xor_mod_two_pow]; simp
        have e3 : a % 2 ^ D = a - 2 ^ D := by rw [Nat.mod_eq_sub_mod ha, Nat.mod_eq_of_lt (by omega)]
        have := Nat.div_add_mod (a ^^^ 2 ^ D) (2 ^ D)
        rw [e1, e2, e3] at this
        omega
      have hhigh : ∀ a, 2 ^ D ≤ a → a < 2 ^ (D + 1) → i < D → 2 ^ D ≤ a ^^^ 2 ^ i := by
        intro a ha ha' hiD
        by_contra hlt
        have := div_half D i a hiD
        rw [Nat.div_eq_of_lt (by omega)] at this
        rcases Nat.div_eq_zero_iff.1 this.symm with h | h <;> omega
      have hup : ∀ a, a < 2 ^ (D + 1) → a ^^^ 2 ^ i < 2 ^ (D + 1) := fun a ha => Nat.xor_lt_two_pow ha (Nat.pow_lt_pow_right (by decide) (by omega))
      have eval : ∀ r, partner2 size i r = if r ≠ ghostsRank size r ∧ ghostsRank size r ≤ size - 1 then none
          else if ghostsRank size r = r ∧ ghostsRank size r ^^^ 2 ^ i < size then none
          else if ghostsRank size r > size ∧ ghostsRank size r ^^^ 2 ^ i > size then none
          else some (if ghostsRank size r ^^^ 2 ^ i ≥ size then (ghostsRank size r ^^^ 2 ^ i) - 2 ^ D else ghostsRank size r ^^^ 2 ^ i) := by
        intro r
        unfold partner2
        rw [if_pos hn]
        simp only [hd, Nat.add_sub_cancel]
      rw [eval] at h
      by_cases hrT : r < 2 ^ D
      · have hgr : ghostsRank size r = r + 2 ^ D := by rw [hg, if_pos hrT]
        rw [hgr] at h
        split_ifs at h with c1 c2 c3 c4
        · -- the partner is a process which does not exist, represented by another one
          have hp : p = ((r + 2 ^ D) ^^^ 2 ^ i) - 2 ^ D := (Option.some.inj h).symm
          have u := hup (r + 2 ^ D) (by omega)
          have hgp : ghostsRank size p = (r + 2 ^ D) ^^^ 2 ^ i := by rw [hg, if_pos (by omega)]; omega
          refine ⟨by omega, ?_⟩
          rw [eval, hgp, hback, if_neg (by omega), if_neg (by omega), if_neg (by omega), if_pos (by omega)]
          congr 1; omega
        · have hp : p = (r + 2 ^ D) ^^^ 2 ^ i := (Option.some.inj h).symm
          rcases Nat.lt_or_ge i D with hiD | hiD
          · have hh := hhigh (r + 2 ^ D) (by omega) (by omega) hiD
            have hgp : ghostsRank size p = p := by rw [hg, if_neg (by omega)]
            refine ⟨by omega, ?_⟩
            rw [eval, hgp, hp, hback, if_neg (by omega), if_neg (by omega), if_neg (by omega), if_pos (by omega)]
            congr 1; omega
          · obtain rfl : i = D := by omega
            have hpr : p = r := by rw [hp, hlast (r + 2 ^ i) (by omega) (by omega)]; omega
            refine ⟨by omega, ?_⟩
            rw [hpr, eval, hgr, if_neg c1, if_neg c2, if_neg c3, if_neg c4, ← hp, hpr]
      · have hgr : ghostsRank size r = r := by rw [hg, if_neg hrT]
        rw [hgr] at h
        split_ifs at h with c1 c2 c3 c4
        · have hp : p = (r ^^^ 2 ^ i) - 2 ^ D := (Option.some.inj h).symm
          have u := hup r (by omega)
          have hgp : ghostsRank size p = r ^^^ 2 ^ i := by rw [hg, if_pos (by omega)]; omega
          refine ⟨by omega, ?_⟩
          rw [eval, hgp, hback, if_neg (by omega), if_neg (by omega), if_neg (by omega), if_neg (by omega)]
        · omega
    · unfold partner2 at h
      rw [if_neg hn] at h
      exact absurd h (by simp)

example : partner2 6 1 2 = some 4 ∧ partner2 6 1 4 = some 2 ∧ partner 6 1 4 = none := by decide +kernel

/-- For every other number of processes something is missing: let 2^D be the largest power of two below it. Process 2^D - 1 gets nothing from the processes from 2^D on. -/
theorem C17_other_violated (D size : Nat) (h1 : 2 ^ D < size) (h2 : size < 2 ^ (D + 1)) (own : Nat → List (Item α)) (lo hi : Nat → Int) (ho : ∀ r < size, ∀ x ∈ own r, x.owner = r) (s : Nat)
    (hs : 2 ^ D ≤ s) (hs' : s < size) : ∀ x ∈ own s, x ∉ (shareNodes size own lo hi (2 ^ D - 1)).tree := by
  obtain ⟨hn, hd⟩ := dim_nonpower D size h1 h2
  have hT : 2 ^ (D + 1) = 2 * 2 ^ D := by rw [pow_succ]; ring
  have hpos := Nat.two_pow_pos D
  intro x hx hmem
  have hox := ho s hs' x hx
  obtain ⟨S, hS⟩ : ∃ S, S = stages size (fun r => ({ tree := own r, n2 := [], lo := lo r, hi := hi r } : Proc α)) D := ⟨_, rfl⟩
  have inv := stages_nonpower D size h1 h2 own lo hi ho D le_rfl (2 ^ D - 1) (by omega)
  simp only [← hS] at inv
  have hxor : (2 ^ D - 1) ^^^ 2 ^ D = 2 ^ (D + 1) - 1 := by
    have e : (2 ^ D - 1) ^^^ 2 ^ D = 2 ^ D + (2 ^ D - 1) := by
      apply Nat.eq_of_testBit_eq
      intro j
      rw [Nat.testBit_xor, Nat.testBit_two_pow_sub_one, Nat.testBit_two_pow, show 2 ^ D + (2 ^ D - 1) = 2 ^ (D + 1) - 1 by omega, Nat.testBit_two_pow_sub_one]
      by_cases hj : j < D
      · simp [hj, show D ≠ j by omega, show j < D + 1 by omega]
      · by_cases hj' : j = D
        · simp [hj']
        · simp [hj, show D ≠ j by omega, show ¬ j < D + 1 by omega]
    rw [e]; omega
  have hpart : partner size D (2 ^ D - 1) = none := by
    unfold partner
    simp only [hxor]
    rw [if_neg (by omega)]
  have hfirst : first size D S (2 ^ D - 1) = S (2 ^ D - 1) := by unfold first; rw [hpart]
  have hgr : ghostsRank size (2 ^ D - 1) = 2 ^ (D + 1) - 1 := by
    unfold ghostsRank
    simp only [hd, Nat.add_sub_cancel]
    rw [if_neg (by omega)]; omega
  have hback : (2 ^ (D + 1) - 1) ^^^ 2 ^ D = 2 ^ D - 1 := by rw [← hxor, Nat.xor_assoc, Nat.xor_self, Nat.xor_zero]
  have hpart2 : partner2 size D (2 ^ D - 1) = some (2 ^ D - 1) := by
    unfold partner2
    rw [if_pos hn]
    simp only [hgr, hback]
    rw [if_neg (by omega), if_neg (by omega), if_neg (by omega), if_neg (by omega)]
  have hfin : (shareNodes size own lo hi (2 ^ D - 1)).tree = load (2 ^ D - 1) (S (2 ^ D - 1)).tree ((S (2 ^ D - 1)).n2 ++ (S (2 ^ D - 1)).tree) := by
    unfold shareNodes
    rw [hd]
    show (second size D (first size D (stages size _ D)) (2 ^ D - 1)).tree = _
    rw [← hS]
    unfold second
    rw [hpart2]
    simp only [if_true]
    rw [hfirst]
  rw [hfin, inv.1, List.nil_append] at hmem
  have hbelow := inv.2 (by omega)
  have : x ∈ (S (2 ^ D - 1)).tree := by
    rcases List.mem_append.1 hmem with h | h
    · exact h
    · exact (List.mem_filter.1 h).1
  have := hbelow x this
  omega

example : ∃ D, 2 ^ D < 6 ∧ 6 < 2 ^ (D + 1) := ⟨2, by decide, by decide⟩

/-- On three processes, process 1 takes over the bounds of process 2 without its nodes: its bounds are those of all processes, so it computes the root of the tree, without the particles of process 2. -/
theorem C17_three_violated (own : Nat → List (Item α)) (lo hi : Nat → Int) (ho : ∀ r < 3, ∀ x ∈ own r, x.owner = r) :
    let P := shareNodes 3 own lo hi 1
    (∀ s < 3, P.lo ≤ lo s) ∧ (∀ s < 3, hi s ≤ P.hi) ∧ ∀ x ∈ own 2, x ∉ P.tree := by
  refine ⟨?_, ?_, C17_other_violated 1 3 (by decide) (by decide) own lo hi ho 2 (by decide) (by decide)⟩
  · have : (shareNodes 3 own lo hi 1).lo = min (lo 2) (min (lo 0) (lo 1)) := rfl
    rw [this]
    intro s hs
    have : s = 0 ∨ s = 1 ∨ s = 2 := by omega
    rcases this with rfl | rfl | rfl <;> simp
  · have : (shareNodes 3 own lo hi 1).hi = max (hi 2) (max (hi 0) (hi 1)) := rfl
    rw [this]
    intro s hs
    have : s = 0 ∨ s = 1 ∨ s = 2 := by omega
    rcases this with rfl | rfl | rfl <;> simp

end FleCSPH.Share
