import Verif.Model.Tensor
import Mathlib.Data.List.Sort
import Mathlib.Data.Nat.Choose.Basic
import Mathlib.Data.Nat.Choose.Sum
import Mathlib.Data.Nat.Factorial.Basic
import Mathlib.Data.Sym.Card
import Mathlib.Tactic.Linarith
/-!
C45: in a symmetric tensor of rank 2, 3 or 4 every permutation of the indices addresses the same slot, different multisets of indices different slots, all slots
exist and all are used; the names address the same slots.
-/
namespace FleCSPH
open Tensor

namespace Tensor

/-- The rank of a descending list of indices among all such lists. -/
def rankOf : List Nat → Nat
  | [] => 0
  | a :: l => (a + l.length).choose (l.length + 1) + rankOf l

abbrev Desc (l : List Nat) : Prop := l.Pairwise (· ≥ ·)

theorem rankOf_lt (l : List Nat) (h : Desc l) (n : Nat) (hn : ∀ a ∈ l, a ≤ n) : rankOf l < (n + l.length).choose l.length := by
  induction l generalizing n with
  | nil => simp [rankOf]
  | cons a l ih =>
    have hl := List.pairwise_cons.1 h
    have h1 := ih hl.2 a (fun b hb => hl.1 b hb)
    have h2 : (a + l.length + 1).choose (l.length + 1) ≤ (n + (l.length + 1)).choose (l.length + 1) :=
      Nat.choose_le_choose _ (by have := hn a List.mem_cons_self; omega)
    rw [Nat.choose_succ_succ'] at h2
    simp only [rankOf, List.length_cons]
    omega

theorem rankOf_inj (l l' : List Nat) (h : Desc l) (h' : Desc l') (hlen : l.length = l'.length) (he : rankOf l = rankOf l') : l = l' := by
  have key : ∀ (a b : Nat) (l l' : List Nat), Desc (a :: l) → l.length = l'.length → a < b → rankOf (a :: l) < rankOf (b :: l') := by
    intro a b l l' h hlen hab
    have h1 := rankOf_lt (a :: l) h a (fun c hc => by
      rcases List.mem_cons.1 hc with rfl | hc
      · exact le_rfl
      · exact (List.pairwise_cons.1 h).1 c hc)
    have h2 : (a + (l.length + 1)).choose (l.length + 1) ≤ (b + l'.length).choose (l'.length + 1) := by
      rw [← hlen]; exact Nat.choose_le_choose _ (by omega)
    simp only [List.length_cons] at h1
    have h3 : rankOf (b :: l') = (b + l'.length).choose (l'.length + 1) + rankOf l' := rfl
    omega
  induction l generalizing l' with
  | nil => exact (List.length_eq_zero_iff.1 (by simpa using hlen.symm)).symm
  | cons a l ih =>
    cases l' with
    | nil => simp at hlen
    | cons b l' =>
      have hlen' : l.length = l'.length := by simpa using hlen
      rcases lt_trichotomy a b with hab | hab | hab
      · have := key a b l l' h hlen' hab; omega
      · subst hab
        rw [ih l' (List.pairwise_cons.1 h).2 (List.pairwise_cons.1 h').2 hlen' (by simp only [rankOf, hlen'] at he; omega)]
      · have := key b a l' l h' hlen'.symm hab; omega

theorem rankOf_surj (r n s : Nat) (hs : s < (n + r).choose r) : ∃ l, Desc l ∧ l.length = r ∧ (∀ a ∈ l, a ≤ n) ∧ rankOf l = s := by
  induction r generalizing n s with
  | zero => exact ⟨[], by simp, rfl, by simp, by simp [rankOf] at hs ⊢; omega⟩
  | succ r ih =>
    have hex : ∃ a, a ≤ n ∧ (a + r).choose (r + 1) ≤ s ∧ s < (a + 1 + r).choose (r + 1) := by
      induction n with
      | zero => exact ⟨0, le_rfl, by simp, by simpa [Nat.add_comm, Nat.add_assoc, Nat.add_left_comm] using hs⟩
      | succ n ihn =>
        by_cases hc : (n + 1 + r).choose (r + 1) ≤ s
        · exact ⟨n + 1, le_rfl, hc, by rw [show n + 1 + 1 + r = n + 1 + (r + 1) by omega]; exact hs⟩
        · obtain ⟨a, h1, h2, h3⟩ := ihn (by rw [show n + (r + 1) = n + 1 + r by omega]; omega)
          exact ⟨a, by omega, h2, h3⟩
    obtain ⟨a, h1, h2, h3⟩ := hex
    rw [show a + 1 + r = a + r + 1 by omega, Nat.choose_succ_succ'] at h3
    obtain ⟨l, l1, l2, l3, l4⟩ := ih a (s - (a + r).choose (r + 1)) (by omega)
    refine ⟨a :: l, List.pairwise_cons.2 ⟨fun b hb => l3 b hb, l1⟩, by simp [l2], ?_, ?_⟩
    · intro b hb
      rcases List.mem_cons.1 hb with rfl | hb
      · exact h1
      · exact (l3 b hb).trans h1
    · simp only [rankOf, l2, l4]; omega

/-- Descending order. -/
def sortDesc (l : List Nat) : List Nat := l.insertionSort (· ≥ ·)

theorem sortDesc_desc (l : List Nat) : Desc (sortDesc l) := List.pairwise_insertionSort _ l

theorem sortDesc_perm (l : List Nat) : (sortDesc l).Perm l := List.perm_insertionSort _ l

theorem sortDesc_eq (l l' : List Nat) (h : l.Perm l') : sortDesc l = sortDesc l' := by
  refine List.Perm.eq_of_pairwise (le := (· ≥ ·)) ?_ (sortDesc_desc l) (sortDesc_desc l') (((sortDesc_perm l).trans h).trans (sortDesc_perm l').symm)
  intro a b _ _ h1 h2
  exact le_antisymm h2 h1

theorem sortDesc_max (m : Nat) (l : List Nat) (h : ∀ a ∈ l, a ≤ m) : sortDesc (m :: l) = m :: sortDesc l := by
  refine List.Perm.eq_of_pairwise (le := (· ≥ ·)) ?_ (sortDesc_desc _) ?_ ((sortDesc_perm _).trans ((sortDesc_perm l).symm.cons m))
  · intro a b _ _ h1 h2
    exact le_antisymm h2 h1
  · exact List.pairwise_cons.2 ⟨fun b hb => h b ((sortDesc_perm l).mem_iff.1 hb), sortDesc_desc l⟩

theorem rank_max (m : Nat) (l l' : List Nat) (hp : l'.Perm (m :: l)) (h : ∀ a ∈ l, a ≤ m) :
    rankOf (sortDesc l') = (m + l.length).choose (l.length + 1) + rankOf (sortDesc l) := by
  rw [sortDesc_eq _ _ hp, sortDesc_max m l h, rankOf, (sortDesc_perm l).length_eq]

theorem tri2 (i : Nat) : i * (i + 1) / 2 = (i + 1).choose 2 := by
  rw [Nat.choose_two_right, Nat.add_sub_cancel, Nat.mul_comm]

theorem tri3 (i : Nat) : i * (i + 1) * (i + 2) / 6 = (i + 2).choose 3 := by
  rw [Nat.choose_eq_descFactorial_div_factorial]
  simp only [Nat.descFactorial, Nat.factorial]
  congr 1
  simp only [Nat.add_sub_cancel, Nat.sub_zero, show i + 2 - 1 = i + 1 by omega]
  ring

theorem tri4 (i : Nat) : i * (i + 1) * (i + 2) * (i + 3) / 24 = (i + 3).choose 4 := by
  rw [Nat.choose_eq_descFactorial_div_factorial]
  simp only [Nat.descFactorial, Nat.factorial]
  congr 1
  simp only [Nat.add_sub_cancel, Nat.sub_zero, show i + 3 - 1 = i + 2 by omega, show i + 3 - 2 = i + 1 by omega]
  ring

theorem index2 (i j : Nat) : symindx2 i j = rankOf (sortDesc [i, j]) := by
  unfold symindx2
  split
  · rename_i h
    rw [rank_max i [j] [i, j] (List.Perm.refl _) (by simp; omega), rank_max j [] [j] (List.Perm.refl _) (by simp), tri2]
    simp [rankOf, sortDesc]
  · rename_i h
    rw [rank_max j [i] [i, j] (List.Perm.swap _ _ _) (by simp; omega), rank_max i [] [i] (List.Perm.refl _) (by simp), tri2]
    simp [rankOf, sortDesc]

theorem index3 (i j k : Nat) : symindx3 i j k = rankOf (sortDesc [i, j, k]) := by
  unfold symindx3
  split
  · rename_i h
    rw [rank_max i [j, k] _ (List.Perm.refl _) (by simp; omega), index2, tri3]; rfl
  · split
    · rename_i h
      rw [rank_max j [i, k] _ (List.Perm.swap _ _ _) (by simp; omega), index2, tri3]; rfl
    · rw [rank_max k [i, j] _ (((List.Perm.swap k j []).cons i).trans (List.Perm.swap k i [j])) (by simp; omega), index2, tri3]; rfl

theorem index4 (i j k l : Nat) : symindx4 i j k l = rankOf (sortDesc [i, j, k, l]) := by
  unfold symindx4
  split
  · rename_i h
    rw [rank_max i [j, k, l] _ (List.Perm.refl _) (by simp; omega), index3, tri4]; rfl
  · split
    · rename_i h
      rw [rank_max j [i, k, l] _ (List.Perm.swap _ _ _) (by simp; omega), index3, tri4]; rfl
    · split
      · rw [rank_max k [i, j, l] _ (((List.Perm.swap k j [l]).cons i).trans (List.Perm.swap k i [j, l])) (by simp; omega), index3, tri4]; rfl
      · rw [rank_max l [i, j, k] _ ((((List.Perm.swap l k []).cons j).cons i).trans (((List.Perm.swap l j [k]).cons i).trans (List.Perm.swap l i [j, k])))
          (by simp; omega), index3, tri4]; rfl

theorem symmetricIndex_eq (is : List Nat) (h : 2 ≤ is.length) (h' : is.length ≤ 4) : symmetricIndex is = some (rankOf (sortDesc is)) := by
  match is, h, h' with
  | [i, j], _, _ => exact congrArg some (index2 i j)
  | [i, j, k], _, _ => exact congrArg some (index3 i j k)
  | [i, j, k, l], _, _ => exact congrArg some (index4 i j k l)

theorem pascal_choose (r i : Nat) : pascalNumber r (i + 1) = (i + r).choose r := by
  induction r generalizing i with
  | zero => simp [pascalNumber]
  | succ r ih =>
    rw [pascalNumber, ih]
    apply Nat.div_eq_of_eq_mul_left (Nat.succ_pos r)
    have := Nat.choose_succ_right_eq (i + (r + 1)) r
    rw [this, show i + (r + 1) - r = i + 1 by omega, Nat.mul_comm, show i + 1 + r = i + (r + 1) by omega]

end Tensor

/-- Ranks 2, 3 and 4, every dimension, all index tuples: the tuple has a slot inside the storage, and two tuples have the same slot exactly when one is a
permutation of the other. -/
theorem C45_symmetric (D : Nat) (is js : List Nat) (h2 : 2 ≤ is.length) (h4 : is.length ≤ 4) (hlen : js.length = is.length) (hi : ∀ i ∈ is, i < D) :
    ∃ s t, symmetricIndex is = some s ∧ symmetricIndex js = some t ∧ s < symmetricSize is.length D ∧ (s = t ↔ is.Perm js) := by
  refine ⟨_, _, symmetricIndex_eq is h2 h4, symmetricIndex_eq js (by omega) (by omega), ?_, ?_⟩
  · obtain ⟨D, rfl⟩ : ∃ E, D = E + 1 := by
      cases is with
      | nil => simp at h2
      | cons a l => exact ⟨D - 1, by have := hi a List.mem_cons_self; omega⟩
    unfold symmetricSize
    rw [pascal_choose]
    have := rankOf_lt (sortDesc is) (sortDesc_desc is) D (fun a ha => by have := hi a ((sortDesc_perm is).mem_iff.1 ha); omega)
    rwa [(sortDesc_perm is).length_eq] at this
  · constructor
    · intro h
      have := rankOf_inj _ _ (sortDesc_desc is) (sortDesc_desc js) (by rw [(sortDesc_perm is).length_eq, (sortDesc_perm js).length_eq, hlen]) h
      exact (sortDesc_perm is).symm.trans (this ▸ sortDesc_perm js)
    · intro h
      rw [sortDesc_eq _ _ h]

/-- Every slot is the slot of some tuple. -/
theorem C45_all_used (rank D s : Nat) (h2 : 2 ≤ rank) (h4 : rank ≤ 4) (hs : s < symmetricSize rank D) :
    ∃ is : List Nat, is.length = rank ∧ (∀ i ∈ is, i < D) ∧ symmetricIndex is = some s := by
  cases D with
  | zero =>
    have : symmetricSize rank 0 = 0 := by
      unfold symmetricSize
      cases rank with
      | zero => omega
      | succ r => simp [pascalNumber]
    omega
  | succ D =>
    unfold symmetricSize at hs
    rw [pascal_choose] at hs
    obtain ⟨l, l1, l2, l3, l4⟩ := rankOf_surj rank D s hs
    refine ⟨l, l2, fun i hi => by have := l3 i hi; omega, ?_⟩
    rw [symmetricIndex_eq l (by omega) (by omega)]
    have : sortDesc l = l := by
      refine List.Perm.eq_of_pairwise (le := (· ≥ ·)) ?_ (sortDesc_desc l) l1 (sortDesc_perm l)
      intro a b _ _ h1 h2
      exact le_antisymm h2 h1
    rw [this, l4]

/-- The storage has one slot for every multiset of indices. -/
theorem C45_size (rank D : Nat) : symmetricSize rank D = Fintype.card (Sym (Fin D) rank) := by
  rw [Sym.card_sym_eq_multichoose, Fintype.card_fin]
  unfold symmetricSize
  cases D with
  | zero =>
    cases rank with
    | zero => simp [pascalNumber]
    | succ r => simp [pascalNumber]
  | succ D => rw [pascal_choose, Nat.multichoose_eq, show D + 1 + rank - 1 = D + rank by omega]

/-- Every name of an index of rank 2, 3 or 4: in dimensions 1 to 4, when the axes in the name exist, the name addresses the slot of the numbers of its axes; when
one does not exist, an assertion fails. In more than four dimensions names are not available. -/
theorem C45_names (rank D v : Nat) (name : List Axis) (hn : (name, v) ∈ names rank) :
    named (symmetricTable rank D) (symmetricSize rank D) v =
      if D ≤ 4 ∧ ∀ a ∈ name, a.num < D then symmetricIndex (name.map Axis.num) else none := by
  have hr : rank = 2 ∨ rank = 3 ∨ rank = 4 := by
    rcases rank with _ | _ | _ | _ | _ | rank <;> simp [names] at hn ⊢
  by_cases hD : D ≤ 4
  · revert hn
    have key : ∀ r ∈ [2, 3, 4], ∀ D ∈ [0, 1, 2, 3, 4], ∀ p ∈ names r, named (symmetricTable r D) (symmetricSize r D) p.2 =
        if D ≤ 4 ∧ ∀ a ∈ p.1, a.num < D then symmetricIndex (p.1.map Axis.num) else none := by decide +kernel
    intro hn
    exact key rank (by simp; omega) D (by simp; omega) (name, v) hn
  · rw [if_neg (by tauto)]
    have : symmetricTable rank D = none := by
      rcases D with _ | _ | _ | _ | _ | D
      any_goals omega
      rcases hr with rfl | rfl | rfl <;> rfl
    rw [this]; rfl

/-- All tuples of axes have names. -/
theorem C45_all_names (rank : Nat) (h2 : 2 ≤ rank) (h4 : rank ≤ 4) (name : List Axis) (h : name.length = rank) : ∃ v, (name, v) ∈ names rank := by
  have key : (∀ a b : Axis, ([a, b]) ∈ (names 2).map Prod.fst) ∧ (∀ a b c : Axis, ([a, b, c]) ∈ (names 3).map Prod.fst) ∧
      (∀ a b c d : Axis, ([a, b, c, d]) ∈ (names 4).map Prod.fst) := by
    refine ⟨?_, ?_, ?_⟩
    · intro a b; cases a <;> cases b <;> decide +kernel
    · intro a b c; cases a <;> cases b <;> cases c <;> decide +kernel
    · intro a b c d; cases a <;> cases b <;> cases c <;> cases d <;> decide +kernel
  have : name ∈ (names rank).map Prod.fst := by
    subst h
    match name, h2, h4 with
    | [a, b], _, _ => exact key.1 a b
    | [a, b, c], _, _ => exact key.2.1 a b c
    | [a, b, c, d], _, _ => exact key.2.2 a b c d
  obtain ⟨⟨n, v⟩, h1, h2⟩ := List.mem_map.1 this
  exact ⟨v, by simp at h2; subst h2; exact h1⟩

/-- Generic tensors: the multi-indices address every slot exactly once. -/
theorem C45_generic (Ds : List Nat) :
    (∀ is, List.Forall₂ (· < ·) is Ds → genericIndex Ds is < genericSize Ds) ∧
    (∀ is js, List.Forall₂ (· < ·) is Ds → List.Forall₂ (· < ·) js Ds → genericIndex Ds is = genericIndex Ds js → is = js) ∧
    ∀ s < genericSize Ds, ∃ is, List.Forall₂ (· < ·) is Ds ∧ genericIndex Ds is = s := by
  induction Ds with
  | nil =>
    refine ⟨?_, ?_, ?_⟩
    · intro is h; cases h; simp [genericIndex, genericSize]
    · intro is js h h' _; cases h; cases h'; rfl
    · intro s hs; exact ⟨[], List.Forall₂.nil, by simp [genericIndex, genericSize] at hs ⊢; omega⟩
  | cons D Ds ih =>
    obtain ⟨ih1, ih2, ih3⟩ := ih
    refine ⟨?_, ?_, ?_⟩
    · intro is h
      obtain ⟨i, is, hi, his, rfl⟩ := List.forall₂_cons_right_iff.1 h
      have := ih1 is his
      simp only [genericIndex, genericSize]
      calc D * genericIndex Ds is + i < D * genericIndex Ds is + D := by omega
        _ = D * (genericIndex Ds is + 1) := by ring
        _ ≤ D * genericSize Ds := Nat.mul_le_mul_left _ this
    · intro is js h h' he
      obtain ⟨i, is, hi, his, rfl⟩ := List.forall₂_cons_right_iff.1 h
      obtain ⟨j, js, hj, hjs, rfl⟩ := List.forall₂_cons_right_iff.1 h'
      simp only [genericIndex] at he
      have h1 : i = j := by
        have := congrArg (· % D) he
        simpa [Nat.add_comm, Nat.add_mul_mod_self_left, Nat.mod_eq_of_lt hi, Nat.mod_eq_of_lt hj] using this
      subst h1
      rw [ih2 is js his hjs (Nat.eq_of_mul_eq_mul_left (by omega) (Nat.add_right_cancel he))]
    · intro s hs
      simp only [genericSize] at hs
      have hD : 0 < D := by
        rcases Nat.eq_zero_or_pos D with rfl | h
        · simp at hs
        · exact h
      obtain ⟨is, h1, h2⟩ := ih3 (s / D) (Nat.div_lt_of_lt_mul hs)
      exact ⟨(s % D) :: is, List.Forall₂.cons (Nat.mod_lt _ hD) h1, by simp only [genericIndex, h2]; exact Nat.div_add_mod s D⟩

/-- Names of generic tensors with all dimensions equal. -/
theorem C45_generic_names_partial (rank D v : Nat) (name : List Axis) (hn : (name, v) ∈ names rank) :
    named (genericTable rank D) (genericSize (List.replicate rank D)) v =
      if D ≤ 4 ∧ ∀ a ∈ name, a.num < D then some (genericIndex (List.replicate rank D) (name.map Axis.num)) else none := by
  have hr : rank = 2 ∨ rank = 3 ∨ rank = 4 := by
    rcases rank with _ | _ | _ | _ | _ | rank <;> simp [names] at hn ⊢
  by_cases hD : D ≤ 4
  · have key : ∀ r ∈ [2, 3, 4], ∀ D ∈ [0, 1, 2, 3, 4], ∀ p ∈ names r, named (genericTable r D) (genericSize (List.replicate r D)) p.2 =
        if D ≤ 4 ∧ ∀ a ∈ p.1, a.num < D then some (genericIndex (List.replicate r D) (p.1.map Axis.num)) else none := by decide +kernel
    exact key rank (by simp; omega) D (by simp; omega) (name, v) hn
  · rw [if_neg (by tauto)]
    have : genericTable rank D = none := by
      rcases D with _ | _ | _ | _ | _ | D
      any_goals omega
      rcases hr with rfl | rfl | rfl <;> rfl
    rw [this]; rfl

/-- With different dimensions names fail: in a 3 × 2 tensor `xz`, which does not exist, is accepted by the assertions and lies outside of the storage; in a
2 × 3 tensor `xz`, which exists, is refused. -/
theorem C45_generic_names_violated :
    (([Axis.x, Axis.z], 2) ∈ names 2 ∧ ∃ bound remap, genericTable 2 3 = some (bound, remap) ∧ 2 < bound ∧ remap[2]? = some 6 ∧ genericSize [3, 2] = 6) ∧
    (genericIndex [2, 3] [0, 2] < genericSize [2, 3] ∧ named (genericTable 2 2) (genericSize [2, 3]) 2 = none) := by
  refine ⟨⟨by decide +kernel, _, _, rfl, by decide, by decide, by decide⟩, by decide, by decide⟩

/-- Non-vacuity: three permutations of the same indices and another tuple, in four dimensions. -/
example : symmetricIndex [3, 1, 2, 1] = symmetricIndex [1, 1, 2, 3] ∧ symmetricIndex [1, 2, 1, 3] = symmetricIndex [3, 1, 2, 1] ∧
    symmetricIndex [3, 1, 2, 1] ≠ symmetricIndex [3, 1, 2, 2] ∧ symmetricSize 4 4 = 35 := by decide

end FleCSPH
