import Verif.Lemmas.Psort
import Verif.Model.Distribute
/-! C19: the distributed sort. -/
namespace FleCSPH
open Psort

/-- All data, process after process. -/
def Psort.everything {α : Type} {P : Nat} (vec : Fin P → List α) : List α := (List.finRange P).flatMap vec

namespace Psort
variable {α : Type} {P : Nat}

theorem slices (l : List α) (c : Nat → Nat) (h0 : c 0 = 0) (n : Nat) (hm : ∀ k, k < n → c k ≤ c (k + 1)) :
    (List.range n).flatMap (fun k => (l.drop (c k)).take (c (k + 1) - c k)) = l.take (c n) := by
  induction n with
  | zero => simp [h0]
  | succ n ih =>
    rw [List.range_succ, List.flatMap_append, ih fun k hk => hm k (by omega)]
    simp only [List.flatMap_cons, List.flatMap_nil, List.append_nil]
    have := hm n (by omega)
    conv_rhs => rw [show c (n + 1) = c n + (c (n + 1) - c n) by omega, List.take_add]

theorem flatMap_swap {β γ : Type} (l : List β) (m : List γ) (f : β → γ → List α) :
    (l.flatMap fun b => m.flatMap fun c => f b c).Perm (m.flatMap fun c => l.flatMap fun b => f b c) := by
  induction l with
  | nil => simp
  | cons b l ih =>
    simp only [List.flatMap_cons]
    exact ((List.Perm.refl _).append ih).trans (List.flatMap_append_perm m _ _)

theorem telescope (g : Nat → Int) (i : Nat) (n : Nat) (hi : i ≤ n) :
    (∑ j : Fin n, if j.val < i then g (j + 1) - g j else 0) = g i - g 0 := by
  rw [Fin.sum_univ_eq_sum_range (fun j => if j < i then g (j + 1) - g j else 0) n]
  have : ∀ n, i ≤ n → (∑ j ∈ Finset.range n, if j < i then g (j + 1) - g j else 0) = ∑ j ∈ Finset.range i, (g (j + 1) - g j) := by
    intro n hn
    rw [← Finset.sum_filter]
    congr 1
    ext x; simp; omega
  rw [this n hi, Finset.sum_range_sub]

/-- What the search returns. -/
theorem split_some (S : StdSort) {lt : α → α → Bool} (hw : StrictWeak lt) (junk : Nat → Fin P → α) (D : Fin P → List α) (hD : ∀ r, Sorted lt (D r))
    (hP : 2 ≤ P) (hne : ∃ r, D r ≠ []) (hz : ∀ r r', D r = [] → r ≤ r' → D r' = []) (fuel : Nat) (hf : ∑ r, (D r).length ≤ fuel) :
    ∃ R, split S lt junk D (fun r => (D r).length) fuel = some R ∧ (∀ r, R 0 r = 0) ∧ (∀ r, R P r = (D r).length) ∧
      ∀ s, s < P - 1 → Good lt D (targets (fun r => (D r).length) s) (R (s + 1)) := by
  have h0 : D ⟨0, by omega⟩ ≠ [] := by
    obtain ⟨r, hr⟩ := hne
    exact fun h => hr (hz _ r h (Fin.mk_le_of_le_val (by simp)))
  have hb := takeWhile_bound (fun r : Fin P => decide (((D r).length : Int) ≠ 0)) (List.finRange P) (by
    intro i j hi hj hij
    simp only [List.getElem_finRange, decide_eq_true_eq]
    intro h1 h2
    refine h1 ?_
    have h2' : D (Fin.cast (by simp) ⟨i, hi⟩) = [] := by
      rw [← List.length_eq_zero_iff]; exact_mod_cast h2
    have := hz _ (Fin.cast (by simp) ⟨j, hj⟩) h2' (by simpa using hij)
    simpa using this)
  have hnR : ∀ r : Fin P, r.val < nReal (fun r => ((D r).length : Int)) ↔ (D r).length ≠ 0 := by
    intro r
    have := hb.2 r.val (by simp)
    simp only [List.getElem_finRange, decide_eq_true_eq] at this
    rw [nReal]
    rw [this]
    simp
  have hreal : ∀ r : Fin P, nReal (fun r => ((D r).length : Int)) ≤ r.val → (D r).length = 0 := by
    intro r hr
    by_contra hc
    have := (hnR r).2 hc
    omega
  have hmono : ∀ s s', s ≤ s' → targets (fun r => ((D r).length : Int)) s ≤ targets (fun r => ((D r).length : Int)) s' := by
    intro s s' h
    unfold targets
    apply Finset.sum_le_sum
    intro r _
    split_ifs <;> first | omega | positivity
  obtain ⟨R, h1, h2, h3, h4⟩ := rounds_some S hw junk hD hmono hreal fuel
    [{ tFirst := 0, tLast := P - 1, dFirst := fun _ => 0, dLast := fun r => (D r).length, subdist := fun r => (D r).length, outleft := fun _ => 0 }]
    (Function.update (fun _ _ => 0) P fun r => ((D r).length : Int)) (by
      intro a ha
      rw [List.mem_singleton] at ha
      subst ha
      refine ⟨⟨fun r => rfl, fun r => by simp, fun r => by simp, ⟨fun r => by simp, fun r r' i j hi hj h => by simp at h⟩,
        ⟨fun r => le_rfl, fun r r' i j hi hj h h' => by dsimp only at h'; omega⟩, by dsimp only; omega, le_rfl, ?_⟩, ?_⟩
      · intro s _ _
        dsimp only
        constructor
        · simp only [Nat.cast_zero, Finset.sum_const_zero]
          unfold targets
          apply Finset.sum_pos' (fun r _ => by split_ifs <;> positivity)
          refine ⟨⟨0, by omega⟩, Finset.mem_univ _, ?_⟩
          simp only [Nat.zero_le, if_true]
          have := List.length_pos_iff.2 h0
          exact_mod_cast this
        · unfold targets
          apply Finset.sum_le_sum
          intro r _
          split_ifs <;> first | exact le_rfl | positivity
      · unfold Active.size
        dsimp only
        simp only [Nat.cast_zero, Finset.sum_const_zero, sub_zero]
        exact_mod_cast hf)
    (by simp) (by
      intro s hs
      left
      exact ⟨_, List.mem_singleton.2 rfl, Nat.zero_le _, hs⟩)
  refine ⟨R, ?_, ?_, ?_, h2⟩
  · unfold split
    dsimp only
    rw [if_neg (by
      have := (hnR ⟨0, by omega⟩).2 (by simpa using h0)
      intro hc
      rw [hc] at this
      simp at this)]
    exact h1
  · intro r
    rw [h3, Function.update_of_ne (by omega)]
  · intro r
    rw [h4, Function.update_self]

end Psort

/-- For every comparison which is a strict weak order, every number of processes, every data with no process empty before one which has data,
every implementation of `std::sort` and every value read past the end of a vector: `psort` with the current sizes terminates without failed
assertion; each process has as many elements as before; all elements, process after process, are a permutation of the input and are sorted. -/
theorem C19_psort_partial {α : Type} (P : Nat) (S : StdSort) (lt : α → α → Bool) (hw : StrictWeak lt) (junk : Nat → Fin P → α)
    (vec : Fin P → List α) (hne : ∃ r, vec r ≠ []) (hz : ∀ r r', vec r = [] → r ≤ r' → vec r' = [])
    (fuel : Nat) (hf : ∑ r, (vec r).length ≤ fuel) :
    ∃ out, psort S lt junk vec (fun r => (vec r).length) fuel = some out ∧
      (∀ r, (out r).length = (vec r).length) ∧
      (everything out).Perm (everything vec) ∧
      (everything out).Pairwise (fun a b => lt b a = false) := by
  obtain ⟨D, hDdef⟩ : ∃ D : Fin P → List α, D = fun r => S.run lt (vec r) := ⟨_, rfl⟩
  have hperm : ∀ r, (D r).Perm (vec r) := fun r => by rw [hDdef]; exact S.perm lt (vec r)
  have hlenD : ∀ r, (D r).length = (vec r).length := fun r => (hperm r).length_eq
  have hnil : ∀ r, D r = [] ↔ vec r = [] := fun r => by
    rw [← List.length_eq_zero_iff, hlenD, List.length_eq_zero_iff]
  have hD : ∀ r, Sorted lt (D r) := fun r => by rw [hDdef]; exact S.sorted lt (vec r) hw
  have hperm_all : (everything D).Perm (everything vec) := by
    unfold everything
    exact List.Perm.flatMap_left _ fun r _ => hperm r
  unfold psort
  rw [← hDdef]
  clear hDdef
  unfold psortSorted
  by_cases hP1 : P = 1
  · rw [if_pos hP1]
    refine ⟨_, rfl, hlenD, hperm_all, ?_⟩
    subst hP1
    unfold everything
    simpa [List.finRange] using hD 0
  · have hP : 2 ≤ P := by
      obtain ⟨r, -⟩ := hne
      have := r.isLt; omega
    rw [if_neg hP1]
    obtain ⟨R, hR, hR0, hRP, hG⟩ := split_some S hw junk D hD hP
      (by obtain ⟨r, hr⟩ := hne; exact ⟨r, fun h => hr ((hnil r).1 h)⟩)
      (fun r r' h h' => (hnil r').2 (hz r r' ((hnil r).1 h) h')) fuel (by simpa [hlenD] using hf)
    have hdist : (fun r => ((vec r).length : Int)) = fun r => ((D r).length : Int) := by
      funext r; rw [hlenD]
    rw [hdist, hR]
    simp only [Option.bind_some]
    -- rows, for every index
    have tg_mono : ∀ s s', s ≤ s' → targets (fun r => ((D r).length : Int)) s ≤ targets (fun r => ((D r).length : Int)) s' := by
      intro s s' h
      unfold targets
      apply Finset.sum_le_sum
      intro r _
      split_ifs <;> first | omega | positivity
    have row_range : ∀ k, k ≤ P → ∀ r, 0 ≤ R k r ∧ R k r ≤ (D r).length := by
      intro k hk r
      rcases Nat.eq_zero_or_pos k with rfl | hk0
      · rw [hR0]; simp
      · rcases Nat.lt_or_eq_of_le hk with hk1 | rfl
        · obtain ⟨s, rfl⟩ : ∃ s, k = s + 1 := ⟨k - 1, by omega⟩
          exact (hG s (by omega)).range hw r
        · rw [hRP]; simp
    have row_sum : ∀ k, k ≤ P → ∑ r, R k r = ∑ r : Fin P, if r.val < k then ((D r).length : Int) else 0 := by
      intro k hk
      rcases Nat.eq_zero_or_pos k with rfl | hk0
      · simp [hR0]
      · rcases Nat.lt_or_eq_of_le hk with hk1 | rfl
        · obtain ⟨s, rfl⟩ : ∃ s, k = s + 1 := ⟨k - 1, by omega⟩
          rw [(hG s (by omega)).sum hw]
          unfold targets
          apply Finset.sum_congr rfl
          intro r _
          simp only [Nat.lt_succ_iff]
        · simp [hRP]
    have row_step : ∀ k, k < P → ∀ r, R k r ≤ R (k + 1) r := by
      intro k hk r
      rcases Nat.eq_zero_or_pos k with rfl | hk0
      · rw [hR0]; exact (row_range 1 (by omega) r).1
      · rcases Nat.lt_or_eq_of_le (show k + 1 ≤ P from hk) with hk1 | hk1
        · obtain ⟨s, rfl⟩ : ∃ s, k = s + 1 := ⟨k - 1, by omega⟩
          exact (hG s (by omega)).mono hw (hG (s + 1) (by omega)) (tg_mono _ _ (by omega)) r
        · rw [hk1, hRP]; exact (row_range k hk.le r).2
    have row_mono : ∀ k k', k ≤ k' → k' ≤ P → ∀ r, R k r ≤ R k' r := by
      intro k k' h h' r
      induction k', h using Nat.le_induction with
      | base => exact le_rfl
      | succ n hn ih => exact (ih (by omega)).trans (row_step n (by omega) r)
    have hcount : ∀ i : Fin P, ∑ r : Fin P, (R (i + 1) r - R i r) = (D i).length := by
      intro i
      rw [Finset.sum_sub_distrib, row_sum _ (by omega), row_sum _ (by omega), ← Finset.sum_sub_distrib]
      rw [Finset.sum_eq_single i]
      · simp
      · intro b _ hb
        have : b.val ≠ i.val := fun h => hb (Fin.ext h)
        split_ifs <;> first | omega | rfl
      · simp
    rw [if_pos ⟨fun i r => row_step i i.isLt r, hcount⟩]
    -- the blocks
    have hblock : ∀ r i : Fin P, block D R r i = ((D r).drop (R i r).toNat).take ((R (i.val + 1) r).toNat - (R i r).toNat) := by
      intro r i
      unfold block
      have ht := telescope (fun k => R k r) i.val P (by omega)
      simp only [hR0, sub_zero] at ht
      have ht' : (∑ j : Fin P, if j < i then R (j + 1) r - R j r else 0) = R i r := by
        rw [← ht]
        apply Finset.sum_congr rfl
        intro j _
        simp only [Fin.lt_def]
      rw [ht']
      have h1 := row_step i i.isLt r
      have h2 := (row_range i (by omega) r).1
      congr 1
      omega
    have hblocklen : ∀ r i : Fin P, ((block D R r i).length : Int) = R (i + 1) r - R i r := by
      intro r i
      rw [hblock]
      have h1 := row_step i i.isLt r
      have h2 := (row_range i (by omega) r).1
      have h3 := (row_range (i + 1) (by omega) r).2
      simp only [List.length_take, List.length_drop]
      omega
    refine ⟨_, rfl, ?_, ?_, ?_⟩
    · intro i
      rw [(S.perm _ _).length_eq, ← hlenD]
      have h1 := hcount i
      have h2 : (((List.finRange P).flatMap fun r => block D R r i).length : Int) = ∑ r : Fin P, (R (i + 1) r - R i r) := by
        rw [List.length_flatMap, Nat.cast_list_sum, List.map_map, ← sum_finRange]
        congr 1
        apply List.map_congr_left
        intro r _
        exact hblocklen r i
      rw [h1] at h2
      exact_mod_cast h2
    · refine List.Perm.trans ?_ hperm_all
      unfold everything
      refine (List.Perm.flatMap_left _ fun i _ => S.perm lt _).trans ?_
      refine (flatMap_swap _ _ _).trans ?_
      apply List.Perm.flatMap_left
      intro r _
      have := slices (D r) (fun k => (R k r).toNat) (by simp [hR0]) P (fun k hk => by
        have h1 := row_step k hk r
        omega)
      rw [hRP, Int.toNat_natCast, List.take_length, ← List.map_coe_finRange_eq_range, List.flatMap_map] at this
      rw [← this]
      exact List.Perm.of_eq (List.flatMap_congr fun i _ => hblock r i)
    · unfold everything
      rw [List.pairwise_flatMap]
      refine ⟨fun i _ => S.sorted lt _ hw, ?_⟩
      refine List.Pairwise.imp_of_mem ?_ (List.pairwise_lt_finRange P)
      intro i i' _ _ hii x hx y hy
      have hx' := (S.perm lt _).mem_iff.1 hx
      have hy' := (S.perm lt _).mem_iff.1 hy
      obtain ⟨r, -, hxr⟩ := List.mem_flatMap.1 hx'
      obtain ⟨r', -, hyr⟩ := List.mem_flatMap.1 hy'
      rw [hblock] at hxr hyr
      obtain ⟨p, hp, rfl⟩ := List.mem_iff_getElem.1 hxr
      obtain ⟨p', hp', rfl⟩ := List.mem_iff_getElem.1 hyr
      simp only [List.length_take, List.length_drop] at hp hp'
      simp only [List.getElem_take, List.getElem_drop]
      have hi' := i'.isLt
      have hii' : i.val + 1 ≤ i'.val := hii
      have a1 := row_mono (i + 1) i' hii' (by omega) r'
      have a2 := (row_range i (by omega) r).1
      have a3 := row_step i (by omega) r
      have a4 := (row_range i' (by omega) r').1
      exact (hG i (by omega)).cut hw r r' _ _ (by omega) (by omega) (by omega) (by omega)

/-- The comparison of particles. -/
theorem Psort.less_strictWeak {β : Type} (item : β → Distribute.Item) : StrictWeak (fun a b => Distribute.less (item a) (item b)) := by
  have key : ∀ a b, Distribute.less a b = true ↔ a.key < b.key ∨ (a.key = b.key ∧ a.id < b.id) := by
    intro a b
    unfold Distribute.less
    split_ifs <;> simp <;> omega
  have key' : ∀ a b, Distribute.less a b = false ↔ ¬ (a.key < b.key ∨ (a.key = b.key ∧ a.id < b.id)) := by
    intro a b; rw [← key]; simp
  refine ⟨fun a => ?_, fun a b c => ?_, fun a b c => ?_⟩
  · rw [key']; omega
  · simp only [key]; omega
  · simp only [key']; omega

/-- The sort of the particles: keys ascend over the processes, and for different ids the result, process after process, is the only list of the
particles in strictly ascending order of (key, id): it depends neither on how the particles were spread over the processes, nor on the sort. -/
theorem C19_particles_partial {β : Type} (item : β → Distribute.Item) (P : Nat) (S : StdSort) (junk : Nat → Fin P → β)
    (vec : Fin P → List β) (hne : ∃ r, vec r ≠ []) (hz : ∀ r r', vec r = [] → r ≤ r' → vec r' = [])
    (fuel : Nat) (hf : ∑ r, (vec r).length ≤ fuel) :
    ∃ out, psort S (fun a b => Distribute.less (item a) (item b)) junk vec (fun r => (vec r).length) fuel = some out ∧
      (∀ r, (out r).length = (vec r).length) ∧
      (everything out).Perm (everything vec) ∧
      (everything out).Pairwise (fun a b => (item a).key ≤ (item b).key) ∧
      (((everything vec).map fun b => (item b).id).Nodup → ∀ l : List β, l.Perm (everything vec) →
        l.Pairwise (fun a b => (item a).key < (item b).key ∨ ((item a).key = (item b).key ∧ (item a).id < (item b).id)) → everything out = l) := by
  obtain ⟨out, h1, h2, h3, h4⟩ := C19_psort_partial P S _ (less_strictWeak item) junk vec hne hz fuel hf
  have key' : ∀ a b, Distribute.less a b = false ↔ ¬ (a.key < b.key ∨ (a.key = b.key ∧ a.id < b.id)) := by
    intro a b
    unfold Distribute.less
    split_ifs <;> simp <;> omega
  refine ⟨out, h1, h2, h3, h4.imp (fun h => by rw [key'] at h; omega), ?_⟩
  intro hnd l hl hs
  have hnd' : ((everything out).map fun b => (item b).id).Nodup := ((h3.map _).nodup_iff).2 hnd
  have hs' : (everything out).Pairwise (fun a b => (item a).key < (item b).key ∨ ((item a).key = (item b).key ∧ (item a).id < (item b).id)) := by
    have hne' : (everything out).Pairwise (fun a b => (item a).id ≠ (item b).id) := by
      rw [List.nodup_iff_pairwise_ne, List.pairwise_map] at hnd'
      exact hnd'
    refine (h4.and hne').imp ?_
    rintro a b ⟨e1, e2⟩
    rw [key'] at e1; omega
  refine List.Perm.eq_of_pairwise ?_ hs' hs (h3.trans hl.symm)
  intro a b _ _ e1 e2
  omega

/-- An arbitrary `dist` is not served: with more than one process, any value which is not the current number of elements of its process fails an
assertion. -/
theorem C19_dist_violated {α : Type} (P : Nat) (hP : 2 ≤ P) (S : StdSort) (lt : α → α → Bool) (junk : Nat → Fin P → α) (vec : Fin P → List α)
    (dist : Fin P → Int) (r : Fin P) (hr : dist r ≠ (vec r).length) (fuel : Nat) : psort S lt junk vec dist fuel = none := by
  unfold psort psortSorted
  rw [if_neg (by omega)]
  have : split S lt junk (fun r => S.run lt (vec r)) dist fuel = none := by
    unfold split
    dsimp only
    split_ifs
    · rfl
    · cases fuel with
      | zero => rfl
      | succ n =>
        unfold rounds
        rw [List.mapM_cons]
        have : splitOne S lt (nReal dist) (junk n) (fun r => S.run lt (vec r)) (targets dist)
          { tFirst := 0, tLast := P - 1, dFirst := fun _ => 0, dLast := fun r => (S.run lt (vec r)).length, subdist := dist,
            outleft := fun _ => 0 } = none := by
          unfold splitOne
          rw [if_neg]
          intro h
          have := h r
          dsimp only at this
          rw [(S.perm lt (vec r)).length_eq] at this
          exact hr (by simpa using this)
        rw [this]
        rfl
  rw [this]
  rfl

/-- With the current sizes, an empty first process ends the program (`vector::at` throws), whatever the others have. -/
theorem C19_empty_first_violated {α : Type} (P : Nat) (hP : 2 ≤ P) (S : StdSort) (lt : α → α → Bool) (junk : Nat → Fin P → α) (vec : Fin P → List α)
    (h : vec ⟨0, by omega⟩ = []) (fuel : Nat) : psort S lt junk vec (fun r => (vec r).length) fuel = none := by
  unfold psort psortSorted
  rw [if_neg (by omega)]
  have : nReal (fun r => ((vec r).length : Int)) = 0 := by
    unfold nReal
    obtain ⟨n, rfl⟩ : ∃ n, P = n + 1 := ⟨P - 1, by omega⟩
    rw [List.finRange_succ, List.takeWhile_cons_of_neg]
    · rfl
    · have : vec 0 = [] := h
      simp [this]
  unfold split
  dsimp only
  rw [if_pos this]
  rfl

/-- Nor does the search survive an empty process between two others: it then only ever guesses elements of the processes before the empty one.
Three processes with [5], [], [0, 1]: the assertion `query_ind >= 0` fails. -/
theorem C19_hole_violated (S : StdSort) (junk : Nat → Fin 3 → Nat) (fuel : Nat) :
    psort S (fun a b => decide (a < b)) junk (fun r : Fin 3 => if r = 0 then [5] else if r = 1 then [] else [0, 1])
      (fun r => ((if r = 0 then [5] else if r = 1 then [] else [0, 1] : List Nat).length)) fuel = none := by
  have hw : StrictWeak (fun a b : Nat => decide (a < b)) := by
    refine ⟨by simp, fun a b c => ?_, fun a b c => ?_⟩ <;> simp only [decide_eq_true_eq, decide_eq_false_iff_not] <;> omega
  have e1 : S.run (fun a b : Nat => decide (a < b)) [5] = [5] := List.perm_singleton.1 (S.perm _ _)
  have e2 : S.run (fun a b : Nat => decide (a < b)) [] = [] := List.perm_nil.1 (S.perm _ _)
  have e3 : S.run (fun a b : Nat => decide (a < b)) [0, 1] = [0, 1] := by
    refine List.Perm.eq_of_pairwise (le := (· ≤ ·)) (fun a b _ _ h h' => le_antisymm h h') ?_ (by decide) (S.perm _ _)
    exact (S.sorted _ [0, 1] hw).imp (by simp)
  have hD : (fun r : Fin 3 => S.run (fun a b : Nat => decide (a < b)) (if r = 0 then [5] else if r = 1 then [] else [0, 1])) =
      fun r => if r = 0 then [5] else if r = 1 then [] else [0, 1] := by
    funext r
    split_ifs
    · exact e1
    · exact e2
    · exact e3
  have e4 : ∀ f : Fin 3 → Fin 3 → Bool, S.run f [0] = [0] := fun f => List.perm_singleton.1 (S.perm _ _)
  have hq : ∀ (jk : Fin 3 → Nat) (D : Fin 3 → List Nat) (a : Active 3), query S (fun a b : Nat => decide (a < b)) 1 jk D a =
      (choose a.subdist [0] ((∑ r, a.subdist r) / 2)).map (median jk D a) := by
    intro jk D a
    unfold query
    have : (List.finRange 3).filter (fun r => decide (r.val < 1)) = [0] := by decide
    simp only [this, e4]
  unfold psort psortSorted split
  rw [hD]
  have hn : nReal (fun r : Fin 3 => ((if r = 0 then [5] else if r = 1 then [] else [0, 1] : List Nat).length : Int)) = 1 := by decide
  rw [if_neg (by decide), hn, if_neg (by decide)]
  have s1 : ∀ jk : Fin 3 → Nat, ∃ rows dLast, dLast 0 = 0 ∧ splitOne S (fun a b : Nat => decide (a < b)) 1 jk
      (fun r : Fin 3 => if r = 0 then [5] else if r = 1 then [] else [0, 1])
      (targets fun r : Fin 3 => ((if r = 0 then [5] else if r = 1 then [] else [0, 1] : List Nat).length : Int))
      { tFirst := 0, tLast := 3 - 1, dFirst := fun _ => 0
        dLast := fun r : Fin 3 => (if r = 0 then [5] else if r = 1 then [] else [0, 1] : List Nat).length
        subdist := fun r : Fin 3 => ((if r = 0 then [5] else if r = 1 then [] else [0, 1] : List Nat).length : Int)
        outleft := fun _ => 0 } =
      some ⟨rows, [{ tFirst := 0, tLast := 2, dFirst := fun _ => 0, dLast := dLast, subdist := fun r => (dLast r : Int) - 0, outleft := fun _ => 0 }]⟩ := by
    intro jk
    unfold splitOne
    rw [if_pos (by intro r; simp), hq]
    have hc : choose (fun r : Fin 3 => ((if r = 0 then [5] else if r = 1 then [] else [0, 1] : List Nat).length : Int)) [0]
      ((∑ r : Fin 3, ((if r = 0 then [5] else if r = 1 then [] else [0, 1] : List Nat).length : Int)) / 2) = some 0 := by decide
    dsimp only
    rw [hc]
    refine ⟨_, _, ?_, rfl⟩
    rfl
  cases fuel with
  | zero => rfl
  | succ n =>
    obtain ⟨rows, dLast, h0, hs⟩ := s1 (junk n)
    unfold rounds
    rw [List.mapM_cons, hs]
    cases n with
    | zero => rfl
    | succ n =>
      have s2 : splitOne S (fun a b : Nat => decide (a < b)) 1 (junk n)
        (fun r : Fin 3 => if r = 0 then [5] else if r = 1 then [] else [0, 1])
        (targets fun r : Fin 3 => ((if r = 0 then [5] else if r = 1 then [] else [0, 1] : List Nat).length : Int))
        { tFirst := 0, tLast := 2, dFirst := fun _ => 0, dLast := dLast, subdist := fun r => (dLast r : Int) - 0, outleft := fun _ => 0 } = none := by
        unfold splitOne
        rw [if_pos (by intro r; simp), hq]
        simp [choose, h0]
      simp only [List.mapM_nil, Option.pure_def, Option.bind_eq_bind, Option.bind_some, List.flatMap_cons, List.flatMap_nil, List.append_nil,
        List.length_singleton]
      rw [if_pos (by decide)]
      unfold rounds
      rw [List.mapM_cons, s2]
      rfl

/-- An implementation of `std::sort`. -/
def Psort.someSort : StdSort where
  run lt l := l.mergeSort fun a b => !lt b a
  perm lt l := List.mergeSort_perm l _
  sorted lt l hw := by
    have := List.pairwise_mergeSort (le := fun a b => !lt b a) (by
      intro a b c h1 h2
      have := hw.incomp c b a (by simpa using h2) (by simpa using h1)
      simpa using this) (by
      intro a b
      by_cases h : lt b a = true
      · simp [hw.asymm h]
      · simp [h]) l
    exact this.imp (by simp)

/-- Non-vacuity: three processes, the last one empty, with equal keys. -/
example : ∃ out, psort someSort Distribute.less (fun _ _ => ⟨0, 0⟩) (fun r : Fin 3 => if r = 0 then [⟨9, 1⟩, ⟨2, 2⟩] else if r = 1 then [⟨2, 3⟩] else [])
    (fun r => ((if r = 0 then [⟨9, 1⟩, ⟨2, 2⟩] else if r = 1 then [⟨2, 3⟩] else [] : List Distribute.Item).length)) 3 = some out :=
  (C19_psort_partial 3 someSort Distribute.less (less_strictWeak id) _ _ ⟨0, by simp⟩ (by decide) 3 (by decide)).imp fun _ h => h.1

end FleCSPH
