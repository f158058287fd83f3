import Verif.Model.Qsort
import Verif.Props.C19
import Verif.Props.C21
/-! C20: the sample sort splits particles by key range. -/
namespace FleCSPH
open Distribute Psort Exchange Qsort

namespace Qsort
variable {β : Type} {P : Nat}

theorem bucket_none (split : Nat → Nat) (keys : List Nat) (cur : Nat) (sc : Nat → Nat) (hmono : ∀ i, i ≤ P → split i ≤ split P)
    (h : ∃ k ∈ keys, split P ≤ k) : bucket P split keys cur sc = none := by
  induction keys, cur, sc using bucket.induct (P := P) (split := split) with
  | case1 => simp at h
  | case2 k keys cur sc hc hk ih =>
    rw [bucket, if_pos hc, if_pos hk]
    apply ih
    obtain ⟨x, hx, hxk⟩ := h
    rcases List.mem_cons.1 hx with rfl | hx
    · have := hmono (cur + 1) (by omega); omega
    · exact ⟨x, hx, hxk⟩
  | case3 k keys cur sc hc hk ih =>
    rw [bucket, if_pos hc, if_neg hk]
    exact ih h
  | case4 k keys cur sc hc => rw [bucket, if_neg hc]

/-- The keys which belong to process `j`. -/
def within (split : Nat → Nat) (j : Nat) (k : Nat) : Bool := decide (split j ≤ k ∧ k < split (j + 1))

theorem bucket_some (split : Nat → Nat) (keys : List Nat) (cur : Nat) (sc : Nat → Nat) (hmono : ∀ i j, i ≤ j → j ≤ P → split i ≤ split j)
    (hcur : cur ≤ P) (hs : keys.Pairwise (· ≤ ·)) (hlo : ∀ k ∈ keys, split cur ≤ k) (hhi : ∀ k ∈ keys, k < split P) :
    ∃ sc', bucket P split keys cur sc = some sc' ∧ ∀ j, j < P → sc' j = sc j + (keys.filter (within split j)).length := by
  induction keys, cur, sc using bucket.induct (P := P) (split := split) with
  | case1 cur sc => exact ⟨sc, by rw [bucket], by simp⟩
  | case2 k keys cur sc hc hk ih =>
    obtain ⟨hs1, hs2⟩ := List.pairwise_cons.1 hs
    obtain ⟨sc', h1, h2⟩ := ih hcur hs2 (fun x hx => hlo x (List.mem_cons_of_mem _ hx)) (fun x hx => hhi x (List.mem_cons_of_mem _ hx))
    refine ⟨sc', by rw [bucket, if_pos hc, if_pos hk]; exact h1, ?_⟩
    intro j hj
    rw [h2 j hj]
    by_cases hjc : j = cur
    · subst hjc
      rw [Function.update_self, List.filter_cons_of_pos (by simp only [within, decide_eq_true_eq]; exact hk), List.length_cons]
      omega
    · rw [Function.update_of_ne hjc, List.filter_cons_of_neg]
      simp only [within, decide_eq_true_eq]
      rintro ⟨a1, a2⟩
      rcases Nat.lt_or_gt_of_ne hjc with h | h
      · have := hmono (j + 1) cur (by omega) (by omega); omega
      · have := hmono (cur + 1) j (by omega) (by omega); omega
  | case3 k keys cur sc hc hk ih =>
    have hk1 := hlo k List.mem_cons_self
    have hk2 : split (cur + 1) ≤ k := by
      by_contra hcc; exact hk ⟨hk1, by omega⟩
    obtain ⟨sc', h1, h2⟩ := ih (by omega) hs (fun x hx => by
      rcases List.mem_cons.1 hx with rfl | hx
      · exact hk2
      · exact hk2.trans ((List.pairwise_cons.1 hs).1 x hx)) hhi
    exact ⟨sc', by rw [bucket, if_pos hc, if_neg hk]; exact h1, h2⟩
  | case4 k keys cur sc hc =>
    exfalso
    have h1 := hlo k List.mem_cons_self
    have h2 := hhi k List.mem_cons_self
    have : cur = P := by omega
    subst this
    omega

theorem filter_split (key : β → Nat) (t : Nat) (l : List β) (hs : l.Pairwise fun a b => key a ≤ key b) :
    l.filter (fun b => decide (key b < t)) ++ l.filter (fun b => decide (t ≤ key b)) = l := by
  induction l with
  | nil => rfl
  | cons a l ih =>
    obtain ⟨h1, h2⟩ := List.pairwise_cons.1 hs
    by_cases ha : key a < t
    · rw [List.filter_cons_of_pos (by simpa using ha), List.filter_cons_of_neg (by simpa using ha), List.cons_append, ih h2]
    · have e1 : (a :: l).filter (fun b => decide (key b < t)) = [] := by
        rw [List.filter_eq_nil_iff]
        intro b hb
        rcases List.mem_cons.1 hb with rfl | hb
        · simpa using ha
        · have := h1 b hb; simp only [decide_eq_true_eq]; omega
      have e2 : (a :: l).filter (fun b => decide (t ≤ key b)) = a :: l := by
        rw [List.filter_eq_self]
        intro b hb
        rcases List.mem_cons.1 hb with rfl | hb
        · simpa using ha
        · have := h1 b hb; simp only [decide_eq_true_eq]; omega
      rw [e1, e2, List.nil_append]

theorem getD_get {γ : Type} (l : List γ) (d : γ) {n : Nat} (h : n < l.length) : l.getD n d = l[n] := by
  rw [List.getD_eq_getElem?_getD, List.getElem?_eq_getElem h]; rfl

theorem partition_filter (key : β → Nat) (split : Nat → Nat) (l : List β) (n : Nat) (hmono : ∀ i, i < n → split i ≤ split (i + 1))
    (hs : l.Pairwise fun a b => key a ≤ key b) (hlo : ∀ b ∈ l, split 0 ≤ key b) :
    (List.range n).flatMap (fun i => l.filter fun b => within split i (key b)) = l.filter fun b => decide (key b < split n) := by
  induction n with
  | zero =>
    rw [List.range_zero, List.flatMap_nil, eq_comm, List.filter_eq_nil_iff]
    intro b hb
    have := hlo b hb
    simp only [decide_eq_true_eq]; omega
  | succ n ih =>
    rw [List.range_succ, List.flatMap_append, ih fun i hi => hmono i (by omega)]
    simp only [List.flatMap_cons, List.flatMap_nil, List.append_nil]
    rw [← filter_split key (split n) (l.filter fun b => decide (key b < split (n + 1))) (hs.filter _), List.filter_filter, List.filter_filter]
    have hm := hmono n (by omega)
    congr 1
    · apply List.filter_congr
      intro b _
      rw [← Bool.decide_and]
      congr 1
      rw [eq_iff_iff]
      omega
    · apply List.filter_congr
      intro b _
      rw [← Bool.decide_and]
      rfl

/-- The blocks of a sorted vector are the keys between the splitters. -/
theorem block_filter (key : β → Nat) (split : Nat → Nat) (l : List β) (hmono : ∀ i j, i ≤ j → j ≤ P → split i ≤ split j)
    (hs : l.Pairwise fun a b => key a ≤ key b) (hlo : ∀ b ∈ l, split 0 ≤ key b) (i : Fin P) :
    blockFor (fun j : Fin P => (l.filter fun b => within split j (key b)).length) l i = l.filter fun b => within split i (key b) := by
  have hstep : ∀ i, i < P → (l.filter fun b => decide (key b < split (i + 1))).length =
      (l.filter fun b => decide (key b < split i)).length + (l.filter fun b => within split i (key b)).length := by
    intro i hi
    have := congrArg List.length (filter_split key (split i) (l.filter fun b => decide (key b < split (i + 1))) (hs.filter _))
    rw [List.length_append, List.filter_filter, List.filter_filter] at this
    rw [← this]
    have hm := hmono i (i + 1) (by omega) (by omega)
    congr 2
    · apply List.filter_congr
      intro b _
      rw [← Bool.decide_and]
      congr 1
      rw [eq_iff_iff]
      omega
    · apply List.filter_congr
      intro b _
      rw [← Bool.decide_and]
      rfl
  have hsum : ∀ i, i ≤ P → (∑ j : Fin P, if j.val < i then (l.filter fun b => within split j (key b)).length else 0) =
      (l.filter fun b => decide (key b < split i)).length := by
    intro i hi
    induction i with
    | zero =>
      simp only [Nat.not_lt_zero, if_false, Finset.sum_const_zero]
      rw [eq_comm, List.length_eq_zero_iff, List.filter_eq_nil_iff]
      intro b hb
      have := hlo b hb
      simp only [decide_eq_true_eq]; omega
    | succ i ih =>
      have := prefix_succ (fun j : Fin P => (l.filter fun b => within split j (key b)).length) ⟨i, by omega⟩
      dsimp only at this
      rw [this, ih (by omega), hstep i (by omega)]
  unfold blockFor
  have h1 : (∑ j : Fin P, if j < i then (l.filter fun b => within split j (key b)).length else 0) =
      (l.filter fun b => decide (key b < split i)).length := by
    rw [← hsum i i.isLt.le]; rfl
  rw [h1]
  have hd : l.drop (l.filter fun b => decide (key b < split i)).length = l.filter fun b => decide (split i ≤ key b) := by
    conv_lhs => rw [← filter_split key (split i) l hs]
    rw [List.filter_append]
    have : (l.filter (fun b => decide (key b < split i))).filter (fun b => decide (key b < split i)) ++
        (l.filter (fun b => decide (split i ≤ key b))).filter (fun b => decide (key b < split i)) = l.filter (fun b => decide (key b < split i)) := by
      rw [← List.filter_append, filter_split key (split i) l hs]
    rw [this, List.drop_left]
  rw [hd]
  have hf := filter_split key (split (i + 1)) (l.filter fun b => decide (split i ≤ key b)) (hs.filter _)
  have hw : (l.filter fun b => decide (split i ≤ key b)).filter (fun b => decide (key b < split (i + 1))) = l.filter fun b => within split i (key b) := by
    rw [List.filter_filter]
    apply List.filter_congr
    intro b _
    rw [← Bool.decide_and]
    unfold within
    congr 1
    rw [eq_iff_iff]
    exact and_comm
  rw [hw] at hf
  rw [← hf]
  exact List.take_left

theorem mapM_map {γ δ : Type} (f : γ → Option δ) (g : γ → δ) (l : List γ) (h : ∀ a ∈ l, f a = some (g a)) : l.mapM f = some (l.map g) := by
  induction l with
  | nil => rfl
  | cons a l ih =>
    rw [List.mapM_cons, h a List.mem_cons_self, ih fun b hb => h b (List.mem_cons_of_mem _ hb)]
    rfl

theorem mapM_mem {γ δ : Type} (f : γ → Option δ) (l : List γ) (m : List δ) (h : l.mapM f = some m) : ∀ x ∈ m, ∃ a ∈ l, f a = some x := by
  induction l generalizing m with
  | nil => cases h; simp
  | cons a l ih =>
    rw [List.mapM_cons] at h
    simp only [Option.bind_eq_bind, Option.bind_eq_some_iff, Option.pure_def, Option.some.injEq] at h
    obtain ⟨y, h1, ys, h2, rfl⟩ := h
    intro x hx
    rcases List.mem_cons.1 hx with rfl | hx
    · exact ⟨a, List.mem_cons_self, h1⟩
    · obtain ⟨b, hb, hbx⟩ := ih ys h2 x hx
      exact ⟨b, List.mem_cons_of_mem _ hb, hbx⟩

theorem mapM_length {γ δ : Type} (f : γ → Option δ) (l : List γ) (m : List δ) (h : l.mapM f = some m) : m.length = l.length := by
  induction l generalizing m with
  | nil => cases h; rfl
  | cons a l ih =>
    rw [List.mapM_cons] at h
    simp only [Option.bind_eq_bind, Option.bind_eq_some_iff, Option.pure_def, Option.some.injEq] at h
    obtain ⟨y, h1, ys, h2, rfl⟩ := h
    simp [ih ys h2]

theorem mapM_none {γ δ : Type} (f : γ → Option δ) (l : List γ) (a : γ) (ha : a ∈ l) (h : f a = none) : l.mapM f = none := by
  cases hm : l.mapM f with
  | none => rfl
  | some m =>
    exfalso
    induction l generalizing m with
    | nil => simp at ha
    | cons b l ih =>
      rw [List.mapM_cons] at hm
      simp only [Option.bind_eq_bind, Option.bind_eq_some_iff, Option.pure_def, Option.some.injEq] at hm
      obtain ⟨y, h1, ys, h2, rfl⟩ := hm
      rcases List.mem_cons.1 ha with rfl | ha
      · rw [h] at h1; cases h1
      · exact ih ha ys h2

theorem forall₂_length {γ δ : Type} {Q : γ → δ → Prop} {l : List γ} {m : List δ} (h : List.Forall₂ Q l m) : l.length = m.length := by
  induction h with
  | nil => rfl
  | cons _ _ ih => simp [ih]

theorem samples_some (item : β → Item) (maxn total : Nat) (bodies : List β) :
    ∃ smp, samples item maxn total bodies = some smp ∧ smp.length = nsample maxn bodies.length total ∧ ∀ x ∈ smp, ∃ b ∈ bodies, x = item b := by
  unfold samples
  set n := nsample maxn bodies.length total with hn
  obtain ⟨smp, h1, h2⟩ := mapM_some (fun i => (bodies[bodies.length * (i + 1) / (n + 1)]?).map item) (fun _ x => ∃ b ∈ bodies, x = item b) (List.range n) (by
    intro i hi
    rw [List.mem_range] at hi
    have hpos : 0 < bodies.length := by
      by_contra hc
      have : bodies.length = 0 := by omega
      rw [this] at hn
      simp [nsample] at hn
      omega
    have hlt : bodies.length * (i + 1) / (n + 1) < bodies.length := by
      rw [Nat.div_lt_iff_lt_mul (by omega)]
      exact Nat.mul_lt_mul_of_pos_left (by omega) hpos
    rw [List.getElem?_eq_getElem hlt]
    exact ⟨_, rfl, _, List.getElem_mem hlt, rfl⟩)
  refine ⟨smp, h1, ?_, ?_⟩
  · have := forall₂_length h2
    rw [List.length_range] at this
    exact this.symm
  · intro x hx
    obtain ⟨_, _, h⟩ := forall₂_mem_right h2 hx
    exact h

theorem splitters_some (S : StdSort) (kmin kmax total : Nat) (hP : 2 ≤ P) (all : List Item) (hne : all ≠ []) (htot : all.length ≤ total)
    (hk : ∀ x ∈ all, kmin < x.key ∧ x.key < kmax) :
    ∃ split, splitters S P kmin kmax total all = some split ∧ split 0 = kmin ∧ split P = kmax ∧ ∀ i j, i ≤ j → j ≤ P → split i ≤ split j := by
  unfold splitters
  dsimp only
  rw [min_eq_right htot, if_pos le_rfl]
  have hlen : (S.run less all).length = all.length := (S.perm _ _).length_eq
  have hpos : 0 < all.length := List.length_pos_iff.2 hne
  have hidx : ∀ j, j ≤ P - 1 → all.length / P * j < (S.run less all).length := by
    intro j hj
    rw [hlen]
    rcases Nat.eq_zero_or_pos (all.length / P) with h0 | h0
    · rw [h0]; simpa using hpos
    · calc all.length / P * j ≤ all.length / P * (P - 1) := Nat.mul_le_mul_left _ hj
        _ < all.length / P * P := Nat.mul_lt_mul_of_pos_left (by omega) h0
        _ ≤ all.length := Nat.div_mul_le_self _ _
  have hsort : ∀ i j, i ≤ j → (hj : j ≤ P - 1) → ((S.run less all).getD (all.length / P * i) ⟨0, 0⟩).key ≤ ((S.run less all).getD (all.length / P * j) ⟨0, 0⟩).key := by
    intro i j hij hj
    have hw := less_strictWeak (id : Item → Item)
    have := Sorted.get hw (S.sorted less all hw) (hidx i (by omega)) (hidx j hj) (Nat.mul_le_mul_left _ hij)
    rw [getD_get _ _ (hidx i (by omega)), getD_get _ _ (hidx j hj)]
    have key' : ∀ a b, less a b = false → ¬ (a.key < b.key) := by
      intro a b h hc
      unfold less at h
      rw [if_pos hc] at h
      cases h
    exact not_lt.1 (key' _ _ this)
  have hin : ∀ j, j ≤ P - 1 → kmin < ((S.run less all).getD (all.length / P * j) ⟨0, 0⟩).key ∧ ((S.run less all).getD (all.length / P * j) ⟨0, 0⟩).key < kmax := by
    intro j hj
    rw [getD_get _ _ (hidx j hj)]
    exact hk _ ((S.perm less all).mem_iff.1 (List.getElem_mem _))
  rw [mapM_map _ (fun i => ((S.run less all).getD (all.length / P * (i + 1)) ⟨0, 0⟩).key) _ (by
    intro i hi
    rw [List.mem_range] at hi
    rw [List.getElem?_eq_getElem (hidx (i + 1) (by omega)), Option.bind_some]
    have := hin (i + 1) (by omega)
    rw [getD_get _ _ (hidx (i + 1) (by omega))] at this
    rw [if_pos this, getD_get _ _ (hidx (i + 1) (by omega))])]
  refine ⟨_, rfl, rfl, ?_, ?_⟩
  · dsimp only; rw [if_neg (by omega), if_pos rfl]
  · have hval : ∀ j, 1 ≤ j → j ≤ P - 1 → ((List.range (P - 1)).map fun i => ((S.run less all).getD (all.length / P * (i + 1)) ⟨0, 0⟩).key).getD (j - 1) 0 =
        ((S.run less all).getD (all.length / P * j) ⟨0, 0⟩).key := by
      intro j h1 h2
      rw [getD_get _ _ (by simp; omega), List.getElem_map, List.getElem_range, Nat.sub_add_cancel h1]
    intro i j hij hj
    dsimp only
    by_cases hi0 : i = 0
    · rw [if_pos hi0]
      by_cases hj0 : j = 0
      · rw [if_pos hj0]
      · rw [if_neg hj0]
        by_cases hjP : j = P
        · rw [if_pos hjP]; have := hin 0 (by omega); omega
        · rw [if_neg hjP, hval j (by omega) (by omega)]; exact (hin j (by omega)).1.le
    · rw [if_neg hi0, if_neg (show j ≠ 0 by omega)]
      by_cases hjP : j = P
      · rw [if_pos hjP]
        by_cases hiP : i = P
        · rw [if_pos hiP]
        · rw [if_neg hiP, hval i (by omega) (by omega)]; exact (hin i (by omega)).2.le
      · rw [if_neg hjP, if_neg (show i ≠ P by omega), hval i (by omega) (by omega), hval j (by omega) (by omega)]
        exact hsort i j hij (by omega)

end Qsort

/-- Every sort, every number of processes not greater than the number of samples (16384 with 64-bit keys), all particles with keys strictly between the
smallest and the largest key: the sample sort succeeds; the particles, process after process, are a permutation of the input sorted by (key, id); and
all keys of a process are less than all keys of a later process. -/
theorem C20_partial {β : Type} {P : Nat} (S : StdSort) (item : β → Item) (kmin kmax maxn : Nat) (bodies : Fin P → List β) (hP : P ≤ maxn)
    (hne : ∃ r, bodies r ≠ []) (hk : ∀ r, ∀ b ∈ bodies r, kmin < (item b).key ∧ (item b).key < kmax) :
    ∃ out, qsort S item kmin kmax maxn (∑ r, (bodies r).length) bodies = some out ∧
      (everything out).Perm (everything bodies) ∧
      (everything out).Pairwise (fun a b => less (item b) (item a) = false) ∧
      ∀ r r', r < r' → ∀ a ∈ out r, ∀ b ∈ out r', (item a).key < (item b).key := by
  have hw := less_strictWeak item
  obtain ⟨D, hDdef⟩ : ∃ D : Fin P → List β, D = fun r => S.run (fun a b => less (item a) (item b)) (bodies r) := ⟨_, rfl⟩
  have hperm : ∀ r, (D r).Perm (bodies r) := fun r => by rw [hDdef]; exact S.perm _ _
  have hlenD : ∀ r, (D r).length = (bodies r).length := fun r => (hperm r).length_eq
  have hD : ∀ r, Sorted (fun a b => less (item a) (item b)) (D r) := fun r => by rw [hDdef]; exact S.sorted _ _ hw
  have hkD : ∀ r, ∀ b ∈ D r, kmin < (item b).key ∧ (item b).key < kmax := fun r b hb => hk r b ((hperm r).mem_iff.1 hb)
  have hperm_all : (everything D).Perm (everything bodies) := List.Perm.flatMap_left _ fun r _ => hperm r
  have key' : ∀ a b : Item, less a b = false → b.key ≤ a.key := by
    intro a b h
    by_contra hc
    unfold less at h
    rw [if_pos (by omega)] at h
    cases h
  have keyt : ∀ a b : Item, a.key < b.key → less b a = false := by
    intro a b h
    unfold less
    rw [if_neg (by omega), if_neg (by omega)]
  have hDkey : ∀ r, (D r).Pairwise fun a b => (item a).key ≤ (item b).key := fun r => (hD r).imp fun h => key' _ _ h
  have hDr : ∀ r, S.run (fun a b => less (item a) (item b)) (bodies r) = D r := fun r => by rw [hDdef]
  unfold qsort
  dsimp only
  simp only [hDr]
  by_cases hP1 : P = 1
  · rw [if_pos hP1]
    refine ⟨D, rfl, hperm_all, ?_, ?_⟩
    · subst hP1
      unfold everything
      simpa [List.finRange] using hD 0
    · intro r r' h; subst hP1; omega
  · have hP2 : 2 ≤ P := by obtain ⟨r, -⟩ := hne; have := r.isLt; omega
    rw [if_neg hP1]
    set total := ∑ r, (bodies r).length with htotal
    -- samples
    choose smp hs1 hs2 hs3 using fun r => samples_some item maxn total (D r)
    rw [mapM_map _ smp _ fun r _ => hs1 r, Option.bind_some]
    have hle : ∀ r, (bodies r).length ≤ total := fun r => Finset.single_le_sum (f := fun r => (bodies r).length) (fun _ _ => Nat.zero_le _) (Finset.mem_univ r)
    have hlen_all : ((List.finRange P).map smp).flatten.length = ∑ r, nsample maxn (bodies r).length total := by
      rw [List.length_flatten, List.map_map, Fin.sum_univ_def]
      congr 1
      apply List.map_congr_left
      intro r _
      rw [Function.comp_apply, hs2, hlenD]
    have htot : ((List.finRange P).map smp).flatten.length ≤ total := by
      rw [hlen_all]
      exact Finset.sum_le_sum fun r _ => min_le_left _ _
    have hne_all : ((List.finRange P).map smp).flatten ≠ [] := by
      -- the process with the most particles has a sample
      rw [← List.length_pos_iff, hlen_all]
      by_contra hc
      push Not at hc
      have hz : ∀ r, nsample maxn (bodies r).length total = 0 := fun r => (Finset.sum_eq_zero_iff.1 (Nat.le_zero.1 hc)) r (Finset.mem_univ r)
      have htpos : 0 < total := by
        obtain ⟨r, hr⟩ := hne
        have := hle r
        have := List.length_pos_iff.2 hr
        omega
      have hsmall : ∀ r : Fin P, maxn * (bodies r).length < total ∨ (bodies r).length = 0 := by
        intro r
        have := hz r
        unfold nsample at this
        rcases Nat.eq_zero_or_pos (bodies r).length with h | h
        · right; exact h
        · left
          have h2 : maxn * (bodies r).length / total = 0 := by omega
          rcases Nat.div_eq_zero_iff.1 h2 with h3 | h3
          · omega
          · exact h3
      have hlt : ∀ r : Fin P, maxn * (bodies r).length < total := by
        intro r
        rcases hsmall r with h | h
        · exact h
        · rw [h]; simpa using htpos
      have h1 : P * total ≤ maxn * total := Nat.mul_le_mul_right _ hP
      have h2 : maxn * total = ∑ r : Fin P, maxn * (bodies r).length := by rw [htotal, Finset.mul_sum]
      have h3 : ∑ r : Fin P, maxn * (bodies r).length < ∑ _r : Fin P, total := Finset.sum_lt_sum_of_nonempty ⟨⟨0, by omega⟩, Finset.mem_univ _⟩ fun r _ => hlt r
      simp only [Finset.sum_const, Finset.card_univ, Fintype.card_fin, smul_eq_mul] at h3
      omega
    obtain ⟨split, hsp, hsp0, hspP, hmono⟩ := splitters_some (P := P) S kmin kmax total hP2 _ hne_all htot (by
      intro x hx
      obtain ⟨l, hl, hxl⟩ := List.mem_flatten.1 hx
      obtain ⟨r, -, rfl⟩ := List.mem_map.1 hl
      obtain ⟨b, hb, rfl⟩ := hs3 r x hxl
      exact hkD r b hb)
    rw [hsp, Option.bind_some]
    choose sc hc1 hc2 using fun r => bucket_some (P := P) split ((D r).map fun b => (item b).key) 0 (fun _ => 0) hmono (Nat.zero_le _)
      (by rw [List.pairwise_map]; exact hDkey r)
      (by intro k hk; obtain ⟨b, hb, rfl⟩ := List.mem_map.1 hk; rw [hsp0]; exact (hkD r b hb).1.le)
      (by intro k hk; obtain ⟨b, hb, rfl⟩ := List.mem_map.1 hk; rw [hspP]; exact (hkD r b hb).2)
    rw [mapM_map _ sc _ fun r _ => hc1 r]
    have hcount : (fun q i : Fin P => (((List.finRange P).map sc).getD q.val fun _ => 0) i.val) =
        fun q i : Fin P => ((D q).filter fun b => Qsort.within split i (item b).key).length := by
      funext q i
      rw [getD_get _ _ (by simp), List.getElem_map, List.getElem_finRange]
      have := hc2 q i.val i.isLt
      rw [Nat.zero_add, List.filter_map, List.length_map] at this
      exact this
    have hout : ∀ r, deliver (fun q i : Fin P => (((List.finRange P).map sc).getD q.val fun _ => 0) i.val) D r =
        (List.finRange P).flatMap fun q => (D q).filter fun b => Qsort.within split r (item b).key := by
      intro r
      rw [hcount]
      unfold deliver
      apply List.flatMap_congr
      intro q _
      exact block_filter (fun b => (item b).key) split (D q) hmono (hDkey q) (fun b hb => by rw [hsp0]; exact (hkD q b hb).1.le) r
    have hkeys : ∀ r, ∀ b ∈ S.run (fun a b => less (item a) (item b))
        (deliver (fun q i : Fin P => (((List.finRange P).map sc).getD q.val fun _ => 0) i.val) D r), split r ≤ (item b).key ∧ (item b).key < split (r + 1) := by
      intro r b hb
      have := (S.perm _ _).mem_iff.1 hb
      rw [hout] at this
      obtain ⟨q, -, hq⟩ := List.mem_flatMap.1 this
      simpa [Qsort.within] using (List.mem_filter.1 hq).2
    have hstrict : ∀ r r' : Fin P, r < r' → ∀ a ∈ S.run (fun a b => less (item a) (item b))
        (deliver (fun q i : Fin P => (((List.finRange P).map sc).getD q.val fun _ => 0) i.val) D r), ∀ b ∈ S.run (fun a b => less (item a) (item b))
        (deliver (fun q i : Fin P => (((List.finRange P).map sc).getD q.val fun _ => 0) i.val) D r'), (item a).key < (item b).key := by
      intro r r' hr a ha b hb
      have h1 := (hkeys r a ha).2
      have h2 := (hkeys r' b hb).1
      have h3 := hmono (r.val + 1) r'.val hr r'.isLt.le
      omega
    refine ⟨_, rfl, ?_, ?_, hstrict⟩
    · refine List.Perm.trans ?_ hperm_all
      unfold everything
      refine (List.Perm.flatMap_left _ fun r _ => (S.perm _ _).trans (List.Perm.of_eq (hout r))).trans ?_
      refine (flatMap_swap _ _ _).trans ?_
      apply List.Perm.flatMap_left
      intro q _
      apply List.Perm.of_eq
      have h1 := partition_filter (fun b => (item b).key) split (D q) P (fun i hi => hmono i (i + 1) (by omega) (by omega)) (hDkey q)
        (fun b hb => by rw [hsp0]; exact (hkD q b hb).1.le)
      rw [← List.map_coe_finRange_eq_range, List.flatMap_map] at h1
      rw [h1, List.filter_eq_self]
      intro b hb
      simp only [decide_eq_true_eq]
      rw [hspP]
      exact (hkD q b hb).2
    · unfold everything
      rw [List.pairwise_flatMap]
      refine ⟨fun r _ => S.sorted _ _ hw, ?_⟩
      refine List.Pairwise.imp_of_mem ?_ (List.pairwise_lt_finRange P)
      intro r r' _ _ hr a ha b hb
      exact keyt _ _ (hstrict r r' hr a ha b hb)

/-- A particle with the largest key makes the loop read past the splitters, on more than one process, whatever the other particles are. The largest key is the
key of points of the domain (C02_surjective). -/
theorem C20_violated {β : Type} {P : Nat} (hP : 2 ≤ P) (S : StdSort) (item : β → Item) (kmin kmax maxn total : Nat) (bodies : Fin P → List β)
    (h : ∃ r, ∃ b ∈ bodies r, kmax ≤ (item b).key) : qsort S item kmin kmax maxn total bodies = none := by
  unfold qsort
  dsimp only
  rw [if_neg (by omega), Option.bind_eq_none_iff]
  intro smp hsmp
  rw [Option.bind_eq_none_iff]
  intro split hsplit
  rw [Option.map_eq_none_iff]
  unfold splitters at hsplit
  dsimp only at hsplit
  split_ifs at hsplit with hfit
  rw [Option.map_eq_some_iff] at hsplit
  obtain ⟨l, hl, rfl⟩ := hsplit
  have hmem : ∀ k ∈ l, kmin < k ∧ k < kmax := by
    intro k hk
    obtain ⟨i, hi, hfi⟩ := mapM_mem _ _ _ hl k hk
    rw [Option.bind_eq_some_iff] at hfi
    obtain ⟨x, -, hx⟩ := hfi
    split_ifs at hx with hc
    cases hx
    exact hc
  have hl0 : 0 < kmax := by
    have hlen := mapM_length _ _ _ hl
    rw [List.length_range] at hlen
    have := hmem _ (List.getElem_mem (show 0 < l.length by omega))
    omega
  have hmm : kmin ≤ kmax := by
    have hlen := mapM_length _ _ _ hl
    rw [List.length_range] at hlen
    have := hmem _ (List.getElem_mem (show 0 < l.length by omega))
    omega
  obtain ⟨r, b, hb, hkb⟩ := h
  apply mapM_none _ _ r (List.mem_finRange r)
  apply bucket_none
  · intro i hi
    rw [if_neg (show P ≠ 0 by omega), if_pos rfl]
    split_ifs with h0 h1
    · exact hmm
    · exact le_rfl
    · rw [List.getD_eq_getElem?_getD]
      cases hg : l[i - 1]? with
      | none => exact hl0.le
      | some k => exact (hmem k (List.mem_of_getElem? hg)).2.le
  · refine ⟨_, List.mem_map.2 ⟨b, (S.perm _ _).mem_iff.2 hb, rfl⟩, ?_⟩
    rw [if_neg (show P ≠ 0 by omega), if_pos rfl]
    exact hkb

/-- Nor does it survive samples which all have the smallest key: for particles which all have it, an assertion fails. -/
theorem C20_min_violated {β : Type} {P : Nat} (hP : 2 ≤ P) (S : StdSort) (item : β → Item) (kmin kmax maxn total : Nat) (bodies : Fin P → List β)
    (h : ∀ r, ∀ b ∈ bodies r, (item b).key = kmin) : qsort S item kmin kmax maxn total bodies = none := by
  unfold qsort
  dsimp only
  rw [if_neg (by omega), Option.bind_eq_none_iff]
  intro smp hsmp
  rw [Option.bind_eq_none_iff]
  intro split hsplit
  exfalso
  unfold splitters at hsplit
  dsimp only at hsplit
  split_ifs at hsplit with hfit
  rw [Option.map_eq_some_iff] at hsplit
  obtain ⟨l, hl, -⟩ := hsplit
  have hlen := mapM_length _ _ _ hl
  rw [List.length_range] at hlen
  obtain ⟨i, hi, hfi⟩ := mapM_mem _ _ _ hl _ (List.getElem_mem (show 0 < l.length by omega))
  rw [Option.bind_eq_some_iff] at hfi
  obtain ⟨x, hx, hx2⟩ := hfi
  have hx3 := (S.perm _ _).mem_iff.1 (List.mem_of_getElem? hx)
  obtain ⟨s, hs, hxs⟩ := List.mem_flatten.1 hx3
  obtain ⟨r, -, hr⟩ := mapM_mem _ _ _ hsmp s hs
  obtain ⟨s', e1, -, e3⟩ := samples_some item maxn total (S.run (fun a b => less (item a) (item b)) (bodies r))
  rw [e1] at hr
  cases hr
  obtain ⟨b, hb, rfl⟩ := e3 x hxs
  have := h r b ((S.perm _ _).mem_iff.1 hb)
  rw [this] at hx2
  simp at hx2

/-- Non-vacuity: two processes, four particles, two with the same key. -/
example : ∃ out, qsort someSort id 8 63 16384 (∑ r : Fin 2, (if r = 0 then [⟨9, 1⟩, ⟨50, 2⟩] else [⟨9, 3⟩, ⟨20, 4⟩] : List Item).length)
    (fun r : Fin 2 => if r = 0 then [⟨9, 1⟩, ⟨50, 2⟩] else [⟨9, 3⟩, ⟨20, 4⟩]) = some out :=
  (C20_partial someSort id 8 63 16384 (fun r : Fin 2 => if r = 0 then [⟨9, 1⟩, ⟨50, 2⟩] else [⟨9, 3⟩, ⟨20, 4⟩]) (by decide) ⟨0, by simp⟩ (by decide)).imp
    fun _ h => h.1

end FleCSPH
