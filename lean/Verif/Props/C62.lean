import Verif.Props.C21
/-! C62: the point-to-point exchange ends, on every schedule, with every message in its place. -/
namespace FleCSPH
open Exchange

namespace Exchange
variable {P : Nat} {β : Type}

/-- What process `r` has in its buffer after the first `k` iterations. -/
def after (T : Traffic P) (got : Fin P → Fin P → β → β) (m : β) (r : Fin P) (k : Nat) : β :=
  ((List.finRange P).take k).foldl (fun m i => if T.count i r = 0 then m else got r i m) m

theorem after_succ (T : Traffic P) (got : Fin P → Fin P → β → β) (m : β) (r i : Fin P) :
    after T got m r (i.val + 1) = if T.count i r = 0 then after T got m r i else got r i (after T got m r i) := by
  unfold after
  rw [List.take_succ_eq_append_getElem (by simp), List.foldl_append]
  simp

/-- The invariant: counters in range, and the buffer has what was received. -/
def Ok (T : Traffic P) (got : Fin P → Fin P → β → β) (init : Fin P → β) (s : Net P β) : Prop :=
  ∀ r, s.pc r ≤ 2 * P + 1 ∧ s.mem r = after T got (init r) r (s.pc r / 2)

theorem ok_step {T : Traffic P} {got : Fin P → Fin P → β → β} {init : Fin P → β} {s t : Net P β} (h : Ok T got init s) (hs : Net.Step T got s t) :
    Ok T got init t ∧ ∑ r, t.pc r = ∑ r, s.pc r + 1 := by
  have hsum : ∀ (r : Fin P) (v : Nat), v = s.pc r + 1 → ∑ q, Function.update s.pc r v q = ∑ q, s.pc q + 1 := by
    intro r v hv
    rw [Finset.sum_update_of_mem (Finset.mem_univ r), hv, ← Finset.add_sum_erase _ _ (Finset.mem_univ r), Finset.sdiff_singleton_eq_erase]
    ring
  cases hs with
  | post r hr =>
    refine ⟨fun q => ?_, hsum r 1 (by omega)⟩
    obtain ⟨h1, h2⟩ := h q
    by_cases hq : q = r
    · subst hq
      simp only [Function.update_self]
      rw [hr] at h2
      exact ⟨by omega, h2⟩
    · simp only [Function.update_of_ne hq]; exact ⟨h1, h2⟩
  | skipRecv r i hr hc =>
    refine ⟨fun q => ?_, hsum r _ (by omega)⟩
    obtain ⟨h1, h2⟩ := h q
    by_cases hq : q = r
    · subst hq
      simp only [Function.update_self]
      have := i.isLt
      refine ⟨by omega, ?_⟩
      rw [h2, hr, show (2 * i.val + 2) / 2 = i.val + 1 by omega, show (2 * i.val + 1) / 2 = i.val by omega, after_succ, if_pos hc]
    · simp only [Function.update_of_ne hq]; exact ⟨h1, h2⟩
  | recv r i hr hc hp =>
    refine ⟨fun q => ?_, hsum r _ (by omega)⟩
    obtain ⟨h1, h2⟩ := h q
    by_cases hq : q = r
    · subst hq
      simp only [Function.update_self]
      have := i.isLt
      refine ⟨by omega, ?_⟩
      rw [h2, hr, show (2 * i.val + 2) / 2 = i.val + 1 by omega, show (2 * i.val + 1) / 2 = i.val by omega, after_succ, if_neg hc]
    · simp only [Function.update_of_ne hq]; exact ⟨h1, h2⟩
  | wait r i hr hw =>
    refine ⟨fun q => ?_, hsum r _ (by omega)⟩
    obtain ⟨h1, h2⟩ := h q
    by_cases hq : q = r
    · subst hq
      simp only [Function.update_self]
      have := i.isLt
      refine ⟨by omega, ?_⟩
      rw [h2, hr, show (2 * i.val + 2) / 2 = i.val + 1 by omega, show (2 * i.val + 3) / 2 = i.val + 1 by omega]
    · simp only [Function.update_of_ne hq]; exact ⟨h1, h2⟩

/-- If nobody can move everybody has returned. -/
theorem stuck_final {T : Traffic P} {got : Fin P → Fin P → β → β} {s : Net P β} (hpc : ∀ r, s.pc r ≤ 2 * P + 1) (hst : ∀ t, ¬ Net.Step T got s t)
    (r : Fin P) : s.pc r = 2 * P + 1 := by
  have hpost : ∀ r, 1 ≤ s.pc r := by
    intro r
    by_contra hc
    exact hst _ (.post s r (by omega))
  have hodd : ∀ r i : Fin P, s.pc r ≠ 2 * i + 1 := by
    intro r i h
    by_cases hc : T.count i r = 0
    · exact hst _ (.skipRecv s r i h hc)
    · exact hst _ (.recv s r i h hc (hpost i))
  have hcase : ∀ r, s.pc r = 2 * P + 1 ∨ ∃ i : Fin P, s.pc r = 2 * i + 2 := by
    intro r
    have h1 := hpost r
    have h2 := hpc r
    rcases Nat.even_or_odd' (s.pc r) with ⟨k, hk | hk⟩
    · right; exact ⟨⟨k - 1, by omega⟩, by dsimp only; omega⟩
    · by_cases hkP : k < P
      · exact absurd hk (hodd r ⟨k, hkP⟩)
      · left; omega
  have hno : ∀ n (r i : Fin P), r.val + i.val ≤ n → s.pc r ≠ 2 * i + 2 := by
    intro n
    induction n using Nat.strong_induction_on with
    | _ n ih =>
      intro r i hn h
      have hblock : ¬ 2 * r.val + 1 < s.pc i := fun hc => hst _ (.wait s r i h (Or.inr (Or.inr hc)))
      rcases hcase i with hi | ⟨j, hj⟩
      · have := r.isLt; omega
      · exact ih (i.val + j.val) (by omega) i j le_rfl hj
  rcases hcase r with h | ⟨i, hi⟩
  · exact h
  · exact absurd hi (hno _ r i le_rfl)

theorem ok_run {T : Traffic P} {got : Fin P → Fin P → β → β} {init : Fin P → β} {s t : Net P β} {n : Nat} (h : Ok T got init s)
    (hr : Net.Run T got s n t) : Ok T got init t ∧ ∑ r, t.pc r = ∑ r, s.pc r + n := by
  induction hr with
  | refl => exact ⟨h, by omega⟩
  | step _ h' ih =>
    obtain ⟨h1, h2⟩ := ok_step ih.1 h'
    exact ⟨h1, by omega⟩

theorem foldlM_getD {γ δ : Type} (f : γ → δ → Option γ) (l : List δ) (m x : γ) (h : l.foldlM f m = some x) :
    l.foldl (fun m i => (f m i).getD m) m = x := by
  induction l generalizing m with
  | nil => simpa using h
  | cons a l ih =>
    simp only [List.foldlM_cons, Option.bind_eq_bind, Option.bind_eq_some_iff] at h
    obtain ⟨y, h1, h2⟩ := h
    rw [List.foldl_cons, h1]
    exact ih y h2

end Exchange

/-- The memory of a receive buffer after a message: `start + recvoffsets[i]`, utils.h:177-179. -/
def Exchange.store {P sz : Nat} (count : Fin P → Fin P → Nat) (buffer : Fin P → List (Obj sz)) (r i : Fin P) (mem : List Byte) : List Byte :=
  (writeAt mem (((∑ j : Fin P, if j < i then count j r else 0) * sz : Nat) : Int) (bytes (blockFor (count i) (buffer i) r))).getD mem

/-- On every schedule, and whatever sends are buffered, `mpi_alltoallv_p2p` makes at most P(2P+1) steps, and when nobody can go on everybody has returned and
the receive buffers hold the blocks in the order of the processes: there is no deadlock. -/
theorem C62_no_deadlock {P sz : Nat} (count : Fin P → Fin P → Nat) (buffer : Fin P → List (Obj sz)) (init : Fin P → List Byte)
    (hinit : ∀ r, (init r).length = (∑ q, count q r) * sz) (hsz : 0 < sz) (hbuf : ∀ q, ∑ i, count q i ≤ (buffer q).length)
    (eager : Fin P → Fin P → Bool) (n : Nat) (t : Net P (List Byte))
    (hrun : Net.Run ⟨fun q r => count q r * sz, eager⟩ (store count buffer) ⟨fun _ => 0, init⟩ n t) :
    n ≤ P * (2 * P + 1) ∧
    ((∀ u, ¬ Net.Step ⟨fun q r => count q r * sz, eager⟩ (store count buffer) t u) →
      ∀ r, t.pc r = 2 * P + 1 ∧ t.mem r = bytes (deliver count buffer r)) := by
  obtain ⟨h1, h2⟩ := ok_run (init := init) (s := ⟨fun _ => 0, init⟩) (fun r => ⟨Nat.zero_le _, by simp [after]⟩) hrun
  simp only [Finset.sum_const_zero, zero_add] at h2
  constructor
  · rw [← h2]
    calc ∑ r, t.pc r ≤ ∑ _r : Fin P, (2 * P + 1) := Finset.sum_le_sum fun r _ => (h1 r).1
      _ = P * (2 * P + 1) := by simp
  · intro hst r
    have hf := stuck_final (fun r => (h1 r).1) hst r
    refine ⟨hf, ?_⟩
    have hm := (h1 r).2
    rw [hf, show (2 * P + 1) / 2 = P by omega] at hm
    rw [hm]
    unfold after
    have hfr : (List.finRange P).take P = List.finRange P := List.take_of_length_le (by simp)
    rw [hfr]
    have hlen : ∀ q, (blockFor (count q) (buffer q) r).length = count q r := by
      intro q
      unfold blockFor
      rw [List.length_take, List.length_drop]
      have h1 := hbuf q
      have h2 := prefix_succ (count q) r
      have h3 := prefix_le (count q) (r.val + 1)
      simp only [Fin.lt_def]
      omega
    have hmem : (init r).length = ∑ i, (bytes (blockFor (count i) (buffer i) r)).length := by
      rw [hinit, Finset.sum_mul]
      exact Finset.sum_congr rfl fun q _ => by rw [bytes_length, hlen]
    have key := write_all (fun q => bytes (blockFor (count q) (buffer q) r))
      (fun mem i => writeAt mem (((∑ j : Fin P, if j < i then count j r else 0) * sz : Nat) : Int) (bytes (blockFor (count i) (buffer i) r))) (by
        intro mem i
        congr 1
        simp only [bytes_length, hlen]
        rw [Finset.sum_mul]
        norm_cast
        refine Finset.sum_congr rfl fun j _ => ?_
        simp only [Fin.lt_def]
        split_ifs <;> simp) _ hmem P le_rfl
    rw [hfr] at key
    have hdrop : (init r).drop (∑ j : Fin P, if j.val < P then (bytes (blockFor (count j) (buffer j) r)).length else 0) = [] := by
      apply List.drop_of_length_le
      rw [hmem, prefix_all (fun j => (bytes (blockFor (count j) (buffer j) r)).length)]
    rw [hdrop, List.append_nil] at key
    have hg := foldlM_getD _ _ _ _ key.1
    have hfun : (fun (m : List Byte) (i : Fin P) => if count i r * sz = 0 then m else store count buffer r i m) = fun m i =>
        (writeAt m (((∑ j : Fin P, if j < i then count j r else 0) * sz : Nat) : Int) (bytes (blockFor (count i) (buffer i) r))).getD m := by
      funext m i
      split_ifs with h0
      · have hc : count i r = 0 := by
          rcases Nat.mul_eq_zero.1 h0 with h | h
          · exact h
          · omega
        have hnil : blockFor (count i) (buffer i) r = [] := List.length_eq_zero_iff.1 (by rw [hlen, hc])
        rw [hnil]
        unfold writeAt
        split_ifs <;> simp [bytes]
      · rfl
    change (List.finRange P).foldl (fun m i => if count i r * sz = 0 then m else store count buffer r i m) (init r) = _
    rw [hfun, hg]
    unfold deliver bytes
    rw [List.flatMap_assoc]

/-- And as long as somebody has not returned, somebody can go on, in every reachable state. -/
theorem C62_progress {P : Nat} {β : Type} (T : Traffic P) (got : Fin P → Fin P → β → β) (init : Fin P → β) (n : Nat) (t : Net P β)
    (hrun : Net.Run T got ⟨fun _ => 0, init⟩ n t) (r : Fin P) (hr : t.pc r ≠ 2 * P + 1) : ∃ u, Net.Step T got t u := by
  obtain ⟨h1, -⟩ := ok_run (init := init) (s := ⟨fun _ => 0, init⟩) (fun r => ⟨Nat.zero_le _, by simp [after]⟩) hrun
  by_contra hc
  push Not at hc
  exact hr (stuck_final (fun r => (h1 r).1) hc r)

/-- Non-vacuity: a complete schedule of two processes which send each other a message which is not buffered; the first wait has to let the other
process go on. -/
example : ∃ t, Net.Run (P := 2) ⟨fun q r => if q = r then 0 else 1, fun _ _ => false⟩ (fun _ _ (m : Nat) => m + 1) ⟨fun _ => 0, fun _ => 5⟩ 10 t ∧
    t.mem 0 = 6 ∧ t.mem 1 = 6 ∧ t.pc 0 = 5 ∧ t.pc 1 = 5 := by
  refine ⟨_, .step (.step (.step (.step (.step (.step (.step (.step (.step (.step (.refl _)
    (.post _ 0 rfl)) (.post _ 1 rfl)) (.skipRecv _ 0 0 rfl rfl)) (.wait _ 0 0 rfl (Or.inl rfl))) (.recv _ 0 1 rfl (by decide) (by decide)))
    (.recv _ 1 0 rfl (by decide) (by decide))) (.wait _ 0 1 rfl (Or.inr (Or.inr (by decide))))) (.wait _ 1 0 rfl (Or.inr (Or.inr (by decide)))))
    (.skipRecv _ 1 1 rfl rfl)) (.wait _ 1 1 rfl (Or.inl rfl)), ?_, ?_, ?_, ?_⟩ <;> rfl

end FleCSPH
