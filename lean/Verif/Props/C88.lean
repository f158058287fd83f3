import Verif.Lemmas.Log
import Mathlib.Data.List.Sort
import Mathlib.Data.List.Perm.Basic
/-!
C88. Messages gathered from all ranks are printed once each and in the order of their times (include/log.h: packets and the printing thread).
-/
namespace FleCSPH.Log
open LogSpec Flusher

/-! ### Times -/

private theorem readBack_eq_iff : ∀ k n, readBack k n = n ↔ n < 256 ^ k ∧ ∀ i, n / 256 ^ i % 256 = 0 → n / 256 ^ i = 0
  | 0, n => by
    simp only [readBack, pow_zero, Nat.lt_one_iff]
    constructor
    · rintro rfl; simp
    · rintro ⟨rfl, -⟩; rfl
  | k + 1, n => by
    have ih := readBack_eq_iff k (n / 256)
    have hdiv : ∀ i, n / 256 / 256 ^ i = n / 256 ^ (i + 1) := fun i => by rw [Nat.div_div_eq_div_mul, pow_succ']
    simp only [readBack]
    by_cases h0 : n % 256 = 0
    · rw [if_pos h0]
      constructor
      · rintro rfl; simp
      · rintro ⟨-, h2⟩
        have := h2 0 (by simpa using h0)
        simpa using this.symm
    · rw [if_neg h0]
      have hn := Nat.div_add_mod n 256
      constructor
      · intro h
        obtain ⟨h1, h2⟩ := ih.1 (by omega)
        refine ⟨by rw [pow_succ]; omega, fun i hi => ?_⟩
        cases i with
        | zero => exact absurd (by simpa using hi) h0
        | succ i => rw [← hdiv] at hi ⊢; exact h2 i hi
      · rintro ⟨h1, h2⟩
        have := ih.2 ⟨by rw [pow_succ] at h1; omega, fun i hi => by rw [hdiv] at hi ⊢; exact h2 (i + 1) hi⟩
        omega

/-- The time read from a packet is the time it was made exactly if no byte of the number below its highest byte is zero, both for the seconds and the
microseconds. -/
theorem C88_stamp_partial (sec usec : Nat) (text : Text) (p : Packet) (hp : Packet.make sec usec text = some p) :
    (p.seconds = sec ↔ Readable sec) ∧ (p.useconds = usec ↔ Readable usec) := by
  unfold Packet.make at hp
  simp only at hp
  split at hp
  · obtain rfl := Option.some.inj hp
    exact ⟨readBack_eq_iff 8 sec, readBack_eq_iff 8 usec⟩
  · simp at hp

example : Readable 1699999999 ∧ ¬ Readable 1700000000 := by
  rw [Readable, Readable, ← readBack_eq_iff 8, ← readBack_eq_iff 8]
  decide +kernel

/-- In every second whose number is a multiple of 256 the time read from the packet is 0, fifty years ago or more; the same for the microseconds. -/
theorem C88_stamp_violated (sec usec : Nat) (text : Text) (p : Packet) (hp : Packet.make sec usec text = some p) :
    (256 ∣ sec → p.seconds = 0) ∧ (256 ∣ usec → p.useconds = 0) := by
  unfold Packet.make at hp
  simp only at hp
  split at hp
  · obtain rfl := Option.some.inj hp
    constructor <;> intro h <;> simp [readBack, Nat.mod_eq_zero_of_dvd h]
  · simp at hp

/-- A message fits in a packet exactly if it has fewer than 1024 characters before its first null character; otherwise memory behind the packet is
overwritten. If it fits it is carried up to that null character. -/
theorem C88_size (sec usec : Nat) (text : Text) :
    ((Packet.make sec usec text).isSome = true ↔ (text.takeWhile (· ≠ '\x00')).length < 1024) ∧
    ∀ p, Packet.make sec usec text = some p → p.msg = text.takeWhile (· ≠ '\x00') := by
  unfold Packet.make
  by_cases h : (text.takeWhile (· ≠ '\x00')).length < 1024
  · simp only [h, if_true, Option.isSome_some, true_and, Option.some.injEq]
    rintro p rfl
    rfl
  · simp [h]

/-- A long message. -/
theorem C88_long_violated (sec usec : Nat) (text : Text) (h0 : '\x00' ∉ text) (hl : 1024 ≤ text.length) : Packet.make sec usec text = none := by
  have h := (C88_size sec usec text).1
  have ht : ∀ l : Text, '\x00' ∉ l → l.takeWhile (· ≠ '\x00') = l := by
    intro l
    induction l with
    | nil => intro _; rfl
    | cons c l ih =>
      intro hl
      have hc : c ≠ '\x00' := fun h => hl (by simp [h])
      rw [List.takeWhile_cons_of_pos (by simpa using hc), ih (fun h => hl (by simp [h]))]
  rw [ht text h0] at h
  cases hm : Packet.make sec usec text with
  | none => rfl
  | some p => rw [hm] at h; exact absurd (h.1 rfl) (by omega)

example : Packet.make 1 1 (List.replicate 1024 'x') = none :=
  C88_long_violated 1 1 _ (fun h => absurd (List.eq_of_mem_replicate h) (by decide)) (by rw [List.length_replicate])

/-! ### The printing thread -/

/-- **C88**, one part. In every interleaving of the two threads: what is printed is, up to order, what the first calls gathered, and what the later calls
gathered is waiting. So no message is printed twice or out of thin air, and none is lost while both threads run. -/
theorem C88_once (h : List (List Packet)) (s : Flusher) (hr : Run h s) :
    ∃ h1 h2, h = h1 ++ h2 ∧ s.printed.Perm h1.flatten ∧ s.packets = h2.flatten := by
  induction hr with
  | start => exact ⟨[], [], rfl, .refl _, rfl⟩
  | @step h s lab s' _ hs ih =>
    obtain ⟨h1, h2, rfl, hp, hq⟩ := ih
    cases hs with
    | gather ps _ => exact ⟨h1, h2 ++ [ps], by simp, hp, by simp [hq]⟩
    | finish _ => exact ⟨h1, h2, by simp, hp, hq⟩
    | wake _ _ => exact ⟨h1, h2, by simp, hp, hq⟩
    | flush out _ hperm _ =>
      refine ⟨h1 ++ h2, [], by simp, ?_, rfl⟩
      rw [List.flatten_append]
      exact hp.append (hq ▸ hperm)
    | stop _ _ => exact ⟨h1, h2, by simp, hp, hq⟩

private theorem order_aux (h : List (List Packet)) (s : Flusher) (hr : Run h s) :
    s.printed.Pairwise (fun x y => ¬ (SentBefore h y x ∧ y.lt x = true)) := by
  have key : ∃ k, (∀ x ∈ s.printed, ∃ i g, i < k ∧ h[i]? = some g ∧ x ∈ g) ∧ (∀ x ∈ s.packets, ∃ j g, k ≤ j ∧ h[j]? = some g ∧ x ∈ g) ∧
      k ≤ h.length ∧ s.printed.Pairwise (fun x y => ¬ (SentBefore h y x ∧ y.lt x = true)) := by
    induction hr with
    | start => exact ⟨0, by simp [Flusher.start]⟩
    | @step h s lab s' _ hs ih =>
      obtain ⟨k, h1, h2, h3, h4⟩ := ih
      cases hs with
      | gather ps _ =>
        have hget : ∀ i g, h[i]? = some g → (h ++ [ps])[i]? = some g := fun i g hg => by
          rw [List.getElem?_append_left (List.getElem?_eq_some_iff.1 hg).1]; exact hg
        refine ⟨k, ?_, ?_, by simp; omega, ?_⟩
        · intro x hx
          obtain ⟨i, g, hi, hg, hm⟩ := h1 x hx
          exact ⟨i, g, hi, hget i g hg, hm⟩
        · intro x hx
          rcases List.mem_append.1 hx with hx | hx
          · obtain ⟨i, g, hi, hg, hm⟩ := h2 x hx
            exact ⟨i, g, hi, hget i g hg, hm⟩
          · exact ⟨h.length, ps, h3, by simp, hx⟩
        · refine h4.imp (fun {x y} hxy hb => hxy ⟨fun i j gi gj hi hj => ?_, hb.2⟩)
          exact hb.1 i j gi gj (hget i gi hi) (hget j gj hj)
      | finish _ => simp only [Option.toList_none, List.append_nil]; exact ⟨k, h1, h2, h3, h4⟩
      | wake _ _ => simp only [Option.toList_none, List.append_nil]; exact ⟨k, h1, h2, h3, h4⟩
      | flush out _ hperm hsort =>
        simp only [Option.toList_none, List.append_nil]
        refine ⟨h.length, ?_, by simp, le_refl _, ?_⟩
        · intro x hx
          rcases List.mem_append.1 hx with hx | hx
          · obtain ⟨i, g, hi, hg, hm⟩ := h1 x hx
            exact ⟨i, g, by omega, hg, hm⟩
          · obtain ⟨i, g, -, hg, hm⟩ := h2 x (hperm.mem_iff.1 hx)
            exact ⟨i, g, (List.getElem?_eq_some_iff.1 hg).1, hg, hm⟩
        · refine List.pairwise_append.2 ⟨h4, hsort.imp (fun hab hb => by rw [hab] at hb; simp at hb), ?_⟩
          intro x hx y hy hb
          obtain ⟨i, gi, hi, hgi, hmi⟩ := h1 x hx
          obtain ⟨j, gj, hj, hgj, hmj⟩ := h2 y (hperm.mem_iff.1 hy)
          have := hb.1 j i gj gi hgj hgi hmj hmi
          omega
      | stop _ _ => simp only [Option.toList_none, List.append_nil]; exact ⟨k, h1, h2, h3, h4⟩
  exact key.choose_spec.2.2.2

/-- **C88**, the order. In every interleaving: of two messages of which one was sent earlier, by the clock and by an earlier call, the earlier one is
never printed after the later one. Partial: the numbers of both times have no zero bytes in the middle (`C88_order_violated` otherwise), and messages of
the same microsecond may be exchanged. -/
theorem C88_order_partial (h : List (List Packet)) (s : Flusher) (hr : Run h s) (a b : Packet) (sa ua sb ub : Nat) (xa xb : Text)
    (ha : Packet.make sa ua xa = some a) (hb : Packet.make sb ub xb = some b) (hra : Readable sa ∧ Readable ua) (hrb : Readable sb ∧ Readable ub)
    (htime : sa < sb ∨ sa = sb ∧ ua < ub) (hsent : SentBefore h a b) (l1 l2 : List Packet) (hprinted : s.printed = l1 ++ b :: l2) : a ∉ l2 := by
  intro hmem
  have ha' := C88_stamp_partial sa ua xa a ha
  have hb' := C88_stamp_partial sb ub xb b hb
  have h1 := order_aux h s hr
  rw [hprinted] at h1
  have h2 := (List.pairwise_cons.1 (List.pairwise_append.1 h1).2.1).1 a hmem
  apply h2
  refine ⟨hsent, ?_⟩
  unfold Packet.lt
  rw [ha'.1.2 hra.1, ha'.2.2 hra.2, hb'.1.2 hrb.1, hb'.2.2 hrb.2]
  rcases htime with ht | ⟨ht, ht2⟩
  · rw [if_neg (by omega)]; simpa using ht
  · rw [if_pos ht]; simpa using ht2

/-- Two messages, one second apart, printed in one go. -/
example : ∃ a b s, Packet.make 1699999998 257 ['a'] = some a ∧ Packet.make 1699999999 1 ['b'] = some b ∧ Run [[a], [b]] s ∧ s.printed = [a, b] ∧
    SentBefore [[a], [b]] a b := by
  refine ⟨⟨1699999998, 257, ['a']⟩, ⟨1699999999, 1, ['b']⟩, ⟨[], [⟨1699999998, 257, ['a']⟩, ⟨1699999999, 1, ['b']⟩], true, .check⟩,
    by decide +kernel, by decide +kernel, ?_, rfl, ?_⟩
  · have h1 := Run.step .start (Step.gather .start [⟨1699999998, 257, ['a']⟩] rfl)
    have h2 := Run.step h1 (Step.gather _ [⟨1699999999, 1, ['b']⟩] rfl)
    have h3 := Run.step h2 (Step.wake _ rfl rfl)
    exact Run.step h3 (Step.flush _ [⟨1699999998, 257, ['a']⟩, ⟨1699999999, 1, ['b']⟩] rfl (.refl _) (by simp [Packet.lt]))
  · intro i j gi gj hi hj ha hb
    match i, j with
    | 0, 0 => simp at hj; subst hj; simp at hb
    | 0, 1 => omega
    | 1, _ => simp at hi; subst hi; simp at ha
    | i + 2, _ => simp at hi
    | 0, j + 2 => simp at hj

/-- When the number of seconds becomes a multiple of 256, later messages overtake earlier ones: whenever two messages of the second before and of this
second are printed together, the later one comes first. -/
theorem C88_order_violated (t u v : Nat) (hu : Readable t) (h0 : 0 < t) (hdvd : 256 ∣ t + 1) (xa xb : Text) (a b : Packet)
    (ha : Packet.make t u xa = some a) (hb : Packet.make (t + 1) v xb = some b) :
    (∃ s, Run [[a], [b]] s ∧ s.printed = [b, a]) ∧
    ∀ out : List Packet, out.Perm [a, b] → out.Pairwise (fun x y => y.lt x = false) → out = [b, a] := by
  have ha' := (C88_stamp_partial t u xa a ha).1.2 hu
  have hb' := (C88_stamp_violated (t + 1) v xb b hb).1 hdvd
  have hlt : a.lt b = false ∧ b.lt a = true := by
    unfold Packet.lt
    rw [ha', hb', if_neg (by omega), if_neg (by omega)]
    simp [h0]
  constructor
  · refine ⟨⟨[], [b, a], true, .check⟩, ?_, rfl⟩
    have h1 := Run.step .start (Step.gather .start [a] rfl)
    have h2 := Run.step h1 (Step.gather _ [b] rfl)
    have h3 := Run.step h2 (Step.wake _ rfl rfl)
    exact Run.step h3 (Step.flush _ [b, a] rfl (List.Perm.swap _ _ _) (by simp [hlt]))
  · intro out hperm hsort
    have hlen := hperm.length_eq
    match out, hlen with
    | [x, y], _ =>
      have hxy : y.lt x = false := by simpa using hsort
      have hne : a ≠ b := by rintro rfl; rw [hlt.1] at hlt; simp at hlt
      have hx := hperm.mem_iff.1 (show x ∈ [x, y] by simp)
      have hy := hperm.mem_iff.1 (show y ∈ [x, y] by simp)
      have hnd : [x, y].Nodup := hperm.nodup_iff.2 (by simp [hne])
      simp at hx hy hnd
      rcases hx with rfl | rfl <;> rcases hy with rfl | rfl
      · exact absurd rfl hnd
      · rw [hlt.2] at hxy; simp at hxy
      · rfl
      · exact absurd rfl hnd

/-- It happened at 1700000000. -/
example : Readable 1699999999 ∧ 256 ∣ 1699999999 + 1 := by
  constructor
  · rw [Readable, ← readBack_eq_iff 8]; decide +kernel
  · decide

/-- The last messages can be lost: the printing thread ends without looking at what is waiting. -/
theorem C88_lost_violated (ps : List Packet) : ∃ s, Run [ps] s ∧ s.pc = .done ∧ s.printed = [] ∧
    ∀ lab s', ¬ Step s lab s' := by
  refine ⟨⟨ps, [], false, .done⟩, ?_, rfl, rfl, ?_⟩
  · have h1 := Run.step .start (Step.gather .start ps rfl)
    have h2 := Run.step h1 (Step.finish _ rfl)
    exact Run.step h2 (Step.stop _ rfl rfl)
  · intro lab s' hs
    cases hs <;> simp_all

private theorem exists_sorted (l : List Packet) : ∃ out : List Packet, out.Perm l ∧ out.Pairwise (fun a b => b.lt a = false) := by
  have hlt : ∀ a b : Packet, a.lt b = false ↔ b.seconds < a.seconds ∨ b.seconds = a.seconds ∧ b.useconds ≤ a.useconds := by
    intro a b
    unfold Packet.lt
    by_cases h : a.seconds = b.seconds
    · simp [h]
    · simp only [h, if_false, decide_eq_false_iff_not]; omega
  have htotal : ∀ a b : Packet, (b.lt a = false) ∨ (a.lt b = false) := by
    intro a b; rw [hlt, hlt]; omega
  have htrans : ∀ a b c : Packet, b.lt a = false → c.lt b = false → c.lt a = false := by
    intro a b c; rw [hlt, hlt, hlt]; omega
  let r : Packet → Packet → Prop := fun a b => b.lt a = false
  have : DecidableRel r := fun a b => by unfold r; infer_instance
  have : Std.Total r := ⟨htotal⟩
  have : IsTrans Packet r := ⟨fun a b c h1 h2 => htrans a b c h1 h2⟩
  exact ⟨l.insertionSort r, List.perm_insertionSort r l, List.pairwise_insertionSort r l⟩

/-- The end of the program does not hang: once it was asked to end, the printing thread can always go on until it has ended, and ends after at most
two steps. -/
theorem C88_end (s : Flusher) (hs : s.run = false) :
    (s.pc ≠ .done → ∃ lab s', Step s lab s') ∧
    ∀ lab s', Step s lab s' → s'.run = false ∧ (s.pc = .asleep ∧ s'.pc = .check ∧ s'.packets = [] ∨ s.pc = .check ∧ s'.pc = .done) := by
  constructor
  · intro hpc
    cases h : s.pc with
    | check => exact ⟨_, _, .stop s h hs⟩
    | asleep =>
      obtain ⟨out, h1, h2⟩ := exists_sorted s.packets
      exact ⟨_, _, .flush s out h h1 h2⟩
    | done => exact absurd h hpc
  · intro lab s' hst
    cases hst <;> simp_all

end FleCSPH.Log
