import Verif.Props.C40
import Verif.Lemmas.TimedOutputs
/-! C41: output times. -/
namespace FleCSPH
open Sph Geometry Kernels Timestep

/-- A run with limits that are positive and somewhere at most nine tenths of the interval, in every call. -/
structure GoodLimits (out : ℝ) (l : List (List ℝ)) : Prop where
  pos : ∀ m ∈ l, ∀ x ∈ m, 0 < x
  small : ∃ m ∈ l, ∃ x ∈ m, x ≤ 9 / 10 * out

private theorem good_smallest {out : ℝ} {l : List (List ℝ)} (h : GoodLimits out l) : 0 < smallest l ∧ smallest l ≤ 9 / 10 * out := by
  refine ⟨smallest_pos l h.pos, ?_⟩
  obtain ⟨m, hm, x, hx, h2⟩ := h.small
  exact (smallest_le l hm hx).trans h2

private theorem clockAt_snoc (o : Outputs) (c0 : Clock) (first : List (List ℝ)) (rest : List (List (List ℝ))) (l : List (List ℝ)) :
    clockAt o c0 first (rest ++ [l]) = advance true (setAdaptive o l (clockMid o c0 first rest)) := by
  cases rest with
  | nil => rfl
  | cons a r =>
    show clockAt o c0 first (a :: (r ++ [l])) = _
    simp only [clockAt, clockMid]
    rw [← List.cons_append, List.foldl_append]
    rfl

/-- The state of the clock during a run: `k` output times are behind, each was reached exactly, and the next is pending. -/
private theorem run_inv (o : Outputs) (k : Kind) (ho : ∀ k', 0 < o.interval k' ↔ k' = k) (it : Int) (t0 dt0 : ℝ) (ht0 : 0 ≤ t0) (hdt : 0 < dt0)
    (first : List (List ℝ)) (hf : GoodLimits (o.interval k) first) (rest : List (List (List ℝ))) (hr : ∀ l ∈ rest, GoodLimits (o.interval k) l) :
    let c := clockMid o (start o it t0 dt0) first rest
    0 < c.dt ∧ c.dtSaved ≤ 9 / 10 * o.interval k ∧ c.totaltime ≤ c.t k ∧ (rest = [] → c.totaltime = t0) ∧
    c.totaltime = (clockAt o (start o it t0 dt0) first rest).totaltime ∧
    ∃ m : Nat, 0 < m ∧ c.t k = t0 + m * o.interval k ∧
      ∀ j : Nat, j < m → ∃ p, p <+: rest ∧ (clockAt o (start o it t0 dt0) first p).totaltime = t0 + j * o.interval k := by
  have hout : 0 < o.interval k := (ho k).mpr rfl
  induction rest using List.reverseRecOn with
  | nil =>
    obtain ⟨s1, s2, s3, s4⟩ := C40_start o k hout it t0 dt0 hdt
    obtain ⟨g1, g2⟩ := good_smallest hf
    obtain ⟨_, h2, h3, h4, h5, h6, h7, _, _⟩ := setAdaptive_single o k ho first (start o it t0 dt0) g1 g2 s1 s2 s3
    intro c
    have hc : c = setAdaptive o first (start o it t0 dt0) := rfl
    rw [hc]
    refine ⟨by rw [h7]; linarith, h4, by rw [h2]; linarith, fun _ => by rw [h2]; exact (s4 ht0).1, h2, 1, one_pos, ?_, ?_⟩
    · rw [h3, (s4 ht0).1, (s4 ht0).2, if_pos rfl]; push_cast; ring
    · intro j hj
      refine ⟨[], List.nil_prefix, ?_⟩
      obtain rfl : j = 0 := by omega
      show (start o it t0 dt0).totaltime = _
      rw [(s4 ht0).1]; push_cast; ring
  | append_singleton rest l ih =>
    obtain ⟨i1, i2, i3, i4, i5, m, hm, i6, i7⟩ := ih fun x hx => hr x (List.mem_append_left _ hx)
    obtain ⟨g1, g2⟩ := good_smallest (hr l (by simp))
    intro c
    have hc : c = advance true (setAdaptive o l (clockMid o (start o it t0 dt0) first rest)) := by
      rw [← clockAt_snoc]
      cases rest <;> rfl
    have hcat : clockAt o (start o it t0 dt0) first (rest ++ [l]) = c := by rw [clockAt_snoc, hc]
    obtain ⟨_, h2, h3, h4, h5, h6, h7, _, _⟩ := setAdaptive_single o k ho l _ g1 g2 i1 i2 i3
    refine ⟨?_, ?_, ?_, fun h => absurd h (by simp), by rw [hcat], ?_⟩
    · rw [hc]; show 0 < (setAdaptive o l _).dt; rw [h7]; linarith
    · rw [hc]; exact h4
    · rw [hc]; exact h6
    · by_cases he : (clockMid o (start o it t0 dt0) first rest).totaltime = (clockMid o (start o it t0 dt0) first rest).t k
      · refine ⟨m + 1, by omega, ?_, ?_⟩
        · rw [hc]; show (setAdaptive o l _).t k = _; rw [h3, if_pos he, i6]; push_cast; ring
        · intro j hj
          rcases Nat.lt_or_ge j m with hjm | hjm
          · obtain ⟨p, hp, hpt⟩ := i7 j hjm
            exact ⟨p, hp.trans (List.prefix_append _ _), hpt⟩
          · obtain rfl : j = m := by omega
            exact ⟨rest, List.prefix_append _ _, by rw [← i5, he, i6]⟩
      · refine ⟨m, hm, ?_, ?_⟩
        · rw [hc]; show (setAdaptive o l _).t k = _; rw [h3, if_neg he, i6]
        · intro j hj
          obtain ⟨p, hp, hpt⟩ := i7 j hj
          exact ⟨p, hp.trans (List.prefix_append _ _), hpt⟩

/-- With one kind of timed output and small limits: over every history the time increases strictly, and every output time
`t0 + j interval` the run has reached was hit exactly at the beginning of some iteration. -/
theorem C41_times_partial (o : Outputs) (k : Kind) (ho : ∀ k', 0 < o.interval k' ↔ k' = k) (it : Int) (t0 dt0 : ℝ) (ht0 : 0 ≤ t0) (hdt : 0 < dt0)
    (first : List (List ℝ)) (hf : GoodLimits (o.interval k) first) (rest : List (List (List ℝ))) (hr : ∀ l ∈ rest, GoodLimits (o.interval k) l) :
    (∀ l, GoodLimits (o.interval k) l →
      (clockAt o (start o it t0 dt0) first rest).totaltime < (clockAt o (start o it t0 dt0) first (rest ++ [l])).totaltime) ∧
    (∀ j : Nat, t0 + j * o.interval k ≤ (clockAt o (start o it t0 dt0) first rest).totaltime →
      ∃ p, p <+: rest ∧ (clockAt o (start o it t0 dt0) first p).totaltime = t0 + j * o.interval k) := by
  have hout : 0 < o.interval k := (ho k).mpr rfl
  obtain ⟨i1, i2, i3, i4, i5, m, hm, i6, i7⟩ := run_inv o k ho it t0 dt0 ht0 hdt first hf rest hr
  refine ⟨fun l hl => ?_, fun j hj => ?_⟩
  · obtain ⟨g1, g2⟩ := good_smallest hl
    obtain ⟨_, h2, h3, h4, h5, h6, h7, _, _⟩ := setAdaptive_single o k ho l _ g1 g2 i1 i2 i3
    rw [clockAt_snoc, ← i5]
    exact h5
  · rcases Nat.lt_or_ge j m with hjm | hjm
    · exact i7 j hjm
    · rw [← i5] at hj
      have : (j : ℝ) * o.interval k ≤ m * o.interval k := by linarith
      have : (j : ℝ) ≤ m := le_of_mul_le_mul_right this hout
      obtain rfl : j = m := le_antisymm (by exact_mod_cast this) hjm
      exact ⟨rest, List.prefix_rfl, by rw [← i5]; linarith⟩

/-- And output is written in an iteration after the first exactly if its time is an output time; this is also so for the screen
output of the first iteration. -/
theorem C41_written_partial (o : Outputs) (k : Kind) (ho : ∀ k', 0 < o.interval k' ↔ k' = k) (it : Int) (t0 dt0 : ℝ) (ht0 : 0 ≤ t0) (hdt : 0 < dt0)
    (first : List (List ℝ)) (hf : GoodLimits (o.interval k) first) (rest : List (List (List ℝ))) (hr : ∀ l ∈ rest, GoodLimits (o.interval k) l) :
    due o k (clockAt o (start o it t0 dt0) first rest) ↔
      ∃ j : Nat, (clockAt o (start o it t0 dt0) first rest).totaltime = t0 + j * o.interval k := by
  have hout : 0 < o.interval k := (ho k).mpr rfl
  cases rest with
  | nil =>
    obtain ⟨_, _, s3, s4⟩ := C40_start o k hout it t0 dt0 hdt
    have e : clockAt o (start o it t0 dt0) first [] = start o it t0 dt0 := rfl
    rw [e]
    refine ⟨fun _ => ⟨0, by rw [(s4 ht0).1]; push_cast; ring⟩, fun _ => ?_⟩
    rw [due, if_pos hout, (s4 ht0).1, (s4 ht0).2]
    exact lt_irrefl _
  | cons a r =>
    obtain ⟨i1, i2, i3, i4, i5, m, hm, i6, i7⟩ := run_inv o k ho it t0 dt0 ht0 hdt first hf (a :: r) hr
    have e : clockMid o (start o it t0 dt0) first (a :: r) = clockAt o (start o it t0 dt0) first (a :: r) := rfl
    rw [e] at i3 i6
    rw [due, if_pos hout]
    constructor
    · intro h
      exact ⟨m, by rw [← i6]; exact le_antisymm i3 (not_lt.mp h)⟩
    · rintro ⟨j, hj⟩ hlt
      have hjm : j < m := by
        rw [hj, i6] at hlt
        have : (j : ℝ) * o.interval k < m * o.interval k := by linarith
        exact_mod_cast lt_of_mul_lt_mul_right this hout.le
      -- an earlier output time was reached by a prefix, but the time increases strictly
      obtain ⟨p, hp, hpt⟩ := i7 j hjm
      have mono : ∀ q, p <+: q → q <+: (a :: r) → p ≠ q →
          (clockAt o (start o it t0 dt0) first p).totaltime < (clockAt o (start o it t0 dt0) first q).totaltime := by
        intro q
        induction q using List.reverseRecOn with
        | nil => intro h1 _ h3; exact absurd (List.prefix_nil.mp h1) h3
        | append_singleton q x ihq =>
          intro h1 h2 h3
          have hq : q <+: (a :: r) := (List.prefix_append _ _).trans h2
          have hgq : ∀ l ∈ q, GoodLimits (o.interval k) l := fun l hl => hr l (hq.subset hl)
          have hgx : GoodLimits (o.interval k) x := hr x (h2.subset (by simp))
          have hstep := (C41_times_partial o k ho it t0 dt0 ht0 hdt first hf q hgq).1 x hgx
          rcases List.prefix_concat_iff.mp h1 with h4 | h4
          · exact absurd h4 h3
          · by_cases h5 : p = q
            · rw [h5]; exact hstep
            · exact (ihq h4 hq h5).trans hstep
      by_cases hpe : p = a :: r
      · -- the time is t0 + j interval < t k, but then the pending time would be this one
        subst hpe
        -- the previous clock had its pending time at most the new time
        obtain ⟨q, x, hqx⟩ : ∃ q x, a :: r = q ++ [x] := by
          refine ⟨(a :: r).dropLast, (a :: r).getLast (by simp), ?_⟩
          rw [List.dropLast_append_getLast]
        have hgq : ∀ l ∈ q, GoodLimits (o.interval k) l := fun l hl => hr l (by rw [hqx]; simp [hl])
        obtain ⟨q1, q2, q3, q4, q5, m', hm', q6, q7⟩ := run_inv o k ho it t0 dt0 ht0 hdt first hf q hgq
        obtain ⟨g1, g2⟩ := good_smallest (hr x (by rw [hqx]; simp))
        obtain ⟨_, h2, h3, h4, h5, h6, h7, _, _⟩ := setAdaptive_single o k ho x _ g1 g2 q1 q2 q3
        have hnow : clockAt o (start o it t0 dt0) first (a :: r) = advance true (setAdaptive o x (clockMid o (start o it t0 dt0) first q)) := by
          rw [hqx, clockAt_snoc]
        have ht' : (clockAt o (start o it t0 dt0) first (a :: r)).t k = (setAdaptive o x (clockMid o (start o it t0 dt0) first q)).t k := by
          rw [hnow]; rfl
        have htt : (clockAt o (start o it t0 dt0) first (a :: r)).totaltime = (setAdaptive o x (clockMid o (start o it t0 dt0) first q)).totaltimeNext := by
          rw [hnow]; rfl
        rw [h3, i6] at ht'
        rw [htt] at hj
        by_cases he : (clockMid o (start o it t0 dt0) first q).totaltime = (clockMid o (start o it t0 dt0) first q).t k
        · rw [if_pos he, q6] at ht'
          have hmm : m = m' + 1 := by
            have : (m : ℝ) * o.interval k = (m' + 1) * o.interval k := by linarith
            exact_mod_cast mul_right_cancel₀ hout.ne' this
          have : (t0 : ℝ) + m' * o.interval k < t0 + j * o.interval k := by
            rw [← hj, ← q6, ← he]; exact h5
          have : (m' : ℝ) * o.interval k < j * o.interval k := by linarith
          have : (m' : ℝ) < j := lt_of_mul_lt_mul_right this hout.le
          have : m' < j := by exact_mod_cast this
          omega
        · rw [if_neg he, q6] at ht'
          have hmm : m = m' := by
            have : (m : ℝ) * o.interval k = m' * o.interval k := by linarith
            exact_mod_cast mul_right_cancel₀ hout.ne' this
          -- t0 + j interval was reached by a prefix of q already
          obtain ⟨p', hp', hpt'⟩ := q7 j (by omega)
          have hlast : ∀ q', p' <+: q' → q' <+: q →
              (clockAt o (start o it t0 dt0) first p').totaltime ≤ (clockAt o (start o it t0 dt0) first q').totaltime := by
            intro q'
            induction q' using List.reverseRecOn with
            | nil => intro h1 _; rw [List.prefix_nil.mp h1]
            | append_singleton q' y ihq =>
              intro h1 h2'
              have hq' : q' <+: q := (List.prefix_append _ _).trans h2'
              have hstep := (C41_times_partial o k ho it t0 dt0 ht0 hdt first hf q' (fun l hl => hgq l (hq'.subset hl))).1 y
                (hgq y (h2'.subset (by simp)))
              rcases List.prefix_concat_iff.mp h1 with h4' | h4'
              · rw [h4']
              · exact (ihq h4' hq').trans hstep.le
          have := hlast q hp' List.prefix_rfl
          rw [hpt', ← q5] at this
          linarith
      · have := mono (a :: r) hp List.prefix_rfl hpe
        rw [hpt, hj] at this
        exact lt_irrefl _ this

/-- Several timed outputs with the same interval: over every history the time increases strictly, and every output time is hit exactly. -/
theorem C41_equal_times_partial (o : Outputs) (I : ℝ) (hsame : ∀ j, 0 < o.interval j → o.interval j = I) (k : Kind) (hk : 0 < o.interval k) (it : Int) (t0 dt0 : ℝ) (ht0 : 0 ≤ t0) (hdt : 0 < dt0)
    (first : List (List ℝ)) (hf : GoodLimits I first) (rest : List (List (List ℝ))) (hr : ∀ l ∈ rest, GoodLimits I l) :
    (∀ l, GoodLimits I l → (clockAt o (start o it t0 dt0) first rest).totaltime < (clockAt o (start o it t0 dt0) first (rest ++ [l])).totaltime) ∧
    (∀ j : Nat, t0 + j * I ≤ (clockAt o (start o it t0 dt0) first rest).totaltime → ∃ p, p <+: rest ∧ (clockAt o (start o it t0 dt0) first p).totaltime = t0 + j * I) := by
  obtain ⟨m, hm, rfl⟩ := Lead.exists o I hsame k hk
  have e : ∀ r, (clockAt o (start o it t0 dt0) first r).totaltime = (clockAt (only o m) (start (only o m) it t0 dt0) first r).totaltime := fun r =>
    (Alike.clockAt hm it t0 dt0 first r).totaltime
  have h := C41_times_partial (only o m) m (only_active o m hm.active) it t0 dt0 ht0 hdt first (by rw [only_interval]; exact hf) rest (by rw [only_interval]; exact hr)
  rw [only_interval] at h
  simp only [e]
  exact h

/-- And each of them is written exactly at these times (the screen output in every iteration, the others after the first). -/
theorem C41_equal_written_partial (o : Outputs) (I : ℝ) (hsame : ∀ j, 0 < o.interval j → o.interval j = I) (k : Kind) (hk : 0 < o.interval k) (it : Int) (t0 dt0 : ℝ) (ht0 : 0 ≤ t0) (hdt : 0 < dt0)
    (first : List (List ℝ)) (hf : GoodLimits I first) (rest : List (List (List ℝ))) (hr : ∀ l ∈ rest, GoodLimits I l) :
    due o k (clockAt o (start o it t0 dt0) first rest) ↔ ∃ j : Nat, (clockAt o (start o it t0 dt0) first rest).totaltime = t0 + j * I := by
  obtain ⟨m, hm, rfl⟩ := Lead.exists o I hsame k hk
  have h := C41_written_partial (only o m) m (only_active o m hm.active) it t0 dt0 ht0 hdt first (by rw [only_interval]; exact hf) rest (by rw [only_interval]; exact hr)
  have ha := Alike.clockAt hm it t0 dt0 first rest
  rw [only_interval, ← ha.totaltime] at h
  rw [← h, due, due, if_pos hk, if_pos ((only_active o m hm.active m).2 rfl), ha.t k hk, ha.totaltime]

/-- Then every step is positive and longer than what the particles allow by less than a tenth of the interval, and without timed screen output not longer at all; the time advances by the step. -/
theorem C40_equal_partial (o : Outputs) (I : ℝ) (hsame : ∀ j, 0 < o.interval j → o.interval j = I) (k : Kind) (hk : 0 < o.interval k) (it : Int) (t0 dt0 : ℝ) (ht0 : 0 ≤ t0) (hdt : 0 < dt0)
    (first : List (List ℝ)) (hf : GoodLimits I first) (rest : List (List (List ℝ))) (hr : ∀ l ∈ rest, GoodLimits I l) (l : List (List ℝ)) (hl : GoodLimits I l) :
    let c := clockAt o (start o it t0 dt0) first (rest ++ [l])
    0 < c.dt ∧ c.totaltime = (clockAt o (start o it t0 dt0) first rest).totaltime + c.dt ∧ (∀ m ∈ l, ∀ x ∈ m, c.dt < x + 1 / 10 * I) ∧
      (¬ 0 < o.interval .screen → ∀ m ∈ l, ∀ x ∈ m, c.dt ≤ x) := by
  obtain ⟨m, hm, rfl⟩ := Lead.exists o I hsame k hk
  intro c
  have ha := Alike.clockAt hm it t0 dt0 first (rest ++ [l])
  have ha' := (Alike.clockAt hm it t0 dt0 first rest).totaltime
  obtain ⟨i1, i2, i3, -, i5, -⟩ := run_inv (only o m) m (only_active o m hm.active) it t0 dt0 ht0 hdt first (by rw [only_interval]; exact hf) rest (by rw [only_interval]; exact hr)
  obtain ⟨g1, g2⟩ := good_smallest hl
  rw [← only_interval o m] at g2
  obtain ⟨-, h2, -, -, h5, -, h7, h8, h9⟩ := setAdaptive_single (only o m) m (only_active o m hm.active) l _ g1 g2 i1 i2 i3
  rw [only_interval] at h8
  have e : c.dt = (setAdaptive (only o m) l (clockMid (only o m) (start (only o m) it t0 dt0) first rest)).dt := by
    show (clockAt o _ _ _).dt = _
    rw [ha.dt, clockAt_snoc]
    rfl
  have e' : c.totaltime = (setAdaptive (only o m) l (clockMid (only o m) (start (only o m) it t0 dt0) first rest)).totaltimeNext := by
    show (clockAt o _ _ _).totaltime = _
    rw [ha.totaltime, clockAt_snoc]
    rfl
  rw [e, e', ha', ← i5]
  refine ⟨by rw [h7]; linarith, by rw [h7]; ring, fun y hy x hx => ?_, fun hs y hy x hx => ?_⟩
  · have := smallest_le l hy hx
    linarith
  · refine ((h9 fun h0 => hs ?_).1).trans (smallest_le l hy hx)
    rw [← h0]
    exact hm.active

-- three outputs every unit of time, particles on two processes
example : ∃ o : Outputs, (∀ j, 0 < o.interval j → o.interval j = 1) ∧ (∀ j, 0 < o.interval j) ∧ GoodLimits 1 [[3 / 10, 4 / 10], [1 / 2]] :=
  ⟨⟨fun _ => 1, fun _ => 0⟩, fun _ _ => rfl, fun _ => one_pos, ⟨by
    intro m hm x hx
    simp only [List.mem_cons, List.not_mem_nil, or_false] at hm
    rcases hm with rfl | rfl <;> simp only [List.mem_cons, List.not_mem_nil, or_false] at hx
    · rcases hx with rfl | rfl <;> norm_num
    · rw [hx]; norm_num, [1 / 2], by simp, 1 / 2, by simp, by norm_num⟩⟩

/-- In an adaptive run the scalar and data outputs of the initial time are lost: the time step is set, and the output time moved
on, before these outputs. -/
theorem C41_initial_violated (o : Outputs) (k : Kind) (ho : ∀ k', 0 < o.interval k' ↔ k' = k) (it : Int) (t0 dt0 : ℝ) (ht0 : 0 ≤ t0) (hdt : 0 < dt0)
    (first : List (List ℝ)) (hf : GoodLimits (o.interval k) first) :
    ¬ due o k (clockMid o (start o it t0 dt0) first []) ∧ (clockMid o (start o it t0 dt0) first []).totaltime = t0 := by
  have hout : 0 < o.interval k := (ho k).mpr rfl
  obtain ⟨s1, s2, s3, s4⟩ := C40_start o k hout it t0 dt0 hdt
  obtain ⟨g1, g2⟩ := good_smallest hf
  obtain ⟨_, h2, h3, h4, h5, h6, h7, _, _⟩ := setAdaptive_single o k ho first (start o it t0 dt0) g1 g2 s1 s2 s3
  have e : clockMid o (start o it t0 dt0) first [] = setAdaptive o first (start o it t0 dt0) := rfl
  rw [e]
  refine ⟨?_, by rw [h2]; exact (s4 ht0).1⟩
  rw [due, if_pos hout, not_not, h2]
  linarith

/-- With a fixed time step nothing moves the output time: timed output is written in every iteration. -/
theorem C41_fixed_step_violated (o : Outputs) (k : Kind) (hk : 0 < o.interval k) (it : Int) (t0 dt0 : ℝ) (ht0 : 0 ≤ t0) (hdt : 0 < dt0) (n : Nat) :
    due o k ((advance false)^[n] (start o it t0 dt0)) := by
  obtain ⟨_, _, _, s4⟩ := C40_start o k hk it t0 dt0 hdt
  have key : ∀ n, ((advance false)^[n] (start o it t0 dt0)).t k = t0 ∧ t0 ≤ ((advance false)^[n] (start o it t0 dt0)).totaltime ∧
      ((advance false)^[n] (start o it t0 dt0)).dt = dt0 := by
    intro n
    induction n with
    | zero => exact ⟨(s4 ht0).2, (s4 ht0).1.ge, rfl⟩
    | succ n ih =>
      rw [Function.iterate_succ_apply']
      obtain ⟨h1, h2, h3⟩ := ih
      refine ⟨h1, ?_, h3⟩
      simp only [advance, Bool.false_eq_true, if_false, h3]
      linarith
  rw [due, if_pos hk, (key n).1]
  exact not_lt.mpr (key n).2.1

/-- Interval 1, initial step 0.43, limits 0.43, 0.43, 0.9, 1.2, 1.2: the run passes the output time 2 without stopping there,
and in the next iteration the time step is negative. -/
theorem C41_violated : ∃ (o : Outputs) (first : List (List ℝ)) (rest : List (List (List ℝ))) (last : List (List ℝ)),
    (∀ k', 0 < o.interval k' ↔ k' = .screen) ∧ o.interval .screen = 1 ∧
    (∀ l ∈ first :: last :: rest, l ≠ [] ∧ ∀ m ∈ l, m ≠ [] ∧ ∀ x ∈ m, 0 < x ∧ x ≤ 6 / 5) ∧
    2 < (clockAt o (start o 0 0 (43 / 100)) first rest).totaltime ∧
    (∀ p, p <+: rest → (clockAt o (start o 0 0 (43 / 100)) first p).totaltime ≠ 2) ∧
    (clockAt o (start o 0 0 (43 / 100)) first (rest ++ [last])).dt < 0 ∧
    (clockAt o (start o 0 0 (43 / 100)) first (rest ++ [last])).totaltime < (clockAt o (start o 0 0 (43 / 100)) first rest).totaltime := by
  let o : Outputs := ⟨fun k => if k = .screen then 1 else 0, fun _ => 0⟩
  have ho : ∀ k', o.interval k' > 0 ↔ k' = .screen := by intro k'; cases k' <;> simp [o]
  have hout : o.interval .screen = 1 := rfl
  have sm : ∀ x : ℝ, x ≤ 2 → smallest [[x]] = x := by
    intro x hx
    show min (10 ^ 24) (min (10 ^ 24) x) = x
    have : min ((10 : ℝ) ^ 24) x = x := min_eq_right (hx.trans (by norm_num))
    rw [this, this]
  let c0 := start o 0 0 (43 / 100)
  have z0 : c0.t .screen = 0 := by
    show (if o.interval .screen > 0 then _ else _) = (0 : ℝ)
    rw [if_pos (by rw [hout]; norm_num)]
    simp [truncate]
  have z1 : c0.totaltime = 0 := rfl
  have z2 : c0.dt = 43 / 100 := rfl
  have z3 : c0.dtSaved = 0 := rfl
  let f : List (List ℝ) := [[43 / 100]]
  let c1 := setAdaptive o f c0
  have a1 : adapt (43 / 100) (43 / 100) = 43 / 100 := by norm_num [adapt]
  obtain ⟨p1, p2, p3, p4, p5⟩ := setAdaptive_screen o ho f c0
  simp only [f, sm (43 / 100) (by norm_num), z0, z1, z2, z3, hout, a1] at p1 p2 p3 p4 p5
  norm_num at p1 p2 p3 p4 p5
  rw [p4] at p5
  -- second call, same time
  let c2 := advance true (setAdaptive o f c1)
  obtain ⟨q1, q2, q3, q4, q5⟩ := setAdaptive_screen o ho f c1
  simp only [f, c1, sm (43 / 100) (by norm_num), p1, p2, p3, p5, hout, a1] at q1 q2 q3 q4 q5
  norm_num at q1 q2 q3 q4 q5
  rw [q4] at q5
  have t2 : c2.totaltime = 43 / 100 := q4
  have d2 : c2.dt = 43 / 100 := q5
  have s2 : c2.dtSaved = 0 := q3
  have u2 : c2.t .screen = 1 := q2
  -- third call
  let c3 := advance true (setAdaptive o [[9 / 10]] c2)
  have a3 : adapt (9 / 10) (43 / 100) = 86 / 100 := by norm_num [adapt]
  obtain ⟨r1, r2, r3, r4, r5⟩ := setAdaptive_screen o ho [[9 / 10]] c2
  simp only [sm (9 / 10) (by norm_num), t2, d2, s2, u2, hout, a3] at r1 r2 r3 r4 r5
  norm_num at r1 r2 r3 r4 r5
  rw [r4] at r5
  norm_num at r5
  have t3 : c3.totaltime = 1 := r4
  have d3 : c3.dt = 57 / 100 := r5
  have s3 : c3.dtSaved = 43 / 50 := r3
  have u3 : c3.t .screen = 1 := r2
  -- fourth call
  let c4 := advance true (setAdaptive o [[6 / 5]] c3)
  have a4 : adapt (6 / 5) (57 / 100) = 114 / 100 := by norm_num [adapt]
  obtain ⟨w1, w2, w3, w4, w5⟩ := setAdaptive_screen o ho [[6 / 5]] c3
  simp only [sm (6 / 5) (by norm_num), t3, d3, s3, u3, hout, a4] at w1 w2 w3 w4 w5
  norm_num at w1 w2 w3 w4 w5
  rw [w4] at w5
  norm_num at w5
  have t4 : c4.totaltime = 107 / 50 := w4
  have d4 : c4.dt = 57 / 50 := w5
  have u4 : c4.t .screen = 2 := w2
  -- fifth call
  let c5 := advance true (setAdaptive o [[6 / 5]] c4)
  have a5 : adapt (6 / 5) (57 / 50) = 57 / 50 := by norm_num [adapt]
  obtain ⟨x1, x2, x3, x4, x5⟩ := setAdaptive_screen o ho [[6 / 5]] c4
  simp only [sm (6 / 5) (by norm_num), t4, d4, u4, hout, a5] at x1 x2 x3 x4 x5
  norm_num at x1 x2 x3 x4 x5
  rw [x4] at x5
  norm_num at x5
  have t5 : c5.totaltime = 2 := x4
  have d5 : c5.dt = -7 / 50 := by show (setAdaptive o [[6 / 5]] c4).dt = _; rw [x5]; norm_num
  refine ⟨o, f, [f, [[9 / 10]], [[6 / 5]]], [[6 / 5]], ho, rfl, ?_, ?_, ?_, ?_, ?_⟩
  · intro l hl
    simp only [f, List.mem_cons, List.not_mem_nil, or_false] at hl
    rcases hl with rfl | rfl | rfl | rfl | rfl <;> simp <;> norm_num
  · show 2 < c4.totaltime
    rw [t4]; norm_num
  · intro p hp
    have hl := hp.length_le
    have hp2 := List.prefix_iff_eq_take.mp hp
    generalize p.length = n at hl hp2
    subst hp2
    have : n = 0 ∨ n = 1 ∨ n = 2 ∨ n = 3 := by simp only [List.length_cons, List.length_nil] at hl; omega
    rcases this with rfl | rfl | rfl | rfl
    · show c0.totaltime ≠ 2; rw [z1]; norm_num
    · show c2.totaltime ≠ 2; rw [t2]; norm_num
    · show c3.totaltime ≠ 2; rw [t3]; norm_num
    · show c4.totaltime ≠ 2; rw [t4]; norm_num
  · show c5.dt < 0
    rw [d5]; norm_num
  · show c5.totaltime < c4.totaltime
    rw [t5, t4]; norm_num

/-- One call with a screen and a scalar output, in fields. -/
private theorem setAdaptive_two (o : Outputs) (h1 : 0 < o.interval .screen) (h2 : 0 < o.interval .scalar) (h3 : ¬ 0 < o.interval .h5) (ls : List (List ℝ)) (c : Clock) :
    let D := adapt (smallest ls) c.dt
    let c1 := block o .scalar (block o .screen { c with dt := D, totaltimeNext := c.totaltime + D })
    setAdaptive o ls c = { c1 with dt := c1.totaltimeNext - c1.totaltime } := by
  simp only [setAdaptive, block_none o .h5 h3]

/-- Screen output every 6.1, scalar output every 1, and every particle allows a step of 1/2, always: the run steps from 5 to 6.1, past the scalar output at 6 and
more than twice what the particles allow, and from there goes back in time. -/
theorem C41_several_violated : ∃ (o : Outputs) (l : List (List ℝ)), o.interval .screen = 61 / 10 ∧ o.interval .scalar = 1 ∧ o.interval .h5 = 0 ∧ l = [[1 / 2]] ∧
    (clockAt o (start o 0 0 (1 / 2)) l (List.replicate 10 l)).totaltime = 5 ∧
    (clockAt o (start o 0 0 (1 / 2)) l (List.replicate 11 l)).totaltime = 61 / 10 ∧ (clockAt o (start o 0 0 (1 / 2)) l (List.replicate 11 l)).dt = 11 / 10 ∧
    (clockAt o (start o 0 0 (1 / 2)) l (List.replicate 12 l)).dt < 0 ∧ (clockAt o (start o 0 0 (1 / 2)) l (List.replicate 12 l)).totaltime = 6 := by
  obtain ⟨o, ho⟩ : ∃ o : Outputs, o = ⟨fun k => match k with | .screen => 61 / 10 | .scalar => 1 | .h5 => 0, fun _ => 0⟩ := ⟨_, rfl⟩
  obtain ⟨l, hl⟩ : ∃ l : List (List ℝ), l = [[1 / 2]] := ⟨_, rfl⟩
  have i1 : o.interval .screen = 61 / 10 := by rw [ho]
  have i2 : o.interval .scalar = 1 := by rw [ho]
  have i3 : o.interval .h5 = 0 := by rw [ho]
  have sm : smallest l = 1 / 2 := by
    rw [hl]
    show min (10 ^ 24) (min (10 ^ 24) (1 / 2)) = 1 / 2
    norm_num
  -- one call, in numbers
  have call : ∀ c : Clock, setAdaptive o l c =
      let D := adapt (1 / 2) c.dt
      let c1 := block o .scalar (block o .screen { c with dt := D, totaltimeNext := c.totaltime + D })
      { c1 with dt := c1.totaltimeNext - c1.totaltime } := fun c => by
    rw [setAdaptive_two o (by rw [i1]; norm_num) (by rw [i2]; norm_num) (by rw [i3]; norm_num), sm]
  have hb1 := block_eq o .screen (by rw [i1]; norm_num)
  have hb2 := block_eq o .scalar (by rw [i2]; norm_num)
  rw [i1] at hb1
  rw [i2] at hb2
  have a : adapt (1 / 2) (1 / 2) = 1 / 2 := by norm_num [adapt]
  -- the state during the run
  let St (c : Clock) (tt ts : ℝ) : Prop := c.dt = 1 / 2 ∧ (c.dtSaved = 0 ∨ c.dtSaved = 1 / 2) ∧ c.totaltime = tt ∧ c.t .screen = 61 / 10 ∧ c.t .scalar = ts
  have half : ∀ (c : Clock) (j : ℝ), 0 ≤ j → j ≤ 4 → St c j j → St (advance true (setAdaptive o l c)) (j + 1 / 2) (j + 1) := by
    rintro c j h0 h4 ⟨c1, c2, c3, c4, c5⟩
    rw [call, c1, a]
    simp only [hb1, hb2, advance]
    have n1 : ¬ j = 61 / 10 := by intro h; linarith
    have n2 : ¬ (j + 1 / 2 > 61 / 10 - 1 / 10 * (61 / 10)) := by norm_num; linarith
    have n3 : ¬ (j + 1 / 2 > j + 1 - 1 / 10 * 1) := not_lt.2 (by linarith)
    simp only [c3, c4, c5, n1, n2, if_false, Function.update_of_ne (show Kind.scalar ≠ .screen by decide), if_true, Function.update_self, Function.update_of_ne (show Kind.screen ≠ .scalar by decide)]
    rcases c2 with c2 | c2
    · simp only [c2, gt_iff_lt, lt_irrefl, if_false]
      rw [gt_iff_lt] at n3
      simp only [n3, if_false]
      exact ⟨by show j + 1 / 2 - j = 1 / 2; ring, Or.inl rfl, rfl, rfl, rfl⟩
    · simp only [c2, gt_iff_lt, (by norm_num : (0 : ℝ) < 1 / 2), if_true]
      rw [gt_iff_lt] at n3
      simp only [n3, if_false]
      exact ⟨by show j + 1 / 2 - j = 1 / 2; ring, Or.inr rfl, rfl, rfl, rfl⟩
  have full : ∀ (c : Clock) (j : ℝ), 0 ≤ j → j ≤ 4 → St c (j + 1 / 2) (j + 1) → St (advance true (setAdaptive o l c)) (j + 1) (j + 1) := by
    rintro c j h0 h4 ⟨c1, c2, c3, c4, c5⟩
    rw [call, c1, a]
    simp only [hb1, hb2, advance]
    have n1 : ¬ j + 1 / 2 = 61 / 10 := by intro h; linarith
    have n2 : ¬ (j + 1 / 2 + 1 / 2 > 61 / 10 - 1 / 10 * (61 / 10)) := by norm_num; linarith
    have n4 : ¬ j + 1 / 2 = j + 1 := by intro h; linarith
    have n3 : j + 1 / 2 + 1 / 2 > j + 1 - 1 / 10 * 1 := by norm_num; linarith
    simp only [c3, c4, c5, n1, n2, n3, n4, if_false, if_true, Function.update_of_ne (show Kind.scalar ≠ .screen by decide), Function.update_self,
      Function.update_of_ne (show Kind.screen ≠ .scalar by decide), reduceCtorEq]
    have e : min (j + 1 / 2 + 1 / 2) (j + 1) = j + 1 := min_eq_right (by linarith)
    rw [e]
    exact ⟨by show j + 1 - (j + 1 / 2) = 1 / 2; ring, Or.inr rfl, rfl, rfl, rfl⟩
  -- the first two calls are at the same time
  have init : St (setAdaptive o l (start o 0 0 (1 / 2))) 0 1 := by
    have z1 : (start o 0 0 (1 / 2)).t .screen = 0 := by
      simp only [start, i1]
      norm_num [truncate]
    have z2 : (start o 0 0 (1 / 2)).t .scalar = 0 := by
      simp only [start, i2]
      norm_num [truncate]
    have z3 : (start o 0 0 (1 / 2)).dt = 1 / 2 := rfl
    have z4 : (start o 0 0 (1 / 2)).totaltime = 0 := rfl
    have z5 : (start o 0 0 (1 / 2)).dtSaved = 0 := rfl
    rw [call, z3, a]
    simp only [hb1, hb2, z1, z2, z4, z5, if_true, Function.update_of_ne (show Kind.scalar ≠ .screen by decide), Function.update_self, gt_iff_lt, lt_irrefl, if_false,
      Function.update_of_ne (show Kind.screen ≠ .scalar by decide)]
    norm_num [St, Function.update_apply]
    decide
  have second : ∀ c : Clock, St c 0 1 → St (advance true (setAdaptive o l c)) (0 + 1 / 2) (0 + 1) := by
    rintro c ⟨c1, c2, c3, c4, c5⟩
    rw [call, c1, a]
    simp only [hb1, hb2, advance]
    have n1 : ¬ (0 : ℝ) = 61 / 10 := by norm_num
    have n2 : ¬ ((0 : ℝ) + 1 / 2 > 61 / 10 - 1 / 10 * (61 / 10)) := by norm_num
    have n4 : ¬ (0 : ℝ) = 1 := by norm_num
    have n3 : ¬ ((0 : ℝ) + 1 / 2 > 1 - 1 / 10 * 1) := by norm_num
    simp only [c3, c4, c5, n1, n2, n3, n4, if_false, if_true, Function.update_of_ne (show Kind.scalar ≠ .screen by decide), Function.update_self,
      Function.update_of_ne (show Kind.screen ≠ .scalar by decide)]
    exact ⟨by show (0 : ℝ) + 1 / 2 - 0 = 1 / 2; ring, c2, rfl, rfl, by show (1 : ℝ) = 0 + 1; ring⟩
  have snoc : ∀ n, clockAt o (start o 0 0 (1 / 2)) l (List.replicate (n + 2) l) = advance true (setAdaptive o l (clockAt o (start o 0 0 (1 / 2)) l (List.replicate (n + 1) l))) := fun n => by
    rw [List.replicate_succ' (n := n + 1), clockAt_snoc]
    rfl
  have run : ∀ j : Nat, j ≤ 4 → St (clockAt o (start o 0 0 (1 / 2)) l (List.replicate (2 * j + 1) l)) (j + 1 / 2) (j + 1) := by
    intro j
    induction j with
    | zero =>
      intro _
      have := second _ init
      simp only [Nat.cast_zero]
      exact this
    | succ j ih =>
      intro hj
      have hj' : (j : ℝ) + 1 ≤ 4 := by exact_mod_cast hj
      have h0 : (0 : ℝ) ≤ j := Nat.cast_nonneg j
      have h1 := full _ j h0 (by linarith) (ih (by omega))
      rw [← snoc] at h1
      have h2 := half _ (j + 1) (by linarith) hj' h1
      rw [show 2 * j + 2 = 2 * j + 1 + 1 from rfl, ← snoc] at h2
      rw [show 2 * (j + 1) + 1 = 2 * j + 1 + 2 by ring]
      push_cast
      exact h2
  have r10 : St (clockAt o (start o 0 0 (1 / 2)) l (List.replicate 10 l)) 5 5 := by
    have h1 := full _ 4 (by norm_num) le_rfl (by have := run 4 le_rfl; norm_num at this ⊢; exact this)
    rw [← snoc] at h1
    norm_num at h1
    exact h1
  have r11 : (clockAt o (start o 0 0 (1 / 2)) l (List.replicate 11 l)).dt = 11 / 10 ∧ (clockAt o (start o 0 0 (1 / 2)) l (List.replicate 11 l)).dtSaved = 1 / 2 ∧
      (clockAt o (start o 0 0 (1 / 2)) l (List.replicate 11 l)).totaltime = 61 / 10 ∧ (clockAt o (start o 0 0 (1 / 2)) l (List.replicate 11 l)).t .screen = 61 / 10 ∧
      (clockAt o (start o 0 0 (1 / 2)) l (List.replicate 11 l)).t .scalar = 6 := by
    rw [snoc 9]
    obtain ⟨c1, c2, c3, c4, c5⟩ := r10
    rw [call, c1, a]
    simp only [hb1, hb2, advance]
    have n1 : ¬ (5 : ℝ) = 61 / 10 := by norm_num
    have n2 : (5 : ℝ) + 1 / 2 > 61 / 10 - 1 / 10 * (61 / 10) := by norm_num
    have n3 : ¬ ((5 : ℝ) + 1 / 2 > 5 + 1 - 1 / 10 * 1) := by norm_num
    simp only [c3, c4, c5, n1, n2, n3, if_false, if_true, Function.update_of_ne (show Kind.scalar ≠ .screen by decide), Function.update_self,
      Function.update_of_ne (show Kind.screen ≠ .scalar by decide), (by norm_num : (1 / 2 : ℝ) > 0)]
    norm_num
  have r12 : (clockAt o (start o 0 0 (1 / 2)) l (List.replicate 12 l)).dt = -1 / 10 ∧ (clockAt o (start o 0 0 (1 / 2)) l (List.replicate 12 l)).totaltime = 6 := by
    rw [snoc 10]
    obtain ⟨c1, c2, c3, c4, c5⟩ := r11
    have a' : adapt (1 / 2) (11 / 10) = 1 / 2 := by norm_num [adapt]
    rw [call, c1, a']
    simp only [hb1, hb2, advance]
    have n1 : ¬ ((61 : ℝ) / 10 = 6) := by norm_num
    have n2 : ¬ ((61 : ℝ) / 10 + 1 / 2 > 61 / 10 + 61 / 10 - 1 / 10 * (61 / 10)) := by norm_num
    have n3 : (61 : ℝ) / 10 + 1 / 2 > 6 - 1 / 10 * 1 := by norm_num
    simp only [c2, c3, c4, c5, n1, n2, n3, if_false, if_true, Function.update_of_ne (show Kind.scalar ≠ .screen by decide), Function.update_self,
      Function.update_of_ne (show Kind.screen ≠ .scalar by decide), (by norm_num : (1 / 2 : ℝ) > 0), reduceCtorEq]
    norm_num
  exact ⟨o, l, i1, i2, i3, hl, r10.2.2.1, r11.2.2.1, r11.1, by rw [r12.1]; norm_num, r12.2⟩

/-- The same for C40: all particles always allow a step of 1/2, less than every output interval, and a step is more than twice as long, the next one negative. -/
theorem C40_several_violated : ∃ (o : Outputs) (l : List (List ℝ)), (∀ k, 0 < o.interval k → 1 ≤ o.interval k) ∧ l = [[1 / 2]] ∧
    1 < (clockAt o (start o 0 0 (1 / 2)) l (List.replicate 11 l)).dt ∧ (clockAt o (start o 0 0 (1 / 2)) l (List.replicate 12 l)).dt < 0 := by
  obtain ⟨o, l, h1, h2, h3, h4, -, -, h5, h6, -⟩ := C41_several_violated
  refine ⟨o, l, fun k hk => ?_, h4, by rw [h5]; norm_num, h6⟩
  cases k
  · rw [h1]; norm_num
  · rw [h2]
  · rw [h3] at hk; exact absurd hk (lt_irrefl _)

/-- The same history for C40: the time step becomes negative although all limits are positive. -/
theorem C40_violated : ∃ (o : Outputs) (first : List (List ℝ)) (rest : List (List (List ℝ))),
    (∀ l ∈ first :: rest, ∀ m ∈ l, ∀ x ∈ m, 0 < x) ∧
    (clockAt o (start o 0 0 (43 / 100)) first rest).dt < 0 := by
  obtain ⟨o, first, rest, last, _, _, h3, _, _, h6, _⟩ := C41_violated
  refine ⟨o, first, rest ++ [last], ?_, h6⟩
  intro l hl m hm x hx
  have hl' : l ∈ first :: last :: rest := by
    simp only [List.mem_cons, List.mem_append, List.not_mem_nil, or_false] at hl ⊢
    tauto
  exact (((h3 l hl').2 m hm).2 x hx).1

/-- Non-vacuity: an output interval of one with two processes and limits around 0.3. -/
example : (∀ k', 0 < (Outputs.mk (fun k => if k = .h5 then 1 else 0) fun _ => 0).interval k' ↔ k' = .h5) ∧
    GoodLimits 1 [[3 / 10, 2], [1 / 2]] :=
  ⟨by intro k'; cases k' <;> simp, ⟨by simp, ⟨[3 / 10, 2], by simp, 3 / 10, by simp, by norm_num⟩⟩⟩

end FleCSPH
