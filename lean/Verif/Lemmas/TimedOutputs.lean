import Verif.Lemmas.Timestep
import Mathlib.Tactic.NormNum
/-! Several timed outputs with the same interval act like one. -/
namespace FleCSPH.Timestep

/-- Only output `k` is left. -/
noncomputable def only (o : Outputs) (k : Kind) : Outputs := { o with interval := fun k' => if k' = k then o.interval k else 0 }

theorem only_active (o : Outputs) (k : Kind) (hk : 0 < o.interval k) (k' : Kind) : 0 < (only o k).interval k' ↔ k' = k := by
  by_cases h : k' = k
  · simp [only, h, hk]
  · simp [only, h]

theorem only_interval (o : Outputs) (k : Kind) : (only o k).interval k = o.interval k := by simp [only]

/-- A block, in fields. -/
theorem block_eq (o : Outputs) (k : Kind) (hk : 0 < o.interval k) (c : Clock) :
    block o k c =
      let dv := if c.totaltime = c.t k then (if c.dtSaved > 0 then c.dtSaved else c.dt) else c.dt
      let T := if c.totaltime = c.t k then c.t k + o.interval k else c.t k
      let p := c.totaltime + dv > T - 1 / 10 * o.interval k
      { iteration := c.iteration, dt := dv, dtSaved := if p then dv else c.dtSaved, totaltime := c.totaltime
        totaltimeNext := if p then (if k = .screen then T else min c.totaltimeNext T) else c.totaltimeNext, t := Function.update c.t k T } := by
  rw [block, if_pos hk]
  simp only [catchUp]
  by_cases he : c.totaltime = c.t k
  · simp only [if_pos he, align, Function.update_self]
    by_cases h1 : c.totaltime + (if c.dtSaved > 0 then c.dtSaved else c.dt) > c.t k + o.interval k - 1 / 10 * o.interval k
    · simp only [if_pos h1]
    · simp only [if_neg h1]
  · simp only [if_neg he, align, Function.update_eq_self]
    by_cases h1 : c.totaltime + c.dt > c.t k - 1 / 10 * o.interval k
    · simp only [if_pos h1]
    · simp only [if_neg h1]

/-- A second block with the same interval and output time adds nothing but its own output time. -/
theorem block_again (o : Outputs) (j k : Kind) (hk : 0 < o.interval k) (hj : 0 < o.interval j) (hi : o.interval j = o.interval k) (hne : j ≠ k) (hs : j ≠ .screen) (c : Clock) (ht : c.t j = c.t k) :
    block o j (block o k c) = { block o k c with t := Function.update (block o k c).t j ((block o k c).t k) } := by
  rw [block_eq o j hj, block_eq o k hk c]
  simp only [Function.update_of_ne hne, Function.update_self, ht, hi, if_neg hs]
  by_cases he : c.totaltime = c.t k
  · simp only [if_pos he]
    by_cases h1 : c.totaltime + (if c.dtSaved > 0 then c.dtSaved else c.dt) > c.t k + o.interval k - 1 / 10 * o.interval k
    · simp only [if_pos h1]
      have hdt : (if (if c.dtSaved > 0 then c.dtSaved else c.dt) > 0 then (if c.dtSaved > 0 then c.dtSaved else c.dt) else (if c.dtSaved > 0 then c.dtSaved else c.dt)) =
        (if c.dtSaved > 0 then c.dtSaved else c.dt) := ite_self _
      simp only [hdt, if_pos h1]
      congr 1
      by_cases hk : k = .screen
      · simp only [if_pos hk, min_self]
      · simp only [if_neg hk, min_assoc, min_self]
    · simp only [if_neg h1]
      have hdt : (if c.dtSaved > 0 then c.dtSaved else (if c.dtSaved > 0 then c.dtSaved else c.dt)) = (if c.dtSaved > 0 then c.dtSaved else c.dt) := by split <;> rfl
      simp only [hdt, if_neg h1]
  · simp only [if_neg he]
    by_cases h1 : c.totaltime + c.dt > c.t k - 1 / 10 * o.interval k
    · simp only [if_pos h1]
      congr 1
      by_cases hk : k = .screen
      · simp only [if_pos hk, min_self]
      · simp only [if_neg hk, min_assoc, min_self]
    · simp only [if_neg h1]

/-- The first timed output. -/
structure Lead (o : Outputs) (k : Kind) : Prop where
  active : 0 < o.interval k
  first : k = .screen ∨ (k = .scalar ∧ ¬ 0 < o.interval .screen) ∨ (k = .h5 ∧ ¬ 0 < o.interval .screen ∧ ¬ 0 < o.interval .scalar)
  same : ∀ j, 0 < o.interval j → o.interval j = o.interval k

theorem block_none (o : Outputs) (k : Kind) (h : ¬ 0 < o.interval k) (c : Clock) : block o k c = c := by rw [block, if_neg h]

/-- The clocks of the run with all outputs and of the run with the first only. -/
structure Alike (o : Outputs) (k : Kind) (c c' : Clock) : Prop where
  iteration : c.iteration = c'.iteration
  dt : c.dt = c'.dt
  dtSaved : c.dtSaved = c'.dtSaved
  totaltime : c.totaltime = c'.totaltime
  next : c.totaltimeNext = c'.totaltimeNext
  t : ∀ j, 0 < o.interval j → c.t j = c'.t k

theorem Alike.block {o : Outputs} {k : Kind} (hl : Lead o k) {c c' : Clock} (h : Alike o k c c') :
    Alike o k (block o .h5 (Timestep.block o .scalar (Timestep.block o .screen c))) (Timestep.block (only o k) k c') := by
  have hb : Alike o k { Timestep.block o k c with t := fun j => (Timestep.block o k c).t k } (Timestep.block (only o k) k c') := by
    rw [block_eq o k hl.active, block_eq (only o k) k ((only_active o k hl.active k).2 rfl), only_interval]
    simp only [h.iteration, h.dt, h.dtSaved, h.totaltime, h.next, h.t k hl.active, Function.update_self]
    exact ⟨rfl, rfl, rfl, rfl, rfl, fun j _ => by simp only [Function.update_self]⟩
  have fin : ∀ c1 : Clock, (∀ j, 0 < o.interval j → c1.t j = (Timestep.block o k c).t k) → c1.iteration = (Timestep.block o k c).iteration → c1.dt = (Timestep.block o k c).dt →
      c1.dtSaved = (Timestep.block o k c).dtSaved → c1.totaltime = (Timestep.block o k c).totaltime → c1.totaltimeNext = (Timestep.block o k c).totaltimeNext →
      Alike o k c1 (Timestep.block (only o k) k c') := fun c1 h1 h2 h3 h4 h5 h6 =>
    ⟨h2.trans hb.iteration, h3.trans hb.dt, h4.trans hb.dtSaved, h5.trans hb.totaltime, h6.trans hb.next, fun j hj => (h1 j hj).trans (hb.t j hj)⟩
  have hteq : ∀ j, 0 < o.interval j → c.t j = c.t k := fun j hj => (h.t j hj).trans (h.t k hl.active).symm
  have hother : ∀ j, j ≠ k → (Timestep.block o k c).t j = c.t j := fun j hj => by rw [block_eq o k hl.active]; simp only [Function.update_of_ne hj]
  rcases hl.first with rfl | ⟨rfl, h1⟩ | ⟨rfl, h1, h2⟩
  · by_cases a1 : 0 < o.interval .scalar
    · rw [block_again o .scalar .screen hl.active a1 (hl.same _ a1) (by decide) (by decide) c (hteq _ a1)]
      by_cases a2 : 0 < o.interval .h5
      · have key : ∀ c1 : Clock, c1 = { Timestep.block o .screen c with t := Function.update (Timestep.block o .screen c).t .scalar ((Timestep.block o .screen c).t .screen) } →
            Timestep.block o .h5 c1 = { c1 with t := Function.update c1.t .h5 ((Timestep.block o .screen c).t .screen) } := by
          intro c1 hc1
          have h5 := block_again o .h5 .screen hl.active a2 (hl.same _ a2) (by decide) (by decide) c (hteq _ a2)
          rw [hc1, block_eq o .h5 a2]
          rw [block_eq o .h5 a2] at h5
          simp only [Function.update_of_ne (show Kind.h5 ≠ .scalar by decide)] at h5 ⊢
          have f2 := congrArg Clock.dt h5
          have f3 := congrArg Clock.dtSaved h5
          have f4 := congrArg Clock.totaltimeNext h5
          have f5 := congrFun (congrArg Clock.t h5) .h5
          simp only [Function.update_self] at f2 f3 f4 f5
          rw [f2] at f3 f4
          rw [f5] at f3 f4 ⊢
          rw [f2, f3, f4]
        rw [key _ rfl]
        refine fin _ (fun j hj => ?_) rfl rfl rfl rfl rfl
        cases j <;> simp [Function.update_apply]
      · rw [block_none o .h5 a2]
        refine fin _ (fun j hj => ?_) rfl rfl rfl rfl rfl
        cases j
        · simp [Function.update_apply]
        · simp [Function.update_apply]
        · exact absurd hj a2
    · rw [block_none o .scalar a1]
      by_cases a2 : 0 < o.interval .h5
      · rw [block_again o .h5 .screen hl.active a2 (hl.same _ a2) (by decide) (by decide) c (hteq _ a2)]
        refine fin _ (fun j hj => ?_) rfl rfl rfl rfl rfl
        cases j
        · simp [Function.update_apply]
        · exact absurd hj a1
        · simp [Function.update_apply]
      · rw [block_none o .h5 a2]
        refine fin _ (fun j hj => ?_) rfl rfl rfl rfl rfl
        cases j
        · rfl
        · exact absurd hj a1
        · exact absurd hj a2
  · rw [block_none o .screen h1]
    by_cases a2 : 0 < o.interval .h5
    · rw [block_again o .h5 .scalar hl.active a2 (hl.same _ a2) (by decide) (by decide) c (hteq _ a2)]
      refine fin _ (fun j hj => ?_) rfl rfl rfl rfl rfl
      cases j
      · exact absurd hj h1
      · simp [Function.update_apply]
      · simp [Function.update_apply]
    · rw [block_none o .h5 a2]
      refine fin _ (fun j hj => ?_) rfl rfl rfl rfl rfl
      cases j
      · exact absurd hj h1
      · rfl
      · exact absurd hj a2
  · rw [block_none o .screen h1, block_none o .scalar h2]
    refine fin _ (fun j hj => ?_) rfl rfl rfl rfl rfl
    cases j
    · exact absurd hj h1
    · exact absurd hj h2
    · rfl

theorem Alike.setAdaptive {o : Outputs} {k : Kind} (hl : Lead o k) {c c' : Clock} (h : Alike o k c c') (ls : List (List ℝ)) :
    Alike o k (setAdaptive o ls c) (Timestep.setAdaptive (only o k) ls c') := by
  have hc : ∀ c', Timestep.setAdaptive (only o k) ls c' =
      let c1 := Timestep.block (only o k) k { c' with dt := adapt (smallest ls) c'.dt, totaltimeNext := c'.totaltime + adapt (smallest ls) c'.dt }
      { c1 with dt := c1.totaltimeNext - c1.totaltime } := fun c' => by
    rw [setAdaptive_one (only o k) k (only_active o k hl.active)]
    simp only [Timestep.block, if_pos ((only_active o k hl.active k).2 rfl)]
  rw [hc]
  have h1 : Alike o k { c with dt := adapt (smallest ls) c.dt, totaltimeNext := c.totaltime + adapt (smallest ls) c.dt }
      { c' with dt := adapt (smallest ls) c'.dt, totaltimeNext := c'.totaltime + adapt (smallest ls) c'.dt } :=
    ⟨h.iteration, by simp only [h.dt], h.dtSaved, h.totaltime, by simp only [h.dt, h.totaltime], h.t⟩
  have h2 := h1.block hl
  exact ⟨h2.iteration, by simp only [Timestep.setAdaptive]; rw [h2.next, h2.totaltime], h2.dtSaved, h2.totaltime, h2.next, h2.t⟩

theorem Alike.advance {o : Outputs} {k : Kind} {c c' : Clock} (h : Alike o k c c') : Alike o k (advance true c) (Timestep.advance true c') :=
  ⟨by simp only [Timestep.advance, h.iteration], h.dt, h.dtSaved, by simp only [Timestep.advance, h.next, if_true], h.next, h.t⟩

theorem Alike.start {o : Outputs} {k : Kind} (hl : Lead o k) (it : Int) (t0 dt0 : ℝ) : Alike o k (start o it t0 dt0) (Timestep.start (only o k) it t0 dt0) := by
  refine ⟨rfl, rfl, rfl, rfl, rfl, fun j hj => ?_⟩
  have hk := hl.active
  simp only [Timestep.start, only_interval, gt_iff_lt, if_pos hj, if_pos hk, hl.same j hj]

theorem Alike.clockAt {o : Outputs} {k : Kind} (hl : Lead o k) (it : Int) (t0 dt0 : ℝ) (first : List (List ℝ)) (rest : List (List (List ℝ))) :
    Alike o k (clockAt o (Timestep.start o it t0 dt0) first rest) (Timestep.clockAt (only o k) (Timestep.start (only o k) it t0 dt0) first rest) := by
  have hs := Alike.start hl it t0 dt0
  cases rest with
  | nil => exact hs
  | cons l ls =>
    simp only [Timestep.clockAt]
    have h1 := hs.setAdaptive hl first
    revert h1
    generalize Timestep.setAdaptive o first (Timestep.start o it t0 dt0) = c
    generalize Timestep.setAdaptive (only o k) first (Timestep.start (only o k) it t0 dt0) = c'
    generalize l :: ls = r
    induction r generalizing c c' with
    | nil => exact id
    | cons x r ih => exact fun h => ih _ _ (h.setAdaptive hl x).advance

/-- There is a first timed output, if there is any. -/
theorem Lead.exists (o : Outputs) (I : ℝ) (hsame : ∀ j, 0 < o.interval j → o.interval j = I) (j : Kind) (hj : 0 < o.interval j) : ∃ k, Lead o k ∧ o.interval k = I := by
  by_cases h1 : 0 < o.interval .screen
  · exact ⟨.screen, ⟨h1, Or.inl rfl, fun j hj => (hsame j hj).trans (hsame _ h1).symm⟩, hsame _ h1⟩
  by_cases h2 : 0 < o.interval .scalar
  · exact ⟨.scalar, ⟨h2, Or.inr (Or.inl ⟨rfl, h1⟩), fun j hj => (hsame j hj).trans (hsame _ h2).symm⟩, hsame _ h2⟩
  by_cases h3 : 0 < o.interval .h5
  · exact ⟨.h5, ⟨h3, Or.inr (Or.inr ⟨rfl, h1, h2⟩), fun j hj => (hsame j hj).trans (hsame _ h3).symm⟩, hsame _ h3⟩
  cases j
  · exact absurd hj h1
  · exact absurd hj h2
  · exact absurd hj h3

end FleCSPH.Timestep
