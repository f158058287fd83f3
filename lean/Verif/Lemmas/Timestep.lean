import Verif.Model.Timestep
import Mathlib.Tactic.Linarith
import Mathlib.Tactic.Positivity
/-! Lemmas about the time step. -/
namespace FleCSPH.Timestep
open FleCSPH.Geometry FleCSPH.Kernels FleCSPH.Sph

theorem foldl_min_le (l : List ℝ) (z : ℝ) : l.foldl min z ≤ z ∧ ∀ x ∈ l, l.foldl min z ≤ x := by
  induction l generalizing z with
  | nil => exact ⟨le_rfl, fun x hx => by simp at hx⟩
  | cons a l ih =>
    rw [List.foldl_cons]
    refine ⟨(ih _).1.trans (min_le_left _ _), fun x hx => ?_⟩
    rcases List.mem_cons.mp hx with rfl | hx
    · exact (ih _).1.trans (min_le_right _ _)
    · exact (ih _).2 x hx

theorem foldl_min_mem (l : List ℝ) (z : ℝ) : l.foldl min z = z ∨ l.foldl min z ∈ l := by
  induction l generalizing z with
  | nil => left; rfl
  | cons a l ih =>
    rw [List.foldl_cons]
    rcases ih (min z a) with h | h
    · rcases min_choice z a with h2 | h2
      · left; rw [h, h2]
      · right; rw [h, h2]; exact List.mem_cons_self ..
    · right; exact List.mem_cons_of_mem _ h

theorem smallest_le (ls : List (List ℝ)) {l : List ℝ} (hl : l ∈ ls) {x : ℝ} (hx : x ∈ l) : smallest ls ≤ x := by
  have h1 := (foldl_min_le (ls.map fun l => l.foldl min (10 ^ 24)) (10 ^ 24)).2 _ (List.mem_map_of_mem hl)
  exact h1.trans ((foldl_min_le l _).2 x hx)

theorem smallest_mem (ls : List (List ℝ)) : smallest ls = 10 ^ 24 ∨ ∃ l ∈ ls, smallest ls ∈ l := by
  rcases foldl_min_mem (ls.map fun l => l.foldl min (10 ^ 24)) (10 ^ 24) with h | h
  · exact Or.inl h
  · obtain ⟨l, hl, h2⟩ := List.mem_map.mp h
    rcases foldl_min_mem l (10 ^ 24) with h3 | h3
    · left; exact h2.symm.trans h3
    · right; exact ⟨l, hl, by rw [smallest, ← h2]; exact h3⟩

theorem smallest_pos (ls : List (List ℝ)) (h : ∀ l ∈ ls, ∀ x ∈ l, 0 < x) : 0 < smallest ls := by
  rcases smallest_mem ls with h1 | ⟨l, hl, h1⟩
  · rw [h1]; positivity
  · exact h l hl _ h1

theorem adapt_spec {L dt : ℝ} (hL : 0 < L) (hdt : 0 < dt) : 0 < adapt L dt ∧ adapt L dt ≤ L ∧ adapt L dt ≤ 2 * dt := by
  simp only [adapt]
  split_ifs with h1 h2 h2
  · exfalso
    rcases le_total L (dt / 2) with h | h
    · rw [min_eq_left h] at h2; linarith
    · rw [min_eq_right h] at h2; linarith
  · refine ⟨lt_min hL (by linarith), min_le_left _ _, (min_le_right _ _).trans (by linarith)⟩
  · exact ⟨by linarith, by linarith, by linarith⟩
  · exact ⟨hdt, not_lt.mp h1, by linarith⟩

/-- With no timed output the step is the adapted one. -/
theorem setAdaptive_none (o : Outputs) (ho : ∀ k, ¬ o.interval k > 0) (ls : List (List ℝ)) (c : Clock) :
    setAdaptive o ls c = { c with dt := adapt (smallest ls) c.dt, totaltimeNext := c.totaltime + adapt (smallest ls) c.dt } := by
  simp only [setAdaptive, block, if_neg (ho _), add_sub_cancel_left]

/-- With one timed output only its block acts. -/
theorem setAdaptive_one (o : Outputs) (k : Kind) (ho : ∀ k', o.interval k' > 0 ↔ k' = k) (ls : List (List ℝ)) (c : Clock) :
    setAdaptive o ls c =
      let c1 : Clock := align o k (catchUp o k { c with dt := adapt (smallest ls) c.dt, totaltimeNext := c.totaltime + adapt (smallest ls) c.dt })
      { c1 with dt := c1.totaltimeNext - c1.totaltime } := by
  have hn : ∀ k', k' ≠ k → ∀ c, block o k' c = c := fun k' h c => by rw [block, if_neg (fun h2 => h ((ho k').mp h2))]
  have hy : ∀ c, block o k c = align o k (catchUp o k c) := fun c => by rw [block, if_pos ((ho k).mpr rfl)]
  simp only [setAdaptive]
  cases k
  · rw [hn .h5 (by decide), hn .scalar (by decide), hy]
  · rw [hn .h5 (by decide), hy, hn .screen (by decide)]
  · rw [hy, hn .scalar (by decide), hn .screen (by decide)]

/-- One call of `set_adaptive_timestep` with one timed output and limits below nine tenths of its interval. -/
theorem setAdaptive_single (o : Outputs) (k : Kind) (ho : ∀ k', o.interval k' > 0 ↔ k' = k) (ls : List (List ℝ)) (c : Clock)
    (hL : 0 < smallest ls) (hL' : smallest ls ≤ 9 / 10 * o.interval k) (hdt : 0 < c.dt) (hs : c.dtSaved ≤ 9 / 10 * o.interval k)
    (ht : c.totaltime ≤ c.t k) :
    let c' := setAdaptive o ls c
    c'.iteration = c.iteration ∧ c'.totaltime = c.totaltime ∧ c'.t k = (if c.totaltime = c.t k then c.t k + o.interval k else c.t k) ∧
    c'.dtSaved ≤ 9 / 10 * o.interval k ∧ c.totaltime < c'.totaltimeNext ∧ c'.totaltimeNext ≤ c'.t k ∧
    c'.dt = c'.totaltimeNext - c.totaltime ∧ c'.dt < smallest ls + 1 / 10 * o.interval k ∧
    (k ≠ .screen → c'.dt ≤ smallest ls ∧ c'.dt ≤ 2 * c.dt) := by
  have hout : 0 < o.interval k := (ho k).mpr rfl
  obtain ⟨D0, D1, D2⟩ := adapt_spec hL hdt
  intro c'
  have hc' : c' = _ := setAdaptive_one o k ho ls c
  generalize adapt (smallest ls) c.dt = D at *
  clear_value c'
  subst hc'
  simp only [catchUp]
  by_cases he : c.totaltime = c.t k
  · rw [if_pos he]
    simp only [if_pos he]
    have hdv : (if c.dtSaved > 0 then c.dtSaved else D) ≤ 9 / 10 * o.interval k := by split_ifs <;> linarith
    simp only [align, Function.update_self]
    rw [if_neg (by linarith)]
    simp only [Function.update_self]
    refine ⟨trivial, trivial, trivial, hs, by linarith, by linarith, trivial, by linarith, fun _ => ⟨by linarith, by linarith⟩⟩
  · rw [if_neg he]
    simp only [if_neg he]
    have hlt : c.totaltime < c.t k := lt_of_le_of_ne ht he
    simp only [align]
    split_ifs with h1 h2
    · refine ⟨rfl, rfl, rfl, by linarith, hlt, le_rfl, rfl, by simp only; linarith, fun h => absurd h2 h⟩
    · refine ⟨rfl, rfl, rfl, by linarith, lt_min (by linarith) hlt, min_le_right _ _, rfl, ?_, fun _ => ⟨?_, ?_⟩⟩ <;>
        simp only <;> have := min_le_left (c.totaltime + D) (c.t k) <;> linarith
    · refine ⟨rfl, rfl, rfl, hs, ?_, ?_, rfl, ?_, fun _ => ⟨?_, ?_⟩⟩ <;> simp only <;> linarith

/-- One call with the screen output only, in fields. -/
theorem setAdaptive_screen (o : Outputs) (ho : ∀ k', o.interval k' > 0 ↔ k' = .screen) (ls : List (List ℝ)) (c : Clock) :
    let D := adapt (smallest ls) c.dt
    let dv := if c.totaltime = c.t .screen then (if c.dtSaved > 0 then c.dtSaved else D) else D
    let ts := if c.totaltime = c.t .screen then c.t .screen + o.interval .screen else c.t .screen
    let c' := setAdaptive o ls c
    c'.totaltime = c.totaltime ∧ c'.t .screen = ts ∧
    c'.dtSaved = (if c.totaltime + dv > ts - 1 / 10 * o.interval .screen then dv else c.dtSaved) ∧
    c'.totaltimeNext = (if c.totaltime + dv > ts - 1 / 10 * o.interval .screen then ts else c.totaltime + D) ∧
    c'.dt = c'.totaltimeNext - c.totaltime := by
  intro D dv ts c'
  have hc' : c' = _ := setAdaptive_one o .screen ho ls c
  rw [hc']
  simp only [catchUp, align, dv, ts, D]
  by_cases he : c.totaltime = c.t .screen
  · simp only [if_pos he, Function.update_self]
    split_ifs <;> simp
  · simp only [if_neg he]
    split_ifs <;> simp

end FleCSPH.Timestep
