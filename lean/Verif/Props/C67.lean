import Verif.Lemmas.Driver
import Mathlib.Algebra.Order.Archimedean.Basic
/-! C67: the main loop stops after the final iteration or time that was asked for, and not earlier; C41 for output every so many iterations. -/
namespace FleCSPH
open Sph Geometry Driver Timestep

variable {i : Fin 3} {n : Nat}

theorem iteration_count (z : Config i) (w : Schedule i n) (st st1 : State i n) (h : iteration z w st = some st1) :
    st1.clock.iteration = st.clock.iteration + 1 ∧ (z.adaptive = false → st1.clock.totaltime = st.clock.totaltime + st.clock.dt ∧ st1.clock.dt = st.clock.dt) := by
  unfold iteration at h
  obtain ⟨sa, k1, h⟩ := Option.bind_eq_some_iff.mp h
  obtain ⟨sb, -, h⟩ := Option.bind_eq_some_iff.mp h
  obtain ⟨sc, k3, rfl⟩ := Option.map_eq_some_iff.mp h
  have hfix : ∀ s s' : State i n, adaptStep z s = some s' → z.adaptive = false → s' = s := by
    intro s s' h had
    unfold adaptStep at h
    rw [if_neg (by simp [had])] at h
    exact (Option.some.inj h).symm
  have ka : sa.clock.iteration = st.clock.iteration ∧ (z.adaptive = false → sa.clock = st.clock) := by
    split_ifs at k1
    · unfold firstBranch at k1
      obtain ⟨x1, l1, k1⟩ := Option.bind_eq_some_iff.mp k1
      obtain ⟨x2, l2, k1⟩ := Option.bind_eq_some_iff.mp k1
      obtain ⟨x3, l3, rfl⟩ := Option.map_eq_some_iff.mp k1
      exact ⟨adaptStep_iteration z ⟨st.clock, forces z st.clock.iteration w x1⟩ x2 l2, fun had => by show x2.clock = _; rw [hfix _ _ l2 had]⟩
    · unfold nextBranch at k1
      obtain ⟨x1, l1, k1⟩ := Option.bind_eq_some_iff.mp k1
      obtain ⟨x3, l3, rfl⟩ := Option.map_eq_some_iff.mp k1
      exact ⟨rfl, fun _ => rfl⟩
  have kc := adaptStep_iteration z _ _ k3
  refine ⟨?_, fun had => ?_⟩
  · show sc.clock.iteration + 1 = _
    rw [kc, ← ka.1]
  · have e := hfix _ _ k3 had
    subst e
    rw [← ka.2 had]
    exact ⟨by show (if z.adaptive = true then _ else _) = _; rw [if_neg (by simp [had])], rfl⟩

theorem run_count (z : Config i) : ∀ (ws : List (Schedule i n)) (st st1 : State i n), run z ws st = some st1 →
    st1.clock.iteration = st.clock.iteration + ws.length ∧
      (z.adaptive = false → st1.clock.totaltime = st.clock.totaltime + ws.length * st.clock.dt ∧ st1.clock.dt = st.clock.dt) := by
  intro ws
  induction ws with
  | nil =>
    intro st st1 h
    cases h
    simp
  | cons w ws ih =>
    intro st st1 h
    simp only [run, List.foldlM_cons, Option.bind_eq_bind] at h
    obtain ⟨s, h1, h2⟩ := Option.bind_eq_some_iff.mp h
    obtain ⟨e1, e2⟩ := iteration_count z w st s h1
    obtain ⟨e3, e4⟩ := ih s st1 h2
    refine ⟨?_, fun had => ?_⟩
    · rw [e3, e1, List.length_cons]; push_cast; ring
    · obtain ⟨f1, f2⟩ := e2 had
      obtain ⟨f3, f4⟩ := e4 had
      rw [f3, f4, f1, f2, List.length_cons]
      exact ⟨by push_cast; ring, rfl⟩

/-- C67, where the loop stops: the state it ends in is that after some `k ≥ 1` iterations, the iteration number or the time is then beyond the final one (if that is positive), and it was not after any
smaller number of iterations. If it has not ended, it was not after any number of them. -/
theorem C67_stop (z : Config i) (fi : Int) (ft : ℝ) : ∀ (ws : List (Schedule i n)) (st st' : State i n) (ended : Bool), mainLoop z fi ft ws st = some (st', ended) →
    ∃ k ≤ ws.length, run z (ws.take k) st = some st' ∧
      (ended = true → 1 ≤ k ∧ ((0 < fi ∧ fi < st'.clock.iteration) ∨ (0 < ft ∧ ft < st'.clock.totaltime))) ∧
      (ended = false → k = ws.length) ∧
      ∀ j s, 1 ≤ j → (j < k ∨ (ended = false ∧ j ≤ k)) → run z (ws.take j) st = some s → ¬ (0 < fi ∧ fi < s.clock.iteration) ∧ ¬ (0 < ft ∧ ft < s.clock.totaltime) := by
  intro ws
  induction ws with
  | nil =>
    intro st st' ended h
    simp only [mainLoop, Option.some.injEq, Prod.mk.injEq] at h
    obtain ⟨rfl, rfl⟩ := h
    exact ⟨0, le_rfl, rfl, by simp, fun _ => rfl, fun j s h1 h2 => by omega⟩
  | cons w ws ih =>
    intro st st' ended h
    rw [mainLoop] at h
    obtain ⟨s1, h1, h2⟩ := Option.bind_eq_some_iff.mp h
    have hrun : ∀ j, run z ((w :: ws).take (j + 1)) st = run z (ws.take j) s1 := by
      intro j
      simp only [run, List.take_succ_cons, List.foldlM_cons, Option.bind_eq_bind, h1, Option.bind_some]
    split_ifs at h2 with ht
    · simp only [Option.some.injEq, Prod.mk.injEq] at h2
      obtain ⟨rfl, rfl⟩ := h2
      refine ⟨1, by simp, by rw [hrun 0]; rfl, fun _ => ⟨le_rfl, ht⟩, by simp, fun j s g1 g2 => ?_⟩
      rcases g2 with g2 | ⟨g2, -⟩
      · omega
      · cases g2
    · obtain ⟨k, e1, e2, e3, e4, e5⟩ := ih s1 st' ended h2
      refine ⟨k + 1, by simpa using e1, by rw [hrun]; exact e2, fun he => ⟨by omega, (e3 he).2⟩, fun he => by rw [e4 he]; rfl, fun j s g1 g2 g3 => ?_⟩
      obtain ⟨j, rfl⟩ : ∃ j', j = j' + 1 := ⟨j - 1, by omega⟩
      rw [hrun] at g3
      rcases Nat.eq_zero_or_pos j with rfl | hj
      · have : s = s1 := by simpa [run] using g3.symm
        subst this
        exact not_or.mp ht
      · refine e5 j s hj ?_ g3
        rcases g2 with g2 | ⟨g2, g4⟩
        · exact Or.inl (by omega)
        · exact Or.inr ⟨g2, by omega⟩

/-- C67, by iteration number: if only `final_iteration` is set, the loop makes one iteration for each number from the initial to the final one, and one if the final number lies before the initial one. -/
theorem C67_iterations (z : Config i) (fi : Int) (ft : ℝ) (hfi : 0 < fi) (hft : ft ≤ 0) (ws : List (Schedule i n)) (st st' : State i n) (h : mainLoop z fi ft ws st = some (st', true)) :
    ∃ k, run z (ws.take k) st = some st' ∧ (k : Int) = max 1 (fi + 1 - st.clock.iteration) := by
  obtain ⟨k, h1, h2, h3, -, h5⟩ := C67_stop z fi ft ws st st' true h
  obtain ⟨g1, g2⟩ := h3 rfl
  refine ⟨k, h2, ?_⟩
  have e := (run_count z _ _ _ h2).1
  rw [List.length_take, min_eq_left h1] at e
  have g2 : fi < st'.clock.iteration := by
    rcases g2 with g2 | g2
    · exact g2.2
    · exact absurd g2.1 (not_lt.mpr hft)
  rcases Nat.lt_or_ge 1 k with hk | hk
  · -- the state one iteration earlier
    obtain ⟨s, hs⟩ : ∃ s, run z (ws.take (k - 1)) st = some s := by
      have : ws.take k = ws.take (k - 1) ++ (ws.drop (k - 1)).take 1 := by
        rw [← List.take_add]; congr 1; omega
      rw [this, run, List.foldlM_append] at h2
      obtain ⟨s, hs, -⟩ := Option.bind_eq_some_iff.mp h2
      exact ⟨s, hs⟩
    have f := (h5 (k - 1) s (by omega) (Or.inl (by omega)) hs).1
    have e' := (run_count z _ _ _ hs).1
    rw [List.length_take, min_eq_left (by omega)] at e'
    have : s.clock.iteration ≤ fi := by
      by_contra hc
      exact f ⟨hfi, by omega⟩
    omega
  · omega

/-- C67, by time with a fixed time step: if only `final_time` is set, the number of iterations is the smallest positive one after which the time is beyond the final time. -/
theorem C67_time (z : Config i) (had : z.adaptive = false) (fi : Int) (ft : ℝ) (hfi : fi ≤ 0) (hft : 0 < ft) (ws : List (Schedule i n)) (st st' : State i n)
    (h : mainLoop z fi ft ws st = some (st', true)) :
    ∃ k : Nat, run z (ws.take k) st = some st' ∧ 1 ≤ k ∧ ft < st.clock.totaltime + k * st.clock.dt ∧ ∀ j : Nat, 1 ≤ j → j < k → st.clock.totaltime + j * st.clock.dt ≤ ft := by
  obtain ⟨k, h1, h2, h3, -, h5⟩ := C67_stop z fi ft ws st st' true h
  obtain ⟨g1, g2⟩ := h3 rfl
  have e := ((run_count z _ _ _ h2).2 had).1
  rw [List.length_take, min_eq_left h1] at e
  refine ⟨k, h2, g1, ?_, fun j j1 jk => ?_⟩
  · rcases g2 with g2 | g2
    · omega
    · rw [← e]; exact g2.2
  · obtain ⟨s, hs⟩ : ∃ s, run z (ws.take j) st = some s := by
      have : ws.take k = ws.take j ++ (ws.drop j).take (k - j) := by
        rw [← List.take_add]; congr 1; omega
      rw [this, run, List.foldlM_append] at h2
      obtain ⟨s, hs, -⟩ := Option.bind_eq_some_iff.mp h2
      exact ⟨s, hs⟩
    have f := (h5 j s j1 (Or.inl jk) hs).2
    have e' := ((run_count z _ _ _ hs).2 had).1
    rw [List.length_take, min_eq_left (by omega)] at e'
    rw [← e']
    by_contra hc
    exact f ⟨hft, not_le.mp hc⟩

/-- C67, termination: with a final iteration, or with a final time and a fixed positive time step, the loop cannot go on beyond a number of iterations known in advance. -/
theorem C67_ends (z : Config i) (fi : Int) (ft : ℝ) (st : State i n) (hset : 0 < fi ∨ (0 < ft ∧ z.adaptive = false ∧ 0 < st.clock.dt)) :
    ∃ b : Nat, ∀ (ws : List (Schedule i n)) (st' : State i n), mainLoop z fi ft ws st = some (st', false) → ws.length < b := by
  rcases hset with hfi | ⟨hft, had, hdt⟩
  · refine ⟨(fi - st.clock.iteration).toNat + 2, fun ws st' h => ?_⟩
    obtain ⟨k, h1, h2, -, h4, h5⟩ := C67_stop z fi ft ws st st' false h
    have hk := h4 rfl
    rcases Nat.eq_zero_or_pos k with h0 | hpos
    · omega
    have f := (h5 k st' hpos (Or.inr ⟨rfl, le_rfl⟩) h2).1
    have e := (run_count z _ _ _ h2).1
    rw [List.length_take, min_eq_left h1] at e
    have : st'.clock.iteration ≤ fi := by
      by_contra hc
      exact f ⟨hfi, by omega⟩
    omega
  · obtain ⟨b, hb⟩ := exists_nat_gt ((ft - st.clock.totaltime) / st.clock.dt)
    refine ⟨b + 1, fun ws st' h => ?_⟩
    obtain ⟨k, h1, h2, -, h4, h5⟩ := C67_stop z fi ft ws st st' false h
    have hk := h4 rfl
    rcases Nat.eq_zero_or_pos k with h0 | hpos
    · omega
    have f := (h5 k st' hpos (Or.inr ⟨rfl, le_rfl⟩) h2).2
    have e := ((run_count z _ _ _ h2).2 had).1
    rw [List.length_take, min_eq_left h1] at e
    have ht : st'.clock.totaltime ≤ ft := by
      by_contra hc
      exact f ⟨hft, not_le.mp hc⟩
    have : (k : ℝ) * st.clock.dt < b * st.clock.dt := by
      rw [div_lt_iff₀ hdt] at hb
      linarith
    have : (k : ℝ) < b := lt_of_mul_lt_mul_right this hdt.le
    have : k < b := by exact_mod_cast this
    omega

/-- C67, without a final iteration and a final time the loop never ends. -/
theorem C67_endless (z : Config i) (fi : Int) (ft : ℝ) (hfi : fi ≤ 0) (hft : ft ≤ 0) (ws : List (Schedule i n)) (st st' : State i n) : mainLoop z fi ft ws st ≠ some (st', true) := by
  intro h
  obtain ⟨k, -, -, h3, -⟩ := C67_stop z fi ft ws st st' true h
  rcases (h3 rfl).2 with g | g
  · omega
  · linarith [g.1]

/-- C41, output by iteration number: without an output interval, a kind of output is written exactly in the iterations whose number is a multiple of `out_*_every`, and never if that is not positive. -/
theorem C41_every (o : Outputs) (k : Kind) (hk : o.interval k ≤ 0) (c : Clock) : due o k c ↔ 0 < o.every k ∧ ∃ j : Int, c.iteration = j * o.every k := by
  unfold due
  rw [if_neg (not_lt.mpr hk), not_le]
  refine and_congr_right fun _ => ?_
  rw [← Int.dvd_iff_tmod_eq_zero]
  constructor
  · rintro ⟨j, hj⟩
    exact ⟨j, by rw [hj]; ring⟩
  · rintro ⟨j, hj⟩
    exact ⟨j, by rw [hj]; ring⟩

/-- With output every 3 iterations, iteration 6 writes and iteration 7 does not. -/
example (c : Clock) : due ⟨fun _ => 0, fun _ => 3⟩ .h5 { c with iteration := 6 } ∧ ¬ due ⟨fun _ => 0, fun _ => 3⟩ .h5 { c with iteration := 7 } := by
  simp [due]

end FleCSPH
