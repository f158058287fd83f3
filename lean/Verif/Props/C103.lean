import Verif.Lemmas.RunClock
import Verif.Props.C98
import Verif.Props.C102
/-!
C103: output times of whole runs with an adaptive time step.

Outputs may be asked for at multiples of a time instead of every so many iterations; `set_adaptive_timestep` then shortens steps, or stretches them for the screen output, so that the output times are hit. C40
and C41 say what a call, and a series of calls with given limits, does to the clock. Here the limits are those of the particles: runs of both drivers, on any number of processes, with trees and messages, in
exact arithmetic with either viscosity. All timed outputs have one interval, and no step used is longer than 9/20 of it.

Missing for the full property: longer steps, which may pass over an output time (C41), outputs with different intervals (C41), periodic boundaries, rounding.
-/
namespace FleCSPH.RunOutputs
open FleCSPH.Geometry FleCSPH.Sph FleCSPH.Driver FleCSPH.DistRun FleCSPH.AdaptRun FleCSPH.Spec FleCSPH.Newtonian FleCSPH.RunExamples FleCSPH.Timestep

variable {i : Fin 3} {n : Nat}

/-- What a user expects of the clocks of a run which begins at `t0` and has outputs at `t0`, `t0 + I`, `t0 + 2 I`, ...: `steps` has the clock at the beginning of each iteration after the first as second
component. -/
structure Punctual (o : Outputs) (I t0 : ℝ) (steps : List (Clock × Clock)) (last : Clock) : Prop where
  /-- Every step is positive. -/
  positive : ∀ s ∈ steps, 0 < s.2.dt
  /-- The time is the sum of the steps. -/
  time : last.totaltime = t0 + (steps.map fun s => s.2.dt).sum
  /-- The times of the iterations increase. -/
  increases : (t0 :: steps.map fun s => s.2.totaltime).Pairwise (· < ·)
  /-- No output time is passed over: each one the run has reached is the time of an iteration. -/
  hit : ∀ j : Nat, t0 + j * I ≤ last.totaltime → t0 + j * I ∈ t0 :: steps.map fun s => s.2.totaltime
  /-- Output is written in exactly the iterations at these times. -/
  written : ∀ s ∈ steps, ∀ k, 0 < o.interval k → (due o k s.2 ↔ ∃ j : Nat, s.2.totaltime = t0 + j * I)

/-- The limits `compute_dt` has given the particles are the ones velocity, acceleration and signal speed ask for. -/
def Limited (z : Config i) (s : Fin n → Particle (i + 1)) : Prop :=
  ∀ a, 0 < (s a).dt ∧ (s a).dt * √(∑ j, (s a).vel j ^ 2) ≤ z.cfl * ((s a).h / (z.eta * z.width)) ∧
    (s a).dt ^ 2 * √(∑ j, ((s a).acc j + (s a).gacc j) ^ 2) ≤ z.cfl ^ 2 * ((s a).h / (z.eta * z.width)) ∧
    (s a).dt * ((s a).vsig * (1 + 6 / 10 * z.sph.alpha)) ≤ z.cfl * ((s a).h / (z.eta * z.width))

/-- The limits after a program which ends with `compute_dt`. -/
private theorem end_limited {z : Config i} (he : 0 < z.eta) (hw : 0 < z.width) (hcfl : 0 < z.cfl) (hal : 0 ≤ z.sph.alpha) {procs : Nat} {ops : List (Op (Particle (i + 1)))}
    {home home' : Fin n → Nat} {d d' : DState (Particle (i + 1)) n} (hh : ∀ a, home a < procs) (hs : ∀ a, 0 < (d'.val a).h) (hsig : ∀ a, 0 ≤ (d'.val a).vsig)
    (hx : DExec NearLists procs (ops ++ [stepOp z]) home d (some (home', d'))) : (∀ a, home' a < procs) ∧ Limited z d'.val ∧ ∀ l ∈ AdaptRun.limits procs home' d'.val, ∀ x ∈ l, 0 < x := by
  have hh' := exec_homes hx hh _ rfl
  obtain ⟨y, -, hB⟩ := exec_split hx
  obtain ⟨-, -, -, q4⟩ := exec_step hB
  have hl : Limited z d'.val := by
    intro a
    obtain ⟨q5, t, ht⟩ := q4 a
    simp only at ht q5
    have g1 := hs a
    have g2 := hsig a
    rw [ht] at g1 g2
    obtain ⟨k1, k2, k3, k4, -, -⟩ := C40_particle_limit (stepSettings z) (y.2.val a) (d'.val a) he hw hcfl hal g1 g2 q5
    have e1 : (d'.val a).h = (y.2.val a).h := by rw [ht]
    have e2 : (d'.val a).vel = (y.2.val a).vel := by rw [ht]
    have e3 : (d'.val a).acc = (y.2.val a).acc := by rw [ht]
    have e4 : (d'.val a).gacc = (y.2.val a).gacc := by rw [ht]
    have e5 : (d'.val a).vsig = (y.2.val a).vsig := by rw [ht]
    rw [e1, e2, e3, e4, e5]
    exact ⟨k1, k2, k3, k4⟩
  refine ⟨hh', hl, fun l hl' x hx => ?_⟩
  obtain ⟨p, -, rfl⟩ := List.mem_map.mp hl'
  obtain ⟨a, -, rfl⟩ := List.mem_map.mp hx
  exact (hl a).1

/-- The limit of every particle is in the lists. -/
private theorem mem_limits {procs : Nat} {home : Fin n → Nat} (hh : ∀ a, home a < procs) (s : Fin n → Particle (i + 1)) (a : Fin n) : ∃ l ∈ AdaptRun.limits procs home s, (s a).dt ∈ l :=
  ⟨_, List.mem_map.mpr ⟨home a, List.mem_range.mpr (hh a), rfl⟩, List.mem_map.mpr ⟨a, List.mem_filter.mpr ⟨List.mem_finRange a, by simp⟩, rfl⟩⟩

/-- From the clocks with their limits to the property. -/
private theorem punctual {z : Config i} {I t0 dt0 : ℝ} {it : Int} (hsame : ∀ j, 0 < z.outputs.interval j → z.outputs.interval j = I) {k : Kind} (hk : 0 < z.outputs.interval k) (ht0 : 0 ≤ t0) (hdt : 0 < dt0)
    (hshort : dt0 ≤ 9 / 20 * I) {L : List (Clock × Clock × List (List ℝ))} {c' : Clock} (h : Ticks z.outputs (start z.outputs it t0 dt0) L c') {steps : List (Clock × Clock)}
    (hL : steps = L.map fun x => (x.1, x.2.1)) (hs : ∀ x ∈ steps, x.1.dt ≤ 9 / 20 * I) (hs' : ∀ x ∈ steps.dropLast, x.2.dt ≤ 9 / 20 * I) {procs : Nat} {s : Fin n → Particle (i + 1)}
    (hlast : L ≠ [] → ∃ home, (∀ a, home a < procs) ∧ ∃ cs, L.getLast? = some (cs, c', AdaptRun.limits procs home s)) :
    Punctual z.outputs I t0 steps c' ∧ (steps ≠ [] → ∀ a, c'.dt ≤ (s a).dt + if 0 < z.outputs.interval .screen then 1 / 10 * I else 0) := by
  have hI : 0 < I := by rw [← hsame k hk]; exact hk
  obtain ⟨q, hT, -, hin, hsum, hpw, hall, hmem⟩ := h.track (t0 := t0) hsame hk (track_start hsame hI it ht0 hdt) hshort
    (fun x hx => hs (x.1, x.2.1) (by rw [hL]; exact List.mem_map.mpr ⟨x, hx, rfl⟩))
    (fun x hx => hs' (x.1, x.2.1) (by rw [hL, ← List.map_dropLast]; exact List.mem_map.mpr ⟨x, hx, rfl⟩))
  change ∀ j, 0 ≤ j → j < q → _ ∈ t0 :: _ at hin
  change c'.totaltime = t0 + _ at hsum
  change (t0 :: _).Pairwise _ at hpw
  change c'.totaltime ∈ t0 :: _ at hmem
  have et : (steps.map fun s => s.2.totaltime) = L.map fun x => x.2.1.totaltime := by rw [hL, List.map_map]; rfl
  have ed : (steps.map fun s => s.2.dt) = L.map fun x => x.2.1.dt := by rw [hL, List.map_map]; rfl
  refine ⟨⟨?_, by rw [ed]; exact hsum, by rw [et]; exact hpw, fun j hj => ?_, ?_⟩, fun hne a => ?_⟩
  · intro x hx
    rw [hL] at hx
    obtain ⟨y, hy, rfl⟩ := List.mem_map.mp hx
    exact (hall y hy).1
  · rw [et]
    rcases Nat.lt_or_ge j q with h1 | h1
    · exact hin j (Nat.zero_le j) h1
    · have h2 : (q : ℝ) * I ≤ j * I := mul_le_mul_of_nonneg_right (by exact_mod_cast h1) hI.le
      have h3 := hT.before
      have : c'.totaltime = t0 + j * I := by linarith
      rw [← this]; exact hmem
  · intro x hx j hj
    rw [hL] at hx
    obtain ⟨y, hy, rfl⟩ := List.mem_map.mp hx
    exact (hall y hy).2.2 j hj
  · obtain ⟨home, hh, cs, hcs⟩ := hlast (by rintro rfl; exact hne hL)
    obtain ⟨l, hl, hx⟩ := mem_limits hh s a
    have := (hall _ (List.mem_of_getLast? hcs)).2.1 l hl _ hx
    unfold stretch at this
    split_ifs at this ⊢ with hsc
    · rw [← hsame _ hsc]; exact this
    · exact this

section
variable {z : Config i} (he : 0 < z.eta) (hw : 0 < z.width) (hcfl : 0 < z.cfl) (hal : 0 ≤ z.sph.alpha)
include he hw hcfl hal

/-! ### The hydro driver -/

private theorem iter_ticks {procs : Nat} {home home' : Fin n → Nat} {d d' : DState (Particle (i + 1)) n} {c c1 c2 : Clock} (hh : ∀ a, home a < procs) (hs : ∀ a, Sized (d.val a))
    (hsig : ∀ a, 0 ≤ (d.val a).vsig) (h : AIter NearLists procs z c home d (some (c1, c2, home', d'))) :
    (∀ a, home' a < procs) ∧ (∀ a, Sized (d'.val a)) ∧ (∀ a, 0 ≤ (d'.val a).vsig) ∧ Limited z d'.val ∧
      (c1 = c ∨ ∃ ls, (∀ l ∈ ls, ∀ x ∈ l, 0 < x) ∧ c1 = setAdaptive z.outputs ls c) ∧ (∀ l ∈ AdaptRun.limits procs home' d'.val, ∀ x ∈ l, 0 < x) ∧
      c2 = advance true (setAdaptive z.outputs (AdaptRun.limits procs home' d'.val) c1) := by
  cases h with
  | first hc0 h1 hc1 h2 =>
    have s1 := exec_keeps h1 (keeps_first z _ _) hsig _ rfl
    have s2 := exec_keeps h2 (keeps_rest z _ _) s1 _ rfl
    have k1 := AlphaFit.exec_fit h1 (AlphaFit.fit_adapt1 z _ _) hs _ rfl
    have k2 := AlphaFit.exec_fit h2 (AlphaFit.fit_adapt2 z he hw _ _) (fun a => (k1 a).1) _ rfl
    obtain ⟨m1, -, m3⟩ := end_limited he hw hcfl hal hh (fun a => (k1 a).1.2.1) s1 h1
    obtain ⟨l1, l2, l3⟩ := end_limited he hw hcfl hal m1 (fun a => (k2 a).1.2) s2 h2
    exact ⟨l1, fun a => (k2 a).1, s2, l2, .inr ⟨_, m3, hc1⟩, l3, rfl⟩
  | next hc0 h1 =>
    have s2 := exec_keeps h1 (keeps_next z _ _) hsig _ rfl
    have k2 := AlphaFit.exec_fit h1 (AlphaFit.fit_adapt3 z he hw _ _) hs _ rfl
    obtain ⟨l1, l2, l3⟩ := end_limited he hw hcfl hal hh (fun a => (k2 a).1.2) s2 h1
    exact ⟨l1, fun a => (k2 a).1, s2, l2, .inl rfl, l3, rfl⟩

private theorem run_ticks {procs N : Nat} {c : Clock} {home : Fin n → Nat} {d : DState (Particle (i + 1)) n} {steps : List (Clock × Clock)} {r : Option (Clock × (Fin n → Particle (i + 1)))}
    (h : ARun NearLists procs z N c home d steps r) : (∀ a, home a < procs) → (∀ a, Sized (d.val a)) → (∀ a, 0 ≤ (d.val a).vsig) → ∀ c' s, r = some (c', s) →
      ∃ L, Ticks z.outputs c L c' ∧ steps = L.map (fun x => (x.1, x.2.1)) ∧ L.length = N ∧
        (L ≠ [] → Limited z s ∧ ∃ home, (∀ a, home a < procs) ∧ ∃ cs, L.getLast? = some (cs, c', AdaptRun.limits procs home s)) := by
  induction h with
  | nil => intro _ _ _ c' s e; cases e; exact ⟨[], .nil, rfl, rfl, fun h => absurd rfl h⟩
  | fail => intro _ _ _ c' s e; cases e
  | @cons N c c1 c2 home home' d d' steps r h1 hr ih =>
    intro a1 a2 a4 c' s e
    obtain ⟨b1, b2, b4, b5, b6, b7, b8⟩ := iter_ticks he hw hcfl hal a1 a2 a4 h1
    obtain ⟨L, k1, k2, k3, k4⟩ := ih b1 b2 b4 c' s e
    refine ⟨(c1, c2, AdaptRun.limits procs home' d'.val) :: L, ?_, by rw [k2]; rfl, by rw [List.length_cons, k3], fun _ => ?_⟩
    · rw [b8] at k1 ⊢
      exact .cons b6 b7 k1
    · by_cases hL : L = []
      · subst hL
        cases k1
        obtain rfl : N = 0 := k3.symm
        subst k2
        cases hr
        cases e
        exact ⟨b5, home', b1, c1, rfl⟩
      · obtain ⟨m1, hm, m2, cs, m3⟩ := k4 hL
        exact ⟨m1, hm, m2, cs, by rw [List.getLast?_cons, m3]; rfl⟩

/-- The hydro driver on any number of processes: as long as no step used is longer than 9/20 of the interval of the outputs, steps are positive and add up to the time, times increase, no output time is passed
over, output is written exactly at the output times, and the last step is within the limit of every particle of every process, up to a tenth of the interval if there is screen output. -/
theorem C103_hydro_partial {I : ℝ} (hsame : ∀ j, 0 < z.outputs.interval j → z.outputs.interval j = I) {k : Kind} (hk : 0 < z.outputs.interval k) {it : Int} {t0 dt0 : ℝ} (ht0 : 0 ≤ t0) (hdt : 0 < dt0)
    (hshort : dt0 ≤ 9 / 20 * I) {procs N : Nat} {home : Fin n → Nat} {d : DState (Particle (i + 1)) n} (hh : ∀ a, home a < procs) (hpos : ∀ a, 0 < (d.val a).mass ∧ 0 < (d.val a).h)
    (hsig : ∀ a, 0 ≤ (d.val a).vsig) {steps : List (Clock × Clock)} {c' : Clock} {s : Fin n → Particle (i + 1)}
    (h : ARun NearLists procs z N (start z.outputs it t0 dt0) home d steps (some (c', s)))
    (hs : ∀ x ∈ steps, x.1.dt ≤ 9 / 20 * I) (hs' : ∀ x ∈ steps.dropLast, x.2.dt ≤ 9 / 20 * I) :
    steps.length = N ∧ Punctual z.outputs I t0 steps c' ∧
      (0 < N → Limited z s ∧ ∀ a, c'.dt ≤ (s a).dt + if 0 < z.outputs.interval .screen then 1 / 10 * I else 0) := by
  obtain ⟨L, k1, k2, k3, k4⟩ := run_ticks he hw hcfl hal h hh hpos hsig c' s rfl
  obtain ⟨p1, p2⟩ := punctual hsame hk ht0 hdt hshort k1 k2 hs hs' fun h => (k4 h).2
  have e : steps.length = N := by rw [k2, List.length_map, k3]
  refine ⟨e, p1, fun hN => ⟨(k4 ?_).1, p2 ?_⟩⟩
  · rintro rfl; rw [List.length_nil] at k3; omega
  · rintro rfl; rw [List.length_nil] at e; omega

/-- The same with the trees and messages of `2^m` processes. -/
theorem C103_program_partial (g : Program.Settings) (hbits : i.val + 1 < g.bits) (hn : 2 ≤ n) (htol : 0 ≤ g.tol)
    {I : ℝ} (hsame : ∀ j, 0 < z.outputs.interval j → z.outputs.interval j = I) {k : Kind} (hk : 0 < z.outputs.interval k) {it : Int} {t0 dt0 : ℝ} (ht0 : 0 ≤ t0) (hdt : 0 < dt0)
    (hshort : dt0 ≤ 9 / 20 * I) {m N : Nat} {T : Program.Trees i n m} {d : DState (Particle (i + 1)) n} (hdiv : Division n (2 ^ m) T.vec) (hpos : ∀ a, 0 < (d.val a).mass ∧ 0 < (d.val a).h)
    (hid : ∀ a b, (d.val a).id = (d.val b).id → a = b) (hsig : ∀ a, 0 ≤ (d.val a).vsig) {steps : List (Clock × Clock)} {c' : Clock} {s : Fin n → Particle (i + 1)}
    (h : AdaptProgram.Run g z N (start z.outputs it t0 dt0) T d steps (.done c' s))
    (hs : ∀ x ∈ steps, x.1.dt ≤ 9 / 20 * I) (hs' : ∀ x ∈ steps.dropLast, x.2.dt ≤ 9 / 20 * I) :
    steps.length = N ∧ Punctual z.outputs I t0 steps c' ∧
      (0 < N → Limited z s ∧ ∀ a, c'.dt ≤ (s a).dt + if 0 < z.outputs.interval .screen then 1 / 10 * I else 0) :=
  C103_hydro_partial he hw hcfl hal hsame hk ht0 hdt hshort (Program.home_mem hdiv) hpos hsig ((AdaptProgram.C98_refines he hw g hbits hn htol h hpos hid hdiv).1 _ _ rfl) hs hs'

/-! ### The newtonian driver -/

private theorem iter_newton (g : Gravity) (hbits : i.val + 1 < g.bits) (hn : 2 ≤ n) {m : Nat} {home home' : Fin n → Nat} {d d' : DState (Particle (i + 1)) n} {c c1 c2 : Clock}
    (hh : ∀ a, home a < 2 ^ m) (hs : ∀ a, Sized (d.val a)) (hid : ∀ a b, (d.val a).id = (d.val b).id → a = b) (hsig : ∀ a, 0 ≤ (d.val a).vsig)
    (h : AdaptNewton.Iter NearLists g m z c home d (.done c1 c2 home' d')) :
    (∀ a, home' a < 2 ^ m) ∧ (∀ a, Sized (d'.val a)) ∧ (∀ a b, (d'.val a).id = (d'.val b).id → a = b) ∧ (∀ a, 0 ≤ (d'.val a).vsig) ∧ Limited z d'.val ∧
      (c1 = c ∨ ∃ ls, (∀ l ∈ ls, ∀ x ∈ l, 0 < x) ∧ c1 = setAdaptive z.outputs ls c) ∧ (∀ l ∈ AdaptRun.limits (2 ^ m) home' d'.val, ∀ x ∈ l, 0 < x) ∧
      c2 = advance true (setAdaptive z.outputs (AdaptRun.limits (2 ^ m) home' d'.val) c1) := by
  cases h with
  | @first homeh dh v home1 d1 _ _ _ hc0 h1 h2 h3 h4 h5 h6 =>
    obtain ⟨e1, e2, e3⟩ := AdaptNewton.pull_fit g hbits hn hs hid h1 h2 h3
    have s0 := exec_keeps h1 (AdaptNewton.keeps_head _) hsig _ rfl
    have sv : ∀ a, 0 ≤ (v a).vsig := fun a => by rw [e2]; exact s0 a
    have s1 := exec_keeps h4 (AdaptNewton.keeps_mid _) sv _ rfl
    have s2 := exec_keeps h6 (keeps_rest z _ _) s1 _ rfl
    have k1 := AlphaFit.exec_fit h4 (AdaptNewton.fit_mid z _) e1 _ rfl
    have k2 := AlphaFit.exec_fit h6 (AlphaFit.fit_adapt2 z he hw _ _) (fun a => (k1 a).1) _ rfl
    obtain ⟨m1, -, m3⟩ := end_limited he hw hcfl hal (exec_homes h1 hh _ rfl) (fun a => (k1 a).1.2.1) s1 h4
    obtain ⟨l1, l2, l3⟩ := end_limited he hw hcfl hal m1 (fun a => (k2 a).1.2) s2 h6
    exact ⟨l1, fun a => (k2 a).1, fun a b e => hid a b (by rw [← e3, ← e3, ← (k1 a).2, ← (k1 b).2, ← (k2 a).2, ← (k2 b).2]; exact e), s2, l2, .inr ⟨_, m3, h5⟩, l3, rfl⟩
  | @next homeh dh v _ _ hc0 h1 h2 h3 h4 =>
    obtain ⟨e1, e2, e3⟩ := AdaptNewton.pull_fit g hbits hn hs hid h1 h2 h3
    have s0 := exec_keeps h1 (AdaptNewton.keeps_head _) hsig _ rfl
    have sv : ∀ a, 0 ≤ (v a).vsig := fun a => by rw [e2]; exact s0 a
    have s2 := exec_keeps h4 (AdaptNewton.keeps_tail hc0) sv _ rfl
    have k2 := AlphaFit.exec_fit h4 (AdaptNewton.fit_end z he hw _) e1 _ rfl
    obtain ⟨l1, l2, l3⟩ := end_limited he hw hcfl hal (exec_homes h1 hh _ rfl) (fun a => (k2 a).1.2) s2 h4
    exact ⟨l1, fun a => (k2 a).1, fun a b e => hid a b (by rw [← e3, ← e3, ← (k2 a).2, ← (k2 b).2]; exact e), s2, l2, .inl rfl, l3, rfl⟩

private theorem newton_ticks (g : Gravity) (hbits : i.val + 1 < g.bits) (hn : 2 ≤ n) {m N : Nat} {c : Clock} {home : Fin n → Nat} {d : DState (Particle (i + 1)) n} {steps : List (Clock × Clock)} {r : Outcome i n}
    (h : AdaptNewton.Run NearLists g m z N c home d steps r) : (∀ a, home a < 2 ^ m) → (∀ a, Sized (d.val a)) → (∀ a b, (d.val a).id = (d.val b).id → a = b) →
      (∀ a, 0 ≤ (d.val a).vsig) → ∀ c' s, r = .done c' s →
      ∃ L, Ticks z.outputs c L c' ∧ steps = L.map (fun x => (x.1, x.2.1)) ∧ L.length = N ∧
        (L ≠ [] → Limited z s ∧ ∃ home, (∀ a, home a < 2 ^ m) ∧ ∃ cs, L.getLast? = some (cs, c', AdaptRun.limits (2 ^ m) home s)) := by
  induction h with
  | nil => intro _ _ _ _ c' s e; cases e; exact ⟨[], .nil, rfl, rfl, fun h => absurd rfl h⟩
  | failed => intro _ _ _ _ c' s e; cases e
  | clash => intro _ _ _ _ c' s e; cases e
  | @cons N c c1 c2 home home' d d' steps r h1 hr ih =>
    intro a1 a2 a0 a4 c' s e
    obtain ⟨b1, b2, b0, b4, b5, b6, b7, b8⟩ := iter_newton he hw hcfl hal g hbits hn a1 a2 a0 a4 h1
    obtain ⟨L, k1, k2, k3, k4⟩ := ih b1 b2 b0 b4 c' s e
    refine ⟨(c1, c2, AdaptRun.limits (2 ^ m) home' d'.val) :: L, ?_, by rw [k2]; rfl, by rw [List.length_cons, k3], fun _ => ?_⟩
    · rw [b8] at k1 ⊢
      exact .cons b6 b7 k1
    · by_cases hL : L = []
      · subst hL
        cases k1
        obtain rfl : N = 0 := k3.symm
        subst k2
        cases hr
        cases e
        exact ⟨b5, home', b1, c1, rfl⟩
      · obtain ⟨m1, hm, m2, cs, m3⟩ := k4 hL
        exact ⟨m1, hm, m2, cs, by rw [List.getLast?_cons, m3]; rfl⟩

/-- The newtonian driver with self-gravity on `2^m` processes; the limits contain the acceleration of gravity. -/
theorem C103_newton_partial (g : Gravity) (hbits : i.val + 1 < g.bits) (hn : 2 ≤ n)
    {I : ℝ} (hsame : ∀ j, 0 < z.outputs.interval j → z.outputs.interval j = I) {k : Kind} (hk : 0 < z.outputs.interval k) {it : Int} {t0 dt0 : ℝ} (ht0 : 0 ≤ t0) (hdt : 0 < dt0)
    (hshort : dt0 ≤ 9 / 20 * I) {m N : Nat} {home : Fin n → Nat} {d : DState (Particle (i + 1)) n} (hh : ∀ a, home a < 2 ^ m) (hpos : ∀ a, 0 < (d.val a).mass ∧ 0 < (d.val a).h)
    (hid : ∀ a b, (d.val a).id = (d.val b).id → a = b) (hsig : ∀ a, 0 ≤ (d.val a).vsig) {steps : List (Clock × Clock)} {c' : Clock} {s : Fin n → Particle (i + 1)}
    (h : AdaptNewton.Run NearLists g m z N (start z.outputs it t0 dt0) home d steps (.done c' s))
    (hs : ∀ x ∈ steps, x.1.dt ≤ 9 / 20 * I) (hs' : ∀ x ∈ steps.dropLast, x.2.dt ≤ 9 / 20 * I) :
    steps.length = N ∧ Punctual z.outputs I t0 steps c' ∧
      (0 < N → Limited z s ∧ ∀ a, c'.dt ≤ (s a).dt + if 0 < z.outputs.interval .screen then 1 / 10 * I else 0) := by
  obtain ⟨L, k1, k2, k3, k4⟩ := newton_ticks he hw hcfl hal g hbits hn h hh hpos hid hsig c' s rfl
  obtain ⟨p1, p2⟩ := punctual hsame hk ht0 hdt hshort k1 k2 hs hs' fun h => (k4 h).2
  have e : steps.length = N := by rw [k2, List.length_map, k3]
  refine ⟨e, p1, fun hN => ⟨(k4 ?_).1, p2 ?_⟩⟩
  · rintro rfl; rw [List.length_nil] at k3; omega
  · rintro rfl; rw [List.length_nil] at e; omega

/-- The same with the trees and messages. -/
theorem C103_newton_program_partial (g : Program.Settings) (hbits : i.val + 1 < g.bits) (hn : 2 ≤ n) (htol : 0 ≤ g.tol)
    {I : ℝ} (hsame : ∀ j, 0 < z.outputs.interval j → z.outputs.interval j = I) {k : Kind} (hk : 0 < z.outputs.interval k) {it : Int} {t0 dt0 : ℝ} (ht0 : 0 ≤ t0) (hdt : 0 < dt0)
    (hshort : dt0 ≤ 9 / 20 * I) {m N : Nat} {T : Program.Trees i n m} {d : DState (Particle (i + 1)) n} (hdiv : Division n (2 ^ m) T.vec) (hpos : ∀ a, 0 < (d.val a).mass ∧ 0 < (d.val a).h)
    (hid : ∀ a b, (d.val a).id = (d.val b).id → a = b) (hsig : ∀ a, 0 ≤ (d.val a).vsig) {steps : List (Clock × Clock)} {c' : Clock} {s : Fin n → Particle (i + 1)}
    (h : NewtonProgram.Run g z N (start z.outputs it t0 dt0) T d steps (.done c' s))
    (hs : ∀ x ∈ steps, x.1.dt ≤ 9 / 20 * I) (hs' : ∀ x ∈ steps.dropLast, x.2.dt ≤ 9 / 20 * I) :
    steps.length = N ∧ Punctual z.outputs I t0 steps c' ∧
      (0 < N → Limited z s ∧ ∀ a, c'.dt ≤ (s a).dt + if 0 < z.outputs.interval .screen then 1 / 10 * I else 0) :=
  C103_newton_partial he hw hcfl hal g.toGravity hbits hn hsame hk ht0 hdt hshort (Program.home_mem hdiv) hpos hid hsig
    (NewtonProgram.C102_refines he hw g hbits hn htol h hpos hid hdiv fun _ => by simp) hs hs'

end

/-! ### Non-vacuity: the two gas particles, one on each of two processes, with all three outputs at multiples of 1 -/

open FleCSPH.Program

/-- The gas with timed outputs. -/
noncomputable def timed : Config 1 := { gas false .polytropic with outputs := ⟨fun _ => 1, fun _ => 1⟩ }

/-- The clock at the beginning. -/
noncomputable def noon : Clock := Timestep.start timed.outputs 0 0 (1 / 100)

/-- The clock after the first call is still short. -/
private theorem noon_short {ls : List (List ℝ)} (h : ∀ l ∈ ls, ∀ x ∈ l, 0 < x) : (setAdaptive timed.outputs ls noon).dt ≤ 9 / 20 * 1 := by
  have hA : Alike timed.outputs .screen noon (Timestep.start (only timed.outputs .screen) 0 0 (1 / 100)) :=
    Alike.start ⟨by norm_num [timed], .inl rfl, fun j _ => rfl⟩ 0 0 (1 / 100)
  have hS := hA.setAdaptive ⟨by norm_num [timed], .inl rfl, fun j _ => rfl⟩ ls
  rw [hS.dt]
  obtain ⟨D0, D1, D2⟩ := adapt_spec (smallest_pos ls h) (show (0 : ℝ) < 1 / 100 by norm_num)
  obtain ⟨-, -, -, s4, s5⟩ := setAdaptive_screen (only timed.outputs .screen) (only_active _ _ (by norm_num [timed])) ls (Timestep.start (only timed.outputs .screen) 0 0 (1 / 100))
  have e1 : (Timestep.start (only timed.outputs .screen) 0 0 (1 / 100)).totaltime = 0 := rfl
  have e2 : (Timestep.start (only timed.outputs .screen) 0 0 (1 / 100)).t .screen = 0 := by simp [Timestep.start, only, timed, truncate]
  have e3 : (Timestep.start (only timed.outputs .screen) 0 0 (1 / 100)).dt = 1 / 100 := rfl
  have e4 : (Timestep.start (only timed.outputs .screen) 0 0 (1 / 100)).dtSaved = 0 := rfl
  have e5 : (only timed.outputs .screen).interval .screen = 1 := rfl
  rw [s5, s4, e1, e2, e3, e4, e5, if_pos rfl, if_pos rfl, if_neg (lt_irrefl _), if_neg (by linarith)]
  linarith

/-- The first iteration of the hydro driver is done; its time step is positive and the output at time 0 was the time of an iteration. -/
example : ∃ steps c s, AdaptProgram.Run set2 timed 1 noon two2 ⟨two, fun _ b => some (two b), []⟩ steps (.done c s) ∧ Punctual timed.outputs 1 0 steps c ∧ Limited timed s ∧ 0 < c.totaltime := by
  have hp : ∀ a, 0 < (two a).mass ∧ 0 < (two a).h := fun a => by simp [two]
  have hid : ∀ a b : Fin 2, (two a).id = (two b).id → a = b := fun a b h => Fin.ext h
  have he : 0 < timed.eta := by norm_num [gas, timed]
  have hw : 0 < timed.width := by norm_num [gas, timed]
  have hr : timed.repulsionRadius ≤ 1 := by norm_num [gas, timed]
  have hb : (1 : Fin 3).val + 1 < set2.bits := (by decide : (1 : Fin 3).val + 1 < 64)
  obtain ⟨steps, r, h⟩ := AdaptProgram.C98_exists (z := timed) he hw set2 hb (by decide) le_rfl (N := 1) (c := noon) two_div two hp hid
  have hpoly := AdaptProgram.C98_polytropic_partial (z := timed) rfl he hw set2 hb (by decide) le_rfl hr (fun _ => rfl) (Or.inl Kernels.Poly.wendlandC4) rfl rfl Nat.one_pos h rfl
    (fun a => by simp [two]) hid two_div rfl
  have ops : ∃ ops, firstForces timed noon.dt noon.iteration ++ [stepOp timed] = .update :: ops ∧ Op.update ∉ ops := by
    refine ⟨_, by unfold firstForces; rfl, ?_⟩
    simp [timed, gas, alphaOps, densityOp, forceOps, stepOp]
  obtain ⟨ops, ho, hno⟩ := ops
  have hnc : ∀ k, r ≠ .clash k := by
    rintro k rfl
    cases h with
    | clash h =>
      cases h with
      | firstClash hc h => rw [ho] at h; exact no_clash (.inr (by rw [← ho]; exact AdaptProgram.fit_first _ rfl _ _)) hno h
      | nextClash hc => exact hc rfl
    | cons _ h => cases h
  cases r with
  | clash k => exact absurd rfl (hnc k)
  | failed => exact absurd rfl hpoly.1
  | done c s =>
    have hR := (AdaptProgram.C98_refines (z := timed) he hw set2 hb (by decide) le_rfl h hp hid two_div).1 _ _ rfl
    obtain ⟨x, hx, h1⟩ : ∃ x, steps = [x] ∧ x.1.dt ≤ 9 / 20 * 1 := by
      cases hR with
      | cons h1 h2 =>
        cases h2
        refine ⟨_, rfl, ?_⟩
        obtain ⟨-, -, -, -, b6, -⟩ := iter_ticks (z := timed) (d := ⟨two, fun _ b => some (two b), []⟩) he hw (by norm_num [gas, timed]) le_rfl (home_mem two_div) hp (fun _ => le_rfl) h1
        rcases b6 with e | ⟨ls, hls, e⟩
        · dsimp only
          rw [e]; show (1 : ℝ) / 100 ≤ _; norm_num
        · dsimp only
          rw [e]; exact noon_short hls
    obtain ⟨-, k2, k3⟩ := C103_program_partial (z := timed) he hw (by norm_num [gas, timed]) le_rfl set2 hb (by decide) le_rfl (I := 1) (fun _ _ => rfl) (k := .screen)
      (by norm_num [timed]) le_rfl (by norm_num) (by norm_num) two_div hp hid (fun _ => le_rfl) h (by rw [hx]; simpa using h1) (by rw [hx]; simp)
    refine ⟨steps, c, s, h, k2, (k3 Nat.one_pos).1, ?_⟩
    rw [k2.time, hx]
    simpa using k2.positive x (by rw [hx]; simp)

/-- And that of the newtonian driver with self-gravity. -/
example : ∃ steps c s, NewtonProgram.Run set2 timed 1 noon two2 ⟨two, fun _ b => some (two b), []⟩ steps (.done c s) ∧ Punctual timed.outputs 1 0 steps c ∧ Limited timed s ∧ 0 < c.totaltime := by
  have hp : ∀ a, 0 < (two a).mass ∧ 0 < (two a).h := fun a => by simp [two]
  have hid : ∀ a b : Fin 2, (two a).id = (two b).id → a = b := fun a b h => Fin.ext h
  have he : 0 < timed.eta := by norm_num [gas, timed]
  have hw : 0 < timed.width := by norm_num [gas, timed]
  have hr : timed.repulsionRadius ≤ 1 := by norm_num [gas, timed]
  have hb : (1 : Fin 3).val + 1 < set2.bits := (by decide : (1 : Fin 3).val + 1 < 64)
  obtain ⟨steps, r, h⟩ := NewtonProgram.C102_exists (z := timed) he hw set2 hb (by decide) le_rfl (N := 1) (c := noon) two_div two hp hid
  have ops : ∃ ops, headOps timed noon = .update :: ops ∧ Op.update ∉ ops := by
    refine ⟨_, by unfold headOps; rw [if_pos (by rfl)]; rfl, ?_⟩
    simp [timed, gas, alphaOps, densityOp, accOps]
  obtain ⟨ops, ho, hno⟩ := ops
  have hnc : ∀ k, r ≠ .clash k := by
    rintro k rfl
    cases h with
    | clash h =>
      cases h with
      | clash h => rw [ho] at h; exact no_clash (.inr (by rw [← ho]; exact fit_head _ _)) hno h
    | cons _ h => cases h
  rcases NewtonProgram.C102_polytropic_partial (z := timed) he hw set2 hb (by decide) le_rfl rfl hr (fun _ => rfl) (Or.inl Kernels.Poly.wendlandC4) rfl rfl Nat.one_pos h rfl (fun a => by simp [two]) hid two_div rfl with
    ⟨k, hk⟩ | ⟨c, s, rfl, -, -⟩
  · exact absurd hk (hnc k)
  · have hR := NewtonProgram.C102_refines (z := timed) he hw set2 hb (by decide) le_rfl h hp hid two_div fun _ => by simp
    obtain ⟨x, hx, h1⟩ : ∃ x, steps = [x] ∧ x.1.dt ≤ 9 / 20 * 1 := by
      cases hR with
      | cons h1 h2 =>
        cases h2
        refine ⟨_, rfl, ?_⟩
        obtain ⟨-, -, -, -, -, b6, -⟩ := iter_newton (z := timed) (d := ⟨two, fun _ b => some (two b), []⟩) he hw (by norm_num [gas, timed]) le_rfl set2.toGravity hb (by decide) (home_mem two_div) hp hid (fun _ => le_rfl) h1
        rcases b6 with e | ⟨ls, hls, e⟩
        · dsimp only
          rw [e]; show (1 : ℝ) / 100 ≤ _; norm_num
        · dsimp only
          rw [e]; exact noon_short hls
    obtain ⟨-, k2, k3⟩ := C103_newton_program_partial (z := timed) he hw (by norm_num [gas, timed]) le_rfl set2 hb (by decide) le_rfl (I := 1) (fun _ _ => rfl) (k := .screen)
      (by norm_num [timed]) le_rfl (by norm_num) (by norm_num) two_div hp hid (fun _ => le_rfl) h (by rw [hx]; simpa using h1) (by rw [hx]; simp)
    refine ⟨steps, c, s, h, k2, (k3 Nat.one_pos).1, ?_⟩
    rw [k2.time, hx]
    simpa using k2.positive x (by rw [hx]; simp)

end FleCSPH.RunOutputs
