import Verif.Lemmas.Forces
import Verif.Model.Restart
/-! C61: a run restarted from its own snapshot continues the original run. -/
namespace FleCSPH
open Sph Spec Geometry Driver Integration

variable {i : Fin 3} {n : Nat}

/-- What two runs which agree have in common. -/
structure SameMotion (st r : State i n) : Prop where
  iteration : r.clock.iteration = st.clock.iteration
  time : r.clock.totaltime = st.clock.totaltime
  dt : r.clock.dt = st.clock.dt
  id : ∀ a, (r.parts a).id = (st.parts a).id
  mass : ∀ a, (r.parts a).mass = (st.parts a).mass
  pos : ∀ a, (r.parts a).pos = (st.parts a).pos
  vel : ∀ a, (r.parts a).vel = (st.parts a).vel
  acc : ∀ a, (r.parts a).acc + (r.parts a).gacc = (st.parts a).acc + (st.parts a).gacc

/-- Without adaptive time steps the snapshot of an iteration holds the particles at its end. -/
theorem snapshot_parts (z : Config i) (had : z.adaptive = false) (w : Schedule i n) (st out st1 : State i n) (hne : st.clock.iteration ≠ z.initialIteration)
    (hout : outputState z w st = some out) (h1 : iteration z w st = some st1) : out.clock = st.clock ∧ out.parts = st1.parts := by
  unfold outputState at hout
  rw [if_neg hne] at hout
  obtain ⟨sa, k1, rfl⟩ := Option.map_eq_some_iff.mp hout
  unfold iteration at h1
  rw [if_neg hne, k1, Option.bind_some] at h1
  obtain ⟨s1, h2, h⟩ := Option.bind_eq_some_iff.mp h1
  obtain ⟨st2, h3, rfl⟩ := Option.map_eq_some_iff.mp h
  have e1 : s1 = updateH z sa.parts := by
    unfold checkNegativity at h2
    split_ifs at h2
    exact (Option.some.inj h2).symm
  have e2 : st2 = ⟨sa.clock, s1⟩ := by
    unfold adaptStep at h3
    rw [if_neg (by simp [had])] at h3
    exact (Option.some.inj h3).symm
  refine ⟨?_, by rw [e2, e1]⟩
  unfold nextBranch at k1
  obtain ⟨x1, l1, k1⟩ := Option.bind_eq_some_iff.mp k1
  obtain ⟨x3, l3, rfl⟩ := Option.map_eq_some_iff.mp k1
  rfl

/-- An inviscid polytropic gas with fixed smoothing lengths and time step, past the relaxation phase, in an external force which depends on the
position only. A run writes a snapshot in some iteration after the first and goes on for any number of iterations; a second run starts from the
snapshot. Whatever neighbour lists and orders of visits the two trees deliver and whatever the parameters `initial_time` and `initial_dt`,
after as many iterations the particles of the second have the positions, velocities, masses and accelerations of the first, and time, iteration
and time step agree. -/
theorem C61_restart_partial (z : Config i) (ext : Point (i + 1) → Point (i + 1)) (hz : Inviscid z ext) (hh : z.hMode = .fixed) (had : z.adaptive = false)
    (w : Schedule i n) (ws vs : List (Schedule i n)) (v : Schedule i n) (hw : Faithful w) (hv : Faithful v) (hws : ∀ w ∈ ws, Faithful w)
    (hvs : ∀ w ∈ vs, Faithful w) (hlen : ws.length = vs.length) (initialTime initialDt : ℝ) (st out st' r' : State i n) (hpos : ∀ a, 0 < (st.parts a).h)
    (hit : z.sph.relaxationSteps ≤ st.clock.iteration) (hne : z.initialIteration < st.clock.iteration) (hout : outputState z w st = some out)
    (hrun : run z (w :: ws) st = some st')
    (hrestart : run { z with initialIteration := st.clock.iteration } (v :: vs)
      (load { z with initialIteration := st.clock.iteration } initialTime initialDt (save out)) = some r') :
    SameMotion st' r' := by
  set z' : Config i := { z with initialIteration := st.clock.iteration } with hz'
  have hzz : Inviscid z' ext := ⟨hz.kernel, hz.visc, hz.alpha, hz.beta, hz.eos, hz.evolve, hz.external⟩
  simp only [run, List.foldlM_cons, Option.bind_eq_bind] at hrun hrestart
  have hrestart' := hrestart
  clear hrestart
  obtain ⟨st1, h1, hrun⟩ := Option.bind_eq_some_iff.mp hrun
  obtain ⟨r1, g1, hrest⟩ := Option.bind_eq_some_iff.mp hrestart'
  clear hrestart'
  obtain ⟨c1, p1⟩ := iteration_inviscid z ext hz hh had w hw st st1 hpos hit (by omega) h1
  -- the snapshot
  have hsnap := snapshot_parts z had w st out st1 (by omega) hout h1
  set ld := load z' initialTime initialDt (save out) with hld
  have ldc : ld.clock.iteration = st.clock.iteration ∧ ld.clock.dt = st.clock.dt ∧ ld.clock.totaltime = st.clock.totaltime := by
    rw [hld, ← hsnap.1]; exact ⟨rfl, rfl, rfl⟩
  have ldp : ∀ a, (ld.parts a).id = (st1.parts a).id ∧ (ld.parts a).mass = (st1.parts a).mass ∧ (ld.parts a).h = (st1.parts a).h ∧ (ld.parts a).pos = (st1.parts a).pos ∧
      (ld.parts a).vel = (st1.parts a).vel ∧ (ld.parts a).rho = (st1.parts a).rho ∧ (ld.parts a).P = (st1.parts a).P := by
    intro a; rw [hld, ← hsnap.2]; exact ⟨rfl, rfl, rfl, rfl, rfl, rfl, rfl⟩
  have hpos1 : ∀ a, 0 < (st1.parts a).h := fun a => by rw [(p1 a).2.1]; exact hpos a
  obtain ⟨d1, q1⟩ := first_inviscid z' ext hzz hh had v hv ld r1 (fun a => by rw [(ldp a).2.2.1]; exact hpos1 a) (by rw [ldc.1]; exact hit) (by rw [ldc.1]) g1
  have hK : ∀ a, (r1.parts a).K = (st1.parts a).K := by
    intro a
    obtain ⟨_, _, _, _, _, _, _, hr, hP, _⟩ := p1 a
    rw [(q1 a).2.2.1, (ldp a).2.2.2.2.2.1, (ldp a).2.2.2.2.2.2, hP]
    exact mul_div_cancel_right₀ _ (Real.rpow_pos_of_pos hr _).ne'
  have hsite : ∀ a, site (r1.parts a) = site (st1.parts a) := by
    intro a
    unfold site
    rw [(q1 a).1, (ldp a).2.1, (q1 a).2.1, (ldp a).2.2.1, hK a, (q1 a).2.2.2.1, (ldp a).2.2.2.1]
  have hacc : ∀ a, (r1.parts a).acc = (st1.parts a).acc := by
    intro a
    rw [(q1 a).2.2.2.2.1, (p1 a).2.2.2.2.1]
    show accField z ext _ a = _
    congr 1
    funext b; exact hsite b
  -- the runs that follow
  have gen : ∀ (ws vs : List (Schedule i n)), ws.length = vs.length → (∀ w ∈ ws, Faithful w) → (∀ w ∈ vs, Faithful w) → ∀ s r s' r' : State i n,
      SameMotion s r → (∀ a, (r.parts a).h = (s.parts a).h) → (∀ a, (r.parts a).K = (s.parts a).K) → (∀ a, 0 < (s.parts a).h) → st.clock.iteration < s.clock.iteration →
      ws.foldlM (fun st w => iteration z w st) s = some s' → vs.foldlM (fun st w => iteration z' w st) r = some r' → SameMotion s' r' := by
    intro ws
    induction ws with
    | nil =>
      intro vs hl _ _ s r s' r' hs _ _ _ _ h1 h2
      obtain rfl : vs = [] := List.length_eq_zero_iff.mp hl.symm
      simp only [List.foldlM_nil, Option.pure_def, Option.some.injEq] at h1 h2
      subst h1; subst h2; exact hs
    | cons w ws ih =>
      intro vs hl hw hv s r s' r' hs e1 e2 hp hi h1 h2
      obtain ⟨v, vs, rfl⟩ : ∃ v l, vs = v :: l := by cases vs with
        | nil => simp at hl
        | cons v l => exact ⟨v, l, rfl⟩
      simp only [List.foldlM_cons, Option.bind_eq_bind] at h1 h2
      obtain ⟨s1, k1, h1⟩ := Option.bind_eq_some_iff.mp h1
      obtain ⟨t1, k2, h2⟩ := Option.bind_eq_some_iff.mp h2
      obtain ⟨c, p⟩ := iteration_inviscid z ext hz hh had w (hw w List.mem_cons_self) s s1 hp (by omega) (by omega) k1
      obtain ⟨d, q⟩ := iteration_inviscid z' ext hzz hh had v (hv v List.mem_cons_self) r t1 (fun a => by rw [e1]; exact hp a)
        (by rw [hs.iteration]; show z.sph.relaxationSteps ≤ _; omega) (by rw [hs.iteration]; show _ ≠ st.clock.iteration; omega) k2
      have hps : ∀ a, (t1.parts a).pos = (s1.parts a).pos := fun a => by
        rw [(p a).2.2.2.1, (q a).2.2.2.1, hs.pos, hs.vel, hs.acc, hs.dt]
      have hst : ∀ a, site (t1.parts a) = site (s1.parts a) := fun a => by
        unfold site
        rw [(p a).1, (q a).1, hs.mass, (p a).2.1, (q a).2.1, e1, (p a).2.2.1, (q a).2.2.1, e2, hps a]
      have hac : ∀ a, (t1.parts a).acc = (s1.parts a).acc := fun a => by
        rw [(p a).2.2.2.2.1, (q a).2.2.2.2.1]
        show accField z ext _ a = _
        congr 1
        funext b; exact hst b
      refine ih vs (by simpa using hl) (fun x hx => hw x (List.mem_cons_of_mem _ hx)) (fun x hx => hv x (List.mem_cons_of_mem _ hx)) s1 t1 s' r'
        ⟨?_, ?_, ?_, fun a => ?_, fun a => ?_, hps, fun a => ?_, fun a => ?_⟩ (fun a => ?_) (fun a => ?_) (fun a => ?_) ?_ h1 h2
      · rw [c, d]; simp only [hs.iteration]
      · rw [c, d]; simp only [hs.time, hs.dt]
      · rw [c, d]; exact hs.dt
      · rw [(p a).2.2.2.2.2.2.2.2.2, (q a).2.2.2.2.2.2.2.2.2, hs.id]
      · rw [(p a).1, (q a).1, hs.mass]
      · rw [(p a).2.2.2.2.2.2.1, (q a).2.2.2.2.2.2.1, hs.vel, hs.acc, hs.dt, hac]
      · rw [hac a, (p a).2.2.2.2.2.1, (q a).2.2.2.2.2.1]
      · rw [(p a).2.1, (q a).2.1, e1]
      · rw [(p a).2.2.1, (q a).2.2.1, e2]
      · rw [(p a).2.1]; exact hp a
      · rw [c]; show _ < s.clock.iteration + 1; omega
  refine gen ws vs hlen hws hvs st1 r1 st' r' ⟨?_, ?_, ?_, fun a => ?_, fun a => ?_, fun a => ?_, fun a => ?_, fun a => ?_⟩ (fun a => ?_) hK hpos1 ?_ hrun hrest
  · rw [c1, d1]; simp only [ldc.1]
  · rw [c1, d1]; simp only [ldc.2.2, ldc.2.1]
  · rw [c1, d1]; exact ldc.2.1
  · rw [(q1 a).2.2.2.2.2.2.2, (ldp a).1]
  · rw [(q1 a).1, (ldp a).2.1]
  · rw [(q1 a).2.2.2.1, (ldp a).2.2.2.1]
  · rw [(q1 a).2.2.2.2.2.2.1, (ldp a).2.2.2.2.1]
  · rw [hacc a, (q1 a).2.2.2.2.2.1, (p1 a).2.2.2.2.2.1]
  · rw [(q1 a).2.1, (ldp a).2.2.1]
  · rw [c1]; show _ < st.clock.iteration + 1; omega

/-- The full claim fails: with adaptive time steps, screen output at intervals of time and `initial_time` left at 0, the first iteration
after a restart from a snapshot of positive time sets the clock back. -/
theorem C61_violated (z : Config i) (had : z.adaptive = true) (hscreen : 0 < z.outputs.interval .screen) (initialDt : ℝ) (f : Snapshot i n) (hT : 0 < f.time)
    (hi : z.initialIteration = f.iteration) (w : Schedule i n) (st' : State i n) (h : iteration z w (load z 0 initialDt f) = some st') :
    st'.clock.totaltime < f.time := by
  have ht : ((load z 0 initialDt f).clock.t .screen) = 0 := by
    show (if z.outputs.interval .screen > 0 then _ else _) = _
    rw [if_pos hscreen]
    simp [Timestep.truncate]
  -- the later blocks can only lower the time aimed at
  have hother : ∀ k (c : Timestep.Clock), k ≠ .screen → (Timestep.block z.outputs k c).totaltime = c.totaltime ∧
      (Timestep.block z.outputs k c).totaltimeNext ≤ c.totaltimeNext ∧ (Timestep.block z.outputs k c).t .screen = c.t .screen := by
    intro k c hk
    have h1 : (Timestep.catchUp z.outputs k c).totaltime = c.totaltime ∧ (Timestep.catchUp z.outputs k c).totaltimeNext = c.totaltimeNext ∧
        (Timestep.catchUp z.outputs k c).t .screen = c.t .screen := by
      unfold Timestep.catchUp; split
      · exact ⟨rfl, rfl, Function.update_of_ne hk.symm _ _⟩
      · exact ⟨rfl, rfl, rfl⟩
    have h2 : ∀ c, (Timestep.align z.outputs k c).totaltime = c.totaltime ∧ (Timestep.align z.outputs k c).totaltimeNext ≤ c.totaltimeNext ∧
        (Timestep.align z.outputs k c).t .screen = c.t .screen := by
      intro c
      unfold Timestep.align; split
      · exact ⟨rfl, by simp only [if_neg hk]; exact min_le_left _ _, rfl⟩
      · exact ⟨rfl, le_rfl, rfl⟩
    unfold Timestep.block
    split_ifs
    · have := h2 (Timestep.catchUp z.outputs k c)
      exact ⟨this.1.trans h1.1, this.2.1.trans h1.2.1.le, this.2.2.trans h1.2.2⟩
    · exact ⟨rfl, le_rfl, rfl⟩
  -- one call of set_adaptive_timestep
  have call : ∀ (l : List (List ℝ)) (c : Timestep.Clock), c.totaltime = f.time → c.t .screen = 0 →
      (Timestep.setAdaptive z.outputs l c).totaltime = f.time ∧ (Timestep.setAdaptive z.outputs l c).t .screen = 0 ∧
      (Timestep.setAdaptive z.outputs l c).totaltimeNext < f.time ∧ (Timestep.setAdaptive z.outputs l c).dt < 0 := by
    intro l c hc1 hc2
    set dt := Timestep.adapt (Timestep.smallest l) c.dt with hdt'
    set c0 : Timestep.Clock := { c with dt := dt, totaltimeNext := c.totaltime + dt } with hc0
    have hb : (Timestep.block z.outputs .screen c0).totaltime = f.time ∧ (Timestep.block z.outputs .screen c0).t .screen = 0 ∧
        (Timestep.block z.outputs .screen c0).totaltimeNext < f.time := by
      unfold Timestep.block
      rw [if_pos hscreen]
      have hcu : Timestep.catchUp z.outputs .screen c0 = c0 := by
        unfold Timestep.catchUp
        rw [if_neg]
        show ¬ c.totaltime = c.t .screen
        rw [hc1, hc2]; exact hT.ne'
      rw [hcu]
      unfold Timestep.align
      split
      · exact ⟨hc1, hc2, by simp only [if_true]; show c.t .screen < _; rw [hc2]; exact hT⟩
      · rename_i hal
        refine ⟨hc1, hc2, ?_⟩
        show c.totaltime + dt < f.time
        by_contra hge
        apply hal
        show c.totaltime + dt > c.t .screen - _
        rw [hc1] at hge
        rw [hc1, hc2]
        linarith
    have h1 := hother .scalar (Timestep.block z.outputs .screen c0) (by decide)
    have h2 := hother .h5 (Timestep.block z.outputs .scalar (Timestep.block z.outputs .screen c0)) (by decide)
    have hn : (Timestep.setAdaptive z.outputs l c).totaltimeNext < f.time := lt_of_le_of_lt (h2.2.1.trans h1.2.1) hb.2.2
    have htt : (Timestep.setAdaptive z.outputs l c).totaltime = f.time := h2.1.trans (h1.1.trans hb.1)
    refine ⟨htt, h2.2.2.trans (h1.2.2.trans hb.2.1), hn, ?_⟩
    show (Timestep.block z.outputs .h5 (Timestep.block z.outputs .scalar (Timestep.block z.outputs .screen c0))).totaltimeNext - _ < 0
    have htt' : (Timestep.block z.outputs .h5 (Timestep.block z.outputs .scalar (Timestep.block z.outputs .screen c0))).totaltime = f.time := htt
    rw [htt']
    have hn' : (Timestep.block z.outputs .h5 (Timestep.block z.outputs .scalar (Timestep.block z.outputs .screen c0))).totaltimeNext < f.time := hn
    linarith
  unfold iteration at h
  rw [if_pos (show (load z 0 initialDt f).clock.iteration = z.initialIteration from hi.symm)] at h
  obtain ⟨sa, k1, h⟩ := Option.bind_eq_some_iff.mp h
  obtain ⟨sb, k2, h⟩ := Option.bind_eq_some_iff.mp h
  obtain ⟨sc, k3, rfl⟩ := Option.map_eq_some_iff.mp h
  unfold firstBranch at k1
  obtain ⟨x1, l1, k1⟩ := Option.bind_eq_some_iff.mp k1
  obtain ⟨x2, l2, k1⟩ := Option.bind_eq_some_iff.mp k1
  obtain ⟨x3, l3, rfl⟩ := Option.map_eq_some_iff.mp k1
  unfold adaptStep at l2 k3
  rw [if_pos had] at l2 k3
  obtain ⟨y1, _, rfl⟩ := Option.map_eq_some_iff.mp l2
  obtain ⟨y2, _, rfl⟩ := Option.map_eq_some_iff.mp k3
  have a1 := call [List.ofFn fun a => (y1 a).dt] (load z 0 initialDt f).clock rfl ht
  have a2 := call [List.ofFn fun a => (y2 a).dt] _ a1.1 a1.2.1
  show (Timestep.advance z.adaptive _).totaltime < _
  rw [had]
  exact a2.2.2.1

/-! Non-vacuity: Props/RunExamples.lean. -/

end FleCSPH
