import Verif.Lemmas.Forces
/-! C39: the leapfrog is time reversible. C60: the clock is the time the particles have moved. -/
namespace FleCSPH
open Sph Spec Geometry Driver Integration

variable {i : Fin 3} {n d : Nat}

/-- One leapfrog step in a force field which depends on the positions: kick, drift, new accelerations, kick, in the order of
main_driver.cc:176-209. -/
noncomputable def leapfrog (force : (Fin n → Point d) → Fin n → Point d) (dt : ℝ) (s : Fin n → Particle d) : Fin n → Particle d :=
  let s := applyAll (drift dt) (applyAll saveVelocityhalf (applyAll (kickV dt) s))
  applyAll (kickV dt) fun a => { s a with acc := force (fun b => (s b).pos) a, gacc := 0 }

/-- A step with `dt` and one with `-dt` restore positions, velocities and accelerations, whatever the force field. -/
theorem C39_leapfrog (force : (Fin n → Point d) → Fin n → Point d) (dt : ℝ) (s : Fin n → Particle d)
    (hacc : ∀ a, (s a).acc + (s a).gacc = force (fun b => (s b).pos) a) (a : Fin n) :
    (leapfrog force (-dt) (leapfrog force dt s) a).pos = (s a).pos ∧ (leapfrog force (-dt) (leapfrog force dt s) a).vel = (s a).vel ∧
    (leapfrog force (-dt) (leapfrog force dt s) a).acc = (s a).acc + (s a).gacc := by
  set t := leapfrog force dt s with ht
  have tp : ∀ a, (t a).pos = (s a).pos + dt • ((s a).vel + (1 / 2 * dt) • ((s a).acc + (s a).gacc)) := fun a => rfl
  have ta : ∀ a, (t a).acc = force (fun b => (t b).pos) a := fun a => rfl
  have tg : ∀ a, (t a).gacc = 0 := fun a => rfl
  have tv : ∀ a, (t a).vel = (s a).vel + (1 / 2 * dt) • ((s a).acc + (s a).gacc) + (1 / 2 * dt) • ((t a).acc + 0) := fun a => rfl
  set r := leapfrog force (-dt) t with hr
  have rp : ∀ a, (r a).pos = (t a).pos + -dt • ((t a).vel + (1 / 2 * -dt) • ((t a).acc + (t a).gacc)) := fun a => rfl
  have ra : ∀ a, (r a).acc = force (fun b => (r b).pos) a := fun a => rfl
  have rv : ∀ a, (r a).vel = (t a).vel + (1 / 2 * -dt) • ((t a).acc + (t a).gacc) + (1 / 2 * -dt) • ((r a).acc + 0) := fun a => rfl
  have hp : ∀ a, (r a).pos = (s a).pos := by
    intro a
    rw [rp, tp, tv, tg]
    funext j
    simp only [Pi.add_apply, Pi.smul_apply, smul_eq_mul, Pi.zero_apply]
    ring
  have ha : ∀ a, (r a).acc = (s a).acc + (s a).gacc := by
    intro a
    rw [ra, hacc a]
    congr 1
    funext b
    exact hp b
  refine ⟨hp a, ?_, ha a⟩
  rw [rv, tv, tg, ha]
  funext j
  simp only [Pi.add_apply, Pi.smul_apply, smul_eq_mul, Pi.zero_apply]
  ring

/-- The energy kicks are undone by the kicks with `-dt`. -/
theorem C39_energy (dt : ℝ) (a : Particle d) : kickU (-dt) (kickU dt a) = a ∧ kickE (-dt) (kickE dt a) = a := by
  constructor
  · unfold kickU
    have : a.u + 1 / 2 * dt * a.dudt + 1 / 2 * -dt * a.dudt = a.u := by ring
    simp only [this]
  · unfold kickE
    have : a.e + 1 / 2 * dt * a.dedt + 1 / 2 * -dt * a.dedt = a.e := by ring
    simp only [this]

/-- The hydro driver itself: for an inviscid polytropic gas with fixed smoothing lengths, in an external force which depends on the position only,
an iteration with `dt` followed by an iteration with `-dt` restores the positions and velocities, whatever neighbour lists and orders the tree
delivers. (`st` is any state; after one iteration the accelerations belong to the positions.) -/
theorem C39_hydro (z : Config i) (ext : Point (i + 1) → Point (i + 1)) (hz : Inviscid z ext) (hh : z.hMode = .fixed) (had : z.adaptive = false)
    (w1 w2 w3 : Schedule i n) (hw1 : Faithful w1) (hw2 : Faithful w2) (hw3 : Faithful w3) (st st1 st2 st3 : State i n) (hpos : ∀ a, 0 < (st.parts a).h)
    (hit : z.sph.relaxationSteps ≤ st.clock.iteration) (hne : z.initialIteration < st.clock.iteration) (dt : ℝ) (h1 : iteration z w1 st = some st1)
    (h2 : iteration z w2 ⟨{ st1.clock with dt := dt }, st1.parts⟩ = some st2) (h3 : iteration z w3 ⟨{ st2.clock with dt := -dt }, st2.parts⟩ = some st3) (a : Fin n) :
    (st3.parts a).pos = (st1.parts a).pos ∧ (st3.parts a).vel = (st1.parts a).vel := by
  obtain ⟨i1, p1⟩ := iteration_inviscid z ext hz hh had w1 hw1 st st1 hpos hit (by omega) h1
  replace i1 : st1.clock.iteration = st.clock.iteration + 1 := by rw [i1]
  have hp1 : ∀ a, 0 < (st1.parts a).h := fun a => by rw [(p1 a).2.1]; exact hpos a
  obtain ⟨i2, p2⟩ := iteration_inviscid z ext hz hh had w2 hw2 ⟨{ st1.clock with dt := dt }, st1.parts⟩ st2 hp1 (by simp only; omega) (by simp only; omega) h2
  simp only at p2
  replace i2 : st2.clock.iteration = st1.clock.iteration + 1 := by rw [i2]
  have hp2 : ∀ a, 0 < (st2.parts a).h := fun a => by rw [(p2 a).2.1]; exact hp1 a
  obtain ⟨i3, p3⟩ := iteration_inviscid z ext hz hh had w3 hw3 ⟨{ st2.clock with dt := -dt }, st2.parts⟩ st3 hp2 (by simp only; omega) (by simp only; omega) h3
  simp only at p3
  have hp : ∀ a, (st3.parts a).pos = (st1.parts a).pos := by
    intro a
    rw [(p3 a).2.2.2.1, (p2 a).2.2.2.1, (p2 a).2.2.2.2.2.2.1, (p2 a).2.2.2.2.2.1, (p1 a).2.2.2.2.2.1]
    funext j
    simp only [Pi.add_apply, Pi.smul_apply, smul_eq_mul, Pi.zero_apply]
    ring
  refine ⟨hp a, ?_⟩
  have ha : (st3.parts a).acc = (st1.parts a).acc := by
    rw [(p3 a).2.2.2.2.1, (p1 a).2.2.2.2.1]
    congr 1
    funext b
    unfold site
    rw [hp b, (p3 b).1, (p2 b).1, (p3 b).2.1, (p2 b).2.1, (p3 b).2.2.1, (p2 b).2.2.1]
  rw [(p3 a).2.2.2.2.2.2.1, (p2 a).2.2.2.2.2.2.1, (p2 a).2.2.2.2.2.1, (p1 a).2.2.2.2.2.1, ha]
  funext j
  simp only [Pi.add_apply, Pi.smul_apply, smul_eq_mul, Pi.zero_apply]
  ring

/-- Two consecutive iterations of any run: the time shown in the second differs from the time shown in the first by the step over which the second has
moved the particles, with the velocity at half step, whatever the settings. -/
theorem C60_clock (z : Config i) (w1 w2 : Schedule i n) (hw : ∀ k, VisitsAll (w2.order k)) (st st1 st2 : State i n) (hfirst : z.initialIteration ≤ st.clock.iteration)
    (h1 : iteration z w1 st = some st1) (h2 : iteration z w2 st1 = some st2) (a : Fin n) :
    st1.clock.iteration = st.clock.iteration + 1 ∧
    ∃ vmid : Point (i + 1), (st2.parts a).pos = (st1.parts a).pos + (st1.clock.totaltime - st.clock.totaltime) • vmid ∧
      vmid = (st1.parts a).vel + (1 / 2 * (st1.clock.totaltime - st.clock.totaltime)) • ((st1.parts a).acc + (st1.parts a).gacc) ∧
      (st2.parts a).vel = vmid + (1 / 2 * (st1.clock.totaltime - st.clock.totaltime)) • ((st2.parts a).acc + (st2.parts a).gacc) := by
  have hsa : ∀ (o : Timestep.Outputs) (l : List (List ℝ)) (c : Timestep.Clock), (Timestep.setAdaptive o l c).totaltime = c.totaltime ∧
      (Timestep.setAdaptive o l c).totaltimeNext = c.totaltime + (Timestep.setAdaptive o l c).dt := by
    intro o l c
    have hb : ∀ k (c : Timestep.Clock), (Timestep.block o k c).totaltime = c.totaltime := by
      intro k c
      have h1 : (Timestep.catchUp o k c).totaltime = c.totaltime := by unfold Timestep.catchUp; split_ifs <;> rfl
      have h2 : ∀ c, (Timestep.align o k c).totaltime = c.totaltime := by intro c; unfold Timestep.align; split_ifs <;> rfl
      unfold Timestep.block
      split_ifs
      · exact (h2 _).trans h1
      · rfl
    have h0 : (Timestep.setAdaptive o l c).totaltime = c.totaltime := by
      unfold Timestep.setAdaptive
      exact (hb _ _).trans ((hb _ _).trans (hb _ _))
    refine ⟨h0, ?_⟩
    rw [← h0]
    unfold Timestep.setAdaptive
    ring
  have hstep : ∀ (st st' : State i n), adaptStep z st = some st' → st'.clock.iteration = st.clock.iteration ∧ st'.clock.totaltime = st.clock.totaltime := by
    intro st st' h
    refine ⟨adaptStep_iteration z st st' h, ?_⟩
    unfold adaptStep at h
    split_ifs at h
    · obtain ⟨s, _, rfl⟩ := Option.map_eq_some_iff.mp h
      exact (hsa _ _ _).1
    · obtain rfl := Option.some.inj h; rfl
  -- the clock
  have hc : st1.clock.iteration = st.clock.iteration + 1 ∧ st1.clock.totaltime = st.clock.totaltime + st1.clock.dt := by
    unfold iteration at h1
    obtain ⟨sa, k1, h1⟩ := Option.bind_eq_some_iff.mp h1
    obtain ⟨sb, k2, h1⟩ := Option.bind_eq_some_iff.mp h1
    obtain ⟨sc, k3, rfl⟩ := Option.map_eq_some_iff.mp h1
    have ka : sa.clock.iteration = st.clock.iteration ∧ sa.clock.totaltime = st.clock.totaltime := by
      split_ifs at k1
      · unfold firstBranch at k1
        obtain ⟨x1, l1, k1⟩ := Option.bind_eq_some_iff.mp k1
        obtain ⟨x2, l2, k1⟩ := Option.bind_eq_some_iff.mp k1
        obtain ⟨x3, l3, rfl⟩ := Option.map_eq_some_iff.mp k1
        exact hstep ⟨st.clock, forces z st.clock.iteration w1 x1⟩ x2 l2
      · unfold nextBranch at k1
        obtain ⟨x1, l1, k1⟩ := Option.bind_eq_some_iff.mp k1
        obtain ⟨x3, l3, rfl⟩ := Option.map_eq_some_iff.mp k1
        exact ⟨rfl, rfl⟩
    have kc := hstep ⟨sa.clock, sb⟩ sc k3
    refine ⟨?_, ?_⟩
    · show sc.clock.iteration + 1 = _
      rw [kc.1, ka.1]
    · show (if z.adaptive then sc.clock.totaltimeNext else sc.clock.totaltime + sc.clock.dt) = _ + sc.clock.dt
      unfold adaptStep at k3
      split_ifs at k3 ⊢ with had
      · obtain ⟨s, _, rfl⟩ := Option.map_eq_some_iff.mp k3
        rw [(hsa _ _ _).2, ka.2]
      · rw [kc.2, ka.2]
  refine ⟨hc.1, ?_⟩
  have hd : st1.clock.totaltime - st.clock.totaltime = st1.clock.dt := by rw [hc.2]; ring
  rw [hd]
  unfold iteration at h2
  rw [if_neg (by omega)] at h2
  obtain ⟨sa, k1, h2⟩ := Option.bind_eq_some_iff.mp h2
  obtain ⟨sb, k2, h2⟩ := Option.bind_eq_some_iff.mp h2
  obtain ⟨sc, k3, rfl⟩ := Option.map_eq_some_iff.mp h2
  have tail : (sc.parts a).pos = (sa.parts a).pos ∧ (sc.parts a).vel = (sa.parts a).vel ∧ (sc.parts a).acc = (sa.parts a).acc ∧ (sc.parts a).gacc = (sa.parts a).gacc := by
    obtain ⟨x, hx⟩ := adaptStep_keep z _ _ k3 a
    have e1 : sb = updateH z sa.parts := by
      unfold checkNegativity at k2
      split_ifs at k2
      exact (Option.some.inj k2).symm
    simp only at hx
    rw [hx, e1]
    unfold updateH
    cases z.hMode <;> exact ⟨rfl, rfl, rfl, rfl⟩
  unfold nextBranch at k1
  obtain ⟨x1, l1, k1⟩ := Option.bind_eq_some_iff.mp k1
  obtain ⟨x3, l3, rfl⟩ := Option.map_eq_some_iff.mp k1
  have kt := thermo_keep z _ _ w2 hw _ _ l1 a
  have kf := forces_keep z st1.clock.iteration w2 x1 a
  have ke := energy_keep z _ _ w2 _ _ l3 a
  have kk := kickEnergy_keep z st1.clock.dt x3 a
  have k0 := kickEnergy_keep z st1.clock.dt st1.parts a
  obtain ⟨x, y, g, kf⟩ := kf
  set dt := st1.clock.dt
  set s0 := kickEnergy z dt st1.parts with hs0
  have e0 : kickDrift z dt st1.parts = applyAll (drift dt) (applyAll saveVelocityhalf (applyAll (kickV dt) s0)) := rfl
  simp only [dynamics, motion, energetics, Prod.mk.injEq] at kt ke kk k0
  obtain ⟨⟨⟨⟨_, _, kt3, kt4, _⟩, _⟩, _⟩, _⟩ := kt
  obtain ⟨⟨⟨_, _, ke3, ke4, _⟩, _, ke6, ke7⟩, _⟩ := ke
  obtain ⟨⟨⟨_, _, kk3, kk4, _⟩, _, kk6, kk7⟩, _⟩ := kk
  obtain ⟨⟨⟨_, _, k03, k04, _⟩, _, k06, k07⟩, _⟩ := k0
  refine ⟨(kickDrift z dt st1.parts a).vel, ?_, ?_, ?_⟩
  · show (sc.parts a).pos = _
    rw [tail.1]
    show (kickEnergy z dt x3 a).pos = _
    rw [kk3, ke3]
    show (forces z st1.clock.iteration w2 x1 a).pos = _
    rw [kf]
    show (x1 a).pos = _
    rw [kt3, ← k03]
    rfl
  · rw [e0, ← k04, ← k06, ← k07]
    rfl
  · show (sc.parts a).vel = _ + _ • ((sc.parts a).acc + (sc.parts a).gacc)
    rw [tail.2.1, tail.2.2.1, tail.2.2.2]
    show (kickEnergy z dt x3 a).vel = _ + _ • ((kickEnergy z dt x3 a).acc + (kickEnergy z dt x3 a).gacc)
    rw [kk4, kk6, kk7, ke4, ke6, ke7]
    show (forces z st1.clock.iteration w2 x1 a).vel + _ • ((forces z st1.clock.iteration w2 x1 a).acc + (forces z st1.clock.iteration w2 x1 a).gacc) = _
    have : (forces z st1.clock.iteration w2 x1 a).vel = (kickDrift z dt st1.parts a).vel := by
      rw [kf]; exact kt4
    rw [this]
    rfl

/-! Non-vacuity: Props/RunExamples.lean. -/

end FleCSPH
