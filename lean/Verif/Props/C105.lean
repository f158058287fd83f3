import Verif.Lemmas.AlphaFit
import Verif.Props.C79
import Verif.Props.C97
/-!
C105: the conservation laws with the time-dependent viscosity, on any number of processes.

With the time-dependent viscosity the result depends on the division of the particles among the processes (`C70_violated`): a process reads sound speeds of the neighbours which may be old. Proved, in exact
arithmetic and with no assumption on the viscosity: whatever the processes see, every run of the hydro driver which ends conserves particles, masses, momentum and angular momentum (without external force)
and, in the thermokinetic formulation, the total energy, with a fixed and with an adaptive time step, from given divisions and neighbour lists and with the trees, which can always be built.

Missing for the full property: periodic boundaries, self-gravity, rounding.
-/
namespace FleCSPH.DistConserve
open FleCSPH.Geometry FleCSPH.Sph FleCSPH.Driver FleCSPH.DistRun FleCSPH.AdaptRun FleCSPH.Program FleCSPH.AlphaFit FleCSPH.Newtonian FleCSPH.Spec FleCSPH.Kernels FleCSPH.Integration

variable {i : Fin 3} {n m : Nat} {procs : Nat} {home : Fin n → Nat} {d : DState (Particle (i + 1)) n}

/-- The energy of the particles at the start of a run. -/
theorem initialEnergy_eq (z : Config i) (s : Fin n → Particle (i + 1)) :
    initialEnergy z s = ∑ a, (s a).mass * (1 / 2 * ∑ j, (s a).vel j * (s a).vel j + (Eos.init z.eos z.eosParams (s a)).u + z.phi (s a).pos) := rfl

section
variable {z : Config i} (he : 0 < z.eta) (hw : 0 < z.width) (hrelax : z.sph.relaxationSteps ≤ z.initialIteration)
include he hw hrelax

/-- One iteration with a fixed step. -/
private theorem fixed_iter {c : Timestep.Clock} (hs : ∀ a, Sized (d.val a)) (hc : z.initialIteration ≤ c.iteration) {x : (Fin n → Nat) × DState (Particle (i + 1)) n}
    (h : DExec NearLists procs (iterationOps z c) home d (some x)) :
    (∀ a, Sized (x.2.val a)) ∧
    ((∀ a, z.sph.external a = 0) → (c.iteration ≠ z.initialIteration → Balanced d.val) → Balanced x.2.val ∧ Conserves d.val x.2.val) ∧
    (z.thermokinetic = true → z.evolve = true → 1 ≤ z.updates → (c.iteration ≠ z.initialIteration → ∑ a, (d.val a).mass * (d.val a).dedt = 0) →
      ∑ a, (x.2.val a).mass * (x.2.val a).dedt = 0 ∧ energyTotal x.2.val = if c.iteration = z.initialIteration then initialEnergy z d.val else energyTotal d.val) := by
  unfold iterationOps at h
  split_ifs at h with h0
  · rw [firstOps_eq] at h
    obtain ⟨y, h1, h2⟩ := exec_split h
    rw [← List.append_nil (firstForces _ _ _)] at h1
    rw [← List.append_nil (firstRest _ _ _)] at h2
    obtain ⟨k1, k2, k3⟩ := first_iter he hw (hrelax.trans hc) (Or.inl rfl) (Or.inl rfl) hs h1 h2
    rw [if_pos h0]
    exact ⟨k1, fun hext _ => k2 hext, fun a b c _ => k3 a b c⟩
  · rw [← List.append_nil (_ ++ _)] at h
    obtain ⟨k1, k2, k3⟩ := next_iter he hw (hrelax.trans hc) (Or.inl rfl) hs h
    rw [if_neg h0]
    exact ⟨k1, fun hext hb => k2 hext (hb h0), fun a b c hb => k3 a b c (hb h0)⟩

/-- One iteration with an adaptive step. -/
private theorem adaptive_iter {c c1 c2 : Timestep.Clock} {home' : Fin n → Nat} {d' : DState (Particle (i + 1)) n} (hs : ∀ a, Sized (d.val a)) (hc : z.initialIteration ≤ c.iteration)
    (h : AIter NearLists procs z c home d (some (c1, c2, home', d'))) :
    c2.iteration = c.iteration + 1 ∧ (∀ a, Sized (d'.val a)) ∧
    ((∀ a, z.sph.external a = 0) → (c.iteration ≠ z.initialIteration → Balanced d.val) → Balanced d'.val ∧ Conserves d.val d'.val) ∧
    (z.thermokinetic = true → z.evolve = true → 1 ≤ z.updates → (c.iteration ≠ z.initialIteration → ∑ a, (d.val a).mass * (d.val a).dedt = 0) →
      ∑ a, (d'.val a).mass * (d'.val a).dedt = 0 ∧ energyTotal d'.val = if c.iteration = z.initialIteration then initialEnergy z d.val else energyTotal d.val) := by
  cases h with
  | first h0 h1 hc1 h2 =>
    have e : c1.iteration = c.iteration := by rw [hc1]; exact AdaptRun.setAdaptive_iteration _ _ _
    rw [e] at h2
    obtain ⟨k1, k2, k3⟩ := first_iter he hw (hrelax.trans hc) (Or.inr rfl) (Or.inr rfl) hs h1 h2
    rw [if_pos h0]
    refine ⟨?_, k1, fun hext _ => k2 hext, fun a b c _ => k3 a b c⟩
    rw [← e]
    exact congrArg (· + 1) (AdaptRun.setAdaptive_iteration z.outputs (limits procs home' d'.val) c1)
  | next h0 h =>
    obtain ⟨k1, k2, k3⟩ := next_iter he hw (hrelax.trans hc) (Or.inr rfl) hs h
    rw [if_neg h0]
    exact ⟨congrArg (· + 1) (AdaptRun.setAdaptive_iteration z.outputs (limits procs home' d'.val) c), k1, fun hext hb => k2 hext (hb h0), fun a b c hb => k3 a b c (hb h0)⟩

/-- Fixed step: a run which ends keeps the particles, their masses, the total momentum and the total angular momentum, for either viscosity. -/
theorem C105_fixed_momentum_partial (hext : ∀ a, z.sph.external a = 0) {N : Nat} {c : Timestep.Clock} (hstart : c.iteration = z.initialIteration) (hpos : ∀ a, 0 < (d.val a).mass ∧ 0 < (d.val a).h)
    {x : Timestep.Clock × (Fin n → Particle (i + 1))} (h : DRun NearLists procs z N c home d (some x)) :
    (∀ a, (x.2 a).id = (d.val a).id ∧ (x.2 a).mass = (d.val a).mass) ∧
    (∀ j, ∑ a, (x.2 a).mass * (x.2 a).vel j = ∑ a, (d.val a).mass * (d.val a).vel j) ∧
    ∀ j k, ∑ a, (x.2 a).mass * ((x.2 a).pos j * (x.2 a).vel k - (x.2 a).pos k * (x.2 a).vel j) =
      ∑ a, (d.val a).mass * ((d.val a).pos j * (d.val a).vel k - (d.val a).pos k * (d.val a).vel j) := by
  have gen : ∀ {N : Nat} {c : Timestep.Clock} {home : Fin n → Nat} {d : DState (Particle (i + 1)) n} {r : Option (Timestep.Clock × (Fin n → Particle (i + 1)))}, DRun NearLists procs z N c home d r →
      (∀ a, Sized (d.val a)) → z.initialIteration ≤ c.iteration → (c.iteration ≠ z.initialIteration → Balanced d.val) → ∀ x, r = some x → Conserves d.val x.2 := by
    intro N c home d r h
    induction h with
    | nil => intro _ _ _ x h; obtain rfl := Option.some.inj h; exact .of_dyn fun _ => rfl
    | fail => intro _ _ _ x h; cases h
    | cons h1 _ ih =>
      intro a1 a2 a3 x hx
      obtain ⟨b1, b2, -⟩ := fixed_iter he hw hrelax a1 a2 h1
      exact (b2 hext a3).2.trans (ih b1 (le_trans a2 (by show _ ≤ _ + 1; omega)) (fun _ => (b2 hext a3).1) x hx)
  have := gen h hpos hstart.symm.le (fun h => absurd hstart h) x rfl
  exact ⟨this.particles, this.momentum, this.angular⟩

/-- Fixed step: in the thermokinetic formulation a run which ends has the energy of the particles it began with. -/
theorem C105_fixed_energy_partial (htk : z.thermokinetic = true) (hev : z.evolve = true) (hup : 1 ≤ z.updates) {N : Nat} (hN : 0 < N) {c : Timestep.Clock} (hstart : c.iteration = z.initialIteration)
    (hpos : ∀ a, 0 < (d.val a).mass ∧ 0 < (d.val a).h) {x : Timestep.Clock × (Fin n → Particle (i + 1))} (h : DRun NearLists procs z N c home d (some x)) :
    ∑ a, (x.2 a).mass * (x.2 a).e =
      ∑ a, (d.val a).mass * (1 / 2 * ∑ j, (d.val a).vel j * (d.val a).vel j + (Eos.init z.eos z.eosParams (d.val a)).u + z.phi (d.val a).pos) := by
  have gen : ∀ {N : Nat} {c : Timestep.Clock} {home : Fin n → Nat} {d : DState (Particle (i + 1)) n} {r : Option (Timestep.Clock × (Fin n → Particle (i + 1)))}, DRun NearLists procs z N c home d r →
      (∀ a, Sized (d.val a)) → z.initialIteration < c.iteration → ∑ a, (d.val a).mass * (d.val a).dedt = 0 → ∀ x, r = some x → energyTotal x.2 = energyTotal d.val := by
    intro N c home d r h
    induction h with
    | nil => intro _ _ _ x h; obtain rfl := Option.some.inj h; rfl
    | fail => intro _ _ _ x h; cases h
    | cons h1 _ ih =>
      intro a1 a2 a3 x hx
      obtain ⟨b1, -, b2⟩ := fixed_iter he hw hrelax a1 a2.le h1
      obtain ⟨b3, b4⟩ := b2 htk hev hup fun _ => a3
      rw [if_neg (by omega)] at b4
      rw [ih b1 (lt_trans a2 (by show _ < _ + 1; omega)) b3 x hx]
      exact b4
  cases h with
  | nil => omega
  | cons h1 h2 =>
    obtain ⟨b1, -, b2⟩ := fixed_iter he hw hrelax hpos hstart.symm.le h1
    obtain ⟨b3, b4⟩ := b2 htk hev hup fun h => absurd hstart h
    rw [if_pos hstart] at b4
    exact (gen h2 b1 (by show _ < _ + 1; omega) b3 x rfl).trans b4

/-- Adaptive step: the same, whatever the steps. -/
theorem C105_adaptive_momentum_partial (hext : ∀ a, z.sph.external a = 0) {N : Nat} {c : Timestep.Clock} (hstart : c.iteration = z.initialIteration) (hpos : ∀ a, 0 < (d.val a).mass ∧ 0 < (d.val a).h)
    {steps : List (Timestep.Clock × Timestep.Clock)} {x : Timestep.Clock × (Fin n → Particle (i + 1))} (h : ARun NearLists procs z N c home d steps (some x)) :
    (∀ a, (x.2 a).id = (d.val a).id ∧ (x.2 a).mass = (d.val a).mass) ∧
    (∀ j, ∑ a, (x.2 a).mass * (x.2 a).vel j = ∑ a, (d.val a).mass * (d.val a).vel j) ∧
    ∀ j k, ∑ a, (x.2 a).mass * ((x.2 a).pos j * (x.2 a).vel k - (x.2 a).pos k * (x.2 a).vel j) =
      ∑ a, (d.val a).mass * ((d.val a).pos j * (d.val a).vel k - (d.val a).pos k * (d.val a).vel j) := by
  have gen : ∀ {N : Nat} {c : Timestep.Clock} {home : Fin n → Nat} {d : DState (Particle (i + 1)) n} {steps : List (Timestep.Clock × Timestep.Clock)} {r : Option (Timestep.Clock × (Fin n → Particle (i + 1)))},
      ARun NearLists procs z N c home d steps r →
      (∀ a, Sized (d.val a)) → z.initialIteration ≤ c.iteration → (c.iteration ≠ z.initialIteration → Balanced d.val) → ∀ x, r = some x → Conserves d.val x.2 := by
    intro N c home d steps r h
    induction h with
    | nil => intro _ _ _ x h; obtain rfl := Option.some.inj h; exact .of_dyn fun _ => rfl
    | fail => intro _ _ _ x h; cases h
    | cons h1 _ ih =>
      intro a1 a2 a3 x hx
      obtain ⟨b0, b1, b2, -⟩ := adaptive_iter he hw hrelax a1 a2 h1
      exact (b2 hext a3).2.trans (ih b1 (by omega) (fun _ => (b2 hext a3).1) x hx)
  have := gen h hpos hstart.symm.le (fun h => absurd hstart h) x rfl
  exact ⟨this.particles, this.momentum, this.angular⟩

theorem C105_adaptive_energy_partial (htk : z.thermokinetic = true) (hev : z.evolve = true) (hup : 1 ≤ z.updates) {N : Nat} (hN : 0 < N) {c : Timestep.Clock} (hstart : c.iteration = z.initialIteration)
    (hpos : ∀ a, 0 < (d.val a).mass ∧ 0 < (d.val a).h) {steps : List (Timestep.Clock × Timestep.Clock)} {x : Timestep.Clock × (Fin n → Particle (i + 1))} (h : ARun NearLists procs z N c home d steps (some x)) :
    ∑ a, (x.2 a).mass * (x.2 a).e =
      ∑ a, (d.val a).mass * (1 / 2 * ∑ j, (d.val a).vel j * (d.val a).vel j + (Eos.init z.eos z.eosParams (d.val a)).u + z.phi (d.val a).pos) := by
  have gen : ∀ {N : Nat} {c : Timestep.Clock} {home : Fin n → Nat} {d : DState (Particle (i + 1)) n} {steps : List (Timestep.Clock × Timestep.Clock)} {r : Option (Timestep.Clock × (Fin n → Particle (i + 1)))},
      ARun NearLists procs z N c home d steps r →
      (∀ a, Sized (d.val a)) → z.initialIteration < c.iteration → ∑ a, (d.val a).mass * (d.val a).dedt = 0 → ∀ x, r = some x → energyTotal x.2 = energyTotal d.val := by
    intro N c home d steps r h
    induction h with
    | nil => intro _ _ _ x h; obtain rfl := Option.some.inj h; rfl
    | fail => intro _ _ _ x h; cases h
    | cons h1 _ ih =>
      intro a1 a2 a3 x hx
      obtain ⟨b0, b1, -, b2⟩ := adaptive_iter he hw hrelax a1 a2.le h1
      obtain ⟨b3, b4⟩ := b2 htk hev hup fun _ => a3
      rw [if_neg (by omega)] at b4
      rw [ih b1 (by omega) b3 x hx]
      exact b4
  cases h with
  | nil => omega
  | cons h1 h2 =>
    obtain ⟨b0, b1, -, b2⟩ := adaptive_iter he hw hrelax hpos hstart.symm.le h1
    obtain ⟨b3, b4⟩ := b2 htk hev hup fun h => absurd hstart h
    rw [if_pos hstart] at b4
    exact (gen h2 b1 (by omega) b3 x rfl).trans b4

end

/-! ### With the trees -/

section
variable {z : Config i} (he : 0 < z.eta) (hw : 0 < z.width) (g : Settings) (hbits : i.val + 1 < g.bits) (hn : 2 ≤ n) (htol : 0 ≤ g.tol)
include he hw hbits hn htol

/-- With the trees, a run of the hydro driver with a fixed step is one of the runs above, for either viscosity. -/
theorem C105_fixed_refines {N : Nat} {c : Timestep.Clock} {T : Trees i n m} {d : DState (Particle (i + 1)) n} {r : Outcome i n} (h : Hydro g z N c T d r)
    (hpos : ∀ a, 0 < (d.val a).mass ∧ 0 < (d.val a).h) (hid : ∀ a b, (d.val a).id = (d.val b).id → a = b) (hdiv : Division n (2 ^ m) T.vec) :
    (∀ c' s, r = .done c' s → DRun NearLists (2 ^ m) z N c (homeOf T.vec) d (some (c', s))) ∧ (r = .failed → DRun NearLists (2 ^ m) z N c (homeOf T.vec) d none) := by
  change ∀ a, Sized (d.val a) at hpos
  change Distinct d.val at hid
  induction h with
  | nil => exact ⟨fun c' s h => by cases h; exact .nil, fun h => by cases h⟩
  | @fail N c T d hx => exact ⟨fun c' s h => (by cases h), fun _ => .fail (sim hbits hn htol hx (fit_fixed z he hw c) hpos hid hdiv (fun h => Bool.noConfusion h))⟩
  | clash hx => exact ⟨fun c' s h => (by cases h), fun h => (by cases h)⟩
  | @cons N c T T1 d d1 r hx _ ih =>
    obtain ⟨s1, s2, s3, -, s5⟩ := sim hbits hn htol hx (fit_fixed z he hw c) hpos hid hdiv (fun h => Bool.noConfusion h)
    have := ih s3 s2 (hid.of_ids s5)
    exact ⟨fun c' s h => .cons s1 (this.1 c' s h), fun h => .cons s1 (this.2 h)⟩

/-- With the trees, one iteration with an adaptive step is one of the iterations above. -/
private theorem iter_sim {c : Timestep.Clock} {T : Trees i n m} {d : DState (Particle (i + 1)) n} {r : AdaptProgram.IterEnd i n m} (h : AdaptProgram.Iter g z c T d r) (hs : ∀ a, Sized (d.val a)) (hid : Distinct d.val)
    (hdiv : Division n (2 ^ m) T.vec) :
    (∀ c1 c2 T' d', r = .ok c1 c2 T' d' → AIter NearLists (2 ^ m) z c (homeOf T.vec) d (some (c1, c2, homeOf T'.vec, d')) ∧ (∀ a, Sized (d'.val a)) ∧ Division n (2 ^ m) T'.vec ∧ Distinct d'.val) ∧
    (r = .failed → AIter NearLists (2 ^ m) z c (homeOf T.vec) d none) := by
  cases h with
  | first hc h1 hc1 h2 =>
    obtain ⟨s1, s2, s3, s4, s5⟩ := sim hbits hn htol h1 (fit_adapt1 z _ _) hs hid hdiv (fun h => Bool.noConfusion h)
    obtain ⟨u1, u2, u3, -, u5⟩ := sim hbits hn htol h2 (fit_adapt2 z he hw _ _) s2 (hid.of_ids s5) s3 s4
    refine ⟨fun _ _ _ _ e => ?_, fun e => (by cases e)⟩
    cases e
    rw [AdaptProgram.limits_eq z.outputs s3] at hc1
    rw [AdaptProgram.limits_eq z.outputs u3]
    exact ⟨.first hc s1 hc1 u1, u2, u3, (hid.of_ids s5).of_ids u5⟩
  | firstFail hc h1 => exact ⟨fun _ _ _ _ e => (by cases e), fun _ => .firstFail hc (sim hbits hn htol h1 (fit_adapt1 z _ _) hs hid hdiv (fun h => Bool.noConfusion h))⟩
  | firstClash hc h1 => exact ⟨fun _ _ _ _ e => (by cases e), fun e => (by cases e)⟩
  | restFail hc h1 hc1 h2 =>
    obtain ⟨s1, s2, s3, s4, s5⟩ := sim hbits hn htol h1 (fit_adapt1 z _ _) hs hid hdiv (fun h => Bool.noConfusion h)
    refine ⟨fun _ _ _ _ e => (by cases e), fun _ => ?_⟩
    rw [AdaptProgram.limits_eq z.outputs s3] at hc1
    exact .restFail hc s1 hc1 (sim hbits hn htol h2 (fit_adapt2 z he hw _ _) s2 (hid.of_ids s5) s3 s4)
  | next hc h1 =>
    obtain ⟨s1, s2, s3, -, s5⟩ := sim hbits hn htol h1 (fit_adapt3 z he hw _ _) hs hid hdiv (fun h => Bool.noConfusion h)
    refine ⟨fun _ _ _ _ e => ?_, fun e => (by cases e)⟩
    cases e
    rw [AdaptProgram.limits_eq z.outputs s3]
    exact ⟨.next hc s1, s2, s3, hid.of_ids s5⟩
  | nextFail hc h1 => exact ⟨fun _ _ _ _ e => (by cases e), fun _ => .nextFail hc (sim hbits hn htol h1 (fit_adapt3 z he hw _ _) hs hid hdiv (fun h => Bool.noConfusion h))⟩
  | nextClash hc h1 => exact ⟨fun _ _ _ _ e => (by cases e), fun e => (by cases e)⟩

/-- With the trees, a run with an adaptive step is one of the runs above, for either viscosity. -/
theorem C105_adaptive_refines {N : Nat} {c : Timestep.Clock} {T : Trees i n m} {d : DState (Particle (i + 1)) n} {steps : List (Timestep.Clock × Timestep.Clock)} {r : Outcome i n}
    (h : AdaptProgram.Run g z N c T d steps r)
    (hpos : ∀ a, 0 < (d.val a).mass ∧ 0 < (d.val a).h) (hid : ∀ a b, (d.val a).id = (d.val b).id → a = b) (hdiv : Division n (2 ^ m) T.vec) :
    (∀ c' s, r = .done c' s → ARun NearLists (2 ^ m) z N c (homeOf T.vec) d steps (some (c', s))) ∧ (r = .failed → ARun NearLists (2 ^ m) z N c (homeOf T.vec) d steps none) := by
  change ∀ a, Sized (d.val a) at hpos
  change Distinct d.val at hid
  induction h with
  | nil => exact ⟨fun c' s h => by cases h; exact .nil, fun h => by cases h⟩
  | fail hx => exact ⟨fun c' s h => (by cases h), fun _ => .fail ((iter_sim he hw g hbits hn htol hx hpos hid hdiv).2 rfl)⟩
  | clash hx => exact ⟨fun c' s h => (by cases h), fun h => (by cases h)⟩
  | cons hx _ ih =>
    obtain ⟨s1, s2, s3, s4⟩ := (iter_sim he hw g hbits hn htol hx hpos hid hdiv).1 _ _ _ _ rfl
    have := ih s3 s2 s4
    exact ⟨fun c' s h => .cons s1 (this.1 c' s h), fun h => .cons s1 (this.2 h)⟩

/-- The laws for the hydro driver with its trees and messages, either viscosity, fixed step. -/
theorem C105_fixed_trees_partial (hrelax : z.sph.relaxationSteps ≤ z.initialIteration) {N : Nat} {c c' : Timestep.Clock} {T : Trees i n m} {d : DState (Particle (i + 1)) n} {s : Fin n → Particle (i + 1)}
    (h : Hydro g z N c T d (.done c' s)) (hstart : c.iteration = z.initialIteration) (hpos : ∀ a, 0 < (d.val a).mass ∧ 0 < (d.val a).h) (hid : ∀ a b, (d.val a).id = (d.val b).id → a = b)
    (hdiv : Division n (2 ^ m) T.vec) :
    ((∀ a, z.sph.external a = 0) → (∀ a, (s a).id = (d.val a).id ∧ (s a).mass = (d.val a).mass) ∧ (∀ j, linearMomentum s j = linearMomentum d.val j) ∧ ∀ j k, planeMomentum s j k = planeMomentum d.val j k) ∧
    (z.thermokinetic = true → z.evolve = true → 1 ≤ z.updates → 1 ≤ N →
      gasEnergy s = ∑ a, (d.val a).mass * (1 / 2 * ∑ j, (d.val a).vel j * (d.val a).vel j + (Eos.init z.eos z.eosParams (d.val a)).u + z.phi (d.val a).pos)) := by
  have hrun := (C105_fixed_refines he hw g hbits hn htol h hpos hid hdiv).1 _ _ rfl
  exact ⟨fun hext => C105_fixed_momentum_partial he hw hrelax hext hstart hpos hrun, fun htk hev hup hN => C105_fixed_energy_partial he hw hrelax htk hev hup hN hstart hpos hrun⟩

/-- The same with an adaptive step. -/
theorem C105_adaptive_trees_partial (hrelax : z.sph.relaxationSteps ≤ z.initialIteration) {N : Nat} {c c' : Timestep.Clock} {T : Trees i n m} {d : DState (Particle (i + 1)) n} {s : Fin n → Particle (i + 1)}
    {steps : List (Timestep.Clock × Timestep.Clock)} (h : AdaptProgram.Run g z N c T d steps (.done c' s)) (hstart : c.iteration = z.initialIteration) (hpos : ∀ a, 0 < (d.val a).mass ∧ 0 < (d.val a).h)
    (hid : ∀ a b, (d.val a).id = (d.val b).id → a = b) (hdiv : Division n (2 ^ m) T.vec) :
    ((∀ a, z.sph.external a = 0) → (∀ a, (s a).id = (d.val a).id ∧ (s a).mass = (d.val a).mass) ∧ (∀ j, linearMomentum s j = linearMomentum d.val j) ∧ ∀ j k, planeMomentum s j k = planeMomentum d.val j k) ∧
    (z.thermokinetic = true → z.evolve = true → 1 ≤ z.updates → 1 ≤ N →
      gasEnergy s = ∑ a, (d.val a).mass * (1 / 2 * ∑ j, (d.val a).vel j * (d.val a).vel j + (Eos.init z.eos z.eosParams (d.val a)).u + z.phi (d.val a).pos)) := by
  have hrun := (C105_adaptive_refines he hw g hbits hn htol h hpos hid hdiv).1 _ _ rfl
  exact ⟨fun hext => C105_adaptive_momentum_partial he hw hrelax hext hstart hpos hrun, fun htk hev hup hN => C105_adaptive_energy_partial he hw hrelax htk hev hup hN hstart hpos hrun⟩

/-- A run of the hydro driver with its trees can be carried out, for either viscosity. -/
theorem C105_exists {N : Nat} {c : Timestep.Clock} {T : Trees i n m} (hdiv : Division n (2 ^ m) T.vec) (s : Fin n → Particle (i + 1)) (hpos : ∀ a, 0 < (s a).mass ∧ 0 < (s a).h)
    (hid : ∀ a b, (s a).id = (s b).id → a = b) : ∃ r, Hydro g z N c T ⟨s, fun _ b => some (s b), []⟩ r := by
  have key : ∀ N c (T : Trees i n m) (d : DState (Particle (i + 1)) n), Division n (2 ^ m) T.vec → (∀ a, Sized (d.val a)) → Distinct d.val → Full d → d.flight = [] → ∃ r, Hydro g z N c T d r := by
    intro N
    induction N with
    | zero => intro c T d _ _ _ _ _; exact ⟨_, .nil⟩
    | succ N ih =>
      intro c T d hdiv hp hi hF hf
      obtain ⟨r, h1, h2⟩ := pexec_exists hbits hn htol (T := T) (fit_fixed z he hw c) hp hi hdiv (fun h => Bool.noConfusion h) hF hf
      cases r with
      | failed => exact ⟨_, .fail h1⟩
      | clash => exact ⟨_, .clash h1⟩
      | ended T1 d1 =>
        obtain ⟨-, s2, s3, -, s5⟩ := sim hbits hn htol h1 (fit_fixed z he hw c) hp hi hdiv (fun h => Bool.noConfusion h)
        obtain ⟨r, hr⟩ := ih (Timestep.advance false c) T1 d1 s3 s2 (hi.of_ids s5) (h2 _ _ rfl).1 (h2 _ _ rfl).2
        exact ⟨r, .cons h1 hr⟩
  exact key N c T _ hdiv hpos hid (fun _ _ => rfl) rfl

end

/-! ### A run with the time-dependent viscosity -/

section
variable {P : Type} {home : Fin n → Nat}

/-- All processes have copies of all particles. -/
structure St (C V : Fin n → P → Prop) (d : DState P n) : Prop where
  copy : ∀ p b, ∃ y, d.copy p b = some y ∧ C b y
  val : ∀ a, V a (d.val a)
  flight : d.flight = []

theorem dpass_can {f : P → List P → Option P} {C V V' : Fin n → P → Prop} (hC : ∀ a x, V a x → C a x) (hV : ∀ a x, V' a x → V a x)
    (hf : ∀ a x (ys : Fin n → P), V a x → (∀ b, C b (ys b)) → ys a = x → ∃ y, f x ((List.finRange n).map ys) = some y ∧ V' a y) :
    ∀ (todo : List (Fin n)) {d : DState P n}, todo.Nodup → St C V d → (∀ a, a ∉ todo → V' a (d.val a)) → ∃ d', DPass home f (fun _ => List.finRange n) todo d (some d') ∧ St C V' d' := by
  intro todo
  induction todo with
  | nil => intro d _ hd h; exact ⟨d, .done hd.flight, hd.copy, fun a => h a (by simp), hd.flight⟩
  | cons a todo ih =>
    intro d hn hd h
    choose y hy hyC using hd.copy
    obtain ⟨ys, hys⟩ : ∃ ys : Fin n → P, ys = fun b => if home b = home a then d.val b else y (home a) b := ⟨_, rfl⟩
    have hsee : (List.finRange n).mapM (d.see home (home a)) = some ((List.finRange n).map ys) := by
      have : ∀ l : List (Fin n), l.mapM (d.see home (home a)) = some (l.map ys) := by
        intro l
        induction l with
        | nil => rfl
        | cons b l ih =>
          have hb : d.see home (home a) b = some (ys b) := by
            rw [hys]; unfold DState.see; dsimp only
            split_ifs
            · rfl
            · exact hy _ _
          rw [List.mapM_cons, hb, ih]; rfl
      exact this _
    obtain ⟨x, hx, hxV⟩ := hf a (d.val a) ys (hd.val a) (fun b => by rw [hys]; dsimp only; split_ifs; exacts [hC _ _ (hd.val b), hyC _ _]) (by rw [hys]; simp)
    have hn' := List.nodup_cons.mp hn
    obtain ⟨d', h1, h2⟩ := ih (d := d.put a x) hn'.2 ⟨hd.copy, fun b => by
        show V b (Function.update d.val a x b)
        by_cases e : b = a
        · subst e; rw [Function.update_self]; exact hV _ _ hxV
        · rw [Function.update_of_ne e]; exact hd.val b, hd.flight⟩ (fun b hb => by
        show V' b (Function.update d.val a x b)
        by_cases e : b = a
        · subst e; rw [Function.update_self]; exact hxV
        · rw [Function.update_of_ne e]; exact h b (by simp [e, hb]))
    exact ⟨d', .visit [] todo a _ x hsee hx h1, h2⟩

end

def Can (procs : Nat) (home : Fin n → Nat) (ops : List (Op (Particle (i + 1)))) (C V V' : Fin n → Particle (i + 1) → Prop) : Prop :=
  ∀ d, St C V d → ∃ d', DExec NearLists procs ops home d (some (home, d')) ∧ St C V' d'

theorem can_nil {C V : Fin n → Particle (i + 1) → Prop} : Can procs home [] C V V := fun d hd => ⟨d, .nil, hd⟩

theorem can_all {C V V1 V' : Fin n → Particle (i + 1) → Prop} {f : Particle (i + 1) → Option (Particle (i + 1))} {ops : List (Op (Particle (i + 1)))}
    (hf : ∀ a x, V a x → ∃ y, f x = some y ∧ V1 a y) (h : Can procs home ops C V1 V') : Can procs home (.all f :: ops) C V V' := by
  intro d hd
  choose v hv hvV using fun a => hf a _ (hd.val a)
  obtain ⟨d', h1, h2⟩ := h { d with val := v } ⟨hd.copy, hvV, hd.flight⟩
  exact ⟨d', .all v hv h1, h2⟩

theorem can_pass {C V V1 V' : Fin n → Particle (i + 1) → Prop} {k : Nat} {f : Particle (i + 1) → List (Particle (i + 1)) → Option (Particle (i + 1))} {ops : List (Op (Particle (i + 1)))}
    (hC : ∀ a x, V a x → C a x) (hV : ∀ a x, V1 a x → V a x) (hf : ∀ a x (ys : Fin n → Particle (i + 1)), V a x → (∀ b, C b (ys b)) → ys a = x → ∃ y, f x ((List.finRange n).map ys) = some y ∧ V1 a y)
    (h : Can procs home ops C V1 V') : Can procs home (.pass k f :: ops) C V V' := by
  intro d hd
  obtain ⟨d1, h1, h2⟩ := dpass_can (home := home) hC hV hf (List.finRange n) (List.nodup_finRange n) hd (fun a ha => absurd (List.mem_finRange a) ha)
  obtain ⟨d', h3, h4⟩ := h d1 h2
  exact ⟨d', .pass _ _ ⟨fun _ => List.nodup_finRange n, fun _ b _ => List.mem_finRange b⟩ (List.nodup_finRange n) List.mem_finRange h1 h3, h4⟩

theorem can_reset {C V V' : Fin n → Particle (i + 1) → Prop} {ops : List (Op (Particle (i + 1)))} (hC : ∀ a x, V a x → C a x) (h : Can procs home ops C V V') : Can procs home (.reset :: ops) C V V' := by
  intro d hd
  obtain ⟨d', h1, h2⟩ := h (fresh d) ⟨fun p b => ⟨_, rfl, hC _ _ (hd.val b)⟩, hd.val, rfl⟩
  exact ⟨d', .reset (fresh_rebuilt d) h1, h2⟩

theorem can_update {C V V' : Fin n → Particle (i + 1) → Prop} {ops : List (Op (Particle (i + 1)))} (hh : ∀ a, home a < procs) (hC : ∀ a x, V a x → C a x) (h : Can procs home ops C V V') :
    Can procs home (.update :: ops) C V V' := by
  intro d hd
  obtain ⟨d', h1, h2⟩ := h (fresh d) ⟨fun p b => ⟨_, rfl, hC _ _ (hd.val b)⟩, hd.val, rfl⟩
  exact ⟨d', .update hh (fresh_rebuilt d) h1, h2⟩

/-- The gas of RunExamples with the time-dependent viscosity. -/
noncomputable def viscous : Config 1 := { RunExamples.gas true .noEos with sph := { (RunExamples.gas true .noEos).sph with visc := .cullen } }

private def W (a : Fin 2) (x : Particle 2) : Prop :=
  x.mass = 1 ∧ x.h = 1 ∧ x.pos = (RunExamples.two a).pos ∧ x.vel = (RunExamples.two a).vel ∧ x.cs = 1 ∧ x.P = 1 ∧ x.gacc = 0 ∧ x.u = 1
private def E (a : Fin 2) (x : Particle 2) : Prop := W a x ∧ x.e = 1 / 2 * dot x.vel x.vel + 1
private def D (a : Fin 2) (x : Particle 2) : Prop := E a x ∧ 0 < x.rho

theorem two_apart : (RunExamples.two 1).pos ≠ (RunExamples.two 0).pos := fun h => by
  have := congrFun h 0
  norm_num [RunExamples.two] at this

private theorem signal_pos {x : Particle 2} {a : Fin 2} (hx : W a x) {ys : Fin 2 → Particle 2} (hy : ∀ b, W b (ys b)) : 0 < (computeSignalspeed x ((List.finRange 2).map ys)).vsig := by
  have hmono : ∀ (l : List (Particle 2)) (v : ℝ), v ≤ l.foldl (fun vsig b => if b.pos = x.pos then vsig else max vsig (max x.cs b.cs -
      min (dot (x.vel - b.vel) (fun j => (x.pos j - b.pos j) / distance x.pos b.pos)) 0)) v := by
    intro l
    induction l with
    | nil => intro v; exact le_rfl
    | cons b l ih =>
      intro v
      rw [List.foldl_cons]
      refine le_trans ?_ (ih _)
      split_ifs
      · exact le_rfl
      · exact le_max_left _ _
  have hstep : ∀ (b : Particle 2) (v : ℝ), b.pos ≠ x.pos → 1 ≤ max v (max x.cs b.cs - min (dot (x.vel - b.vel) (fun j => (x.pos j - b.pos j) / distance x.pos b.pos)) 0) := by
    intro b v _
    have h1 : (1 : ℝ) ≤ max x.cs b.cs := by rw [hx.2.2.2.2.1]; exact le_max_left _ _
    have h2 := min_le_right (dot (x.vel - b.vel) (fun j => (x.pos j - b.pos j) / distance x.pos b.pos)) 0
    exact le_trans (by linarith) (le_max_right _ _)
  have e : (List.finRange 2).map ys = [ys 0, ys 1] := by simp [List.finRange_succ]
  have p0 := (hy 0).2.2.1
  have p1 := (hy 1).2.2.1
  have px := hx.2.2.1
  rw [e]
  refine lt_of_lt_of_le one_pos ?_
  show 1 ≤ List.foldl _ _ _
  fin_cases a
  · have hne : (ys 1).pos ≠ x.pos := by rw [p1, px]; exact two_apart
    rw [List.foldl_cons, List.foldl_cons, List.foldl_nil, if_neg hne]
    exact hstep _ _ hne
  · have hne : (ys 0).pos ≠ x.pos := by rw [p0, px]; exact two_apart.symm
    rw [List.foldl_cons, if_neg hne]
    exact le_trans (hstep _ _ hne) (hmono _ _)

private theorem alpha_some {x : Particle 2} {a : Fin 2} (hx : W a x) {ys : Fin 2 → Particle 2} (hy : ∀ b, W b (ys b)) (dt : ℝ) :
    ∃ y, Cullen.computeAlpha viscous.sph ⟨viscous.alphaMax, viscous.delta, viscous.l, dt⟩ x ((List.finRange 2).map ys) = some { x with alpha := y } := by
  have hs := signal_pos hx hy
  have ht : 0 ≤ Cullen.aTrigger viscous.sph x ((List.finRange 2).map ys) := by
    unfold Cullen.aTrigger
    refine mul_nonneg ?_ (le_max_right _ _)
    unfold Cullen.computeXi
    dsimp only
    split_ifs
    · exact le_rfl
    · refine div_nonneg (mul_self_nonneg _) (add_nonneg (mul_self_nonneg _) (Finset.sum_nonneg fun j _ => Finset.sum_nonneg fun k _ => mul_self_nonneg _))
  have hden : 0 < viscous.delta * ((computeSignalspeed x ((List.finRange 2).map ys)).vsig / x.h * ((computeSignalspeed x ((List.finRange 2).map ys)).vsig / x.h)) + Cullen.aTrigger viscous.sph x ((List.finRange 2).map ys) := by
    have hd : viscous.delta = 1 / 10 := rfl
    rw [hd, hx.2.1]
    positivity
  unfold Cullen.computeAlpha
  dsimp only
  rw [if_neg hden.ne', if_neg hs.ne']
  split_ifs
  · exact ⟨_, rfl⟩
  · exact ⟨_, rfl⟩

private theorem density_ok {x : Particle 2} {a : Fin 2} (hx : E a x) {ys : Fin 2 → Particle 2} (hy : ∀ b, W b (ys b)) (hself : ys a = x) (dt : ℝ) :
    ∃ y, Eos.computeDensityPressureSoundspeed viscous.sph viscous.eos viscous.eosParams (setup viscous dt) x ((List.finRange 2).map ys) = some y ∧ D a y := by
  obtain ⟨r, hr, hd⟩ : ∃ r, 0 < r ∧ computeDensity viscous.sph x ((List.finRange 2).map ys) = some { x with rho := r } := ⟨_, density_some (i := 1) viscous.sph (Or.inl Poly.wendlandC4) x ((List.finRange 2).map ys) ⟨x, List.mem_map.mpr ⟨a, List.mem_finRange a, hself⟩, rfl⟩
      (fun b hb => by obtain ⟨c, _, rfl⟩ := List.mem_map.mp hb; rw [(hy c).1]; exact one_pos) (by rw [hx.1.2.1]; exact one_pos)
      (fun b hb => by obtain ⟨c, _, rfl⟩ := List.mem_map.mp hb; rw [(hy c).2.1]; exact one_pos)⟩
  have hrec : ∀ b : Particle 2, E a b → recoverInternalEnergy (fun _ => 0) b = some b := fun b hb => by
    have : b.e - 1 / 2 * dot b.vel b.vel - 0 = 1 := by rw [hb.2]; ring
    simp only [recoverInternalEnergy, this]
    rw [if_pos one_pos]
    have hu : b.u = 1 := hb.1.2.2.2.2.2.2.2
    rw [← hu]
  rw [Eos.computeDensityPressureSoundspeed, hd, Option.bind_eq_bind, Option.bind_some, Eos.recoverIf, if_pos (show (setup viscous dt).thermokinetic = true from rfl)]
  show ∃ y, (recoverInternalEnergy (fun _ => 0) _).bind _ = _ ∧ _
  have hr' : E a { x with rho := r } := ⟨hx.1, hx.2⟩
  exact ⟨_, (congrArg (fun o => Option.bind o _) (hrec _ hr')).trans rfl, ⟨hx.1, hx.2⟩, hr⟩

private theorem step_ok {x : Particle 2} {a : Fin 2} (hx : D a x) : ∃ y, Timestep.computeDt (stepSettings viscous) x = some y ∧ D a y := by
  refine ⟨{ x with dt := Timestep.baseDt (stepSettings viscous) x }, ?_, hx⟩
  have hu : x.u = 1 := hx.1.1.2.2.2.2.2.2.2
  have hg : x.gacc = 0 := hx.1.1.2.2.2.2.2.2.1
  unfold Timestep.computeDt
  rw [if_pos (show (stepSettings viscous).thermokinetic = true from rfl), if_pos (by rw [hu]; exact one_pos)]
  have : Timestep.deltaE (stepSettings viscous) x (Timestep.baseDt (stepSettings viscous) x) < x.u * (1 / 2) := by
    unfold Timestep.deltaE
    rw [hu, hg]
    simp [stepSettings, viscous, RunExamples.gas, dot]
  rw [Timestep.shrink, if_pos this]; rfl

private theorem can_forces {home : Fin 2 → Nat} (hh : ∀ a, home a < procs) (dt : ℝ) {t : List (Op (Particle (((1 : Fin 3) : ℕ) + 1)))} {V' : Fin 2 → Particle 2 → Prop} (ht : Can (i := 1) procs home t W D V') :
    Can (i := 1) procs home (firstForces viscous dt 0 ++ t) W W V' := by
  rw [firstForces_eq]
  have e1 : beginOps viscous = [.update, .all fun a => some (Eos.init .noEos viscous.eosParams a), .all fun a => some (setTotalEnergy viscous.phi a), .all fun a => some (Cullen.initializeAlpha viscous.sph a)] := rfl
  have e2 : alphaOps viscous dt = [.pass 1 (Cullen.computeAlpha viscous.sph ⟨viscous.alphaMax, viscous.delta, viscous.l, dt⟩)] := rfl
  have e3 : forceOps viscous 0 = [.reset, .pass 2 fun a l => some (computeAcceleration viscous.sph a l)] := by
    unfold forceOps; rw [if_neg (by decide)]; rfl
  rw [e1, e2, e3]
  simp only [List.cons_append, List.nil_append]
  refine can_update hh (fun _ _ h => h) (can_all (V1 := W) (fun a x h => ⟨_, rfl, h⟩) (can_all (V1 := E) ?_ (can_all (V1 := E) (fun a x h => ⟨_, rfl, h⟩) ?_)))
  · intro a x h
    refine ⟨_, rfl, h, ?_⟩
    show 1 / 2 * dot x.vel x.vel + x.u + 0 = 1 / 2 * dot x.vel x.vel + 1
    rw [h.2.2.2.2.2.2.2]; ring
  refine can_pass (V1 := D) (fun _ _ h => h.1) (fun _ _ h => h.1) (fun a x ys h1 h2 h3 => density_ok h1 h2 h3 dt) ?_
  refine can_all (V1 := D) (fun a x h => ⟨_, rfl, h⟩) ?_
  refine can_pass (V1 := D) (fun _ _ h => h.1.1) (fun _ _ h => h) (fun a x ys h1 h2 _ => ?_) ?_
  · obtain ⟨y, hy⟩ := alpha_some h1.1.1 h2 dt
    exact ⟨_, hy, h1⟩
  refine can_reset (fun _ _ h => h.1.1) (can_pass (V1 := D) (fun _ _ h => h.1.1) (fun _ _ h => h) (fun a x ys h1 _ _ => ?_) ht)
  obtain ⟨⟨⟨w1, w2, w3, w4, w5, w6, w7, w8⟩, h2⟩, h3⟩ := h1
  exact ⟨_, rfl, ⟨⟨w1, w2, w3, w4, w5, w6, rfl, w8⟩, h2⟩, h3⟩

private theorem can_rest {home : Fin 2 → Nat} (dt : ℝ) {t : List (Op (Particle (((1 : Fin 3) : ℕ) + 1)))} {V' : Fin 2 → Particle 2 → Prop} (ht : Can (i := 1) procs home t W D V') :
    Can (i := 1) procs home (firstRest viscous dt 0 ++ t) W D V' := by
  have e : firstRest viscous dt 0 = [.pass 4 fun a l => some (computeDedt viscous.sph a l), .all (Eos.recomputePressureSoundspeedThermokinetic .noEos viscous.eosParams viscous.phi dt),
      .all fun a => open Classical in if 0 ≤ a.rho ∧ 0 ≤ a.P ∧ (viscous.evolve = true → 0 ≤ a.u) then some a else none] := by
    unfold firstRest
    rw [if_pos (show viscous.evolve = true from rfl)]
    have h1 : viscous.updates = 1 := rfl
    have h2 : lastOps viscous = [.all fun a => open Classical in if 0 ≤ a.rho ∧ 0 ≤ a.P ∧ (viscous.evolve = true → 0 ≤ a.u) then some a else none] := rfl
    rw [h1, h2]
    unfold energyOps
    rw [if_pos (show viscous.thermokinetic = true from rfl), if_neg (show ¬ (0 : Int) < viscous.sph.relaxationSteps by decide), if_neg (lt_irrefl 0)]
    rfl
  rw [e]
  simp only [List.cons_append, List.nil_append]
  refine can_pass (V1 := D) (fun _ _ h => h.1.1) (fun _ _ h => h) (fun a x ys h1 _ _ => ⟨_, rfl, h1⟩) (can_all (V1 := D) (fun a x h => ?_) (can_all (V1 := D) (fun a x h => ?_) ht))
  · have : x.e - 1 / 2 * dot x.vel x.vel - 0 = 1 := by rw [h.1.2]; ring
    unfold Eos.recomputePressureSoundspeedThermokinetic
    show ∃ y, (recoverInternalEnergy (fun _ => 0) x).bind _ = _ ∧ _
    simp only [recoverInternalEnergy, this]
    rw [if_pos one_pos, Option.bind_some]
    obtain ⟨⟨⟨w1, w2, w3, w4, w5, w6, w7, w8⟩, h2⟩, h3⟩ := h
    exact ⟨_, rfl, ⟨⟨w1, w2, w3, w4, w5, w6, w7, rfl⟩, h2⟩, h3⟩
  · obtain ⟨⟨⟨w1, w2, w3, w4, w5, w6, w7, w8⟩, h2⟩, h3⟩ := h
    refine ⟨x, if_pos ⟨h3.le, by rw [w6]; exact zero_le_one, fun _ => by rw [w8]; exact zero_le_one⟩, ⟨⟨w1, w2, w3, w4, w5, w6, w7, w8⟩, h2⟩, h3⟩

/-- The first iteration of two particles on two processes with the time-dependent viscosity ends, with a fixed and with an adaptive step. -/
theorem viscous_runs (dt : ℝ) : (∃ x, DRun NearLists 2 viscous 1 (RunExamples.start dt).clock (fun a => a.val) ⟨RunExamples.two, fun _ b => some (RunExamples.two b), []⟩ (some x)) ∧
    ∃ steps x, ARun NearLists 2 viscous 1 (RunExamples.start dt).clock (fun a => a.val) ⟨RunExamples.two, fun _ b => some (RunExamples.two b), []⟩ steps (some x) := by
  have hW : ∀ a, W a (RunExamples.two a) := fun a => ⟨rfl, rfl, rfl, rfl, rfl, rfl, rfl, rfl⟩
  have hSt : St W W (⟨RunExamples.two, fun _ b => some (RunExamples.two b), []⟩ : DState (Particle 2) 2) := ⟨fun _ b => ⟨_, rfl, hW b⟩, hW, rfl⟩
  have hh : ∀ a : Fin 2, (fun a : Fin 2 => a.val) a < 2 := fun a => a.2
  have hstep : Can (i := 1) 2 (fun a : Fin 2 => a.val) [stepOp viscous] W D D := can_all (fun a x h => step_ok h) can_nil
  refine ⟨?_, ?_⟩
  · have hc := can_forces (home := fun a : Fin 2 => a.val) hh dt (can_rest (home := fun a : Fin 2 => a.val) dt can_nil)
    obtain ⟨d', h1, -⟩ := hc _ hSt
    refine ⟨_, .cons (home' := fun a => a.val) (d' := d') ?_ .nil⟩
    have e : iterationOps viscous (RunExamples.start dt).clock = firstForces viscous dt 0 ++ (firstRest viscous dt 0 ++ []) := by
      unfold iterationOps
      rw [if_pos (show (RunExamples.start dt).clock.iteration = viscous.initialIteration from rfl), firstOps_eq, List.append_nil]; rfl
    rw [e]; exact h1
  · obtain ⟨d1, h1, h2⟩ := can_forces (home := fun a : Fin 2 => a.val) hh dt hstep _ hSt
    obtain ⟨c1, hc1⟩ : ∃ c1, c1 = Timestep.setAdaptive viscous.outputs (limits 2 (fun a : Fin 2 => a.val) d1.val) (RunExamples.start dt).clock := ⟨_, rfl⟩
    obtain ⟨d2, h3, -⟩ := can_rest (home := fun a : Fin 2 => a.val) c1.dt hstep _ h2
    have e : c1.iteration = 0 := by rw [hc1]; exact AdaptRun.setAdaptive_iteration _ _ _
    exact ⟨_, _, .cons (AIter.first rfl h1 hc1 (by rw [e]; exact h3)) .nil⟩

/-- Non-vacuity: both runs meet the hypotheses of the theorems above, with momenta and energy which are not zero. -/
example (dt : ℝ) : ∃ x, DRun NearLists 2 viscous 1 (RunExamples.start dt).clock (fun a => a.val) ⟨RunExamples.two, fun _ b => some (RunExamples.two b), []⟩ (some x) ∧
    ∑ a, (x.2 a).mass * (x.2 a).vel 1 = 2 / 3 ∧ ∑ a, (x.2 a).mass * (x.2 a).e = 2 + 1 / 4 + 1 / 9 := by
  obtain ⟨x, hx⟩ := (viscous_runs dt).1
  have h1 := (C105_fixed_momentum_partial (by norm_num [viscous, RunExamples.gas]) (by norm_num [viscous, RunExamples.gas]) le_rfl (fun _ => rfl) rfl (fun a => ⟨one_pos, one_pos⟩) hx).2.1 1
  have h2 := C105_fixed_energy_partial (by norm_num [viscous, RunExamples.gas]) (by norm_num [viscous, RunExamples.gas]) le_rfl rfl rfl le_rfl one_pos rfl (fun a => ⟨one_pos, one_pos⟩) hx
  refine ⟨x, hx, h1.trans ?_, h2.trans ?_⟩
  · simp [RunExamples.two]; norm_num
  · simp [Fin.sum_univ_two, RunExamples.two, viscous, RunExamples.gas, Eos.init]; norm_num

example (dt : ℝ) : ∃ steps x, ARun NearLists 2 viscous 1 (RunExamples.start dt).clock (fun a => a.val) ⟨RunExamples.two, fun _ b => some (RunExamples.two b), []⟩ steps (some x) ∧
    ∑ a, (x.2 a).mass * (x.2 a).vel 1 = 2 / 3 ∧ ∑ a, (x.2 a).mass * (x.2 a).e = 2 + 1 / 4 + 1 / 9 := by
  obtain ⟨steps, x, hx⟩ := (viscous_runs dt).2
  have h1 := (C105_adaptive_momentum_partial (by norm_num [viscous, RunExamples.gas]) (by norm_num [viscous, RunExamples.gas]) le_rfl (fun _ => rfl) rfl (fun a => ⟨one_pos, one_pos⟩) hx).2.1 1
  have h2 := C105_adaptive_energy_partial (by norm_num [viscous, RunExamples.gas]) (by norm_num [viscous, RunExamples.gas]) le_rfl rfl rfl le_rfl one_pos rfl (fun a => ⟨one_pos, one_pos⟩) hx
  refine ⟨steps, x, hx, h1.trans ?_, h2.trans ?_⟩
  · simp [RunExamples.two]; norm_num
  · simp [Fin.sum_univ_two, RunExamples.two, viscous, RunExamples.gas, Eos.init]; norm_num

/-- `C97_limits_partial` with the time-dependent viscosity: the step that run ends with is positive. -/
example (dt : ℝ) (hdt : 0 < dt) : ∃ steps x, ARun NearLists 2 viscous 1 (RunExamples.start dt).clock (fun a => a.val) ⟨RunExamples.two, fun _ b => some (RunExamples.two b), []⟩ steps (some x) ∧ 0 < x.1.dt ∧
    x.1.totaltime = (steps.map fun s => s.2.dt).sum := by
  obtain ⟨steps, x, hx⟩ := (viscous_runs dt).2
  obtain ⟨h1, -, -, h2, -⟩ := C97_limits_partial (z := viscous) (by norm_num [viscous, RunExamples.gas]) (by norm_num [viscous, RunExamples.gas]) (by norm_num [viscous, RunExamples.gas])
    (by norm_num [viscous, RunExamples.gas]) (fun _ => le_rfl) Nat.one_pos (fun a => a.2) (fun a => ⟨one_pos, one_pos⟩) (fun _ => le_rfl) hdt hx
  exact ⟨steps, x, hx, h1, h2.trans (zero_add _)⟩

end FleCSPH.DistConserve
