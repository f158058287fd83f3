import Verif.Lemmas.Newtonian
import Verif.Props.C34run
import Verif.Props.RunExamples
import Verif.Spec.Newtonian
/-! What one iteration of the newtonian driver does to positions and velocities. -/
namespace FleCSPH.Newtonian
open FleCSPH.Geometry FleCSPH.Sph FleCSPH.Driver FleCSPH.Spec FleCSPH.DistRun FleCSPH.Integration FleCSPH.RunExamples

variable {i : Fin 3} {n : Nat}

theorem exec1_accOps (w : Schedule i n) (z : Config i) (s : Fin n → Particle (i + 1)) : exec1 w (accOps z) s = some (sphPass w 2 (computeAcceleration z.sph) s) := by
  unfold accOps
  show exec1 w (.pass 2 _ :: []) s = _
  rw [exec1_pass]; rfl

theorem exec1_firstHead (w : Schedule i n) (z : Config i) (hv : z.sph.visc = .constant) (dt : ℝ) (s : Fin n → Particle (i + 1)) :
    exec1 w (firstHead z dt) s = (thermo z dt true w (initialise z s)).map (sphPass w 2 (computeAcceleration z.sph)) := by
  have hinit : exec1 w ([.update, .all fun a => some (Eos.init z.eos z.eosParams a)] ++ (match z.sph.visc with
        | .constant => []
        | .cullen => [.all fun a => some (Cullen.initializeAlpha z.sph a)]) ++ (if z.thermokinetic then [.all fun a => some (setTotalEnergy z.phi a)] else [])) s = some (initialise z s) := by
    unfold initialise
    rw [hv]
    simp only
    split_ifs
    all_goals simp only [List.cons_append, List.nil_append, List.append_nil]
    all_goals (show exec1 w (.all _ :: _) _ = _; simp only [exec1_all]; rfl)
  unfold firstHead
  rw [List.append_assoc, List.append_assoc, exec1_append]
  erw [hinit]
  rw [Option.bind_some, List.cons_append, exec1_density]
  unfold thermo
  rw [Option.map_bind]
  congr 1
  funext s
  simp only [List.cons_append, List.nil_append, Function.comp, if_true]
  rw [exec1_all, exec1_append, exec1_alpha, Option.map_eq_bind]
  congr 1
  funext s
  exact exec1_accOps w z s

theorem exec1_nextHead (w : Schedule i n) (z : Config i) (dt : ℝ) (s : Fin n → Particle (i + 1)) :
    exec1 w (nextHead z dt) s = (thermo z dt false w (kickDrift z dt s)).map (sphPass w 2 (computeAcceleration z.sph)) := by
  unfold nextHead thermo
  simp only [List.append_assoc]
  rw [exec1_append, exec1_kick, Option.bind_some]
  simp only [List.cons_append, List.nil_append]
  rw [exec1_all, exec1_all, exec1_all]
  show exec1 w (densityOp z dt :: _) _ = _
  rw [exec1_density, Option.map_bind]
  congr 1
  funext s
  simp only [Function.comp, Bool.false_eq_true, if_false]
  rw [exec1_append, exec1_alpha, Option.map_eq_bind]
  congr 1
  funext s
  exact exec1_accOps w z s

theorem exec1_firstTail (w : Schedule i n) (z : Config i) (dt : ℝ) (it : Int) (hit : z.sph.relaxationSteps ≤ it) (s : Fin n → Particle (i + 1)) :
    exec1 w (firstTail z dt it) s = energy z dt it w (if z.thermokinetic then applyAll (setTotalEnergy z.phi) s else s) := by
  unfold firstTail relaxOps
  rw [if_neg (not_lt.2 hit), List.nil_append]
  by_cases h : z.thermokinetic = true
  · rw [if_pos h, if_pos h, List.cons_append, List.nil_append, exec1_all, exec1_evolve]
  · rw [if_neg h, if_neg h, List.nil_append, exec1_evolve]

theorem exec1_nextTail (w : Schedule i n) (z : Config i) (dt : ℝ) (it : Int) (hit : z.sph.relaxationSteps ≤ it) (s : Fin n → Particle (i + 1)) :
    exec1 w (nextTail z dt it) s = (energy z dt it w (applyAll (kickV dt) s)).map (kickEnergy z dt) := by
  unfold nextTail relaxOps
  rw [if_neg (not_lt.2 hit), List.nil_append, List.append_assoc, List.cons_append, exec1_all]
  show exec1 w (_ ++ kickOps z dt) _ = _
  rw [exec1_append, exec1_evolve, Option.map_eq_bind]
  congr 1
  funext s
  exact exec1_kick w z dt s

/-- A run up to gravity. -/
structure HeadStep (z : Config i) (c : Timestep.Clock) (s t : Fin n → Particle (i + 1)) : Prop where
  id : ∀ a, (t a).id = (s a).id
  mass : ∀ a, (t a).mass = (s a).mass
  h : ∀ a, (t a).h = (s a).h
  vel : ∀ a, (t a).vel = if c.iteration = z.initialIteration then (s a).vel else (s a).vel + (1 / 2 * c.dt) • ((s a).acc + (s a).gacc)
  pos : ∀ a, (t a).pos = if c.iteration = z.initialIteration then (s a).pos else (s a).pos + c.dt • (t a).vel
  gacc : ∀ a, (t a).gacc = 0
  force : ∀ j, ∑ a, (t a).mass * (t a).acc j = 0
  torque : ∀ j k, ∑ a, (t a).mass * ((t a).pos j * (t a).acc k - (t a).pos k * (t a).acc j) = 0

/-- The rest of an iteration. -/
structure TailStep (z : Config i) (c : Timestep.Clock) (s t : Fin n → Particle (i + 1)) : Prop where
  id : ∀ a, (t a).id = (s a).id
  mass : ∀ a, (t a).mass = (s a).mass
  pos : ∀ a, (t a).pos = (s a).pos
  acc : ∀ a, (t a).acc = (s a).acc
  gacc : ∀ a, (t a).gacc = (s a).gacc
  vel : ∀ a, (t a).vel = if c.iteration = z.initialIteration then (s a).vel else (s a).vel + (1 / 2 * c.dt) • ((s a).acc + (s a).gacc)

theorem head_step (w : Schedule i n) (hw : Faithful w) (z : Config i) (hv : z.sph.visc = .constant) (hext : ∀ a, z.sph.external a = 0) (c : Timestep.Clock) (hit : z.sph.relaxationSteps ≤ c.iteration)
    {s t : Fin n → Particle (i + 1)} (hs : ∀ a, 0 < (s a).mass ∧ 0 < (s a).h) (h : exec1 w (headOps z c) s = some t) : HeadStep z c s t := by
  -- the accelerations of SPH
  have fin : ∀ s1 : Fin n → Particle (i + 1), (∀ a, 0 < (s1 a).mass ∧ 0 < (s1 a).h) → (∀ a, 0 < (s1 a).rho) → t = sphPass w 2 (computeAcceleration z.sph) s1 →
      (∀ a, (t a).id = (s1 a).id ∧ (t a).mass = (s1 a).mass ∧ (t a).h = (s1 a).h ∧ (t a).vel = (s1 a).vel ∧ (t a).pos = (s1 a).pos) ∧ (∀ a, (t a).gacc = 0) ∧
      (∀ j, ∑ a, (t a).mass * (t a).acc j = 0) ∧ ∀ j k, ∑ a, (t a).mass * ((t a).pos j * (t a).acc k - (t a).pos k * (t a).acc j) = 0 := by
    intro s1 h1 h2 ht
    have hf : t = forces z c.iteration w s1 := by unfold forces; rw [ht]; simp only [if_neg (not_lt.mpr hit)]
    obtain ⟨⟨b1, b2⟩, b3⟩ := forces_balanced z c.iteration w hw s1 h1 h2 hext hit
    rw [← hf] at b1 b2 b3
    refine ⟨fun a => ?_, b3, fun j => ?_, fun j k => ?_⟩
    · obtain ⟨x, y, g, hk⟩ := forces_keep z c.iteration w s1 a
      rw [hf, hk]; exact ⟨rfl, rfl, rfl, rfl, rfl⟩
    · rw [← b1 j]; exact Finset.sum_congr rfl fun a _ => by rw [b3 a]; simp
    · rw [← b2 j k]; exact Finset.sum_congr rfl fun a _ => by rw [b3 a]; simp
  unfold headOps at h
  by_cases hc : c.iteration = z.initialIteration
  · rw [if_pos hc, exec1_firstHead w z hv] at h
    obtain ⟨s1, h1, rfl⟩ := Option.map_eq_some_iff.1 h
    have kt := thermo_keep z _ _ w hw.order _ _ h1
    have ki := initialise_keep z s
    have e1 : ∀ a, (s1 a).id = (s a).id ∧ (s1 a).mass = (s a).mass ∧ (s1 a).h = (s a).h ∧ (s1 a).vel = (s a).vel ∧ (s1 a).pos = (s a).pos := by
      intro a
      have h1 := (kt a).1
      have h2 := ki a
      simp only [energetics, dynamics, motion, Prod.mk.injEq] at h1 h2
      obtain ⟨⟨⟨q1, q2, q3, q4, qK⟩, q5, _⟩, _⟩ := h1
      obtain ⟨p1, p2, p3, p4, p5⟩ := h2
      exact ⟨q1.trans p1, q2.trans p2, q5.trans p3, q4.trans p5, q3.trans p4⟩
    obtain ⟨f1, f2, f3, f4⟩ := fin s1 (fun a => by rw [(e1 a).2.1, (e1 a).2.2.1]; exact hs a) (fun a => (kt a).2) rfl
    refine ⟨fun a => (f1 a).1.trans (e1 a).1, fun a => (f1 a).2.1.trans (e1 a).2.1, fun a => (f1 a).2.2.1.trans (e1 a).2.2.1, fun a => ?_, fun a => ?_, f2, f3, f4⟩
    · rw [if_pos hc]; exact (f1 a).2.2.2.1.trans (e1 a).2.2.2.1
    · rw [if_pos hc]; exact (f1 a).2.2.2.2.trans (e1 a).2.2.2.2
  · rw [if_neg hc, exec1_nextHead w z] at h
    obtain ⟨s1, h1, rfl⟩ := Option.map_eq_some_iff.1 h
    have kt := thermo_keep z _ _ w hw.order _ _ h1
    have k0 := fun a => dynamics_of (Prod.mk.inj (kickEnergy_keep z c.dt s a)).1
    have e1 : ∀ a, (s1 a).id = (s a).id ∧ (s1 a).mass = (s a).mass ∧ (s1 a).h = (s a).h ∧ (s1 a).vel = (s a).vel + (1 / 2 * c.dt) • ((s a).acc + (s a).gacc) ∧
        (s1 a).pos = (s a).pos + c.dt • ((s a).vel + (1 / 2 * c.dt) • ((s a).acc + (s a).gacc)) := by
      intro a
      have h1 := (kt a).1
      simp only [energetics, dynamics, motion, Prod.mk.injEq] at h1
      obtain ⟨⟨⟨q1, q2, q3, q4, qK⟩, q5, _⟩, _⟩ := h1
      obtain ⟨p1, p2, p3, p4, p5, p6, p7⟩ := k0 a
      refine ⟨q1.trans p1, q2.trans p2, q5.trans p5, ?_, ?_⟩
      · rw [q4]
        simp only [kickDrift, applyAll, drift, saveVelocityhalf, kickV]
        rw [p4, p6, p7]
      · rw [q3]
        simp only [kickDrift, applyAll, drift, saveVelocityhalf, kickV]
        rw [p3, p4, p6, p7]
    obtain ⟨f1, f2, f3, f4⟩ := fin s1 (fun a => by rw [(e1 a).2.1, (e1 a).2.2.1]; exact hs a) (fun a => (kt a).2) rfl
    have vel : ∀ a, (sphPass w 2 (computeAcceleration z.sph) s1 a).vel = (s a).vel + (1 / 2 * c.dt) • ((s a).acc + (s a).gacc) := fun a => (f1 a).2.2.2.1.trans (e1 a).2.2.2.1
    refine ⟨fun a => (f1 a).1.trans (e1 a).1, fun a => (f1 a).2.1.trans (e1 a).2.1, fun a => (f1 a).2.2.1.trans (e1 a).2.2.1, fun a => ?_, fun a => ?_, f2, f3, f4⟩
    · rw [if_neg hc]; exact vel a
    · rw [if_neg hc, vel]; exact (f1 a).2.2.2.2.trans (e1 a).2.2.2.2

theorem tail_step (w : Schedule i n) (z : Config i) (c : Timestep.Clock) (hit : z.sph.relaxationSteps ≤ c.iteration) {s t : Fin n → Particle (i + 1)} (h : exec1 w (tailOps z c) s = some t) :
    TailStep z c s t := by
  unfold tailOps at h
  rw [exec1_append] at h
  obtain ⟨s2, h1, h2⟩ := Option.bind_eq_some_iff.1 h
  have kl : ∀ a, (t a).id = (s2 a).id ∧ (t a).mass = (s2 a).mass ∧ (t a).pos = (s2 a).pos ∧ (t a).acc = (s2 a).acc ∧ (t a).gacc = (s2 a).gacc ∧ (t a).vel = (s2 a).vel := by
    intro a
    rw [exec1_last] at h2
    unfold checkNegativity at h2
    split_ifs at h2
    rw [← Option.some.inj h2]
    unfold updateH
    cases z.hMode <;> exact ⟨rfl, rfl, rfl, rfl, rfl, rfl⟩
  by_cases hc : c.iteration = z.initialIteration
  · rw [if_pos hc, exec1_firstTail w z _ _ hit] at h1
    have ke := energy_keep z _ _ w _ _ h1
    have e : ∀ a, (s2 a).id = (s a).id ∧ (s2 a).mass = (s a).mass ∧ (s2 a).pos = (s a).pos ∧ (s2 a).acc = (s a).acc ∧ (s2 a).gacc = (s a).gacc ∧ (s2 a).vel = (s a).vel := by
      intro a
      obtain ⟨q1, q2, q3, q4, q5, q6, q7⟩ := dynamics_of (Prod.mk.inj (ke a)).1
      have hx : ∀ b, ((if z.thermokinetic then applyAll (setTotalEnergy z.phi) s else s) b) = s b ∨ ((if z.thermokinetic then applyAll (setTotalEnergy z.phi) s else s) b) = setTotalEnergy z.phi (s b) := by
        intro b; split_ifs
        · exact Or.inr rfl
        · exact Or.inl rfl
      rcases hx a with hx | hx <;> rw [hx] at q1 q2 q3 q4 q5 q6 q7 <;> exact ⟨q1, q2, q3, q6, q7, q4⟩
    exact ⟨fun a => (kl a).1.trans (e a).1, fun a => (kl a).2.1.trans (e a).2.1, fun a => (kl a).2.2.1.trans (e a).2.2.1, fun a => (kl a).2.2.2.1.trans (e a).2.2.2.1,
      fun a => (kl a).2.2.2.2.1.trans (e a).2.2.2.2.1, fun a => by rw [if_pos hc]; exact (kl a).2.2.2.2.2.trans (e a).2.2.2.2.2⟩
  · rw [if_neg hc, exec1_nextTail w z _ _ hit] at h1
    obtain ⟨s1, h3, rfl⟩ := Option.map_eq_some_iff.1 h1
    have ke := energy_keep z _ _ w _ _ h3
    have e : ∀ a, (kickEnergy z c.dt s1 a).id = (s a).id ∧ (kickEnergy z c.dt s1 a).mass = (s a).mass ∧ (kickEnergy z c.dt s1 a).pos = (s a).pos ∧ (kickEnergy z c.dt s1 a).acc = (s a).acc ∧
        (kickEnergy z c.dt s1 a).gacc = (s a).gacc ∧ (kickEnergy z c.dt s1 a).vel = (s a).vel + (1 / 2 * c.dt) • ((s a).acc + (s a).gacc) := by
      intro a
      obtain ⟨q1, q2, q3, q4, q5, q6, q7⟩ := dynamics_of (Prod.mk.inj (ke a)).1
      obtain ⟨p1, p2, p3, p4, p5, p6, p7⟩ := dynamics_of (Prod.mk.inj (kickEnergy_keep z c.dt s1 a)).1
      exact ⟨p1.trans q1, p2.trans q2, p3.trans q3, p6.trans q6, p7.trans q7, p4.trans q4⟩
    exact ⟨fun a => (kl a).1.trans (e a).1, fun a => (kl a).2.1.trans (e a).2.1, fun a => (kl a).2.2.1.trans (e a).2.2.1, fun a => (kl a).2.2.2.1.trans (e a).2.2.2.1,
      fun a => (kl a).2.2.2.2.1.trans (e a).2.2.2.2.1, fun a => by rw [if_neg hc]; exact (kl a).2.2.2.2.2.trans (e a).2.2.2.2.2⟩

/-! ### The energy equation of the thermokinetic formulation -/

theorem energy_power (z : Config i) (htk : z.thermokinetic = true) (hev : z.evolve = true) (hup : 1 ≤ z.updates) (dt : ℝ) (it : Int) (hit : z.sph.relaxationSteps ≤ it) (w : Schedule i n) (hw : Faithful w)
    (s t : Fin n → Particle (i + 1)) (hh : ∀ a, 0 < (s a).h) (hr : ∀ a, 0 < (s a).rho) (h : energy z dt it w s = some t) :
    ∑ a, (t a).mass * (t a).dedt = ∑ a, (t a).mass * ∑ j, (t a).gacc j * (t a).vel j := by
  have step : ∀ k (s t : Fin n → Particle (i + 1)), (∀ a, 0 < (s a).h) → (∀ a, 0 < (s a).rho) → dedtPass z dt it w k s = some t →
      (∀ a, 0 < (t a).h) ∧ (∀ a, 0 < (t a).rho) ∧ ∑ a, (t a).mass * (t a).dedt = ∑ a, (t a).mass * ∑ j, (t a).gacc j * (t a).vel j := by
    intro k s t hh hr h
    unfold dedtPass at h
    simp only [if_neg (not_lt.mpr hit)] at h
    have h2 := (applyAllM_iff _ _ _).mp h
    have e1 : ∀ a, _ := fun a => pass_keep (computeDedt z.sph) (fun b => (b.mass, b.h, b.rho, b.gacc, b.vel)) (fun a l => rfl) (w.search s) (w.order k) s a
    have e2 : ∀ a, (t a).mass = (s a).mass ∧ (t a).h = (s a).h ∧ (t a).rho = (s a).rho ∧ (t a).gacc = (s a).gacc ∧ (t a).vel = (s a).vel ∧
        (t a).dedt = (pass (computeDedt z.sph) (w.search s) (w.order k) s a).dedt := by
      intro a
      obtain ⟨u, P, c, hk⟩ := recomputeT_keep _ _ _ _ _ _ (h2 a)
      have := e1 a
      simp only [Prod.mk.injEq] at this
      rw [hk]
      exact ⟨this.1, this.2.1, this.2.2.1, this.2.2.2.1, this.2.2.2.2, rfl⟩
    refine ⟨fun a => by rw [(e2 a).2.1]; exact hh a, fun a => by rw [(e2 a).2.2.1]; exact hr a, ?_⟩
    have := C35_total_energy z.sph s (w.search s) (w.order k) (hw.order k) (hw.lists s hh).symmetric hh hr
    calc _ = ∑ a, (s a).mass * (pass (computeDedt z.sph) (w.search s) (w.order k) s a).dedt := Finset.sum_congr rfl fun a _ => by rw [(e2 a).1, (e2 a).2.2.2.2.2]
      _ = _ := this
      _ = _ := Finset.sum_congr rfl fun a _ => by rw [(e2 a).1, (e2 a).2.2.2.1, (e2 a).2.2.2.2.1]
  have loop : ∀ m (s t : Fin n → Particle (i + 1)), (∀ a, 0 < (s a).h) → (∀ a, 0 < (s a).rho) →
      (m = 0 → ∑ a, (s a).mass * (s a).dedt = ∑ a, (s a).mass * ∑ j, (s a).gacc j * (s a).vel j) → energyPasses z dt it w m s = some t →
      ∑ a, (t a).mass * (t a).dedt = ∑ a, (t a).mass * ∑ j, (t a).gacc j * (t a).vel j := by
    intro m
    induction m with
    | zero => intro s t _ _ h0 h; rw [energyPasses, Option.some.injEq] at h; rw [← h]; exact h0 rfl
    | succ m ih =>
      intro s t hh hr _ h
      rw [energyPasses, if_pos htk] at h
      obtain ⟨s1, h1, h⟩ := Option.bind_eq_some_iff.mp h
      obtain ⟨q1, q2, q4⟩ := step _ s s1 hh hr h1
      exact ih s1 t q1 q2 (fun _ => q4) h
  unfold energy at h
  rw [if_pos hev] at h
  exact loop _ s t hh hr (fun h => by omega) h

theorem head_energy (w : Schedule i n) (hw : ∀ k, VisitsAll (w.order k)) (z : Config i) (hv : z.sph.visc = .constant) (htk : z.thermokinetic = true) (hev : z.evolve = true) (c : Timestep.Clock)
    {s t : Fin n → Particle (i + 1)} (h : exec1 w (headOps z c) s = some t) (a : Fin n) :
    if c.iteration = z.initialIteration then (t a).u = (Eos.init z.eos z.eosParams (s a)).u else (t a).e = (s a).e + 1 / 2 * c.dt * (s a).dedt := by
  unfold headOps at h
  by_cases hc : c.iteration = z.initialIteration
  · rw [if_pos hc, exec1_firstHead w z hv] at h
    rw [if_pos hc]
    obtain ⟨s1, h1, rfl⟩ := Option.map_eq_some_iff.1 h
    have ku : (sphPass w 2 (computeAcceleration z.sph) s1 a).u = (s1 a).u := pass_keep (computeAcceleration z.sph) (fun b => b.u) (fun a l => rfl) _ _ s1 a
    rw [ku]
    have kt := (thermo_keep z _ _ w hw _ _ h1 a).1
    simp only [energetics, dynamics, motion, Prod.mk.injEq] at kt
    obtain ⟨⟨⟨-, -, kp, kvel, -⟩, -⟩, ke, -⟩ := kt
    have hu : (s1 a).u = (s1 a).e - 1 / 2 * dot (s1 a).vel (s1 a).vel - z.phi (s1 a).pos := by
      unfold thermo at h1
      obtain ⟨s2, h2, h3⟩ := Option.bind_eq_some_iff.mp h1
      unfold alphaPass at h3
      rw [hv] at h3
      obtain rfl := Option.some.inj h3
      have : (s2 a).u = (s2 a).e - 1 / 2 * dot (s2 a).vel (s2 a).vel - z.phi (s2 a).pos := by
        refine passM_establish _ (fun b : Particle (i + 1) => b.u = b.e - 1 / 2 * dot b.vel b.vel - z.phi b.pos) (fun a l x hx => ?_) _ _ _ _ h2 a (Or.inl ((hw 0).all a))
        obtain ⟨-, r, u, P, cs, v, x', y, hxe⟩ := density_keep _ _ _ _ _ _ _ hx
        simp only [Eos.computeDensityPressureSoundspeed, Option.bind_eq_bind, Option.pure_def] at hx
        obtain ⟨a1, h4, hx⟩ := Option.bind_eq_some_iff.mp hx
        obtain ⟨a2, h5, hx⟩ := Option.bind_eq_some_iff.mp hx
        unfold computeDensity at h4
        simp only at h4
        split_ifs at h4
        obtain rfl := Option.some.inj h4
        unfold Eos.recoverIf at h5
        simp only [setup, hev, htk, Bool.and_self, if_true] at h5
        unfold recoverInternalEnergy at h5
        simp only at h5
        split_ifs at h5
        obtain rfl := Option.some.inj h5
        obtain rfl := Option.some.inj hx
        have k1 := computePressure_keep z.eos z.eosParams (d := i + 1)
        have k2 := computeSoundspeed_keep z.eos z.eosParams (d := i + 1)
        have k3 := divvIf_keep z.sph c.dt
        clear hxe
        generalize hb : ({ a with rho := _, u := _ } : Particle (i + 1)) = b
        obtain ⟨P', hP⟩ := k1 b
        obtain ⟨c', hc'⟩ := k2 { b with P := P' }
        obtain ⟨x2, y2, hxy⟩ := k3 (computeSignalspeed { b with P := P', cs := c' } l) l
        rw [hP, hc']
        simp only [setup]
        rw [hxy]
        subst hb
        rfl
      exact this
    rw [hu, ke, kp, kvel]
    have hi : ∀ b : Particle (i + 1), (Eos.init z.eos z.eosParams b).vel = b.vel ∧ (Eos.init z.eos z.eosParams b).pos = b.pos := by
      intro b; cases z.eos <;> exact ⟨rfl, rfl⟩
    unfold initialise
    rw [hv]
    simp only [if_pos htk, applyAll, setTotalEnergy]
    ring
  · rw [if_neg hc, exec1_nextHead w z] at h
    rw [if_neg hc]
    obtain ⟨s1, h1, rfl⟩ := Option.map_eq_some_iff.1 h
    have kt := (thermo_keep z _ _ w hw _ _ h1 a).1
    have ke : (sphPass w 2 (computeAcceleration z.sph) s1 a).e = (s1 a).e := pass_keep (computeAcceleration z.sph) (fun b => b.e) (fun a l => rfl) _ _ s1 a
    rw [ke]
    simp only [energetics, Prod.mk.injEq] at kt
    rw [kt.2.1]
    simp only [kickDrift, applyAll, drift, saveVelocityhalf, kickV, kickEnergy, if_pos hev, if_pos htk, kickE]

/-- What an iteration does to the total energies of the particles. -/
structure EnergyStep (z : Config i) (c : Timestep.Clock) (s t : Fin n → Particle (i + 1)) : Prop where
  energy : ∀ a, (t a).e = if c.iteration = z.initialIteration then 1 / 2 * ∑ j, (s a).vel j * (s a).vel j + (Eos.init z.eos z.eosParams (s a)).u + z.phi (s a).pos
    else (s a).e + 1 / 2 * c.dt * (s a).dedt + 1 / 2 * c.dt * (t a).dedt
  power : ∑ a, (t a).mass * (t a).dedt = gravityPower t

theorem tail_energy (w : Schedule i n) (hw : Faithful w) (z : Config i) (htk : z.thermokinetic = true) (hev : z.evolve = true) (hup : 1 ≤ z.updates) (c : Timestep.Clock)
    (hit : z.sph.relaxationSteps ≤ c.iteration) {s t : Fin n → Particle (i + 1)} (hh : ∀ a, 0 < (s a).h) (hr : ∀ a, 0 < (s a).rho) (h : exec1 w (tailOps z c) s = some t) :
    (∀ a, (t a).e = if c.iteration = z.initialIteration then 1 / 2 * ∑ j, (s a).vel j * (s a).vel j + (s a).u + z.phi (s a).pos else (s a).e + 1 / 2 * c.dt * (t a).dedt) ∧
    ∑ a, (t a).mass * (t a).dedt = ∑ a, (t a).mass * ∑ j, (t a).gacc j * (t a).vel j := by
  unfold tailOps at h
  rw [exec1_append] at h
  obtain ⟨s2, h1, h2⟩ := Option.bind_eq_some_iff.1 h
  have kl : ∀ a, (t a).mass = (s2 a).mass ∧ (t a).e = (s2 a).e ∧ (t a).dedt = (s2 a).dedt ∧ (t a).gacc = (s2 a).gacc ∧ (t a).vel = (s2 a).vel := by
    intro a
    rw [exec1_last] at h2
    unfold checkNegativity at h2
    split_ifs at h2
    rw [← Option.some.inj h2]
    unfold updateH
    cases z.hMode <;> exact ⟨rfl, rfl, rfl, rfl, rfl⟩
  have power : ∑ a, (s2 a).mass * (s2 a).dedt = ∑ a, (s2 a).mass * ∑ j, (s2 a).gacc j * (s2 a).vel j → ∑ a, (t a).mass * (t a).dedt = ∑ a, (t a).mass * ∑ j, (t a).gacc j * (t a).vel j := by
    intro h
    calc _ = _ := Finset.sum_congr rfl fun a _ => by rw [(kl a).1, (kl a).2.2.1]
      _ = _ := h
      _ = _ := Finset.sum_congr rfl fun a _ => by rw [(kl a).1, (kl a).2.2.2.1, (kl a).2.2.2.2]
  by_cases hc : c.iteration = z.initialIteration
  · rw [if_pos hc, exec1_firstTail w z _ _ hit, if_pos htk] at h1
    refine ⟨fun a => ?_, power (energy_power z htk hev hup _ _ hit w hw (applyAll (setTotalEnergy z.phi) s) _ (fun a => hh a) (fun a => hr a) h1)⟩
    have ke := (Prod.mk.inj (energy_keep z _ _ w _ _ h1 a)).2
    simp only [Prod.mk.injEq] at ke
    rw [(kl a).2.1, ke.2, if_pos hc]
    rfl
  · rw [if_neg hc, exec1_nextTail w z _ _ hit] at h1
    obtain ⟨s1, h3, rfl⟩ := Option.map_eq_some_iff.1 h1
    have kk : ∀ a, (kickEnergy z c.dt s1 a).mass = (s1 a).mass ∧ (kickEnergy z c.dt s1 a).e = (s1 a).e + 1 / 2 * c.dt * (s1 a).dedt ∧ (kickEnergy z c.dt s1 a).dedt = (s1 a).dedt ∧
        (kickEnergy z c.dt s1 a).gacc = (s1 a).gacc ∧ (kickEnergy z c.dt s1 a).vel = (s1 a).vel := by
      intro a
      simp only [kickEnergy, if_pos hev, if_pos htk]; exact ⟨rfl, rfl, rfl, rfl, rfl⟩
    refine ⟨fun a => ?_, power ?_⟩
    · have ke := (Prod.mk.inj (energy_keep z _ _ w _ _ h3 a)).2
      simp only [Prod.mk.injEq] at ke
      rw [(kl a).2.1, (kk a).2.1, ke.2, if_neg hc, (kl a).2.2.1, (kk a).2.2.1]
      rfl
    · have := energy_power z htk hev hup _ _ hit w hw (applyAll (kickV c.dt) s) _ (fun a => hh a) (fun a => hr a) h3
      calc _ = _ := Finset.sum_congr rfl fun a _ => by rw [(kk a).1, (kk a).2.2.1]
        _ = _ := this
        _ = _ := Finset.sum_congr rfl fun a _ => by rw [(kk a).1, (kk a).2.2.2.1, (kk a).2.2.2.2]

end FleCSPH.Newtonian
