import Verif.Props.C36run
import Verif.Props.C39
import Verif.Props.C61
import Verif.Props.C67
/-! Non-vacuity of the theorems about whole runs (C34_run, C35_run, C36_run_partial, C39_hydro, C60_clock, C61_restart_partial, C61_violated):
two gas particles in the plane which overlap and approach each other. -/
namespace FleCSPH.RunExamples
open FleCSPH Sph Spec Geometry Driver Integration Kernels

/-- A tree which delivers all particles as neighbours of each, and visits them in their order. -/
def everybody (i : Fin 3) (n : Nat) : Schedule i n := ⟨fun _ _ => List.finRange n, fun _ => List.finRange n⟩

theorem everybody_faithful (i : Fin 3) (n : Nat) : Faithful (everybody i n) :=
  ⟨fun _ _ => ⟨fun _ => List.nodup_finRange n, fun _ b _ => List.mem_finRange b⟩, fun _ => ⟨List.nodup_finRange n, List.mem_finRange⟩⟩

/-- Two particles at distance 1/2, smoothing lengths 1, velocities towards each other. -/
noncomputable def two (a : Fin 2) : Particle 2 :=
  { id := a, mass := 1, h := 1, pos := ![(a : ℕ) / 2, 0], vel := ![1 / 2 - (a : ℕ), 1 / 3], vhalf := 0, acc := 0, gacc := 0, gpot := 0, rho := 1, P := 1, cs := 1,
    alpha := 0, u := 1, e := 0, dudt := 0, dedt := 0, K := 0, divv := 0, ddivvdt := 0, vsig := 0, dt := 0, ye := 0 }

/-- The parameters of the sod test, without viscosity. -/
noncomputable def gas (evolve : Bool) (e : Eos.Kind) : Config 1 :=
  { sph := { kernel := .wendlandC4, visc := .constant, alpha := 0, beta := 0, eps := 1 / 100, external := fun _ => 0, relaxationSteps := 0 }
    eos := e, eosParams := ⟨7 / 5, 0, 0⟩, phi := fun _ => 0, evolve := evolve, thermokinetic := true, updates := 1, alphaMax := 2, delta := 1 / 10, l := 1 / 10
    beta := 0, gamma := 0, repulsionRadius := 0, repulsionGamma := 0, hMode := .fixed, eta := 3 / 2, width := 2, cfl := 1 / 4, adaptive := false
    outputs := ⟨fun _ => 0, fun _ => 1⟩, initialIteration := 0 }

noncomputable def start (dt : ℝ) : State 1 2 := ⟨⟨0, dt, 0, 0, 0, fun _ => 0⟩, two⟩

theorem gas_inviscid : Inviscid (gas false .polytropic) (fun _ => 0) :=
  ⟨by simp [gas], rfl, rfl, rfl, rfl, rfl, fun _ => rfl⟩

theorem gas_runs (k : Nat) (hk : 0 < k) (dt : ℝ) : ∃ st', run (gas false .polytropic) (List.replicate k (everybody 1 2)) (start dt) = some st' ∧
    st'.clock.iteration = 0 + (List.replicate k (everybody 1 2)).length ∧ ∀ a, 0 < (st'.parts a).mass ∧ 0 < (st'.parts a).h ∧ 0 < (st'.parts a).rho ∧ 0 ≤ (st'.parts a).P :=
  C36_run_partial (gas false .polytropic) (Or.inl Poly.wendlandC4) rfl rfl rfl (by norm_num [gas]) (by norm_num [gas]) _
    (by intro h; have := congrArg List.length h; simp at this; omega) (fun w hw => by rw [List.eq_of_mem_replicate hw]; exact everybody_faithful _ _) (start dt) rfl
    (fun a => by simp [start, two])

/-- C36_run_partial, C34_run: a run of any length exists, and the momentum which is conserved is not zero. -/
example (k : Nat) (hk : 0 < k) (dt : ℝ) : ∃ st', run (gas false .polytropic) (List.replicate k (everybody 1 2)) (start dt) = some st' ∧
    ∑ a, (st'.parts a).mass * (st'.parts a).vel 1 = 2 / 3 := by
  obtain ⟨st', h, -⟩ := gas_runs k hk dt
  have := (C34_run (gas false .polytropic) (fun _ => rfl) (by norm_num [gas]) (by norm_num [gas]) le_rfl _
    (fun w hw => by rw [List.eq_of_mem_replicate hw]; exact everybody_faithful _ _) (start dt) st' rfl (fun a => by simp [start, two]) h).2.1 1
  refine ⟨st', h, this.trans ?_⟩
  simp [Fin.sum_univ_two, start, two]; norm_num

/-- A polytropic state with past iterations can always be continued. -/
theorem gas_goes_on (st : State 1 2) (hs : ∀ a, 0 < (st.parts a).mass ∧ 0 < (st.parts a).h ∧ 0 ≤ (st.parts a).K) (hi : 0 < st.clock.iteration) :
    ∃ st', iteration (gas false .polytropic) (everybody 1 2) st = some st' ∧ (∀ a, 0 < (st'.parts a).mass ∧ 0 < (st'.parts a).h ∧ 0 ≤ (st'.parts a).K) ∧
      st'.clock.iteration = st.clock.iteration + 1 := by
  obtain ⟨st', h1, h2, h3, h4, -⟩ := iteration_some (gas false .polytropic) (Or.inl Poly.wendlandC4) rfl rfl rfl (by norm_num [gas]) (by norm_num [gas])
    (everybody 1 2) (everybody_faithful _ _) st (fun a => ⟨(hs a).1, (hs a).2.1⟩) (fun h => absurd h (by show st.clock.iteration ≠ 0; omega)) (fun _ a => (hs a).2.2)
  exact ⟨st', h1, fun a => ⟨(h2 a).1, (h2 a).2, h3 a⟩, h4⟩

theorem gas_begins (dt : ℝ) : ∃ st', iteration (gas false .polytropic) (everybody 1 2) (start dt) = some st' ∧
    (∀ a, 0 < (st'.parts a).mass ∧ 0 < (st'.parts a).h ∧ 0 ≤ (st'.parts a).K) ∧ st'.clock.iteration = 1 := by
  obtain ⟨st', h1, h2, h3, h4, -⟩ := iteration_some (gas false .polytropic) (Or.inl Poly.wendlandC4) rfl rfl rfl (by norm_num [gas]) (by norm_num [gas])
    (everybody 1 2) (everybody_faithful _ _) (start dt) (fun a => by simp [start, two]) (fun _ a => by simp [start, two]) (fun h => absurd rfl h)
  exact ⟨st', h1, fun a => ⟨(h2 a).1, (h2 a).2, h3 a⟩, h4⟩

/-- C39_hydro: after the first iteration, one with `dt`, one with `dt`, one with `-dt`. -/
example (dt : ℝ) : ∃ st st1 st2 st3 : State 1 2, (∀ a, 0 < (st.parts a).h) ∧ 0 < st.clock.iteration ∧ iteration (gas false .polytropic) (everybody 1 2) st = some st1 ∧
    iteration (gas false .polytropic) (everybody 1 2) ⟨{ st1.clock with dt := dt }, st1.parts⟩ = some st2 ∧
    iteration (gas false .polytropic) (everybody 1 2) ⟨{ st2.clock with dt := -dt }, st2.parts⟩ = some st3 ∧ ∀ a, (st3.parts a).pos = (st1.parts a).pos := by
  obtain ⟨st, h, q, r⟩ := gas_begins dt
  obtain ⟨st1, h1, q1, r1⟩ := gas_goes_on st q (by omega)
  obtain ⟨st2, h2, q2, r2⟩ := gas_goes_on ⟨{ st1.clock with dt := dt }, st1.parts⟩ q1 (by simp only; omega)
  obtain ⟨st3, h3, q3, r3⟩ := gas_goes_on ⟨{ st2.clock with dt := -dt }, st2.parts⟩ q2 (by simp only at r2 ⊢; omega)
  exact ⟨st, st1, st2, st3, fun a => (q a).2.1, by omega, h1, h2, h3, fun a => (C39_hydro (gas false .polytropic) _ gas_inviscid rfl rfl _ _ _
    (everybody_faithful _ _) (everybody_faithful _ _) (everybody_faithful _ _) st st1 st2 st3 (fun a => (q a).2.1) (by show 0 ≤ st.clock.iteration; omega)
    (by show 0 < st.clock.iteration; omega) dt h1 h2 h3 a).1⟩

/-- C67_stop, C67_iterations: with `final_iteration = 1` the loop ends after the iterations 0 and 1. -/
example (dt : ℝ) (ws : List (Schedule 1 2)) : ∃ st', mainLoop (gas false .polytropic) 1 0 (everybody 1 2 :: everybody 1 2 :: ws) (start dt) = some (st', true) ∧ st'.clock.iteration = 2 := by
  obtain ⟨st, h, q, r⟩ := gas_begins dt
  obtain ⟨st1, h1, q1, r1⟩ := gas_goes_on st q (by omega)
  refine ⟨st1, ?_, by omega⟩
  rw [mainLoop, h, Option.bind_some, if_neg (by unfold Timestep.terminate; rw [r]; norm_num), mainLoop, h1, Option.bind_some, if_pos (by unfold Timestep.terminate; rw [r1, r]; norm_num)]

/-- C61_restart_partial: a snapshot in the second iteration, and a restart from it. -/
example (dt : ℝ) : ∃ st out st' r' : State 1 2, 0 < st.clock.iteration ∧ outputState (gas false .polytropic) (everybody 1 2) st = some out ∧
    run (gas false .polytropic) [everybody 1 2, everybody 1 2] st = some st' ∧
    run { gas false .polytropic with initialIteration := st.clock.iteration } [everybody 1 2, everybody 1 2]
      (load { gas false .polytropic with initialIteration := st.clock.iteration } 0 0 (save out)) = some r' ∧ SameMotion st' r' := by
  obtain ⟨st, h, q, r⟩ := gas_begins dt
  obtain ⟨st1, h1, q1, r1⟩ := gas_goes_on st q (by omega)
  obtain ⟨st2, h2, q2, r2⟩ := gas_goes_on st1 q1 (by omega)
  have hrun : run (gas false .polytropic) [everybody 1 2, everybody 1 2] st = some st2 := by
    simp only [run, List.foldlM_cons, List.foldlM_nil, Option.bind_eq_bind, h1, Option.bind_some, h2, Option.pure_def]
  obtain ⟨out, hout⟩ : ∃ out, outputState (gas false .polytropic) (everybody 1 2) st = some out := by
    unfold iteration at h1
    obtain ⟨x, hx, -⟩ := Option.bind_eq_some_iff.mp h1
    exact ⟨_, Option.map_eq_some_iff.mpr ⟨x, hx, rfl⟩⟩
  have e := snapshot_parts _ rfl _ _ _ _ (by show st.clock.iteration ≠ 0; omega) hout h1
  obtain ⟨x1, hx1, -, -, -, x2⟩ := iteration_some (gas false .polytropic) (Or.inl Poly.wendlandC4) rfl rfl rfl (by norm_num [gas]) (by norm_num [gas])
    (everybody 1 2) (everybody_faithful _ _) st (fun a => ⟨(q a).1, (q a).2.1⟩) (fun h => absurd h (by show st.clock.iteration ≠ 0; omega)) (fun _ a => (q a).2.2)
  obtain rfl := Option.some.inj (hx1.symm.trans h1)
  obtain ⟨r', hr', -⟩ := C36_run_partial { gas false .polytropic with initialIteration := st.clock.iteration } (Or.inl Poly.wendlandC4) rfl rfl rfl
    (by norm_num [gas]) (by norm_num [gas]) [everybody 1 2, everybody 1 2] (by simp) (fun w hw => by
      have : w = everybody 1 2 := by simpa using hw
      rw [this]; exact everybody_faithful _ _)
    (load { gas false .polytropic with initialIteration := st.clock.iteration } 0 0 (save out)) (by rw [← e.1]; rfl)
    (fun a => by
      show 0 < (out.parts a).mass ∧ 0 < (out.parts a).h ∧ 0 ≤ (out.parts a).P ∧ 0 ≤ (out.parts a).rho
      rw [e.2]
      exact ⟨(q1 a).1, (q1 a).2.1, (x2 a).2, (x2 a).1.le⟩)
  exact ⟨st, out, st2, r', by omega, hout, hrun, hr', C61_restart_partial (gas false .polytropic) _ gas_inviscid rfl rfl _ [everybody 1 2] [everybody 1 2] _
    (everybody_faithful _ _) (everybody_faithful _ _) (by simp [everybody_faithful]) (by simp [everybody_faithful]) rfl 0 0 st out st2 r' (fun a => (q a).2.1)
    (by show 0 ≤ st.clock.iteration; omega) (by show 0 < st.clock.iteration; omega) hout hrun hr'⟩

/-- What the first iteration keeps when the equation of state does nothing. -/
def Warm {d : Nat} (b : Particle d) : Prop := 0 < b.mass ∧ 0 < b.h ∧ b.e = 1 / 2 * dot b.vel b.vel + 1 ∧ 0 ≤ b.P ∧ 0 ≤ b.u

theorem recover_warm {d : Nat} (b : Particle d) (hb : Warm b) : recoverInternalEnergy (fun _ => 0) b = some { b with u := 1 } := by
  have : b.e - 1 / 2 * dot b.vel b.vel - 0 = 1 := by rw [hb.2.2.1]; ring
  simp only [recoverInternalEnergy, this]
  rw [if_pos one_pos]

theorem heating_thermo (dt : ℝ) : ∃ t, thermo (gas true .noEos) dt true (everybody 1 2) (initialise (gas true .noEos) two) = some t ∧ ∀ a, Warm (t a) ∧ (t a).u = 1 ∧ 0 < (t a).rho := by
  set z := gas true .noEos with hz
  set w := everybody 1 2
  set s := initialise z two with hs
  have hs0 : ∀ a, Warm (s a) ∧ (s a).u = 1 := fun a => by
    refine ⟨⟨one_pos, one_pos, ?_, zero_le_one, zero_le_one⟩, rfl⟩
    show 1 / 2 * dot (two a).vel (two a).vel + 1 + 0 = 1 / 2 * dot (two a).vel (two a).vel + 1
    ring
  have h1 : ∃ t, passM (Eos.computeDensityPressureSoundspeed z.sph z.eos z.eosParams (setup z dt)) (w.search s) (w.order 0) s = some t ∧ ∀ a, Warm (t a) ∧ (t a).u = 1 := by
    refine passM_some _ (fun t => ∀ a, Warm (t a) ∧ (t a).u = 1) _ (fun t a ht => ?_) _ s hs0
    obtain ⟨_, hd⟩ := density_some z.sph (Or.inl Poly.wendlandC4) (t a) ((w.search s a).map t) ⟨t a, List.mem_map_of_mem (List.mem_finRange a), rfl⟩
      (fun b hb => by obtain ⟨c, _, rfl⟩ := List.mem_map.mp hb; exact (ht c).1.1) (ht a).1.2.1
      (fun b hb => by obtain ⟨c, _, rfl⟩ := List.mem_map.mp hb; exact (ht c).1.2.1)
    have hx : ∃ r v, Eos.computeDensityPressureSoundspeed z.sph z.eos z.eosParams (setup z dt) (t a) ((w.search s a).map t) =
        some { t a with rho := r, u := 1, vsig := v } := by
      rw [Eos.computeDensityPressureSoundspeed, hd, Option.bind_eq_bind, Option.bind_some]
      apply Exists.intro
      apply Exists.intro
      rw [Eos.recoverIf, if_pos (show (setup z dt).thermokinetic = true from rfl)]
      show (recoverInternalEnergy (fun _ => 0) _).bind _ = _
      have hw' : ∀ r, Warm ({ t a with rho := r } : Particle (_ + 1)) := fun r => (ht a).1
      rw [recover_warm _ (hw' _), Option.bind_some]
      rfl
    obtain ⟨r, v, hx⟩ := hx
    refine ⟨_, hx, fun b => ?_⟩
    by_cases hb : b = a
    · subst hb
      rw [Function.update_self]
      exact ⟨⟨(ht b).1.1, (ht b).1.2.1, (ht b).1.2.2.1, (ht b).1.2.2.2.1, zero_le_one⟩, rfl⟩
    · rw [Function.update_of_ne hb]; exact ht b
  obtain ⟨t, h1, hw⟩ := h1
  have h2 : thermo z dt true w s = some (applyAll saveVelocityhalf t) := by
    unfold thermo sphPassM; rw [h1]; rfl
  exact ⟨_, h2, fun a => ⟨(hw a).1, (hw a).2, (thermo_keep z dt true w (everybody_faithful 1 2).order s _ h2 a).2⟩⟩

theorem heating_energy (dt : ℝ) (s : Fin 2 → Particle 2) (hs : ∀ a, Warm (s a) ∧ 0 < (s a).rho) :
    ∃ t, energy (gas true .noEos) dt 0 (everybody 1 2) s = some t ∧ ∀ a, Warm (t a) ∧ 0 < (t a).rho ∧ (t a).u = 1 := by
  set z := gas true .noEos with hz
  set w := everybody 1 2
  set t3 := sphPass w 4 (computeDedt z.sph) s with ht3
  have hw3 : ∀ a, Warm (t3 a) ∧ 0 < (t3 a).rho := fun a => by
    have := pass_keep (computeDedt z.sph) (fun b => (b.mass, b.h, b.e, b.vel, b.P, b.u, b.rho)) (fun a l => rfl) (w.search s) (w.order 4) s a
    simp only [Prod.mk.injEq] at this
    obtain ⟨q1, q2, q3, q4, q5, q6, q7⟩ := this
    have e : t3 = pass (computeDedt z.sph) (w.search s) (w.order 4) s := rfl
    rw [← e] at q1 q2 q3 q4 q5 q6 q7
    unfold Warm
    rw [q1, q2, q3, q4, q5, q6, q7]
    exact hs a
  refine ⟨fun a => { t3 a with u := 1 }, ?_, fun a => ⟨⟨(hw3 a).1.1, (hw3 a).1.2.1, (hw3 a).1.2.2.1, (hw3 a).1.2.2.2.1, zero_le_one⟩, (hw3 a).2, rfl⟩⟩
  have h4 : applyAllM (Eos.recomputePressureSoundspeedThermokinetic z.eos z.eosParams z.phi dt) t3 = some fun a => { t3 a with u := 1 } := by
    rw [applyAllM_iff]
    intro a
    unfold Eos.recomputePressureSoundspeedThermokinetic
    show (recoverInternalEnergy (fun _ => 0) _).bind _ = _
    rw [recover_warm _ (hw3 a).1, Option.bind_some]
    rfl
  unfold energy
  rw [if_pos (show z.evolve = true from rfl)]
  show (if z.thermokinetic = true then dedtPass z dt 0 w (4 + 0) s else some (dudtPass z dt 0 w (4 + 0) s)).bind (energyPasses z dt 0 w 0) = _
  rw [if_pos (show z.thermokinetic = true from rfl)]
  show (applyAllM (Eos.recomputePressureSoundspeedThermokinetic z.eos z.eosParams z.phi dt) t3).bind _ = _
  rw [h4]; rfl

theorem heating_begins (dt : ℝ) : ∃ st', iteration (gas true .noEos) (everybody 1 2) (start dt) = some st' := by
  set z := gas true .noEos with hz
  set w := everybody 1 2
  obtain ⟨t1, h2, hw1⟩ := heating_thermo dt
  set t2 := forces z 0 w t1 with ht2
  have k2 := forces_keep z 0 w t1
  have hw2 : ∀ a, Warm (t2 a) ∧ 0 < (t2 a).rho := fun a => by
    obtain ⟨x, y, g, h⟩ := k2 a
    rw [ht2, h]; exact ⟨(hw1 a).1, (hw1 a).2.2⟩
  obtain ⟨t4, h5, hw4⟩ := heating_energy dt t2 hw2
  have h6 : firstBranch z w (start dt) = some ⟨(start dt).clock, t4⟩ := by
    unfold firstBranch
    show (thermo z dt true w (initialise z two)).bind _ = _
    rw [h2, Option.bind_some]
    show (energy z dt 0 w t2).map _ = _
    rw [h5]; rfl
  refine ⟨⟨Timestep.advance false (start dt).clock, t4⟩, ?_⟩
  unfold iteration
  rw [if_pos (show (start dt).clock.iteration = z.initialIteration from rfl), h6, Option.bind_some]
  have h7 : checkNegativity z (updateH z t4) = some t4 := by
    unfold checkNegativity
    rw [if_pos]
    · rfl
    · intro a
      exact ⟨(hw4 a).2.1.le, (hw4 a).1.2.2.2.1, fun _ => (hw4 a).1.2.2.2.2⟩
  show (checkNegativity z (updateH z t4)).bind _ = _
  rw [h7]; rfl

/-- C35_run: the first iteration of a run with evolved energy. -/
example (dt : ℝ) : ∃ st', run (gas true .noEos) [everybody 1 2] (start dt) = some st' ∧ ∑ a, (st'.parts a).mass * (st'.parts a).e = 2 + 1 / 4 + 1 / 9 := by
  obtain ⟨st', h⟩ := heating_begins dt
  have hrun : run (gas true .noEos) [everybody 1 2] (start dt) = some st' := by
    simp only [run, List.foldlM_cons, List.foldlM_nil, Option.bind_eq_bind, h, Option.bind_some, Option.pure_def]
  refine ⟨st', hrun, (C35_run (gas true .noEos) rfl rfl le_rfl (by norm_num [gas]) (by norm_num [gas]) le_rfl _ (by simp) (by simp [everybody_faithful])
    (start dt) st' rfl (fun a => by simp [start, two]) hrun).trans ?_⟩
  simp [Fin.sum_univ_two, start, two, gas, Eos.init]; norm_num

/-- C61_violated: a restart at time 1 of a run with screen output every 1/2. -/
example : ∃ (z : Config 1) (f : Snapshot 1 2) (st' : State 1 2), z.adaptive = true ∧ 0 < z.outputs.interval .screen ∧ 0 < f.time ∧
    z.initialIteration = f.iteration ∧ iteration z (everybody 1 2) (load z 0 1 f) = some st' := by
  obtain ⟨st', h, -⟩ := iteration_some { gas false .polytropic with adaptive := true, outputs := ⟨fun k => if k = .screen then 1 / 2 else 0, fun _ => 1⟩, initialIteration := 7 }
    (Or.inl Poly.wendlandC4) rfl rfl rfl (by norm_num [gas]) (by norm_num [gas]) (everybody 1 2) (everybody_faithful _ _)
    (load { gas false .polytropic with adaptive := true, outputs := ⟨fun k => if k = .screen then 1 / 2 else 0, fun _ => 1⟩, initialIteration := 7 } 0 1
      ⟨1, 7, 1 / 100, fun a => record (two a)⟩) (fun a => by simp [load, unrecord, record, two]) (fun _ a => by simp [load, unrecord, record, two])
    (fun h => absurd rfl h)
  exact ⟨_, _, st', rfl, by norm_num, by norm_num, rfl, h⟩

end FleCSPH.RunExamples
