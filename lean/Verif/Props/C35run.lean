import Verif.Props.C34run
/-! C35 over whole runs of the hydro driver. -/
namespace FleCSPH
open Sph Spec Geometry Driver Integration

variable {i : Fin 3} {n : Nat}

/-- The total of the energies the thermokinetic formulation integrates. -/
noncomputable def energyTotal (s : Fin n → Particle (i + 1)) : ℝ := ∑ a, (s a).mass * (s a).e

private theorem energetics_of {a b : Particle (i + 1)} (h : energetics a = energetics b) :
    a.mass = b.mass ∧ a.h = b.h ∧ a.e = b.e ∧ a.dedt = b.dedt := by
  simp only [energetics, dynamics, motion, Prod.mk.injEq] at h
  tauto

private theorem kick_total (z : Config i) (htk : z.thermokinetic = true) (hev : z.evolve = true) (dt : ℝ) (s : Fin n → Particle (i + 1))
    (h : ∑ a, (s a).mass * (s a).dedt = 0) : energyTotal (kickEnergy z dt s) = energyTotal s := by
  have : energyTotal (kickEnergy z dt s) = energyTotal s + 1 / 2 * dt * ∑ a, (s a).mass * (s a).dedt := by
    simp only [energyTotal, kickEnergy, if_pos hev, if_pos htk, applyAll, kickE, Finset.mul_sum, ← Finset.sum_add_distrib]
    exact Finset.sum_congr rfl fun a _ => by ring
  rw [this, h]; ring

private theorem kick_keep (z : Config i) (htk : z.thermokinetic = true) (hev : z.evolve = true) (dt : ℝ) (s : Fin n → Particle (i + 1)) (a : Fin n) :
    (kickEnergy z dt s a).mass = (s a).mass ∧ (kickEnergy z dt s a).h = (s a).h ∧ (kickEnergy z dt s a).dedt = (s a).dedt ∧
    (kickEnergy z dt s a).rho = (s a).rho := by
  simp only [kickEnergy, if_pos hev, if_pos htk]; exact ⟨rfl, rfl, rfl, rfl⟩

theorem total_congr {s t : Fin n → Particle (i + 1)} (h : ∀ a, (t a).mass = (s a).mass ∧ (t a).e = (s a).e) : energyTotal t = energyTotal s :=
  Finset.sum_congr rfl fun a _ => by rw [(h a).1, (h a).2]

/-- The energy a run starts from: kinetic, internal as the equation of state initialises it, and potential. -/
noncomputable def initialEnergy (z : Config i) (s : Fin n → Particle (i + 1)) : ℝ :=
  ∑ a, (s a).mass * (1 / 2 * ∑ j, (s a).vel j * (s a).vel j + (Eos.init z.eos z.eosParams (s a)).u + z.phi (s a).pos)

/-- The energy of the first iteration up to the end of its energy equation; `s2` are the particles after their time steps were computed. -/
theorem first_total (z : Config i) (htk : z.thermokinetic = true) (hev : z.evolve = true) (hup : 1 ≤ z.updates) (w : Schedule i n) (hw : Faithful w) (it : Int) (dt dt' : ℝ)
    (s s1 s2 s3 : Fin n → Particle (i + 1)) (hs : Sane s) (hit : z.sph.relaxationSteps ≤ it) (t1 : thermo z dt true w (initialise z s) = some s1)
    (ka : ∀ a, ∃ x, s2 a = { forces z it w s1 a with dt := x }) (t3 : energy z dt' it w s2 = some s3) :
    Sane s3 ∧ (∀ a, 0 < (s3 a).rho) ∧ ∑ a, (s3 a).mass * (s3 a).dedt = 0 ∧ energyTotal s3 = initialEnergy z s := by
  have hl : ∀ s : Fin n → Particle (i + 1), (∀ a, 0 < (s a).h) → SymmetricLists s (w.search s) := fun s hs => (hw.lists s hs).symmetric
  have ki := initialise_keep z s
  have kt := thermo_keep z _ _ w hw.order _ _ t1
  have kf := forces_keep z it w s1
  have ke := energy_keep z _ _ w _ _ t3
  have kg := forces_gacc z it w hw s1 hit
  have e1 : ∀ a, (s1 a).mass = (s a).mass ∧ (s1 a).h = (s a).h ∧ (s1 a).e = (initialise z s a).e := by
    intro a
    have h1 := energetics_of (kt a).1
    have h2 := ki a
    simp only [Prod.mk.injEq] at h2
    exact ⟨h1.1.trans h2.2.1, h1.2.1.trans h2.2.2.1, h1.2.2.1⟩
  have e2 : ∀ a, (s2 a).mass = (s1 a).mass ∧ (s2 a).h = (s1 a).h ∧ (s2 a).e = (s1 a).e ∧ (s2 a).rho = (s1 a).rho ∧
      (s2 a).gacc = 0 := by
    intro a
    obtain ⟨x, hx⟩ := ka a
    have hg := kg a
    obtain ⟨a1, a2, a3, hf⟩ := kf a
    rw [hx]
    refine ⟨?_, ?_, ?_, ?_, hg⟩ <;> rw [hf]
  have e3 : ∀ a, (s3 a).mass = (s2 a).mass ∧ (s3 a).h = (s2 a).h ∧ (s3 a).e = (s2 a).e ∧ (s3 a).rho = (s2 a).rho := by
    intro a
    have := ke a
    simp only [dynamics, motion, Prod.mk.injEq] at this
    tauto
  have bal := energy_balanced z htk hev hup _ _ hit w hw.order hl _ _
    (fun a => by rw [(e2 a).2.1, (e1 a).2.1]; exact (hs a).2) (fun a => by rw [(e2 a).2.2.2.1]; exact (kt a).2) (fun a => (e2 a).2.2.2.2) t3
    (fun s nbs order => C35_total_energy z.sph s nbs order)
  refine ⟨fun a => ?_, fun a => ?_, bal, ?_⟩
  · show 0 < (s3 a).mass ∧ 0 < (s3 a).h
    rw [(e3 a).1, (e3 a).2.1, (e2 a).1, (e2 a).2.1, (e1 a).1, (e1 a).2.1]; exact hs a
  · show 0 < (s3 a).rho
    rw [(e3 a).2.2.2, (e2 a).2.2.2.1]; exact (kt a).2
  · refine Finset.sum_congr rfl fun a _ => ?_
    show (s3 a).mass * (s3 a).e = _
    rw [(e3 a).1, (e2 a).1, (e1 a).1, (e3 a).2.2.1, (e2 a).2.2.1, (e1 a).2.2]
    congr 1
    have hi : ∀ b : Particle (i + 1), (Eos.init z.eos z.eosParams b).vel = b.vel ∧ (Eos.init z.eos z.eosParams b).pos = b.pos := by
      intro b; cases z.eos <;> exact ⟨rfl, rfl⟩
    have hc : ∀ b : Particle (i + 1), (Cullen.initializeAlpha z.sph b).e = b.e := by
      intro b; unfold Cullen.initializeAlpha; cases z.sph.visc <;> rfl
    have hE : (setTotalEnergy z.phi (Eos.init z.eos z.eosParams (s a))).e =
        1 / 2 * ∑ j, (s a).vel j * (s a).vel j + (Eos.init z.eos z.eosParams (s a)).u + z.phi (s a).pos := by
      unfold setTotalEnergy
      simp only [(hi _).1, (hi _).2]; rfl
    rw [← hE]
    unfold initialise
    cases z.sph.visc
    · simp only [if_pos htk]; rfl
    · simp only [if_pos htk]; exact hc _

theorem iteration_total (z : Config i) (htk : z.thermokinetic = true) (hev : z.evolve = true) (hup : 1 ≤ z.updates)
    (heta : 0 < z.eta) (hwidth : 0 < z.width) (w : Schedule i n) (hw : Faithful w)
    (st st' : State i n) (hs : Sane st.parts) (hit : z.sph.relaxationSteps ≤ st.clock.iteration)
    (hb : st.clock.iteration ≠ z.initialIteration → ∑ a, (st.parts a).mass * (st.parts a).dedt = 0) (h : iteration z w st = some st') :
    Sane st'.parts ∧ ∑ a, (st'.parts a).mass * (st'.parts a).dedt = 0 ∧ st'.clock.iteration = st.clock.iteration + 1 ∧
    energyTotal st'.parts = if st.clock.iteration = z.initialIteration then initialEnergy z st.parts else energyTotal st.parts := by
  unfold iteration at h
  obtain ⟨st1, h1, h⟩ := Option.bind_eq_some_iff.mp h
  have hl : ∀ s : Fin n → Particle (i + 1), (∀ a, 0 < (s a).h) → SymmetricLists s (w.search s) := fun s hs => (hw.lists s hs).symmetric
  have mid : Sane st1.parts ∧ (∀ a, 0 < (st1.parts a).rho) ∧ ∑ a, (st1.parts a).mass * (st1.parts a).dedt = 0 ∧ st1.clock.iteration = st.clock.iteration ∧
      energyTotal st1.parts = if st.clock.iteration = z.initialIteration then initialEnergy z st.parts else energyTotal st.parts := by
    split_ifs at h1 with hfirst
    · rw [if_pos hfirst]
      unfold firstBranch at h1
      obtain ⟨s1, t1, h1⟩ := Option.bind_eq_some_iff.mp h1
      obtain ⟨st2, t2, h1⟩ := Option.bind_eq_some_iff.mp h1
      obtain ⟨s3, t3, rfl⟩ := Option.map_eq_some_iff.mp h1
      have ka := adaptStep_keep z _ _ t2
      have it2 : st2.clock.iteration = st.clock.iteration := adaptStep_iteration z ⟨st.clock, forces z st.clock.iteration w s1⟩ _ t2
      rw [it2] at t3
      obtain ⟨g1, g2, g3, g4⟩ := first_total z htk hev hup w hw st.clock.iteration _ _ st.parts s1 st2.parts s3 hs hit t1 ka t3
      exact ⟨g1, g2, g3, it2, g4⟩
    · rw [if_neg hfirst]
      unfold nextBranch at h1
      obtain ⟨s1, t1, h1⟩ := Option.bind_eq_some_iff.mp h1
      obtain ⟨s3, t3, rfl⟩ := Option.map_eq_some_iff.mp h1
      set dt := st.clock.dt
      have kk := kick_keep z htk hev dt st.parts
      have tk := kick_total z htk hev dt st.parts (hb hfirst)
      have kt := thermo_keep z _ _ w hw.order _ _ t1
      have kf := forces_keep z st.clock.iteration w s1
      have kg := forces_gacc z st.clock.iteration w hw s1 hit
      have ke := energy_keep z _ _ w _ _ t3
      have e1 : ∀ a, (s1 a).mass = (st.parts a).mass ∧ (s1 a).h = (st.parts a).h ∧ (s1 a).e = (kickEnergy z dt st.parts a).e := by
        intro a
        have h1 := energetics_of (kt a).1
        exact ⟨h1.1.trans (kk a).1, h1.2.1.trans (kk a).2.1, h1.2.2.1⟩
      have e2 : ∀ a, (forces z st.clock.iteration w s1 a).mass = (s1 a).mass ∧ (forces z st.clock.iteration w s1 a).h = (s1 a).h ∧
          (forces z st.clock.iteration w s1 a).e = (s1 a).e ∧ (forces z st.clock.iteration w s1 a).rho = (s1 a).rho := by
        intro a
        obtain ⟨a1, a2, a3, hf⟩ := kf a
        rw [hf]; exact ⟨rfl, rfl, rfl, rfl⟩
      have e3 : ∀ a, (s3 a).mass = (s1 a).mass ∧ (s3 a).h = (s1 a).h ∧ (s3 a).e = (s1 a).e ∧ (s3 a).rho = (s1 a).rho := by
        intro a
        have q := ke a
        simp only [dynamics, motion, Prod.mk.injEq] at q
        obtain ⟨⟨⟨q1, q2, q3, q4, qK⟩, q5, q6, q7⟩, q8, q9⟩ := q
        exact ⟨q2.trans (e2 a).1, q5.trans (e2 a).2.1, q9.trans (e2 a).2.2.1, q8.trans (e2 a).2.2.2⟩
      have bal := energy_balanced z htk hev hup _ _ hit w hw.order hl (applyAll (kickV dt) (forces z st.clock.iteration w s1)) _
        (fun a => by
          show 0 < (forces z st.clock.iteration w s1 a).h
          rw [(e2 a).2.1, (e1 a).2.1]; exact (hs a).2)
        (fun a => by
          show 0 < (forces z st.clock.iteration w s1 a).rho
          rw [(e2 a).2.2.2]; exact (kt a).2) (fun a => kg a) t3
        (fun s nbs order => C35_total_energy z.sph s nbs order)
      have kk3 := kick_keep z htk hev dt s3
      refine ⟨fun a => ?_, fun a => ?_, ?_, rfl, ?_⟩
      · show 0 < (kickEnergy z dt s3 a).mass ∧ 0 < (kickEnergy z dt s3 a).h
        rw [(kk3 a).1, (kk3 a).2.1, (e3 a).1, (e3 a).2.1, (e1 a).1, (e1 a).2.1]; exact hs a
      · show 0 < (kickEnergy z dt s3 a).rho
        rw [(kk3 a).2.2.2, (e3 a).2.2.2]; exact (kt a).2
      · rw [← bal]
        refine Finset.sum_congr rfl fun a _ => ?_
        show (kickEnergy z dt s3 a).mass * (kickEnergy z dt s3 a).dedt = _
        rw [(kk3 a).1, (kk3 a).2.2.1]
      · show energyTotal (kickEnergy z dt s3) = _
        rw [kick_total z htk hev dt s3 bal, ← tk]
        exact total_congr fun a => ⟨((e3 a).1.trans (e1 a).1).trans (kk a).1.symm, (e3 a).2.2.1.trans (e1 a).2.2⟩
  obtain ⟨g1, g2, g3, g4, g5⟩ := mid
  obtain ⟨f1, f2, f3⟩ := tail_keep z heta hwidth st1 st' g1 g2 h
  have f2' : ∀ a, (st'.parts a).mass = (st1.parts a).mass ∧ (st'.parts a).e = (st1.parts a).e ∧ (st'.parts a).dedt = (st1.parts a).dedt := by
    intro a; obtain ⟨x, y, h⟩ := f2 a; rw [h]; exact ⟨rfl, rfl, rfl⟩
  refine ⟨f1, ?_, by rw [f3, g4], ?_⟩
  · rw [← g3]; exact Finset.sum_congr rfl fun a _ => by rw [(f2' a).1, (f2' a).2.2]
  · rw [← g5]; exact total_congr fun a => ⟨(f2' a).1, (f2' a).2.1⟩

/-- A run of any positive number of iterations of the hydro driver in the thermokinetic formulation, past the relaxation phase, conserves
the total energy: kinetic, internal and potential energy of the initial data, whatever the external potential, equation of state, kernel,
viscosity, number of passes of the energy equation, update of the smoothing lengths and sequence of time steps. -/
theorem C35_run (z : Config i) (htk : z.thermokinetic = true) (hev : z.evolve = true) (hup : 1 ≤ z.updates) (heta : 0 < z.eta) (hwidth : 0 < z.width)
    (hrelax : z.sph.relaxationSteps ≤ z.initialIteration) (ws : List (Schedule i n)) (hne : ws ≠ []) (hw : ∀ w ∈ ws, Faithful w) (st st' : State i n)
    (hstart : st.clock.iteration = z.initialIteration) (hs : ∀ a, 0 < (st.parts a).mass ∧ 0 < (st.parts a).h) (hrun : run z ws st = some st') :
    ∑ a, (st'.parts a).mass * (st'.parts a).e =
      ∑ a, (st.parts a).mass * (1 / 2 * ∑ j, (st.parts a).vel j * (st.parts a).vel j + (Eos.init z.eos z.eosParams (st.parts a)).u + z.phi (st.parts a).pos) := by
  have gen : ∀ (ws : List (Schedule i n)), (∀ w ∈ ws, Faithful w) → ∀ st st' : State i n, Sane st.parts → z.initialIteration < st.clock.iteration →
      ∑ a, (st.parts a).mass * (st.parts a).dedt = 0 → run z ws st = some st' → energyTotal st'.parts = energyTotal st.parts := by
    intro ws
    induction ws with
    | nil =>
      intro _ st st' _ _ _ h
      simp only [run, List.foldlM_nil, Option.pure_def, Option.some.injEq] at h
      rw [h]
    | cons w ws ih =>
      intro hw st st' h1 h2 h3 h
      simp only [run, List.foldlM_cons, Option.bind_eq_bind] at h
      obtain ⟨st1, k1, h⟩ := Option.bind_eq_some_iff.mp h
      obtain ⟨q1, q2, q3, q4⟩ := iteration_total z htk hev hup heta hwidth w (hw w List.mem_cons_self) st st1 h1 (by omega) (fun _ => h3) k1
      rw [if_neg (by omega)] at q4
      exact (ih (fun v hv => hw v (List.mem_cons_of_mem _ hv)) st1 st' q1 (by omega) q2 h).trans q4
  cases ws with
  | nil => exact absurd rfl hne
  | cons w ws =>
    simp only [run, List.foldlM_cons, Option.bind_eq_bind] at hrun
    obtain ⟨st1, k1, h⟩ := Option.bind_eq_some_iff.mp hrun
    obtain ⟨q1, q2, q3, q4⟩ := iteration_total z htk hev hup heta hwidth w (hw w List.mem_cons_self) st st1 hs (by omega) (fun h => absurd hstart h) k1
    rw [if_pos hstart] at q4
    exact (gen ws (fun v hv => hw v (List.mem_cons_of_mem _ hv)) st1 st' q1 (by omega) q2 h).trans q4

/-! Non-vacuity: Props/RunExamples.lean. -/

end FleCSPH
