import Mathlib.LinearAlgebra.CrossProduct
import Verif.Lemmas.Driver
import Verif.Spec.Run
import Verif.Props.C34
import Verif.Props.C35
/-! C34 and C56 over whole runs of the hydro driver. -/
namespace FleCSPH
open Sph Spec Geometry Driver Integration

variable {i : Fin 3} {n : Nat}

/-- Masses and smoothing lengths are positive. -/
def Sane (s : Fin n → Particle (i + 1)) : Prop := ∀ a, 0 < (s a).mass ∧ 0 < (s a).h

/-- Total momentum along an axis. -/
noncomputable def momentum (s : Fin n → Particle (i + 1)) (j : Fin (i + 1)) : ℝ := ∑ a, (s a).mass * (s a).vel j

/-- Total angular momentum in a plane. -/
noncomputable def angularMomentum (s : Fin n → Particle (i + 1)) (j k : Fin (i + 1)) : ℝ :=
  ∑ a, (s a).mass * ((s a).pos j * (s a).vel k - (s a).pos k * (s a).vel j)

theorem dynamics_of {a b : Particle (i + 1)} (h : dynamics a = dynamics b) :
    a.id = b.id ∧ a.mass = b.mass ∧ a.pos = b.pos ∧ a.vel = b.vel ∧ a.h = b.h ∧ a.acc = b.acc ∧ a.gacc = b.gacc := by
  simp only [dynamics, motion, Prod.mk.injEq] at h
  tauto

/-- No net force, no net torque. -/
structure Balanced (s : Fin n → Particle (i + 1)) : Prop where
  force : ∀ j, ∑ a, (s a).mass * ((s a).acc j + (s a).gacc j) = 0
  torque : ∀ j k, ∑ a, (s a).mass * ((s a).pos j * ((s a).acc k + (s a).gacc k) - (s a).pos k * ((s a).acc j + (s a).gacc j)) = 0

theorem balanced_congr {s t : Fin n → Particle (i + 1)} (h : ∀ a, (t a).mass = (s a).mass ∧ (t a).pos = (s a).pos ∧ (t a).acc = (s a).acc ∧ (t a).gacc = (s a).gacc)
    (hb : Balanced s) : Balanced t := by
  refine ⟨fun j => ?_, fun j k => ?_⟩
  · rw [← hb.force j]; exact Finset.sum_congr rfl fun a _ => by obtain ⟨h1, h2, h3, h4⟩ := h a; rw [h1, h3, h4]
  · rw [← hb.torque j k]; exact Finset.sum_congr rfl fun a _ => by obtain ⟨h1, h2, h3, h4⟩ := h a; rw [h1, h2, h3, h4]

theorem forces_gacc (z : Config i) (it : Int) (w : Schedule i n) (hw : Faithful w) (s : Fin n → Particle (i + 1)) (hit : z.sph.relaxationSteps ≤ it) (a : Fin n) :
    (forces z it w s a).gacc = 0 := by
  have hf : forces z it w s = pass (computeAcceleration z.sph) (w.search s) (w.order 2) s := by
    unfold forces sphPass; simp only [if_neg (not_lt.mpr hit)]
  rw [hf, pass_eq (computeAcceleration z.sph) (fun b : Particle (i + 1) => ({ b with acc := 0, gacc := 0, gpot := 0 } : Particle (i + 1))) (computeAcceleration z.sph)
    (fun a l => by simp only [computeAcceleration, accumulate_eq, List.map_map]; rfl) (fun a l => rfl) _ _ (hw.order 2) s]
  rfl

/-- Past the relaxation phase and without external forces, the forces balance. -/
theorem forces_balanced (z : Config i) (it : Int) (w : Schedule i n) (hw : Faithful w) (s : Fin n → Particle (i + 1)) (hs : Sane s)
    (hrho : ∀ a, 0 < (s a).rho) (hext : ∀ a, z.sph.external a = 0) (hit : z.sph.relaxationSteps ≤ it) :
    Balanced (forces z it w s) ∧ ∀ a, (forces z it w s a).gacc = 0 := by
  have hf : forces z it w s = pass (computeAcceleration z.sph) (w.search s) (w.order 2) s := by
    unfold forces sphPass; simp only [if_neg (not_lt.mpr hit)]
  have hh : ∀ a, 0 < (s a).h := fun a => (hs a).2
  have hl := (hw.lists s hh).symmetric
  have keep : ∀ a, (forces z it w s a).mass = (s a).mass ∧ (forces z it w s a).pos = (s a).pos := by
    intro a; obtain ⟨x, y, g, h⟩ := forces_keep z it w s a; rw [h]; exact ⟨rfl, rfl⟩
  have hg : ∀ a, (forces z it w s a).gacc = 0 := forces_gacc z it w hw s hit
  refine ⟨⟨fun j => ?_, fun j k => ?_⟩, hg⟩
  · have := C34_momentum z.sph s (w.search s) (w.order 2) (hw.order 2) hl hh hrho j
    rw [← hf] at this
    simp only [hext, Pi.zero_apply, mul_zero, Finset.sum_const_zero] at this
    rw [← this]
    exact Finset.sum_congr rfl fun a _ => by rw [(keep a).1, hg a]; simp
  · have := C56_angular_momentum z.sph s (w.search s) (w.order 2) (hw.order 2) hl hh hrho j k
    rw [← hf] at this
    simp only [hext, Pi.zero_apply, mul_zero, sub_zero, Finset.sum_const_zero] at this
    rw [← this]
    exact Finset.sum_congr rfl fun a _ => by rw [(keep a).1, (keep a).2, hg a]; simp

/-- A velocity kick of a balanced state changes neither momentum. -/
private theorem kickV_balanced (dt : ℝ) (s : Fin n → Particle (i + 1)) (hb : Balanced s) :
    (∀ j, momentum (applyAll (kickV dt) s) j = momentum s j) ∧ ∀ j k, angularMomentum (applyAll (kickV dt) s) j k = angularMomentum s j k := by
  constructor
  · intro j
    have : momentum (applyAll (kickV dt) s) j = momentum s j + 1 / 2 * dt * ∑ a, (s a).mass * ((s a).acc j + (s a).gacc j) := by
      simp only [momentum, applyAll, kickV, Pi.add_apply, Pi.smul_apply, smul_eq_mul, Finset.mul_sum, ← Finset.sum_add_distrib]
      exact Finset.sum_congr rfl fun a _ => by ring
    rw [this, hb.force j]; ring
  · intro j k
    have : angularMomentum (applyAll (kickV dt) s) j k = angularMomentum s j k +
        1 / 2 * dt * ∑ a, (s a).mass * ((s a).pos j * ((s a).acc k + (s a).gacc k) - (s a).pos k * ((s a).acc j + (s a).gacc j)) := by
      simp only [angularMomentum, applyAll, kickV, Pi.add_apply, Pi.smul_apply, smul_eq_mul, Finset.mul_sum, ← Finset.sum_add_distrib]
      exact Finset.sum_congr rfl fun a _ => by ring
    rw [this, hb.torque j k]; ring

private theorem drift_momenta (dt : ℝ) (s : Fin n → Particle (i + 1)) :
    (∀ j, momentum (applyAll (drift dt) s) j = momentum s j) ∧ ∀ j k, angularMomentum (applyAll (drift dt) s) j k = angularMomentum s j k := by
  refine ⟨fun j => rfl, fun j k => Finset.sum_congr rfl fun a _ => ?_⟩
  simp only [applyAll, drift, Pi.add_apply, Pi.smul_apply, smul_eq_mul]
  ring

theorem momenta_congr {s t : Fin n → Particle (i + 1)} (h : ∀ a, (t a).mass = (s a).mass ∧ (t a).pos = (s a).pos ∧ (t a).vel = (s a).vel) :
    (∀ j, momentum t j = momentum s j) ∧ ∀ j k, angularMomentum t j k = angularMomentum s j k :=
  ⟨fun j => Finset.sum_congr rfl fun a _ => by rw [(h a).1, (h a).2.2], fun j k => Finset.sum_congr rfl fun a _ => by rw [(h a).1, (h a).2.1, (h a).2.2]⟩

private theorem newH_pos (z : Config i) (heta : 0 < z.eta) (hwidth : 0 < z.width) (a : Particle (i + 1)) (hm : 0 < a.mass) (hr : 0 < a.rho) : 0 < newH z a := by
  unfold newH root
  have := Real.rpow_pos_of_pos (div_pos hm hr) (1 / ((i : ℕ) + 1 : ℝ))
  positivity

/-- What the end of an iteration keeps. -/
theorem tail_keep (z : Config i) (heta : 0 < z.eta) (hwidth : 0 < z.width) (st st' : State i n) (hs : Sane st.parts) (hr : ∀ a, 0 < (st.parts a).rho)
    (h : ((checkNegativity z (updateH z st.parts)).bind fun s =>
      (adaptStep z ⟨st.clock, s⟩).map fun st => { st with clock := Timestep.advance z.adaptive st.clock }) = some st') :
    Sane st'.parts ∧ (∀ a, ∃ x y, st'.parts a = { st.parts a with h := x, dt := y }) ∧ st'.clock.iteration = st.clock.iteration + 1 := by
  obtain ⟨s1, h1, h⟩ := Option.bind_eq_some_iff.mp h
  obtain ⟨st2, h2, rfl⟩ := Option.map_eq_some_iff.mp h
  have e1 : s1 = updateH z st.parts := by
    unfold checkNegativity at h1
    split_ifs at h1
    exact (Option.some.inj h1).symm
  subst e1
  have k2 := adaptStep_keep z _ _ h2
  have it2 : st2.clock.iteration = st.clock.iteration := adaptStep_iteration z ⟨st.clock, updateH z st.parts⟩ _ h2
  have ku : ∀ a, ∃ x, updateH z st.parts a = { st.parts a with h := x } ∧ 0 < x := by
    intro a
    unfold updateH
    cases z.hMode
    · exact ⟨_, rfl, newH_pos z heta hwidth _ (hs a).1 (hr a)⟩
    · refine ⟨_, rfl, ?_⟩
      have hn : 0 < n := a.pos
      have : 0 < ∑ b, newH z (st.parts b) := Finset.sum_pos (fun b _ => newH_pos z heta hwidth _ (hs b).1 (hr b)) ⟨a, Finset.mem_univ a⟩
      positivity
    · exact ⟨(st.parts a).h, rfl, (hs a).2⟩
  refine ⟨fun a => ?_, fun a => ?_, ?_⟩
  · obtain ⟨y, hy⟩ := k2 a
    obtain ⟨x, hx, hx0⟩ := ku a
    simp only at hy
    show 0 < (st2.parts a).mass ∧ 0 < (st2.parts a).h
    rw [hy, hx]
    exact ⟨(hs a).1, hx0⟩
  · obtain ⟨y, hy⟩ := k2 a
    obtain ⟨x, hx, _⟩ := ku a
    simp only at hy
    refine ⟨x, y, ?_⟩
    show st2.parts a = _
    rw [hy, hx]
  · simp only [Timestep.advance, it2]

/-- The first iteration up to the end of its energy equation; `s2` are the particles after their time steps were computed. -/
theorem first_spec (z : Config i) (hext : ∀ a, z.sph.external a = 0) (w : Schedule i n) (hw : Faithful w) (it it' : Int) (dt dt' : ℝ) (s s1 s2 s3 : Fin n → Particle (i + 1))
    (hs : Sane s) (hit : z.sph.relaxationSteps ≤ it) (t1 : thermo z dt true w (initialise z s) = some s1) (ka : ∀ a, ∃ x, s2 a = { forces z it w s1 a with dt := x })
    (t3 : energy z dt' it' w s2 = some s3) :
    Sane s3 ∧ (∀ a, 0 < (s3 a).rho) ∧ Balanced s3 ∧ (∀ a, (s3 a).id = (s a).id ∧ (s3 a).mass = (s a).mass) ∧
    (∀ j, momentum s3 j = momentum s j) ∧ ∀ j k, angularMomentum s3 j k = angularMomentum s j k := by
  have ki := initialise_keep z s
  have kt := thermo_keep z _ _ w hw.order _ _ t1
  have kf := forces_keep z it w s1
  have ke := energy_keep z _ _ w _ _ t3
  have e1 : ∀ a, (s1 a).id = (s a).id ∧ (s1 a).mass = (s a).mass ∧ (s1 a).pos = (s a).pos ∧ (s1 a).vel = (s a).vel ∧ (s1 a).h = (s a).h := by
    intro a
    have h1 := (kt a).1
    have h2 := ki a
    simp only [energetics, dynamics, motion, Prod.mk.injEq] at h1 h2
    obtain ⟨⟨⟨q1, q2, q3, q4, qK⟩, q5, _⟩, _⟩ := h1
    obtain ⟨p1, p2, p3, p4, p5⟩ := h2
    exact ⟨q1.trans p1, q2.trans p2, q3.trans p4, q4.trans p5, q5.trans p3⟩
  have sane1 : Sane s1 := fun a => by rw [(e1 a).2.1, (e1 a).2.2.2.2]; exact hs a
  have bal := (forces_balanced z it w hw s1 sane1 (fun a => (kt a).2) hext hit).1
  have e2 : ∀ a, (s3 a).id = (s1 a).id ∧ (s3 a).mass = (s1 a).mass ∧ (s3 a).pos = (s1 a).pos ∧ (s3 a).vel = (s1 a).vel ∧ (s3 a).h = (s1 a).h ∧
      (s3 a).acc = (forces z it w s1 a).acc ∧ (s3 a).gacc = (forces z it w s1 a).gacc ∧ (s3 a).rho = (s1 a).rho := by
    intro a
    have q := ke a
    obtain ⟨x, hx⟩ := ka a
    simp only at hx
    rw [hx] at q
    obtain ⟨a1, a2, a3, hf⟩ := kf a
    simp only [dynamics, motion, Prod.mk.injEq] at q
    obtain ⟨⟨⟨q1, q2, q3, q4, qK⟩, q5, q6, q7⟩, q8, _⟩ := q
    have f1 : (forces z it w s1 a).id = (s1 a).id ∧ (forces z it w s1 a).mass = (s1 a).mass ∧ (forces z it w s1 a).pos = (s1 a).pos ∧
      (forces z it w s1 a).vel = (s1 a).vel ∧ (forces z it w s1 a).h = (s1 a).h ∧ (forces z it w s1 a).rho = (s1 a).rho := by
      rw [hf]; exact ⟨rfl, rfl, rfl, rfl, rfl, rfl⟩
    exact ⟨q1.trans f1.1, q2.trans f1.2.1, q3.trans f1.2.2.1, q4.trans f1.2.2.2.1, q5.trans f1.2.2.2.2.1, q6, q7, q8.trans f1.2.2.2.2.2⟩
  refine ⟨fun a => ?_, fun a => ?_, balanced_congr (fun a => ?_) bal, fun a => ?_, ?_⟩
  · obtain ⟨_, q2, _, _, q5, _⟩ := e2 a
    show 0 < (s3 a).mass ∧ 0 < (s3 a).h
    rw [q2, q5]; exact sane1 a
  · show 0 < (s3 a).rho
    rw [(e2 a).2.2.2.2.2.2.2]; exact (kt a).2
  · obtain ⟨_, q2, q3, _, _, q6, q7, _⟩ := e2 a
    obtain ⟨a1, a2, a3, hf⟩ := kf a
    refine ⟨?_, ?_, q6, q7⟩
    · show (s3 a).mass = _
      rw [q2, hf]
    · show (s3 a).pos = _
      rw [q3, hf]
  · exact ⟨(e2 a).1.trans (e1 a).1, (e2 a).2.1.trans (e1 a).2.1⟩
  · exact momenta_congr fun a => ⟨(e2 a).2.1.trans (e1 a).2.1, (e2 a).2.2.1.trans (e1 a).2.2.1, (e2 a).2.2.2.1.trans (e1 a).2.2.2.1⟩

/-- What one iteration does to the particles of a run without external forces, past the relaxation phase. -/
theorem iteration_spec (z : Config i) (hext : ∀ a, z.sph.external a = 0) (heta : 0 < z.eta) (hwidth : 0 < z.width) (w : Schedule i n) (hw : Faithful w)
    (st st' : State i n) (hs : Sane st.parts) (hit : z.sph.relaxationSteps ≤ st.clock.iteration)
    (hb : st.clock.iteration ≠ z.initialIteration → Balanced st.parts) (h : iteration z w st = some st') :
    Sane st'.parts ∧ Balanced st'.parts ∧ st'.clock.iteration = st.clock.iteration + 1 ∧
    (∀ a, (st'.parts a).id = (st.parts a).id ∧ (st'.parts a).mass = (st.parts a).mass) ∧
    (∀ j, momentum st'.parts j = momentum st.parts j) ∧ ∀ j k, angularMomentum st'.parts j k = angularMomentum st.parts j k := by
  unfold iteration at h
  obtain ⟨st1, h1, h⟩ := Option.bind_eq_some_iff.mp h
  -- the branch taken
  have mid : Sane st1.parts ∧ (∀ a, 0 < (st1.parts a).rho) ∧ Balanced st1.parts ∧ st1.clock.iteration = st.clock.iteration ∧
      (∀ a, (st1.parts a).id = (st.parts a).id ∧ (st1.parts a).mass = (st.parts a).mass) ∧
      (∀ j, momentum st1.parts j = momentum st.parts j) ∧ ∀ j k, angularMomentum st1.parts j k = angularMomentum st.parts j k := by
    split_ifs at h1 with hfirst
    · unfold firstBranch at h1
      obtain ⟨s1, t1, h1⟩ := Option.bind_eq_some_iff.mp h1
      obtain ⟨st2, t2, h1⟩ := Option.bind_eq_some_iff.mp h1
      obtain ⟨s3, t3, rfl⟩ := Option.map_eq_some_iff.mp h1
      have ka := adaptStep_keep z _ _ t2
      obtain ⟨g1, g2, g3, g4, g5⟩ := first_spec z hext w hw st.clock.iteration _ _ _ st.parts s1 st2.parts s3 hs hit t1 ka t3
      have it2 : st2.clock.iteration = st.clock.iteration := adaptStep_iteration z ⟨st.clock, forces z st.clock.iteration w s1⟩ _ t2
      exact ⟨g1, g2, g3, it2, g4, g5⟩
    · unfold nextBranch at h1
      obtain ⟨s1, t1, h1⟩ := Option.bind_eq_some_iff.mp h1
      obtain ⟨s3, t3, rfl⟩ := Option.map_eq_some_iff.mp h1
      have bal0 := hb hfirst
      set dt := st.clock.dt
      set s0 := kickEnergy z dt st.parts with hs0
      have k0 := kickEnergy_keep z dt st.parts
      have e0 : ∀ a, (s0 a).id = (st.parts a).id ∧ (s0 a).mass = (st.parts a).mass ∧ (s0 a).pos = (st.parts a).pos ∧ (s0 a).vel = (st.parts a).vel ∧ (s0 a).h = (st.parts a).h ∧
          (s0 a).acc = (st.parts a).acc ∧ (s0 a).gacc = (st.parts a).gacc := fun a => dynamics_of (Prod.mk.inj (k0 a)).1
      have bal1 : Balanced s0 := balanced_congr (fun a => ⟨(e0 a).2.1, (e0 a).2.2.1, (e0 a).2.2.2.2.2⟩) bal0
      have kt := thermo_keep z _ _ w hw.order _ _ t1
      set s05 := kickDrift z dt st.parts with hs05
      have e05 : s05 = applyAll (drift dt) (applyAll saveVelocityhalf (applyAll (kickV dt) s0)) := rfl
      have m05 : (∀ j, momentum s05 j = momentum st.parts j) ∧ ∀ j k, angularMomentum s05 j k = angularMomentum st.parts j k := by
        rw [e05]
        have m1 := drift_momenta dt (applyAll saveVelocityhalf (applyAll (kickV dt) s0))
        have m2 := kickV_balanced dt s0 bal1
        have m3 := momenta_congr (s := st.parts) (t := s0) fun a => ⟨(e0 a).2.1, (e0 a).2.2.1, (e0 a).2.2.2.1⟩
        exact ⟨fun j => (m1.1 j).trans ((m2.1 j).trans (m3.1 j)), fun j k => (m1.2 j k).trans ((m2.2 j k).trans (m3.2 j k))⟩
      have e1 : ∀ a, (s1 a).id = (st.parts a).id ∧ (s1 a).mass = (st.parts a).mass ∧ (s1 a).h = (st.parts a).h ∧ (s1 a).pos = (s05 a).pos ∧ (s1 a).vel = (s05 a).vel := by
        intro a
        have h1 := (kt a).1
        simp only [energetics, dynamics, motion, Prod.mk.injEq] at h1
        obtain ⟨⟨⟨q1, q2, q3, q4, qK⟩, q5, _⟩, _⟩ := h1
        exact ⟨q1.trans (e0 a).1, q2.trans (e0 a).2.1, q5.trans (e0 a).2.2.2.2.1, q3, q4⟩
      have sane1 : Sane s1 := fun a => by rw [(e1 a).2.1, (e1 a).2.2.1]; exact hs a
      have bal2 := (forces_balanced z st.clock.iteration w hw s1 sane1 (fun a => (kt a).2) hext hit).1
      have kf := forces_keep z st.clock.iteration w s1
      set s2 := forces z st.clock.iteration w s1 with hs2
      have m2 := kickV_balanced dt s2 bal2
      have ke := energy_keep z _ _ w _ _ t3
      have kk := kickEnergy_keep z dt s3
      have e4 : ∀ a, (kickEnergy z dt s3 a).id = (s2 a).id ∧ (kickEnergy z dt s3 a).mass = (s2 a).mass ∧ (kickEnergy z dt s3 a).pos = (s2 a).pos ∧
          (kickEnergy z dt s3 a).vel = (applyAll (kickV dt) s2 a).vel ∧ (kickEnergy z dt s3 a).h = (s2 a).h ∧ (kickEnergy z dt s3 a).acc = (s2 a).acc ∧
          (kickEnergy z dt s3 a).gacc = (s2 a).gacc ∧ (kickEnergy z dt s3 a).rho = (s2 a).rho := by
        intro a
        have q := ke a
        have r := kk a
        simp only [dynamics, motion, Prod.mk.injEq] at q r
        obtain ⟨⟨⟨q1, q2, q3, q4, qK⟩, q5, q6, q7⟩, q8, _⟩ := q
        obtain ⟨⟨⟨r1, r2, r3, r4, rK⟩, r5, r6, r7⟩, r8⟩ := r
        exact ⟨r1.trans q1, r2.trans q2, r3.trans q3, r4.trans q4, r5.trans q5, r6.trans q6, r7.trans q7, r8.trans q8⟩
      have e2 : ∀ a, (s2 a).id = (s1 a).id ∧ (s2 a).mass = (s1 a).mass ∧ (s2 a).pos = (s1 a).pos ∧ (s2 a).vel = (s1 a).vel ∧ (s2 a).h = (s1 a).h ∧ (s2 a).rho = (s1 a).rho := by
        intro a
        obtain ⟨a1, a2, a3, hf⟩ := kf a
        rw [hf]; exact ⟨rfl, rfl, rfl, rfl, rfl, rfl⟩
      refine ⟨fun a => ?_, fun a => ?_, balanced_congr (fun a => ⟨(e4 a).2.1, (e4 a).2.2.1, (e4 a).2.2.2.2.2.1, (e4 a).2.2.2.2.2.2.1⟩) bal2, rfl, fun a => ?_, ?_⟩
      · show 0 < (kickEnergy z dt s3 a).mass ∧ 0 < (kickEnergy z dt s3 a).h
        rw [(e4 a).2.1, (e4 a).2.2.2.2.1, (e2 a).2.1, (e2 a).2.2.2.2.1]; exact sane1 a
      · show 0 < (kickEnergy z dt s3 a).rho
        rw [(e4 a).2.2.2.2.2.2.2, (e2 a).2.2.2.2.2]; exact (kt a).2
      · exact ⟨(e4 a).1.trans ((e2 a).1.trans (e1 a).1), (e4 a).2.1.trans ((e2 a).2.1.trans (e1 a).2.1)⟩
      · have m4 := momenta_congr (s := applyAll (kickV dt) s2) (t := kickEnergy z dt s3) fun a => ⟨(e4 a).2.1, (e4 a).2.2.1, (e4 a).2.2.2.1⟩
        have m1 := momenta_congr (s := s05) (t := s2) fun a =>
          ⟨(e2 a).2.1.trans ((e1 a).2.1.trans ((e0 a).2.1.symm)), (e2 a).2.2.1.trans (e1 a).2.2.2.1, (e2 a).2.2.2.1.trans (e1 a).2.2.2.2⟩
        exact ⟨fun j => (m4.1 j).trans ((m2.1 j).trans ((m1.1 j).trans (m05.1 j))), fun j k => (m4.2 j k).trans ((m2.2 j k).trans ((m1.2 j k).trans (m05.2 j k)))⟩
  obtain ⟨g1, g2, g3, g4, g5, g6, g7⟩ := mid
  obtain ⟨f1, f2, f3⟩ := tail_keep z heta hwidth st1 st' g1 g2 h
  have f2' : ∀ a, (st'.parts a).id = (st1.parts a).id ∧ (st'.parts a).mass = (st1.parts a).mass ∧ (st'.parts a).pos = (st1.parts a).pos ∧ (st'.parts a).vel = (st1.parts a).vel ∧
      (st'.parts a).acc = (st1.parts a).acc ∧ (st'.parts a).gacc = (st1.parts a).gacc := by
    intro a; obtain ⟨x, y, h⟩ := f2 a; rw [h]; exact ⟨rfl, rfl, rfl, rfl, rfl, rfl⟩
  have m := momenta_congr (s := st1.parts) (t := st'.parts) fun a => ⟨(f2' a).2.1, (f2' a).2.2.1, (f2' a).2.2.2.1⟩
  refine ⟨f1, balanced_congr (fun a => ⟨(f2' a).2.1, (f2' a).2.2.1, (f2' a).2.2.2.2⟩) g3, by rw [f3, g4], fun a => ?_, ?_, ?_⟩
  · exact ⟨(f2' a).1.trans (g5 a).1, (f2' a).2.1.trans (g5 a).2⟩
  · exact fun j => (m.1 j).trans (g6 j)
  · exact fun j k => (m.2 j k).trans (g7 j k)

/-- A run of any number of iterations of the hydro driver without external forces and past the relaxation phase conserves the particles, their
masses, the total momentum and the total angular momentum, whatever the equation of state, kernel, viscosity, energy formulation, update of
the smoothing lengths and sequence of time steps. -/
theorem C34_run (z : Config i) (hext : ∀ a, z.sph.external a = 0) (heta : 0 < z.eta) (hwidth : 0 < z.width)
    (hrelax : z.sph.relaxationSteps ≤ z.initialIteration) (ws : List (Schedule i n)) (hw : ∀ w ∈ ws, Faithful w) (st st' : State i n)
    (hstart : st.clock.iteration = z.initialIteration) (hs : ∀ a, 0 < (st.parts a).mass ∧ 0 < (st.parts a).h) (hrun : run z ws st = some st') :
    (∀ a, (st'.parts a).id = (st.parts a).id ∧ (st'.parts a).mass = (st.parts a).mass) ∧
    (∀ j, ∑ a, (st'.parts a).mass * (st'.parts a).vel j = ∑ a, (st.parts a).mass * (st.parts a).vel j) ∧
    ∀ j k, ∑ a, (st'.parts a).mass * ((st'.parts a).pos j * (st'.parts a).vel k - (st'.parts a).pos k * (st'.parts a).vel j) =
      ∑ a, (st.parts a).mass * ((st.parts a).pos j * (st.parts a).vel k - (st.parts a).pos k * (st.parts a).vel j) := by
  have gen : ∀ (ws : List (Schedule i n)), (∀ w ∈ ws, Faithful w) → ∀ st st' : State i n, Sane st.parts → z.initialIteration ≤ st.clock.iteration →
      (st.clock.iteration ≠ z.initialIteration → Balanced st.parts) → run z ws st = some st' →
      (∀ a, (st'.parts a).id = (st.parts a).id ∧ (st'.parts a).mass = (st.parts a).mass) ∧
      (∀ j, momentum st'.parts j = momentum st.parts j) ∧ ∀ j k, angularMomentum st'.parts j k = angularMomentum st.parts j k := by
    intro ws
    induction ws with
    | nil =>
      intro _ st st' _ _ _ h
      simp only [run, List.foldlM_nil, Option.pure_def, Option.some.injEq] at h
      subst h; exact ⟨fun a => ⟨rfl, rfl⟩, fun _ => rfl, fun _ _ => rfl⟩
    | cons w ws ih =>
      intro hw st st' h1 h2 h3 h
      simp only [run, List.foldlM_cons, Option.bind_eq_bind] at h
      obtain ⟨st1, k1, h⟩ := Option.bind_eq_some_iff.mp h
      obtain ⟨q1, q2, q3, q4, q5, q6⟩ := iteration_spec z hext heta hwidth w (hw w List.mem_cons_self) st st1 h1 (le_trans hrelax h2) h3 k1
      obtain ⟨r1, r2, r3⟩ := ih (fun v hv => hw v (List.mem_cons_of_mem _ hv)) st1 st' q1 (by omega) (fun _ => q2) h
      exact ⟨fun a => ⟨(r1 a).1.trans (q4 a).1, (r1 a).2.trans (q4 a).2⟩, fun j => (r2 j).trans (q5 j), fun j k => (r3 j k).trans (q6 j k)⟩
  exact gen ws hw st st' hs hstart.ge (fun h => absurd hstart h) hrun

/-- In particular the angular momentum, in the three-dimensional form of the diagnostics. -/
theorem C56_run (z : Config 2) (hext : ∀ a, z.sph.external a = 0) (heta : 0 < z.eta) (hwidth : 0 < z.width)
    (hrelax : z.sph.relaxationSteps ≤ z.initialIteration) (ws : List (Schedule 2 n)) (hw : ∀ w ∈ ws, Faithful w) (st st' : State 2 n)
    (hstart : st.clock.iteration = z.initialIteration) (hs : ∀ a, 0 < (st.parts a).mass ∧ 0 < (st.parts a).h) (hrun : run z ws st = some st') :
    ∑ a, (st'.parts a).mass • crossProduct (st'.parts a).pos (st'.parts a).vel = ∑ a, (st.parts a).mass • crossProduct (st.parts a).pos (st.parts a).vel := by
  have h := (C34_run z hext heta hwidth hrelax ws hw st st' hstart hs hrun).2.2
  funext j
  have key : ∀ s : Fin n → Particle (2 + 1), ∀ j : Fin 3, (∑ a, (s a).mass • crossProduct (s a).pos (s a).vel) j =
      ∑ a, (s a).mass * ((s a).pos (j + 1) * (s a).vel (j + 2) - (s a).pos (j + 2) * (s a).vel (j + 1)) := by
    intro s j
    rw [Finset.sum_apply]
    refine Finset.sum_congr rfl fun a _ => ?_
    rw [Pi.smul_apply, smul_eq_mul, cross_apply]
    fin_cases j <;> rfl
  rw [key, key]
  exact h _ _

/-! Non-vacuity: Props/RunExamples.lean. -/

end FleCSPH
