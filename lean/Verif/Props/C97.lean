import Verif.Lemmas.AdaptRun
import Verif.Lemmas.AlphaFit
import Verif.Props.C36run
import Verif.Props.C40
import Verif.Props.RunExamples
import Verif.Props.C70
/-!
C97: runs with an adaptive time step on several processes.

Proved for the constant viscosity: the step is the same however the particles are divided among the processes; without timed outputs it is positive and within the limits of all particles of all processes;
particles, masses, momentum, angular momentum and, in the thermokinetic formulation, total energy are conserved; and two runs on any numbers of processes which happen to set the same clocks agree on all data
of all particles but signal speeds and particle time steps.

The limits hold for either viscosity, and so do the conservation laws (C105).

Missing for the full property: that two runs from the same particles do set the same clocks. They need not (`C97_violated`): the limit of a particle uses its signal speed, which depends on the order in which
the density pass visits the particles.
-/
namespace FleCSPH.AdaptRun
open FleCSPH.Geometry FleCSPH.Sph FleCSPH.Driver FleCSPH.DistRun FleCSPH.Spec FleCSPH.Kernels FleCSPH.Integration FleCSPH.RunExamples

variable {i : Fin 3} {n : Nat}

/-- The step does not depend on the division of the particles among the processes. -/
theorem C97_division (o : Timestep.Outputs) {procs procs' : Nat} {home home' : Fin n → Nat} (hh : ∀ a, home a < procs) (hh' : ∀ a, home' a < procs') (s : Fin n → Particle (i + 1))
    (c : Timestep.Clock) : Timestep.setAdaptive o (limits procs home s) c = Timestep.setAdaptive o (limits procs' home' s) c :=
  setAdaptive_smallest o ((smallest_limits hh s).trans (smallest_limits hh' s).symm) c

theorem everybody_near (s : Fin n → Particle (i + 1)) : NearLists s ((everybody i n).search s) := ⟨fun _ => List.nodup_finRange n, fun _ b _ => List.mem_finRange b⟩
theorem everybody_order (k : Nat) : VisitsAll ((everybody i n).order k) := ⟨List.nodup_finRange n, List.mem_finRange⟩

section
variable {z : Config i} (hv : z.sph.visc = .constant) (he : 0 < z.eta) (hw : 0 < z.width) (hrep : z.repulsionRadius ≤ 1)
  (hext : ∀ a, z.sph.external { a with vsig := 0, dt := 0 } = z.sph.external a) {procs : Nat} {home home1 home2 : Fin n → Nat} {d d1 d2 : DState (Particle (i + 1)) n}
include hv he hw hrep hext

omit he hw in
/-- The first iteration up to its time step against the calls on one process. -/
theorem first_half {dt : ℝ} {it : Int} (hs : ∀ a, Sized (d.val a)) (hf : d.flight = []) (h1 : DExec NearLists procs (firstForces z dt it ++ [stepOp z]) home d (some (home1, d1))) :
    ∃ s1, ∃ s2 : Fin n → Particle (i + 1), thermo z dt true (everybody i n) (initialise z d.val) = some s1 ∧ (∀ a, ∃ x, s2 a = { forces z it (everybody i n) s1 a with dt := x }) ∧ (∀ a, Free.er (d1.val a) = Free.er (s2 a)) ∧
      (∀ a, Dense (d1.val a)) ∧ (∀ a, Dense (s2 a)) ∧ d1.flight = [] := by
  obtain ⟨y, hA, hB⟩ := exec_split h1
  have hD : Free.Disc n (firstForces z dt it) (fun _ => False) Sized Dense := by
    have := Free.disc_forces (n := n) (J := Dense) (ops := []) z hv dt it (fun _ => hrep) hext (fun a h => h) (V := fun _ => False)
    rwa [List.append_nil] at this
  obtain ⟨s', e1, e2⟩ := agree (everybody i n) (fun s _ => everybody_near s) everybody_order hD hA (fun v h => h.elim) hs d.val hs (fun _ => rfl)
  obtain ⟨p1, p2⟩ := exec_post hA hD hs hf y rfl
  obtain ⟨-, q2, q3, q4⟩ := exec_step hB
  rw [exec1_forces] at e1
  obtain ⟨s1, t1, rfl⟩ := Option.map_eq_some_iff.mp e1
  have ed : ∀ a, Free.er (d1.val a) = Free.er ({ forces z it (everybody i n) s1 a with dt := (d1.val a).dt }) := fun a => by
    obtain ⟨-, t, ht⟩ := q4 a
    simp only at ht
    rw [ht]; exact e2 a
  have dn1 : ∀ a, Dense (d1.val a) := fun a => by
    obtain ⟨-, t, ht⟩ := q4 a
    simp only at ht
    rw [ht]; exact p1 a
  have dn2 : ∀ a, Dense ({ forces z it (everybody i n) s1 a with dt := (d1.val a).dt }) := fun a => by
    have h1 := congrArg Particle.mass (ed a)
    have h2 := congrArg Particle.h (ed a)
    have h3 := congrArg Particle.rho (ed a)
    have h4 := dn1 a
    simp only [Free.er] at h1 h2 h3
    unfold DistRun.Dense at h4 ⊢
    rw [← h1, ← h2, ← h3]; exact h4
  exact ⟨s1, _, t1, fun a => ⟨_, rfl⟩, ed, dn1, dn2, q3.trans p2⟩

/-- The first iteration against the calls on one process. -/
theorem first_one {dt dt' : ℝ} {it it' : Int} (hs : ∀ a, Sized (d.val a)) (hf : d.flight = [])
    (h1 : DExec NearLists procs (firstForces z dt it ++ [stepOp z]) home d (some (home1, d1)))
    (h2 : DExec NearLists procs (firstRest z dt' it' ++ [stepOp z]) home1 d1 (some (home2, d2))) :
    (∃ s1 s2 s3 s4, thermo z dt true (everybody i n) (initialise z d.val) = some s1 ∧ (∀ a, ∃ x, s2 a = { forces z it (everybody i n) s1 a with dt := x }) ∧
      energy z dt' it' (everybody i n) s2 = some s3 ∧ checkNegativity z (updateH z s3) = some s4 ∧ ∀ a, Free.er (d2.val a) = Free.er (s4 a)) ∧
    d2.flight = [] ∧ ∀ a, Sized (d2.val a) := by
  have hcons := forces_consistent z dt it h1
  obtain ⟨s1, s2, t1, ka, ed, dn1, dn2, hf1⟩ := first_half hv hrep hext hs hf h1
  obtain ⟨y2, hC, hE⟩ := exec_split h2
  have hR := Free.disc_rest (n := n) z he hw dt' it'
  obtain ⟨s4, e3, e4⟩ := agree (everybody i n) (fun s _ => everybody_near s) everybody_order hR hC (fun v h => by rw [h]; exact hcons) dn1 s2 dn2 ed
  rw [exec1_rest] at e3
  obtain ⟨s3, t3, t4⟩ := Option.bind_eq_some_iff.mp e3
  obtain ⟨p3, p4⟩ := exec_post hC hR dn1 hf1 y2 rfl
  obtain ⟨-, -, r3, r4⟩ := exec_step hE
  refine ⟨⟨s1, s2, s3, s4, t1, ka, t3, t4, fun a => ?_⟩, r3.trans p4, fun a => ?_⟩
  · obtain ⟨-, t, ht⟩ := r4 a
    simp only at ht
    rw [ht]; exact e4 a
  · obtain ⟨-, t, ht⟩ := r4 a
    simp only at ht
    rw [ht]; exact p3 a

/-- The other iterations against the calls on one process. -/
theorem next_one {c : Timestep.Clock} (hs : ∀ a, Sized (d.val a)) (hf : d.flight = [])
    (h : DExec NearLists procs (nextOps z c.dt c.iteration ++ lastOps z ++ [stepOp z]) home d (some (home2, d2))) :
    (∃ s3 s4, nextBranch z (everybody i n) ⟨c, d.val⟩ = some ⟨c, s3⟩ ∧ checkNegativity z (updateH z s3) = some s4 ∧ ∀ a, Free.er (d2.val a) = Free.er (s4 a)) ∧
    d2.flight = [] ∧ ∀ a, Sized (d2.val a) := by
  obtain ⟨y, hA, hB⟩ := exec_split h
  have hD := Free.disc_next (n := n) z hv he hw c.dt c.iteration (fun _ => hrep) hext (V := fun _ => False)
  obtain ⟨s4, e1, e2⟩ := agree (everybody i n) (fun s _ => everybody_near s) everybody_order hD hA (fun v h => h.elim) hs d.val hs (fun _ => rfl)
  obtain ⟨p1, p2⟩ := exec_post hA hD hs hf y rfl
  obtain ⟨-, q2, q3, q4⟩ := exec_step hB
  rw [exec1_append] at e1
  obtain ⟨s3, t3, t4⟩ := Option.bind_eq_some_iff.mp e1
  rw [exec1_last] at t4
  have hn := exec1_next (everybody i n) z ⟨c, d.val⟩
  simp only at hn
  rw [t3] at hn
  refine ⟨⟨s3, s4, hn.symm, t4, fun a => ?_⟩, q3.trans p2, fun a => ?_⟩
  · obtain ⟨-, t, ht⟩ := q4 a
    simp only at ht
    rw [ht]; exact e2 a
  · obtain ⟨-, t, ht⟩ := q4 a
    simp only at ht
    rw [ht]; exact p1 a

end

/-- The same parameters with a fixed time step. -/
def fixed (z : Config i) : Config i := { z with adaptive := false }

theorem tail_fixed (z : Config i) (c : Timestep.Clock) (s3 s4 : Fin n → Particle (i + 1)) (h : checkNegativity z (updateH z s3) = some s4) :
    ((checkNegativity (fixed z) (updateH (fixed z) s3)).bind fun s => (adaptStep (fixed z) ⟨c, s⟩).map fun st => { st with clock := Timestep.advance (fixed z).adaptive st.clock }) =
      some (⟨Timestep.advance false c, s4⟩ : State i n) := by
  have h : checkNegativity (fixed z) (updateH (fixed z) s3) = some s4 := h
  rw [h]; rfl

theorem next_fixed (z : Config i) (w : Schedule i n) (st : State i n) : nextBranch (fixed z) w st = nextBranch z w st := by
  have he : ∀ dt it (m : Nat) (s : Fin n → Particle (i + 1)), energyPasses (fixed z) dt it w m s = energyPasses z dt it w m s := by
    intro dt it m
    induction m with
    | zero => intro s; rfl
    | succ m ih => intro s; unfold energyPasses; simp only [funext ih]; rfl
  unfold nextBranch energy
  simp only [he]
  rfl

private theorem fields {a b : Particle (i + 1)} (h : Free.er a = Free.er b) : a.id = b.id ∧ a.mass = b.mass ∧ a.pos = b.pos ∧ a.vel = b.vel ∧ a.acc = b.acc ∧ a.gacc = b.gacc ∧ a.e = b.e ∧ a.dedt = b.dedt := by
  have h1 := congrArg Particle.id h
  have h2 := congrArg Particle.mass h
  have h3 := congrArg Particle.pos h
  have h4 := congrArg Particle.vel h
  have h5 := congrArg Particle.acc h
  have h6 := congrArg Particle.gacc h
  have h7 := congrArg Particle.e h
  have h8 := congrArg Particle.dedt h
  exact ⟨h1, h2, h3, h4, h5, h6, h7, h8⟩

/-- A step of a polytropic gas never fails: the limit from the energy is not computed. -/
theorem step_fail {z : Config i} {procs : Nat} (hev : z.evolve = false) {home : Fin n → Nat} {d : DState (Particle (i + 1)) n} (h : DExec NearLists procs [stepOp z] home d none) : False := by
  cases h with
  | all v hv h => cases h
  | allFail a ha =>
    unfold Timestep.computeDt at ha
    rw [if_neg (by simp [stepSettings, hev])] at ha
    cases ha

/-- What a polytropic gas keeps: positive masses, smoothing lengths and densities, pressures and adiabatic factors which are not negative. -/
private def Sound (s : Fin n → Particle (i + 1)) : Prop := ∀ a, 0 < (s a).mass ∧ 0 < (s a).h ∧ 0 ≤ (s a).K ∧ 0 < (s a).rho ∧ 0 ≤ (s a).P

private theorem Sound.of_er {s t : Fin n → Particle (i + 1)} (h : Sound s) (e : ∀ a, Free.er (t a) = Free.er (s a)) : Sound t := by
  intro a
  have h1 := congrArg Particle.mass (e a)
  have h2 := congrArg Particle.h (e a)
  have h3 := congrArg Particle.K (e a)
  have h4 := congrArg Particle.rho (e a)
  have h5 := congrArg Particle.P (e a)
  simp only [Free.er] at h1 h2 h3 h4 h5
  rw [h1, h2, h3, h4, h5]; exact h a

private theorem check_eq {z : Config i} {s t : Fin n → Particle (i + 1)} (h : checkNegativity z s = some t) : t = s := by
  unfold checkNegativity at h
  split_ifs at h
  exact (Option.some.inj h).symm

/-- The particle time steps do not matter for the smoothing lengths. -/
private theorem updateH_dt {z : Config i} {s t : Fin n → Particle (i + 1)} (h : ∀ a, ∃ x, t a = { s a with dt := x }) : ∀ a, ∃ x, updateH z t a = { updateH z s a with dt := x } := by
  have hN : ∀ a, newH z (t a) = newH z (s a) := fun a => by obtain ⟨x, h⟩ := h a; rw [h]; rfl
  intro a
  obtain ⟨x, hx⟩ := h a
  unfold updateH
  cases z.hMode
  · exact ⟨x, by simp only [hN]; rw [hx]⟩
  · exact ⟨x, by simp only [hN]; rw [hx]⟩
  · exact ⟨x, hx⟩

private theorem check_dt {z : Config i} {s t : Fin n → Particle (i + 1)} (h : ∀ a, ∃ x, t a = { s a with dt := x }) (hs : checkNegativity z s = some s) : checkNegativity z t = some t := by
  unfold checkNegativity at hs ⊢
  split_ifs at hs with hc
  rw [if_pos]
  intro a
  obtain ⟨x, hx⟩ := h a
  rw [hx]; exact hc a

section
variable {z : Config i} (hv : z.sph.visc = .constant) (he : 0 < z.eta) (hw : 0 < z.width) (hrep : z.repulsionRadius ≤ 1) {procs : Nat} {home : Fin n → Nat} {d : DState (Particle (i + 1)) n}
include hv he hw hrep

/-- What one iteration does to masses, momenta and forces. -/
private theorem iter_spec (hext : ∀ a, z.sph.external a = 0) {c c1 c2 : Timestep.Clock} {home' : Fin n → Nat} {d' : DState (Particle (i + 1)) n} (hs : ∀ a, Sized (d.val a)) (hf : d.flight = [])
    (hit : z.sph.relaxationSteps ≤ c.iteration) (hb : c.iteration ≠ z.initialIteration → Balanced d.val) (h : AIter NearLists procs z c home d (some (c1, c2, home', d'))) :
    (∀ a, Sized (d'.val a)) ∧ d'.flight = [] ∧ Balanced d'.val ∧ c2.iteration = c.iteration + 1 ∧
    (∀ a, (d'.val a).id = (d.val a).id ∧ (d'.val a).mass = (d.val a).mass) ∧
    (∀ j, momentum d'.val j = momentum d.val j) ∧ ∀ j k, angularMomentum d'.val j k = angularMomentum d.val j k := by
  have hext' : ∀ a, z.sph.external { a with vsig := 0, dt := 0 } = z.sph.external a := fun a => by rw [hext, hext]
  have key : ∀ s4 : Fin n → Particle (i + 1), (∀ a, Free.er (d'.val a) = Free.er (s4 a)) → Balanced s4 → (∀ a, (s4 a).id = (d.val a).id ∧ (s4 a).mass = (d.val a).mass) →
      (∀ j, momentum s4 j = momentum d.val j) → (∀ j k, angularMomentum s4 j k = angularMomentum d.val j k) →
      Balanced d'.val ∧ (∀ a, (d'.val a).id = (d.val a).id ∧ (d'.val a).mass = (d.val a).mass) ∧
      (∀ j, momentum d'.val j = momentum d.val j) ∧ ∀ j k, angularMomentum d'.val j k = angularMomentum d.val j k := by
    intro s4 e g1 g2 g3 g4
    have m := momenta_congr (s := s4) (t := d'.val) fun a => ⟨(fields (e a)).2.1, (fields (e a)).2.2.1, (fields (e a)).2.2.2.1⟩
    exact ⟨balanced_congr (fun a => ⟨(fields (e a)).2.1, (fields (e a)).2.2.1, (fields (e a)).2.2.2.2.1, (fields (e a)).2.2.2.2.2.1⟩) g1,
      fun a => ⟨(fields (e a)).1.trans (g2 a).1, (fields (e a)).2.1.trans (g2 a).2⟩, fun j => (m.1 j).trans (g3 j), fun j k => (m.2 j k).trans (g4 j k)⟩
  cases h with
  | first hc h1 hc1 h2 =>
    obtain ⟨⟨s1, s2, s3, s4, t1, ka, t3, t4, e⟩, f1, f2⟩ := first_one hv he hw hrep hext' hs hf h1 h2
    obtain ⟨g1, g2, g3, g4, g5, g6⟩ := first_spec z hext (everybody i n) (everybody_faithful i n) _ _ _ _ _ s1 s2 s3 hs hit t1 ka t3
    obtain ⟨k1, k2, -⟩ := tail_keep (fixed z) he hw ⟨c, s3⟩ _ g1 g2 (tail_fixed z c s3 s4 t4)
    have k2' : ∀ a, (s4 a).id = (s3 a).id ∧ (s4 a).mass = (s3 a).mass ∧ (s4 a).pos = (s3 a).pos ∧ (s4 a).vel = (s3 a).vel ∧ (s4 a).acc = (s3 a).acc ∧ (s4 a).gacc = (s3 a).gacc := by
      intro a; obtain ⟨x, y, h⟩ := k2 a
      have h : s4 a = { s3 a with h := x, dt := y } := h
      rw [h]; exact ⟨rfl, rfl, rfl, rfl, rfl, rfl⟩
    have m := momenta_congr (s := s3) (t := s4) fun a => ⟨(k2' a).2.1, (k2' a).2.2.1, (k2' a).2.2.2.1⟩
    obtain ⟨r1, r2⟩ := key s4 e (balanced_congr (fun a => ⟨(k2' a).2.1, (k2' a).2.2.1, (k2' a).2.2.2.2⟩) g3) (fun a => ⟨(k2' a).1.trans (g4 a).1, (k2' a).2.1.trans (g4 a).2⟩)
      (fun j => (m.1 j).trans (g5 j)) (fun j k => (m.2 j k).trans (g6 j k))
    refine ⟨f2, f1, r1, ?_, r2⟩
    show (Timestep.setAdaptive _ _ _).iteration + 1 = _
    rw [setAdaptive_iteration, hc1, setAdaptive_iteration]
  | next hc h1 =>
    obtain ⟨⟨s3, s4, t3, t4, e⟩, f1, f2⟩ := next_one hv he hw hrep hext' hs hf h1
    have hi : iteration (fixed z) (everybody i n) ⟨c, d.val⟩ = some ⟨Timestep.advance false c, s4⟩ := by
      have t3' : nextBranch (fixed z) (everybody i n) ⟨c, d.val⟩ = some ⟨c, s3⟩ := (next_fixed z _ _).trans t3
      have hc' : ¬ (⟨c, d.val⟩ : State i n).clock.iteration = (fixed z).initialIteration := hc
      unfold iteration
      rw [if_neg hc', t3', Option.bind_some]
      exact tail_fixed z c s3 s4 t4
    obtain ⟨-, g2, -, g4, g5, g6⟩ := iteration_spec (fixed z) hext he hw (everybody i n) (everybody_faithful i n) ⟨c, d.val⟩ _ hs hit (fun _ => hb hc) hi
    obtain ⟨r1, r2⟩ := key s4 e g2 g4 g5 g6
    refine ⟨f2, f1, r1, ?_, r2⟩
    show (Timestep.setAdaptive _ _ _).iteration + 1 = _
    rw [setAdaptive_iteration]

/-- C34 and C56 for an adaptive time step on any number of processes: whatever the steps, a run conserves the particles, their masses, the total momentum and the total angular momentum. -/
theorem C97_momentum_partial (hext : ∀ a, z.sph.external a = 0) (hrelax : z.sph.relaxationSteps ≤ z.initialIteration) {N : Nat} {c : Timestep.Clock} (hstart : c.iteration = z.initialIteration)
    (hpos : ∀ a, 0 < (d.val a).mass ∧ 0 < (d.val a).h) (hf : d.flight = []) {steps : List (Timestep.Clock × Timestep.Clock)} {x : Timestep.Clock × (Fin n → Particle (i + 1))}
    (h : ARun NearLists procs z N c home d steps (some x)) :
    (∀ a, (x.2 a).id = (d.val a).id ∧ (x.2 a).mass = (d.val a).mass) ∧
    (∀ j, ∑ a, (x.2 a).mass * (x.2 a).vel j = ∑ a, (d.val a).mass * (d.val a).vel j) ∧
    ∀ j k, ∑ a, (x.2 a).mass * ((x.2 a).pos j * (x.2 a).vel k - (x.2 a).pos k * (x.2 a).vel j) =
      ∑ a, (d.val a).mass * ((d.val a).pos j * (d.val a).vel k - (d.val a).pos k * (d.val a).vel j) := by
  have gen : ∀ {N : Nat} {c : Timestep.Clock} {home : Fin n → Nat} {d : DState (Particle (i + 1)) n} {steps : List (Timestep.Clock × Timestep.Clock)} {r : Option (Timestep.Clock × (Fin n → Particle (i + 1)))},
      ARun NearLists procs z N c home d steps r → (∀ a, Sized (d.val a)) → d.flight = [] → z.initialIteration ≤ c.iteration → (c.iteration ≠ z.initialIteration → Balanced d.val) → ∀ x, r = some x →
      (∀ a, (x.2 a).id = (d.val a).id ∧ (x.2 a).mass = (d.val a).mass) ∧ (∀ j, momentum x.2 j = momentum d.val j) ∧ ∀ j k, angularMomentum x.2 j k = angularMomentum d.val j k := by
    intro N c home d steps r h
    induction h with
    | nil => intro _ _ _ _ x h; obtain rfl := Option.some.inj h; exact ⟨fun a => ⟨rfl, rfl⟩, fun _ => rfl, fun _ _ => rfl⟩
    | fail => intro _ _ _ _ x h; cases h
    | cons h1 _ ih =>
      intro a1 a2 a3 a4 x hx
      obtain ⟨b1, b2, b3, b4, b5, b6, b7⟩ := iter_spec hv he hw hrep hext a1 a2 (hrelax.trans a3) a4 h1
      obtain ⟨c1, c2, c3⟩ := ih b1 b2 (by omega) (fun _ => b3) x hx
      exact ⟨fun a => ⟨(c1 a).1.trans (b5 a).1, (c1 a).2.trans (b5 a).2⟩, fun j => (c2 j).trans (b6 j), fun j k => (c3 j k).trans (b7 j k)⟩
  exact gen h hpos hf hstart.symm.le (fun h => absurd hstart h) x rfl

omit hrep in
/-- One iteration of a polytropic gas with the calls on one process does not fail. -/
private theorem poly_one (hκ : NonNegKernel z.sph.kernel) (hp : z.eos = .polytropic) (hev : z.evolve = false) {c : Timestep.Clock} {s : Fin n → Particle (i + 1)} (hs : ∀ a, 0 < (s a).mass ∧ 0 < (s a).h)
    (h0 : c.iteration = z.initialIteration → ∀ a, 0 ≤ (s a).P ∧ 0 ≤ (s a).rho) (h1 : c.iteration ≠ z.initialIteration → ∀ a, 0 ≤ (s a).K) :
    if c.iteration = z.initialIteration then ∃ s1, thermo z c.dt true (everybody i n) (initialise z s) = some s1 ∧
        checkNegativity z (updateH z (forces z c.iteration (everybody i n) s1)) = some (updateH z (forces z c.iteration (everybody i n) s1)) ∧ Sound (updateH z (forces z c.iteration (everybody i n) s1))
    else ∃ s3, nextBranch z (everybody i n) ⟨c, s⟩ = some ⟨c, s3⟩ ∧ checkNegativity z (updateH z s3) = some (updateH z s3) ∧ Sound (updateH z s3) := by
  obtain ⟨st', k1, k2, k3, -, k5⟩ := iteration_some (fixed z) hκ hv hp hev he hw (everybody i n) (everybody_faithful i n) ⟨c, s⟩ hs h0 h1
  unfold iteration at k1
  obtain ⟨st1, k1, k6⟩ := Option.bind_eq_some_iff.mp k1
  obtain ⟨s4, k6, k7⟩ := Option.bind_eq_some_iff.mp k6
  obtain rfl := check_eq k6
  have e4 : st'.parts = updateH z st1.parts := by
    obtain ⟨st2, k7, rfl⟩ := Option.map_eq_some_iff.mp k7
    unfold adaptStep at k7
    rw [if_neg (by simp [fixed])] at k7
    exact (congrArg State.parts (Option.some.inj k7)).symm
  have sound : Sound (updateH z st1.parts) := by
    rw [← e4]
    exact fun a => ⟨(k2 a).1, (k2 a).2, k3 a, k5 a⟩
  have check : checkNegativity z (updateH z st1.parts) = some (updateH z st1.parts) := k6
  split_ifs with hc
  · have hc' : (⟨c, s⟩ : State i n).clock.iteration = (fixed z).initialIteration := hc
    rw [if_pos hc'] at k1
    unfold firstBranch at k1
    obtain ⟨s1, t1, k1⟩ := Option.bind_eq_some_iff.mp k1
    obtain ⟨st2, t2, k1⟩ := Option.bind_eq_some_iff.mp k1
    unfold adaptStep at t2
    rw [if_neg (by simp [fixed])] at t2
    obtain rfl := Option.some.inj t2
    unfold energy at k1
    rw [if_neg (by simp [fixed, hev])] at k1
    obtain rfl := Option.some.inj k1
    exact ⟨s1, t1, check, sound⟩
  · have hc' : ¬ (⟨c, s⟩ : State i n).clock.iteration = (fixed z).initialIteration := hc
    rw [if_neg hc', next_fixed] at k1
    have : st1 = ⟨c, st1.parts⟩ := by
      unfold nextBranch at k1
      obtain ⟨s1, t1, k1⟩ := Option.bind_eq_some_iff.mp k1
      obtain ⟨s2, t2, rfl⟩ := Option.map_eq_some_iff.mp k1
      rfl
    rw [this] at k1
    exact ⟨_, k1, check, sound⟩

private theorem iter_poly (hκ : NonNegKernel z.sph.kernel) (hp : z.eos = .polytropic) (hev : z.evolve = false) (hext : ∀ a, z.sph.external { a with vsig := 0, dt := 0 } = z.sph.external a)
    {c : Timestep.Clock} (hs : ∀ a, Sized (d.val a)) (hf : d.flight = []) (h0 : c.iteration = z.initialIteration → ∀ a, 0 ≤ (d.val a).P ∧ 0 ≤ (d.val a).rho)
    (h1 : c.iteration ≠ z.initialIteration → ∀ a, 0 ≤ (d.val a).K) {r : Option (Timestep.Clock × Timestep.Clock × (Fin n → Nat) × DState (Particle (i + 1)) n)} (h : AIter NearLists procs z c home d r) :
    ∃ c1 c2 home' d', r = some (c1, c2, home', d') ∧ Sound d'.val ∧ d'.flight = [] ∧ c2.iteration = c.iteration + 1 := by
  have one := poly_one hv he hw hκ hp hev hs h0 h1
  have hE : ∀ dt it (s : Fin n → Particle (i + 1)), energy z dt it (everybody i n) s = some s := fun dt it s => by unfold energy; rw [if_neg (by simp [hev])]
  cases h with
  | first hc g1 hc1 g2 =>
    rw [if_pos hc] at one
    obtain ⟨s1, t1, t2, t3⟩ := one
    obtain ⟨⟨s1', s2, s3, s4, u1, u2, u3, u4, u5⟩, f1, f2⟩ := first_one hv he hw hrep hext hs hf g1 g2
    obtain rfl := Option.some.inj (t1.symm.trans u1)
    obtain rfl := Option.some.inj ((hE _ _ _).symm.trans u3)
    obtain rfl := check_eq u4
    refine ⟨_, _, _, _, rfl, t3.of_er fun a => (u5 a).trans ?_, f1, ?_⟩
    · obtain ⟨x, hx⟩ := updateH_dt u2 a
      rw [hx]; rfl
    · show (Timestep.setAdaptive _ _ _).iteration + 1 = _
      rw [setAdaptive_iteration, hc1, setAdaptive_iteration]
  | firstFail hc g1 =>
    rw [if_pos hc] at one
    obtain ⟨s1, t1, -, -⟩ := one
    rcases exec_split_fail g1 with g | ⟨y, -, g⟩
    · have hD : Free.Disc n (firstForces z c.dt c.iteration) (fun _ => False) Sized Dense := by
        have := Free.disc_forces (n := n) (J := Dense) (ops := []) z hv c.dt c.iteration (fun _ => hrep) hext (fun a h => h) (V := fun _ => False)
        rwa [List.append_nil] at this
      have := agree_fail (everybody i n) (fun s _ => everybody_near s) everybody_order hD g (fun v h => h.elim) hs d.val hs (fun _ => rfl)
      rw [exec1_forces, t1] at this
      cases this
    · exact (step_fail hev g).elim
  | restFail hc g1 hc1 g2 =>
    rw [if_pos hc] at one
    obtain ⟨s1, t1, t2, t3⟩ := one
    obtain ⟨s1', s2, u1, u2, ed, dn1, dn2, hf1⟩ := first_half hv hrep hext hs hf g1
    obtain rfl := Option.some.inj (t1.symm.trans u1)
    rcases exec_split_fail g2 with g | ⟨y, -, g⟩
    · have hcons := forces_consistent z _ _ g1
      have := agree_fail (everybody i n) (fun s _ => everybody_near s) everybody_order (Free.disc_rest (n := n) z he hw _ _) g (fun v h => by rw [h]; exact hcons) dn1 s2 dn2 ed
      rw [exec1_rest, hE, Option.bind_some, check_dt (updateH_dt u2) t2] at this
      cases this
    · exact (step_fail hev g).elim
  | next hc g1 =>
    rw [if_neg hc] at one
    obtain ⟨s3, t1, t2, t3⟩ := one
    obtain ⟨⟨s3', s4, u1, u2, u3⟩, f1, f2⟩ := next_one hv he hw hrep hext hs hf g1
    have e3 := t1.symm.trans u1
    simp only [Option.some.injEq, State.mk.injEq, true_and] at e3
    subst e3
    obtain rfl := check_eq u2
    refine ⟨_, _, _, _, rfl, t3.of_er u3, f1, ?_⟩
    show (Timestep.setAdaptive _ _ _).iteration + 1 = _
    rw [setAdaptive_iteration]
  | nextFail hc g1 =>
    rw [if_neg hc] at one
    obtain ⟨s3, t1, t2, t3⟩ := one
    rcases exec_split_fail g1 with g | ⟨y, -, g⟩
    · have := agree_fail (everybody i n) (fun s _ => everybody_near s) everybody_order (Free.disc_next (n := n) z hv he hw c.dt c.iteration (fun _ => hrep) hext (V := fun _ => False)) g
        (fun v h => h.elim) hs d.val hs (fun _ => rfl)
      have hn := exec1_next (everybody i n) z ⟨c, d.val⟩
      simp only at hn
      rw [t1] at hn
      obtain ⟨s3', e1, e2⟩ := Option.map_eq_some_iff.mp hn
      simp only [State.mk.injEq, true_and] at e2
      subst e2
      rw [exec1_append, e1, Option.bind_some, exec1_last, t2] at this
      cases this
    · exact (step_fail hev g).elim

/-- C36 for an adaptive time step on any number of processes: no run of a polytropic gas with a kernel which is not negative, the internal energy not evolved, stops on an assertion, and after every number of
iterations masses, smoothing lengths and densities are positive and pressures not negative. -/
theorem C97_polytropic_partial (hκ : NonNegKernel z.sph.kernel) (hp : z.eos = .polytropic) (hev : z.evolve = false) (hext : ∀ a, z.sph.external { a with vsig := 0, dt := 0 } = z.sph.external a)
    {N : Nat} (hN : 0 < N) {c : Timestep.Clock} (hstart : c.iteration = z.initialIteration) (hpos : ∀ a, 0 < (d.val a).mass ∧ 0 < (d.val a).h ∧ 0 ≤ (d.val a).P ∧ 0 ≤ (d.val a).rho) (hf : d.flight = [])
    {steps : List (Timestep.Clock × Timestep.Clock)} {r : Option (Timestep.Clock × (Fin n → Particle (i + 1)))} (h : ARun NearLists procs z N c home d steps r) :
    ∃ c' s, r = some (c', s) ∧ c'.iteration = c.iteration + N ∧ ∀ a, 0 < (s a).mass ∧ 0 < (s a).h ∧ 0 < (s a).rho ∧ 0 ≤ (s a).P := by
  have gen : ∀ {N : Nat} {c : Timestep.Clock} {home : Fin n → Nat} {d : DState (Particle (i + 1)) n} {steps : List (Timestep.Clock × Timestep.Clock)} {r : Option (Timestep.Clock × (Fin n → Particle (i + 1)))},
      ARun NearLists procs z N c home d steps r → Sound d.val → d.flight = [] → z.initialIteration < c.iteration →
      ∃ c' s, r = some (c', s) ∧ c'.iteration = c.iteration + N ∧ ∀ a, 0 < (s a).mass ∧ 0 < (s a).h ∧ 0 < (s a).rho ∧ 0 ≤ (s a).P := by
    intro N c home d steps r h
    induction h with
    | nil => intro h _ _; exact ⟨_, _, rfl, by simp, fun a => ⟨(h a).1, (h a).2.1, (h a).2.2.2⟩⟩
    | fail h1 =>
      intro a1 a2 a3
      obtain ⟨_, _, _, _, e, -⟩ := iter_poly hv he hw hrep hκ hp hev hext (fun a => ⟨(a1 a).1, (a1 a).2.1⟩) a2 (fun h => by omega) (fun _ a => (a1 a).2.2.1) h1
      cases e
    | cons h1 _ ih =>
      intro a1 a2 a3
      obtain ⟨_, _, _, _, e, b1, b2, b3⟩ := iter_poly hv he hw hrep hκ hp hev hext (fun a => ⟨(a1 a).1, (a1 a).2.1⟩) a2 (fun h => by omega) (fun _ a => (a1 a).2.2.1) h1
      cases e
      obtain ⟨c', s, e1, e2, e3⟩ := ih b1 b2 (by omega)
      exact ⟨c', s, e1, by rw [e2, b3]; push_cast; ring, e3⟩
  cases h with
  | nil => exact absurd hN (lt_irrefl 0)
  | fail h1 =>
    obtain ⟨_, _, _, _, e, -⟩ := iter_poly hv he hw hrep hκ hp hev hext (fun a => ⟨(hpos a).1, (hpos a).2.1⟩) hf (fun _ a => (hpos a).2.2) (fun h => absurd hstart h) h1
    cases e
  | cons h1 h2 =>
    obtain ⟨_, _, _, _, e, b1, b2, b3⟩ := iter_poly hv he hw hrep hκ hp hev hext (fun a => ⟨(hpos a).1, (hpos a).2.1⟩) hf (fun _ a => (hpos a).2.2) (fun h => absurd hstart h) h1
    cases e
    obtain ⟨c', s, e1, e2, e3⟩ := gen h2 b1 b2 (by omega)
    exact ⟨c', s, e1, by rw [e2, b3]; push_cast; ring, e3⟩

/-- What one iteration does to the energy. -/
private theorem iter_total (hext : ∀ a, z.sph.external { a with vsig := 0, dt := 0 } = z.sph.external a) (htk : z.thermokinetic = true) (hev : z.evolve = true) (hup : 1 ≤ z.updates)
    {c c1 c2 : Timestep.Clock} {home' : Fin n → Nat} {d' : DState (Particle (i + 1)) n} (hs : ∀ a, Sized (d.val a)) (hf : d.flight = [])
    (hit : z.sph.relaxationSteps ≤ c.iteration) (hb : c.iteration ≠ z.initialIteration → ∑ a, (d.val a).mass * (d.val a).dedt = 0) (h : AIter NearLists procs z c home d (some (c1, c2, home', d'))) :
    (∀ a, Sized (d'.val a)) ∧ d'.flight = [] ∧ ∑ a, (d'.val a).mass * (d'.val a).dedt = 0 ∧ c2.iteration = c.iteration + 1 ∧
    energyTotal d'.val = if c.iteration = z.initialIteration then initialEnergy z d.val else energyTotal d.val := by
  have key : ∀ s4 : Fin n → Particle (i + 1), (∀ a, Free.er (d'.val a) = Free.er (s4 a)) → ∑ a, (s4 a).mass * (s4 a).dedt = 0 →
      ∑ a, (d'.val a).mass * (d'.val a).dedt = 0 ∧ energyTotal d'.val = energyTotal s4 := by
    intro s4 e g1
    refine ⟨?_, total_congr fun a => ⟨(fields (e a)).2.1, (fields (e a)).2.2.2.2.2.2.1⟩⟩
    rw [← g1]
    exact Finset.sum_congr rfl fun a _ => by rw [(fields (e a)).2.1, (fields (e a)).2.2.2.2.2.2.2]
  cases h with
  | first hc h1 hc1 h2 =>
    obtain ⟨⟨s1, s2, s3, s4, t1, ka, t3, t4, e⟩, f1, f2⟩ := first_one hv he hw hrep hext hs hf h1 h2
    have hci : c1.iteration = c.iteration := by rw [hc1, setAdaptive_iteration]
    rw [hci] at t3
    obtain ⟨g1, g2, g3, g4⟩ := first_total z htk hev hup (everybody i n) (everybody_faithful i n) _ _ _ _ s1 s2 s3 hs hit t1 ka t3
    obtain ⟨k1, k2, -⟩ := tail_keep (fixed z) he hw ⟨c, s3⟩ _ g1 g2 (tail_fixed z c s3 s4 t4)
    have k2' : ∀ a, (s4 a).mass = (s3 a).mass ∧ (s4 a).e = (s3 a).e ∧ (s4 a).dedt = (s3 a).dedt := by
      intro a; obtain ⟨x, y, h⟩ := k2 a
      have h : s4 a = { s3 a with h := x, dt := y } := h
      rw [h]; exact ⟨rfl, rfl, rfl⟩
    obtain ⟨r1, r2⟩ := key s4 e (by rw [← g3]; exact Finset.sum_congr rfl fun a _ => by rw [(k2' a).1, (k2' a).2.2])
    refine ⟨f2, f1, r1, ?_, ?_⟩
    · show (Timestep.setAdaptive _ _ _).iteration + 1 = _
      rw [setAdaptive_iteration, hci]
    · rw [if_pos hc, r2, ← g4]
      exact total_congr fun a => ⟨(k2' a).1, (k2' a).2.1⟩
  | next hc h1 =>
    obtain ⟨⟨s3, s4, t3, t4, e⟩, f1, f2⟩ := next_one hv he hw hrep hext hs hf h1
    have hi : iteration (fixed z) (everybody i n) ⟨c, d.val⟩ = some ⟨Timestep.advance false c, s4⟩ := by
      have t3' : nextBranch (fixed z) (everybody i n) ⟨c, d.val⟩ = some ⟨c, s3⟩ := (next_fixed z _ _).trans t3
      have hc' : ¬ (⟨c, d.val⟩ : State i n).clock.iteration = (fixed z).initialIteration := hc
      unfold iteration
      rw [if_neg hc', t3', Option.bind_some]
      exact tail_fixed z c s3 s4 t4
    obtain ⟨-, g2, -, g4⟩ := iteration_total (fixed z) htk hev hup he hw (everybody i n) (everybody_faithful i n) ⟨c, d.val⟩ _ hs hit (fun _ => hb hc) hi
    obtain ⟨r1, r2⟩ := key s4 e g2
    refine ⟨f2, f1, r1, ?_, ?_⟩
    · show (Timestep.setAdaptive _ _ _).iteration + 1 = _
      rw [setAdaptive_iteration]
    · have hc' : ¬ (⟨c, d.val⟩ : State i n).clock.iteration = (fixed z).initialIteration := hc
      rw [if_neg hc'] at g4
      rw [if_neg hc, r2, g4]

/-- C35 for an adaptive time step on any number of processes: in the thermokinetic formulation a run conserves the total energy, whatever the steps. -/
theorem C97_energy_partial (hext : ∀ a, z.sph.external { a with vsig := 0, dt := 0 } = z.sph.external a) (htk : z.thermokinetic = true) (hev : z.evolve = true) (hup : 1 ≤ z.updates)
    (hrelax : z.sph.relaxationSteps ≤ z.initialIteration) {N : Nat} (hN : 0 < N) {c : Timestep.Clock} (hstart : c.iteration = z.initialIteration)
    (hpos : ∀ a, 0 < (d.val a).mass ∧ 0 < (d.val a).h) (hf : d.flight = []) {steps : List (Timestep.Clock × Timestep.Clock)} {x : Timestep.Clock × (Fin n → Particle (i + 1))}
    (h : ARun NearLists procs z N c home d steps (some x)) :
    ∑ a, (x.2 a).mass * (x.2 a).e =
      ∑ a, (d.val a).mass * (1 / 2 * ∑ j, (d.val a).vel j * (d.val a).vel j + (Eos.init z.eos z.eosParams (d.val a)).u + z.phi (d.val a).pos) := by
  have gen : ∀ {N : Nat} {c : Timestep.Clock} {home : Fin n → Nat} {d : DState (Particle (i + 1)) n} {steps : List (Timestep.Clock × Timestep.Clock)} {r : Option (Timestep.Clock × (Fin n → Particle (i + 1)))},
      ARun NearLists procs z N c home d steps r → (∀ a, Sized (d.val a)) → d.flight = [] → z.initialIteration < c.iteration → ∑ a, (d.val a).mass * (d.val a).dedt = 0 → ∀ x, r = some x →
      energyTotal x.2 = energyTotal d.val := by
    intro N c home d steps r h
    induction h with
    | nil => intro _ _ _ _ x h; obtain rfl := Option.some.inj h; rfl
    | fail => intro _ _ _ _ x h; cases h
    | cons h1 _ ih =>
      intro a1 a2 a3 a4 x hx
      obtain ⟨b1, b2, b3, b4, b5⟩ := iter_total hv he hw hrep hext htk hev hup a1 a2 (hrelax.trans a3.le) (fun _ => a4) h1
      rw [if_neg (by omega)] at b5
      exact (ih b1 b2 (by omega) b3 x hx).trans b5
  cases h with
  | nil => omega
  | cons h1 h2 =>
    obtain ⟨b1, b2, b3, b4, b5⟩ := iter_total hv he hw hrep hext htk hev hup hpos hf (by rw [hstart]; exact hrelax) (fun h => absurd hstart h) h1
    rw [if_pos hstart] at b5
    exact (gen h2 b1 b2 (by omega) b3 x rfl).trans b5

end

/-! ### The limits of the particles -/

theorem keeps_vsig_density (z : Config i) (dt : ℝ) : Keeps (fun a : Particle (i + 1) => 0 ≤ a.vsig) (densityOp z dt) := by
  intro a l x _ h
  simp only [Eos.computeDensityPressureSoundspeed, Option.bind_eq_bind, Option.pure_def] at h
  obtain ⟨a1, -, h⟩ := Option.bind_eq_some_iff.mp h
  obtain ⟨a2, -, h⟩ := Option.bind_eq_some_iff.mp h
  obtain rfl := Option.some.inj h
  have h1 : ∀ b : Particle (i + 1), 0 ≤ (computeSignalspeed b l).vsig := by
    intro b
    have gen : ∀ (l : List (Particle (i + 1))) (v : ℝ), 0 ≤ v → 0 ≤ l.foldl (fun vsig c => if c.pos = b.pos then vsig
        else max vsig (max b.cs c.cs - min (dot (b.vel - c.vel) (fun j => (b.pos j - c.pos j) / distance b.pos c.pos)) 0)) v := by
      intro l
      induction l with
      | nil => intro v h; exact h
      | cons c l ih =>
        intro v h
        rw [List.foldl_cons]
        refine ih _ ?_
        split_ifs
        · exact h
        · exact h.trans (le_max_left _ _)
    exact gen l 0 le_rfl
  show 0 ≤ (Eos.divvIf _ _ _ _).vsig
  unfold Eos.divvIf
  cases z.sph.visc
  · exact h1 _
  · exact h1 _

theorem keeps_all {I : Particle (i + 1) → Prop} {f : Particle (i + 1) → Particle (i + 1)} (h : ∀ a, I a → I (f a)) : Keeps I (.all fun a => some (f a)) := by
  intro a x ha hx; obtain rfl := Option.some.inj hx; exact h a ha

theorem keeps_pass {I : Particle (i + 1) → Prop} {k : Nat} {f : Particle (i + 1) → List (Particle (i + 1)) → Particle (i + 1)} (h : ∀ a l, I a → I (f a l)) :
    Keeps I (.pass k fun a l => some (f a l)) := by
  intro a l x ha hx; obtain rfl := Option.some.inj hx; exact h a l ha

theorem keeps_steps (z : Config i) : Keeps (fun a : Particle (i + 1) => 0 ≤ a.vsig) (stepOp z) := by
  intro a x ha hx; obtain ⟨t, rfl⟩ := computeDt_keep _ _ _ hx; exact ha

private theorem keeps_forces (z : Config i) (it : Int) : ∀ o ∈ forceOps z it, Keeps (fun a : Particle (i + 1) => 0 ≤ a.vsig) o := by
  intro o h
  unfold forceOps at h
  split_ifs at h
  all_goals simp only [List.mem_append, List.mem_cons, List.not_mem_nil, or_false] at h
  · rcases h with (rfl | rfl) | rfl | rfl
    · trivial
    · exact keeps_pass fun a l h => h
    · exact keeps_all fun a h => h
    · exact keeps_pass fun a l h => h
  · rcases h with rfl | rfl
    · trivial
    · exact keeps_pass fun a l h => h

theorem keeps_kick (z : Config i) (dt : ℝ) : ∀ o ∈ kickOps z dt, Keeps (fun a : Particle (i + 1) => 0 ≤ a.vsig) o := by
  intro o h
  unfold kickOps at h
  split_ifs at h
  all_goals simp only [List.mem_cons, List.not_mem_nil, or_false] at h
  · subst h; exact keeps_all fun a h => h
  · subst h; exact keeps_all fun a h => h

theorem keeps_last (z : Config i) : ∀ o ∈ lastOps z, Keeps (fun a : Particle (i + 1) => 0 ≤ a.vsig) o := by
  have hc : Keeps (fun a : Particle (i + 1) => 0 ≤ a.vsig) (.all fun a => if 0 ≤ a.rho ∧ 0 ≤ a.P ∧ (z.evolve = true → 0 ≤ a.u) then some a else none) := by
    intro a x ha hx
    simp only at hx
    split_ifs at hx
    obtain rfl := Option.some.inj hx; exact ha
  intro o h
  unfold lastOps at h
  rcases List.mem_append.mp h with h | h
  · cases hm : z.hMode
    all_goals rw [hm] at h; simp only [List.mem_cons, List.not_mem_nil, or_false] at h
    · subst h; exact keeps_all fun a h => h
    · subst h; exact fun x a h => h
  · obtain rfl := List.mem_singleton.mp h
    exact hc

private theorem keeps_energy (z : Config i) (dt : ℝ) (it : Int) (m : Nat) : ∀ o ∈ energyOps z dt it m, Keeps (fun a : Particle (i + 1) => 0 ≤ a.vsig) o := by
  induction m with
  | zero => intro o h; cases h
  | succ m ih =>
    intro o h
    unfold energyOps at h
    rcases List.mem_append.mp h with h | h
    · rcases List.mem_append.mp h with h | h
      · split_ifs at h
        all_goals simp only [List.mem_append, List.mem_cons, List.not_mem_nil, or_false, false_or] at h
        · rcases h with rfl | rfl | rfl
          · exact keeps_pass fun a l h => h
          · exact keeps_all fun a h => h
          · intro a x ha hx; obtain ⟨u, P, c, rfl⟩ := recomputeT_keep _ _ _ _ _ _ hx; exact ha
        · rcases h with rfl | rfl
          · exact keeps_pass fun a l h => h
          · intro a x ha hx; obtain ⟨u, P, c, rfl⟩ := recomputeT_keep _ _ _ _ _ _ hx; exact ha
        · rcases h with rfl | rfl | rfl
          · refine keeps_pass fun a l h => ?_
            unfold computeDudt; split_ifs; exact h
          · exact keeps_all fun a h => h
          · refine keeps_all fun a h => ?_
            obtain ⟨P, c, e⟩ := recompute_keep z.eos z.eosParams dt a; rw [e]; exact h
        · rcases h with rfl | rfl
          · refine keeps_pass fun a l h => ?_
            unfold computeDudt; split_ifs; exact h
          · refine keeps_all fun a h => ?_
            obtain ⟨P, c, e⟩ := recompute_keep z.eos z.eosParams dt a; rw [e]; exact h
      · split_ifs at h
        · obtain rfl := List.mem_singleton.mp h; trivial
        · cases h
    · exact ih o h

theorem keeps_evolve (z : Config i) (dt : ℝ) (it : Int) : ∀ o ∈ (if z.evolve then energyOps z dt it z.updates else []), Keeps (fun a : Particle (i + 1) => 0 ≤ a.vsig) o := by
  intro o h
  split_ifs at h
  · exact keeps_energy _ _ _ _ o h
  · cases h

theorem keeps_first (z : Config i) (dt : ℝ) (it : Int) : ∀ o ∈ firstForces z dt it ++ [stepOp z], Keeps (fun a : Particle (i + 1) => 0 ≤ a.vsig) o := by
  intro o h
  unfold firstForces at h
  simp only [List.mem_append, List.mem_cons, List.not_mem_nil, or_false] at h
  rcases h with ((((((rfl | rfl) | h) | h) | rfl | rfl) | h) | h) | rfl
  · trivial
  · refine keeps_all fun a h => ?_
    have : (Eos.init z.eos z.eosParams a).vsig = a.vsig := by cases z.eos <;> rfl
    rw [this]; exact h
  · split_ifs at h
    · obtain rfl := List.mem_singleton.mp h; exact keeps_all fun a h => h
    · cases h
  · cases hv : z.sph.visc with
    | constant => rw [hv] at h; cases h
    | cullen =>
      rw [hv] at h
      obtain rfl := List.mem_singleton.mp h
      refine keeps_all fun a h => ?_
      unfold Cullen.initializeAlpha
      split <;> exact h
  · exact keeps_vsig_density z dt
  · exact keeps_all fun a h => h
  · exact DistConserve.keeps_alpha (fun _ _ h => h) z dt o h
  · exact keeps_forces z it o h
  · exact keeps_steps z

theorem keeps_rest (z : Config i) (dt : ℝ) (it : Int) : ∀ o ∈ firstRest z dt it ++ [stepOp z], Keeps (fun a : Particle (i + 1) => 0 ≤ a.vsig) o := by
  intro o h
  unfold firstRest at h
  simp only [List.mem_append, List.mem_cons, List.not_mem_nil, or_false] at h
  rcases h with (h | h) | rfl
  · exact keeps_evolve z dt it o h
  · exact keeps_last z o h
  · exact keeps_steps z

theorem keeps_next (z : Config i) (dt : ℝ) (it : Int) : ∀ o ∈ nextOps z dt it ++ lastOps z ++ [stepOp z], Keeps (fun a : Particle (i + 1) => 0 ≤ a.vsig) o := by
  intro o h
  unfold nextOps at h
  simp only [List.mem_append, List.mem_cons, List.not_mem_nil, or_false] at h
  rcases h with ((((((((h | rfl | rfl | rfl | rfl | rfl)) | h) | h) | rfl | rfl) | h) | h) | h) | rfl
  · exact keeps_kick z dt o h
  · exact keeps_all fun a h => h
  · exact keeps_all fun a h => h
  · exact keeps_all fun a h => h
  · trivial
  · exact keeps_vsig_density z dt
  · exact DistConserve.keeps_alpha (fun _ _ h => h) z dt o h
  · exact keeps_forces z it o h
  · exact keeps_all fun a h => h
  · trivial
  · exact keeps_evolve z dt it o h
  · exact keeps_kick z dt o h
  · exact keeps_last z o h
  · exact keeps_steps z

/-- The limits which one call of `set_adaptive_timestep` respects. -/
theorem clock_limits {z : Config i} (he : 0 < z.eta) (hw : 0 < z.width) (hcfl : 0 < z.cfl) (hal : 0 ≤ z.sph.alpha) (ho : ∀ k, z.outputs.interval k ≤ 0) {procs : Nat} {home : Fin n → Nat}
    (hh : ∀ a, home a < procs) {s s' : Fin n → Particle (i + 1)} (hs : ∀ a, 0 < (s a).h ∧ 0 ≤ (s a).vsig) (h : ∀ a, Timestep.computeDt (stepSettings z) (s a) = some (s' a))
    {c : Timestep.Clock} (hc : 0 < c.dt) :
    let c' := Timestep.setAdaptive z.outputs (limits procs home s') c
    0 < c'.dt ∧ c'.dt ≤ 2 * c.dt ∧ (Timestep.advance true c').totaltime = c.totaltime + c'.dt ∧ c'.totaltime = c.totaltime ∧ ∀ a,
      c'.dt * √(∑ j, (s' a).vel j ^ 2) ≤ z.cfl * ((s' a).h / (z.eta * z.width)) ∧
      c'.dt ^ 2 * √(∑ j, ((s' a).acc j + (s' a).gacc j) ^ 2) ≤ z.cfl ^ 2 * ((s' a).h / (z.eta * z.width)) ∧
      c'.dt * ((s' a).vsig * (1 + 6 / 10 * z.sph.alpha)) ≤ z.cfl * ((s' a).h / (z.eta * z.width)) := by
  intro c'
  have hl := fun a => C40_particle_limit (stepSettings z) (s a) (s' a) he hw hcfl hal (hs a).1 (hs a).2 (h a)
  have hpos : ∀ l ∈ limits procs home s', ∀ x ∈ l, 0 < x := by
    intro l hl' x hx
    obtain ⟨p, -, rfl⟩ := List.mem_map.mp hl'
    obtain ⟨a, -, rfl⟩ := List.mem_map.mp hx
    exact (hl a).1
  obtain ⟨g1, g2, g3, g4⟩ := C40_no_output_partial z.outputs ho (limits procs home s') hpos c hc
  have htt : c'.totaltime = c.totaltime := by
    have e : c' = _ := Timestep.setAdaptive_none z.outputs (fun k => not_lt.mpr (ho k)) _ c
    rw [e]
  refine ⟨g1, g3, g4, htt, fun a => ?_⟩
  have hle : c'.dt ≤ (s' a).dt := g2 _ (List.mem_map.mpr ⟨home a, List.mem_range.mpr (hh a), rfl⟩) _
    (List.mem_map.mpr ⟨a, List.mem_filter.mpr ⟨List.mem_finRange a, by simp⟩, rfl⟩)
  obtain ⟨k1, k2, k3, k4, -, k6⟩ := hl a
  have e1 : (s' a).h = (s a).h := by rw [k6]
  have e2 : (s' a).vel = (s a).vel := by rw [k6]
  have e3 : (s' a).acc = (s a).acc := by rw [k6]
  have e4 : (s' a).gacc = (s a).gacc := by rw [k6]
  have e5 : (s' a).vsig = (s a).vsig := by rw [k6]
  rw [e1, e2, e3, e4, e5]
  have hv0 : 0 ≤ (s a).vsig * (1 + 6 / 10 * z.sph.alpha) := mul_nonneg (hs a).2 (by linarith)
  exact ⟨(mul_le_mul_of_nonneg_right hle (Real.sqrt_nonneg _)).trans k2,
    (mul_le_mul_of_nonneg_right (pow_le_pow_left₀ g1.le hle 2) (Real.sqrt_nonneg _)).trans k3, (mul_le_mul_of_nonneg_right hle hv0).trans k4⟩

section
variable {z : Config i} (hv : z.sph.visc = .constant) (he : 0 < z.eta) (hw : 0 < z.width) (hrep : z.repulsionRadius ≤ 1)
  (hext : ∀ a, z.sph.external { a with vsig := 0, dt := 0 } = z.sph.external a) {procs : Nat}
include hv he hw hrep hext

omit hv hrep hext in
private theorem iter_limits (hcfl : 0 < z.cfl) (hal : 0 ≤ z.sph.alpha) (ho : ∀ k, z.outputs.interval k ≤ 0) {home home' : Fin n → Nat} {d d' : DState (Particle (i + 1)) n} {c c1 c2 : Timestep.Clock}
    (hh : ∀ a, home a < procs) (hs : ∀ a, Sized (d.val a)) (hsig : ∀ a, 0 ≤ (d.val a).vsig) (hc : 0 < c.dt) (h : AIter NearLists procs z c home d (some (c1, c2, home', d'))) :
    (∀ a, home' a < procs) ∧ (∀ a, Sized (d'.val a)) ∧ (∀ a, 0 ≤ (d'.val a).vsig) ∧ 0 < c2.dt ∧ c2.totaltime = c.totaltime + c2.dt ∧ ∀ a,
      c2.dt * √(∑ j, (d'.val a).vel j ^ 2) ≤ z.cfl * ((d'.val a).h / (z.eta * z.width)) ∧
      c2.dt ^ 2 * √(∑ j, ((d'.val a).acc j + (d'.val a).gacc j) ^ 2) ≤ z.cfl ^ 2 * ((d'.val a).h / (z.eta * z.width)) ∧
      c2.dt * ((d'.val a).vsig * (1 + 6 / 10 * z.sph.alpha)) ≤ z.cfl * ((d'.val a).h / (z.eta * z.width)) := by
  -- the call at the end of an iteration
  have fin : ∀ {ops : List (Op (Particle (i + 1)))} {home1 : Fin n → Nat} {d1 : DState (Particle (i + 1)) n} {c : Timestep.Clock}, (∀ a, home1 a < procs) → (∀ a, Sized (d'.val a)) →
      (∀ a, 0 ≤ (d'.val a).vsig) → DExec NearLists procs (ops ++ [stepOp z]) home1 d1 (some (home', d')) → 0 < c.dt → (∀ a, home' a < procs) ∧
      let c2 := Timestep.advance true (Timestep.setAdaptive z.outputs (limits procs home' d'.val) c)
      0 < c2.dt ∧ c2.totaltime = c.totaltime + c2.dt ∧ ∀ a,
      c2.dt * √(∑ j, (d'.val a).vel j ^ 2) ≤ z.cfl * ((d'.val a).h / (z.eta * z.width)) ∧
      c2.dt ^ 2 * √(∑ j, ((d'.val a).acc j + (d'.val a).gacc j) ^ 2) ≤ z.cfl ^ 2 * ((d'.val a).h / (z.eta * z.width)) ∧
      c2.dt * ((d'.val a).vsig * (1 + 6 / 10 * z.sph.alpha)) ≤ z.cfl * ((d'.val a).h / (z.eta * z.width)) := by
    intro ops home1 d1 c hh1 hs' hsig' hx hc
    have hh' := exec_homes hx hh1 _ rfl
    obtain ⟨y, -, hB⟩ := exec_split hx
    obtain ⟨-, -, -, q4⟩ := exec_step hB
    have hy : ∀ a, 0 < (y.2.val a).h ∧ 0 ≤ (y.2.val a).vsig := by
      intro a
      obtain ⟨-, t, ht⟩ := q4 a
      have g1 := (hs' a).2
      have g2 := hsig' a
      simp only at ht
      rw [ht] at g1 g2
      exact ⟨g1, g2⟩
    obtain ⟨r1, -, r2, -, r3⟩ := clock_limits he hw hcfl hal ho hh' hy (fun a => (q4 a).1) hc
    exact ⟨hh', r1, r2, r3⟩
  cases h with
  | first hc0 h1 hc1 h2 =>
    have f1 := fun a => (AlphaFit.exec_fit h1 (AlphaFit.fit_adapt1 z _ _) hs _ rfl a).1
    have f2 := fun a => (AlphaFit.exec_fit h2 (AlphaFit.fit_adapt2 z he hw _ _) f1 _ rfl a).1
    have s1 := exec_keeps h1 (keeps_first z _ _) hsig _ rfl
    have s2 := exec_keeps h2 (keeps_rest z _ _) s1 _ rfl
    have hh1 := exec_homes h1 hh _ rfl
    -- the first call of set_adaptive_timestep
    have hmid : 0 < c1.dt ∧ c1.totaltime = c.totaltime := by
      obtain ⟨y, hA, hB⟩ := exec_split h1
      obtain ⟨-, -, -, q4⟩ := exec_step hB
      have p1 := fun a => (AlphaFit.exec_fit hA (AlphaFit.fit_forces z _ _) hs _ rfl a).1
      have hy : ∀ a, 0 < (y.2.val a).h ∧ 0 ≤ (y.2.val a).vsig := by
        intro a
        obtain ⟨-, t, ht⟩ := q4 a
        have g2 := s1 a
        simp only at ht
        simp only [ht] at g2
        exact ⟨(p1 a).2.1, g2⟩
      obtain ⟨r1, -, -, r2, -⟩ := clock_limits he hw hcfl hal ho hh1 hy (fun a => (q4 a).1) hc
      rw [hc1]; exact ⟨r1, r2⟩
    obtain ⟨g1, g2, g3, g4⟩ := fin hh1 f2 s2 h2 hmid.1
    exact ⟨g1, f2, s2, g2, by rw [← hmid.2]; exact g3, g4⟩
  | next hc0 h1 =>
    have f2 := fun a => (AlphaFit.exec_fit h1 (AlphaFit.fit_adapt3 z he hw _ _) hs _ rfl a).1
    have s2 := exec_keeps h1 (keeps_next z _ _) hsig _ rfl
    obtain ⟨g1, g2, g3, g4⟩ := fin hh f2 s2 h1 hc
    exact ⟨g1, f2, s2, g2, g3, g4⟩

omit hv hrep hext in
/-- C40 for whole runs on any number of processes, without timed outputs: after every iteration the time step is positive and within the limits which velocity, acceleration and signal speed of every particle
of every process set, and the time is the sum of the steps. -/
theorem C97_limits_partial (hcfl : 0 < z.cfl) (hal : 0 ≤ z.sph.alpha) (ho : ∀ k, z.outputs.interval k ≤ 0) {N : Nat} {c : Timestep.Clock} {home : Fin n → Nat} {d : DState (Particle (i + 1)) n}
    (hN : 0 < N) (hh : ∀ a, home a < procs) (hpos : ∀ a, 0 < (d.val a).mass ∧ 0 < (d.val a).h) (hsig : ∀ a, 0 ≤ (d.val a).vsig) (hc : 0 < c.dt)
    {steps : List (Timestep.Clock × Timestep.Clock)} {x : Timestep.Clock × (Fin n → Particle (i + 1))} (h : ARun NearLists procs z N c home d steps (some x)) :
    0 < x.1.dt ∧ steps.length = N ∧ (∀ s ∈ steps, 0 < s.2.dt) ∧ x.1.totaltime = c.totaltime + (steps.map fun s => s.2.dt).sum ∧ ∀ a,
      x.1.dt * √(∑ j, (x.2 a).vel j ^ 2) ≤ z.cfl * ((x.2 a).h / (z.eta * z.width)) ∧
      x.1.dt ^ 2 * √(∑ j, ((x.2 a).acc j + (x.2 a).gacc j) ^ 2) ≤ z.cfl ^ 2 * ((x.2 a).h / (z.eta * z.width)) ∧
      x.1.dt * ((x.2 a).vsig * (1 + 6 / 10 * z.sph.alpha)) ≤ z.cfl * ((x.2 a).h / (z.eta * z.width)) := by
  have gen : ∀ {N : Nat} {c : Timestep.Clock} {home : Fin n → Nat} {d : DState (Particle (i + 1)) n} {steps : List (Timestep.Clock × Timestep.Clock)} {r : Option (Timestep.Clock × (Fin n → Particle (i + 1)))},
      ARun NearLists procs z N c home d steps r → (∀ a, home a < procs) → (∀ a, Sized (d.val a)) → (∀ a, 0 ≤ (d.val a).vsig) → 0 < c.dt → ∀ x, r = some x →
      0 < x.1.dt ∧ steps.length = N ∧ (∀ s ∈ steps, 0 < s.2.dt) ∧ x.1.totaltime = c.totaltime + (steps.map fun s => s.2.dt).sum ∧
      ((0 < N ∨ ∀ a, c.dt * √(∑ j, (d.val a).vel j ^ 2) ≤ z.cfl * ((d.val a).h / (z.eta * z.width)) ∧
        c.dt ^ 2 * √(∑ j, ((d.val a).acc j + (d.val a).gacc j) ^ 2) ≤ z.cfl ^ 2 * ((d.val a).h / (z.eta * z.width)) ∧
        c.dt * ((d.val a).vsig * (1 + 6 / 10 * z.sph.alpha)) ≤ z.cfl * ((d.val a).h / (z.eta * z.width))) → ∀ a,
        x.1.dt * √(∑ j, (x.2 a).vel j ^ 2) ≤ z.cfl * ((x.2 a).h / (z.eta * z.width)) ∧
        x.1.dt ^ 2 * √(∑ j, ((x.2 a).acc j + (x.2 a).gacc j) ^ 2) ≤ z.cfl ^ 2 * ((x.2 a).h / (z.eta * z.width)) ∧
        x.1.dt * ((x.2 a).vsig * (1 + 6 / 10 * z.sph.alpha)) ≤ z.cfl * ((x.2 a).h / (z.eta * z.width))) := by
    intro N c home d steps r h
    induction h with
    | nil =>
      intro _ _ _ hc x h; obtain rfl := Option.some.inj h
      refine ⟨hc, rfl, fun s hs => absurd hs List.not_mem_nil, ?_, fun h => h.resolve_left (lt_irrefl 0)⟩
      simp
    | fail => intro _ _ _ _ x h; cases h
    | cons h1 _ ih =>
      intro a1 a2 a4 a5 x hx
      obtain ⟨b1, b2, b4, b5, b6, b7⟩ := iter_limits he hw hcfl hal ho a1 a2 a4 a5 h1
      obtain ⟨k1, k2, k3, k4, k5⟩ := ih b1 b2 b4 b5 x hx
      refine ⟨k1, by rw [List.length_cons, k2], ?_, ?_, fun _ => k5 (Or.inr b7)⟩
      · intro s hs
        rcases List.mem_cons.mp hs with rfl | hs
        · exact b5
        · exact k3 s hs
      · rw [k4, b6, List.map_cons, List.sum_cons]; ring
  obtain ⟨k1, k2, k3, k4, k5⟩ := gen h hh hpos hsig hc x rfl
  exact ⟨k1, k2, k3, k4, k5 (Or.inl hN)⟩

/-- One iteration, replayed with the same clocks. -/
private theorem iter_replay {procs' : Nat} {c c1 c2 c2' : Timestep.Clock} {home home' homex homex' : Fin n → Nat} {d d' dx dx' : DState (Particle (i + 1)) n} (hs : ∀ a, Sized (d.val a)) (hs' : ∀ a, Sized (d'.val a))
    (hf : d.flight = []) (hf' : d'.flight = []) (e : ∀ a, Free.er (d.val a) = Free.er (d'.val a)) (h : AIter NearLists procs z c home d (some (c1, c2, homex, dx)))
    (h' : AIter NearLists procs' z c home' d' (some (c1, c2', homex', dx'))) :
    (∀ a, Free.er (dx.val a) = Free.er (dx'.val a)) ∧ (∀ a, Sized (dx.val a)) ∧ (∀ a, Sized (dx'.val a)) ∧ dx.flight = [] ∧ dx'.flight = [] := by
  have er_step : ∀ {procs : Nat} {home : Fin n → Nat} {d : DState (Particle (i + 1)) n} {x : (Fin n → Nat) × DState (Particle (i + 1)) n}, DExec NearLists procs [stepOp z] home d (some x) →
      ∀ a, Free.er (x.2.val a) = Free.er (d.val a) := by
    intro procs home d x h a
    obtain ⟨-, t, ht⟩ := (exec_step h).2.2.2 a
    rw [ht]; rfl
  cases h with
  | first hc0 h1 hc1 h2 =>
    cases h' with
    | first _ h1' hc1' h2' =>
      obtain ⟨-, f1, f2⟩ := first_one hv he hw hrep hext hs hf h1 h2
      obtain ⟨-, f1', f2'⟩ := first_one hv he hw hrep hext hs' hf' h1' h2'
      have hD : Free.Disc n (firstForces z c.dt c.iteration) (fun _ => False) Sized DistRun.Dense := by
        have := Free.disc_forces (n := n) (J := DistRun.Dense) (ops := []) z hv c.dt c.iteration (fun _ => hrep) hext (fun a h => h) (V := fun _ => False)
        rwa [List.append_nil] at this
      have hcons := forces_consistent z _ _ h1
      have hcons' := forces_consistent z _ _ h1'
      obtain ⟨y, hA, hB⟩ := exec_split h1
      obtain ⟨y', hA', hB'⟩ := exec_split h1'
      have p1 := (exec_post hA hD hs hf y rfl).1
      have p1' := (exec_post hA' hD hs' hf' y' rfl).1
      have e1 : ∀ a, Free.er (y.2.val a) = Free.er (y'.2.val a) := fun a => congrFun (Option.some.inj
        (exec_agree Free.near_er hA hD (fun v h => h.elim) (fun v h => h.elim) hs hs' e hA')) a
      have e2 := fun a => (er_step hB a).trans ((e1 a).trans (er_step hB' a).symm)
      have dense : ∀ {procs : Nat} {home : Fin n → Nat} {d : DState (Particle (i + 1)) n} {x : (Fin n → Nat) × DState (Particle (i + 1)) n}, DExec NearLists procs [stepOp z] home d (some x) →
          (∀ a, DistRun.Dense (d.val a)) → ∀ a, DistRun.Dense (x.2.val a) := by
        intro procs home d x h hd a
        obtain ⟨-, t, ht⟩ := (exec_step h).2.2.2 a
        rw [ht]; exact hd a
      obtain ⟨y2, hC, hE⟩ := exec_split h2
      obtain ⟨y2', hC', hE'⟩ := exec_split h2'
      have hR := Free.disc_rest (n := n) z he hw c1.dt c1.iteration
      have e3 : ∀ a, Free.er (y2.2.val a) = Free.er (y2'.2.val a) := fun a => congrFun (Option.some.inj
        (exec_agree Free.near_er hC hR (fun v h => by rw [h]; exact hcons) (fun v h => by rw [h]; exact hcons') (dense hB p1) (dense hB' p1') e2 hC')) a
      exact ⟨fun a => (er_step hE a).trans ((e3 a).trans (er_step hE' a).symm), f2, f2', f1, f1'⟩
    | next hc0' _ => exact absurd hc0 hc0'
  | next hc0 h1 =>
    cases h' with
    | first hc0' _ _ _ => exact absurd hc0' hc0
    | next _ h1' =>
      obtain ⟨-, f1, f2⟩ := next_one hv he hw hrep hext hs hf h1
      obtain ⟨-, f1', f2'⟩ := next_one hv he hw hrep hext hs' hf' h1'
      have hD := Free.disc_next (n := n) z hv he hw c.dt c.iteration (fun _ => hrep) hext (V := fun _ => False)
      obtain ⟨y, hA, hB⟩ := exec_split h1
      obtain ⟨y', hA', hB'⟩ := exec_split h1'
      have e1 : ∀ a, Free.er (y.2.val a) = Free.er (y'.2.val a) := fun a => congrFun (Option.some.inj
        (exec_agree Free.near_er hA hD (fun v h => h.elim) (fun v h => h.elim) hs hs' e hA')) a
      exact ⟨fun a => (er_step hB a).trans ((e1 a).trans (er_step hB' a).symm), f2, f2', f1, f1'⟩

/-- C70 for an adaptive time step: two runs from the same particles, on any numbers of processes, with any divisions, messages, orders of visits and neighbour lists, which set the same clocks, end with the same
data of all particles but signal speeds and particle time steps. -/
theorem C97_replay {procs' N : Nat} {c : Timestep.Clock} {home home' : Fin n → Nat} {d d' : DState (Particle (i + 1)) n} (hsame : d.val = d'.val) (hpos : ∀ a, 0 < (d.val a).mass ∧ 0 < (d.val a).h)
    (hf : d.flight = []) (hf' : d'.flight = []) {steps : List (Timestep.Clock × Timestep.Clock)} {x x' : Timestep.Clock × (Fin n → Particle (i + 1))}
    (h : ARun NearLists procs z N c home d steps (some x)) (h' : ARun NearLists procs' z N c home' d' steps (some x')) :
    x.1 = x'.1 ∧ ∀ a, ({ x.2 a with vsig := 0, dt := 0 } : Particle (i + 1)) = { x'.2 a with vsig := 0, dt := 0 } := by
  have gen : ∀ {N : Nat} {c : Timestep.Clock} {home : Fin n → Nat} {d : DState (Particle (i + 1)) n} {steps : List (Timestep.Clock × Timestep.Clock)} {r : Option (Timestep.Clock × (Fin n → Particle (i + 1)))},
      ARun NearLists procs z N c home d steps r → ∀ {home' : Fin n → Nat} {d' : DState (Particle (i + 1)) n} {x' : Timestep.Clock × (Fin n → Particle (i + 1))},
      ARun NearLists procs' z N c home' d' steps (some x') → (∀ a, Sized (d.val a)) → (∀ a, Sized (d'.val a)) → d.flight = [] → d'.flight = [] → (∀ a, Free.er (d.val a) = Free.er (d'.val a)) →
      ∀ x, r = some x → x.1 = x'.1 ∧ ∀ a, Free.er (x.2 a) = Free.er (x'.2 a) := by
    intro N c home d steps r h
    induction h with
    | nil =>
      intro home' d' x' h' _ _ _ _ e x hx
      obtain rfl := Option.some.inj hx
      cases h'
      exact ⟨rfl, e⟩
    | fail => intro _ _ _ _ _ _ _ _ _ x h; cases h
    | cons h1 _ ih =>
      intro home' d' x' h' a1 a2 a3 a4 a5 x hx
      cases h' with
      | cons h1' h2' =>
        obtain ⟨b1, b2, b3, b4, b5⟩ := iter_replay hv he hw hrep hext a1 a2 a3 a4 a5 h1 h1'
        exact ih h2' b2 b3 b4 b5 b1 x hx
  exact gen h h' hpos (fun a => by rw [← hsame]; exact hpos a) hf hf' (fun a => by rw [hsame]) x rfl

/-- Runs on any number of processes exist, for every division of the particles: either all iterations are done or an assertion fails. -/
theorem C97_exists {N : Nat} {c : Timestep.Clock} {home : Fin n → Nat} (hh : ∀ a, home a < procs) (s : Fin n → Particle (i + 1)) (hpos : ∀ a, 0 < (s a).mass ∧ 0 < (s a).h) :
    ∃ steps r, ARun NearLists procs z N c home ⟨s, fun _ b => some (s b), []⟩ steps r := by
  have hsearch : ∀ s : Fin n → Particle (i + 1), (∀ a, 0 < (s a).h) → ∃ nbs, NearLists s nbs :=
    fun s _ => ⟨fun _ => List.finRange n, fun _ => List.nodup_finRange n, fun _ b _ => List.mem_finRange b⟩
  -- a program followed by compute_dt
  have part : ∀ {ops : List (Op (Particle (i + 1)))} {V : (Particle (i + 1) → Particle (i + 1)) → Prop} {I J : Particle (i + 1) → Prop} {d : DState (Particle (i + 1)) n},
      Free.Disc n ops V I J → (∀ a, I (d.val a)) → Full d → d.flight = [] → (∀ a t, J a → J { a with dt := t }) →
      DExec NearLists procs (ops ++ [stepOp z]) home d none ∨
      ∃ d', DExec NearLists procs (ops ++ [stepOp z]) home d (some (home, d')) ∧ (∀ a, J (d'.val a)) ∧ Full d' ∧ d'.flight = [] := by
    intro ops V I J d hD hI hF hfl hJ
    obtain ⟨r, h1, h2⟩ := exec_exists hsearch hh hD hI hF hfl
    rcases r with _ | ⟨home1, d1⟩
    · exact Or.inl (exec_join_fail _ h1)
    · obtain ⟨rfl, hF1⟩ := h2 _ rfl
      obtain ⟨p1, p2⟩ := exec_post h1 hD hI hfl _ rfl
      by_cases hx : ∃ a, Timestep.computeDt (stepSettings z) (d1.val a) = none
      · obtain ⟨a, ha⟩ := hx
        exact Or.inl (exec_join h1 (.allFail a ha))
      · simp only [not_exists] at hx
        choose v hvv using fun a => Option.ne_none_iff_exists'.mp (hx a)
        refine Or.inr ⟨_, exec_join h1 (.all v hvv .nil), fun a => ?_, hF1, p2⟩
        obtain ⟨t, ht⟩ := computeDt_keep _ _ _ (hvv a)
        show _root_.id J (v a)
        rw [ht]; exact hJ _ _ (p1 a)
  have key : ∀ N c (d : DState (Particle (i + 1)) n), (∀ a, Sized (d.val a)) → Full d → d.flight = [] → ∃ steps r, ARun NearLists procs z N c home d steps r := by
    intro N
    induction N with
    | zero => intro c d _ _ _; exact ⟨_, _, .nil⟩
    | succ N ih =>
      intro c d hp hF hf
      by_cases hc : c.iteration = z.initialIteration
      · have hD : Free.Disc n (firstForces z c.dt c.iteration) (fun _ => False) Sized DistRun.Dense := by
          have := Free.disc_forces (n := n) (J := DistRun.Dense) (ops := []) z hv c.dt c.iteration (fun _ => hrep) hext (fun a h => h) (V := fun _ => False)
          rwa [List.append_nil] at this
        rcases part hD hp hF hf (fun a t h => h) with h1 | ⟨d1, h1, q1, q2, q3⟩
        · exact ⟨_, _, .fail (.firstFail hc h1)⟩
        · have hR := Free.disc_rest (n := n) z he hw (Timestep.setAdaptive z.outputs (limits procs home d1.val) c).dt (Timestep.setAdaptive z.outputs (limits procs home d1.val) c).iteration
          rcases part hR q1 q2 q3 (fun a t h => h) with h2 | ⟨d2, h2, r1, r2, r3⟩
          · exact ⟨_, _, .fail (.restFail hc h1 rfl h2)⟩
          · obtain ⟨steps, r, g⟩ := ih _ d2 r1 r2 r3
            exact ⟨_, _, .cons (.first hc h1 rfl h2) g⟩
      · have hD := Free.disc_next (n := n) z hv he hw c.dt c.iteration (fun _ => hrep) hext (V := fun _ => False)
        rcases part hD hp hF hf (fun a t h => h) with h1 | ⟨d1, h1, q1, q2, q3⟩
        · exact ⟨_, _, .fail (.nextFail hc h1)⟩
        · obtain ⟨steps, r, g⟩ := ih _ d1 q1 q2 q3
          exact ⟨_, _, .cons (.next hc h1) g⟩
  exact key N c _ hpos (fun _ _ => rfl) rfl

end

/-! ### The order of the visits decides the step -/

/-- An ideal gas on a line without viscosity, with fixed smoothing lengths. -/
private noncomputable def line : Config 0 :=
  { sph := { kernel := .wendlandC2, visc := .constant, alpha := 0, beta := 0, eps := 1 / 100, external := fun _ => 0, relaxationSteps := 0 }
    eos := .ideal, eosParams := ⟨2, 2, 1⟩, phi := fun _ => 0, evolve := false, thermokinetic := false, updates := 1, alphaMax := 2, delta := 1 / 10, l := 1 / 10
    beta := 0, gamma := 0, repulsionRadius := 0, repulsionGamma := 0, hMode := .fixed, eta := 1, width := 1, cfl := 1, adaptive := true
    outputs := ⟨fun _ => 0, fun _ => 1⟩, initialIteration := 0 }

/-- A small particle of sound speed 1 and a large one of sound speed 4, at rest and just out of reach of each other. -/
private noncomputable def pair (k : Fin 2) : Particle 1 :=
  { id := k, mass := 1, h := 1 + 2 * (k : ℕ), pos := fun _ => 2 * (k : ℕ), vel := 0, vhalf := 0, acc := 0, gacc := 0, gpot := 0, rho := 1, P := 0, cs := 0,
    alpha := 0, u := 1 / 2 + 15 / 2 * (k : ℕ), e := 0, dudt := 0, dedt := 0, K := 0, divv := 0, ddivvdt := 0, vsig := 0, dt := 0, ye := 0 }

private def late : Timestep.Clock := ⟨0, 1000, 0, 0, 0, fun _ => 0⟩

private def ordered (l : List (Fin 2)) : Schedule 0 2 := ⟨fun _ _ => [0, 1], fun _ => l⟩

/-- Each particle after the density pass. -/
private structure After (t : Fin 2 → Particle 1) (v : Fin 2 → ℝ) : Prop where
  vel : ∀ k, (t k).vel = 0
  pos : ∀ k, (t k).pos = (pair k).pos
  h : ∀ k, (t k).h = (pair k).h
  rho : ∀ k, 0 ≤ (t k).rho
  P : ∀ k, 0 ≤ (t k).P
  vsig : ∀ k, (t k).vsig = v k

/-- The first iteration from there. -/
private theorem line_run {l : List (Fin 2)} (hl : VisitsAll l) {t : Fin 2 → Particle 1} {v : Fin 2 → ℝ} (ht : thermo line 1000 true (ordered l) (initialise line pair) = some t) (ha : After t v)
    (hv : ∀ k, 1 ≤ v k) :
    ∃ steps x, ARun NearLists 1 line 1 late (fun _ => 0) ⟨pair, fun _ _ => none, []⟩ steps (some x) ∧ (∀ k, x.1.dt ≤ (pair k).h / (1 / 10 ^ 24 + v k)) ∧
      ∃ k, x.1.dt = (pair k).h / (1 / 10 ^ 24 + v k) := by
  obtain ⟨f, hf⟩ : ∃ f, f = forces line 0 (ordered l) t := ⟨_, rfl⟩
  have hpass : f = pass (computeAcceleration line.sph) (fun _ => [0, 1]) l t := by
    rw [hf]; unfold forces sphPass
    simp only [if_neg (show ¬ (0 : Int) < line.sph.relaxationSteps from lt_irrefl 0)]; rfl
  rw [pass_eq (computeAcceleration line.sph) (fun b : Particle 1 => ({ b with acc := 0, gacc := 0, gpot := 0 } : Particle 1)) (computeAcceleration line.sph)
    (fun a l => by simp only [computeAcceleration, accumulate_eq, List.map_map]; rfl) (fun a l => rfl) _ _ hl t] at hpass
  have hh : ∀ k, 0 < (pair k).h := fun k => by simp only [pair]; positivity
  have hh3 : ∀ k, (pair k).h ≤ 3 := fun k => by fin_cases k <;> norm_num [pair]
  -- no forces
  have hterm : ∀ a b : Fin 2, (-massOf (t a) (t b) * ((t a).P / ((t a).rho * (t a).rho) + (t b).P / ((t b).rho * (t b).rho) + viscOf line.sph (t a) (t b))) • gradOf line.sph (t a) (t b) = 0 := by
    intro a b
    by_cases hab : a = b
    · rw [hab]; simp [massOf, fac]
    · rw [gradOf_zero line.sph (t a) (t b) (by rw [ha.h, ha.h]; linarith [hh a, hh b]), smul_zero]
      rw [not_lt, ha.h, ha.h, ha.pos, ha.pos]
      show _ ≤ √(∑ j : Fin 1, ((pair a).pos j - (pair b).pos j) ^ 2)
      rw [Fin.sum_univ_one]
      have h4 : ((pair a).pos 0 - (pair b).pos 0) ^ 2 = 2 ^ 2 ∧ ((pair a).h + (pair b).h) / 2 = 2 := by
        fin_cases a <;> fin_cases b <;> first | exact absurd rfl hab | norm_num [pair]
      have h5 := h4.1
      rw [h5, h4.2, Real.sqrt_sq (by norm_num)]
  have hfa : ∀ k, (f k).vel = 0 ∧ (f k).acc = 0 ∧ (f k).gacc = 0 ∧ (f k).h = (pair k).h ∧ (f k).vsig = v k ∧ 0 ≤ (f k).rho ∧ 0 ≤ (f k).P := by
    intro k
    rw [hpass]
    refine ⟨ha.vel k, ?_, rfl, ha.h k, ha.vsig k, ha.rho k, ha.P k⟩
    simp only [computeAcceleration, accumulate_eq, List.map_cons, List.map_nil, List.sum_cons, List.sum_nil, hterm]
    simp [line]
  -- the limits
  have hbase : ∀ k x, Timestep.baseDt (stepSettings line) { f k with dt := x } = (pair k).h / (1 / 10 ^ 24 + v k) := by
    intro k x
    obtain ⟨e1, e2, e3, e4, e5, -⟩ := hfa k
    have hm : ∀ y : Point 1, y = 0 → magnitude y = 0 := by
      rintro y rfl; simp [magnitude]
    have hq : (pair k).h / (1 / 10 ^ 24 + v k) ≤ 3 := by
      rw [div_le_iff₀ (by have := hv k; positivity)]
      have := hv k; have := hh3 k
      have : (0 : ℝ) < 1 / 10 ^ 24 := by positivity
      nlinarith
    have hh1 : 1 ≤ (pair k).h := by simp only [pair]; have : (0 : ℝ) ≤ (k : ℕ) := Nat.cast_nonneg _; linarith
    simp only [Timestep.baseDt, stepSettings, e4, e5, hm _ e1, hm ((f k).acc + (f k).gacc) (by rw [e2, e3, add_zero])]
    simp only [line, mul_one, div_one, one_mul, mul_zero, add_zero, zero_add, div_div_eq_mul_div]
    refine min_eq_right (hq.trans (le_min ?_ ?_))
    · nlinarith
    · refine Real.le_sqrt_of_sq_le ?_
      nlinarith
  have hcd : ∀ k x, Timestep.computeDt (stepSettings line) { f k with dt := x } = some { f k with dt := (pair k).h / (1 / 10 ^ 24 + v k) } := by
    intro k x
    unfold Timestep.computeDt
    rw [if_neg (by simp [stepSettings, line]), hbase]
  obtain ⟨g, hg⟩ : ∃ g : Fin 2 → Particle 1, g = fun k => { f k with dt := (pair k).h / (1 / 10 ^ 24 + v k) } := ⟨_, rfl⟩
  -- the two parts of the iteration
  have hD : Free.Disc 2 (firstForces line 1000 0) (fun _ => False) Sized DistRun.Dense := by
    have := Free.disc_forces (n := 2) (J := DistRun.Dense) (ops := []) line rfl 1000 0 (fun _ => by norm_num [line]) (fun _ => rfl) (fun a h => h) (V := fun _ => False)
    rwa [List.append_nil] at this
  obtain ⟨r, h1, h2, h3⟩ := exec1_exec (ordered l) (fun s _ => ⟨fun _ => by simp [ordered], fun _ b _ => by simp only [ordered]; fin_cases b <;> simp⟩) (fun _ => hl)
    (d := ⟨pair, fun _ _ => none, []⟩) hD (fun k => ⟨by simp [pair], hh k⟩) rfl
  rw [exec1_forces] at h2
  erw [ht] at h2
  rcases r with _ | ⟨home1, d1⟩
  · cases h2
  obtain rfl : home1 = _ := h3 _ rfl
  obtain rfl' : d1.val = f := by rw [hf]; exact Option.some.inj h2
  have hp1 : DExec NearLists 1 (firstForces line late.dt late.iteration ++ [stepOp line]) (fun _ => 0) ⟨pair, fun _ _ => none, []⟩ (some (fun _ => 0, { d1 with val := g })) :=
    exec_join h1 (.all g (fun k => by rw [rfl', hg]; exact hcd k _) .nil)
  obtain ⟨c1, hc1⟩ : ∃ c1 : Timestep.Clock, c1 = Timestep.setAdaptive line.outputs (limits (i := 0) 1 (fun _ => 0) g) late := ⟨_, rfl⟩
  have hp2 : DExec NearLists 1 (firstRest line c1.dt c1.iteration ++ [stepOp line]) (fun _ => 0) { d1 with val := g } (some (fun _ => 0, { d1 with val := g })) := by
    refine .all g (fun k => ?_) (.all g (fun k => by rw [hg]; exact hcd k _) .nil)
    have : 0 ≤ (g k).rho ∧ 0 ≤ (g k).P ∧ (line.evolve = true → 0 ≤ (g k).u) := by
      rw [hg]; exact ⟨(hfa k).2.2.2.2.2.1, (hfa k).2.2.2.2.2.2, fun h => by simp [line] at h⟩
    exact if_pos this
  refine ⟨_, _, .cons (.first rfl hp1 hc1 hp2) .nil, ?_⟩
  -- the clock
  obtain ⟨S, hS⟩ : ∃ S, S = Timestep.smallest (limits (i := 0) 1 (fun _ => 0) g) := ⟨_, rfl⟩
  have hle : ∀ k, S ≤ (pair k).h / (1 / 10 ^ 24 + v k) := by
    intro k
    have : S ≤ (g k).dt := by
      rw [hS, smallest_limits (fun _ => Nat.one_pos)]
      exact Timestep.smallest_le _ (List.mem_singleton.mpr rfl) (List.mem_ofFn.mpr ⟨k, rfl⟩)
    rwa [hg] at this
  have hS1 : S ≤ 1 := by
    refine (hle 0).trans ?_
    have := hv 0
    rw [div_le_one (by positivity)]
    have h0 : (0 : ℝ) < 1 / 10 ^ 24 := by positivity
    have : (pair 0).h = 1 := by simp [pair]
    linarith
  have hat : ∃ k, S = (pair k).h / (1 / 10 ^ 24 + v k) := by
    rw [smallest_limits (fun _ => Nat.one_pos)] at hS
    rcases Timestep.smallest_mem [List.ofFn fun a => (g a).dt] with h | ⟨l', hl', h⟩
    · rw [← hS] at h; rw [h] at hS1; norm_num at hS1
    · rw [List.mem_singleton.mp hl', ← hS] at h
      obtain ⟨k, hk⟩ := List.mem_ofFn.mp h
      exact ⟨k, by rw [← hk, hg]⟩
  have hS0 : 0 < S := by
    obtain ⟨k, hk⟩ := hat
    rw [hk]; have := hv k; have := hh k; positivity
  have hdt1 : c1.dt = S := by
    rw [hc1, Timestep.setAdaptive_none _ (fun k => by simp [line]), ← hS]
    show Timestep.adapt S 1000 = S
    simp only [Timestep.adapt]
    rw [if_pos (show S < 1000 by linarith), min_eq_left (show S ≤ 1000 / 2 by linarith), if_neg (by linarith)]
  have hdt : (Timestep.advance true (Timestep.setAdaptive line.outputs (limits (i := 0) 1 (fun _ => 0) g) c1)).dt = S := by
    rw [Timestep.setAdaptive_none _ (fun k => by simp [line]), ← hS]
    show Timestep.adapt S c1.dt = S
    rw [hdt1]
    simp only [Timestep.adapt]
    rw [if_neg (lt_irrefl S), if_neg (by linarith)]
  simp only [hdt]
  exact ⟨hle, hat⟩

/-- What the density pass writes into one of the two particles. -/
private theorem line_density (x : Particle 1) (l : List (Particle 1)) (h1 : ∃ y ∈ l, y.pos = x.pos) (h2 : ∀ y ∈ l, 0 < y.mass) (h3 : 0 < x.h) (h4 : ∀ y ∈ l, 0 < y.h) (hu : 0 ≤ x.u) :
    ∃ x', Eos.computeDensityPressureSoundspeed line.sph line.eos line.eosParams (setup line 1000) x l = some x' ∧ x'.cs = √(2 * (2 - 1) * x.u) ∧ x'.mass = x.mass ∧ x'.h = x.h ∧ x'.pos = x.pos ∧
      x'.vel = x.vel ∧ x'.vsig = (computeSignalspeed { x with cs := √(2 * (2 - 1) * x.u) } l).vsig ∧ 0 ≤ x'.rho ∧ 0 ≤ x'.P := by
  obtain ⟨hr, hd⟩ := density_some (i := 0) line.sph (Or.inl .wendlandC2) x l h1 h2 h3 h4
  obtain ⟨ρ, hρ, hd⟩ : ∃ ρ, 0 < ρ ∧ computeDensity (i := 0) line.sph x l = some { x with rho := ρ } := ⟨_, hr, hd⟩
  refine ⟨Eos.divvIf (i := 0) line.sph 1000 (computeSignalspeed (Eos.computeSoundspeed .ideal line.eosParams (Eos.computePressure .ideal line.eosParams { x with rho := ρ })) l) l, ?_,
    rfl, rfl, rfl, rfl, rfl, rfl, hρ.le, ?_⟩
  · show ((computeDensity (i := 0) line.sph x l).bind fun a1 => (Eos.recoverIf (setup line 1000) a1).bind fun a2 =>
        some (Eos.divvIf (i := 0) line.sph 1000 (computeSignalspeed (Eos.computeSoundspeed .ideal line.eosParams (Eos.computePressure .ideal line.eosParams a2)) l) l)) = some _
    rw [hd, Option.bind_some]
    rfl
  · show 0 ≤ ((2 : ℝ) - 1) * ρ * x.u
    have := hρ.le
    rw [show (2 : ℝ) - 1 = 1 by norm_num, one_mul]
    positivity

private theorem line_signal (x y : Particle 1) (h1 : x.vel = 0) (h2 : y.vel = 0) (h3 : y.pos ≠ x.pos) (h4 : 0 ≤ y.cs) (x0 : Particle 1) (h5 : x0.pos = x.pos) :
    (computeSignalspeed x [x0, y]).vsig = max x.cs y.cs ∧ (computeSignalspeed x [y, x0]).vsig = max x.cs y.cs := by
  have hdist : dot (x.vel - y.vel) (fun j => (x.pos j - y.pos j) / distance x.pos y.pos) = 0 := by rw [h1, h2]; simp [dot]
  constructor <;>
  · simp only [computeSignalspeed, List.foldl_cons, List.foldl_nil, h5, if_true, if_neg h3, hdist, min_self, sub_zero]
    exact max_eq_right (h4.trans (le_max_right _ _))

private theorem line_two : ∃ (steps steps' : List (Timestep.Clock × Timestep.Clock)) (x x' : Timestep.Clock × (Fin 2 → Particle 1)),
    ARun NearLists 1 line 1 late (fun _ => 0) ⟨pair, fun _ _ => none, []⟩ steps (some x) ∧ ARun NearLists 1 line 1 late (fun _ => 0) ⟨pair, fun _ _ => none, []⟩ steps' (some x') ∧ x.1.dt ≠ x'.1.dt := by
  obtain ⟨s, hs⟩ : ∃ s, s = initialise line pair := ⟨_, rfl⟩
  obtain ⟨a, hadef⟩ : ∃ a, a = s 0 := ⟨_, rfl⟩
  obtain ⟨b, hbdef⟩ : ∃ b, b = s 1 := ⟨_, rfl⟩
  have ha : a.mass = 1 ∧ a.h = 1 ∧ a.vel = 0 ∧ a.pos = (fun _ => 0) ∧ a.u = 1 / 2 ∧ a.cs = 0 := by
    rw [hadef, hs]; refine ⟨rfl, ?_, rfl, ?_, ?_, rfl⟩
    · show (pair 0).h = 1; norm_num [pair]
    · show (pair 0).pos = _; funext j; norm_num [pair]
    · show (pair 0).u = _; norm_num [pair]
  have hb : b.mass = 1 ∧ b.h = 3 ∧ b.vel = 0 ∧ b.pos = (fun _ => 2) ∧ b.u = 8 ∧ b.cs = 0 := by
    rw [hbdef, hs]; refine ⟨rfl, ?_, rfl, ?_, ?_, rfl⟩
    · show (pair 1).h = 3; norm_num [pair]
    · show (pair 1).pos = _; funext j; norm_num [pair]
    · show (pair 1).u = _; norm_num [pair]
  have hp0 : (pair 0).pos = (fun _ => 0) ∧ (pair 0).h = 1 := ⟨by funext j; norm_num [pair], by norm_num [pair]⟩
  have hp1 : (pair 1).pos = (fun _ => 2) ∧ (pair 1).h = 3 := ⟨by funext j; norm_num [pair], by norm_num [pair]⟩
  have hca : √(2 * (2 - 1) * a.u) = 1 := by rw [ha.2.2.2.2.1, show (2 * (2 - 1) * (1 / 2) : ℝ) = 1 by norm_num, Real.sqrt_one]
  have hcb : √(2 * (2 - 1) * b.u) = 4 := by rw [hb.2.2.2.2.1, show (2 * (2 - 1) * 8 : ℝ) = 4 ^ 2 by norm_num, Real.sqrt_sq (by norm_num)]
  have hne : ∀ x y : Particle 1, x.pos = (fun _ => 0) → y.pos = (fun _ => 2) → y.pos ≠ x.pos ∧ x.pos ≠ y.pos := by
    intro x y h1 h2
    have : y.pos ≠ x.pos := fun h => by rw [h1, h2] at h; have := congrFun h 0; norm_num at this
    exact ⟨this, this.symm⟩
  have pos2 : ∀ (x y : Particle 1), x.mass = 1 → y.mass = 1 → x.h = 1 → y.h = 3 → (∀ p ∈ [x, y], 0 < p.mass) ∧ ∀ p ∈ [x, y], 0 < p.h := by
    intro x y h1 h2 h3 h4
    refine ⟨fun p hp => ?_, fun p hp => ?_⟩ <;> rcases List.mem_cons.mp hp with rfl | hp
    · rw [h1]; norm_num
    · rw [List.mem_singleton.mp hp, h2]; norm_num
    · rw [h3]; norm_num
    · rw [List.mem_singleton.mp hp, h4]; norm_num
  -- the small particle first
  obtain ⟨a1, ha1, ca1, ma1, hha1, pa1, va1, ga1, ra1, Pa1⟩ := line_density a [a, b] ⟨a, by simp, rfl⟩ (pos2 a b ha.1 hb.1 ha.2.1 hb.2.1).1 (by rw [ha.2.1]; norm_num) (pos2 a b ha.1 hb.1 ha.2.1 hb.2.1).2
    (by rw [ha.2.2.2.2.1]; norm_num)
  have q1 := pos2 a1 b (ma1.trans ha.1) hb.1 (hha1.trans ha.2.1) hb.2.1
  obtain ⟨b1, hb1, cb1, mb1, hhb1, pb1, vb1, gb1, rb1, Pb1⟩ := line_density b [a1, b] ⟨b, by simp, rfl⟩ q1.1 (by rw [hb.2.1]; norm_num) q1.2 (by rw [hb.2.2.2.2.1]; norm_num)
  -- the large particle first
  obtain ⟨b2, hb2, cb2, mb2, hhb2, pb2, vb2, gb2, rb2, Pb2⟩ := line_density b [a, b] ⟨b, by simp, rfl⟩ (pos2 a b ha.1 hb.1 ha.2.1 hb.2.1).1 (by rw [hb.2.1]; norm_num) (pos2 a b ha.1 hb.1 ha.2.1 hb.2.1).2
    (by rw [hb.2.2.2.2.1]; norm_num)
  have q2 := pos2 a b2 ha.1 (mb2.trans hb.1) ha.2.1 (hhb2.trans hb.2.1)
  obtain ⟨a2, ha2, ca2, ma2, hha2, pa2, va2, ga2, ra2, Pa2⟩ := line_density a [a, b2] ⟨a, by simp, rfl⟩ q2.1 (by rw [ha.2.1]; norm_num) q2.2 (by rw [ha.2.2.2.2.1]; norm_num)
  -- signal speeds
  have s1 : a1.vsig = 1 := by
    rw [ga1, (line_signal { a with cs := √(2 * (2 - 1) * a.u) } b ha.2.2.1 hb.2.2.1 (hne a b ha.2.2.2.1 hb.2.2.2.1).1 (by rw [hb.2.2.2.2.2]) a rfl).1, hb.2.2.2.2.2]
    show max √(2 * (2 - 1) * a.u) 0 = 1
    rw [hca]; norm_num
  have s2 : b1.vsig = 4 := by
    rw [gb1, (line_signal { b with cs := √(2 * (2 - 1) * b.u) } a1 hb.2.2.1 (va1.trans ha.2.2.1) (by show a1.pos ≠ b.pos; rw [pa1]; exact (hne a b ha.2.2.2.1 hb.2.2.2.1).2) (by rw [ca1]; exact Real.sqrt_nonneg _) b rfl).2, ca1]
    show max √(2 * (2 - 1) * b.u) √(2 * (2 - 1) * a.u) = 4
    rw [hca, hcb]; norm_num
  have s3 : a2.vsig = 4 := by
    rw [ga2, (line_signal { a with cs := √(2 * (2 - 1) * a.u) } b2 ha.2.2.1 (vb2.trans hb.2.2.1) (by show b2.pos ≠ a.pos; rw [pb2]; exact (hne a b ha.2.2.2.1 hb.2.2.2.1).1) (by rw [cb2]; exact Real.sqrt_nonneg _) a rfl).1, cb2]
    show max √(2 * (2 - 1) * a.u) √(2 * (2 - 1) * b.u) = 4
    rw [hca, hcb]; norm_num
  have s4 : b2.vsig = 4 := by
    rw [gb2, (line_signal { b with cs := √(2 * (2 - 1) * b.u) } a hb.2.2.1 ha.2.2.1 (hne a b ha.2.2.2.1 hb.2.2.2.1).2 (by rw [ha.2.2.2.2.2]) b rfl).2, ha.2.2.2.2.2]
    show max √(2 * (2 - 1) * b.u) 0 = 4
    rw [hcb]; norm_num
  have e0 : s = ![a, b] := by funext k; fin_cases k <;> simp [hadef, hbdef]
  have t1 : thermo line 1000 true (ordered [0, 1]) (initialise line pair) = some (applyAll saveVelocityhalf ![a1, b1]) := by
    rw [← hs, e0]
    have : sphPassM (ordered [0, 1]) 0 (Eos.computeDensityPressureSoundspeed line.sph line.eos line.eosParams (setup line 1000)) ![a, b] = some ![a1, b1] := by
      show passM _ (fun _ => [0, 1]) [0, 1] _ = _
      rw [passM_cons]
      erw [ha1]
      rw [Option.bind_some, passM_cons]
      erw [hb1]
      rw [Option.bind_some]
      show some _ = some _
      congr 1
      funext k
      fin_cases k <;> rfl
    unfold thermo
    rw [this]; rfl
  have t2 : thermo line 1000 true (ordered [1, 0]) (initialise line pair) = some (applyAll saveVelocityhalf ![a2, b2]) := by
    rw [← hs, e0]
    have : sphPassM (ordered [1, 0]) 0 (Eos.computeDensityPressureSoundspeed line.sph line.eos line.eosParams (setup line 1000)) ![a, b] = some ![a2, b2] := by
      show passM _ (fun _ => [0, 1]) [1, 0] _ = _
      rw [passM_cons]
      erw [hb2]
      rw [Option.bind_some, passM_cons]
      erw [ha2]
      rw [Option.bind_some]
      show some _ = some _
      congr 1
      funext k
      fin_cases k <;> rfl
    unfold thermo
    rw [this]; rfl
  have A1 : After (applyAll saveVelocityhalf ![a1, b1]) ![1, 4] := by
    constructor <;> intro k <;> fin_cases k
    · exact va1.trans ha.2.2.1
    · exact vb1.trans hb.2.2.1
    · exact (pa1.trans ha.2.2.2.1).trans hp0.1.symm
    · exact (pb1.trans hb.2.2.2.1).trans hp1.1.symm
    · exact (hha1.trans ha.2.1).trans hp0.2.symm
    · exact (hhb1.trans hb.2.1).trans hp1.2.symm
    · exact ra1
    · exact rb1
    · exact Pa1
    · exact Pb1
    · exact s1
    · exact s2
  have A2 : After (applyAll saveVelocityhalf ![a2, b2]) ![4, 4] := by
    constructor <;> intro k <;> fin_cases k
    · exact va2.trans ha.2.2.1
    · exact vb2.trans hb.2.2.1
    · exact (pa2.trans ha.2.2.2.1).trans hp0.1.symm
    · exact (pb2.trans hb.2.2.2.1).trans hp1.1.symm
    · exact (hha2.trans ha.2.1).trans hp0.2.symm
    · exact (hhb2.trans hb.2.1).trans hp1.2.symm
    · exact ra2
    · exact rb2
    · exact Pa2
    · exact Pb2
    · exact s3
    · exact s4
  obtain ⟨steps, x, r1, l1, k, e1⟩ := line_run ⟨by decide, by decide⟩ t1 A1 (fun k => by fin_cases k <;> norm_num)
  obtain ⟨steps', x', r2, l2, -⟩ := line_run ⟨by decide, by decide⟩ t2 A2 (fun k => by fin_cases k <;> norm_num)
  refine ⟨steps, steps', x, x', r1, r2, ?_⟩
  have u2 := l2 0
  rw [hp0.2] at u2
  have u2 : x'.1.dt ≤ 1 / (1 / 10 ^ 24 + 4) := u2
  have h4 : 1 / (1 / 10 ^ 24 + 4) < (1 / 4 : ℝ) := by norm_num
  have : 1 / 4 < x.1.dt := by
    rw [e1]
    fin_cases k
    · show (1 / 4 : ℝ) < (pair 0).h / (1 / 10 ^ 24 + 1)
      rw [hp0.2]; norm_num
    · show (1 / 4 : ℝ) < (pair 1).h / (1 / 10 ^ 24 + 4)
      rw [hp1.2]; norm_num
  intro h
  rw [h] at this
  linarith

/-- The step of a run depends on the order in which the particles are visited: two runs of one iteration on one process, from the same particles, with the same neighbour lists and without outputs, end with
different time steps. The signal speed which limits the step reads the sound speeds of the neighbours while the same pass writes them. -/
theorem C97_violated : ∃ (z : Config 0) (c : Timestep.Clock) (s : Fin 2 → Particle 1) (steps steps' : List (Timestep.Clock × Timestep.Clock)) (x x' : Timestep.Clock × (Fin 2 → Particle 1)),
    z.sph.visc = .constant ∧ 0 < z.eta ∧ 0 < z.width ∧ 0 < z.cfl ∧ z.repulsionRadius ≤ 1 ∧ (∀ a, z.sph.external a = 0) ∧ (∀ k, z.outputs.interval k ≤ 0) ∧ 0 < c.dt ∧
    (∀ a, 0 < (s a).mass ∧ 0 < (s a).h ∧ 0 < (s a).u) ∧
    ARun NearLists 1 z 1 c (fun _ => 0) ⟨s, fun _ _ => none, []⟩ steps (some x) ∧ ARun NearLists 1 z 1 c (fun _ => 0) ⟨s, fun _ _ => none, []⟩ steps' (some x') ∧ x.1.dt ≠ x'.1.dt := by
  obtain ⟨steps, steps', x, x', r1, r2, hne⟩ := line_two
  refine ⟨line, late, pair, steps, steps', x, x', rfl, by norm_num [line], by norm_num [line], by norm_num [line], by norm_num [line], fun _ => rfl, fun _ => le_rfl, by norm_num [late],
    fun a => ⟨by norm_num [pair], by simp only [pair]; positivity, by simp only [pair]; positivity⟩, r1, r2, hne⟩

/-- Non-vacuity of `C97_limits_partial` and `C97_momentum_partial`: a run of these two particles. -/
example : ∃ steps x, ARun NearLists 1 line 1 late (fun _ => 0) ⟨pair, fun _ _ => none, []⟩ steps (some x) ∧ 0 < x.1.dt ∧ x.1.totaltime = (steps.map fun s => s.2.dt).sum := by
  obtain ⟨steps, -, x, -, h, -⟩ := line_two
  obtain ⟨h1, -, -, h2, -⟩ := C97_limits_partial (by norm_num [line]) (by norm_num [line]) (by norm_num [line]) le_rfl (fun _ => le_rfl) Nat.one_pos
    (fun _ => Nat.one_pos) (fun a => ⟨by norm_num [pair], by simp only [pair]; positivity⟩) (fun _ => le_rfl) (by norm_num [late]) h
  exact ⟨steps, x, h, h1, h2.trans (zero_add _)⟩

/-- Non-vacuity of `C97_energy_partial`: the first iteration of a run with evolved energy and adaptive steps. -/
example (dt : ℝ) : ∃ steps x, ARun NearLists 1 (gas true .noEos) 1 (start dt).clock (fun _ => 0) ⟨two, fun _ _ => none, []⟩ steps (some x) ∧
    ∑ a, (x.2 a).mass * (x.2 a).e = 2 + 1 / 4 + 1 / 9 := by
  obtain ⟨z, hz⟩ : ∃ z, z = gas true .noEos := ⟨_, rfl⟩
  have hlists : ∀ s : Fin 2 → Particle (((1 : Fin 3) : ℕ) + 1), (∀ a, 0 < (s a).h) → NearLists s ((everybody 1 2).search s) := fun s _ => everybody_near (i := 1) s
  -- compute_dt succeeds
  have hstep : ∀ a : Particle 2, a.u = 1 → a.gacc = 0 → ∃ t, Timestep.computeDt (stepSettings z) a = some { a with dt := t } := by
    intro a h1 h2
    refine ⟨Timestep.baseDt (stepSettings z) a, ?_⟩
    unfold Timestep.computeDt
    rw [if_pos (by rw [hz]; rfl), if_pos (by rw [h1]; exact one_pos)]
    have : Timestep.deltaE (stepSettings z) a (Timestep.baseDt (stepSettings z) a) < a.u * (1 / 2) := by
      unfold Timestep.deltaE
      rw [h1, h2, hz]
      simp [stepSettings, gas, dot]
    rw [Timestep.shrink, if_pos this]; rfl
  obtain ⟨t1, h2, hw1⟩ := heating_thermo dt
  have k2 := forces_keep (gas true .noEos) 0 (everybody 1 2) t1
  obtain ⟨f, hf⟩ : ∃ f, f = forces (gas true .noEos) 0 (everybody 1 2) t1 := ⟨_, rfl⟩
  have hg : ∀ a, (f a).gacc = 0 := by
    intro a
    have : f = pass (computeAcceleration (gas true .noEos).sph) ((everybody 1 2).search t1) ((everybody 1 2).order 2) t1 := by
      rw [hf]; unfold forces sphPass
      simp only [if_neg (show ¬ (0 : Int) < (gas true .noEos).sph.relaxationSteps from lt_irrefl 0)]
    rw [this, pass_eq (computeAcceleration (gas true .noEos).sph) (fun b : Particle 2 => ({ b with acc := 0, gacc := 0, gpot := 0 } : Particle 2)) (computeAcceleration (gas true .noEos).sph)
      (fun a l => by simp only [computeAcceleration, accumulate_eq, List.map_map]; rfl) (fun a l => rfl) _ _ (everybody_order 2) t1]
    rfl
  have hw2 : ∀ a x, Warm ({ f a with dt := x } : Particle 2) ∧ 0 < (f a).rho ∧ (f a).u = 1 := fun a x => by
    obtain ⟨x, y, g, h⟩ := k2 a
    rw [hf, h]; exact ⟨(hw1 a).1, (hw1 a).2.2, (hw1 a).2.1⟩
  -- the first part
  have hD : Free.Disc 2 (firstForces z dt 0) (fun _ => False) Sized DistRun.Dense := by
    have := Free.disc_forces (n := 2) (J := DistRun.Dense) (ops := []) z (by rw [hz]; rfl) dt 0 (fun _ => by rw [hz]; norm_num [gas]) (fun _ => by rw [hz]; rfl) (fun a h => h) (V := fun _ => False)
    rwa [List.append_nil] at this
  obtain ⟨r, e1, e2, e3⟩ := exec1_exec (everybody 1 2) hlists everybody_order (d := ⟨two, fun _ _ => none, []⟩) hD (fun a => ⟨one_pos, one_pos⟩) rfl
  rw [exec1_forces, hz, h2] at e2
  rcases r with _ | ⟨home1, d1⟩
  · cases e2
  obtain rfl : home1 = _ := e3 _ rfl
  have hd1 : d1.val = f := by rw [hf]; exact Option.some.inj e2
  choose t ht using fun a => hstep (f a) (hw2 a 0).2.2 (hg a)
  obtain ⟨g, hgd⟩ : ∃ g : Fin 2 → Particle 2, g = fun a => { f a with dt := t a } := ⟨_, rfl⟩
  have hp1 : DExec NearLists 1 (firstForces z (start dt).clock.dt (start dt).clock.iteration ++ [stepOp z]) (fun _ => 0) ⟨two, fun _ _ => none, []⟩ (some (fun _ => 0, { d1 with val := g })) :=
    exec_join e1 (.all g (fun a => by rw [hd1, hgd]; exact ht a) .nil)
  obtain ⟨c1, hc1⟩ : ∃ c1 : Timestep.Clock, c1 = Timestep.setAdaptive z.outputs (limits (i := 1) 1 (fun _ => 0) g) (start dt).clock := ⟨_, rfl⟩
  have hit : c1.iteration = 0 := by rw [hc1, setAdaptive_iteration]; rfl
  -- the second part
  obtain ⟨t4, h5, hw4⟩ := heating_energy c1.dt g (fun a => by rw [hgd]; exact ⟨(hw2 a _).1, (hw2 a 0).2.1⟩)
  have hdyn := energy_keep (gas true .noEos) c1.dt 0 (everybody 1 2) g t4 h5
  have hR := Free.disc_rest (n := 2) z (by rw [hz]; norm_num [gas]) (by rw [hz]; norm_num [gas]) c1.dt c1.iteration
  obtain ⟨p1, p2⟩ := exec_post e1 hD (fun a => ⟨one_pos, one_pos⟩) rfl _ rfl
  obtain ⟨r, q1, q2, q3⟩ := exec1_exec (everybody 1 2) hlists everybody_order (d := { d1 with val := g }) hR (fun a => by
    rw [hgd]; have := p1 a; rw [hd1] at this; exact this) p2
  rw [exec1_rest, hit, hz] at q2
  erw [h5] at q2
  have h7 : checkNegativity (gas true .noEos) (updateH (gas true .noEos) t4) = some t4 := by
    unfold checkNegativity
    rw [if_pos]
    · rfl
    · intro a
      exact ⟨(hw4 a).2.1.le, (hw4 a).1.2.2.2.1, fun _ => (hw4 a).1.2.2.2.2⟩
  rw [Option.bind_some, h7] at q2
  rcases r with _ | ⟨home2, d2⟩
  · cases q2
  obtain rfl : home2 = _ := q3 _ rfl
  have hd2 : d2.val = t4 := Option.some.inj q2
  choose t' ht' using fun a => hstep (t4 a) (hw4 a).2.2 (by
    have h := hdyn a
    have h := congrArg (fun x => x.1) h
    simp only [dynamics] at h
    have e : (t4 a).gacc = (g a).gacc := by simp only [Prod.mk.injEq] at h; tauto
    rw [e, hgd]; exact hg a)
  have hp2 := exec_join q1 (DExec.all (ops := []) (fun a => { t4 a with dt := t' a }) (fun a => by rw [hd2]; exact ht' a) .nil)
  have hrun := ARun.cons (AIter.first (by rw [hz]; rfl) hp1 hc1 hp2) .nil
  rw [hz] at hrun
  refine ⟨_, _, hrun, (C97_energy_partial rfl (by norm_num [gas]) (by norm_num [gas]) (by norm_num [gas]) (fun _ => rfl) rfl rfl le_rfl le_rfl Nat.one_pos rfl (fun a => by simp [two]) rfl hrun).trans ?_⟩
  simp [Fin.sum_univ_two, two, gas, Eos.init]; norm_num

/-- Non-vacuity: the two gas particles on two processes, one on each, over any number of iterations. -/
example (N : Nat) (dt : ℝ) : ∃ steps r, ARun NearLists 2 (gas true .ideal) N (start dt).clock (fun a => (a : ℕ)) ⟨two, fun _ b => some (two b), []⟩ steps r :=
  C97_exists (z := gas true .ideal) rfl (by norm_num [gas]) (by norm_num [gas]) (by norm_num [gas]) (fun _ => rfl) (fun a => a.2) two (fun a => ⟨one_pos, one_pos⟩)

end FleCSPH.AdaptRun
