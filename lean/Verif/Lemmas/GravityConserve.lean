import Verif.Lemmas.AdaptNewton
import Verif.Lemmas.DistConserve
/-! One iteration of the newtonian driver on several processes directly from the calls, for either viscosity: a step of the leapfrog scheme, and its energy. -/
namespace FleCSPH.GravityConserve
open FleCSPH.Geometry FleCSPH.Sph FleCSPH.Driver FleCSPH.DistRun FleCSPH.AdaptRun FleCSPH.Spec FleCSPH.Kernels FleCSPH.Integration FleCSPH.Newtonian FleCSPH.AdaptNewton FleCSPH.DistConserve FleCSPH.Key

variable {i : Fin 3} {n : Nat} {procs : Nat} {home : Fin n → Nat} {d : DState (Particle (i + 1)) n} {x : (Fin n → Nat) × DState (Particle (i + 1)) n}

/-- In the thermokinetic formulation the internal energy is what the kinetic energy and the external potential leave of the total energy. -/
def Recovered (z : Config i) (b : Particle (i + 1)) : Prop := b.u = b.e - 1 / 2 * dot b.vel b.vel - z.phi b.pos

theorem density_recovers (z : Config i) (htk : z.thermokinetic = true) (hev : z.evolve = true) (dt : ℝ) (a : Particle (i + 1)) (l : List (Particle (i + 1))) (b : Particle (i + 1))
    (hx : Eos.computeDensityPressureSoundspeed z.sph z.eos z.eosParams (setup z dt) a l = some b) : Recovered z b := by
  simp only [Eos.computeDensityPressureSoundspeed, Option.bind_eq_bind, Option.pure_def] at hx
  obtain ⟨a1, h4, hx⟩ := Option.bind_eq_some_iff.mp hx
  obtain ⟨a2, h5, hx⟩ := Option.bind_eq_some_iff.mp hx
  unfold computeDensity at h4
  simp only at h4
  split_ifs at h4
  obtain rfl := Option.some.inj h4
  unfold Eos.recoverIf at h5
  simp only [setup, hev, htk, Bool.and_self, if_true] at h5
  unfold recoverInternalEnergy at h5
  simp only at h5
  split_ifs at h5
  obtain rfl := Option.some.inj h5
  obtain rfl := Option.some.inj hx
  have k1 := computePressure_keep z.eos z.eosParams (d := i + 1)
  have k2 := computeSoundspeed_keep z.eos z.eosParams (d := i + 1)
  have k3 := divvIf_keep z.sph dt
  generalize hb : ({ a with rho := _, u := _ } : Particle (i + 1)) = b
  obtain ⟨P', hP⟩ := k1 b
  obtain ⟨c', hc'⟩ := k2 { b with P := P' }
  obtain ⟨x2, y2, hxy⟩ := k3 (computeSignalspeed { b with P := P', cs := c' } l) l
  unfold Recovered
  rw [hP, hc']
  simp only [setup]
  rw [hxy]
  subst hb
  rfl

theorem recovered_after (z : Config i) (htk : z.thermokinetic = true) (hev : z.evolve = true) (dt : ℝ) {mid : List (Op (Particle (i + 1)))} (hmid : ∀ o ∈ mid, Keeps (Recovered z) o)
    (h : DExec NearLists procs (densityOp z dt :: (mid ++ alphaOps z dt)) home d (some x)) : ∀ a, Recovered z (x.2.val a) := by
  obtain ⟨y, h1, h2⟩ := exec_cons h
  refine exec_keeps h2 (fun o ho => (List.mem_append.mp ho).elim (hmid o) (keeps_alpha (I := Recovered z) (fun _ _ h => h) z dt o)) ?_ x rfl
  cases h1 with
  | pass nbs order h1 hn h3 h4 h =>
    cases h
    exact dpass_inv (I := fun _ => True) (I' := Recovered z) (fun a l y _ hx => density_recovers z htk hev dt a l y hx) h4 hn (fun a _ => trivial) (fun a ha => absurd (h3 a) ha) _ rfl

/-- The power left by the energy equation is that of gravity. -/
theorem exec_power (z : Config i) (dt : ℝ) (it : Int) (htk : z.thermokinetic = true) (hit : z.sph.relaxationSteps ≤ it) : ∀ (m : Nat) {home : Fin n → Nat} {d : DState (Particle (i + 1)) n}, 1 ≤ m →
    (∀ a, DistRun.Dense (d.val a)) → Consistent flow d → DExec NearLists procs (energyOps z dt it m) home d (some x) →
    ∑ a, (x.2.val a).mass * (x.2.val a).dedt = gravityPower x.2.val := by
  intro m
  induction m with
  | zero => intro _ _ hm; omega
  | succ m ih =>
    intro home d _ hs hc h
    rw [energyOps, if_pos htk, if_neg (not_lt.mpr hit), List.nil_append, List.append_assoc] at h
    obtain ⟨y2, h12, h3⟩ := exec_split h
    obtain ⟨y1, h1, h2⟩ := exec_cons h12
    obtain ⟨nbs, r1, r2, r3⟩ := exec_pass (dedt_reads z.sph) h1 hc
    have e2 : y1.2.val = pass (computeDedt z.sph) nbs (List.finRange n) d.val := by
      rw [pass_eq (computeDedt z.sph) (fun b : Particle (i + 1) => ({ b with dedt := 0 } : Particle (i + 1))) (computeDedt z.sph)
        (fun a l => by simp only [computeDedt, foldl_sub_eq, List.map_map]; rfl) (fun a l => rfl) _ _ in_order]
      exact funext r2
    have k1 : ∀ a, ∃ q, y1.2.val a = { d.val a with dedt := q } := fun a => ⟨_, r2 a⟩
    have t1 : ∑ a, (y1.2.val a).mass * (y1.2.val a).dedt = gravityPower d.val := by
      have := C35_total_energy z.sph d.val nbs _ in_order (symmetric r1) (fun a => (hs a).2.1) (fun a => (hs a).2.2)
      rw [← e2] at this
      refine Eq.trans ?_ this
      exact Finset.sum_congr rfl fun a _ => by obtain ⟨q, e⟩ := k1 a; rw [e]
    have k2 : ∀ a, ∃ u P c, y2.2.val a = { y1.2.val a with u := u, P := P, cs := c } := by
      cases h2 with
      | all v hv h2 => cases h2; exact fun a => recomputeT_keep _ _ _ _ _ _ (hv a)
    have m2 : ∀ a, (y2.2.val a).mass = (d.val a).mass ∧ (y2.2.val a).gacc = (d.val a).gacc ∧ (y2.2.val a).vel = (d.val a).vel ∧ DistRun.Dense (y2.2.val a) := fun a => by
      obtain ⟨q, e1⟩ := k1 a
      obtain ⟨u, P, c, e2⟩ := k2 a
      rw [e2, e1]; exact ⟨rfl, rfl, rfl, hs a⟩
    have t2 : ∑ a, (y2.2.val a).mass * (y2.2.val a).dedt = gravityPower y2.2.val := by
      refine Eq.trans ?_ (t1.trans ?_)
      · exact Finset.sum_congr rfl fun a _ => by obtain ⟨u, P, c, e⟩ := k2 a; rw [e]
      · exact Finset.sum_congr rfl fun a _ => by rw [(m2 a).1, (m2 a).2.1, (m2 a).2.2.1]
    split_ifs at h3 with hm
    · obtain ⟨y3, h3, h4⟩ := exec_split h3
      obtain ⟨e3, c3⟩ := exec_reset h3 flow
      exact ih hm (fun a => by rw [e3]; exact (m2 a).2.2.2) c3 h4
    · obtain rfl : m = 0 := by omega
      cases h3
      exact t2

/-! ### Before gravity -/

/-- What the calls before gravity do. -/
structure Head (z : Config i) (c : Timestep.Clock) (s t : Fin n → Particle (i + 1)) : Prop where
  dense : ∀ a, DistRun.Dense (t a)
  id : ∀ a, (t a).id = (s a).id
  mass : ∀ a, (t a).mass = (s a).mass
  vel : ∀ a, (t a).vel = if c.iteration = z.initialIteration then (s a).vel else (s a).vel + (1 / 2 * c.dt) • ((s a).acc + (s a).gacc)
  pos : ∀ a, (t a).pos = if c.iteration = z.initialIteration then (s a).pos else (s a).pos + c.dt • ((s a).vel + (1 / 2 * c.dt) • ((s a).acc + (s a).gacc))
  force : (∀ a, z.sph.external a = 0) → ∀ j, ∑ a, (t a).mass * (t a).acc j = 0
  torque : (∀ a, z.sph.external a = 0) → ∀ j k, ∑ a, (t a).mass * ((t a).pos j * (t a).acc k - (t a).pos k * (t a).acc j) = 0
  energy : z.thermokinetic = true → z.evolve = true → ∀ a, if c.iteration = z.initialIteration then (t a).u = (Eos.init z.eos z.eosParams (s a)).u else (t a).e = (s a).e + 1 / 2 * c.dt * (s a).dedt

theorem accOps_eq (z : Config i) {it : Int} (hit : z.sph.relaxationSteps ≤ it) : accOps z = forceOps z it := by
  unfold accOps forceOps; rw [if_neg (not_lt.mpr hit), List.append_nil]

/-- The calls before the first density pass; those of the hydro driver in another order. -/
noncomputable def startOps (z : Config i) : List (Op (Particle (i + 1))) :=
  [.update, .all fun a => some (Eos.init z.eos z.eosParams a)] ++
  (match z.sph.visc with
    | .constant => []
    | .cullen => [.all fun a => some (Cullen.initializeAlpha z.sph a)]) ++
  (if z.thermokinetic then [.all fun a => some (setTotalEnergy z.phi a)] else [])

theorem firstHead_eq (z : Config i) (dt : ℝ) :
    firstHead z dt = startOps z ++ ((densityOp z dt :: ([.all fun a => some (saveVelocityhalf a)] ++ alphaOps z dt)) ++ accOps z) := by
  unfold firstHead startOps
  simp only [List.append_assoc, List.cons_append, List.nil_append]
  cases z.sph.visc <;> rfl

theorem nextHead_eq (z : Config i) (dt : ℝ) :
    nextHead z dt = (kickOps z dt ++ [.all fun a => some (kickV dt a), .all fun a => some (saveVelocityhalf a), .all fun a => some (drift dt a), .update]) ++
      ((densityOp z dt :: ([] ++ alphaOps z dt)) ++ accOps z) := by
  unfold nextHead
  simp only [List.append_assoc, List.cons_append, List.nil_append]

theorem exec_start (z : Config i) (h : DExec NearLists procs (startOps z) home d (some x)) :
    (∀ a, (x.2.val a).id = (d.val a).id ∧ (x.2.val a).mass = (d.val a).mass ∧ (x.2.val a).h = (d.val a).h ∧ (x.2.val a).pos = (d.val a).pos ∧ (x.2.val a).vel = (d.val a).vel) ∧
    (z.thermokinetic = true → ∀ a, (x.2.val a).e = 1 / 2 * dot (d.val a).vel (d.val a).vel + (Eos.init z.eos z.eosParams (d.val a)).u + z.phi (d.val a).pos) := by
  unfold startOps at h
  obtain ⟨y3, h, h4⟩ := exec_split h
  obtain ⟨y2, h, h3⟩ := exec_split h
  obtain ⟨y1, h1, h2⟩ := exec_cons h
  have e1 := exec_update h1
  have e2 := exec_all h2
  have hinit : ∀ a : Particle (i + 1), (Eos.init z.eos z.eosParams a).id = a.id ∧ (Eos.init z.eos z.eosParams a).mass = a.mass ∧ (Eos.init z.eos z.eosParams a).h = a.h ∧
      (Eos.init z.eos z.eosParams a).pos = a.pos ∧ (Eos.init z.eos z.eosParams a).vel = a.vel := by
    intro a; cases z.eos <;> exact ⟨rfl, rfl, rfl, rfl, rfl⟩
  have e3 : ∀ a, ∃ w, y3.2.val a = { y2.2.val a with alpha := w } := by
    cases hz : z.sph.visc <;> rw [hz] at h3
    · cases h3; exact fun a => ⟨_, rfl⟩
    · have e4 := exec_all h3
      intro a; rw [e4]
      simp only [Cullen.initializeAlpha, hz]
      exact ⟨_, rfl⟩
  have k3 : ∀ a, ∃ w, y3.2.val a = { Eos.init z.eos z.eosParams (d.val a) with alpha := w } := fun a => by
    obtain ⟨w, e⟩ := e3 a
    exact ⟨w, by rw [e, e2, e1]⟩
  refine ⟨fun a => ?_, fun htk a => ?_⟩
  · obtain ⟨w, e⟩ := k3 a
    split_ifs at h4
    · have e4 := exec_all h4
      rw [e4]; dsimp only; rw [e]; exact hinit _
    · cases h4
      rw [e]; exact hinit _
  · obtain ⟨w, e⟩ := k3 a
    rw [if_pos htk] at h4
    have e4 := exec_all h4
    obtain ⟨-, -, -, i4, i5⟩ := hinit (d.val a)
    rw [e4]; dsimp only; rw [e]
    simp only [setTotalEnergy, i4, i5]

theorem exec_head (z : Config i) (c : Timestep.Clock) (hit : z.sph.relaxationSteps ≤ c.iteration) (hs : ∀ a, Sized (d.val a)) (h : DExec NearLists procs (headOps z c) home d (some x)) :
    Head z c d.val x.2.val := by
  -- the forces
  have fin : ∀ {y : (Fin n → Nat) × DState (Particle (i + 1)) n}, (∀ a, DistRun.Dense (y.2.val a)) → DExec NearLists procs (accOps z) y.1 y.2 (some x) →
      (∀ a, ∃ f g p, x.2.val a = { y.2.val a with acc := f, gacc := g, gpot := p }) ∧ ((∀ a, z.sph.external a = 0) → (∀ j, ∑ a, (x.2.val a).mass * (x.2.val a).acc j = 0) ∧
        ∀ j k, ∑ a, (x.2.val a).mass * ((x.2.val a).pos j * (x.2.val a).acc k - (x.2.val a).pos k * (x.2.val a).acc j) = 0) := by
    intro y hy h
    rw [accOps_eq z hit] at h
    obtain ⟨nbs, -, -, -, f4, f5⟩ := exec_forces z _ hit h
    refine ⟨f5, fun hext => ?_⟩
    obtain ⟨b1, b2⟩ := forces_balance z _ hit hext hy h
    simpa only [f4, Pi.zero_apply, add_zero] using And.intro b1 b2
  unfold headOps at h
  by_cases hc : c.iteration = z.initialIteration
  · rw [if_pos hc, firstHead_eq] at h
    obtain ⟨y1, h1, h⟩ := exec_split h
    obtain ⟨y2, h2, h3⟩ := exec_split h
    obtain ⟨b1, b2⟩ := exec_start z h1
    obtain ⟨c1, c2, c3⟩ := exec_density z c.dt mid_half (fun a => by unfold Sized; rw [(b1 a).2.1, (b1 a).2.2.1]; exact hs a) h2
    obtain ⟨f1, f2⟩ := fin c1 h3
    have k : ∀ a, DistRun.Dense (x.2.val a) ∧ (x.2.val a).id = (d.val a).id ∧ (x.2.val a).mass = (d.val a).mass ∧ (x.2.val a).vel = (d.val a).vel ∧ (x.2.val a).pos = (d.val a).pos := fun a => by
      obtain ⟨_, _, _, e⟩ := f1 a
      obtain ⟨d1, d2, d3, d4, -⟩ := dyn_of (c2 a)
      obtain ⟨q1, q2, -, q4, q5⟩ := b1 a
      rw [e]
      exact ⟨c1 a, d1.trans q1, d2.trans q2, d4.trans q5, d3.trans q4⟩
    refine ⟨fun a => (k a).1, fun a => (k a).2.1, fun a => (k a).2.2.1, fun a => by rw [if_pos hc]; exact (k a).2.2.2.1, fun a => by rw [if_pos hc]; exact (k a).2.2.2.2, fun he => (f2 he).1, fun he => (f2 he).2,
      fun htk hev a => ?_⟩
    rw [if_pos hc]
    have r := recovered_after z htk hev c.dt (fun o ho => by obtain rfl := List.mem_singleton.mp ho; exact keeps_all' fun _ h => h) h2 a
    unfold Recovered at r
    obtain ⟨_, _, _, e⟩ := f1 a
    obtain ⟨-, -, d3, d4, -⟩ := dyn_of (c2 a)
    obtain ⟨-, -, -, q4, q5⟩ := b1 a
    have he : (y2.2.val a).e = (y1.2.val a).e := by have := c3 a; simp only [heat, Prod.mk.injEq] at this; exact this.2.1
    rw [he, b2 htk, d3, d4, q4, q5] at r
    rw [e]
    show (y2.2.val a).u = _
    rw [r]; ring
  · rw [if_neg hc, nextHead_eq] at h
    obtain ⟨y4, h04, h⟩ := exec_split h
    obtain ⟨y5, h5, h6⟩ := exec_split h
    obtain ⟨y0, h0, h14⟩ := exec_split h04
    obtain ⟨y1, h1, h14⟩ := exec_cons h14
    obtain ⟨y2, h2, h14⟩ := exec_cons h14
    obtain ⟨y3, h3, h4⟩ := exec_cons h14
    have e0 := exec_view h0 (same_kick (v := dyn) (fun _ _ => rfl) (fun _ _ => rfl) z c.dt) _ rfl
    have z0 := exec_keeps h0 (keeps_kick' (I := Sized) (fun _ _ h => h) (fun _ _ h => h) z c.dt) hs _ rfl
    have e1 := exec_all h1
    have e2 := exec_all h2
    have e3 := exec_all h3
    have e4 := exec_update h4
    have z4 : ∀ a, Sized (y4.2.val a) := fun a => by rw [e4, e3, e2, e1]; exact z0 a
    have k4 : ∀ a, y4.2.val a = drift c.dt (saveVelocityhalf (kickV c.dt (y0.2.val a))) := fun a => by rw [e4, e3, e2, e1]
    obtain ⟨c1, c2, c3⟩ := exec_density z c.dt (fun o ho => (List.not_mem_nil ho).elim) z4 h5
    obtain ⟨f1, f2⟩ := fin c1 h6
    have k : ∀ a, DistRun.Dense (x.2.val a) ∧ (x.2.val a).id = (d.val a).id ∧ (x.2.val a).mass = (d.val a).mass ∧ (x.2.val a).vel = (d.val a).vel + (1 / 2 * c.dt) • ((d.val a).acc + (d.val a).gacc) ∧
        (x.2.val a).pos = (d.val a).pos + c.dt • ((d.val a).vel + (1 / 2 * c.dt) • ((d.val a).acc + (d.val a).gacc)) := fun a => by
      obtain ⟨_, _, _, e⟩ := f1 a
      obtain ⟨d1, d2, d3, d4, -⟩ := dyn_of (c2 a)
      rw [k4] at d1 d2 d3 d4
      obtain ⟨q1, q2, q3, q4, q5, q6⟩ := dyn_of (e0 a)
      simp only [drift, saveVelocityhalf, kickV] at d1 d2 d3 d4
      rw [q4, q5, q6] at d4
      rw [q3, q4, q5, q6] at d3
      rw [e]
      exact ⟨c1 a, d1.trans q1, d2.trans q2, d4, d3⟩
    refine ⟨fun a => (k a).1, fun a => (k a).2.1, fun a => (k a).2.2.1, fun a => by rw [if_neg hc]; exact (k a).2.2.2.1, fun a => by rw [if_neg hc]; exact (k a).2.2.2.2, fun he => (f2 he).1, fun he => (f2 he).2,
      fun htk hev a => ?_⟩
    rw [if_neg hc]
    unfold kickOps at h0
    rw [if_pos hev, if_pos htk] at h0
    have k0 := exec_all h0
    obtain ⟨_, _, _, e⟩ := f1 a
    have he : (y5.2.val a).e = (y4.2.val a).e := by have := c3 a; simp only [heat, Prod.mk.injEq] at this; exact this.2.1
    rw [e]
    show (y5.2.val a).e = _
    rw [he, k4, k0]
    simp only [drift, saveVelocityhalf, kickV, kickE]

/-! ### After gravity -/

/-- What gravity and the end of an iteration depend on. -/
def sky {d : Nat} (a : Particle d) : Nat × ℝ × Point d × Point d × Point d × Point d × ℝ := (a.id, a.mass, a.pos, a.vel, a.acc, a.gacc, a.gpot)

theorem sky_of {a b : Particle (i + 1)} (h : sky a = sky b) : a.id = b.id ∧ a.mass = b.mass ∧ a.pos = b.pos ∧ a.vel = b.vel ∧ a.acc = b.acc ∧ a.gacc = b.gacc ∧ a.gpot = b.gpot := by
  simp only [sky, Prod.mk.injEq] at h; exact h

theorem blind_sky : Blind (i := i) sky := ⟨fun _ _ _ _ _ _ _ _ => rfl, fun _ _ => rfl, fun _ _ => rfl, fun _ _ => rfl, fun _ _ => rfl⟩

/-- The energy equation, the energies and the end of an iteration. -/
theorem exec_rest (z : Config i) (he : 0 < z.eta) (hw : 0 < z.width) (dt : ℝ) (it : Int) {k : List (Op (Particle (i + 1)))} (hk : k = [] ∨ k = kickOps z dt) {t : List (Op (Particle (i + 1)))}
    (ht : t = [] ∨ t = [stepOp z]) (hs : ∀ a, DistRun.Dense (d.val a))
    (h : DExec NearLists procs ((if z.evolve then energyOps z dt it z.updates else []) ++ (k ++ (lastOps z ++ t))) home d (some x)) :
    (∀ a, Sized (x.2.val a)) ∧ (∀ a, sky (x.2.val a) = sky (d.val a)) ∧
    (z.thermokinetic = true → z.evolve = true → 1 ≤ z.updates → z.sph.relaxationSteps ≤ it → Consistent flow d → ∑ a, (x.2.val a).mass * (x.2.val a).dedt = gravityPower x.2.val ∧
      (k = [] → ∀ a, (x.2.val a).e = (d.val a).e) ∧ (k = kickOps z dt → ∀ a, (x.2.val a).e = (d.val a).e + 1 / 2 * dt * (x.2.val a).dedt)) := by
  obtain ⟨s1, -⟩ := rest_dyn z he hw dt it hk ht hs h
  obtain ⟨y1, h1, h⟩ := exec_split h
  obtain ⟨y2, h2, h⟩ := exec_split h
  obtain ⟨y3, h3, h4⟩ := exec_split h
  obtain ⟨s4, -⟩ := exec_steps z ht h4
  have v1 : ∀ a, sky (y1.2.val a) = sky (d.val a) := by
    split_ifs at h1
    · exact exec_view h1 (same_energy (fun _ _ _ _ _ _ => rfl) z dt it _) _ rfl
    · cases h1; exact fun _ => rfl
  have v2 : ∀ a, sky (y2.2.val a) = sky (y1.2.val a) := by
    rcases hk with rfl | rfl
    · cases h2; exact fun _ => rfl
    · exact exec_view h2 (same_kick (fun _ _ => rfl) (fun _ _ => rfl) z dt) _ rfl
  have v3 := exec_view h3 (same_last blind_sky z) _ rfl
  have v4 : ∀ a, sky (x.2.val a) = sky (y3.2.val a) := fun a => by obtain ⟨w, e⟩ := s4 a; rw [e]; rfl
  refine ⟨s1, fun a => by rw [v4, v3, v2, v1], fun htk hev hup hit hc => ?_⟩
  rw [if_pos hev] at h1
  have p1 := exec_power z dt it htk hit z.updates hup hs hc h1
  have g : ∀ a, heat (x.2.val a) = heat (y2.2.val a) := fun a => by
    rw [← exec_view h3 (same_last blind_heat z) _ rfl a]
    obtain ⟨w, e⟩ := s4 a; rw [e]; rfl
  have g' : ∀ a, (x.2.val a).mass = (y2.2.val a).mass ∧ (x.2.val a).e = (y2.2.val a).e ∧ (x.2.val a).dedt = (y2.2.val a).dedt := fun a => by have := g a; simp only [heat, Prod.mk.injEq] at this; exact this
  have d2 : ∀ a, (y2.2.val a).dedt = (y1.2.val a).dedt := by
    rcases hk with rfl | rfl
    · cases h2; exact fun _ => rfl
    · exact exec_view (v := fun a => a.dedt) h2 (same_kick (fun _ _ => rfl) (fun _ _ => rfl) z dt) _ rfl
  have e1 : ∀ a, (y1.2.val a).e = (d.val a).e := exec_view (v := fun a => a.e) h1 (same_energy (fun _ _ _ _ _ _ => rfl) z dt it _) _ rfl
  refine ⟨?_, fun hk a => ?_, fun hk a => ?_⟩
  · have w : ∀ a, sky (x.2.val a) = sky (y1.2.val a) := fun a => by rw [v4, v3, v2]
    refine Eq.trans (Finset.sum_congr rfl fun a _ => ?_) (p1.trans (Finset.sum_congr rfl fun a _ => ?_))
    · rw [(g' a).2.2, d2, (sky_of (w a)).2.1]
    · obtain ⟨-, w2, -, w4, -, w6, -⟩ := sky_of (w a)
      rw [w2, w4, w6]
  · subst hk
    cases h2
    rw [(g' a).2.1, e1]
  · subst hk
    unfold kickOps at h2
    rw [if_pos hev, if_pos htk] at h2
    have k2 := exec_all h2
    rw [(g' a).2.1, (g' a).2.2, d2, k2]
    simp only [kickE, e1]

/-- What the calls after gravity do. -/
structure Tail (z : Config i) (c : Timestep.Clock) (s t : Fin n → Particle (i + 1)) : Prop where
  sized : ∀ a, Sized (t a)
  id : ∀ a, (t a).id = (s a).id
  mass : ∀ a, (t a).mass = (s a).mass
  pos : ∀ a, (t a).pos = (s a).pos
  acc : ∀ a, (t a).acc = (s a).acc
  gacc : ∀ a, (t a).gacc = (s a).gacc
  gpot : ∀ a, (t a).gpot = (s a).gpot
  vel : ∀ a, (t a).vel = if c.iteration = z.initialIteration then (s a).vel else (s a).vel + (1 / 2 * c.dt) • ((s a).acc + (s a).gacc)
  energy : z.thermokinetic = true → z.evolve = true → 1 ≤ z.updates →
    (∀ a, (t a).e = if c.iteration = z.initialIteration then 1 / 2 * ∑ j, (s a).vel j * (s a).vel j + (s a).u + z.phi (s a).pos else (s a).e + 1 / 2 * c.dt * (t a).dedt) ∧
    ∑ a, (t a).mass * (t a).dedt = gravityPower t

/-- The first iteration after gravity; with an adaptive step the step is set in between. -/
theorem exec_first_tail (z : Config i) (he : 0 < z.eta) (hw : 0 < z.width) (c : Timestep.Clock) (hc : c.iteration = z.initialIteration) (hit : z.sph.relaxationSteps ≤ c.iteration) (dt : ℝ)
    {t t' : List (Op (Particle (i + 1)))} (ht : t = [] ∨ t = [stepOp z]) (ht' : t' = [] ∨ t' = [stepOp z]) (hs : ∀ a, DistRun.Dense (d.val a)) (hf : Consistent flow d) {y : (Fin n → Nat) × DState (Particle (i + 1)) n}
    (h1 : DExec NearLists procs (midOps z c.iteration ++ t) home d (some y)) (h2 : DExec NearLists procs (firstRest z dt c.iteration ++ t') y.1 y.2 (some x)) : Tail z c d.val x.2.val := by
  obtain ⟨y0, h0, h1⟩ := exec_split h1
  unfold midOps relaxOps at h0
  rw [if_neg (not_lt.mpr hit), List.nil_append] at h0
  have k0 : (∀ a, DistRun.Dense (y0.2.val a)) ∧ (∀ a, sky (y0.2.val a) = sky (d.val a)) ∧ Consistent flow y0.2 ∧
      (z.thermokinetic = true → ∀ a, (y0.2.val a).e = 1 / 2 * ∑ j, (d.val a).vel j * (d.val a).vel j + (d.val a).u + z.phi (d.val a).pos) := by
    split_ifs at h0 with htk
    · have e0 := exec_all h0
      refine ⟨fun a => by rw [e0]; exact hs a, fun a => by rw [e0]; rfl, exec_consistent h0 (fun o ho => ?_) hf _ rfl, fun _ a => by rw [e0]; simp only [setTotalEnergy, dot]⟩
      obtain rfl := List.mem_singleton.mp ho
      exact same_all fun _ => rfl
    · cases h0; exact ⟨hs, fun _ => rfl, hf, fun h => absurd h htk⟩
  obtain ⟨k1, k2, k3, k4⟩ := k0
  obtain ⟨s1, s2⟩ := exec_steps z ht h1
  have hrest : firstRest z dt c.iteration ++ t' = (if z.evolve then energyOps z dt c.iteration z.updates else []) ++ ([] ++ (lastOps z ++ t')) := by
    unfold firstRest; rw [List.append_assoc, List.nil_append]
  rw [hrest] at h2
  obtain ⟨r1, r2, r3⟩ := exec_rest z he hw dt _ (Or.inl rfl) ht' (fun a => by obtain ⟨w, e⟩ := s1 a; rw [e]; exact k1 a) h2
  have q : ∀ a, sky (x.2.val a) = sky (d.val a) := fun a => by
    rw [r2, ← k2]
    obtain ⟨w, e⟩ := s1 a; rw [e]; rfl
  refine ⟨r1, fun a => (sky_of (q a)).1, fun a => (sky_of (q a)).2.1, fun a => (sky_of (q a)).2.2.1, fun a => (sky_of (q a)).2.2.2.2.1, fun a => (sky_of (q a)).2.2.2.2.2.1, fun a => (sky_of (q a)).2.2.2.2.2.2,
    fun a => by rw [if_pos hc]; exact (sky_of (q a)).2.2.2.1, fun htk hev hup => ?_⟩
  obtain ⟨p1, p2, -⟩ := r3 htk hev hup hit (s2 k3)
  refine ⟨fun a => ?_, p1⟩
  rw [if_pos hc, p2 rfl, ← k4 htk]
  obtain ⟨w, e⟩ := s1 a; rw [e]

/-- The other iterations after gravity. -/
theorem exec_next_tail (z : Config i) (he : 0 < z.eta) (hw : 0 < z.width) (c : Timestep.Clock) (hc : c.iteration ≠ z.initialIteration) (hit : z.sph.relaxationSteps ≤ c.iteration)
    {t : List (Op (Particle (i + 1)))} (ht : t = [] ∨ t = [stepOp z]) (hs : ∀ a, DistRun.Dense (d.val a)) (h : DExec NearLists procs (tailOps z c ++ t) home d (some x)) : Tail z c d.val x.2.val := by
  have e : tailOps z c ++ t = [.all fun a => some (kickV c.dt a)] ++ ([.reset] ++ ((if z.evolve then energyOps z c.dt c.iteration z.updates else []) ++ (kickOps z c.dt ++ (lastOps z ++ t)))) := by
    unfold tailOps nextTail relaxOps
    rw [if_neg hc, if_neg (not_lt.mpr hit)]
    simp only [List.append_assoc, List.cons_append, List.nil_append]
  rw [e] at h
  obtain ⟨y1, h1, h⟩ := exec_split h
  obtain ⟨y2, h2, h3⟩ := exec_split h
  have e1 := exec_all h1
  obtain ⟨e2, c2⟩ := exec_reset h2 flow
  obtain ⟨r1, r2, r3⟩ := exec_rest z he hw c.dt _ (Or.inr rfl) ht (fun a => by rw [e2, e1]; exact hs a) h3
  have q : ∀ a, sky (x.2.val a) = sky (kickV c.dt (d.val a)) := fun a => by rw [r2, e2, e1]
  refine ⟨r1, fun a => (sky_of (q a)).1, fun a => (sky_of (q a)).2.1, fun a => (sky_of (q a)).2.2.1, fun a => (sky_of (q a)).2.2.2.2.1, fun a => (sky_of (q a)).2.2.2.2.2.1, fun a => (sky_of (q a)).2.2.2.2.2.2,
    fun a => by rw [if_neg hc]; exact (sky_of (q a)).2.2.2.1, fun htk hev hup => ?_⟩
  obtain ⟨p1, -, p2⟩ := r3 htk hev hup hit c2
  refine ⟨fun a => ?_, p1⟩
  rw [if_neg hc, p2 rfl, e2, e1]
  rfl

/-! ### One iteration -/

section
variable {z : Config i} (hext : ∀ a, z.sph.external a = 0) (g : Gravity) (hbits : i.val + 1 < g.bits) (hn : 2 ≤ n)

/-- Gravity gives every particle a potential and an acceleration close to Newton's law. -/
theorem gravity_of (hbits : i.val + 1 < g.bits) (hn : 2 ≤ n) {m : Nat} {s v : Fin n → Particle (i + 1)} (hs : ∀ a, DistRun.Dense (s a)) (hid : ∀ a b, (s a).id = (s b).id → a = b)
    (hsep : Separate (maxDepth g.bits (i + 1)) fun a => bodyOf (s a)) (hg : Gravitated g m s v) :
    ∃ (pot : Fin n → ℝ) (acc : Fin n → Point (i + 1)), (∀ a, Close g.angle g.const (fun b => bodyOf (s b)) a (pot a) (acc a)) ∧ v = fun a => { s a with gpot := pot a, gacc := acc a } := by
  obtain ⟨pot, acc, hc, hG⟩ := gravitated_spec g hbits hn (fun a => bodyOf (s a)) (fun a => (hs a).1) (fun a => (hs a).2.1) hsep
  exact ⟨pot, acc, hc, funext ((hG s (fun _ => rfl) hid m).2 v hg)⟩

include hext in
theorem assemble {c : Timestep.Clock} {s s1 t : Fin n → Particle (i + 1)} {pot : Fin n → ℝ} {acc : Fin n → Point (i + 1)} (hs : Head z c s s1)
    (hc : ∀ a, Close g.angle g.const (fun b => bodyOf (s1 b)) a (pot a) (acc a)) (ht : Tail z c (fun a => { s1 a with gpot := pot a, gacc := acc a }) t) :
    Leapfrog g.const g.angle (c.iteration = z.initialIteration) c.dt s t ∧ (z.thermokinetic = true → z.evolve = true → 1 ≤ z.updates → EnergyStep z c s t) := by
  have tg : ∀ a, (t a).gacc = acc a := ht.gacc
  have tq : ∀ a, (t a).gpot = pot a := ht.gpot
  have tp : ∀ a, (t a).pos = (s1 a).pos := ht.pos
  have tm : ∀ a, (t a).mass = (s1 a).mass := ht.mass
  have ta : ∀ a, (t a).acc = (s1 a).acc := ht.acc
  refine ⟨⟨fun a => (ht.id a).trans (hs.id a), fun a => (tm a).trans (hs.mass a), fun a => (tp a).trans (hs.pos a), fun a => ?_, fun j => ?_, fun j k => ?_, fun a u hu => ?_, fun a u hu => ?_⟩, fun htk hev hup => ⟨fun a => ?_, ?_⟩⟩
  · have tv := ht.vel a
    dsimp only at tv
    rw [tv, tg, ta, hs.vel]
    by_cases h : c.iteration = z.initialIteration
    · rw [if_pos h, if_pos h, if_pos h]
    · rw [if_neg h, if_neg h, if_neg h]
  · rw [← hs.force hext j]
    exact Finset.sum_congr rfl fun a _ => by rw [tm, ta]
  · rw [← hs.torque hext j k]
    exact Finset.sum_congr rfl fun a _ => by rw [tm, ta, tp]
  · have := (hc a u hu).1
    have e1 : accelerationAt g.const (fun b => bodyOf (t b)) a = accelerationAt g.const (fun b => bodyOf (s1 b)) a := by
      funext j
      simp only [accelerationAt, bodyOf, tp, tm]
    have e2 : pull g.const t a = ∑ b ∈ Finset.univ.erase a, |g.const| * (bodyOf (s1 b)).mass / distance (bodyOf (s1 a)).pos (bodyOf (s1 b)).pos ^ 2 := by
      simp only [pull, bodyOf, tp, tm]
    rw [tg, e1, e2]
    exact this
  · have := (hc a u hu).2
    have e1 : potentialAt g.const (fun b => bodyOf (t b)) a = potentialAt g.const (fun b => bodyOf (s1 b)) a := by
      simp only [potentialAt, bodyOf, tp, tm]
    have e2 : well g.const t a = ∑ b ∈ Finset.univ.erase a, |g.const| * (bodyOf (s1 b)).mass / distance (bodyOf (s1 a)).pos (bodyOf (s1 b)).pos := by
      simp only [well, bodyOf, tp, tm]
    rw [tq, e1, e2]
    exact this
  · have k1 := hs.energy htk hev a
    have k5 := (ht.energy htk hev hup).1 a
    dsimp only at k5
    rw [k5]
    by_cases h : c.iteration = z.initialIteration
    · rw [if_pos h] at k1
      rw [if_pos h, if_pos h, k1, hs.pos, hs.vel, if_pos h, if_pos h]
    · rw [if_neg h] at k1
      rw [if_neg h, if_neg h, k1]
  · exact (ht.energy htk hev hup).2

/-- Up to gravity. -/
theorem exec_gravity (hbits : i.val + 1 < g.bits) (hn : 2 ≤ n) {m : Nat} {c : Timestep.Clock} {home' : Fin n → Nat} {d' : DState (Particle (i + 1)) n} {v : Fin n → Particle (i + 1)} (hit : z.sph.relaxationSteps ≤ c.iteration)
    (hpos : ∀ a, Sized (d.val a)) (hid : ∀ a b, (d.val a).id = (d.val b).id → a = b) (h1 : DExec NearLists procs (headOps z c) home d (some (home', d')))
    (h2 : Separate (maxDepth g.bits (i + 1)) fun a => bodyOf (d'.val a)) (h3 : Gravitated g m d'.val v) :
    ∃ (pot : Fin n → ℝ) (acc : Fin n → Point (i + 1)), Head z c d.val d'.val ∧ (∀ a, Close g.angle g.const (fun b => bodyOf (d'.val b)) a (pot a) (acc a)) ∧
      v = (fun a => { d'.val a with gpot := pot a, gacc := acc a }) ∧ (∀ a, DistRun.Dense (v a)) ∧ Consistent flow { d' with val := v } := by
  have hs := exec_head z c hit hpos h1
  obtain ⟨pot, acc, hc, rfl⟩ := gravity_of g hbits hn hs.dense (fun a b hab => hid a b (by rw [← hs.id, ← hs.id, hab])) h2 h3
  have hk : ∀ a, ∃ p g, ({ d'.val a with gpot := pot a, gacc := acc a } : Particle (i + 1)) = { d'.val a with gpot := p, gacc := g } := fun a => ⟨_, _, rfl⟩
  exact ⟨pot, acc, hs, hc, rfl, dense_grav hs.dense hk, consistent_grav (Or.inl rfl) ((head_consistent h1).1 _ (Or.inl rfl)) hk⟩

variable (he : 0 < z.eta) (hw : 0 < z.width)

include hext hbits hn he hw in
/-- One iteration with a fixed time step. -/
theorem fixed_iter {m : Nat} {c : Timestep.Clock} {home' home'' : Fin n → Nat} {d' d'' : DState (Particle (i + 1)) n} {v : Fin n → Particle (i + 1)} (hit : z.sph.relaxationSteps ≤ c.iteration)
    (hpos : ∀ a, Sized (d.val a)) (hid : ∀ a b, (d.val a).id = (d.val b).id → a = b) (h1 : DExec NearLists procs (headOps z c) home d (some (home', d')))
    (h2 : Separate (maxDepth g.bits (i + 1)) fun a => bodyOf (d'.val a)) (h3 : Gravitated g m d'.val v) (h4 : DExec NearLists procs (tailOps z c) home' { d' with val := v } (some (home'', d''))) :
    Leapfrog g.const g.angle (c.iteration = z.initialIteration) c.dt d.val d''.val ∧ (z.thermokinetic = true → z.evolve = true → 1 ≤ z.updates → EnergyStep z c d.val d''.val) ∧
    ∀ a, Sized (d''.val a) := by
  obtain ⟨pot, acc, hs, hc, rfl, hd, hf⟩ := exec_gravity g hbits hn hit hpos hid h1 h2 h3
  have ht : Tail z c (fun a => { d'.val a with gpot := pot a, gacc := acc a }) d''.val := by
    by_cases hc0 : c.iteration = z.initialIteration
    · have e : tailOps z c = (midOps z c.iteration ++ []) ++ (firstRest z c.dt c.iteration ++ []) := by
        unfold tailOps firstTail midOps firstRest
        rw [if_pos hc0]
        simp only [List.append_assoc, List.append_nil]
      rw [e] at h4
      obtain ⟨y, h4, h5⟩ := exec_split h4
      exact exec_first_tail (d := ⟨_, d'.copy, d'.flight⟩) z he hw c hc0 hit c.dt (Or.inl rfl) (Or.inl rfl) hd hf h4 h5
    · rw [← List.append_nil (tailOps z c)] at h4
      exact exec_next_tail (d := ⟨_, d'.copy, d'.flight⟩) z he hw c hc0 hit (Or.inl rfl) hd h4
  obtain ⟨a1, a2⟩ := assemble hext g hs hc ht
  exact ⟨a1, a2, ht.sized⟩

include hext hbits hn he hw in
/-- One iteration with an adaptive time step. -/
theorem adaptive_iter {m : Nat} {c c1 c2 : Timestep.Clock} {home' : Fin n → Nat} {d' : DState (Particle (i + 1)) n} (hit : z.sph.relaxationSteps ≤ c.iteration) (hpos : ∀ a, Sized (d.val a))
    (hid : ∀ a b, (d.val a).id = (d.val b).id → a = b) (h : AdaptNewton.Iter NearLists g m z c home d (.done c1 c2 home' d')) :
    Leapfrog g.const g.angle (c.iteration = z.initialIteration) c.dt d.val d'.val ∧ (z.thermokinetic = true → z.evolve = true → 1 ≤ z.updates → EnergyStep z c d.val d'.val) ∧
    (∀ a, Sized (d'.val a)) ∧ c2.iteration = c.iteration + 1 := by
  cases h with
  | @first homeh dh v home1 d1 _ _ _ hc0 h1 h2 h3 h4 h5 h6 =>
    obtain ⟨pot, acc, hs, hc, rfl, hd, hf⟩ := exec_gravity g hbits hn hit hpos hid h1 h2 h3
    have i1 : c1.iteration = c.iteration := by rw [h5, AdaptRun.setAdaptive_iteration]
    rw [i1] at h6
    have ht := exec_first_tail (d := ⟨_, dh.copy, dh.flight⟩) z he hw c hc0 hit c1.dt (Or.inr rfl) (Or.inr rfl) hd hf h4 h6
    obtain ⟨a1, a2⟩ := assemble hext g hs hc ht
    refine ⟨a1, a2, ht.sized, ?_⟩
    show (Timestep.setAdaptive _ _ _).iteration + 1 = _
    rw [AdaptRun.setAdaptive_iteration, i1]
  | @next homeh dh v _ _ hc0 h1 h2 h3 h4 =>
    obtain ⟨pot, acc, hs, hc, rfl, hd, hf⟩ := exec_gravity g hbits hn hit hpos hid h1 h2 h3
    have ht := exec_next_tail (d := ⟨_, dh.copy, dh.flight⟩) z he hw c hc0 hit (Or.inr rfl) hd h4
    obtain ⟨a1, a2⟩ := assemble hext g hs hc ht
    refine ⟨a1, a2, ht.sized, ?_⟩
    show (Timestep.setAdaptive _ _ _).iteration + 1 = _
    rw [AdaptRun.setAdaptive_iteration]

end

end FleCSPH.GravityConserve
