import Verif.Model.Driver
import Verif.Lemmas.Pass
/-! What the steps of the driver leave alone. -/
namespace FleCSPH.Driver
open FleCSPH.Geometry FleCSPH.Sph FleCSPH.Integration FleCSPH.Spec FleCSPH.Kernels

variable {i : Fin 3} {n : Nat}

theorem pass_keep {P α : Type} (f : P → List P → P) (g : P → α) (h : ∀ a l, g (f a l) = g a) (nbs : Fin n → List (Fin n)) (order : List (Fin n))
    (s : Fin n → P) (a : Fin n) : g (pass f nbs order s a) = g (s a) := by
  induction order generalizing s with
  | nil => rfl
  | cons c l ih =>
    rw [pass, List.foldl_cons]
    refine (ih _).trans ?_
    by_cases hc : a = c
    · subst hc; rw [Function.update_self, h]
    · rw [Function.update_of_ne hc]

theorem passM_keep {P α : Type} (f : P → List P → Option P) (g : P → α) (h : ∀ a l x, f a l = some x → g x = g a) (nbs : Fin n → List (Fin n))
    (order : List (Fin n)) (s t : Fin n → P) (ht : passM f nbs order s = some t) (a : Fin n) : g (t a) = g (s a) := by
  induction order generalizing s with
  | nil => simp only [passM, List.foldlM_nil, Option.pure_def, Option.some.injEq] at ht; rw [ht]
  | cons c l ih =>
    rw [passM_cons] at ht
    obtain ⟨x, hx, ht⟩ := Option.bind_eq_some_iff.mp ht
    rw [ih _ ht]
    by_cases hc : a = c
    · subst hc; rw [Function.update_self, h _ _ _ hx]
    · rw [Function.update_of_ne hc]

/-- A property the function establishes holds of every particle visited. -/
theorem passM_establish {P : Type} (f : P → List P → Option P) (p : P → Prop) (h : ∀ a l x, f a l = some x → p x) (nbs : Fin n → List (Fin n))
    (order : List (Fin n)) (s t : Fin n → P) (ht : passM f nbs order s = some t) (a : Fin n) (ha : a ∈ order ∨ p (s a)) : p (t a) := by
  induction order generalizing s with
  | nil =>
    simp only [passM, List.foldlM_nil, Option.pure_def, Option.some.injEq] at ht
    subst ht; simpa using ha
  | cons c l ih =>
    rw [passM_cons] at ht
    obtain ⟨x, hx, ht⟩ := Option.bind_eq_some_iff.mp ht
    refine ih _ ht ?_
    by_cases hc : a = c
    · subst hc; right; rw [Function.update_self]; exact h _ _ _ hx
    · rw [Function.update_of_ne hc]
      rcases ha with ha | ha
      · exact Or.inl ((List.mem_cons.mp ha).resolve_left hc)
      · exact Or.inr ha

theorem applyAllM_iff {P : Type} (f : P → Option P) (s t : Fin n → P) : applyAllM f s = some t ↔ ∀ a, f (s a) = some (t a) := by
  unfold applyAllM
  split_ifs with h
  · rw [Option.some.injEq]
    constructor
    · rintro rfl a; rw [Option.some_get]
    · intro ht; funext a; exact Option.get_of_eq_some _ (ht a)
  · constructor
    · intro h; cases h
    · intro ht; exact absurd (fun a => by rw [ht a]; rfl) h

/-- The fields of motion and the adiabatic constant. -/
def motion {d : Nat} (a : Particle d) : Nat × ℝ × Point d × Point d × ℝ := (a.id, a.mass, a.pos, a.vel, a.K)

/-- The fields of motion, the smoothing length and the accelerations. -/
def dynamics {d : Nat} (a : Particle d) : (Nat × ℝ × Point d × Point d × ℝ) × ℝ × Point d × Point d := (motion a, a.h, a.acc, a.gacc)

/-- The same and the total energy. -/
def energetics {d : Nat} (a : Particle d) : ((Nat × ℝ × Point d × Point d × ℝ) × ℝ × Point d × Point d) × ℝ × ℝ := (dynamics a, a.e, a.dedt)

theorem computePressure_keep {d : Nat} (e : Eos.Kind) (q : Eos.Params) (a : Particle d) :
    ∃ P, Eos.computePressure e q a = { a with P := P } := by
  cases e
  · exact ⟨_, rfl⟩
  · exact ⟨_, rfl⟩
  · exact ⟨_, rfl⟩
  · exact ⟨_, rfl⟩
  · exact ⟨a.P, rfl⟩

theorem computeSoundspeed_keep {d : Nat} (e : Eos.Kind) (q : Eos.Params) (a : Particle d) :
    ∃ c, Eos.computeSoundspeed e q a = { a with cs := c } := by
  cases e
  · exact ⟨_, rfl⟩
  · exact ⟨_, rfl⟩
  · exact ⟨_, rfl⟩
  · exact ⟨_, rfl⟩
  · exact ⟨a.cs, rfl⟩

theorem recoverIf_keep {d : Nat} (z : Eos.Setup d) (a b : Particle d) (h : Eos.recoverIf z a = some b) : ∃ u, b = { a with u := u } := by
  unfold Eos.recoverIf at h
  split_ifs at h
  · unfold recoverInternalEnergy at h
    simp only at h
    split_ifs at h
    exact ⟨_, (Option.some.inj h).symm⟩
  · exact ⟨a.u, (Option.some.inj h).symm⟩

theorem divvIf_keep (p : Sph.Params i) (dt : ℝ) (a : Particle (i + 1)) (nbs : List (Particle (i + 1))) :
    ∃ x y, Eos.divvIf p dt a nbs = { a with divv := x, ddivvdt := y } := by
  unfold Eos.divvIf
  cases p.visc
  · exact ⟨a.divv, a.ddivvdt, rfl⟩
  · exact ⟨_, _, rfl⟩

/-- What `compute_density_pressure_soundspeed` writes. -/
theorem density_keep (p : Sph.Params i) (e : Eos.Kind) (q : Eos.Params) (z : Eos.Setup (i + 1)) (a b : Particle (i + 1)) (nbs : List (Particle (i + 1)))
    (h : Eos.computeDensityPressureSoundspeed p e q z a nbs = some b) :
    0 < b.rho ∧ ∃ r u P c v x y, b = { a with rho := r, u := u, P := P, cs := c, vsig := v, divv := x, ddivvdt := y } := by
  simp only [Eos.computeDensityPressureSoundspeed, Option.bind_eq_bind, Option.pure_def] at h
  obtain ⟨a1, h1, h⟩ := Option.bind_eq_some_iff.mp h
  obtain ⟨a2, h2, h⟩ := Option.bind_eq_some_iff.mp h
  obtain ⟨u, rfl⟩ := recoverIf_keep z a1 a2 h2
  unfold computeDensity at h1
  simp only at h1
  split_ifs at h1 with hr
  obtain rfl := Option.some.inj h1
  obtain rfl := Option.some.inj h
  obtain ⟨P, hP⟩ := computePressure_keep e q ({ a with rho := accumulate nbs fun b => b.mass * Kernels.kernel p.kernel i (magnitude (a.pos - b.pos)) (1 / 2 * (a.h + b.h)), u := u })
  rw [hP]
  obtain ⟨c, hc⟩ := computeSoundspeed_keep e q ({ a with rho := accumulate nbs fun b => b.mass * Kernels.kernel p.kernel i (magnitude (a.pos - b.pos)) (1 / 2 * (a.h + b.h)), u := u, P := P })
  rw [hc]
  obtain ⟨x, y, hxy⟩ := divvIf_keep p z.dt (computeSignalspeed ({ a with rho := accumulate nbs fun b => b.mass * Kernels.kernel p.kernel i (magnitude (a.pos - b.pos)) (1 / 2 * (a.h + b.h)), u := u, P := P, cs := c }) nbs) nbs
  rw [hxy]
  exact ⟨hr.2, _, u, P, c, _, x, y, rfl⟩

theorem computeAlpha_keep (p : Sph.Params i) (c : Cullen.Settings) (a b : Particle (i + 1)) (nbs : List (Particle (i + 1)))
    (h : Cullen.computeAlpha p c a nbs = some b) : ∃ x, b = { a with alpha := x } := by
  unfold Cullen.computeAlpha at h
  simp only at h
  split_ifs at h
  · exact ⟨_, (Option.some.inj h).symm⟩
  · exact ⟨a.alpha, (Option.some.inj h).symm⟩
  · exact ⟨_, (Option.some.inj h).symm⟩

theorem recompute_keep {d : Nat} (e : Eos.Kind) (q : Eos.Params) (dt : ℝ) (a : Particle d) :
    ∃ P c, Eos.recomputePressureSoundspeed e q dt a = { a with P := P, cs := c } := by
  unfold Eos.recomputePressureSoundspeed
  obtain ⟨P, hP⟩ := computePressure_keep e q ({ a with u := a.u + 1 / 2 * dt * a.dudt })
  rw [hP]
  obtain ⟨c, hc⟩ := computeSoundspeed_keep e q ({ a with u := a.u + 1 / 2 * dt * a.dudt, P := P })
  rw [hc]
  exact ⟨P, c, rfl⟩

theorem recomputeT_keep {d : Nat} (e : Eos.Kind) (q : Eos.Params) (phi : Point d → ℝ) (dt : ℝ) (a b : Particle d)
    (h : Eos.recomputePressureSoundspeedThermokinetic e q phi dt a = some b) : ∃ u P c, b = { a with u := u, P := P, cs := c } := by
  simp only [Eos.recomputePressureSoundspeedThermokinetic, Option.bind_eq_bind, Option.pure_def] at h
  obtain ⟨a1, h1, h⟩ := Option.bind_eq_some_iff.mp h
  obtain ⟨u, rfl⟩ : ∃ u, a1 = { a with u := u } := by
    unfold recoverInternalEnergy at h1
    simp only at h1
    split_ifs at h1
    exact ⟨_, (Option.some.inj h1).symm⟩
  obtain rfl := Option.some.inj h
  obtain ⟨P, hP⟩ := computePressure_keep e q ({ a with u := u + 1 / 2 * dt * (a.dedt - dot a.vel a.acc) })
  rw [hP]
  obtain ⟨c, hc⟩ := computeSoundspeed_keep e q ({ a with u := u + 1 / 2 * dt * (a.dedt - dot a.vel a.acc), P := P })
  rw [hc]
  exact ⟨u, P, c, rfl⟩

theorem computeDt_keep {d : Nat} (c : Timestep.Settings d) (a b : Particle d) (h : Timestep.computeDt c a = some b) : ∃ x, b = { a with dt := x } := by
  unfold Timestep.computeDt at h
  split_ifs at h
  · obtain ⟨x, _, rfl⟩ := Option.map_eq_some_iff.mp h
    exact ⟨x, rfl⟩
  · exact ⟨_, (Option.some.inj h).symm⟩

/-- Density, pressure, viscosity leave the motion alone; densities are positive afterwards. -/
theorem thermo_keep (z : Config i) (dt : ℝ) (first : Bool) (w : Schedule i n) (hw : ∀ k, VisitsAll (w.order k)) (s t : Fin n → Particle (i + 1))
    (h : thermo z dt first w s = some t) (a : Fin n) : energetics (t a) = energetics (s a) ∧ 0 < (t a).rho := by
  unfold thermo at h
  obtain ⟨s1, h1, h⟩ := Option.bind_eq_some_iff.mp h
  have k1 : energetics (s1 a) = energetics (s a) := passM_keep _ energetics (fun a l x hx => by
    obtain ⟨_, r, u, P, c, v, x', y, rfl⟩ := density_keep _ _ _ _ _ _ _ hx; rfl) _ _ _ _ h1 a
  have r1 : 0 < (s1 a).rho := passM_establish _ (fun b => 0 < b.rho) (fun a l x hx => (density_keep _ _ _ _ _ _ _ hx).1) _ _ _ _ h1 a
    (Or.inl ((hw 0).all a))
  set s2 := if first then applyAll saveVelocityhalf s1 else s1 with hs2
  have k2 : energetics (s2 a) = energetics (s1 a) ∧ (s2 a).rho = (s1 a).rho := by rw [hs2]; split_ifs <;> exact ⟨rfl, rfl⟩
  unfold alphaPass at h
  cases hv : z.sph.visc with
  | constant =>
    rw [hv] at h
    obtain rfl := Option.some.inj h
    exact ⟨k2.1.trans k1, by rw [k2.2]; exact r1⟩
  | cullen =>
    rw [hv] at h
    have k3 := passM_keep _ (fun b => (energetics b, b.rho)) (fun a l x hx => by obtain ⟨y, rfl⟩ := computeAlpha_keep _ _ _ _ _ hx; rfl) _ _ _ _ h a
    obtain ⟨k4, k5⟩ := Prod.mk.inj k3
    exact ⟨k4.trans (k2.1.trans k1), by rw [k5, k2.2]; exact r1⟩

/-- The forces leave everything else alone. -/
theorem forces_keep (z : Config i) (it : Int) (w : Schedule i n) (s : Fin n → Particle (i + 1)) (a : Fin n) :
    ∃ x y g, forces z it w s a = { s a with acc := x, gacc := y, gpot := g } := by
  have k : ∀ b : Particle (i + 1), ∀ c : Particle (i + 1), ({ b with acc := 0, gacc := 0, gpot := 0 } : Particle (i + 1)) = { c with acc := 0, gacc := 0, gpot := 0 } →
      ∃ x y g, b = { c with acc := x, gacc := y, gpot := g } := by
    intro b c h
    refine ⟨b.acc, b.gacc, b.gpot, ?_⟩
    have h2 : ∀ b : Particle (i + 1), b = { ({ b with acc := 0, gacc := 0, gpot := 0 } : Particle (i + 1)) with acc := b.acc, gacc := b.gacc, gpot := b.gpot } := fun b => rfl
    rw [h2 b, h]
  apply k
  have e1 := pass_keep (computeAcceleration z.sph) (fun b => ({ b with acc := 0, gacc := 0, gpot := 0 } : Particle (i + 1))) (fun a l => rfl) (w.search s) (w.order 2) s a
  unfold forces
  split_ifs
  · refine (pass_keep (addShortRangeRepulsion z.repulsionRadius z.repulsionGamma) (fun b : Particle (i + 1) => ({ b with acc := 0, gacc := 0, gpot := 0 } : Particle (i + 1))) (fun a l => rfl) _ _ _ a).trans ?_
    exact e1
  · exact e1

/-- The energy equation leaves the motion, the accelerations and the densities alone. -/
theorem energy_keep (z : Config i) (dt : ℝ) (it : Int) (w : Schedule i n) (s t : Fin n → Particle (i + 1)) (h : energy z dt it w s = some t) (a : Fin n) :
    (dynamics (t a), (t a).rho, (t a).e) = (dynamics (s a), (s a).rho, (s a).e) := by
  have ded : ∀ k (s t : Fin n → Particle (i + 1)), dedtPass z dt it w k s = some t → ∀ a, (dynamics (t a), (t a).rho, (t a).e) = (dynamics (s a), (s a).rho, (s a).e) := by
    intro k s t h a
    unfold dedtPass at h
    have h2 := (applyAllM_iff _ _ _).mp h a
    obtain ⟨u, P, c, hk⟩ := recomputeT_keep _ _ _ _ _ _ h2
    rw [hk]
    have e1 := pass_keep (computeDedt z.sph) (fun b => (dynamics b, b.rho, b.e)) (fun a l => rfl) (w.search s) (w.order k) s a
    refine Eq.trans ?_ e1
    split_ifs <;> rfl
  have dud : ∀ k (s : Fin n → Particle (i + 1)), ∀ a, (dynamics (dudtPass z dt it w k s a), (dudtPass z dt it w k s a).rho, (dudtPass z dt it w k s a).e) = (dynamics (s a), (s a).rho, (s a).e) := by
    intro k s a
    unfold dudtPass
    have e1 := pass_keep (computeDudt z.sph it) (fun b => (dynamics b, b.rho, b.e)) (fun a l => by unfold computeDudt; split_ifs <;> rfl) (w.search s) (w.order k) s a
    refine Eq.trans ?_ e1
    generalize hs2 : (if it < z.sph.relaxationSteps then applyAll (addDragDudt z.beta z.gamma) (sphPass w k (computeDudt z.sph it) s)
      else sphPass w k (computeDudt z.sph it) s) = s2
    have e2 : (dynamics (s2 a), (s2 a).rho, (s2 a).e) = (dynamics (sphPass w k (computeDudt z.sph it) s a), (sphPass w k (computeDudt z.sph it) s a).rho, (sphPass w k (computeDudt z.sph it) s a).e) := by
      rw [← hs2]; split_ifs <;> rfl
    refine Eq.trans ?_ e2
    obtain ⟨P, c, hk⟩ := recompute_keep z.eos z.eosParams dt (s2 a)
    simp only [applyAll, hk]
    rfl
  have loop : ∀ m (s t : Fin n → Particle (i + 1)), energyPasses z dt it w m s = some t → ∀ a, (dynamics (t a), (t a).rho, (t a).e) = (dynamics (s a), (s a).rho, (s a).e) := by
    intro m
    induction m with
    | zero => intro s t h a; rw [energyPasses, Option.some.injEq] at h; rw [h]
    | succ m ih =>
      intro s t h a
      rw [energyPasses] at h
      obtain ⟨s1, h1, h⟩ := Option.bind_eq_some_iff.mp h
      rw [ih s1 t h a]
      split_ifs at h1
      · exact ded _ _ _ h1 a
      · rw [Option.some.injEq] at h1
        rw [← h1]; exact dud _ _ a
  unfold energy at h
  split_ifs at h
  · exact loop _ _ _ h a
  · rw [Option.some.injEq] at h; rw [h]

theorem kickEnergy_keep (z : Config i) (dt : ℝ) (s : Fin n → Particle (i + 1)) (a : Fin n) :
    (dynamics (kickEnergy z dt s a), (kickEnergy z dt s a).rho) = (dynamics (s a), (s a).rho) := by
  unfold kickEnergy
  split_ifs <;> rfl

theorem initialise_keep (z : Config i) (s : Fin n → Particle (i + 1)) (a : Fin n) :
    ((initialise z s a).id, (initialise z s a).mass, (initialise z s a).h, (initialise z s a).pos, (initialise z s a).vel) =
      ((s a).id, (s a).mass, (s a).h, (s a).pos, (s a).vel) := by
  have h1 : (fun b : Particle (i + 1) => (b.id, b.mass, b.h, b.pos, b.vel)) (Eos.init z.eos z.eosParams (s a)) = ((s a).id, (s a).mass, (s a).h, (s a).pos, (s a).vel) := by
    cases z.eos <;> rfl
  refine Eq.trans ?_ h1
  have h2 : ∀ b : Particle (i + 1), (fun b : Particle (i + 1) => (b.id, b.mass, b.h, b.pos, b.vel)) (Cullen.initializeAlpha z.sph b) = (b.id, b.mass, b.h, b.pos, b.vel) := by
    intro b; unfold Cullen.initializeAlpha; cases z.sph.visc <;> rfl
  unfold initialise
  cases z.sph.visc
  · simp only; split_ifs <;> rfl
  · simp only; split_ifs <;> exact h2 _

theorem adaptStep_keep (z : Config i) (st st' : State i n) (h : adaptStep z st = some st') :
    ∀ a, ∃ x, st'.parts a = { st.parts a with dt := x } := by
  intro a
  unfold adaptStep at h
  split_ifs at h
  · obtain ⟨s, hs, rfl⟩ := Option.map_eq_some_iff.mp h
    exact computeDt_keep _ _ _ ((applyAllM_iff _ _ _).mp hs a)
  · obtain rfl := Option.some.inj h
    exact ⟨(st.parts a).dt, rfl⟩

theorem setAdaptive_iteration (o : Timestep.Outputs) (l : List (List ℝ)) (c : Timestep.Clock) : (Timestep.setAdaptive o l c).iteration = c.iteration := by
  have hb : ∀ k (c : Timestep.Clock), (Timestep.block o k c).iteration = c.iteration := by
    intro k c
    have h1 : (Timestep.catchUp o k c).iteration = c.iteration := by unfold Timestep.catchUp; split_ifs <;> rfl
    have h2 : ∀ c, (Timestep.align o k c).iteration = c.iteration := by intro c; unfold Timestep.align; split_ifs <;> rfl
    unfold Timestep.block
    split_ifs
    · exact (h2 _).trans h1
    · rfl
  unfold Timestep.setAdaptive
  exact (hb _ _).trans ((hb _ _).trans (hb _ _))

theorem adaptStep_iteration (z : Config i) (st st' : State i n) (h : adaptStep z st = some st') : st'.clock.iteration = st.clock.iteration := by
  unfold adaptStep at h
  split_ifs at h
  · obtain ⟨s, _, rfl⟩ := Option.map_eq_some_iff.mp h
    exact setAdaptive_iteration _ _ _
  · obtain rfl := Option.some.inj h; rfl

/-- The energy equation of the thermokinetic formulation, past the relaxation phase and without self-gravity: the total of the derivatives is zero. -/
theorem energy_balanced (z : Config i) (htk : z.thermokinetic = true) (hev : z.evolve = true) (hup : 1 ≤ z.updates) (dt : ℝ) (it : Int)
    (hit : z.sph.relaxationSteps ≤ it) (w : Schedule i n) (hw : ∀ k, VisitsAll (w.order k))
    (hl : ∀ s : Fin n → Particle (i + 1), (∀ a, 0 < (s a).h) → SymmetricLists s (w.search s)) (s t : Fin n → Particle (i + 1))
    (hh : ∀ a, 0 < (s a).h) (hr : ∀ a, 0 < (s a).rho) (hg : ∀ a, (s a).gacc = 0) (h : energy z dt it w s = some t)
    (hC35 : ∀ (s : Fin n → Particle (i + 1)) (nbs : Fin n → List (Fin n)) (order : List (Fin n)), VisitsAll order → SymmetricLists s nbs →
      (∀ a, 0 < (s a).h) → (∀ a, 0 < (s a).rho) →
      ∑ a, (s a).mass * (pass (computeDedt z.sph) nbs order s a).dedt = ∑ a, (s a).mass * ∑ j, (s a).gacc j * (s a).vel j) :
    ∑ a, (t a).mass * (t a).dedt = 0 := by
  have step : ∀ k (s t : Fin n → Particle (i + 1)), (∀ a, 0 < (s a).h) → (∀ a, 0 < (s a).rho) → (∀ a, (s a).gacc = 0) → dedtPass z dt it w k s = some t →
      (∀ a, 0 < (t a).h) ∧ (∀ a, 0 < (t a).rho) ∧ (∀ a, (t a).gacc = 0) ∧ ∑ a, (t a).mass * (t a).dedt = 0 := by
    intro k s t hh hr hg h
    unfold dedtPass at h
    simp only [if_neg (not_lt.mpr hit)] at h
    have h2 := (applyAllM_iff _ _ _).mp h
    have e1 : ∀ a, _ := fun a => pass_keep (computeDedt z.sph) (fun b => (b.mass, b.h, b.rho, b.gacc)) (fun a l => rfl) (w.search s) (w.order k) s a
    have e2 : ∀ a, (t a).mass = (s a).mass ∧ (t a).h = (s a).h ∧ (t a).rho = (s a).rho ∧ (t a).gacc = (s a).gacc ∧
        (t a).dedt = (pass (computeDedt z.sph) (w.search s) (w.order k) s a).dedt := by
      intro a
      obtain ⟨u, P, c, hk⟩ := recomputeT_keep _ _ _ _ _ _ (h2 a)
      have := e1 a
      simp only [Prod.mk.injEq] at this
      rw [hk]
      exact ⟨this.1, this.2.1, this.2.2.1, this.2.2.2, rfl⟩
    refine ⟨fun a => by rw [(e2 a).2.1]; exact hh a, fun a => by rw [(e2 a).2.2.1]; exact hr a, fun a => by rw [(e2 a).2.2.2.1]; exact hg a, ?_⟩
    have := hC35 s (w.search s) (w.order k) (hw k) (hl s hh) hh hr
    simp only [hg, Pi.zero_apply, zero_mul, Finset.sum_const_zero, mul_zero] at this
    rw [← this]
    exact Finset.sum_congr rfl fun a _ => by rw [(e2 a).1, (e2 a).2.2.2.2]
  have loop : ∀ m (s t : Fin n → Particle (i + 1)), (∀ a, 0 < (s a).h) → (∀ a, 0 < (s a).rho) → (∀ a, (s a).gacc = 0) →
      (m = 0 → ∑ a, (s a).mass * (s a).dedt = 0) → energyPasses z dt it w m s = some t → ∑ a, (t a).mass * (t a).dedt = 0 := by
    intro m
    induction m with
    | zero => intro s t _ _ _ h0 h; rw [energyPasses, Option.some.injEq] at h; rw [← h]; exact h0 rfl
    | succ m ih =>
      intro s t hh hr hg _ h
      rw [energyPasses, if_pos htk] at h
      obtain ⟨s1, h1, h⟩ := Option.bind_eq_some_iff.mp h
      obtain ⟨q1, q2, q3, q4⟩ := step _ s s1 hh hr hg h1
      exact ih s1 t q1 q2 q3 (fun _ => q4) h
  unfold energy at h
  rw [if_pos hev] at h
  exact loop _ s t hh hr hg (fun h => by omega) h

/-- A pass whose function cannot fail as long as an invariant holds. -/
theorem passM_some {P : Type} (f : P → List P → Option P) (inv : (Fin n → P) → Prop) (nbs : Fin n → List (Fin n))
    (h : ∀ s a, inv s → ∃ x, f (s a) ((nbs a).map s) = some x ∧ inv (Function.update s a x)) (order : List (Fin n)) (s : Fin n → P) (hs : inv s) :
    ∃ t, passM f nbs order s = some t ∧ inv t := by
  induction order generalizing s with
  | nil => exact ⟨s, rfl, hs⟩
  | cons c l ih =>
    obtain ⟨x, hx, hi⟩ := h s c hs
    obtain ⟨t, ht, hi⟩ := ih _ hi
    exact ⟨t, by rw [passM_cons, hx]; exact ht, hi⟩

end FleCSPH.Driver
