import Verif.Lemmas.AlphaFit
import Verif.Props.C79
import Verif.Props.C97
/-!
C98: the hydro driver with an adaptive time step from the positions of the particles, on several processes, with the trees.

In Model/AdaptProgram.lean the division of the particles and the neighbour lists are not given: `update_iteration` makes keys, sorts and exchanges the particles and builds the trees, the passes search them with all
messages, and the step is the smallest over the particles as each process stores them. Proved in exact arithmetic, for at least two particles: every run is one of C97, so that what
is proved there holds for it, either viscosity, with the limits of the step; two runs which set the same clocks end with the same particles; and a run can always be carried out, for either viscosity. The rest is for the constant one.

Missing for the full property: that two runs set the same clocks, which C97 refutes; the adaptive viscosity in the rest, periodic boundaries, rounding, a single particle.
-/
namespace FleCSPH.AdaptProgram
open FleCSPH.Geometry FleCSPH.Sph FleCSPH.Driver FleCSPH.DistRun FleCSPH.AdaptRun FleCSPH.Program FleCSPH.Spec FleCSPH.Newtonian FleCSPH.RunExamples

variable {i : Fin 3} {n m : Nat}

section
variable {z : Config i} (hv : z.sph.visc = .constant) (he : 0 < z.eta) (hw : 0 < z.width) (g : Settings) (hbits : i.val + 1 < g.bits) (hn : 2 ≤ n) (htol : 0 ≤ g.tol)
include hv he hw hbits hn htol

omit hv in
/-- One iteration with trees is one without them. -/
private theorem iter_sim {c : Timestep.Clock} {T : Trees i n m} {d : DState (Particle (i + 1)) n} {r : IterEnd i n m} (h : Iter g z c T d r) (hs : ∀ a, Sized (d.val a)) (hid : Distinct d.val)
    (hdiv : Division n (2 ^ m) T.vec) :
    (∀ c1 c2 T' d', r = .ok c1 c2 T' d' → AIter NearLists (2 ^ m) z c (homeOf T.vec) d (some (c1, c2, homeOf T'.vec, d')) ∧ (∀ a, Sized (d'.val a)) ∧ Division n (2 ^ m) T'.vec ∧ Distinct d'.val) ∧
    (r = .failed → AIter NearLists (2 ^ m) z c (homeOf T.vec) d none) := by
  cases h with
  | first hc h1 hc1 h2 =>
    obtain ⟨s1, s2, s3, s4, s5⟩ := sim hbits hn htol h1 (AlphaFit.fit_adapt1 z _ _) hs hid hdiv (fun h => Bool.noConfusion h)
    obtain ⟨u1, u2, u3, -, u5⟩ := sim hbits hn htol h2 (fit_rest z he hw _ _) s2 (hid.of_ids s5) s3 s4
    refine ⟨fun _ _ _ _ e => ?_, fun e => (by cases e)⟩
    cases e
    rw [limits_eq z.outputs s3] at hc1
    rw [limits_eq z.outputs u3]
    exact ⟨.first hc s1 hc1 u1, u2, u3, (hid.of_ids s5).of_ids u5⟩
  | firstFail hc h1 => exact ⟨fun _ _ _ _ e => (by cases e), fun _ => .firstFail hc (sim hbits hn htol h1 (AlphaFit.fit_adapt1 z _ _) hs hid hdiv (fun h => Bool.noConfusion h))⟩
  | firstClash hc h1 => exact ⟨fun _ _ _ _ e => (by cases e), fun e => (by cases e)⟩
  | restFail hc h1 hc1 h2 =>
    obtain ⟨s1, s2, s3, s4, s5⟩ := sim hbits hn htol h1 (AlphaFit.fit_adapt1 z _ _) hs hid hdiv (fun h => Bool.noConfusion h)
    refine ⟨fun _ _ _ _ e => (by cases e), fun _ => ?_⟩
    rw [limits_eq z.outputs s3] at hc1
    exact .restFail hc s1 hc1 (sim hbits hn htol h2 (fit_rest z he hw _ _) s2 (hid.of_ids s5) s3 s4)
  | next hc h1 =>
    obtain ⟨s1, s2, s3, -, s5⟩ := sim hbits hn htol h1 (AlphaFit.fit_adapt3 z he hw _ _) hs hid hdiv (fun h => Bool.noConfusion h)
    refine ⟨fun _ _ _ _ e => ?_, fun e => (by cases e)⟩
    cases e
    rw [limits_eq z.outputs s3]
    exact ⟨.next hc s1, s2, s3, hid.of_ids s5⟩
  | nextFail hc h1 => exact ⟨fun _ _ _ _ e => (by cases e), fun _ => .nextFail hc (sim hbits hn htol h1 (AlphaFit.fit_adapt3 z he hw _ _) hs hid hdiv (fun h => Bool.noConfusion h))⟩
  | nextClash hc h1 => exact ⟨fun _ _ _ _ e => (by cases e), fun e => (by cases e)⟩

omit hv in
/-- A run which ends, or stops at an assertion, is one of C97 with the same clocks, for the division of the particles it begins with. -/
theorem C98_refines {N : Nat} {c : Timestep.Clock} {T : Trees i n m} {d : DState (Particle (i + 1)) n} {steps : List (Timestep.Clock × Timestep.Clock)} {r : Outcome i n} (h : Run g z N c T d steps r)
    (hpos : ∀ a, 0 < (d.val a).mass ∧ 0 < (d.val a).h) (hid : ∀ a b, (d.val a).id = (d.val b).id → a = b) (hdiv : Division n (2 ^ m) T.vec) :
    (∀ c' s, r = .done c' s → ARun NearLists (2 ^ m) z N c (homeOf T.vec) d steps (some (c', s))) ∧ (r = .failed → ARun NearLists (2 ^ m) z N c (homeOf T.vec) d steps none) := by
  change ∀ a, Sized (d.val a) at hpos
  change Distinct d.val at hid
  induction h with
  | nil => exact ⟨fun c' s h => by cases h; exact .nil, fun h => by cases h⟩
  | fail hx => exact ⟨fun c' s h => (by cases h), fun _ => .fail ((iter_sim he hw g hbits hn htol hx hpos hid hdiv).2 rfl)⟩
  | clash hx => exact ⟨fun c' s h => (by cases h), fun h => (by cases h)⟩
  | cons hx _ ih =>
    obtain ⟨s1, s2, s3, s4⟩ := (iter_sim he hw g hbits hn htol hx hpos hid hdiv).1 _ _ _ _ rfl
    have := ih s3 s2 s4
    exact ⟨fun c' s h => .cons s1 (this.1 c' s h), fun h => .cons s1 (this.2 h)⟩

section
variable (hrep : z.repulsionRadius ≤ 1)
include hrep

/-- Whatever the steps, a run which ends conserves the particles, their masses, the total momentum and the total angular momentum. -/
theorem C98_momentum_partial (hext : ∀ a, z.sph.external a = 0) (hrelax : z.sph.relaxationSteps ≤ z.initialIteration) {N : Nat} {c c' : Timestep.Clock} {T : Trees i n m}
    {d : DState (Particle (i + 1)) n} {steps : List (Timestep.Clock × Timestep.Clock)} {s : Fin n → Particle (i + 1)} (h : Run g z N c T d steps (.done c' s)) (hstart : c.iteration = z.initialIteration)
    (hpos : ∀ a, 0 < (d.val a).mass ∧ 0 < (d.val a).h) (hid : ∀ a b, (d.val a).id = (d.val b).id → a = b) (hdiv : Division n (2 ^ m) T.vec) (hf : d.flight = []) :
    (∀ a, (s a).id = (d.val a).id ∧ (s a).mass = (d.val a).mass) ∧
    (∀ j, ∑ a, (s a).mass * (s a).vel j = ∑ a, (d.val a).mass * (d.val a).vel j) ∧
    ∀ j k, ∑ a, (s a).mass * ((s a).pos j * (s a).vel k - (s a).pos k * (s a).vel j) =
      ∑ a, (d.val a).mass * ((d.val a).pos j * (d.val a).vel k - (d.val a).pos k * (d.val a).vel j) :=
  C97_momentum_partial hv he hw hrep hext hrelax hstart hpos hf ((C98_refines he hw g hbits hn htol h hpos hid hdiv).1 _ _ rfl)

/-- In the thermokinetic formulation a run which ends conserves the total energy, whatever the steps. -/
theorem C98_energy_partial (hext : ∀ a, z.sph.external { a with vsig := 0, dt := 0 } = z.sph.external a) (htk : z.thermokinetic = true) (hev : z.evolve = true) (hup : 1 ≤ z.updates)
    (hrelax : z.sph.relaxationSteps ≤ z.initialIteration) {N : Nat} (hN : 0 < N) {c c' : Timestep.Clock} {T : Trees i n m} {d : DState (Particle (i + 1)) n}
    {steps : List (Timestep.Clock × Timestep.Clock)} {s : Fin n → Particle (i + 1)} (h : Run g z N c T d steps (.done c' s)) (hstart : c.iteration = z.initialIteration)
    (hpos : ∀ a, 0 < (d.val a).mass ∧ 0 < (d.val a).h) (hid : ∀ a b, (d.val a).id = (d.val b).id → a = b) (hdiv : Division n (2 ^ m) T.vec) (hf : d.flight = []) :
    ∑ a, (s a).mass * (s a).e = ∑ a, (d.val a).mass * (1 / 2 * ∑ j, (d.val a).vel j * (d.val a).vel j + (Eos.init z.eos z.eosParams (d.val a)).u + z.phi (d.val a).pos) :=
  C97_energy_partial hv he hw hrep hext htk hev hup hrelax hN hstart hpos hf ((C98_refines he hw g hbits hn htol h hpos hid hdiv).1 _ _ rfl)

section
variable (hext : ∀ a, z.sph.external { a with vsig := 0, dt := 0 } = z.sph.external a)
include hext

omit hv hrep hext in
/-- Without timed outputs every step is positive, they add up to the time of the run, and the last one is within the limits of every particle of every process. -/
theorem C98_limits_partial (hcfl : 0 < z.cfl) (hal : 0 ≤ z.sph.alpha) (ho : ∀ k, z.outputs.interval k ≤ 0) {N : Nat} (hN : 0 < N) {c c' : Timestep.Clock} {T : Trees i n m}
    {d : DState (Particle (i + 1)) n} {steps : List (Timestep.Clock × Timestep.Clock)} {s : Fin n → Particle (i + 1)} (h : Run g z N c T d steps (.done c' s))
    (hpos : ∀ a, 0 < (d.val a).mass ∧ 0 < (d.val a).h) (hid : ∀ a b, (d.val a).id = (d.val b).id → a = b) (hdiv : Division n (2 ^ m) T.vec) (hsig : ∀ a, 0 ≤ (d.val a).vsig) (hc : 0 < c.dt) :
    0 < c'.dt ∧ steps.length = N ∧ (∀ s ∈ steps, 0 < s.2.dt) ∧ c'.totaltime = c.totaltime + (steps.map fun s => s.2.dt).sum ∧ ∀ a,
      c'.dt * √(∑ j, (s a).vel j ^ 2) ≤ z.cfl * ((s a).h / (z.eta * z.width)) ∧
      c'.dt ^ 2 * √(∑ j, ((s a).acc j + (s a).gacc j) ^ 2) ≤ z.cfl ^ 2 * ((s a).h / (z.eta * z.width)) ∧
      c'.dt * ((s a).vsig * (1 + 6 / 10 * z.sph.alpha)) ≤ z.cfl * ((s a).h / (z.eta * z.width)) :=
  C97_limits_partial he hw hcfl hal ho hN (home_mem hdiv) hpos hsig hc ((C98_refines he hw g hbits hn htol h hpos hid hdiv).1 _ _ rfl)

/-- No run of a polytropic gas with a kernel which is not negative, the internal energy not evolved, stops on an assertion: it ends, or two particles come into one cell of the keys. Where it ends masses,
smoothing lengths and densities are positive and pressures not negative. -/
theorem C98_polytropic_partial (hκ : NonNegKernel z.sph.kernel) (hp : z.eos = .polytropic) (hev : z.evolve = false) {N : Nat} (hN : 0 < N) {c : Timestep.Clock} {T : Trees i n m}
    {d : DState (Particle (i + 1)) n} {steps : List (Timestep.Clock × Timestep.Clock)} {r : Outcome i n} (h : Run g z N c T d steps r) (hstart : c.iteration = z.initialIteration)
    (hpos : ∀ a, 0 < (d.val a).mass ∧ 0 < (d.val a).h ∧ 0 ≤ (d.val a).P ∧ 0 ≤ (d.val a).rho) (hid : ∀ a b, (d.val a).id = (d.val b).id → a = b) (hdiv : Division n (2 ^ m) T.vec) (hf : d.flight = []) :
    r ≠ .failed ∧ ∀ c' s, r = .done c' s → c'.iteration = c.iteration + N ∧ ∀ a, 0 < (s a).mass ∧ 0 < (s a).h ∧ 0 < (s a).rho ∧ 0 ≤ (s a).P := by
  have hr := C98_refines he hw g hbits hn htol h (fun a => ⟨(hpos a).1, (hpos a).2.1⟩) hid hdiv
  constructor
  · intro e
    obtain ⟨_, _, e, -⟩ := C97_polytropic_partial hv he hw hrep hκ hp hev hext hN hstart hpos hf (hr.2 e)
    cases e
  · intro c' s e
    obtain ⟨_, _, e, h1, h2⟩ := C97_polytropic_partial hv he hw hrep hκ hp hev hext hN hstart hpos hf (hr.1 c' s e)
    cases e
    exact ⟨h1, h2⟩

/-- Two runs from the same particles on `2^m` and on `2^m'` processes, with any first divisions, sorts, messages and orders of visits, which end and have set the same clocks, end with the same data of all
particles but signal speeds and particle time steps. -/
theorem C98_replay_partial {m' N : Nat} {c c1 c2 : Timestep.Clock} {T : Trees i n m} {T' : Trees i n m'} {d d' : DState (Particle (i + 1)) n} {steps : List (Timestep.Clock × Timestep.Clock)}
    {s s' : Fin n → Particle (i + 1)} (h : Run g z N c T d steps (.done c1 s)) (h' : Run g z N c T' d' steps (.done c2 s')) (hsame : d.val = d'.val)
    (hpos : ∀ a, 0 < (d.val a).mass ∧ 0 < (d.val a).h) (hid : ∀ a b, (d.val a).id = (d.val b).id → a = b) (hdiv : Division n (2 ^ m) T.vec) (hdiv' : Division n (2 ^ m') T'.vec)
    (hf : d.flight = []) (hf' : d'.flight = []) : c1 = c2 ∧ ∀ a, ({ s a with vsig := 0, dt := 0 } : Particle (i + 1)) = { s' a with vsig := 0, dt := 0 } :=
  C97_replay hv he hw hrep hext hsame hpos hf hf' ((C98_refines he hw g hbits hn htol h hpos hid hdiv).1 _ _ rfl)
    ((C98_refines he hw g hbits hn htol h' (fun a => by rw [← hsame]; exact hpos a) (fun a b e => hid a b (by rw [hsame]; exact e)) hdiv').1 _ _ rfl)

end
end

omit hv in
/-- A run can be carried out, for any division of the particles at the beginning. -/
theorem C98_exists {N : Nat} {c : Timestep.Clock} {T : Trees i n m} (hdiv : Division n (2 ^ m) T.vec) (s : Fin n → Particle (i + 1)) (hpos : ∀ a, 0 < (s a).mass ∧ 0 < (s a).h)
    (hid : ∀ a b, (s a).id = (s b).id → a = b) : ∃ steps r, Run g z N c T ⟨s, fun _ b => some (s b), []⟩ steps r := by
  have key : ∀ N c (T : Trees i n m) (d : DState (Particle (i + 1)) n), Division n (2 ^ m) T.vec → (∀ a, Sized (d.val a)) → Distinct d.val → Full d → d.flight = [] → ∃ steps r, Run g z N c T d steps r := by
    intro N
    induction N with
    | zero => intro c T d _ _ _ _ _; exact ⟨_, _, .nil⟩
    | succ N ih =>
      intro c T d hdiv hp hi hF hf
      by_cases hc : c.iteration = z.initialIteration
      · obtain ⟨r, h1, h2⟩ := pexec_exists hbits hn htol (T := T) (AlphaFit.fit_adapt1 z c.dt c.iteration) hp hi hdiv (fun h => Bool.noConfusion h) hF hf
        cases r with
        | failed => exact ⟨_, _, .fail (.firstFail hc h1)⟩
        | clash => exact ⟨_, _, .clash (.firstClash hc h1)⟩
        | ended T1 d1 =>
          obtain ⟨-, s2, s3, s4, s5⟩ := sim hbits hn htol h1 (AlphaFit.fit_adapt1 z c.dt c.iteration) hp hi hdiv (fun h => Bool.noConfusion h)
          obtain ⟨c1, hc1⟩ : ∃ c1, c1 = Timestep.setAdaptive z.outputs (limits T1 d1.val) c := ⟨_, rfl⟩
          obtain ⟨r, g1, g2⟩ := pexec_exists hbits hn htol (T := T1) (fit_rest z he hw c1.dt c1.iteration) s2 (hi.of_ids s5) s3 s4 (h2 _ _ rfl).1 (h2 _ _ rfl).2
          have hsim := sim hbits hn htol g1 (fit_rest z he hw c1.dt c1.iteration) s2 (hi.of_ids s5) s3 s4
          cases r with
          | failed => exact ⟨_, _, .fail (.restFail hc h1 hc1 g1)⟩
          | clash =>
            obtain ⟨pre, post, _, _, e, -⟩ := hsim
            exact absurd (by rw [e]; simp) (no_update_rest z c1.dt c1.iteration)
          | ended T2 d2 =>
            obtain ⟨-, u2, u3, -, u5⟩ := hsim
            obtain ⟨steps, r, hr⟩ := ih (Timestep.advance true (Timestep.setAdaptive z.outputs (limits T2 d2.val) c1)) T2 d2 u3 u2 ((hi.of_ids s5).of_ids u5) (g2 _ _ rfl).1 (g2 _ _ rfl).2
            exact ⟨_, _, .cons (.first hc h1 hc1 g1) hr⟩
      · obtain ⟨r, h1, h2⟩ := pexec_exists hbits hn htol (T := T) (AlphaFit.fit_adapt3 z he hw _ _) hp hi hdiv (fun h => Bool.noConfusion h) hF hf
        cases r with
        | failed => exact ⟨_, _, .fail (.nextFail hc h1)⟩
        | clash => exact ⟨_, _, .clash (.nextClash hc h1)⟩
        | ended T1 d1 =>
          obtain ⟨-, s2, s3, -, s5⟩ := sim hbits hn htol h1 (AlphaFit.fit_adapt3 z he hw _ _) hp hi hdiv (fun h => Bool.noConfusion h)
          obtain ⟨steps, r, hr⟩ := ih (Timestep.advance true (Timestep.setAdaptive z.outputs (limits T1 d1.val) c)) T1 d1 s3 s2 (hi.of_ids s5) (h2 _ _ rfl).1 (h2 _ _ rfl).2
          exact ⟨_, _, .cons (.next hc h1) hr⟩
  exact key N c T _ hdiv hpos hid (fun _ _ => rfl) rfl

end

/-! ### Non-vacuity: the two gas particles, one on each of two processes -/

/-- The first iteration of the polytropic gas with an adaptive step on two processes is done, and the momentum is kept. -/
theorem two_done (dt : ℝ) : ∃ steps c s, Run set2 (gas false .polytropic) 1 (start dt).clock two2 ⟨two, fun _ b => some (two b), []⟩ steps (.done c s) ∧ ∑ a, (s a).mass * (s a).vel 1 = 2 / 3 ∧ ∀ a, 0 < (s a).rho := by
  have hp : ∀ a, 0 < (two a).mass ∧ 0 < (two a).h := fun a => by simp [two]
  have hid : ∀ a b : Fin 2, (two a).id = (two b).id → a = b := fun a b h => Fin.ext h
  have he : 0 < (gas false .polytropic).eta := by norm_num [gas]
  have hw : 0 < (gas false .polytropic).width := by norm_num [gas]
  have hr : (gas false .polytropic).repulsionRadius ≤ 1 := by norm_num [gas]
  have hb : (1 : Fin 3).val + 1 < set2.bits := (by decide : (1 : Fin 3).val + 1 < 64)
  obtain ⟨steps, r, h⟩ := C98_exists (z := gas false .polytropic) he hw set2 hb (by decide) le_rfl (N := 1) (c := (start dt).clock) two_div two hp hid
  have hpoly := C98_polytropic_partial (z := gas false .polytropic) rfl he hw set2 hb (by decide) le_rfl hr (fun _ => rfl) (Or.inl Kernels.Poly.wendlandC4) rfl rfl Nat.one_pos h rfl
    (fun a => by simp [two]) hid two_div rfl
  have ops : ∃ ops, firstForces (gas false .polytropic) (start dt).clock.dt (start dt).clock.iteration ++ [stepOp (gas false .polytropic)] = .update :: ops ∧ Op.update ∉ ops := by
    refine ⟨_, by unfold firstForces; rfl, ?_⟩
    simp [gas, start, alphaOps, densityOp, forceOps, stepOp]
  obtain ⟨ops, ho, hno⟩ := ops
  have hnc : ∀ k, r ≠ .clash k := by
    rintro k rfl
    cases h with
    | clash h =>
      cases h with
      | firstClash hc h => rw [ho] at h; exact no_clash (.inr (by rw [← ho]; exact fit_first _ rfl _ _)) hno h
      | nextClash hc => exact hc rfl
    | cons _ h => cases h
  cases r with
  | clash k => exact absurd rfl (hnc k)
  | failed => exact absurd rfl hpoly.1
  | done c s =>
    refine ⟨steps, c, s, h, ?_, fun a => ((hpoly.2 c s rfl).2 a).2.2.1⟩
    rw [(C98_momentum_partial (z := gas false .polytropic) rfl he hw set2 hb (by decide) le_rfl hr (fun _ => rfl) le_rfl h rfl hp hid two_div rfl).2.1 1]
    simp [two]; norm_num

/-- The step of that run is positive and is the time it took. -/
example (dt : ℝ) (hdt : 0 < dt) : ∃ steps c s, Run set2 (gas false .polytropic) 1 (start dt).clock two2 ⟨two, fun _ b => some (two b), []⟩ steps (.done c s) ∧ 0 < c.dt ∧
    c.totaltime = (steps.map fun s => s.2.dt).sum := by
  obtain ⟨steps, c, s, h, -⟩ := two_done dt
  obtain ⟨h1, -, -, h2, -⟩ := C98_limits_partial (z := gas false .polytropic) (by norm_num [gas]) (by norm_num [gas]) set2 (by decide : (1 : Fin 3).val + 1 < 64) (by decide) le_rfl
    (by norm_num [gas]) le_rfl (fun _ => le_rfl) Nat.one_pos h (fun a => by simp [two]) (fun a b h => Fin.ext h) two_div (fun _ => le_rfl) hdt
  exact ⟨steps, c, s, h, h1, h2.trans (zero_add _)⟩

/-- The first iteration with evolved energy does not fail. -/
private theorem heat_fail {procs : Nat} {home : Fin 2 → Nat} (dt : ℝ) (d : DState (Particle (((1 : Fin 3) : ℕ) + 1)) 2) (hd : d.val = two) (hfl : d.flight = []) :
    ¬AIter NearLists procs (gas true .noEos) (start dt).clock home d none := by
  obtain ⟨z, hz⟩ : ∃ z, z = gas true .noEos := ⟨_, rfl⟩
  have hstep : ∀ a : Particle 2, a.u = 1 → a.gacc = 0 → Timestep.computeDt (stepSettings z) a ≠ none := by
    intro a h1 h2
    unfold Timestep.computeDt
    rw [if_pos (by rw [hz]; rfl), if_pos (by rw [h1]; exact one_pos)]
    have : Timestep.deltaE (stepSettings z) a (Timestep.baseDt (stepSettings z) a) < a.u * (1 / 2) := by
      unfold Timestep.deltaE
      rw [h1, h2, hz]
      simp [stepSettings, gas, dot]
    rw [Timestep.shrink, if_pos this]
    exact Option.some_ne_none _
  have hfail : ∀ {y : (Fin 2 → Nat) × DState (Particle (((1 : Fin 3) : ℕ) + 1)) 2} {s : Fin 2 → Particle 2}, DExec NearLists procs [stepOp z] y.1 y.2 none → (∀ a, Free.er (d := 2) (y.2.val a) = Free.er (d := 2) (s a)) →
      (∀ a, (s a).u = 1 ∧ (s a).gacc = 0) → False := by
    intro y s h e hs
    cases h with
    | all v hv h => cases h
    | allFail a ha =>
      have h1 := congrArg Particle.u (e a)
      have h2 := congrArg Particle.gacc (e a)
      exact hstep (y.2.val a) (h1.trans (hs a).1) (h2.trans (hs a).2) ha
  have hs : ∀ a, Sized (i := 1) (d.val a) := fun a => by rw [hd]; exact ⟨one_pos, one_pos⟩
  have hext : ∀ a, z.sph.external { a with vsig := 0, dt := 0 } = z.sph.external a := fun _ => by rw [hz]; rfl
  have hv : z.sph.visc = .constant := by rw [hz]; rfl
  have he : 0 < z.eta := by rw [hz]; norm_num [gas]
  have hw : 0 < z.width := by rw [hz]; norm_num [gas]
  have hrep : z.repulsionRadius ≤ 1 := by rw [hz]; norm_num [gas]
  obtain ⟨t1, h2, hw1⟩ := heating_thermo dt
  have k2 := forces_keep (gas true .noEos) 0 (everybody 1 2) t1
  obtain ⟨f, hf⟩ : ∃ f, f = forces (gas true .noEos) 0 (everybody 1 2) t1 := ⟨_, rfl⟩
  have hg : ∀ a, (f a).gacc = 0 := by
    intro a
    have : f = pass (computeAcceleration (gas true .noEos).sph) ((everybody 1 2).search t1) ((everybody 1 2).order 2) t1 := by
      rw [hf]; unfold forces sphPass
      simp only [if_neg (show ¬ (0 : Int) < (gas true .noEos).sph.relaxationSteps from lt_irrefl 0)]
    rw [this, pass_eq (computeAcceleration (gas true .noEos).sph) (fun b : Particle 2 => ({ b with acc := 0, gacc := 0, gpot := 0 } : Particle 2)) (computeAcceleration (gas true .noEos).sph)
      (fun a l => by simp only [computeAcceleration, accumulate_eq, List.map_map]; rfl) (fun a l => rfl) _ _ (everybody_order 2) t1]
    rfl
  have hw2 : ∀ a x, Warm ({ f a with dt := x } : Particle 2) ∧ 0 < (f a).rho ∧ (f a).u = 1 := fun a x => by
    obtain ⟨x, y, g, h⟩ := k2 a
    rw [hf, h]; exact ⟨(hw1 a).1, (hw1 a).2.2, (hw1 a).2.1⟩
  have hD : Free.Disc 2 (firstForces z (start dt).clock.dt (start dt).clock.iteration) (fun _ => False) Sized DistRun.Dense := by
    have := Free.disc_forces (n := 2) (J := DistRun.Dense) (ops := []) z hv (start dt).clock.dt (start dt).clock.iteration (fun _ => hrep) hext (fun a h => h) (V := fun _ => False)
    rwa [List.append_nil] at this
  have hrun : exec1 (everybody 1 2) (firstForces z (start dt).clock.dt (start dt).clock.iteration) d.val = some f := by
    rw [exec1_forces, hz, hd]
    show (thermo (gas true .noEos) dt true (everybody 1 2) (initialise (gas true .noEos) two)).map _ = _
    rw [h2, hf]; rfl
  intro h
  rw [← hz] at h
  cases h with
  | firstFail hc h =>
    rcases exec_split_fail h with h | ⟨y, g1, g2⟩
    · have := agree_fail (everybody 1 2) (fun s _ => everybody_near (i := 1) s) everybody_order hD h (fun v h => h.elim) hs d.val hs (fun _ => rfl)
      rw [hrun] at this; cases this
    · obtain ⟨s', e1, e2⟩ := AdaptRun.agree (everybody 1 2) (fun s _ => everybody_near (i := 1) s) everybody_order hD g1 (fun v h => h.elim) hs d.val hs (fun _ => rfl)
      obtain rfl := Option.some.inj (hrun.symm.trans e1)
      exact hfail g2 e2 fun a => ⟨(hw2 a 0).2.2, hg a⟩
  | @restFail home1 d1 c1 hc h1 hc1 h =>
    obtain ⟨s1, s2, t, u, ed, dn1, dn2, -⟩ := first_half hv hrep hext hs hfl h1
    have e1 : s1 = t1 := by
      rw [hz, hd] at t
      exact Option.some.inj (t.symm.trans h2)
    have u : ∀ a, ∃ x, s2 a = { f a with dt := x } := by
      rw [e1, hz] at u
      rw [hf]; exact u
    have hit : c1.iteration = 0 := by rw [hc1, AdaptRun.setAdaptive_iteration]; rfl
    obtain ⟨t4, h5, hw4⟩ := heating_energy c1.dt s2 (fun a => by obtain ⟨x, h⟩ := u a; rw [h]; exact ⟨(hw2 a _).1, (hw2 a 0).2.1⟩)
    have hdyn := energy_keep (gas true .noEos) c1.dt 0 (everybody 1 2) s2 t4 h5
    have h7 : checkNegativity (gas true .noEos) (updateH (gas true .noEos) t4) = some t4 := by
      unfold checkNegativity
      rw [if_pos]
      · rfl
      · intro a
        exact ⟨(hw4 a).2.1.le, (hw4 a).1.2.2.2.1, fun _ => (hw4 a).1.2.2.2.2⟩
    have hrun2 : exec1 (everybody 1 2) (firstRest z c1.dt c1.iteration) s2 = some t4 := by
      rw [exec1_rest, hit, hz]
      erw [h5]
      rw [Option.bind_some, h7]
    have hcons := forces_consistent z _ _ h1
    have hR := Free.disc_rest (n := 2) z he hw c1.dt c1.iteration
    rcases exec_split_fail h with h | ⟨y, g1, g2⟩
    · have := agree_fail (everybody 1 2) (fun s _ => everybody_near (i := 1) s) everybody_order hR h (fun v h => by rw [h]; exact hcons) dn1 s2 dn2 ed
      rw [hrun2] at this; cases this
    · obtain ⟨s', e1, e2⟩ := AdaptRun.agree (everybody 1 2) (fun s _ => everybody_near (i := 1) s) everybody_order hR g1 (fun v h => by rw [h]; exact hcons) dn1 s2 dn2 ed
      obtain rfl := Option.some.inj (hrun2.symm.trans e1)
      refine hfail g2 e2 fun a => ⟨(hw4 a).2.2, ?_⟩
      have h := congrArg (fun x => x.1) (hdyn a)
      simp only [dynamics] at h
      have e : (t4 a).gacc = (s2 a).gacc := by simp only [Prod.mk.injEq] at h; tauto
      obtain ⟨x, hx⟩ := u a
      rw [e, hx]; exact hg a
  | nextFail hc => exact hc (by rw [hz]; rfl)

/-- Non-vacuity of `C98_energy_partial`: the first iteration with evolved energy on two processes is done, and the energy is that of the beginning. -/
example (dt : ℝ) : ∃ steps c s, Run set2 (gas true .noEos) 1 (start dt).clock two2 ⟨two, fun _ b => some (two b), []⟩ steps (.done c s) ∧ ∑ a, (s a).mass * (s a).e = 2 + 1 / 4 + 1 / 9 := by
  have hp : ∀ a, 0 < (two a).mass ∧ 0 < (two a).h := fun a => by simp [two]
  have hid : ∀ a b : Fin 2, (two a).id = (two b).id → a = b := fun a b h => Fin.ext h
  have he : 0 < (gas true .noEos).eta := by norm_num [gas]
  have hw : 0 < (gas true .noEos).width := by norm_num [gas]
  have hr : (gas true .noEos).repulsionRadius ≤ 1 := by norm_num [gas]
  have hb : (1 : Fin 3).val + 1 < set2.bits := (by decide : (1 : Fin 3).val + 1 < 64)
  obtain ⟨steps, r, h⟩ := C98_exists (z := gas true .noEos) he hw set2 hb (by decide) le_rfl (N := 1) (c := (start dt).clock) two_div two hp hid
  have ops : ∃ ops, firstForces (gas true .noEos) (start dt).clock.dt (start dt).clock.iteration ++ [stepOp (gas true .noEos)] = .update :: ops ∧ Op.update ∉ ops := by
    refine ⟨_, by unfold firstForces; rfl, ?_⟩
    simp [gas, start, alphaOps, densityOp, forceOps, stepOp]
  obtain ⟨ops, ho, hno⟩ := ops
  have hnc : ∀ k, r ≠ .clash k := by
    rintro k rfl
    cases h with
    | clash h =>
      cases h with
      | firstClash hc h => rw [ho] at h; exact no_clash (.inr (by rw [← ho]; exact fit_first _ rfl _ _)) hno h
      | nextClash hc => exact hc rfl
    | cons _ h => cases h
  cases r with
  | clash k => exact absurd rfl (hnc k)
  | failed =>
    have hA := (C98_refines (z := gas true .noEos) he hw set2 hb (by decide) le_rfl h hp hid two_div).2 rfl
    cases hA with
    | fail hA => exact absurd hA (heat_fail dt _ rfl rfl)
    | cons _ hA => cases hA
  | done c s =>
    refine ⟨steps, c, s, h, (C98_energy_partial (z := gas true .noEos) rfl he hw set2 hb (by decide) le_rfl hr (fun _ => rfl) rfl rfl le_rfl le_rfl Nat.one_pos h rfl hp hid two_div rfl).trans ?_⟩
    simp [Fin.sum_univ_two, two, gas, Eos.init]; norm_num

/-- Non-vacuity of `C98_replay_partial`: the run of two processes against itself. -/
example (dt : ℝ) : ∃ steps c s c' s', Run set2 (gas false .polytropic) 1 (start dt).clock two2 ⟨two, fun _ b => some (two b), []⟩ steps (.done c s) ∧
    Run set2 (gas false .polytropic) 1 (start dt).clock two2 ⟨two, fun _ b => some (two b), []⟩ steps (.done c' s') ∧ c = c' := by
  obtain ⟨steps, c, s, h, -⟩ := two_done dt
  exact ⟨steps, c, s, c, s, h, h, (C98_replay_partial (z := gas false .polytropic) rfl (by norm_num [gas]) (by norm_num [gas]) set2 (by decide : (1 : Fin 3).val + 1 < 64) (by decide) le_rfl (by norm_num [gas])
    (fun _ => rfl) h h rfl (fun a => by simp [two]) (fun a b h => Fin.ext h) two_div two_div rfl rfl).1⟩

end FleCSPH.AdaptProgram
