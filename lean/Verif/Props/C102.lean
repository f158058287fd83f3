import Verif.Model.NewtonProgram
import Verif.Lemmas.AdaptProgram
import Verif.Props.C79
import Verif.Props.C101
/-!
C102: the newtonian driver with self-gravity and an adaptive time step from the positions of the particles, on several processes, with the trees.

In Model/NewtonProgram.lean the division of the particles, the neighbour lists and gravity are not given: `update_iteration` makes keys, sorts and exchanges the particles and builds the trees, the passes search
them and gravity traverses them, with all messages, and the step is the smallest over the particles as each process stores them. Proved in exact arithmetic, for at least two particles:
every run is one of C101, so that what is proved there holds for it; two runs which set the same clocks end with the same particles; and a run can always be carried out.

That runs are those of C101, that they exist, and Newton's law, momenta, energies and limits hold for either viscosity, the rest for the constant one.

Missing for the full property: that two runs set the same clocks, which C97 refutes; the adaptive viscosity in the rest, periodic boundaries, rounding, a single particle.
-/
namespace FleCSPH.NewtonProgram
open FleCSPH.Geometry FleCSPH.Sph FleCSPH.Driver FleCSPH.DistRun FleCSPH.AdaptRun FleCSPH.Program FleCSPH.AdaptProgram FleCSPH.AdaptNewton FleCSPH.Spec FleCSPH.Newtonian FleCSPH.RunExamples FleCSPH.Kernels

variable {i : Fin 3} {n m : Nat}

private theorem no_update_mid (z : Config i) (it : Int) : Op.update ∉ midOps z it ++ [stepOp z] := by
  unfold midOps relaxOps stepOp
  split_ifs <;> simp

private theorem no_update_end (z : Config i) (c : Timestep.Clock) : Op.update ∉ tailOps z c ++ [stepOp z] := by
  rw [List.mem_append, not_or]
  exact ⟨no_update z c, by simp [stepOp]⟩

section
variable {z : Config i} (he : 0 < z.eta) (hw : 0 < z.width) (g : Settings) (hbits : i.val + 1 < g.bits) (hn : 2 ≤ n) (htol : 0 ≤ g.tol)
include hbits hn htol

/-- The calls before gravity, and gravity. -/
private theorem pulled {c : Timestep.Clock} {T T1 T2 : Trees i n m} {d d1 : DState (Particle (i + 1)) n} {v : Fin n → Particle (i + 1)} (hx : PExec g (headOps z c) T d (.ended T1 d1)) (hp : Pulled g T1 T2 d1.val v)
    (hs : ∀ a, Sized (d.val a)) (hid : Distinct d.val) (hd : Division n (2 ^ m) T.vec) :
    DExec NearLists (2 ^ m) (headOps z c) (homeOf T.vec) d (some (homeOf T1.vec, d1)) ∧ Apart g d1.val ∧ Gravitated g.toGravity m d1.val v ∧ homeOf T2.vec = homeOf T1.vec ∧ (∀ a, DistRun.Dense (v a)) ∧
      Distinct v ∧ Good g T2 v := by
  obtain ⟨s1, s2, s3, s4, s5⟩ := sim hbits hn htol hx (fit_head z c) hs hid hd (fun h => Bool.noConfusion h)
  have i1 := hid.of_ids s5
  obtain ⟨g0, g1⟩ := good_pulled hbits (fun a => ⟨(s2 a).1, (s2 a).2.1⟩) i1 (s4 rfl) hp
  obtain ⟨pot, acc, -, hG⟩ := gravitated_spec g.toGravity hbits hn (fun a => bodyOf (d1.val a)) (fun a => (s2 a).1) (fun a => (s2 a).2.1) (s4 rfl).apart
  have k2 := (hG d1.val (fun _ => rfl) i1 m).2 v g0
  have b1 : ∀ a, bodyOf (v a) = bodyOf (d1.val a) ∧ (v a).id = (d1.val a).id := fun a => by rw [k2 a]; exact ⟨rfl, rfl⟩
  have ev : T2.vec = T1.vec := by obtain ⟨_, _, -, -, -, -, e, -⟩ := hp; exact e
  exact ⟨s1, (s4 rfl).apart, g0, by rw [ev], dense_grav s2 fun a => ⟨_, _, k2 a⟩, i1.of_ids fun a => (b1 a).2, g1.congr b1⟩

include he hw

/-- One iteration with trees is one without them. -/
private theorem iter_sim {c : Timestep.Clock} {T : Trees i n m} {d : DState (Particle (i + 1)) n} {r : IterEnd i n m} (h : Iter g z c T d r) (hs : ∀ a, Sized (d.val a)) (hid : Distinct d.val)
    (hdiv : Division n (2 ^ m) T.vec) :
    (∀ c1 c2 T' d', r = .ok c1 c2 T' d' → AdaptNewton.Iter NearLists g.toGravity m z c (homeOf T.vec) d (.done c1 c2 (homeOf T'.vec) d') ∧ (∀ a, Sized (d'.val a)) ∧ Division n (2 ^ m) T'.vec ∧ Distinct d'.val) ∧
    (r = .failed → AdaptNewton.Iter NearLists g.toGravity m z c (homeOf T.vec) d .failed) := by
  cases h with
  | failHead h1 => exact ⟨fun _ _ _ _ e => (by cases e), fun _ => .failHead (sim hbits hn htol h1 (fit_head z c) hs hid hdiv (fun h => Bool.noConfusion h))⟩
  | clash h1 => exact ⟨fun _ _ _ _ e => (by cases e), fun e => (by cases e)⟩
  | first hc hx hp h1 hc1 h2 =>
    obtain ⟨s1, s2, s3, s4, s5, s6, s7⟩ := pulled g hbits hn htol hx hp hs hid hdiv
    obtain ⟨t1, t2, t3, t4, t5⟩ := sim hbits hn htol h1 (fit_mid z _) s5 s6 s7.division fun _ => s7
    obtain ⟨u1, u2, u3, -, u5⟩ := sim hbits hn htol h2 (fit_rest z he hw _ _) t2 (s6.of_ids t5) t3 t4
    refine ⟨fun _ _ _ _ e => ?_, fun e => (by cases e)⟩
    cases e
    rw [limits_eq z.outputs t3] at hc1
    rw [limits_eq z.outputs u3]
    rw [s4] at t1
    exact ⟨.first hc s1 s2 s3 t1 hc1 u1, u2, u3, (s6.of_ids t5).of_ids u5⟩
  | failMid hc hx hp h1 =>
    obtain ⟨s1, s2, s3, s4, s5, s6, s7⟩ := pulled g hbits hn htol hx hp hs hid hdiv
    have t1 := sim hbits hn htol h1 (fit_mid z _) s5 s6 s7.division fun _ => s7
    unfold Simulates at t1
    rw [s4] at t1
    exact ⟨fun _ _ _ _ e => (by cases e), fun _ => .failMid hc s1 s2 s3 t1⟩
  | failRest hc hx hp h1 hc1 h2 =>
    obtain ⟨s1, s2, s3, s4, s5, s6, s7⟩ := pulled g hbits hn htol hx hp hs hid hdiv
    obtain ⟨t1, t2, t3, t4, t5⟩ := sim hbits hn htol h1 (fit_mid z _) s5 s6 s7.division fun _ => s7
    have u1 := sim hbits hn htol h2 (fit_rest z he hw _ _) t2 (s6.of_ids t5) t3 t4
    rw [limits_eq z.outputs t3] at hc1
    rw [s4] at t1
    exact ⟨fun _ _ _ _ e => (by cases e), fun _ => .failRest hc s1 s2 s3 t1 hc1 u1⟩
  | next hc hx hp h1 =>
    obtain ⟨s1, s2, s3, s4, s5, s6, s7⟩ := pulled g hbits hn htol hx hp hs hid hdiv
    obtain ⟨t1, t2, t3, -, t5⟩ := sim hbits hn htol h1 (fit_end z he hw _) s5 s6 s7.division fun _ => s7
    refine ⟨fun _ _ _ _ e => ?_, fun e => (by cases e)⟩
    cases e
    rw [limits_eq z.outputs t3]
    rw [s4] at t1
    exact ⟨.next hc s1 s2 s3 t1, t2, t3, s6.of_ids t5⟩
  | failNext hc hx hp h1 =>
    obtain ⟨s1, s2, s3, s4, s5, s6, s7⟩ := pulled g hbits hn htol hx hp hs hid hdiv
    have t1 := sim hbits hn htol h1 (fit_end z he hw _) s5 s6 s7.division fun _ => s7
    unfold Simulates at t1
    rw [s4] at t1
    exact ⟨fun _ _ _ _ e => (by cases e), fun _ => .failNext hc s1 s2 s3 t1⟩

/-- A run which ends, or stops at an assertion, is one of C101 with the same clocks, for the division of the particles it begins with. -/
theorem C102_refines {N : Nat} {c : Timestep.Clock} {T : Trees i n m} {d : DState (Particle (i + 1)) n} {steps : List (Timestep.Clock × Timestep.Clock)} {r : Outcome i n} (h : Run g z N c T d steps r)
    (hpos : ∀ a, 0 < (d.val a).mass ∧ 0 < (d.val a).h) (hid : ∀ a b, (d.val a).id = (d.val b).id → a = b) (hdiv : Division n (2 ^ m) T.vec) (hr : ∀ k, r ≠ .clash k) :
    AdaptNewton.Run NearLists g.toGravity m z N c (homeOf T.vec) d steps r := by
  change ∀ a, Sized (d.val a) at hpos
  change Distinct d.val at hid
  induction h with
  | nil => exact .nil
  | fail hx => exact .failed ((iter_sim he hw g hbits hn htol hx hpos hid hdiv).2 rfl)
  | clash hx => exact absurd rfl (hr _)
  | cons hx _ ih =>
    obtain ⟨s1, s2, s3, s4⟩ := (iter_sim he hw g hbits hn htol hx hpos hid hdiv).1 _ _ _ _ rfl
    exact .cons s1 (ih s3 hr s2 s4)

/-- Every iteration of a run past the relaxation phase and without external forces is a step of the leapfrog scheme with Newton's attraction, whose time step is the one set at the end of the iteration before;
masses are kept, and momentum and angular momentum change by no more than the error of the multipole method allows, and not at all for `fmm_macangle` zero. -/
theorem C102_newton_partial (hext : ∀ a, z.sph.external a = 0) (hrelax : z.sph.relaxationSteps ≤ z.initialIteration) {N : Nat} {c c' : Timestep.Clock} {T : Trees i n m}
    {d : DState (Particle (i + 1)) n} {steps : List (Timestep.Clock × Timestep.Clock)} {s : Fin n → Particle (i + 1)} (h : Run g z N c T d steps (.done c' s)) (hstart : c.iteration = z.initialIteration)
    (hpos : ∀ a, 0 < (d.val a).mass ∧ 0 < (d.val a).h) (hid : ∀ a b, (d.val a).id = (d.val b).id → a = b) (hdiv : Division n (2 ^ m) T.vec) :
    (∀ a, (s a).id = (d.val a).id ∧ (s a).mass = (d.val a).mass) ∧
    (g.angle ≤ 0 → (∀ j, linearMomentum s j = linearMomentum d.val j) ∧ ∀ j k, planeMomentum s j k = planeMomentum d.val j k) ∧
    ∃ (S : Nat → Fin n → Particle (i + 1)) (C : Nat → Timestep.Clock), S 0 = d.val ∧ S N = s ∧ C 0 = c ∧ C N = c' ∧ steps.map Prod.snd = (List.range N).map (fun k => C (k + 1)) ∧
      (∀ k < N, Leapfrog g.const g.angle (c.iteration + k = z.initialIteration) (C k).dt (S k) (S (k + 1))) ∧
      (∀ j, |linearMomentum s j - linearMomentum d.val j| ≤ ∑ k ∈ Finset.Ico 1 N, 1 / 2 * |(C k).dt| * (strayForce g.const g.angle (S k) + strayForce g.const g.angle (S (k + 1)))) ∧
      ∀ j l, |planeMomentum s j l - planeMomentum d.val j l| ≤ ∑ k ∈ Finset.Ico 1 N, 1 / 2 * |(C k).dt| * (strayTorque g.const g.angle j l (S k) + strayTorque g.const g.angle j l (S (k + 1))) :=
  C101_momentum_partial he hw hext g.toGravity hbits hn (C102_refines he hw g hbits hn htol h hpos hid hdiv fun _ => by simp) hrelax hstart hpos hid

/-- Without timed outputs every step is positive, they add up to the time of the run, and the last one is within the limits of every particle of every process, gravity included. -/
theorem C102_limits_partial (hcfl : 0 < z.cfl) (hal : 0 ≤ z.sph.alpha) (ho : ∀ k, z.outputs.interval k ≤ 0) {N : Nat} (hN : 0 < N) {c c' : Timestep.Clock} {T : Trees i n m}
    {d : DState (Particle (i + 1)) n} {steps : List (Timestep.Clock × Timestep.Clock)} {s : Fin n → Particle (i + 1)} (h : Run g z N c T d steps (.done c' s))
    (hpos : ∀ a, 0 < (d.val a).mass ∧ 0 < (d.val a).h) (hid : ∀ a b, (d.val a).id = (d.val b).id → a = b) (hdiv : Division n (2 ^ m) T.vec) (hsig : ∀ a, 0 ≤ (d.val a).vsig) (hc : 0 < c.dt) :
    0 < c'.dt ∧ steps.length = N ∧ (∀ x ∈ steps, 0 < x.2.dt) ∧ c'.totaltime = c.totaltime + (steps.map fun x => x.2.dt).sum ∧ ∀ a,
      c'.dt * √(∑ j, (s a).vel j ^ 2) ≤ z.cfl * ((s a).h / (z.eta * z.width)) ∧
      c'.dt ^ 2 * √(∑ j, ((s a).acc j + (s a).gacc j) ^ 2) ≤ z.cfl ^ 2 * ((s a).h / (z.eta * z.width)) ∧
      c'.dt * ((s a).vsig * (1 + 6 / 10 * z.sph.alpha)) ≤ z.cfl * ((s a).h / (z.eta * z.width)) :=
  C101_limits_partial he hw g.toGravity hbits hn hcfl hal ho hN (home_mem hdiv) hpos hid hsig hc (C102_refines he hw g hbits hn htol h hpos hid hdiv fun _ => by simp)

section
variable (hv : z.sph.visc = .constant) (hrep : z.repulsionRadius ≤ 1) (hext : ∀ a, z.sph.external { a with vsig := 0, dt := 0 } = z.sph.external a)
include hv hrep hext

/-- No run of a polytropic gas with a kernel which is not negative, the internal energy not evolved, stops on an assertion: it ends, or two particles come into one cell of the keys. Where it ends masses,
smoothing lengths and densities are positive and pressures not negative. -/
theorem C102_polytropic_partial (hκ : NonNegKernel z.sph.kernel) (hp : z.eos = .polytropic) (hev : z.evolve = false) {N : Nat} (hN : 0 < N) {c : Timestep.Clock} {T : Trees i n m}
    {d : DState (Particle (i + 1)) n} {steps : List (Timestep.Clock × Timestep.Clock)} {r : Outcome i n} (h : Run g z N c T d steps r) (hstart : c.iteration = z.initialIteration)
    (hpos : ∀ a, 0 < (d.val a).mass ∧ 0 < (d.val a).h ∧ 0 ≤ (d.val a).P ∧ 0 ≤ (d.val a).rho) (hid : ∀ a b, (d.val a).id = (d.val b).id → a = b) (hdiv : Division n (2 ^ m) T.vec) (hf : d.flight = []) :
    (∃ k, r = .clash k) ∨ ∃ c' s, r = .done c' s ∧ c'.iteration = c.iteration + N ∧ ∀ a, 0 < (s a).mass ∧ 0 < (s a).h ∧ 0 < (s a).rho ∧ 0 ≤ (s a).P := by
  by_cases hr : ∃ k, r = .clash k
  · exact .inl hr
  · exact C101_polytropic_partial hv he hw hrep hext g.toGravity hbits hn hκ hp hev hN hstart hpos hid hf
      (C102_refines he hw g hbits hn htol h (fun a => ⟨(hpos a).1, (hpos a).2.1⟩) hid hdiv fun k e => hr ⟨k, e⟩)

/-- Two runs from the same particles on `2^m` and on `2^m'` processes, with any first divisions, sorts, messages and orders of visits, which end and have set the same clocks, end with the same data of all
particles but signal speeds and particle time steps. -/
theorem C102_replay_partial {m' N : Nat} {c c1 c2 : Timestep.Clock} {T : Trees i n m} {T' : Trees i n m'} {d d' : DState (Particle (i + 1)) n} {steps : List (Timestep.Clock × Timestep.Clock)}
    {s s' : Fin n → Particle (i + 1)} (h : Run g z N c T d steps (.done c1 s)) (h' : Run g z N c T' d' steps (.done c2 s')) (hsame : d.val = d'.val)
    (hpos : ∀ a, 0 < (d.val a).mass ∧ 0 < (d.val a).h) (hid : ∀ a b, (d.val a).id = (d.val b).id → a = b) (hdiv : Division n (2 ^ m) T.vec) (hdiv' : Division n (2 ^ m') T'.vec)
    (hf : d.flight = []) (hf' : d'.flight = []) : c1 = c2 ∧ ∀ a, ({ s a with vsig := 0, dt := 0 } : Particle (i + 1)) = { s' a with vsig := 0, dt := 0 } :=
  C101_replay hv he hw hrep hext g.toGravity hbits hn hsame hpos hid hf hf' (C102_refines he hw g hbits hn htol h hpos hid hdiv fun _ => by simp)
    (C102_refines he hw g hbits hn htol h' (fun a => by rw [← hsame]; exact hpos a) (fun a b e => hid a b (by rw [hsame]; exact e)) hdiv' fun _ => by simp)

end

/-- The thermokinetic formulation past the relaxation phase and without external forces: the total energy of the gas after the first iteration is that of the initial data, and each other iteration adds the work
of gravity, by the trapezoid rule with its time step. The power of gravity is that of Newton's law up to the error of the multipole method. -/
theorem C102_energy_partial (hext : ∀ a, z.sph.external a = 0) (hrelax : z.sph.relaxationSteps ≤ z.initialIteration) (htk : z.thermokinetic = true) (hev : z.evolve = true) (hup : 1 ≤ z.updates) {N : Nat}
    {c c' : Timestep.Clock} {T : Trees i n m} {d : DState (Particle (i + 1)) n} {steps : List (Timestep.Clock × Timestep.Clock)} {s : Fin n → Particle (i + 1)} (h : Run g z N c T d steps (.done c' s))
    (hstart : c.iteration = z.initialIteration) (hpos : ∀ a, 0 < (d.val a).mass ∧ 0 < (d.val a).h) (hid : ∀ a b, (d.val a).id = (d.val b).id → a = b) (hdiv : Division n (2 ^ m) T.vec) :
    ∃ (S : Nat → Fin n → Particle (i + 1)) (C : Nat → Timestep.Clock), S 0 = d.val ∧ S N = s ∧ C 0 = c ∧ C N = c' ∧ steps.map Prod.snd = (List.range N).map (fun k => C (k + 1)) ∧
      (∀ k < N, Leapfrog g.const g.angle (c.iteration + k = z.initialIteration) (C k).dt (S k) (S (k + 1))) ∧
      (0 < N → gasEnergy (S 1) = ∑ a, (d.val a).mass * (1 / 2 * ∑ j, (d.val a).vel j * (d.val a).vel j + (Eos.init z.eos z.eosParams (d.val a)).u + z.phi (d.val a).pos)) ∧
      (∀ k, 0 < k → k < N → gasEnergy (S (k + 1)) = gasEnergy (S k) + 1 / 2 * (C k).dt * (gravityPower (S k) + gravityPower (S (k + 1)))) ∧
      ∀ k, 0 < k → k ≤ N → ∀ u, u = max g.angle 0 →
        |gravityPower (S k) - ∑ a, (S k a).mass * ∑ j, accelerationAt g.const (fun b => bodyOf (S k b)) a j * (S k a).vel j| ≤
          (4 * u + 5 * u ^ 2 + 2 * u ^ 3) * ∑ a, (S k a).mass * (∑ j, |(S k a).vel j|) * pull g.const (S k) a := by
  obtain ⟨S, C, h1, h2, h3, h4, h5, h6, h7, h8, h9⟩ := C101_energy_partial he hw hext g.toGravity hbits hn htk hev hup
    (C102_refines he hw g hbits hn htol h hpos hid hdiv fun _ => by simp) hrelax hstart hpos hid
  exact ⟨S, C, h1, h2, h3, h4, h5, h6, h7, h8, fun k hk hk' u hu => (h9 k hk hk' u hu).1⟩

/-- A run can be carried out, for any division of the particles at the beginning. -/
theorem C102_exists {N : Nat} {c : Timestep.Clock} {T : Trees i n m} (hdiv : Division n (2 ^ m) T.vec) (s : Fin n → Particle (i + 1)) (hpos : ∀ a, 0 < (s a).mass ∧ 0 < (s a).h)
    (hid : ∀ a b, (s a).id = (s b).id → a = b) : ∃ steps r, Run g z N c T ⟨s, fun _ b => some (s b), []⟩ steps r := by
  have nt : ∀ {ops : List (Op (Particle (i + 1)))} {T : Trees i n m} {d : DState (Particle (i + 1)) n} {te : Bool} {J : Particle (i + 1) → Prop}, PExec g ops T d .clash → Fit ops true DistRun.Dense te J →
      (∀ a, DistRun.Dense (d.val a)) → Distinct d.val → Good g T d.val → Op.update ∉ ops → False := by
    intro ops T d te J h hF hd hi hg hno
    obtain ⟨pre, post, _, _, e, -⟩ := sim hbits hn htol h hF hd hi hg.division fun _ => hg
    exact hno (by rw [e]; simp)
  have key : ∀ N c (T : Trees i n m) (d : DState (Particle (i + 1)) n), Division n (2 ^ m) T.vec → (∀ a, Sized (d.val a)) → Distinct d.val → Full d → d.flight = [] → ∃ steps r, Run g z N c T d steps r := by
    intro N
    induction N with
    | zero => intro c T d _ _ _ _ _; exact ⟨_, _, .nil⟩
    | succ N ih =>
      intro c T d hdiv hp hi hF hf
      obtain ⟨r, h1, h2⟩ := pexec_exists hbits hn htol (T := T) (fit_head z c) hp hi hdiv (fun h => Bool.noConfusion h) hF hf
      cases r with
      | failed => exact ⟨_, _, .fail (.failHead h1)⟩
      | clash => exact ⟨_, _, .clash (.clash h1)⟩
      | ended T1 d1 =>
        obtain ⟨-, s2, s3, s4, s5⟩ := sim hbits hn htol h1 (fit_head z c) hp hi hdiv (fun h => Bool.noConfusion h)
        obtain ⟨T2, v, hp2⟩ := pulled_exists hbits (fun a => ⟨(s2 a).1, (s2 a).2.1⟩) (hi.of_ids s5) hn (s4 rfl)
        obtain ⟨-, -, -, -, e5, e6, e7⟩ := pulled g hbits hn htol h1 hp2 hp hi hdiv
        by_cases hc : c.iteration = z.initialIteration
        · obtain ⟨r, h3, h4⟩ := pexec_exists hbits hn htol (T := T2) (d := { d1 with val := v }) (fit_mid z c.iteration) e5 e6 e7.division (fun _ => e7) (h2 _ _ rfl).1 (h2 _ _ rfl).2
          cases r with
          | failed => exact ⟨_, _, .fail (.failMid hc h1 hp2 h3)⟩
          | clash => exact (nt h3 (fit_mid z _) e5 e6 e7 (no_update_mid z _)).elim
          | ended T3 d3 =>
            obtain ⟨-, t2, t3, t4, t5⟩ := sim hbits hn htol h3 (fit_mid z _) e5 e6 e7.division fun _ => e7
            obtain ⟨c1, hc1⟩ : ∃ c1, c1 = Timestep.setAdaptive z.outputs (AdaptProgram.limits T3 d3.val) c := ⟨_, rfl⟩
            obtain ⟨r, g1, g2⟩ := pexec_exists hbits hn htol (T := T3) (fit_rest z he hw c1.dt c1.iteration) t2 (e6.of_ids t5) t3 t4 (h4 _ _ rfl).1 (h4 _ _ rfl).2
            cases r with
            | failed => exact ⟨_, _, .fail (.failRest hc h1 hp2 h3 hc1 g1)⟩
            | clash => exact (nt g1 (fit_rest z he hw _ _) t2 (e6.of_ids t5) (t4 rfl) (no_update_rest z _ _)).elim
            | ended T4 d4 =>
              obtain ⟨-, u2, u3, -, u5⟩ := sim hbits hn htol g1 (fit_rest z he hw _ _) t2 (e6.of_ids t5) t3 t4
              obtain ⟨steps, r, hr⟩ := ih (Timestep.advance true (Timestep.setAdaptive z.outputs (AdaptProgram.limits T4 d4.val) c1)) T4 d4 u3 u2 ((e6.of_ids t5).of_ids u5) (g2 _ _ rfl).1 (g2 _ _ rfl).2
              exact ⟨_, _, .cons (.first hc h1 hp2 h3 hc1 g1) hr⟩
        · obtain ⟨r, h3, h4⟩ := pexec_exists hbits hn htol (T := T2) (d := { d1 with val := v }) (fit_end z he hw c) e5 e6 e7.division (fun _ => e7) (h2 _ _ rfl).1 (h2 _ _ rfl).2
          cases r with
          | failed => exact ⟨_, _, .fail (.failNext hc h1 hp2 h3)⟩
          | clash => exact (nt h3 (fit_end z he hw c) e5 e6 e7 (no_update_end z c)).elim
          | ended T3 d3 =>
            obtain ⟨-, t2, t3, -, t5⟩ := sim hbits hn htol h3 (fit_end z he hw c) e5 e6 e7.division fun _ => e7
            obtain ⟨steps, r, hr⟩ := ih (Timestep.advance true (Timestep.setAdaptive z.outputs (AdaptProgram.limits T3 d3.val) c)) T3 d3 t3 t2 (e6.of_ids t5) (h4 _ _ rfl).1 (h4 _ _ rfl).2
            exact ⟨_, _, .cons (.next hc h1 hp2 h3) hr⟩
  exact key N c T _ hdiv hpos hid (fun _ _ => rfl) rfl

end

/-! ### Non-vacuity: the two gas particles, one on each of two processes -/

/-- The first iteration of the polytropic gas with self-gravity and an adaptive step on two processes is done, the momentum is kept, the step is positive and is the time the run took. -/
theorem two_program {dt : ℝ} (hdt : 0 < dt) : ∃ steps c s, Run set2 (gas false .polytropic) 1 (start dt).clock two2 ⟨two, fun _ b => some (two b), []⟩ steps (.done c s) ∧
    linearMomentum (i := 1) s 1 = 2 / 3 ∧ 0 < c.dt ∧ c.totaltime = (start dt).clock.totaltime + (steps.map fun x => x.2.dt).sum := by
  have hp : ∀ a, 0 < (two a).mass ∧ 0 < (two a).h := fun a => by simp [two]
  have hid : ∀ a b : Fin 2, (two a).id = (two b).id → a = b := fun a b h => Fin.ext h
  have he : 0 < (gas false .polytropic).eta := by norm_num [gas]
  have hw : 0 < (gas false .polytropic).width := by norm_num [gas]
  have hr : (gas false .polytropic).repulsionRadius ≤ 1 := by norm_num [gas]
  have hb : (1 : Fin 3).val + 1 < set2.bits := (by decide : (1 : Fin 3).val + 1 < 64)
  obtain ⟨steps, r, h⟩ := C102_exists (z := gas false .polytropic) he hw set2 hb (by decide) le_rfl (N := 1) (c := (start dt).clock) two_div two hp hid
  have ops : ∃ ops, headOps (gas false .polytropic) (start dt).clock = .update :: ops ∧ Op.update ∉ ops := by
    refine ⟨_, by unfold headOps; rw [if_pos (by rfl)]; rfl, ?_⟩
    simp [gas, alphaOps, densityOp, accOps]
  obtain ⟨ops, ho, hno⟩ := ops
  have hnc : ∀ k, r ≠ .clash k := by
    rintro k rfl
    cases h with
    | clash h =>
      cases h with
      | clash h => rw [ho] at h; exact no_clash (.inr (by rw [← ho]; exact fit_head _ _)) hno h
    | cons _ h => cases h
  rcases C102_polytropic_partial (z := gas false .polytropic) he hw set2 hb (by decide) le_rfl rfl hr (fun _ => rfl) (Or.inl Poly.wendlandC4) rfl rfl Nat.one_pos h rfl (fun a => by simp [two]) hid two_div rfl with
    ⟨k, hk⟩ | ⟨c, s, rfl, -, -⟩
  · exact absurd hk (hnc k)
  · obtain ⟨h1, -, -, h2, -⟩ := C102_limits_partial (z := gas false .polytropic) he hw set2 hb (by decide) le_rfl (by norm_num [gas]) le_rfl (fun _ => le_rfl) Nat.one_pos h hp hid two_div
      (fun _ => le_rfl) hdt
    refine ⟨steps, c, s, h, ?_, h1, h2⟩
    rw [((C102_newton_partial (z := gas false .polytropic) he hw set2 hb (by decide) le_rfl (fun _ => rfl) le_rfl h rfl hp hid two_div).2.1 le_rfl).1 1]
    simp [linearMomentum, two]; norm_num

/-- Non-vacuity of `C102_energy_partial`: the first iteration with evolved energy is done on two processes, and afterwards the energy of the gas is that of the initial data. -/
example (dt : ℝ) : ∃ steps c s, Run set2 (gas true .noEos) 1 (start dt).clock two2 ⟨two, fun _ b => some (two b), []⟩ steps (.done c s) ∧ gasEnergy (i := 1) s = 2 + 1 / 4 + 1 / 9 := by
  have hp : ∀ a, 0 < (two a).mass ∧ 0 < (two a).h := fun a => by simp [two]
  have hid : ∀ a b : Fin 2, (two a).id = (two b).id → a = b := fun a b h => Fin.ext h
  have he : 0 < (gas true .noEos).eta := by norm_num [gas]
  have hw : 0 < (gas true .noEos).width := by norm_num [gas]
  have hr : (gas true .noEos).repulsionRadius ≤ 1 := by norm_num [gas]
  have hb : (1 : Fin 3).val + 1 < set2.bits := (by decide : (1 : Fin 3).val + 1 < 64)
  obtain ⟨steps, r, h⟩ := C102_exists (z := gas true .noEos) he hw set2 hb (by decide) le_rfl (N := 1) (c := (start dt).clock) two_div two hp hid
  have ops : ∃ ops, headOps (gas true .noEos) (start dt).clock = .update :: ops ∧ Op.update ∉ ops := by
    refine ⟨_, by unfold headOps; rw [if_pos (by rfl)]; rfl, ?_⟩
    simp [gas, alphaOps, densityOp, accOps]
  obtain ⟨ops, ho, hno⟩ := ops
  have hnc : ∀ k, r ≠ .clash k := by
    rintro k rfl
    cases h with
    | clash h =>
      cases h with
      | clash h => rw [ho] at h; exact no_clash (.inr (by rw [← ho]; exact fit_head _ _)) hno h
    | cons _ h => cases h
  cases r with
  | clash k => exact absurd rfl (hnc k)
  | failed =>
    have hA := C102_refines (z := gas true .noEos) he hw set2 hb (by decide) le_rfl h hp hid two_div hnc
    cases hA with
    | failed hA => exact absurd hA (falling_fail dt _ rfl rfl)
    | cons _ hA => cases hA
  | done c s =>
    obtain ⟨S, T, -, g1, -, -, -, -, g3, -⟩ := C102_energy_partial (z := gas true .noEos) he hw set2 hb (by decide) le_rfl (fun _ => rfl) le_rfl rfl rfl le_rfl h rfl hp hid two_div
    refine ⟨steps, c, s, h, ?_⟩
    rw [← g1, g3 Nat.one_pos]
    simp [Fin.sum_univ_two, two, gas, Eos.init]; norm_num

/-- Non-vacuity of `C102_replay_partial`: the run of two processes against itself. -/
example {dt : ℝ} (hdt : 0 < dt) : ∃ steps c s c' s', Run set2 (gas false .polytropic) 1 (start dt).clock two2 ⟨two, fun _ b => some (two b), []⟩ steps (.done c s) ∧
    Run set2 (gas false .polytropic) 1 (start dt).clock two2 ⟨two, fun _ b => some (two b), []⟩ steps (.done c' s') ∧ c = c' := by
  obtain ⟨steps, c, s, h, -⟩ := two_program hdt
  exact ⟨steps, c, s, c, s, h, h, (C102_replay_partial (z := gas false .polytropic) (by norm_num [gas]) (by norm_num [gas]) set2 (by decide : (1 : Fin 3).val + 1 < 64) (by decide) le_rfl rfl (by norm_num [gas])
    (fun _ => rfl) h h rfl (fun a => by simp [two]) (fun a b h => Fin.ext h) two_div two_div rfl rfl).1⟩

end FleCSPH.NewtonProgram
