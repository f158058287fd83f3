import Verif.Lemmas.AdaptNewton
import Verif.Props.C78
import Verif.Spec.AdaptNewton
import Verif.Props.C97
/-!
C101: runs with self-gravity and an adaptive time step, the newtonian driver with `enable_fmm` and `adaptive_timestep`.

Proved for the constant viscosity, in exact arithmetic, on any number of processes: every iteration is a step of the leapfrog scheme with Newton's attraction at the new positions, up to the error of the multipole
method, with the time step set at the end of the iteration before; momentum, angular momentum and, in the thermokinetic formulation, energy follow with the steps that were set; the steps are positive, respect the
limits of all particles of all processes, gravity included, and add up to the time, without timed outputs; two runs which set the same clocks agree; runs exist; those of a polytropic gas do not stop on an assertion.

The steps, momenta, energies and limits are those of either viscosity, the rest of the constant one.

Missing for the full property: the adaptive viscosity in the rest, periodic boundaries, rounding; that two runs set the same clocks (they need not, `C97_violated`).
-/
namespace FleCSPH.AdaptNewton
open FleCSPH.Geometry FleCSPH.Sph FleCSPH.Driver FleCSPH.Spec FleCSPH.DistRun FleCSPH.Integration FleCSPH.RunExamples FleCSPH.Newtonian FleCSPH.AdaptRun FleCSPH.Key FleCSPH.Cofm FleCSPH.Kernels

variable {i : Fin 3} {n : Nat}

/-- A sum of changes by the trapezoid rule. -/
private theorem drift_sum {N : Nat} {p F E dt : Nat → ℝ} (h0 : 0 < N → p 1 = p 0) (hstep : ∀ k, 0 < k → k < N → p (k + 1) = p k + 1 / 2 * dt k * (F k + F (k + 1)))
    (hF : ∀ k < N, |F (k + 1)| ≤ E (k + 1)) : |p N - p 0| ≤ ∑ k ∈ Finset.Ico 1 N, 1 / 2 * |dt k| * (E k + E (k + 1)) := by
  have key : ∀ k, k + 1 ≤ N → |p (k + 1) - p 0| ≤ ∑ l ∈ Finset.Ico 1 (k + 1), 1 / 2 * |dt l| * (E l + E (l + 1)) := by
    intro k
    induction k with
    | zero => intro hk; rw [h0 (by omega)]; simp
    | succ k ih =>
      intro hk
      rw [Finset.sum_Ico_succ_top (by omega), hstep (k + 1) (by omega) (by omega)]
      have h1 := ih (by omega)
      have e : p (k + 1) + 1 / 2 * dt (k + 1) * (F (k + 1) + F (k + 1 + 1)) - p 0 = (p (k + 1) - p 0) + 1 / 2 * dt (k + 1) * (F (k + 1) + F (k + 1 + 1)) := by ring
      rw [e]
      refine (abs_add_le _ _).trans (add_le_add h1 ?_)
      rw [abs_mul, abs_mul, abs_of_pos (by norm_num : (0 : ℝ) < 1 / 2)]
      exact mul_le_mul_of_nonneg_left ((abs_add_le _ _).trans (add_le_add (hF k (by omega)) (hF (k + 1) (by omega)))) (by positivity)
  rcases Nat.eq_zero_or_pos N with rfl | hN
  · simp
  · have := key (N - 1) (by omega)
    rwa [Nat.sub_add_cancel hN] at this

/-- The iteration of the clock, and the clock an iteration with only one time step keeps. -/
private theorem iter_clock {near : (Fin n → Particle (i + 1)) → (Fin n → List (Fin n)) → Prop} {sep : (Fin n → Particle (i + 1)) → Prop} {grav : (Fin n → Particle (i + 1)) → (Fin n → Particle (i + 1)) → Prop} {procs : Nat}
    {z : Config i} {c c1 c2 : Timestep.Clock} {home home' : Fin n → Nat} {d d' : DState (Particle (i + 1)) n} (h : NIter near sep grav procs z c home d (.done c1 c2 home' d')) :
    c.iteration ≠ z.initialIteration → c1.dt = c.dt := by
  cases h with
  | first hc => exact fun h => absurd hc h
  | next => exact fun _ => rfl

section
variable {z : Config i} (he : 0 < z.eta) (hw : 0 < z.width) (hext : ∀ a, z.sph.external a = 0) (g : Gravity) (hbits : i.val + 1 < g.bits) (hn : 2 ≤ n)
include he hw hext hbits hn

/-- The states and the clocks between the iterations. -/
private theorem trace {m N : Nat} {c c' : Timestep.Clock} {home : Fin n → Nat} {d : DState (Particle (i + 1)) n} {steps : List (Timestep.Clock × Timestep.Clock)} {s : Fin n → Particle (i + 1)}
    (h : Run NearLists g m z N c home d steps (.done c' s)) (hit : z.sph.relaxationSteps ≤ c.iteration) (hpos : ∀ a, 0 < (d.val a).mass ∧ 0 < (d.val a).h)
    (hid : ∀ a b, (d.val a).id = (d.val b).id → a = b) :
    ∃ (S : Nat → Fin n → Particle (i + 1)) (T : Nat → Timestep.Clock), S 0 = d.val ∧ S N = s ∧ T 0 = c ∧ T N = c' ∧ steps.map Prod.snd = (List.range N).map (fun k => T (k + 1)) ∧
      (∀ k ≤ N, (T k).iteration = c.iteration + k) ∧ ∀ k < N, Leapfrog g.const g.angle (c.iteration + k = z.initialIteration) (T k).dt (S k) (S (k + 1)) ∧
      (z.thermokinetic = true → z.evolve = true → 1 ≤ z.updates → EnergyStep z (T k) (S k) (S (k + 1))) := by
  generalize hr : Outcome.done c' s = r at h
  induction h with
  | nil => cases hr; exact ⟨fun _ => _, fun _ => _, rfl, rfl, rfl, rfl, rfl, fun k hk => by rw [Nat.le_zero.1 hk]; simp, fun k hk => absurd hk (Nat.not_lt_zero k)⟩
  | failed => cases hr
  | clash => cases hr
  | @cons N c c1 c2 home home2 d d2 steps r h1 _ ih =>
    obtain ⟨g5, g6, g2, g4⟩ := GravityConserve.adaptive_iter hext g hbits hn he hw hit hpos hid h1
    obtain ⟨S, T, k1, k2, k3, k4, k5, k6, k7⟩ := ih (by omega) g2 (fun a b hab => hid a b (by rw [← g5.id, ← g5.id, hab])) hr
    refine ⟨fun k => if k = 0 then d.val else S (k - 1), fun k => if k = 0 then c else T (k - 1), if_pos rfl, (if_neg (Nat.succ_ne_zero N)).trans k2, if_pos rfl, (if_neg (Nat.succ_ne_zero N)).trans k4, ?_,
      fun k hk => ?_, fun k hk => ?_⟩
    · rw [List.map_cons, k5, List.range_succ_eq_map, List.map_cons, List.map_map]
      simp only [Nat.add_eq_zero_iff, one_ne_zero, and_false, if_false, Nat.add_sub_cancel, k3]
      rfl
    · rcases Nat.eq_zero_or_pos k with rfl | hk0
      · simp
      · simp only [if_neg (Nat.pos_iff_ne_zero.1 hk0)]
        rw [k6 (k - 1) (by omega), g4]; omega
    · rcases Nat.eq_zero_or_pos k with rfl | hk0
      · simp only [if_pos, if_neg (Nat.succ_ne_zero _), Nat.add_sub_cancel, k1]
        refine ⟨?_, g6⟩
        convert g5 using 1
        simp
      · have := k7 (k - 1) (by omega)
        have e : c2.iteration + ((k - 1 : Nat) : Int) = c.iteration + k := by rw [g4]; omega
        simp only [if_neg (Nat.pos_iff_ne_zero.1 hk0), if_neg (Nat.succ_ne_zero _), Nat.add_sub_cancel]
        rw [show k - 1 + 1 = k by omega] at this
        refine ⟨?_, this.2⟩
        have := this.1
        convert this using 1
        rw [e]

/-- Every iteration of a run past the relaxation phase and without external forces is a step of the leapfrog scheme with Newton's attraction, whose time step is the one set at the end of the iteration before.
`S k` and `T k` are the state and the clock after `k` iterations. -/
theorem C101_leapfrog_partial {m N : Nat} {c c' : Timestep.Clock} {home : Fin n → Nat} {d : DState (Particle (i + 1)) n} {steps : List (Timestep.Clock × Timestep.Clock)} {s : Fin n → Particle (i + 1)}
    (h : Run NearLists g m z N c home d steps (.done c' s)) (hit : z.sph.relaxationSteps ≤ c.iteration) (hpos : ∀ a, 0 < (d.val a).mass ∧ 0 < (d.val a).h)
    (hid : ∀ a b, (d.val a).id = (d.val b).id → a = b) :
    ∃ (S : Nat → Fin n → Particle (i + 1)) (T : Nat → Timestep.Clock), S 0 = d.val ∧ S N = s ∧ T 0 = c ∧ T N = c' ∧ steps.map Prod.snd = (List.range N).map (fun k => T (k + 1)) ∧
      (∀ k ≤ N, (T k).iteration = c.iteration + k) ∧ ∀ k < N, Leapfrog g.const g.angle (c.iteration + k = z.initialIteration) (T k).dt (S k) (S (k + 1)) := by
  obtain ⟨S, T, h1, h2, h3, h4, h5, h6, h7⟩ := trace he hw hext g hbits hn h hit hpos hid
  exact ⟨S, T, h1, h2, h3, h4, h5, h6, fun k hk => (h7 k hk).1⟩

/-- The particles and their masses are kept; momentum and angular momentum change by no more than the error of the multipole method allows, and not at all for `fmm_macangle` zero, whatever the time steps. -/
theorem C101_momentum_partial {m N : Nat} {c c' : Timestep.Clock} {home : Fin n → Nat} {d : DState (Particle (i + 1)) n} {steps : List (Timestep.Clock × Timestep.Clock)} {s : Fin n → Particle (i + 1)}
    (h : Run NearLists g m z N c home d steps (.done c' s)) (hrelax : z.sph.relaxationSteps ≤ z.initialIteration) (hstart : c.iteration = z.initialIteration) (hpos : ∀ a, 0 < (d.val a).mass ∧ 0 < (d.val a).h)
    (hid : ∀ a b, (d.val a).id = (d.val b).id → a = b) :
    (∀ a, (s a).id = (d.val a).id ∧ (s a).mass = (d.val a).mass) ∧
    (g.angle ≤ 0 → (∀ j, linearMomentum s j = linearMomentum d.val j) ∧ ∀ j k, planeMomentum s j k = planeMomentum d.val j k) ∧
    ∃ (S : Nat → Fin n → Particle (i + 1)) (T : Nat → Timestep.Clock), S 0 = d.val ∧ S N = s ∧ T 0 = c ∧ T N = c' ∧ steps.map Prod.snd = (List.range N).map (fun k => T (k + 1)) ∧
      (∀ k < N, Leapfrog g.const g.angle (c.iteration + k = z.initialIteration) (T k).dt (S k) (S (k + 1))) ∧
      (∀ j, |linearMomentum s j - linearMomentum d.val j| ≤ ∑ k ∈ Finset.Ico 1 N, 1 / 2 * |(T k).dt| * (strayForce g.const g.angle (S k) + strayForce g.const g.angle (S (k + 1)))) ∧
      ∀ j l, |planeMomentum s j l - planeMomentum d.val j l| ≤ ∑ k ∈ Finset.Ico 1 N, 1 / 2 * |(T k).dt| * (strayTorque g.const g.angle j l (S k) + strayTorque g.const g.angle j l (S (k + 1))) := by
  obtain ⟨S, T, h0, hN, hT0, hTN, hst, -, hS⟩ := C101_leapfrog_partial he hw hext g hbits hn h (by rw [hstart]; exact hrelax) hpos hid
  have tags : ∀ k ≤ N, ∀ a, (S k a).id = (d.val a).id ∧ (S k a).mass = (d.val a).mass := by
    intro k
    induction k with
    | zero => intro _ a; rw [h0]; exact ⟨rfl, rfl⟩
    | succ k ih => intro hk a; exact ⟨((hS k hk).id a).trans (ih (by omega) a).1, ((hS k hk).mass a).trans (ih (by omega) a).2⟩
  have mass : ∀ k < N, ∀ a, 0 < (S (k + 1) a).mass := fun k hk a => by rw [(tags (k + 1) hk a).2]; exact (hpos a).1
  have hfirst : ∀ k : Nat, (c.iteration + (k : Int) = z.initialIteration) ↔ k = 0 := fun k => by rw [hstart]; omega
  have bound : (∀ j, |linearMomentum s j - linearMomentum d.val j| ≤ ∑ k ∈ Finset.Ico 1 N, 1 / 2 * |(T k).dt| * (strayForce g.const g.angle (S k) + strayForce g.const g.angle (S (k + 1)))) ∧
      ∀ j l, |planeMomentum s j l - planeMomentum d.val j l| ≤ ∑ k ∈ Finset.Ico 1 N, 1 / 2 * |(T k).dt| * (strayTorque g.const g.angle j l (S k) + strayTorque g.const g.angle j l (S (k + 1))) := by
    constructor
    · intro j
      have := drift_sum (N := N) (p := fun k => linearMomentum (S k) j) (dt := fun k => (T k).dt) (F := fun k => ∑ a, (S k a).mass * ((S k a).acc j + (S k a).gacc j)) (E := fun k => strayForce g.const g.angle (S k))
        (fun hN => ((momenta (hS 0 hN)).1 j).trans (if_pos ((hfirst 0).2 rfl))) (fun k hk hkN => ((momenta (hS k hkN)).1 j).trans (if_neg fun h => hk.ne' ((hfirst k).1 h)))
        fun k hk => (net (hS k hk) (mass k hk) rfl).1 j
      rwa [h0, hN] at this
    · intro j l
      have := drift_sum (N := N) (p := fun k => planeMomentum (S k) j l) (dt := fun k => (T k).dt)
        (F := fun k => ∑ a, (S k a).mass * ((S k a).pos j * ((S k a).acc l + (S k a).gacc l) - (S k a).pos l * ((S k a).acc j + (S k a).gacc j))) (E := fun k => strayTorque g.const g.angle j l (S k))
        (fun hN => ((momenta (hS 0 hN)).2 j l).trans (if_pos ((hfirst 0).2 rfl))) (fun k hk hkN => ((momenta (hS k hkN)).2 j l).trans (if_neg fun h => hk.ne' ((hfirst k).1 h)))
        fun k hk => (net (hS k hk) (mass k hk) rfl).2 j l
      rwa [h0, hN] at this
  refine ⟨fun a => by rw [← hN]; exact tags N le_rfl a, fun hang => ?_, S, T, h0, hN, hT0, hTN, hst, hS, bound⟩
  obtain ⟨b1, b2⟩ := bound
  have z1 : ∀ k, strayForce g.const g.angle (S k) = 0 := fun k => by simp [strayForce, max_eq_right hang]
  have z2 : ∀ j l k, strayTorque g.const g.angle j l (S k) = 0 := fun j l k => by simp [strayTorque, max_eq_right hang]
  constructor
  · intro j
    have := b1 j
    simp only [z1, add_zero, mul_zero, Finset.sum_const_zero] at this
    exact sub_eq_zero.1 (abs_nonpos_iff.1 this)
  · intro j k
    have := b2 j k
    simp only [z2, add_zero, mul_zero, Finset.sum_const_zero] at this
    exact sub_eq_zero.1 (abs_nonpos_iff.1 this)

/-- The thermokinetic formulation past the relaxation phase and without external forces. The first iteration sets the total energy of the gas to kinetic energy, initial internal energy and external potential;
each other iteration adds to it the work of gravity, by the trapezoid rule with the time step of that iteration. The power of gravity and its energy are those of Newton's law up to the error of the multipole
method. -/
theorem C101_energy_partial (htk : z.thermokinetic = true) (hev : z.evolve = true) (hup : 1 ≤ z.updates) {m N : Nat} {c c' : Timestep.Clock} {home : Fin n → Nat} {d : DState (Particle (i + 1)) n}
    {steps : List (Timestep.Clock × Timestep.Clock)} {s : Fin n → Particle (i + 1)} (h : Run NearLists g m z N c home d steps (.done c' s)) (hrelax : z.sph.relaxationSteps ≤ z.initialIteration)
    (hstart : c.iteration = z.initialIteration) (hpos : ∀ a, 0 < (d.val a).mass ∧ 0 < (d.val a).h) (hid : ∀ a b, (d.val a).id = (d.val b).id → a = b) :
    ∃ (S : Nat → Fin n → Particle (i + 1)) (T : Nat → Timestep.Clock), S 0 = d.val ∧ S N = s ∧ T 0 = c ∧ T N = c' ∧ steps.map Prod.snd = (List.range N).map (fun k => T (k + 1)) ∧
      (∀ k < N, Leapfrog g.const g.angle (c.iteration + k = z.initialIteration) (T k).dt (S k) (S (k + 1))) ∧
      (0 < N → gasEnergy (S 1) = ∑ a, (d.val a).mass * (1 / 2 * ∑ j, (d.val a).vel j * (d.val a).vel j + (Eos.init z.eos z.eosParams (d.val a)).u + z.phi (d.val a).pos)) ∧
      (∀ k, 0 < k → k < N → gasEnergy (S (k + 1)) = gasEnergy (S k) + 1 / 2 * (T k).dt * (gravityPower (S k) + gravityPower (S (k + 1)))) ∧
      ∀ k, 0 < k → k ≤ N → ∀ u, u = max g.angle 0 →
        |gravityPower (S k) - ∑ a, (S k a).mass * ∑ j, accelerationAt g.const (fun b => bodyOf (S k b)) a j * (S k a).vel j| ≤
          (4 * u + 5 * u ^ 2 + 2 * u ^ 3) * ∑ a, (S k a).mass * (∑ j, |(S k a).vel j|) * pull g.const (S k) a ∧
        |gravityEnergy (S k) - newtonEnergy g.const fun b => bodyOf (S k b)| ≤ (2 * u + u ^ 2) * ∑ a, 1 / 2 * (S k a).mass * well g.const (S k) a := by
  obtain ⟨S, T, h0, hN, hT0, hTN, hst, hTi, hS⟩ := trace he hw hext g hbits hn h (by rw [hstart]; exact hrelax) hpos hid
  have mass : ∀ k ≤ N, ∀ a, (S k a).mass = (d.val a).mass := by
    intro k
    induction k with
    | zero => intro _ a; rw [h0]
    | succ k ih => intro hk a; exact ((hS k hk).1.mass a).trans (ih (by omega) a)
  have hfirst : ∀ k ≤ N, (T k).iteration = z.initialIteration ↔ k = 0 := fun k hk => by rw [hTi k hk, hstart]; omega
  refine ⟨S, T, h0, hN, hT0, hTN, hst, fun k hk => (hS k hk).1, fun hN0 => ?_, fun k hk hkN => ?_, fun k hk hkN u hu => ?_⟩
  · have e := ((hS 0 hN0).2 htk hev hup).energy
    refine Finset.sum_congr rfl fun a _ => ?_
    have ea := (e a).trans (if_pos ((hfirst 0 (by omega)).2 rfl))
    rw [h0] at ea
    rw [mass 1 hN0]
    exact congrArg _ ea
  · have e := (hS k hkN).2 htk hev hup
    have e' := (hS (k - 1) (by omega)).2 htk hev hup
    rw [show k - 1 + 1 = k by omega] at e'
    rw [← e.power, ← e'.power]
    unfold gasEnergy
    rw [← Finset.sum_add_distrib, Finset.mul_sum, ← Finset.sum_add_distrib]
    refine Finset.sum_congr rfl fun a _ => ?_
    have ea := (e.energy a).trans (if_neg fun h => hk.ne' ((hfirst k hkN.le).1 h))
    rw [(hS k hkN).1.mass a, ea]
    ring
  · obtain ⟨l, rfl⟩ : ∃ l, k = l + 1 := ⟨k - 1, by omega⟩
    exact gravity_errors (hS l hkN).1 (fun a => by rw [mass _ hkN]; exact (hpos a).1) hu

end

/-! ### The limits of the particles -/

section
variable {z : Config i}

theorem keeps_head (c : Timestep.Clock) : ∀ o ∈ headOps z c, Keeps (fun a : Particle (i + 1) => 0 ≤ a.vsig) o := by
  have hacc : ∀ o ∈ accOps z, Keeps (fun a : Particle (i + 1) => 0 ≤ a.vsig) o := by
    intro o h
    unfold accOps at h
    simp only [List.mem_cons, List.not_mem_nil, or_false] at h
    rcases h with rfl | rfl
    · trivial
    · exact keeps_pass fun a l h => h
  have halpha : ∀ o ∈ alphaOps z c.dt, Keeps (fun a : Particle (i + 1) => 0 ≤ a.vsig) o := DistConserve.keeps_alpha (fun _ _ h => h) z c.dt
  have hinit : ∀ o ∈ (match z.sph.visc with | .constant => [] | .cullen => [Op.all fun a : Particle (i + 1) => some (Cullen.initializeAlpha z.sph a)]), Keeps (fun a : Particle (i + 1) => 0 ≤ a.vsig) o := by
    intro o h
    cases hz : z.sph.visc with
    | constant => rw [hz] at h; cases h
    | cullen =>
      rw [hz] at h
      obtain rfl := List.mem_singleton.mp h
      refine keeps_all fun a ha => ?_
      unfold Cullen.initializeAlpha
      split <;> exact ha
  intro o h
  unfold headOps firstHead nextHead at h
  split_ifs at h with h0 h1 <;> simp only [List.mem_append, List.mem_cons, List.not_mem_nil, or_false] at h
  · rcases h with ((((((rfl | rfl) | h) | rfl) | rfl | rfl) | h) | h)
    · trivial
    · refine keeps_all fun a h => ?_
      have : (Eos.init z.eos z.eosParams a).vsig = a.vsig := by cases z.eos <;> rfl
      rw [this]; exact h
    · exact hinit o h
    · exact keeps_all fun a h => h
    · exact keeps_vsig_density z _
    · exact keeps_all fun a h => h
    · exact halpha o h
    · exact hacc o h
  · rcases h with (((((rfl | rfl) | h) | rfl | rfl) | h) | h)
    · trivial
    · refine keeps_all fun a h => ?_
      have : (Eos.init z.eos z.eosParams a).vsig = a.vsig := by cases z.eos <;> rfl
      rw [this]; exact h
    · exact hinit o h
    · exact keeps_vsig_density z _
    · exact keeps_all fun a h => h
    · exact halpha o h
    · exact hacc o h
  · rcases h with (((h | rfl | rfl | rfl | rfl | rfl) | h) | h)
    · exact keeps_kick z _ o h
    · exact keeps_all fun a h => h
    · exact keeps_all fun a h => h
    · exact keeps_all fun a h => h
    · trivial
    · exact keeps_vsig_density z _
    · exact halpha o h
    · exact hacc o h

private theorem keeps_relax (it : Int) {I : Particle (i + 1) → Prop} (hI : ∀ a x, I a → I { a with acc := x }) : ∀ o ∈ relaxOps z it, Keeps I o := by
  intro o h
  unfold relaxOps at h
  split_ifs at h
  · simp only [List.mem_cons, List.not_mem_nil, or_false] at h
    rcases h with rfl | rfl
    · exact keeps_all fun a h => hI a _ h
    · exact keeps_pass fun a l h => hI a _ h
  · cases h

theorem keeps_mid (it : Int) : ∀ o ∈ midOps z it ++ [stepOp z], Keeps (fun a : Particle (i + 1) => 0 ≤ a.vsig) o := by
  intro o h
  unfold midOps at h
  rcases List.mem_append.mp h with h | h
  · rcases List.mem_append.mp h with h | h
    · exact keeps_relax it (fun a x h => h) o h
    · split_ifs at h
      · obtain rfl := List.mem_singleton.mp h; exact keeps_all fun a h => h
      · cases h
  · obtain rfl := List.mem_singleton.mp h; exact keeps_steps z

theorem keeps_tail {c : Timestep.Clock} (hc : c.iteration ≠ z.initialIteration) : ∀ o ∈ tailOps z c ++ [stepOp z], Keeps (fun a : Particle (i + 1) => 0 ≤ a.vsig) o := by
  intro o h
  unfold tailOps nextTail at h
  rw [if_neg hc] at h
  simp only [List.mem_append, List.mem_cons, List.not_mem_nil, or_false] at h
  rcases h with (((((h | rfl | rfl) | h) | h) | h) | rfl)
  · exact keeps_relax _ (fun a x h => h) o h
  · exact keeps_all fun a h => h
  · trivial
  · exact keeps_evolve z _ _ o h
  · exact keeps_kick z _ o h
  · exact keeps_last z o h
  · exact keeps_steps z

theorem fit_mid (z : Config i) (it : Int) : Program.Fit (midOps z it ++ [stepOp z]) true DistRun.Dense true DistRun.Dense := by
  refine AdaptProgram.fit_append (AdaptProgram.fit_step z fun _ _ h => h) ?_
  have hnil : Program.Fit ([] : List (Op (Particle (i + 1)))) true DistRun.Dense true DistRun.Dense := ⟨id, fun _ h => h⟩
  unfold midOps
  refine Program.fit_relax z it ?_
  split_ifs
  · exact Program.fit_all (fun _ => ⟨rfl, rfl⟩) (fun _ (h : DistRun.Dense _) => (show DistRun.Dense _ from h)) hnil
  · exact hnil

theorem fit_end (z : Config i) (he : 0 < z.eta) (hw : 0 < z.width) (c : Timestep.Clock) : Program.Fit (tailOps z c ++ [stepOp z]) true DistRun.Dense false Sized :=
  AdaptProgram.fit_append (AdaptProgram.fit_step z fun _ _ h => h) (Program.fit_tail z he hw c)

/-- The particles after the calls before gravity, and gravity. -/
theorem pull_fit (g : Gravity) (hbits : i.val + 1 < g.bits) (hn : 2 ≤ n) {m : Nat} {c : Timestep.Clock} {home home' : Fin n → Nat} {d d' : DState (Particle (i + 1)) n} {v : Fin n → Particle (i + 1)}
    (hs : ∀ a, Sized (d.val a)) (hid : ∀ a b, (d.val a).id = (d.val b).id → a = b) (h1 : DExec NearLists (2 ^ m) (headOps z c) home d (some (home', d')))
    (h2 : Separate (maxDepth g.bits (i + 1)) fun a => bodyOf (d'.val a)) (h3 : Gravitated g m d'.val v) :
    (∀ a, DistRun.Dense (v a)) ∧ (∀ a, (v a).vsig = (d'.val a).vsig) ∧ ∀ a, (v a).id = (d.val a).id := by
  have k := AlphaFit.exec_fit h1 (Program.fit_head z c) hs _ rfl
  obtain ⟨pot, acc, -, rfl⟩ := GravityConserve.gravity_of g hbits hn (fun a => (k a).1) (fun a b e => hid a b (by rw [← (k a).2, ← (k b).2]; exact e)) h2 h3
  exact ⟨fun a => (k a).1, fun a => rfl, fun a => (k a).2⟩

/-- The clock at the end of a program which ends with `compute_dt`. -/
private theorem end_limits (he : 0 < z.eta) (hw : 0 < z.width) (hcfl : 0 < z.cfl) (hal : 0 ≤ z.sph.alpha) (ho : ∀ k, z.outputs.interval k ≤ 0) {procs : Nat} {ops : List (Op (Particle (i + 1)))}
    {home home' : Fin n → Nat} {d d' : DState (Particle (i + 1)) n} {c : Timestep.Clock} (hh : ∀ a, home a < procs) (hs : ∀ a, 0 < (d'.val a).h) (hsig : ∀ a, 0 ≤ (d'.val a).vsig)
    (hx : DExec NearLists procs (ops ++ [stepOp z]) home d (some (home', d'))) (hc : 0 < c.dt) :
    let c' := Timestep.setAdaptive z.outputs (limits procs home' d'.val) c
    (∀ a, home' a < procs) ∧ 0 < c'.dt ∧ (Timestep.advance true c').totaltime = c.totaltime + c'.dt ∧ c'.totaltime = c.totaltime ∧ ∀ a,
      c'.dt * √(∑ j, (d'.val a).vel j ^ 2) ≤ z.cfl * ((d'.val a).h / (z.eta * z.width)) ∧
      c'.dt ^ 2 * √(∑ j, ((d'.val a).acc j + (d'.val a).gacc j) ^ 2) ≤ z.cfl ^ 2 * ((d'.val a).h / (z.eta * z.width)) ∧
      c'.dt * ((d'.val a).vsig * (1 + 6 / 10 * z.sph.alpha)) ≤ z.cfl * ((d'.val a).h / (z.eta * z.width)) := by
  have hh' := exec_homes hx hh _ rfl
  obtain ⟨y, -, hB⟩ := exec_split hx
  obtain ⟨-, -, -, q4⟩ := exec_step hB
  have hy : ∀ a, 0 < (y.2.val a).h ∧ 0 ≤ (y.2.val a).vsig := by
    intro a
    obtain ⟨-, t, ht⟩ := q4 a
    have g1 := hs a
    have g2 := hsig a
    simp only at ht
    rw [ht] at g1 g2
    exact ⟨g1, g2⟩
  obtain ⟨r1, -, r2, r3, r4⟩ := clock_limits he hw hcfl hal ho hh' hy (fun a => (q4 a).1) hc
  exact ⟨hh', r1, r2, r3, r4⟩

end

section
variable {z : Config i} (hv : z.sph.visc = .constant) (he : 0 < z.eta) (hw : 0 < z.width) (hrep : z.repulsionRadius ≤ 1)
  (hext : ∀ a, z.sph.external { a with vsig := 0, dt := 0 } = z.sph.external a) (g : Gravity) (hbits : i.val + 1 < g.bits) (hn : 2 ≤ n)
include hv he hw hrep hext hbits hn

theorem iter_ids {m : Nat} {c c1 c2 : Timestep.Clock} {home home' : Fin n → Nat} {d d' : DState (Particle (i + 1)) n} (hs : ∀ a, Sized (d.val a)) (hid : ∀ a b, (d.val a).id = (d.val b).id → a = b)
    (hf : d.flight = []) (h : Iter NearLists g m z c home d (.done c1 c2 home' d')) : ∀ a, (d'.val a).id = (d.val a).id := by
  obtain ⟨⟨s1, s2, pot, acc, h1, h2, -, h3, e⟩, -⟩ := one_process hv he hw hrep hext g hbits hn hs hid hf h
  have hH : Free.Disc n (headOps z c) (fun _ => False) Sized DistRun.Dense := free_head z hv c hext
  have hT : Disc n (tailOps z { c with dt := c1.dt }) (fun v => v = flow ∨ v = geo) DistRun.Dense := disc_tail z he hw _ fun _ => hrep
  obtain ⟨r, f1, f2, -⟩ := exec1_exec (d := ⟨d.val, fun _ _ => none, []⟩) (everybody i n) (fun s _ => all_near s) all_order hH hs rfl
  obtain ⟨r', f3, f4, -⟩ := exec1_exec (d := ⟨fun a => { s1 a with gpot := pot a, gacc := acc a }, fun _ _ => none, []⟩) (everybody i n) (fun s _ => all_near s) all_order hT (fun a => h2 a) rfl
  dsimp only at f2 f4
  rw [h1] at f2
  rw [h3] at f4
  obtain ⟨y, rfl, y2⟩ := Option.map_eq_some_iff.1 f2
  obtain ⟨y', rfl, y2'⟩ := Option.map_eq_some_iff.1 f4
  intro a
  have k1 : (y.2.val a).id = (d.val a).id := congrArg Prod.fst (dexec_keep f1 (keep_head z hv c) _ rfl a)
  have k2 : (y'.2.val a).id = (s1 a).id := congrArg (fun x => x.1.1) (dexec_keep f3 (keep_tail z _) _ rfl a)
  have k3 : (d'.val a).id = (s2 a).id := by
    have := congrArg Particle.id (e a)
    exact this
  rw [k3, ← y2', k2, ← y2, k1]

omit hv hrep hext in
private theorem iter_limits (hcfl : 0 < z.cfl) (hal : 0 ≤ z.sph.alpha) (ho : ∀ k, z.outputs.interval k ≤ 0) {m : Nat} {home home' : Fin n → Nat} {d d' : DState (Particle (i + 1)) n} {c c1 c2 : Timestep.Clock}
    (hh : ∀ a, home a < 2 ^ m) (hs : ∀ a, Sized (d.val a)) (hid : ∀ a b, (d.val a).id = (d.val b).id → a = b) (hsig : ∀ a, 0 ≤ (d.val a).vsig) (hc : 0 < c.dt)
    (h : Iter NearLists g m z c home d (.done c1 c2 home' d')) :
    (∀ a, home' a < 2 ^ m) ∧ (∀ a, Sized (d'.val a)) ∧ (∀ a b, (d'.val a).id = (d'.val b).id → a = b) ∧ (∀ a, 0 ≤ (d'.val a).vsig) ∧ 0 < c2.dt ∧ c2.totaltime = c.totaltime + c2.dt ∧ ∀ a,
      c2.dt * √(∑ j, (d'.val a).vel j ^ 2) ≤ z.cfl * ((d'.val a).h / (z.eta * z.width)) ∧
      c2.dt ^ 2 * √(∑ j, ((d'.val a).acc j + (d'.val a).gacc j) ^ 2) ≤ z.cfl ^ 2 * ((d'.val a).h / (z.eta * z.width)) ∧
      c2.dt * ((d'.val a).vsig * (1 + 6 / 10 * z.sph.alpha)) ≤ z.cfl * ((d'.val a).h / (z.eta * z.width)) := by
  cases h with
  | @first homeh dh v home1 d1 _ _ _ hc0 h1 h2 h3 h4 h5 h6 =>
    obtain ⟨e1, e2, e3⟩ := pull_fit g hbits hn hs hid h1 h2 h3
    have s0 := exec_keeps h1 (keeps_head _) hsig _ rfl
    have s1 := exec_keeps h4 (keeps_mid _) (fun a => by rw [show (_ : Particle (i + 1)).vsig = _ from e2 a]; exact s0 a) _ rfl
    have s2 := exec_keeps h6 (keeps_rest z _ _) s1 _ rfl
    have k1 := AlphaFit.exec_fit h4 (fit_mid z _) e1 _ rfl
    have k2 := AlphaFit.exec_fit h6 (AlphaFit.fit_adapt2 z he hw _ _) (fun a => (k1 a).1) _ rfl
    obtain ⟨q1, q2, -, q3, -⟩ := end_limits he hw hcfl hal ho (exec_homes h1 hh _ rfl) (fun a => (k1 a).1.2.1) s1 h4 hc
    rw [← h5] at q2 q3
    obtain ⟨r1, r2, r3, -, r4⟩ := end_limits he hw hcfl hal ho q1 (fun a => (k2 a).1.2) s2 h6 q2
    exact ⟨r1, fun a => (k2 a).1, fun a b e => hid a b (by rw [← e3, ← e3, ← (k1 a).2, ← (k1 b).2, ← (k2 a).2, ← (k2 b).2]; exact e), s2, r2, by rw [← q3]; exact r3, r4⟩
  | @next homeh dh v _ _ hc0 h1 h2 h3 h4 =>
    obtain ⟨e1, e2, e3⟩ := pull_fit g hbits hn hs hid h1 h2 h3
    have s0 := exec_keeps h1 (keeps_head _) hsig _ rfl
    have s2 := exec_keeps h4 (keeps_tail hc0) (fun a => by rw [show (_ : Particle (i + 1)).vsig = _ from e2 a]; exact s0 a) _ rfl
    have k2 := AlphaFit.exec_fit h4 (fit_end z he hw _) e1 _ rfl
    obtain ⟨r1, r2, r3, -, r4⟩ := end_limits he hw hcfl hal ho (exec_homes h1 hh _ rfl) (fun a => (k2 a).1.2) s2 h4 hc
    exact ⟨r1, fun a => (k2 a).1, fun a b e => hid a b (by rw [← e3, ← e3, ← (k2 a).2, ← (k2 b).2]; exact e), s2, r2, r3, r4⟩

omit hv hrep hext in
/-- Without timed outputs: after every iteration the time step is positive and within the limits which velocity, signal speed and acceleration, that of gravity included, of every particle of every process set,
and the time is the sum of the steps. -/
theorem C101_limits_partial (hcfl : 0 < z.cfl) (hal : 0 ≤ z.sph.alpha) (ho : ∀ k, z.outputs.interval k ≤ 0) {m N : Nat} {c c' : Timestep.Clock} {home : Fin n → Nat} {d : DState (Particle (i + 1)) n}
    (hN : 0 < N) (hh : ∀ a, home a < 2 ^ m) (hpos : ∀ a, 0 < (d.val a).mass ∧ 0 < (d.val a).h) (hid : ∀ a b, (d.val a).id = (d.val b).id → a = b) (hsig : ∀ a, 0 ≤ (d.val a).vsig) (hc : 0 < c.dt)
    {steps : List (Timestep.Clock × Timestep.Clock)} {s : Fin n → Particle (i + 1)} (h : Run NearLists g m z N c home d steps (.done c' s)) :
    0 < c'.dt ∧ steps.length = N ∧ (∀ x ∈ steps, 0 < x.2.dt) ∧ c'.totaltime = c.totaltime + (steps.map fun x => x.2.dt).sum ∧ ∀ a,
      c'.dt * √(∑ j, (s a).vel j ^ 2) ≤ z.cfl * ((s a).h / (z.eta * z.width)) ∧
      c'.dt ^ 2 * √(∑ j, ((s a).acc j + (s a).gacc j) ^ 2) ≤ z.cfl ^ 2 * ((s a).h / (z.eta * z.width)) ∧
      c'.dt * ((s a).vsig * (1 + 6 / 10 * z.sph.alpha)) ≤ z.cfl * ((s a).h / (z.eta * z.width)) := by
  have gen : ∀ {N : Nat} {c : Timestep.Clock} {home : Fin n → Nat} {d : DState (Particle (i + 1)) n} {steps : List (Timestep.Clock × Timestep.Clock)} {r : Outcome i n},
      Run NearLists g m z N c home d steps r → (∀ a, home a < 2 ^ m) → (∀ a, Sized (d.val a)) → (∀ a b, (d.val a).id = (d.val b).id → a = b) → (∀ a, 0 ≤ (d.val a).vsig) → 0 < c.dt →
      r = .done c' s →
      0 < c'.dt ∧ steps.length = N ∧ (∀ x ∈ steps, 0 < x.2.dt) ∧ c'.totaltime = c.totaltime + (steps.map fun x => x.2.dt).sum ∧
      ((0 < N ∨ ∀ a, c.dt * √(∑ j, (d.val a).vel j ^ 2) ≤ z.cfl * ((d.val a).h / (z.eta * z.width)) ∧
        c.dt ^ 2 * √(∑ j, ((d.val a).acc j + (d.val a).gacc j) ^ 2) ≤ z.cfl ^ 2 * ((d.val a).h / (z.eta * z.width)) ∧
        c.dt * ((d.val a).vsig * (1 + 6 / 10 * z.sph.alpha)) ≤ z.cfl * ((d.val a).h / (z.eta * z.width))) → ∀ a,
        c'.dt * √(∑ j, (s a).vel j ^ 2) ≤ z.cfl * ((s a).h / (z.eta * z.width)) ∧
        c'.dt ^ 2 * √(∑ j, ((s a).acc j + (s a).gacc j) ^ 2) ≤ z.cfl ^ 2 * ((s a).h / (z.eta * z.width)) ∧
        c'.dt * ((s a).vsig * (1 + 6 / 10 * z.sph.alpha)) ≤ z.cfl * ((s a).h / (z.eta * z.width))) := by
    intro N c home d steps r h
    induction h with
    | nil =>
      intro _ _ _ _ hc h; cases h
      refine ⟨hc, rfl, fun s hs => absurd hs List.not_mem_nil, ?_, fun h => h.resolve_left (lt_irrefl 0)⟩
      simp
    | failed => intro _ _ _ _ _ h; cases h
    | clash => intro _ _ _ _ _ h; cases h
    | cons h1 _ ih =>
      intro a1 a2 a3 a5 a6 hx
      obtain ⟨b1, b2, b3, b4, b5, b6, b7⟩ := iter_limits he hw g hbits hn hcfl hal ho a1 a2 a3 a5 a6 h1
      obtain ⟨k1, k2, k3, k4, k5⟩ := ih b1 b2 b3 b4 b5 hx
      refine ⟨k1, by rw [List.length_cons, k2], ?_, ?_, fun _ => k5 (Or.inr b7)⟩
      · intro s hs
        rcases List.mem_cons.mp hs with rfl | hs
        · exact b5
        · exact k3 s hs
      · rw [k4, b6, List.map_cons, List.sum_cons]; ring
  obtain ⟨k1, k2, k3, k4, k5⟩ := gen h hh hpos hid hsig hc rfl
  exact ⟨k1, k2, k3, k4, k5 (Or.inl hN)⟩

/-- Runs on `2^m` processes exist, whenever there are particles for all of them. -/
theorem C101_exists {m N : Nat} (hm : 2 ^ m ≤ n) {c : Timestep.Clock} {home : Fin n → Nat} (hh : ∀ a, home a < 2 ^ m) (s : Fin n → Particle (i + 1)) (hpos : ∀ a, 0 < (s a).mass ∧ 0 < (s a).h)
    (hid : ∀ a b, (s a).id = (s b).id → a = b) : ∃ steps r, Run NearLists g m z N c home ⟨s, fun _ b => some (s b), []⟩ steps r := by
  have hsearch : ∀ s : Fin n → Particle (i + 1), (∀ a, 0 < (s a).h) → ∃ nbs, NearLists s nbs :=
    fun s _ => ⟨fun _ => List.finRange n, fun _ => List.nodup_finRange n, fun _ b _ => List.mem_finRange b⟩
  -- a program followed by compute_dt
  have part : ∀ {ops : List (Op (Particle (i + 1)))} {V : (Particle (i + 1) → Particle (i + 1)) → Prop} {I J : Particle (i + 1) → Prop} {d : DState (Particle (i + 1)) n},
      Free.Disc n ops V I J → (∀ a, I (d.val a)) → Full d → d.flight = [] → (∀ a t, J a → J { a with dt := t }) →
      DExec NearLists (2 ^ m) (ops ++ [stepOp z]) home d none ∨
      ∃ d', DExec NearLists (2 ^ m) (ops ++ [stepOp z]) home d (some (home, d')) ∧ (∀ a, J (d'.val a)) ∧ Full d' ∧ d'.flight = [] := by
    intro ops V I J d hD hI hF hfl hJ
    obtain ⟨r, h1, h2⟩ := exec_exists hsearch hh hD hI hF hfl
    rcases r with _ | ⟨home1, d1⟩
    · exact Or.inl (exec_join_fail _ h1)
    · obtain ⟨rfl, hF1⟩ := h2 _ rfl
      obtain ⟨p1, p2⟩ := exec_post h1 hD hI hfl _ rfl
      by_cases hx : ∃ a, Timestep.computeDt (stepSettings z) (d1.val a) = none
      · obtain ⟨a, ha⟩ := hx
        exact Or.inl (exec_join h1 (.allFail a ha))
      · simp only [not_exists] at hx
        choose v hvv using fun a => Option.ne_none_iff_exists'.mp (hx a)
        refine Or.inr ⟨_, exec_join h1 (.all v hvv .nil), fun a => ?_, hF1, p2⟩
        obtain ⟨t, ht⟩ := computeDt_keep _ _ _ (hvv a)
        show _root_.id J (v a)
        rw [ht]; exact hJ _ _ (p1 a)
  have key : ∀ N c (d : DState (Particle (i + 1)) n), (∀ a, Sized (d.val a)) → (∀ a b, (d.val a).id = (d.val b).id → a = b) → Full d → d.flight = [] → ∃ steps r, Run NearLists g m z N c home d steps r := by
    intro N
    induction N with
    | zero => intro c d _ _ _ _; exact ⟨_, _, .nil⟩
    | succ N ih =>
      intro c d hp hi hF hf
      have hH : Free.Disc n (headOps z c) (fun _ => False) Sized DistRun.Dense := free_head z hv c hext
      obtain ⟨r, h1, h2⟩ := exec_exists hsearch hh hH hp hF hf
      rcases r with _ | ⟨home1, d1⟩
      · exact ⟨_, _, .failed (.failHead h1)⟩
      obtain ⟨rfl, hF1⟩ := h2 _ rfl
      obtain ⟨p1, p2⟩ := exec_post h1 hH hp hf _ rfl
      have i1 : ∀ a b, (d1.val a).id = (d1.val b).id → a = b := by
        intro a b hab
        have k : ∀ a, (d1.val a).id = (d.val a).id := fun a => congrArg Prod.fst (dexec_keep h1 (keep_head z hv c) _ rfl a)
        exact hi a b (by rw [← k, ← k, hab])
      by_cases hsep : Separate (maxDepth g.bits (i + 1)) fun a => bodyOf (d1.val a)
      · obtain ⟨pot, acc, -, hG⟩ := gravitated_spec g hbits hn (fun a => bodyOf (d1.val a)) (fun a => (p1 a).1) (fun a => (p1 a).2.1) hsep
        have hg := (hG d1.val (fun _ => rfl) i1 m).1 hm
        by_cases hc : c.iteration = z.initialIteration
        · rcases part (d := { d1 with val := fun a => { d1.val a with gpot := pot a, gacc := acc a } }) (free_mid z c.iteration hrep) (fun a => p1 a) hF1 p2 (fun a t h => h) with h3 | ⟨d2, h3, q1, q2, q3⟩
          · exact ⟨_, _, .failed (.failMid hc h1 hsep hg h3)⟩
          · have hR := Free.disc_rest (n := n) z he hw (Timestep.setAdaptive z.outputs (limits (2 ^ m) home1 d2.val) c).dt (Timestep.setAdaptive z.outputs (limits (2 ^ m) home1 d2.val) c).iteration
            rcases part hR q1 q2 q3 (fun a t h => h) with h4 | ⟨d3, h4, r1, r2, r3⟩
            · exact ⟨_, _, .failed (.failRest hc h1 hsep hg h3 rfl h4)⟩
            · have hi3 := iter_ids hv he hw hrep hext g hbits hn hp hi hf (.first hc h1 hsep hg h3 rfl h4)
              obtain ⟨steps, r, hr⟩ := ih _ d3 r1 (fun a b hab => hi a b (by rw [← hi3, ← hi3, hab])) r2 r3
              exact ⟨_, r, .cons (.first hc h1 hsep hg h3 rfl h4) hr⟩
        · rcases part (d := { d1 with val := fun a => { d1.val a with gpot := pot a, gacc := acc a } }) (free_next z he hw c hrep hc) (fun a => p1 a) hF1 p2 (fun a t h => h) with h3 | ⟨d2, h3, q1, q2, q3⟩
          · exact ⟨_, _, .failed (.failNext hc h1 hsep hg h3)⟩
          · have hi3 := iter_ids hv he hw hrep hext g hbits hn hp hi hf (.next hc h1 hsep hg h3)
            obtain ⟨steps, r, hr⟩ := ih _ d2 q1 (fun a b hab => hi a b (by rw [← hi3, ← hi3, hab])) q2 q3
            exact ⟨_, r, .cons (.next hc h1 hsep hg h3) hr⟩
      · exact ⟨_, _, .clash (.clash h1 hsep)⟩
  exact key N c _ hpos hid (fun _ _ => rfl) rfl

omit hv he hw hrep hext in
/-- Gravity from the same particles, on any numbers of processes. -/
private theorem same_gravity {m m' : Nat} {s s' v v' : Fin n → Particle (i + 1)} (hd : ∀ a, DistRun.Dense (s a)) (hid : ∀ a b, (s a).id = (s b).id → a = b) (e : ∀ a, Free.er (s a) = Free.er (s' a))
    (hsep : Separate (maxDepth g.bits (i + 1)) fun a => bodyOf (s a)) (h : Gravitated g m s v) (h' : Gravitated g m' s' v') : ∀ a, Free.er (v a) = Free.er (v' a) := by
  obtain ⟨pot, acc, -, hG⟩ := gravitated_spec g hbits hn (fun a => bodyOf (s a)) (fun a => (hd a).1) (fun a => (hd a).2.1) hsep
  have hb : ∀ a, bodyOf (s' a) = bodyOf (s a) := fun a => by have := congrArg bodyOf (e a); exact this.symm
  have hi : ∀ a, (s' a).id = (s a).id := fun a => by have := congrArg Particle.id (e a); exact this.symm
  have h1 := (hG s (fun _ => rfl) hid m).2 v h
  have h2 := (hG s' hb (fun a b hab => hid a b (by rw [← hi, ← hi, hab])) m').2 v' h'
  intro a
  rw [h1, h2]
  exact congrArg (fun x : Particle (i + 1) => ({ x with gpot := pot a, gacc := acc a } : Particle (i + 1))) (e a)

/-- One iteration, replayed with the same clocks. -/
private theorem iter_replay {m m' : Nat} {c c1 c2 c2' : Timestep.Clock} {home home' homex homex' : Fin n → Nat} {d d' dx dx' : DState (Particle (i + 1)) n} (hs : ∀ a, Sized (d.val a)) (hs' : ∀ a, Sized (d'.val a))
    (hid : ∀ a b, (d.val a).id = (d.val b).id → a = b) (hf : d.flight = []) (hf' : d'.flight = []) (e : ∀ a, Free.er (d.val a) = Free.er (d'.val a)) (h : Iter NearLists g m z c home d (.done c1 c2 homex dx))
    (h' : Iter NearLists g m' z c home' d' (.done c1 c2' homex' dx')) : ∀ a, Free.er (dx.val a) = Free.er (dx'.val a) := by
  have hid' : ∀ a b, (d'.val a).id = (d'.val b).id → a = b := by
    have hi : ∀ a, (d'.val a).id = (d.val a).id := fun a => by have := congrArg Particle.id (e a); exact this.symm
    exact fun a b hab => hid a b (by rw [← hi, ← hi, hab])
  have hH : Free.Disc n (headOps z c) (fun _ => False) Sized DistRun.Dense := free_head z hv c hext
  have idk : ∀ {procs : Nat} {home homey : Fin n → Nat} {d y : DState (Particle (i + 1)) n}, DExec NearLists procs (headOps z c) home d (some (homey, y)) → (∀ a b, (d.val a).id = (d.val b).id → a = b) →
      ∀ a b, (y.val a).id = (y.val b).id → a = b := by
    intro procs home homey d y h1 hi a b hab
    have k : ∀ a, (y.val a).id = (d.val a).id := fun a => congrArg Prod.fst (dexec_keep h1 (keep_head z hv c) _ rfl a)
    exact hi a b (by rw [← k, ← k, hab])
  cases h with
  | @first homeh dh v home1 d1 _ _ _ hc h1 h2 h3 h4 h5 h6 =>
    cases h' with
    | @first homeh' dh' v' home1' d1' _ _ _ _ h1' h2' h3' h4' h5' h6' =>
      obtain ⟨_, _, _, -, -, -, -, -, g6, g7, g8⟩ := to_gravity hv hext g hbits hn hs hid hf h1 h2 h3
      obtain ⟨_, _, _, -, -, -, -, -, g6', g7', g8'⟩ := to_gravity hv hext g hbits hn hs' hid' hf' h1' h2' h3'
      have e0 : ∀ a, Free.er (dh.val a) = Free.er (dh'.val a) := fun a => congrFun (Option.some.inj (exec_agree Free.near_er h1 hH (fun v h => h.elim) (fun v h => h.elim) hs hs' e h1')) a
      have e1 := same_gravity g hbits hn (exec_post h1 hH hs hf _ rfl).1 (idk h1 hid) e0 h2 h3 h3'
      obtain ⟨y, hA, hB⟩ := exec_split h4
      obtain ⟨y', hA', hB'⟩ := exec_split h4'
      have hM := free_mid (n := n) z c.iteration hrep
      have e2 : ∀ a, Free.er (y.2.val a) = Free.er (y'.2.val a) := fun a => congrFun (Option.some.inj
        (exec_agree (d := { dh with val := v }) (d' := { dh' with val := v' }) Free.near_er hA hM g8 g8' g6 g6' e1 hA')) a
      have e3 := fun a => (step_er hB a).trans ((e2 a).trans (step_er hB' a).symm)
      have dn := step_inv hB (J := DistRun.Dense) (fun _ _ h => h) (exec_post hA hM g6 g7 y rfl).1
      have dn' := step_inv hB' (J := DistRun.Dense) (fun _ _ h => h) (exec_post hA' hM g6' g7' y' rfl).1
      have hcons := exec_consistent h4 (mid_same z c.iteration) (g8 flow (Or.inl rfl)) _ rfl
      have hcons' := exec_consistent h4' (mid_same z c.iteration) (g8' flow (Or.inl rfl)) _ rfl
      obtain ⟨y2, hC, hE⟩ := exec_split h6
      obtain ⟨y2', hC', hE'⟩ := exec_split h6'
      have hR := Free.disc_rest (n := n) z he hw c1.dt c1.iteration
      have e4 : ∀ a, Free.er (y2.2.val a) = Free.er (y2'.2.val a) := fun a => congrFun (Option.some.inj
        (exec_agree Free.near_er hC hR (fun v h => by rw [h]; exact hcons) (fun v h => by rw [h]; exact hcons') dn dn' e3 hC')) a
      exact fun a => (step_er hE a).trans ((e4 a).trans (step_er hE' a).symm)
    | next hc' => exact absurd hc hc'
  | @next homeh dh v _ _ hc h1 h2 h3 h4 =>
    cases h' with
    | first hc' => exact absurd hc' hc
    | @next homeh' dh' v' _ _ _ h1' h2' h3' h4' =>
      obtain ⟨_, _, _, -, -, -, -, -, g6, g7, g8⟩ := to_gravity hv hext g hbits hn hs hid hf h1 h2 h3
      obtain ⟨_, _, _, -, -, -, -, -, g6', g7', g8'⟩ := to_gravity hv hext g hbits hn hs' hid' hf' h1' h2' h3'
      have e0 : ∀ a, Free.er (dh.val a) = Free.er (dh'.val a) := fun a => congrFun (Option.some.inj (exec_agree Free.near_er h1 hH (fun v h => h.elim) (fun v h => h.elim) hs hs' e h1')) a
      have e1 := same_gravity g hbits hn (exec_post h1 hH hs hf _ rfl).1 (idk h1 hid) e0 h2 h3 h3'
      obtain ⟨y, hA, hB⟩ := exec_split h4
      obtain ⟨y', hA', hB'⟩ := exec_split h4'
      have hN := free_next (n := n) z he hw c hrep hc
      have e2 : ∀ a, Free.er (y.2.val a) = Free.er (y'.2.val a) := fun a => congrFun (Option.some.inj
        (exec_agree (d := { dh with val := v }) (d' := { dh' with val := v' }) Free.near_er hA hN g8 g8' g6 g6' e1 hA')) a
      exact fun a => (step_er hB a).trans ((e2 a).trans (step_er hB' a).symm)

/-- Two runs from the same particles, on `2^m` and on `2^m'` processes, which set the same clocks, end with the same data of all particles but signal speeds and particle time steps. -/
theorem C101_replay {m m' N : Nat} {c c' c'' : Timestep.Clock} {home home' : Fin n → Nat} {d d' : DState (Particle (i + 1)) n} (hsame : d.val = d'.val) (hpos : ∀ a, 0 < (d.val a).mass ∧ 0 < (d.val a).h)
    (hid : ∀ a b, (d.val a).id = (d.val b).id → a = b) (hf : d.flight = []) (hf' : d'.flight = []) {steps : List (Timestep.Clock × Timestep.Clock)} {s s' : Fin n → Particle (i + 1)}
    (h : Run NearLists g m z N c home d steps (.done c' s)) (h' : Run NearLists g m' z N c home' d' steps (.done c'' s')) :
    c' = c'' ∧ ∀ a, ({ s a with vsig := 0, dt := 0 } : Particle (i + 1)) = { s' a with vsig := 0, dt := 0 } := by
  have gen : ∀ {N : Nat} {c : Timestep.Clock} {home : Fin n → Nat} {d : DState (Particle (i + 1)) n} {steps : List (Timestep.Clock × Timestep.Clock)} {r : Outcome i n},
      Run NearLists g m z N c home d steps r → ∀ {home' : Fin n → Nat} {d' : DState (Particle (i + 1)) n}, Run NearLists g m' z N c home' d' steps (.done c'' s') → (∀ a, Sized (d.val a)) →
      (∀ a b, (d.val a).id = (d.val b).id → a = b) → d.flight = [] → d'.flight = [] → (∀ a, Free.er (d.val a) = Free.er (d'.val a)) → r = .done c' s → c' = c'' ∧ ∀ a, Free.er (s a) = Free.er (s' a) := by
    intro N c home d steps r h
    induction h with
    | nil =>
      intro home' d' h' _ _ _ _ e hx
      cases hx
      cases h'
      exact ⟨rfl, e⟩
    | failed => intro _ _ _ _ _ _ _ _ h; cases h
    | clash => intro _ _ _ _ _ _ _ _ h; cases h
    | cons h1 _ ih =>
      intro home' d' h' a1 a2 a3 a4 a5 hx
      cases h' with
      | cons h1' h2' =>
        have a1' := er_sized a5 a1
        have a2' : ∀ a b, (d'.val a).id = (d'.val b).id → a = b := by
          intro a b hab
          have k : ∀ a, (d'.val a).id = _ := fun a => by have := congrArg Particle.id (a5 a); exact this.symm
          exact a2 a b (by rw [k, k] at hab; exact hab)
        obtain ⟨-, b1, b2, -⟩ := one_process hv he hw hrep hext g hbits hn a1 a2 a3 h1
        obtain ⟨-, b1', b2', -⟩ := one_process hv he hw hrep hext g hbits hn a1' a2' a4 h1'
        have ci := iter_ids hv he hw hrep hext g hbits hn a1 a2 a3 h1
        exact ih h2' b1 (fun a b hab => a2 a b (by rw [← ci, ← ci, hab])) b2 b2' (iter_replay hv he hw hrep hext g hbits hn a1 a1' a2 a3 a4 a5 h1 h1') hx
  exact gen h h' hpos hid hf hf' (fun a => by rw [hsame]) rfl

end

/-! ### Polytropic gas -/

/-- A call which does not fail on particles with a property. -/
private def Safe {P : Type} (I : P → Prop) : Op P → Prop
  | .all f => ∀ a, I a → f a ≠ none
  | .pass _ f => ∀ a l, f a l ≠ none
  | _ => True

private theorem dpass_safe {P : Type} {home : Fin n → Nat} {f : P → List P → Option P} {nbs : Fin n → List (Fin n)} {todo : List (Fin n)} {d : DState P n} {r : Option (DState P n)} (h : DPass home f nbs todo d r)
    (hf : ∀ a l, f a l ≠ none) : r ≠ none := by
  induction h with
  | done => simp
  | send _ _ _ _ ih => exact ih
  | recv _ _ _ _ _ _ _ ih => exact ih
  | visit _ _ _ _ _ _ _ _ ih => exact ih
  | fail _ _ _ _ _ hx => exact absurd hx (hf _ _)

private theorem exec_safe {P : Type} {near : (Fin n → P) → (Fin n → List (Fin n)) → Prop} {procs : Nat} {I : P → Prop} {ops : List (Op P)} {home : Fin n → Nat} {d : DState P n}
    {r : Option ((Fin n → Nat) × DState P n)} (h : DExec near procs ops home d r) : (∀ o ∈ ops, Keeps I o ∧ Safe I o) → (∀ a, I (d.val a)) → r ≠ none := by
  induction h with
  | nil => intro _ _; simp
  | @all f l home d r v hv _ ih =>
    intro ho hI
    have h1 : ∀ a x, I a → f a = some x → I x := (ho _ List.mem_cons_self).1
    exact ih (fun o h => ho o (List.mem_cons_of_mem _ h)) fun a => h1 _ _ (hI a) (hv a)
  | @allFail f l home d a ha =>
    intro ho hI
    exact absurd ha ((ho _ List.mem_cons_self).2 _ (hI a))
  | @pass k f l home d d' r nbs order h1 h2 h3 h4 _ ih =>
    intro ho hI
    have h0 : ∀ a l x, I a → f a l = some x → I x := (ho _ List.mem_cons_self).1
    exact ih (fun o h => ho o (List.mem_cons_of_mem _ h)) (dpass_inv h0 h4 h2 (fun a _ => hI a) (fun a ha => absurd (h3 a) ha) d' rfl)
  | @passFail k f l home d nbs order h1 h2 h3 h4 =>
    intro ho hI
    exact absurd rfl (dpass_safe h4 (ho _ List.mem_cons_self).2)
  | reset hb _ ih => intro ho hI; exact ih (fun o h => ho o (List.mem_cons_of_mem _ h)) fun a => by rw [hb.val]; exact hI a
  | update _ hb _ ih => intro ho hI; exact ih (fun o h => ho o (List.mem_cons_of_mem _ h)) fun a => by rw [hb.val]; exact hI a
  | @mean g set l home d r hh _ ih =>
    intro ho hI
    have h0 : ∀ x a, I a → I (set x a) := (ho _ List.mem_cons_self).1
    exact ih (fun o h => ho o (List.mem_cons_of_mem _ h)) fun a => h0 _ _ (hI a)

/-- What the calls after gravity keep. -/
private def Solid (a : Particle (i + 1)) : Prop := 0 < a.rho ∧ 0 ≤ a.P ∧ 0 ≤ a.K

section
variable {z : Config i} (hv : z.sph.visc = .constant) (he : 0 < z.eta) (hw : 0 < z.width) (hrep : z.repulsionRadius ≤ 1)
  (hext : ∀ a, z.sph.external { a with vsig := 0, dt := 0 } = z.sph.external a) (g : Gravity) (hbits : i.val + 1 < g.bits) (hn : 2 ≤ n)
  (hκ : NonNegKernel z.sph.kernel) (hp : z.eos = .polytropic) (hev : z.evolve = false)

include hev in
private theorem solid_step : Keeps (Solid (i := i)) (stepOp z) ∧ Safe (Solid (i := i)) (stepOp z) := by
  refine ⟨fun a x ha hx => ?_, fun a _ => ?_⟩
  · obtain ⟨t, rfl⟩ := computeDt_keep _ _ _ hx; exact ha
  · unfold Timestep.computeDt
    rw [if_neg (by simp [stepSettings, hev])]
    simp

include hev in
private theorem solid_last : ∀ o ∈ lastOps z, Keeps (Solid (i := i)) o ∧ Safe (Solid (i := i)) o := by
  intro o h
  unfold lastOps at h
  rcases List.mem_append.mp h with h | h
  · cases hm : z.hMode
    all_goals rw [hm] at h; simp only [List.mem_cons, List.not_mem_nil, or_false] at h
    · subst h; exact ⟨keeps_all fun a h => h, fun a _ => by simp⟩
    · subst h; exact ⟨fun x a h => h, trivial⟩
  · obtain rfl := List.mem_singleton.mp h
    refine ⟨fun a x ha hx => ?_, fun a ha => ?_⟩
    · simp only at hx
      split_ifs at hx
      obtain rfl := Option.some.inj hx; exact ha
    · have : 0 ≤ a.rho ∧ 0 ≤ a.P ∧ (z.evolve = true → 0 ≤ a.u) := ⟨ha.1.le, ha.2.1, fun h => by rw [hev] at h; cases h⟩
      have e : (if 0 ≤ a.rho ∧ 0 ≤ a.P ∧ (z.evolve = true → 0 ≤ a.u) then some a else none) = some a := if_pos this
      exact fun h => by cases e.symm.trans h

private theorem solid_relax (it : Int) : ∀ o ∈ relaxOps z it, Keeps (Solid (i := i)) o ∧ Safe (Solid (i := i)) o := by
  intro o h
  refine ⟨keeps_relax it (fun a x h => h) o h, ?_⟩
  unfold relaxOps at h
  split_ifs at h
  · simp only [List.mem_cons, List.not_mem_nil, or_false] at h
    rcases h with rfl | rfl
    · exact fun a _ => by simp
    · exact fun a l => by simp
  · cases h

include hev in
private theorem solid_mid (it : Int) : ∀ o ∈ midOps z it ++ [stepOp z], Keeps (Solid (i := i)) o ∧ Safe (Solid (i := i)) o := by
  intro o h
  unfold midOps at h
  rcases List.mem_append.mp h with h | h
  · rcases List.mem_append.mp h with h | h
    · exact solid_relax it o h
    · split_ifs at h
      · obtain rfl := List.mem_singleton.mp h; exact ⟨keeps_all fun a h => h, fun a _ => by simp⟩
      · cases h
  · obtain rfl := List.mem_singleton.mp h; exact solid_step hev

include hev in
private theorem solid_rest (dt : ℝ) (it : Int) : ∀ o ∈ firstRest z dt it ++ [stepOp z], Keeps (Solid (i := i)) o ∧ Safe (Solid (i := i)) o := by
  intro o h
  unfold firstRest at h
  rw [if_neg (by simp [hev])] at h
  simp only [List.nil_append, List.mem_append, List.mem_cons, List.not_mem_nil, or_false] at h
  rcases h with h | rfl
  · exact solid_last hev o h
  · exact solid_step hev

include hev in
private theorem solid_tail {c : Timestep.Clock} (hc : c.iteration ≠ z.initialIteration) : ∀ o ∈ tailOps z c ++ [stepOp z], Keeps (Solid (i := i)) o ∧ Safe (Solid (i := i)) o := by
  intro o h
  unfold tailOps nextTail kickOps at h
  rw [if_neg hc, if_neg (by simp [hev]), if_neg (by simp [hev])] at h
  simp only [List.append_nil, List.mem_append, List.mem_cons, List.not_mem_nil, or_false] at h
  rcases h with ((h | rfl | rfl) | h) | rfl
  · exact solid_relax _ o h
  · exact ⟨keeps_all fun a h => h, fun a _ => by simp⟩
  · exact ⟨trivial, trivial⟩
  · exact solid_last hev o h
  · exact solid_step hev

include hv hκ hp hev in
/-- The calls before gravity on one process. -/
private theorem head_solid {c : Timestep.Clock} {s : Fin n → Particle (i + 1)} (hs : ∀ a, Sized (s a)) (h0 : c.iteration = z.initialIteration → ∀ a, 0 ≤ (s a).P ∧ 0 ≤ (s a).rho)
    (h1 : c.iteration ≠ z.initialIteration → ∀ a, 0 ≤ (s a).K) : ∃ s1, exec1 (everybody i n) (headOps z c) s = some s1 ∧ ∀ a, Solid (s1 a) := by
  have fin : ∀ {dt : ℝ} {first : Bool} {s0 s1 : Fin n → Particle (i + 1)}, thermo z dt first (everybody i n) s0 = some s1 → (∀ a, 0 ≤ (s1 a).P) → (∀ a, 0 ≤ (s0 a).K) →
      ∀ a, Solid (sphPass (everybody i n) 2 (computeAcceleration z.sph) s1 a) := by
    intro dt first s0 s1 ht hP hK a
    have kt := thermo_keep z _ _ (everybody i n) all_order _ _ ht a
    have e : (s1 a).K = (s0 a).K := by
      have := kt.1
      simp only [energetics, dynamics, motion, Prod.mk.injEq] at this
      tauto
    have k : ((sphPass (everybody i n) 2 (computeAcceleration z.sph) s1 a).rho, (sphPass (everybody i n) 2 (computeAcceleration z.sph) s1 a).P, (sphPass (everybody i n) 2 (computeAcceleration z.sph) s1 a).K) =
        ((s1 a).rho, (s1 a).P, (s1 a).K) := pass_keep (computeAcceleration z.sph) (fun b : Particle (i + 1) => (b.rho, b.P, b.K)) (fun a l => rfl) _ _ _ a
    simp only [Prod.mk.injEq] at k
    refine ⟨?_, ?_, ?_⟩
    · rw [k.1]; exact kt.2
    · rw [k.2.1]; exact hP a
    · rw [k.2.2, e]; exact hK a
  by_cases hc : c.iteration = z.initialIteration
  · have eh : headOps z c = firstHead z c.dt := if_pos hc
    have ki := initialise_keep z s
    have kK : ∀ a, 0 ≤ (initialise z s a).K := by
      intro a
      unfold initialise
      simp only [hv, hp, Eos.init]
      have := h0 hc a
      have q : 0 ≤ (Eos.adiabaticPoly z.eosParams (s a)).K := div_nonneg this.1 (Real.rpow_nonneg this.2 _)
      split_ifs
      · exact q
      · exact q
    have sane0 : Sane (initialise z s) := by
      intro a
      have := ki a
      simp only [Prod.mk.injEq] at this
      rw [this.2.1, this.2.2.1]; exact hs a
    obtain ⟨s1, t1, p1⟩ := thermo_some z hκ hv hp hev c.dt true (everybody i n) (everybody_faithful i n) _ sane0 kK
    rw [eh, exec1_firstHead _ _ hv, t1]
    exact ⟨_, rfl, fin t1 p1 kK⟩
  · have eh : headOps z c = nextHead z c.dt := if_neg hc
    have e0 : kickDrift z c.dt s = applyAll (drift c.dt) (applyAll saveVelocityhalf (applyAll (kickV c.dt) s)) := by
      unfold kickDrift kickEnergy; rw [if_neg (by simp [hev])]
    have kK : ∀ a, 0 ≤ (kickDrift z c.dt s a).K := by rw [e0]; exact h1 hc
    obtain ⟨s1, t1, p1⟩ := thermo_some z hκ hv hp hev c.dt false (everybody i n) (everybody_faithful i n) _ (show Sane (kickDrift z c.dt s) by rw [e0]; exact hs) kK
    rw [eh, exec1_nextHead, t1]
    exact ⟨_, rfl, fin t1 p1 kK⟩

include hv hext hbits hn hκ hp hev in
/-- An iteration of a polytropic gas does not fail. -/
private theorem iter_poly {m : Nat} {c : Timestep.Clock} {home : Fin n → Nat} {d : DState (Particle (i + 1)) n} {x : End i n} (hs : ∀ a, Sized (d.val a)) (hid : ∀ a b, (d.val a).id = (d.val b).id → a = b)
    (hf : d.flight = []) (h0 : c.iteration = z.initialIteration → ∀ a, 0 ≤ (d.val a).P ∧ 0 ≤ (d.val a).rho) (h1 : c.iteration ≠ z.initialIteration → ∀ a, 0 ≤ (d.val a).K)
    (h : Iter NearLists g m z c home d x) : x ≠ .failed ∧ ∀ c1 c2 home' d', x = .done c1 c2 home' d' → ∀ a, Solid (d'.val a) := by
  obtain ⟨s1, k1, k2⟩ := head_solid hv hκ hp hev hs h0 h1
  have hH : Free.Disc n (headOps z c) (fun _ => False) Sized DistRun.Dense := free_head z hv c hext
  have grav : ∀ {home' : Fin n → Nat} {d' : DState (Particle (i + 1)) n} {v : Fin n → Particle (i + 1)}, DExec NearLists (2 ^ m) (headOps z c) home d (some (home', d')) →
      Separate (maxDepth g.bits (i + 1)) (fun a => bodyOf (d'.val a)) → Gravitated g m d'.val v → ∀ a, Solid (v a) := by
    intro home' d' v g1 g2 g3 a
    obtain ⟨s1', pot, acc, e1, e2, -, -, e5, -⟩ := to_gravity hv hext g hbits hn hs hid hf g1 g2 g3
    obtain rfl := Option.some.inj (k1.symm.trans e1)
    rw [e5]
    have := e2 a
    have q1 := congrArg Particle.rho this
    have q2 := congrArg Particle.P this
    have q3 := congrArg Particle.K this
    simp only [Free.er] at q1 q2 q3
    show 0 < (d'.val a).rho ∧ 0 ≤ (d'.val a).P ∧ 0 ≤ (d'.val a).K
    rw [q1, q2, q3]; exact k2 a
  cases h with
  | failHead g1 =>
    have := agree_fail (everybody i n) (fun s _ => all_near s) all_order hH g1 (fun v h => h.elim) hs d.val hs (fun _ => rfl)
    rw [k1] at this
    cases this
  | clash => exact ⟨by simp, fun _ _ _ _ h => by cases h⟩
  | failMid hc g1 g2 g3 g4 => exact absurd rfl (exec_safe g4 (solid_mid hev _) (grav g1 g2 g3))
  | failRest hc g1 g2 g3 g4 g5 g6 => exact absurd rfl (exec_safe g6 (solid_rest hev _ _) (exec_keeps g4 (fun o h => (solid_mid hev _ o h).1) (grav g1 g2 g3) _ rfl))
  | failNext hc g1 g2 g3 g4 => exact absurd rfl (exec_safe g4 (solid_tail hev hc) (grav g1 g2 g3))
  | first hc g1 g2 g3 g4 g5 g6 =>
    refine ⟨by simp, fun _ _ _ _ h => ?_⟩
    cases h
    exact exec_keeps g6 (fun o h => (solid_rest hev _ _ o h).1) (exec_keeps g4 (fun o h => (solid_mid hev _ o h).1) (grav g1 g2 g3) _ rfl) _ rfl
  | next hc g1 g2 g3 g4 =>
    refine ⟨by simp, fun _ _ _ _ h => ?_⟩
    cases h
    exact exec_keeps g4 (fun o h => (solid_tail hev hc o h).1) (grav g1 g2 g3) _ rfl

include hv he hw hrep hext hbits hn hκ hp hev

/-- No run of a polytropic gas with a kernel which is not negative, the internal energy not evolved, stops on an assertion: all iterations are done, and then masses, smoothing lengths and densities are positive
and pressures not negative, or two particles come into one cell of the finest grid. -/
theorem C101_polytropic_partial {m N : Nat} (hN : 0 < N) {c : Timestep.Clock} {home : Fin n → Nat} {d : DState (Particle (i + 1)) n} (hstart : c.iteration = z.initialIteration)
    (hpos : ∀ a, 0 < (d.val a).mass ∧ 0 < (d.val a).h ∧ 0 ≤ (d.val a).P ∧ 0 ≤ (d.val a).rho) (hid : ∀ a b, (d.val a).id = (d.val b).id → a = b) (hf : d.flight = [])
    {steps : List (Timestep.Clock × Timestep.Clock)} {r : Outcome i n} (h : Run NearLists g m z N c home d steps r) :
    (∃ k, r = .clash k) ∨ ∃ c' s, r = .done c' s ∧ c'.iteration = c.iteration + N ∧ ∀ a, 0 < (s a).mass ∧ 0 < (s a).h ∧ 0 < (s a).rho ∧ 0 ≤ (s a).P := by
  have gen : ∀ {N : Nat} {c : Timestep.Clock} {home : Fin n → Nat} {d : DState (Particle (i + 1)) n} {steps : List (Timestep.Clock × Timestep.Clock)} {r : Outcome i n},
      Run NearLists g m z N c home d steps r → (∀ a, Sized (d.val a)) → (∀ a b, (d.val a).id = (d.val b).id → a = b) → d.flight = [] → (∀ a, Solid (d.val a)) → z.initialIteration < c.iteration →
      (∃ k, r = .clash k) ∨ ∃ c' s, r = .done c' s ∧ c'.iteration = c.iteration + N ∧ ∀ a, 0 < (s a).mass ∧ 0 < (s a).h ∧ 0 < (s a).rho ∧ 0 ≤ (s a).P := by
    intro N c home d steps r h
    induction h with
    | nil => intro a1 _ _ a4 _; exact Or.inr ⟨_, _, rfl, by simp, fun a => ⟨(a1 a).1, (a1 a).2, (a4 a).1, (a4 a).2.1⟩⟩
    | failed h1 =>
      intro a1 a2 a3 a4 a5
      exact absurd rfl (iter_poly hv hext g hbits hn hκ hp hev a1 a2 a3 (fun h => by omega) (fun _ a => (a4 a).2.2) h1).1
    | clash => intro _ _ _ _ _; exact Or.inl ⟨_, rfl⟩
    | cons h1 _ ih =>
      intro a1 a2 a3 a4 a5
      have b4 := (iter_poly hv hext g hbits hn hκ hp hev a1 a2 a3 (fun h => by omega) (fun _ a => (a4 a).2.2) h1).2 _ _ _ _ rfl
      obtain ⟨-, b1, b3, b5⟩ := one_process hv he hw hrep hext g hbits hn a1 a2 a3 h1
      have ci := iter_ids hv he hw hrep hext g hbits hn a1 a2 a3 h1
      rcases ih b1 (fun a b hab => a2 a b (by rw [← ci, ← ci, hab])) b3 b4 (by omega) with h | ⟨c', s, e1, e2, e3⟩
      · exact Or.inl h
      · exact Or.inr ⟨c', s, e1, by rw [e2, b5]; push_cast; ring, e3⟩
  have hs : ∀ a, Sized (d.val a) := fun a => ⟨(hpos a).1, (hpos a).2.1⟩
  cases h with
  | nil => exact absurd hN (lt_irrefl 0)
  | failed h1 => exact absurd rfl (iter_poly hv hext g hbits hn hκ hp hev hs hid hf (fun _ a => (hpos a).2.2) (fun h => absurd hstart h) h1).1
  | clash => exact Or.inl ⟨_, rfl⟩
  | cons h1 h2 =>
    have b4 := (iter_poly hv hext g hbits hn hκ hp hev hs hid hf (fun _ a => (hpos a).2.2) (fun h => absurd hstart h) h1).2 _ _ _ _ rfl
    obtain ⟨-, b1, b3, b5⟩ := one_process hv he hw hrep hext g hbits hn hs hid hf h1
    have ci := iter_ids hv he hw hrep hext g hbits hn hs hid hf h1
    rcases gen h2 b1 (fun a b hab => hid a b (by rw [← ci, ← ci, hab])) b3 b4 (by omega) with h | ⟨c', s, e1, e2, e3⟩
    · exact Or.inl h
    · exact Or.inr ⟨c', s, e1, by rw [e2, b5]; push_cast; ring, e3⟩

end

/-! ### Non-vacuity -/

/-- The first iteration of the two particles of Props/RunExamples.lean on two processes is done with an adaptive time step, and afterwards the first particle is attracted by the second, at distance 1/2 with
mass 1, with the acceleration 4, and the new time step is positive and respects its limits. -/
theorem two_adaptive {dt : ℝ} (hdt : 0 < dt) : ∃ steps c s, Run NearLists ⟨64, 1000, 0, 1⟩ 1 (gas false .polytropic) 1 (start dt).clock (fun a => a.val) ⟨two, fun _ b => some (two b), []⟩ steps (.done c s) ∧
    (s 0).gacc 0 = 4 ∧ linearMomentum (i := 1) s 1 = 2 / 3 ∧ 0 < c.dt ∧ c.totaltime = (start dt).clock.totaltime + c.dt := by
  have hp : ∀ a, 0 < (two a).mass ∧ 0 < (two a).h := fun a => by simp [two]
  have hid : ∀ a b : Fin 2, (two a).id = (two b).id → a = b := fun a b h => Fin.ext h
  have he : 0 < (gas false .polytropic).eta := by norm_num [gas]
  have hw : 0 < (gas false .polytropic).width := by norm_num [gas]
  have hr : (gas false .polytropic).repulsionRadius ≤ 1 := by norm_num [gas]
  have hcfl : 0 < (gas false .polytropic).cfl := by norm_num [gas]
  have hal : 0 ≤ (gas false .polytropic).sph.alpha := by norm_num [gas]
  have ho : ∀ k, (gas false .polytropic).outputs.interval k ≤ 0 := fun k => by simp [gas]
  have hκ : NonNegKernel (gas false .polytropic).sph.kernel := Or.inl Poly.wendlandC4
  obtain ⟨steps, r, h⟩ := C101_exists (z := gas false .polytropic) rfl he hw hr (fun _ => rfl) ⟨64, 1000, 0, 1⟩ (show (1 : Fin 3).val + 1 < 64 by decide) (by decide) (m := 1) (N := 1) (by decide) (c := (start dt).clock)
    (home := fun a => a.val) (fun a => a.isLt) two hp hid
  have hd := C101_polytropic_partial (z := gas false .polytropic) rfl he hw hr (fun _ => rfl) ⟨64, 1000, 0, 1⟩ (show (1 : Fin 3).val + 1 < 64 by decide) (by decide) hκ rfl rfl Nat.one_pos rfl
    (fun a => by simp [two]) hid rfl h
  rcases hd with ⟨k, rfl⟩ | ⟨c, s, rfl, -, -⟩
  · -- the first iteration does not move the particles
    exfalso
    cases h with
    | clash h1 =>
      cases h1 with
      | @clash home' d' hx hns =>
        obtain ⟨s1, e1, e2⟩ := agree (everybody 1 2) (fun s _ => all_near s) all_order (free_head (V := fun _ => False) (gas false .polytropic) rfl _ fun _ => rfl) hx (fun v h => h.elim) hp two hp (fun _ => rfl)
        have hs := AdaptNewton.head_congr (head_step (everybody 1 2) (everybody_faithful _ _) _ rfl (fun _ => rfl) _ (show (gas false .polytropic).sph.relaxationSteps ≤ 0 from le_rfl) hp e1) fun a => (e2 a).symm
        have : (fun a => bodyOf (d'.val a)) = fun a => bodyOf (i := 1) (two a) := by
          funext a
          have q1 := (hs.pos a).trans (if_pos rfl)
          have q2 := hs.mass a
          have q3 := hs.h a
          simp only [bodyOf]
          rw [q1, q2, q3]
        exact hns (this ▸ two_separate)
    | cons _ h2 => cases h2
  · refine ⟨steps, c, s, h, ?_, ?_, ?_⟩
    · obtain ⟨S, T, g0, g1, -, -, -, -, g2⟩ := C101_leapfrog_partial (z := gas false .polytropic) he hw (fun _ => rfl) ⟨64, 1000, 0, 1⟩ (by decide) le_rfl h le_rfl hp hid
      have g3 := g2 0 Nat.one_pos
      have g4 := g3.gravity 0 0 (by simp)
      simp only [ne_eq, OfNat.ofNat_ne_zero, not_false_eq_true, zero_pow, mul_zero, add_zero, zero_mul] at g4
      have g5 := Fmm.distance_eq_zero.1 (le_antisymm g4 (distance_nonneg _ _))
      have gp : ∀ a, (S 1 a).pos = (two a).pos := fun a => by
        have := g3.pos a
        rw [g0] at this
        exact this.trans (if_pos rfl)
      have gm : ∀ a, (S 1 a).mass = 1 := fun a => by
        have := g3.mass a
        rw [g0] at this
        exact this
      have g6 := congrFun g5 0
      rw [← g1]
      rw [zero_add] at g6
      rw [g6]
      have hu : (Finset.univ : Finset (Fin 2)).erase 0 = {1} := by decide
      simp only [accelerationAt, bodyOf, gp, gm, hu, Finset.sum_singleton, two_distance]
      simp [two]
      norm_num
    · rw [((C101_momentum_partial (z := gas false .polytropic) he hw (fun _ => rfl) ⟨64, 1000, 0, 1⟩ (by decide) le_rfl h le_rfl rfl hp hid).2.1 le_rfl).1 1]
      simp [linearMomentum, two]; norm_num
    · obtain ⟨k1, -, -, k4, -⟩ := C101_limits_partial (z := gas false .polytropic) he hw ⟨64, 1000, 0, 1⟩ (by decide) le_rfl hcfl hal ho Nat.one_pos (fun a => a.isLt) hp hid
        (fun a => by simp [two]) hdt h
      refine ⟨k1, ?_⟩
      cases h with
      | cons h1 h2 =>
        cases h2
        simpa using k4

/-- Runs of any length exist on one and on two processes, do not fail, and can be compared by C101_replay. -/
example (k : Nat) (hk : 0 < k) (dt angle : ℝ) : ∃ steps r, Run NearLists ⟨64, 1000, angle, 1⟩ 1 (gas false .polytropic) k (start dt).clock (fun a => a.val) ⟨two, fun _ b => some (two b), []⟩ steps r ∧ r ≠ .failed := by
  have hp : ∀ a, 0 < (two a).mass ∧ 0 < (two a).h := fun a => by simp [two]
  have hid : ∀ a b : Fin 2, (two a).id = (two b).id → a = b := fun a b h => Fin.ext h
  obtain ⟨steps, r, h⟩ := C101_exists (z := gas false .polytropic) rfl (by norm_num [gas]) (by norm_num [gas]) (by norm_num [gas]) (fun _ => rfl) ⟨64, 1000, angle, 1⟩ (show (1 : Fin 3).val + 1 < 64 by decide) (by decide)
    (m := 1) (N := k) (by decide) (c := (start dt).clock) (home := fun a => a.val) (fun a => a.isLt) two hp hid
  refine ⟨steps, r, h, ?_⟩
  rcases C101_polytropic_partial (z := gas false .polytropic) rfl (by norm_num [gas]) (by norm_num [gas]) (by norm_num [gas]) (fun _ => rfl) ⟨64, 1000, angle, 1⟩ (show (1 : Fin 3).val + 1 < 64 by decide) (by decide)
    (Or.inl Poly.wendlandC4) rfl rfl hk rfl (fun a => by simp [two]) hid rfl h with ⟨_, rfl⟩ | ⟨_, _, rfl, -⟩
  · simp
  · simp

/-- The state of the particles of the next example: internal energy 1, and gravity does not slow them down. -/
private def Falling (b : Particle 2) : Prop := Warm b ∧ 0 < b.rho ∧ b.u = 1 ∧ 0 ≤ dot b.vel b.gacc

private theorem falling_step (b : Particle 2) (hb : Falling b) (hs : 0 ≤ b.vsig) : Timestep.computeDt (stepSettings (gas true .noEos)) b ≠ none := by
  obtain ⟨⟨h1, h2, -⟩, -, h3, h4⟩ := hb
  have hdt : 0 ≤ Timestep.baseDt (stepSettings (gas true .noEos)) b := by
    unfold Timestep.baseDt
    have e : (stepSettings (gas true .noEos)).eta = 3 / 2 ∧ (stepSettings (gas true .noEos)).width = 2 ∧ (stepSettings (gas true .noEos)).cfl = 1 / 4 ∧ (stepSettings (gas true .noEos)).alpha = 0 := ⟨rfl, rfl, rfl, rfl⟩
    rw [e.1, e.2.1, e.2.2.1, e.2.2.2]
    refine mul_nonneg (by norm_num) (le_min (le_min ?_ (Real.sqrt_nonneg _)) ?_)
    · exact div_nonneg (by positivity) (add_nonneg (Real.sqrt_nonneg _) (by positivity))
    · exact div_nonneg (by positivity) (add_nonneg (by positivity) (mul_nonneg hs (by norm_num)))
  unfold Timestep.computeDt
  rw [if_pos (by rfl), if_pos (by rw [h3]; exact one_pos)]
  have : Timestep.deltaE (stepSettings (gas true .noEos)) b (Timestep.baseDt (stepSettings (gas true .noEos)) b) < b.u * (1 / 2) := by
    unfold Timestep.deltaE
    have := mul_nonneg hdt h4
    rw [h3]
    simp only [stepSettings, gas] at this ⊢
    linarith
  rw [Timestep.shrink, if_pos this]
  exact Option.some_ne_none _

/-- The first iteration with evolved energy does not stop on an assertion. -/
theorem falling_fail {m : Nat} {home : Fin 2 → Nat} (dt : ℝ) (d : DState (Particle (((1 : Fin 3) : ℕ) + 1)) 2) (hd : d.val = two) (hfl : d.flight = []) :
    ¬Iter NearLists ⟨64, 1000, 0, 1⟩ m (gas true .noEos) (start dt).clock home d .failed := by
  have hp : ∀ a, Sized (i := 1) (d.val a) := fun a => by rw [hd]; exact ⟨one_pos, one_pos⟩
  have hid : ∀ a b : Fin 2, (d.val a).id = (d.val b).id → a = b := fun a b h => by rw [hd] at h; exact Fin.ext h
  have he : 0 < (gas true .noEos).eta := by norm_num [gas]
  have hw : 0 < (gas true .noEos).width := by norm_num [gas]
  have hr : (gas true .noEos).repulsionRadius ≤ 1 := by norm_num [gas]
  obtain ⟨t1, ht1, hw1⟩ := heating_thermo dt
  have eh : exec1 (everybody 1 2) (headOps (gas true .noEos) (start dt).clock) d.val = some (sphPass (everybody 1 2) 2 (computeAcceleration (gas true .noEos).sph) t1) := by
    have : headOps (gas true .noEos) (start dt).clock = firstHead (gas true .noEos) dt := if_pos rfl
    rw [this, exec1_firstHead _ _ rfl, hd]
    exact congrArg _ ht1
  have hfail : ∀ {home : Fin 2 → Nat} {y : DState (Particle 2) 2}, DExec (n := 2) (P := Particle 2) NearLists (2 ^ m) [stepOp (gas true .noEos)] home y none → (∀ a, Falling (y.val a) ∧ 0 ≤ (y.val a).vsig) → False := by
    intro home y h hy
    cases h with
    | all v hv h => cases h
    | allFail a ha => exact falling_step _ (hy a).1 (hy a).2 ha
  have hmid : midOps (gas true .noEos) (start dt).clock.iteration = [.all fun a => some (setTotalEnergy (gas true .noEos).phi a)] := by
    unfold midOps relaxOps
    rw [if_neg (show ¬ (start dt).clock.iteration < (gas true .noEos).sph.relaxationSteps from lt_irrefl 0), if_pos (show (gas true .noEos).thermokinetic = true from rfl)]
    rfl
  -- up to the first time step
  have before : ∀ {home' : Fin 2 → Nat} {d' : DState (Particle (((1 : Fin 3) : ℕ) + 1)) 2} {v : Fin 2 → Particle (((1 : Fin 3) : ℕ) + 1)},
      DExec NearLists (2 ^ m) (headOps (gas true .noEos) (start dt).clock) home d (some (home', d')) → Separate (maxDepth 64 (((1 : Fin 3) : ℕ) + 1)) (fun a => bodyOf (d'.val a)) →
      Gravitated ⟨64, 1000, 0, 1⟩ m d'.val v → (∀ a, Falling (setTotalEnergy (gas true .noEos).phi (v a))) ∧ (∀ a, 0 ≤ (v a).vsig) := by
    intro home' d' v h1 h2 h3
    obtain ⟨s1, pot, acc, e1, e2, -, hc, rfl, -⟩ := to_gravity (z := gas true .noEos) rfl (fun _ => rfl) ⟨64, 1000, 0, 1⟩ (by decide) le_rfl hp hid hfl h1 h2 h3
    obtain rfl := Option.some.inj (eh.symm.trans e1)
    have hstep := head_step (everybody 1 2) (everybody_faithful _ _) (gas true .noEos) rfl (fun _ => rfl) (start dt).clock (show (gas true .noEos).sph.relaxationSteps ≤ 0 from le_rfl) hp eh
    have hk : ∀ a, ∃ x y w, sphPass (everybody 1 2) 2 (computeAcceleration (gas true .noEos).sph) t1 a = { t1 a with acc := x, gacc := y, gpot := w } := fun a => forces_keep (gas true .noEos) 0 (everybody 1 2) t1 a
    obtain ⟨f, hf⟩ : ∃ f, f = sphPass (everybody 1 2) 2 (computeAcceleration (gas true .noEos).sph) t1 := ⟨_, rfl⟩
    rw [← hf] at e2 hc hstep
    have gp : ∀ a, (f a).pos = (two a).pos := fun a => by have := (hstep.pos a).trans (if_pos rfl); rw [hd] at this; exact this
    have gv : ∀ a, (f a).vel = (two a).vel := fun a => by have := (hstep.vel a).trans (if_pos rfl); rw [hd] at this; exact this
    have gm : ∀ a, (f a).mass = 1 := fun a => by have := hstep.mass a; rw [hd] at this; exact this
    have hvs := exec_keeps h1 (keeps_head _) (fun a => by rw [hd]; exact le_rfl) _ rfl
    refine ⟨fun a => ?_, hvs⟩
    have q : ∀ a, d'.val a = { f a with vsig := (d'.val a).vsig, dt := (d'.val a).dt } := by
      obtain ⟨w, x, e⟩ := er_split fun a => (e2 a).symm
      intro a
      rw [e]
    have hacc : acc a = accelerationAt 1 (fun b => bodyOf (f b)) a := by
      have := (hc a 0 (by simp)).1
      simp only [ne_eq, OfNat.ofNat_ne_zero, not_false_eq_true, zero_pow, mul_zero, add_zero, zero_mul] at this
      exact Fmm.distance_eq_zero.1 (le_antisymm this (distance_nonneg _ _))
    obtain ⟨x, y, w, hfa⟩ := hk a
    rw [← hf] at hfa
    obtain ⟨⟨k1, k2, k3, k4, k5⟩, k6, k7⟩ := hw1 a
    have c1 : (f a).mass = (t1 a).mass ∧ (f a).h = (t1 a).h ∧ (f a).P = (t1 a).P ∧ (f a).u = (t1 a).u ∧ (f a).rho = (t1 a).rho := by rw [hfa]; exact ⟨rfl, rfl, rfl, rfl, rfl⟩
    dsimp only
    rw [q a]
    refine ⟨⟨?_, ?_, ?_, ?_, ?_⟩, ?_, ?_, ?_⟩
    · exact c1.1 ▸ k1
    · exact c1.2.1 ▸ k2
    · show 1 / 2 * dot (f a).vel (f a).vel + (f a).u + 0 = 1 / 2 * dot (f a).vel (f a).vel + 1
      rw [c1.2.2.2.1, k6]; ring
    · exact c1.2.2.1 ▸ k4
    · exact c1.2.2.2.1 ▸ k5
    · exact c1.2.2.2.2 ▸ k7
    · exact c1.2.2.2.1.trans k6
    · show 0 ≤ dot (f a).vel (acc a)
      have hu : ∀ a : Fin 2, (Finset.univ : Finset (Fin 2)).erase a = {1 - a} := by decide
      rw [hacc, gv]
      have hd := two_distance
      simp only [dot, accelerationAt, bodyOf, gp, gm, hu, Finset.sum_singleton]
      fin_cases a
      · simp [Fin.sum_univ_two, hd]
        simp [two]
      · simp [Fin.sum_univ_two, distance_comm (two 1).pos (two 0).pos, hd]
        simp [two]; norm_num
  intro h
  cases h with
  | failHead hx =>
    have := agree_fail (everybody 1 2) (fun s _ => all_near s) all_order (free_head (V := fun _ => False) (gas true .noEos) rfl _ fun _ => rfl) hx (fun v h => h.elim) hp d.val hp (fun _ => rfl)
    rw [eh] at this; cases this
  | failMid hc h1 h2 h3 h4 =>
    obtain ⟨b1, b2⟩ := before h1 h2 h3
    rw [hmid] at h4
    rcases exec_split_fail h4 with h4 | ⟨y, h5, h6⟩
    · cases h4 with
      | all v hv h => cases h
      | allFail a ha => cases ha
    · cases h5 with
      | all v hv h =>
        cases h
        have ev : ∀ a, v a = setTotalEnergy (gas true .noEos).phi _ := fun a => (Option.some.inj (hv a)).symm
        exact hfail h6 fun a => by
          show Falling (v a) ∧ 0 ≤ (v a).vsig
          rw [ev a]; exact ⟨b1 a, b2 a⟩
  | @failRest homeh dh v0 home1 d1 c1 hc h1 h2 h3 h4 h5 h6 =>
    obtain ⟨b1, b2⟩ := before h1 h2 h3
    obtain ⟨_, _, _, -, -, -, -, -, g6, g7, g8⟩ := to_gravity (z := gas true .noEos) rfl (fun _ => rfl) ⟨64, 1000, 0, 1⟩ (by decide) le_rfl hp hid hfl h1 h2 h3
    have hcons := exec_consistent h4 (mid_same (gas true .noEos) (start dt).clock.iteration) (g8 flow (Or.inl rfl)) _ rfl
    have hvs := exec_keeps h4 (keeps_mid _) b2 _ rfl
    rw [hmid] at h4
    obtain ⟨y, k1, k2⟩ := exec_split h4
    have hy : ∀ a, ∃ t, d1.val a = { setTotalEnergy (gas true .noEos).phi (v0 a) with dt := t } := by
      cases k1 with
      | all v hv h =>
        cases h
        intro a
        obtain ⟨t, ht⟩ := ((exec_step k2).2.2.2 a).2
        refine ⟨t, ht.trans ?_⟩
        have ev : v a = setTotalEnergy (gas true .noEos).phi (v0 a) := (Option.some.inj (hv a)).symm
        show ({ v a with dt := t } : Particle 2) = _
        rw [ev]
    have hF : ∀ a, Falling (d1.val a) := fun a => by obtain ⟨t, ht⟩ := hy a; rw [ht]; exact b1 a
    have hit : c1.iteration = 0 := by rw [h5, AdaptRun.setAdaptive_iteration]; rfl
    obtain ⟨t4, q1, q2⟩ := heating_energy c1.dt d1.val fun a => ⟨(hF a).1, (hF a).2.1⟩
    have hdyn := energy_keep (gas true .noEos) c1.dt 0 (everybody 1 2) d1.val t4 q1
    have q3 : checkNegativity (gas true .noEos) (updateH (gas true .noEos) t4) = some t4 := by
      unfold checkNegativity
      rw [if_pos]
      · rfl
      · intro a
        exact ⟨(q2 a).2.1.le, (q2 a).1.2.2.2.1, fun _ => (q2 a).1.2.2.2.2⟩
    have hrun : exec1 (everybody 1 2) (firstRest (gas true .noEos) c1.dt c1.iteration) d1.val = some t4 := by
      rw [exec1_rest, hit]
      erw [q1]
      rw [Option.bind_some, q3]
    have dn : ∀ a, DistRun.Dense (i := 1) (d1.val a) := fun a => ⟨(hF a).1.1, (hF a).1.2.1, (hF a).2.1⟩
    have hR := Free.disc_rest (n := 2) (gas true .noEos) he hw c1.dt c1.iteration
    rcases exec_split_fail h6 with h | ⟨y2, g1, g2⟩
    · have := agree_fail (everybody 1 2) (fun s _ => all_near s) all_order hR h (fun v h => by rw [h]; exact hcons) dn d1.val dn (fun _ => rfl)
      rw [hrun] at this; cases this
    · obtain ⟨s', e1, e2⟩ := AdaptRun.agree (everybody 1 2) (fun s _ => all_near s) all_order hR g1 (fun v h => by rw [h]; exact hcons) dn d1.val dn (fun _ => rfl)
      obtain rfl := Option.some.inj (hrun.symm.trans e1)
      have hvs2 := exec_keeps g1 (fun o ho => keeps_rest (gas true .noEos) c1.dt c1.iteration o (List.mem_append_left _ ho)) hvs _ rfl
      refine hfail g2 fun a => ⟨?_, hvs2 a⟩
      obtain ⟨w, x, e⟩ := er_split fun a => (e2 a).symm
      rw [e]
      obtain ⟨r1, r2, r3⟩ := q2 a
      refine ⟨r1, r2, r3, ?_⟩
      have h := congrArg (fun x => x.1) (hdyn a)
      simp only [dynamics, motion, Prod.mk.injEq] at h
      have e3 : (t4 a).gacc = (d1.val a).gacc ∧ (t4 a).vel = (d1.val a).vel := by tauto
      show 0 ≤ dot (t4 a).vel (t4 a).gacc
      rw [e3.1, e3.2]
      exact (hF a).2.2.2
  | failNext hc => exact hc rfl

/-- The first iteration does not move the particles, so that they stay in different cells. -/
theorem two_clash {m : Nat} {home : Fin 2 → Nat} (ev : Bool) (e : Eos.Kind) (dt : ℝ) (d : DState (Particle (((1 : Fin 3) : ℕ) + 1)) 2) (hd : d.val = two) :
    ¬Iter NearLists ⟨64, 1000, 0, 1⟩ m (gas ev e) (start dt).clock home d .clash := by
  have hp : ∀ a, Sized (i := 1) (d.val a) := fun a => by rw [hd]; exact ⟨one_pos, one_pos⟩
  intro h
  cases h with
  | @clash home' d' hx hns =>
    obtain ⟨s1, e1, e2⟩ := agree (everybody 1 2) (fun s _ => all_near s) all_order (free_head (V := fun _ => False) (gas ev e) rfl _ fun _ => rfl) hx (fun v h => h.elim) hp d.val hp (fun _ => rfl)
    have hs := AdaptNewton.head_congr (head_step (everybody 1 2) (everybody_faithful _ _) (gas ev e) rfl (fun _ => rfl) _ (show (gas ev e).sph.relaxationSteps ≤ 0 from le_rfl) hp e1) fun a => (e2 a).symm
    have : (fun a => bodyOf (d'.val a)) = fun a => bodyOf (i := 1) (two a) := by
      funext a
      have q1 := (hs.pos a).trans (if_pos rfl)
      have q2 := hs.mass a
      have q3 := hs.h a
      rw [hd] at q1 q2 q3
      simp only [bodyOf]
      rw [q1, q2, q3]
    exact hns (this ▸ two_separate)

/-- Non-vacuity of `C101_energy_partial`: the first iteration with evolved energy is done on two processes, and afterwards the energy of the gas is that of the initial data. -/
example (dt : ℝ) : ∃ steps c s, Run NearLists ⟨64, 1000, 0, 1⟩ 1 (gas true .noEos) 1 (start dt).clock (fun a => a.val) ⟨two, fun _ b => some (two b), []⟩ steps (.done c s) ∧
    gasEnergy (i := 1) s = 2 + 1 / 4 + 1 / 9 := by
  have hp : ∀ a, 0 < (two a).mass ∧ 0 < (two a).h := fun a => by simp [two]
  have hid : ∀ a b : Fin 2, (two a).id = (two b).id → a = b := fun a b h => Fin.ext h
  have he : 0 < (gas true .noEos).eta := by norm_num [gas]
  have hw : 0 < (gas true .noEos).width := by norm_num [gas]
  have hr : (gas true .noEos).repulsionRadius ≤ 1 := by norm_num [gas]
  obtain ⟨steps, r, h⟩ := C101_exists (z := gas true .noEos) rfl he hw hr (fun _ => rfl) ⟨64, 1000, 0, 1⟩ (show (1 : Fin 3).val + 1 < 64 by decide) (by decide) (m := 1) (N := 1) (by decide) (c := (start dt).clock)
    (home := fun a => a.val) (fun a => a.isLt) two hp hid
  cases r with
  | failed =>
    cases h with
    | failed h => exact absurd h (falling_fail dt _ rfl rfl)
    | cons _ h => cases h
  | clash k =>
    cases h with
    | clash h => exact absurd h (two_clash _ _ dt _ rfl)
    | cons _ h => cases h
  | done c s =>
    obtain ⟨S, T, -, g1, -, -, -, -, g3, -⟩ := C101_energy_partial (z := gas true .noEos) he hw (fun _ => rfl) ⟨64, 1000, 0, 1⟩ (by decide) le_rfl rfl rfl le_rfl h le_rfl rfl hp hid
    refine ⟨steps, c, s, h, ?_⟩
    rw [← g1, g3 Nat.one_pos]
    simp [Fin.sum_univ_two, two, gas, Eos.init]; norm_num

end FleCSPH.AdaptNewton
