import Verif.Lemmas.TorusWitness
/-!
C75: a periodic run is a run on the torus.

Proved for the constant viscosity, a fixed time step, smoothing lengths which are not made uniform, no relaxation, and either without the energy equation (any number of iterations) or for the first
iteration; and for later iterations with the energy equation up to the second kick of the velocities.

Missing for the full property: it does not hold for the energies from the second iteration on (`C75_energy_violated`) and for uniform smoothing lengths (`C75_uniform_violated`). The adaptive viscosity, the
adaptive time step, relaxation and runs which stop with a failed assertion are left out.
-/
namespace FleCSPH.Torus
open FleCSPH.Geometry FleCSPH.Sph FleCSPH.Driver FleCSPH.DistRun FleCSPH.PeriodicRun FleCSPH.Spec FleCSPH.Integration

variable {i : Fin 3} {sides : Fin (i + 1) → ℝ} {periodic : Fin (i + 1) → Bool} {procs n : Nat}

section
variable (hs : ∀ j, periodic j = true → 0 < sides j) {z : Config i} (hf : PeriodicForce sides periodic z) (hv : z.sph.visc = .constant) (he : 0 < z.eta) (hw : 0 < z.width)
include hs hf hv

section
variable (hm : z.hMode ≠ .uniform)
include he hw hm

/-- C75 without the energy equation: whatever the processes do in a run with periodic boundaries, the particles which are not ghosts are the result of a run on the torus. In each iteration the particles may be
divided in any way, visited in any order and given any lists which contain the neighbours. -/
theorem C75_run_partial (hev : z.evolve = false) {N : Nat} {c : Timestep.Clock} (hrel : z.sph.relaxationSteps ≤ c.iteration) {σ τ : PState i}
    (h : PRun (fun _ => NearLists) (Contained sides periodic) sides periodic procs z N c σ τ) (hhome : ∀ a, σ.home a < procs) (hflight : σ.data.flight = []) {s : Fin n → Particle (i + 1)}
    (hreals : σ.reals.Perm (List.ofFn s)) (hpos : ∀ a, 0 < (s a).mass ∧ 0 < (s a).h) : ∃ s' : Fin n → Particle (i + 1), Run sides periodic z N c s s' ∧ τ.reals.Perm (List.ofFn s') := by
  have key : ∀ {N : Nat} {c : Timestep.Clock} {σ τ : PState i}, PRun (fun _ => NearLists) (Contained sides periodic) sides periodic procs z N c σ τ → z.sph.relaxationSteps ≤ c.iteration →
      ∀ s : Fin n → Particle (i + 1), Simple procs Sized σ s → ∃ s' : Fin n → Particle (i + 1), Run sides periodic z N c s s' ∧ τ.reals.Perm (List.ofFn s') := by
    intro N c σ τ h
    induction h with
    | nil => exact fun _ s h => ⟨s, .nil, h.reals⟩
    | @cons N c σ τ υ h1 _ ih =>
      intro hrel s hsim
      have hlead : Leads sides periodic procs n Sized (iterationOps z c) (Simple procs Sized) := by
        unfold iterationOps
        by_cases h0 : c.iteration = z.initialIteration
        · rw [if_pos h0]
          exact lead_first hs hf hv he hw hm (fun h => by rw [hev] at h; cases h) c.dt c.iteration (by omega)
        · rw [if_neg h0]
          exact lead_next hs hf hv he hw hm hev c.dt c.iteration (by omega)
      obtain ⟨t, g1, g2⟩ := hlead σ s τ hsim h1
      obtain ⟨s', g3, g4⟩ := ih (by show _ ≤ c.iteration + 1; omega) t g2
      exact ⟨s', .cons g1 g3, g4⟩
  exact key h hrel s ⟨hreals, hhome, hflight, hpos⟩

/-- C75 for the first iteration, with or without the energy equation. -/
theorem C75_first_partial (hu : z.evolve = true → z.updates ≤ 1) {c : Timestep.Clock} (hfirst : c.iteration = z.initialIteration) (hrel : z.sph.relaxationSteps ≤ c.iteration) {σ τ : PState i}
    (h : PRun (fun _ => NearLists) (Contained sides periodic) sides periodic procs z 1 c σ τ) (hhome : ∀ a, σ.home a < procs) (hflight : σ.data.flight = []) {s : Fin n → Particle (i + 1)}
    (hreals : σ.reals.Perm (List.ofFn s)) (hpos : ∀ a, 0 < (s a).mass ∧ 0 < (s a).h) : ∃ s' : Fin n → Particle (i + 1), Run sides periodic z 1 c s s' ∧ τ.reals.Perm (List.ofFn s') := by
  cases h with
  | cons h1 h2 =>
    cases h2
    have hlead : Leads sides periodic procs n Sized (iterationOps z c) (Simple procs Sized) := by
      unfold iterationOps
      rw [if_pos hfirst]
      exact lead_first hs hf hv he hw hm hu c.dt c.iteration (by omega)
    obtain ⟨t, g1, g2⟩ := hlead σ s _ ⟨hreals, hhome, hflight, hpos⟩ h1
    exact ⟨t, .cons g1 .nil, g2.reals⟩

end

/-- C75 for a later iteration up to the second kick of the velocities, with or without the energy equation and for all three choices of the smoothing lengths: positions, velocities, densities, pressures and accelerations are those
of the torus. -/
theorem C75_motion_partial {dt : ℝ} {it : Int} (hrel : z.sph.relaxationSteps ≤ it) {σ τ : PState i}
    (h : PExec (fun _ => NearLists) (Contained sides periodic) sides periodic procs (kickOps z dt ++ [.all fun a => some (kickV dt a), .all fun a => some (saveVelocityhalf a),
      .all fun a => some (drift dt a), .update, densityOp z dt] ++ forceOps z it ++ [.all fun a => some (kickV dt a)]) σ τ) (hhome : ∀ a, σ.home a < procs) (hflight : σ.data.flight = [])
    {s : Fin n → Particle (i + 1)} (hreals : σ.reals.Perm (List.ofFn s)) (hpos : ∀ a, 0 < (s a).mass ∧ 0 < (s a).h) :
    ∃ s' : Fin n → Particle (i + 1), Exec sides periodic (kickOps z dt ++ [.all fun a => some (kickV dt a), .all fun a => some (saveVelocityhalf a),
      .all fun a => some (drift dt a), .update, densityOp z dt] ++ forceOps z it ++ [.all fun a => some (kickV dt a)]) s s' ∧ τ.reals.Perm (List.ofFn s') := by
  have hlead := lead_move (J := DistRun.Dense) hs hf hv dt it (by omega) (lead_nil (sides := sides) (periodic := periodic) (procs := procs) (n := n) (I := DistRun.Dense) fun _ h => h)
  rw [List.append_nil] at hlead
  obtain ⟨t, g1, g2⟩ := hlead σ s τ ⟨hreals, hhome, hflight, hpos⟩ h
  exact ⟨t, g1, g2.reals⟩

end

/-- The run on the torus is determined by the particles at the start, up to periods and the signal speed: `C75_run_partial` says what the results are. -/
theorem C75_torus_unique {z : Config i} (hf : PeriodicForce sides periodic z) (hv : z.sph.visc = .constant) (he : 0 < z.eta) (hw : 0 < z.width) {N : Nat} {c : Timestep.Clock}
    (hrel : z.sph.relaxationSteps ≤ c.iteration) {s t s' t' : Fin n → Particle (i + 1)} (hpos : ∀ a, 0 < (s a).mass ∧ 0 < (s a).h) (hsame : Same sides periodic s t)
    (h : Run sides periodic z N c s s') (h' : Run sides periodic z N c t t') : Same sides periodic s' t' :=
  run_unique hf hv he hw hrel hpos hsame h h'

/-- C75 for two runs with periodic boundaries, on any numbers of processes, which start from the same particles up to periods: they end with the same particles up to periods and the signal speed. -/
theorem C75_same_partial {procs' : Nat} (hs : ∀ j, periodic j = true → 0 < sides j) {z : Config i} (hf : PeriodicForce sides periodic z) (hv : z.sph.visc = .constant) (he : 0 < z.eta) (hw : 0 < z.width)
    (hm : z.hMode ≠ .uniform) (hev : z.evolve = false) {N : Nat} {c : Timestep.Clock} (hrel : z.sph.relaxationSteps ≤ c.iteration) {σ τ σ' τ' : PState i}
    (h : PRun (fun _ => NearLists) (Contained sides periodic) sides periodic procs z N c σ τ) (hhome : ∀ a, σ.home a < procs) (hflight : σ.data.flight = [])
    (h' : PRun (fun _ => NearLists) (Contained sides periodic) sides periodic procs' z N c σ' τ') (hhome' : ∀ a, σ'.home a < procs') (hflight' : σ'.data.flight = []) {s t : Fin n → Particle (i + 1)}
    (hreals : σ.reals.Perm (List.ofFn s)) (hreals' : σ'.reals.Perm (List.ofFn t)) (hsame : Same sides periodic s t) (hpos : ∀ a, 0 < (s a).mass ∧ 0 < (s a).h) :
    ∃ s' t' : Fin n → Particle (i + 1), Same sides periodic s' t' ∧ τ.reals.Perm (List.ofFn s') ∧ τ'.reals.Perm (List.ofFn t') := by
  have hpos' : ∀ a, 0 < (t a).mass ∧ 0 < (t a).h := by
    intro a
    obtain ⟨k, -, hk⟩ := hsame a
    have h1 : (t a).mass = (s a).mass := by have := congrArg Particle.mass hk; exact this
    have h2 : (t a).h = (s a).h := by have := congrArg Particle.h hk; exact this
    rw [h1, h2]; exact hpos a
  obtain ⟨s', g1, g2⟩ := C75_run_partial hs hf hv he hw hm hev hrel h hhome hflight hreals hpos
  obtain ⟨t', g3, g4⟩ := C75_run_partial hs hf hv he hw hm hev hrel h' hhome' hflight' hreals' hpos'
  exact ⟨s', t', run_unique hf hv he hw hrel hpos hsame g1 g3, g2, g4⟩

/-- C75 does not hold for the internal energies from the second iteration on: the ghosts in the outer part of the halo have got wrong accelerations, hence wrong velocities in the second kick, and the work done on the
particles is computed from them. The witness: four particles in a row across the boundary. No run on the torus gives the particles of the code, whatever the periods and the signal speeds. -/
theorem C75_energy_violated : ∃ (sides : Fin ((2 : Fin 3) + 1) → ℝ) (periodic : Fin ((2 : Fin 3) + 1) → Bool) (z : Config 2) (c : Timestep.Clock) (σ τ : PState 2) (s : Fin 4 → Particle ((2 : Fin 3) + 1)),
    (∀ j, 0 < sides j) ∧ PeriodicForce sides periodic z ∧ z.sph.visc = .constant ∧ 0 < z.eta ∧ 0 < z.width ∧ z.hMode = .fixed ∧ z.evolve = true ∧ z.updates = 1 ∧ z.sph.relaxationSteps ≤ c.iteration ∧
    PRun (fun _ => NearLists) (Contained sides periodic) sides periodic 1 z 1 c σ τ ∧ (∀ a, σ.home a < 1) ∧ σ.data.flight = [] ∧ σ.reals = List.ofFn s ∧ (∀ a, 0 < (s a).mass ∧ 0 < (s a).h) ∧
    (∃ s', Run sides periodic z 1 c s s') ∧ ∀ s', Run sides periodic z 1 c s s' → ∀ t, Same sides periodic s' t → ¬ τ.reals.Perm (List.ofFn t) := by
  open Witness in
  obtain ⟨U, hU⟩ : ∃ U : ℝ, U = (∑ a, |rate x7 P7 nb7 a|) + ∑ a, |rate xt P4 nbt a| := ⟨_, rfl⟩
  have h7 : ∀ a, 0 ≤ U + 1 / 2 * Witness.rate Witness.x7 Witness.P7 Witness.nb7 a := by
    intro a
    have h1 := Finset.single_le_sum (f := fun a => |Witness.rate Witness.x7 Witness.P7 Witness.nb7 a|) (fun a _ => abs_nonneg _) (Finset.mem_univ a)
    have h2 : 0 ≤ ∑ a, |Witness.rate Witness.xt Witness.P4 Witness.nbt a| := Finset.sum_nonneg fun a _ => abs_nonneg _
    have h3 := neg_abs_le (Witness.rate Witness.x7 Witness.P7 Witness.nb7 a)
    have h4 := abs_nonneg (Witness.rate Witness.x7 Witness.P7 Witness.nb7 a)
    linarith
  have ht : ∀ a, 0 ≤ U + 1 / 2 * Witness.rate Witness.xt Witness.P4 Witness.nbt a := by
    intro a
    have h1 := Finset.single_le_sum (f := fun a => |Witness.rate Witness.xt Witness.P4 Witness.nbt a|) (fun a _ => abs_nonneg _) (Finset.mem_univ a)
    have h2 : 0 ≤ ∑ a, |Witness.rate Witness.x7 Witness.P7 Witness.nb7 a| := Finset.sum_nonneg fun a _ => abs_nonneg _
    have h3 := neg_abs_le (Witness.rate Witness.xt Witness.P4 Witness.nbt a)
    have h4 := abs_nonneg (Witness.rate Witness.xt Witness.P4 Witness.nbt a)
    linarith
  obtain ⟨d, hrun, hd⟩ := Witness.code_energy U h7
  have htorus := Witness.run_energy U ht
  have hrel : (Witness.conf true .fixed).sph.relaxationSteps ≤ Witness.clock.iteration := by show (0 : Int) ≤ 1; norm_num
  refine ⟨Witness.sides, Witness.periodic, Witness.conf true .fixed, Witness.clock, Witness.start U, _, _, fun j => by show (0 : ℝ) < 20; norm_num, Witness.force _ _, rfl, one_pos, one_pos, rfl, rfl, rfl, hrel,
    hrun, fun _ => Nat.one_pos, rfl, Witness.start_reals U, fun a => ⟨one_pos, one_pos⟩, ⟨_, htorus⟩, fun s' hs' t hst hperm => ?_⟩
  have hu := run_unique (Witness.force _ _) rfl one_pos one_pos hrel (fun a => ⟨one_pos, one_pos⟩) (fun a => ⟨0, Lattice.zero, by rw [imageOf_zero]⟩) htorus hs'
  have hmem : d.val 0 ∈ List.ofFn t := hperm.mem_iff.mp (List.mem_map.mpr ⟨0, List.mem_filter.mpr ⟨List.mem_finRange _, rfl⟩, rfl⟩)
  obtain ⟨a, ha⟩ := (List.mem_ofFn' _ _).mp hmem
  obtain ⟨k, -, hk⟩ := hu a
  obtain ⟨k', -, hk'⟩ := hst a
  have hid : a.1 = 0 := by
    have e1 : (s' a).id = a.1 := by have := congrArg Particle.id hk; exact this
    have e2 : (t a).id = (s' a).id := by have := congrArg Particle.id hk'; exact this
    have e3 : (d.val 0).id = 0 := by have := congrArg Particle.id (hd 0); exact this
    rw [← e1, ← e2, ha, e3]
  have ha0 : a = 0 := Fin.ext hid
  subst ha0
  have e1 : (s' 0).u = U + 1 / 2 * Witness.rate Witness.xt Witness.P4 Witness.nbt 0 := by have := congrArg Particle.u hk; exact this
  have e2 : (t 0).u = (s' 0).u := by have := congrArg Particle.u hk'; exact this
  have e3 : (d.val 0).u = U + 1 / 2 * Witness.rate Witness.x7 Witness.P7 Witness.nb7 0 := by have := congrArg Particle.u (hd 0); exact this
  rw [ha, e3, e1] at e2
  exact Witness.rate_ne (by linarith)

/-- C75 does not hold for uniform smoothing lengths: the mean is taken over the particles and their ghosts, with the wrong densities of the ghosts at the outer end of the halo. -/
theorem C75_uniform_violated : ∃ (sides : Fin ((2 : Fin 3) + 1) → ℝ) (periodic : Fin ((2 : Fin 3) + 1) → Bool) (z : Config 2) (c : Timestep.Clock) (σ τ : PState 2) (s : Fin 4 → Particle ((2 : Fin 3) + 1)),
    (∀ j, 0 < sides j) ∧ PeriodicForce sides periodic z ∧ z.sph.visc = .constant ∧ 0 < z.eta ∧ 0 < z.width ∧ z.hMode = .uniform ∧ z.evolve = false ∧ z.sph.relaxationSteps ≤ c.iteration ∧
    PRun (fun _ => NearLists) (Contained sides periodic) sides periodic 1 z 1 c σ τ ∧ (∀ a, σ.home a < 1) ∧ σ.data.flight = [] ∧ σ.reals = List.ofFn s ∧ (∀ a, 0 < (s a).mass ∧ 0 < (s a).h) ∧
    (∃ s', Run sides periodic z 1 c s s') ∧ ∀ s', Run sides periodic z 1 c s s' → ∀ t, Same sides periodic s' t → ¬ τ.reals.Perm (List.ofFn t) := by
  obtain ⟨d, hrun, hd⟩ := Witness.code_uniform
  have htorus := Witness.run_uniform
  have hrel : (Witness.conf false .uniform).sph.relaxationSteps ≤ Witness.clock.iteration := by show (0 : Int) ≤ 1; norm_num
  refine ⟨Witness.sides, Witness.periodic, Witness.conf false .uniform, Witness.clock, Witness.start 0, _, _, fun j => by show (0 : ℝ) < 20; norm_num, Witness.force _ _, rfl, one_pos, one_pos, rfl, rfl, hrel,
    hrun, fun _ => Nat.one_pos, rfl, Witness.start_reals 0, fun a => ⟨one_pos, one_pos⟩, ⟨_, htorus⟩, fun s' hs' t hst hperm => ?_⟩
  have hu := run_unique (Witness.force _ _) rfl one_pos one_pos hrel (fun a => ⟨one_pos, one_pos⟩) (fun a => ⟨0, Lattice.zero, by rw [imageOf_zero]⟩) htorus hs'
  have hmem : d.val 0 ∈ List.ofFn t := hperm.mem_iff.mp (List.mem_map.mpr ⟨0, List.mem_filter.mpr ⟨List.mem_finRange _, rfl⟩, rfl⟩)
  obtain ⟨a, ha⟩ := (List.mem_ofFn' _ _).mp hmem
  obtain ⟨k, -, hk⟩ := hu a
  obtain ⟨k', -, hk'⟩ := hst a
  have e1 := congrArg Particle.h hk
  have e2 := congrArg Particle.h hk'
  have e3 := congrArg Particle.h (hd 0)
  change (s' a).h = 1 / ((4 : Nat) : ℝ) * _ at e1
  change (t a).h = (s' a).h at e2
  change (d.val 0).h = 1 / ((7 : Nat) : ℝ) * _ at e3
  rw [ha, e1, e3] at e2
  exact Witness.mean_ne e2

/-- Four particles across the boundary, with their three ghosts, and an iteration without the energy equation: the hypotheses of `C75_run_partial` hold. -/
example : ∃ τ s', PRun (fun _ => NearLists) (Contained Witness.sides Witness.periodic) Witness.sides Witness.periodic 1 (Witness.conf false .fixed) 1 Witness.clock (Witness.start 0) τ ∧
    Run Witness.sides Witness.periodic (Witness.conf false .fixed) 1 Witness.clock (Witness.y0 (fun a => a.1) Witness.x4 Witness.P4 0) s' ∧ τ.reals.Perm (List.ofFn s') := by
  obtain ⟨τ, h⟩ := Witness.code_plain
  obtain ⟨s', h1, h2⟩ := C75_run_partial (fun j _ => by show (0 : ℝ) < 20; norm_num) (Witness.force _ _) rfl one_pos one_pos (by decide) rfl (by show (0 : Int) ≤ 1; norm_num) h (fun _ => Nat.one_pos) rfl
    (s := Witness.y0 (fun a => a.1) Witness.x4 Witness.P4 0) (by rw [Witness.start_reals]) fun a => ⟨one_pos, one_pos⟩
  exact ⟨τ, s', h, h1, h2⟩

/-- The first iteration with the energy equation: the hypotheses of `C75_first_partial` hold. -/
example : ∃ τ s', PRun (fun _ => NearLists) (Contained Witness.sides Witness.periodic) Witness.sides Witness.periodic 1 (Witness.conf true .fixed) 1 Witness.clock0 (Witness.start 1) τ ∧
    Run Witness.sides Witness.periodic (Witness.conf true .fixed) 1 Witness.clock0 (Witness.y0 (fun a => a.1) Witness.x4 Witness.P4 1) s' ∧ τ.reals.Perm (List.ofFn s') := by
  obtain ⟨τ, h⟩ := Witness.code_first
  obtain ⟨s', h1, h2⟩ := C75_first_partial (fun j _ => by show (0 : ℝ) < 20; norm_num) (Witness.force _ _) rfl one_pos one_pos (by decide) (fun _ => le_rfl) rfl le_rfl h (fun _ => Nat.one_pos) rfl
    (s := Witness.y0 (fun a => a.1) Witness.x4 Witness.P4 1) (by rw [Witness.start_reals]) fun a => ⟨one_pos, one_pos⟩
  exact ⟨τ, s', h, h1, h2⟩

/-- A later iteration with the energy equation and uniform smoothing lengths: the hypotheses of `C75_motion_partial` hold. -/
example : ∃ τ, ∃ s' : Fin 4 → Particle ((2 : Fin 3) + 1), τ.reals.Perm (List.ofFn s') ∧ PExec (fun _ => NearLists) (Contained Witness.sides Witness.periodic) Witness.sides Witness.periodic 1
    (kickOps (Witness.conf true .uniform) 1 ++ [.all fun a => some (kickV 1 a), .all fun a => some (saveVelocityhalf a), .all fun a => some (drift 1 a), .update,
      densityOp (Witness.conf true .uniform) 1] ++ forceOps (Witness.conf true .uniform) 1 ++ [.all fun a => some (kickV 1 a)]) (Witness.start 0) τ := by
  obtain ⟨τ, h⟩ := Witness.code_motion
  obtain ⟨s', -, h2⟩ := C75_motion_partial (fun j _ => by show (0 : ℝ) < 20; norm_num) (Witness.force _ _) rfl (by show (0 : Int) ≤ 1; norm_num) h (fun _ => Nat.one_pos) rfl
    (s := Witness.y0 (fun a => a.1) Witness.x4 Witness.P4 0) (by rw [Witness.start_reals]) fun a => ⟨one_pos, one_pos⟩
  exact ⟨τ, s', h2, h⟩

/-- Two runs from the same particles: the hypotheses of `C75_torus_unique` and of `C75_same_partial` hold. -/
example : (∃ s', Same Witness.sides Witness.periodic s' s' ∧ Run Witness.sides Witness.periodic (Witness.conf false .uniform) 1 Witness.clock (Witness.y0 (fun a => a.1) Witness.x4 Witness.P4 0) s') ∧
    ∃ τ : PState 2, ∃ s' t' : Fin 4 → Particle ((2 : Fin 3) + 1), Same Witness.sides Witness.periodic s' t' ∧ τ.reals.Perm (List.ofFn s') ∧ τ.reals.Perm (List.ofFn t') := by
  have hsame : ∀ s : Fin 4 → Particle ((2 : Fin 3) + 1), Same Witness.sides Witness.periodic s s := fun s a => ⟨0, Lattice.zero, by rw [imageOf_zero]⟩
  refine ⟨⟨_, C75_torus_unique (Witness.force _ _) rfl one_pos one_pos (by show (0 : Int) ≤ 1; norm_num) (fun a => ⟨one_pos, one_pos⟩) (hsame _) Witness.run_uniform Witness.run_uniform, Witness.run_uniform⟩, ?_⟩
  obtain ⟨τ, h⟩ := Witness.code_plain
  exact ⟨τ, C75_same_partial (fun j _ => by show (0 : ℝ) < 20; norm_num) (Witness.force _ _) rfl one_pos one_pos (by decide) rfl (by show (0 : Int) ≤ 1; norm_num) h (fun _ => Nat.one_pos) rfl h
    (fun _ => Nat.one_pos) rfl (s := Witness.y0 (fun a => a.1) Witness.x4 Witness.P4 0) (by rw [Witness.start_reals]) (by rw [Witness.start_reals]) (hsame _) fun a => ⟨one_pos, one_pos⟩⟩

end FleCSPH.Torus
