import Verif.Spec.Relaxation
import Verif.Spec.Sph
import Verif.Model.WvtRun
/-! Hypotheses on a relaxation run, and what its outputs should be. -/
namespace FleCSPH.Spec
open FleCSPH.Geometry FleCSPH.Kernels FleCSPH.Wvt
open FleCSPH.Sph (Particle)

/-- The largest push per unit of smoothing length: 1/0.09 - 1/1.69 < 10.52 for Diehl et al. -/
noncomputable def largestPush (p : Forces) (i : Fin 3) : ℝ :=
  match p.method with
  | .diehl => 1052 / 100
  | .arth => 2 ^ (i + 1 : ℕ) * kernel p.kernel i 0 1

/-- The parameters are meaningful: the profile has at least the density `ρ` in the sphere; `H` is a smoothing length which particles of mass at most `M` do not exceed, at most `N` neighbours are found,
and forces of that size do not throw particles across the sphere in a step of 1e-10. -/
structure Meaningful (S : Setup) (i : Fin 3) (M ρ H : ℝ) (N : Nat) : Prop where
  radius : 0 < S.forces.radius
  kernel : Poly S.forces.kernel
  mu : 0 ≤ S.mu
  eta : 0 < S.profile.eta
  ngb : 0 < S.profile.ngb
  sphere : 0 < S.profile.radius
  center : S.profile.shape 0 ≠ 0
  rho : 0 < ρ
  mass : 0 < M
  density : ∀ r, 0 ≤ r → r ≤ S.forces.radius → ρ ≤ S.profile.rho0 / S.profile.shape 0 * S.profile.shape (r / S.profile.radius)
  largest : S.profile.eta * kernelWidth S.forces.kernel * (M / ρ) ^ ((1 : ℝ) / ((i : ℝ) + 1)) ≤ H
  number : S.profile.byNeighbours = true → S.profile.ngb * M ≤ ball i H * ρ
  lengths : S.variableH = true → ball i S.forces.radius * S.profile.ngb ≤ ball i H
  slow : (4 * N + 2) * H * largestPush S.forces i ≤ 2 * 10 ^ 10 * S.forces.radius
  frozen : S.forces.edge = .frozen → H ≤ S.forces.radius
  ends : S.run.initial ≤ S.run.final + S.run.coolDown

/-- The initial particles: in the sphere, with positive masses and smoothing lengths. -/
structure InSphere {i : Fin 3} {n : Nat} (S : Setup) (M H : ℝ) (s : Fin n → Particle (i + 1)) : Prop where
  inside : ∀ a, length (s a).pos ≤ S.forces.radius
  mass : ∀ a, 0 < (s a).mass ∧ (s a).mass ≤ M
  h : ∀ a, 0 < (s a).h ∧ (s a).h ≤ H

/-- The searches: every pass visits every particle, each list holds the particle itself, has at most `N` entries and depends on positions and
smoothing lengths only. -/
structure Searches {i : Fin 3} {n : Nat} (w : Search i n) (N : Nat) : Prop where
  order : ∀ k q, VisitsAll (w.order k q)
  self : ∀ s a, a ∈ w.lists s a
  few : ∀ s a, (w.lists s a).length ≤ N
  same : ∀ s t, (∀ a, (s a).pos = (t a).pos ∧ (s a).h = (t a).h) → w.lists s = w.lists t

/-- The density at the end of an iteration: the kernel sum over the neighbours. -/
noncomputable def kernelSum {i : Fin 3} {n : Nat} (κ : Kernel) (s : Fin n → Particle (i + 1)) (l : List (Fin n)) (a : Fin n) : ℝ :=
  (l.map fun b => (s b).mass * kernel κ i (length fun k => (s a).pos k - (s b).pos k) (((s a).h + (s b).h) / 2)).sum

end FleCSPH.Spec
