import Verif.Model.Sph
import Verif.Model.Eos
import Verif.Model.Timestep
import Verif.Model.Cullen
import Verif.Lemmas.Density
import Verif.Lemmas.SphSum
import Verif.Props.C38
/-!
Small facts about the per-particle functions which the theorems on whole passes do not show: nothing of the previous iteration is left in the forces (C34), which
equation of state a run uses (C38), how far the time step is reduced (C40), the shock indicator (C58).
-/
namespace FleCSPH
open Sph Geometry Kernels

/-- C34: the forces on a particle do not depend on its previous forces, and the gravitational acceleration and potential start from zero. -/
theorem C34_fresh {i : Fin 3} (p : Params i) (hext : ∀ (a : Particle (i + 1)) x y z, p.external { a with acc := x, gacc := y, gpot := z } = p.external a)
    (a : Particle (i + 1)) (nbs : List (Particle (i + 1))) (x y : Point (i + 1)) (z : ℝ) :
    computeAcceleration p { a with acc := x, gacc := y, gpot := z } nbs = computeAcceleration p a nbs ∧
    (computeAcceleration p a nbs).gacc = 0 ∧ (computeAcceleration p a nbs).gpot = 0 ∧
    computeAcceleration p a nbs = { a with acc := (computeAcceleration p a nbs).acc, gacc := 0, gpot := 0 } := by
  refine ⟨?_, rfl, rfl, rfl⟩
  unfold computeAcceleration
  rw [hext]
  rfl

/-- An external force like those of the code (a function of position, velocity, ...) satisfies the hypothesis. -/
example : ∀ (a : Particle 3) (x y : Point 3) z, (fun b : Particle 3 => b.pos + b.vel) { a with acc := x, gacc := y, gpot := z } = (fun b : Particle 3 => b.pos + b.vel) a :=
  fun _ _ _ _ => rfl

/-- C38: the pressure of each equation of state a user can select, and nothing else of the particle changes. -/
theorem C38_selected (q : Eos.Params) {d : Nat} (a : Particle d) :
    Eos.computePressure .polytropic q a = { a with P := a.K * a.rho ^ q.gamma } ∧
    Eos.computePressure .ideal q a = { a with P := (q.gamma - 1) * a.rho * a.u } ∧
    (a.rho < q.thr → Eos.computePressure .ppt q a = { a with P := a.K * a.rho ^ q.gamma }) ∧
    (q.thr ≤ a.rho → Eos.computePressure .ppt q a = { a with P := a.K * q.thr ^ (q.gamma - q.gamma2) * a.rho ^ q.gamma2 }) ∧
    Eos.computePressure .noEos q a = a := by
  refine ⟨rfl, rfl, fun h => ?_, fun h => ?_, rfl⟩
  · show Eos.pressurePpt q a = _
    rw [Eos.pressurePpt, if_pos h]
  · show Eos.pressurePpt q a = _
    rw [Eos.pressurePpt, if_neg (not_lt.2 h)]

/-- C38: with the selected equation of state the speed of sound is `√(Γ P / ρ)` of the pressure computed with the same one. -/
theorem C38_soundspeed (q : Eos.Params) (hg : 1 < q.gamma) (hg2 : 1 < q.gamma2) (ht : 0 < q.thr) {d : Nat} (a : Particle d) (hr : 0 < a.rho) (hK : 0 ≤ a.K) (hu : 0 ≤ a.u) :
    (Eos.computeSoundspeed .polytropic q a).cs = √(q.gamma * (Eos.computePressure .polytropic q a).P / a.rho) ∧
    (Eos.computeSoundspeed .ideal q a).cs = √(q.gamma * (Eos.computePressure .ideal q a).P / a.rho) ∧
    (Eos.computeSoundspeed .ppt q a).cs = √((if a.rho < q.thr then q.gamma else q.gamma2) * (Eos.computePressure .ppt q a).P / a.rho) := by
  obtain ⟨-, -, h1, -, -⟩ := C38_polytropic q hg a hr
  obtain ⟨-, -, h2, h3⟩ := h1 hK
  obtain ⟨-, h4, h5⟩ := C38_ideal q hg a hr hu
  obtain ⟨-, -, h6, -, -⟩ := C38_piecewise q hg hg2 ht a hr
  obtain ⟨-, -, h7, h8⟩ := h6 hK
  refine ⟨?_, ?_, ?_⟩
  · show (Eos.soundspeedPoly q a).cs = √(q.gamma * (Eos.pressurePoly q a).P / a.rho)
    rw [← h2, Real.sqrt_sq h3]
  · show (Eos.soundspeedIdeal q a).cs = √(q.gamma * (Eos.pressureIdeal q a).P / a.rho)
    rw [← h4, Real.sqrt_sq h5]
  · show (Eos.soundspeedPpt q a).cs = √((if a.rho < q.thr then q.gamma else q.gamma2) * (Eos.pressurePpt q a).P / a.rho)
    rw [← h7, Real.sqrt_sq h8]

example : (1 : ℝ) < 5 / 3 ∧ (1 : ℝ) < 2 ∧ (0 : ℝ) < 1 := by norm_num

section energy
open Timestep

private theorem shrink_spec {d : Nat} (c : Settings d) (a : Particle d) (n : Nat) : ∀ t : ℝ,
    (∀ t', shrink c a n t = some t' ↔ ∃ k < n, t' = t / 4 ^ k ∧ deltaE c a (t / 4 ^ k) < a.u / 2 ∧ ∀ j < k, ¬deltaE c a (t / 4 ^ j) < a.u / 2) ∧
    (shrink c a n t = none ↔ ∀ k < n, ¬deltaE c a (t / 4 ^ k) < a.u / 2) := by
  induction n with
  | zero => intro t; exact ⟨fun t' => by simp [shrink], by simp [shrink]⟩
  | succ n ih =>
    intro t
    rw [shrink]
    rw [show a.u * (1 / 2) = a.u / 2 by ring]
    have hpow : ∀ k : ℕ, t * (1 / 4) / 4 ^ k = t / 4 ^ (k + 1) := fun k => by rw [pow_succ]; field_simp
    by_cases h : deltaE c a t < a.u / 2
    · rw [if_pos h]
      refine ⟨fun t' => ⟨?_, ?_⟩, ⟨fun h' => by simp at h', fun h' => absurd (by simpa using h) (h' 0 (by omega))⟩⟩
      · intro e
        obtain rfl := Option.some.inj e
        exact ⟨0, by omega, by simp, by simpa using h, fun j hj => absurd hj (Nat.not_lt_zero _)⟩
      · rintro ⟨k, -, rfl, -, hj⟩
        cases k with
        | zero => simp
        | succ k => exact absurd (by simpa using h) (hj 0 (by omega))
    · rw [if_neg h]
      obtain ⟨i1, i2⟩ := ih (t * (1 / 4))
      refine ⟨fun t' => ?_, ?_⟩
      · rw [i1 t']
        constructor
        · rintro ⟨k, hk, rfl, hd, hj⟩
          rw [hpow] at hd ⊢
          refine ⟨k + 1, by omega, rfl, hd, fun j hj' => ?_⟩
          cases j with
          | zero => simpa using h
          | succ j => rw [← hpow]; exact hj j (by omega)
        · rintro ⟨k, hk, rfl, hd, hj⟩
          cases k with
          | zero => exact absurd (by simpa using hd) h
          | succ k =>
            refine ⟨k, by omega, (hpow k).symm, by rwa [hpow], fun j hj' => ?_⟩
            rw [hpow]; exact hj (j + 1) (by omega)
      · rw [i2]
        constructor
        · intro hk k hk'
          cases k with
          | zero => simpa using h
          | succ k => rw [← hpow]; exact hk k (by omega)
        · intro hk k hk'
          rw [hpow]; exact hk (k + 1) (by omega)

/-- C40, thermokinetic formulation: the limit is the first of `dt, dt/4, …, dt/4^19` over which the potential energy changes by less than half the internal energy, where
`dt` is the limit without this criterion; the program stops exactly when the internal energy is not positive or none of the twenty is short enough. -/
theorem C40_energy {d : Nat} (c : Settings d) (hc : c.thermokinetic = true) (a : Particle d) (dt : ℝ) (hdt : computeDt { c with thermokinetic := false } a = some { a with dt := dt }) :
    (∀ a', computeDt c a = some a' ↔ 0 < a.u ∧ ∃ k < 20, a' = { a with dt := dt / 4 ^ k } ∧
      c.phi (fun j => a.pos j + dt / 4 ^ k * a.vel j) - c.phi a.pos - dt / 4 ^ k * (∑ j, a.vel j * a.gacc j) < a.u / 2 ∧
      ∀ l < k, ¬c.phi (fun j => a.pos j + dt / 4 ^ l * a.vel j) - c.phi a.pos - dt / 4 ^ l * (∑ j, a.vel j * a.gacc j) < a.u / 2) ∧
    (computeDt c a = none ↔ a.u ≤ 0 ∨
      ∀ k < 20, ¬c.phi (fun j => a.pos j + dt / 4 ^ k * a.vel j) - c.phi a.pos - dt / 4 ^ k * (∑ j, a.vel j * a.gacc j) < a.u / 2) := by
  have hb : dt = baseDt c a := by
    unfold computeDt at hdt
    rw [if_neg (by simp)] at hdt
    exact (congrArg Particle.dt (Option.some.inj hdt)).symm
  have he : ∀ t, c.phi (fun j => a.pos j + t * a.vel j) - c.phi a.pos - t * (∑ j, a.vel j * a.gacc j) = deltaE c a t := by
    intro t
    have : (a.pos + t • a.vel) = fun j => a.pos j + t * a.vel j := by funext j; simp
    rw [deltaE, this, dot]; ring
  simp only [he]
  obtain ⟨s1, s2⟩ := shrink_spec c a 20 dt
  unfold computeDt
  rw [if_pos hc, ← hb]
  by_cases hu : 0 < a.u
  · rw [if_pos hu]
    refine ⟨fun a' => ?_, ?_⟩
    · rw [Option.map_eq_some_iff]
      constructor
      · rintro ⟨t, ht, rfl⟩
        obtain ⟨k, hk, rfl, h1, h2⟩ := (s1 t).1 ht
        exact ⟨hu, k, hk, rfl, h1, h2⟩
      · rintro ⟨-, k, hk, rfl, h1, h2⟩
        exact ⟨_, (s1 _).2 ⟨k, hk, rfl, h1, h2⟩, rfl⟩
    · rw [Option.map_eq_none_iff, s2]
      constructor
      · exact Or.inr
      · rintro (h | h)
        · exact absurd hu (not_lt.2 h)
        · exact h
  · rw [if_neg hu]
    exact ⟨fun a' => ⟨fun h => by simp at h, fun h => absurd h.1 hu⟩, ⟨fun _ => Or.inl (not_lt.1 hu), fun _ => rfl⟩⟩

/-- The hypothesis always holds for one `dt`. -/
example {d : Nat} (c : Settings d) (a : Particle d) : ∃ dt, computeDt { c with thermokinetic := false } a = some { a with dt := dt } :=
  ⟨baseDt { c with thermokinetic := false } a, if_neg (by simp)⟩

end energy

section indicator
open Cullen Spec

variable {i : Fin 3}

private theorem abs_sum_le (l : List (Particle (i + 1))) (f g : Particle (i + 1) → ℝ) (h : ∀ b ∈ l, |f b| ≤ g b) : |(l.map f).sum| ≤ (l.map g).sum := by
  induction l with
  | nil => simp
  | cons b l ih =>
    rw [List.map_cons, List.sum_cons, List.map_cons, List.sum_cons]
    exact (abs_add_le _ _).trans (add_le_add (h b (by simp)) (ih fun c hc => h c (by simp [hc])))

/-- C58: the shock indicator of viscosity.h lies between −1 and 1, is 1 in expanding and −1 in compressed surroundings, when the density is the one computed over the same neighbours. -/
theorem C58_indicator (p : Params i) (hκ : NonNegKernel p.kernel) (a0 a : Particle (i + 1)) (nbs : List (Particle (i + 1)))
    (hm : ∀ b ∈ nbs, 0 < b.mass) (hha : 0 < a0.h) (hh : ∀ b ∈ nbs, 0 < b.h) (hdens : computeDensity p a0 nbs = some a) :
    |ra p a nbs| ≤ 1 ∧ ((∀ b ∈ nbs, 0 < b.divv) → ra p a nbs = 1) ∧ ((∀ b ∈ nbs, b.divv < 0) → ra p a nbs = -1) := by
  simp only [computeDensity, accumulate_eq] at hdens
  split_ifs at hdens with hc
  obtain ⟨-, hpos⟩ := hc
  obtain rfl := Option.some.inj hdens
  simp only [ra, accumulate_eq]
  have hd : ∀ b : Particle (i + 1), distance a0.pos b.pos = magnitude (a0.pos - b.pos) := fun b => rfl
  simp only [hd]
  have hk : ∀ b ∈ nbs, 0 ≤ kernel p.kernel i (magnitude (a0.pos - b.pos)) (1 / 2 * (a0.h + b.h)) := fun b hb =>
    kernel_nonneg hκ i (Real.sqrt_nonneg _) (by have := hh b hb; positivity)
  generalize hS : (nbs.map fun b => b.mass * kernel p.kernel i (magnitude (a0.pos - b.pos)) (1 / 2 * (a0.h + b.h))).sum = S at *
  refine ⟨?_, fun hp => ?_, fun hn => ?_⟩
  · rw [abs_div, abs_of_pos hpos, div_le_one hpos, ← hS]
    refine abs_sum_le nbs _ _ fun b hb => ?_
    rw [abs_mul, abs_mul, abs_of_pos (hm b hb), abs_of_nonneg (hk b hb)]
    have h1 : |signnum b.divv| ≤ 1 := by
      unfold signnum
      split_ifs with h1 h2
      · simp
      · simp
      · rw [le_antisymm (not_lt.1 h1) (not_lt.1 h2)]; simp
    have := mul_nonneg (hm b hb).le (hk b hb)
    nlinarith [mul_le_mul_of_nonneg_right h1 this]
  · rw [div_eq_iff hpos.ne', one_mul, ← hS]
    congr 1
    refine List.map_congr_left fun b hb => ?_
    rw [signnum, if_pos (hp b hb), one_mul]
  · rw [div_eq_iff hpos.ne', ← hS, ← List.sum_map_mul_left]
    congr 1
    refine List.map_congr_left fun b hb => ?_
    rw [signnum, if_neg (not_lt.2 (hn b hb).le), if_pos (hn b hb)]
    ring

/-- C58: in surroundings which expand everywhere the viscosity parameter is never raised. -/
theorem C58_expansion (p : Params i) (hκ : NonNegKernel p.kernel) (c : Settings) (a0 a a' : Particle (i + 1)) (nbs : List (Particle (i + 1)))
    (hm : ∀ b ∈ nbs, 0 < b.mass) (hha : 0 < a0.h) (hh : ∀ b ∈ nbs, 0 < b.h) (hdens : computeDensity p a0 nbs = some a) (hp : ∀ b ∈ nbs, 0 < b.divv)
    (hl : 0 ≤ c.l) (hdt : 0 ≤ c.dt) (ha : 0 ≤ a.alpha) (h : computeAlpha p c a nbs = some a') : a'.alpha ≤ a.alpha := by
  have hr := (C58_indicator p hκ a0 a nbs hm hha hh hdens).2.1 hp
  have hx : computeXi p a nbs = 0 := by simp only [computeXi, hr]; norm_num
  have hA : aTrigger p a nbs = 0 := by rw [aTrigger, hx, zero_mul]
  have ha0h : a.h = a0.h := by
    simp only [computeDensity] at hdens
    split_ifs at hdens
    rw [← Option.some.inj hdens]
  have hv : 0 ≤ (computeSignalspeed a nbs).vsig := by
    simp only [computeSignalspeed]
    have key : ∀ (l : List (Particle (i + 1))) (z : ℝ), 0 ≤ z → 0 ≤ l.foldl (fun vsig b =>
        if b.pos = a.pos then vsig
        else max vsig (max a.cs b.cs -
          min (dot (a.vel - b.vel) (fun j => (a.pos j - b.pos j) / distance a.pos b.pos)) 0)) z := by
      intro l
      induction l with
      | nil => intro z hz; exact hz
      | cons b l ih =>
        intro z hz
        rw [List.foldl_cons]
        refine ih _ ?_
        split_ifs
        · exact hz
        · exact hz.trans (le_max_left _ _)
    exact key nbs 0 le_rfl
  simp only [computeAlpha, hA, mul_zero, zero_div, add_zero, sub_zero] at h
  split_ifs at h with h1 h2 h3
  · rw [← Option.some.inj h]; exact ha
  · rw [← Option.some.inj h]
  · rw [← Option.some.inj h]
    show a.alpha * _ ≤ a.alpha
    have : Real.exp (-(a.alpha / (a.h / (2 * c.l * (computeSignalspeed a nbs).vsig))) * c.dt) ≤ 1 := by
      rw [Real.exp_le_one_iff, neg_mul, Left.neg_nonpos_iff]
      rw [ha0h]
      positivity
    nlinarith

/-- A particle and an expanding neighbour meet the hypotheses. -/
example : ∃ (p : Params 0) (a b : Particle 1), NonNegKernel p.kernel ∧ a.pos ≠ b.pos ∧ (∀ c ∈ [a, b], 0 < c.mass ∧ 0 < c.h ∧ 0 < c.divv) ∧ ∃ a', computeDensity p a [a, b] = some a' := by
  obtain ⟨a, ha⟩ : ∃ a : Particle 1, a = ⟨0, 1, 1, fun _ => 0, 0, 0, 0, 0, 0, 1, 0, 1, 0, 0, 0, 0, 0, 0, 1, 0, 0, 0, 0⟩ := ⟨_, rfl⟩
  obtain ⟨b, hb⟩ : ∃ b : Particle 1, b = ⟨1, 1, 1, fun _ => 1 / 2, 0, 0, 0, 0, 0, 1, 0, 1, 0, 0, 0, 0, 0, 0, 1, 0, 0, 0, 0⟩ := ⟨_, rfl⟩
  obtain ⟨p, hp⟩ : ∃ p : Params 0, p = ⟨.wendlandC2, .cullen, 1, 2, 1 / 100, fun _ => 0, 0⟩ := ⟨_, rfl⟩
  have hk : NonNegKernel p.kernel := by rw [hp]; exact Or.inl .wendlandC2
  have hall : ∀ c ∈ [a, b], 0 < c.mass ∧ 0 < c.h ∧ 0 < c.divv := by
    intro c hc
    simp only [List.mem_cons, List.not_mem_nil, or_false] at hc
    rcases hc with rfl | rfl
    · rw [ha]; norm_num
    · rw [hb]; norm_num
  refine ⟨p, a, b, hk, fun h => ?_, hall, _, (density_some p hk a [a, b] ⟨a, by simp, rfl⟩ (fun c hc => (hall c hc).1) (hall a (by simp)).2.1 (fun c hc => (hall c hc).2.1)).2⟩
  have := congrFun h 0
  rw [ha, hb] at this
  norm_num at this

end indicator

end FleCSPH
