import Verif.Lemmas.Timestep
import Verif.Lemmas.SphSum
/-! C40: the adaptive time step. -/
namespace FleCSPH
open Sph Geometry Kernels Timestep

/-- The limit of a particle: positive, and no longer than the Courant factor times the time to cross the particle spacing
`dx = h / (eta width)` at the particle's speed, at the signal speed, or by its acceleration. In the thermokinetic
formulation also short enough for the potential energy to change by less than half the internal energy. -/
theorem C40_particle_limit {d : Nat} (c : Settings d) (a a' : Particle d) (heta : 0 < c.eta) (hw : 0 < c.width) (hcfl : 0 < c.cfl)
    (hal : 0 ≤ c.alpha) (hh : 0 < a.h) (hv : 0 ≤ a.vsig) (h : computeDt c a = some a') :
    0 < a'.dt ∧
    a'.dt * √(∑ j, a.vel j ^ 2) ≤ c.cfl * (a.h / (c.eta * c.width)) ∧
    a'.dt ^ 2 * √(∑ j, (a.acc j + a.gacc j) ^ 2) ≤ c.cfl ^ 2 * (a.h / (c.eta * c.width)) ∧
    a'.dt * (a.vsig * (1 + 6 / 10 * c.alpha)) ≤ c.cfl * (a.h / (c.eta * c.width)) ∧
    (c.thermokinetic = true → c.phi (fun j => a.pos j + a'.dt * a.vel j) - c.phi a.pos - a'.dt * (∑ j, a.vel j * a.gacc j) < a.u / 2) ∧
    a' = { a with dt := a'.dt } := by
  have hdx : 0 < a.h / (c.eta * c.width) := by positivity
  have hvn : magnitude a.vel = √(∑ j, a.vel j ^ 2) := by simp only [magnitude, sq]
  have han : magnitude (a.acc + a.gacc) = √(∑ j, (a.acc j + a.gacc j) ^ 2) := by simp only [magnitude, sq, Pi.add_apply]
  have hv0 := Real.sqrt_nonneg (∑ j, a.vel j ^ 2)
  have ha0 := Real.sqrt_nonneg (∑ j, (a.acc j + a.gacc j) ^ 2)
  have hs0 : 0 ≤ a.vsig * (1 + 6 / 10 * c.alpha) := by positivity
  -- the limit without the energy criterion
  have base : 0 < baseDt c a ∧ ∀ t, 0 < t → t ≤ baseDt c a →
      t * √(∑ j, a.vel j ^ 2) ≤ c.cfl * (a.h / (c.eta * c.width)) ∧
      t ^ 2 * √(∑ j, (a.acc j + a.gacc j) ^ 2) ≤ c.cfl ^ 2 * (a.h / (c.eta * c.width)) ∧
      t * (a.vsig * (1 + 6 / 10 * c.alpha)) ≤ c.cfl * (a.h / (c.eta * c.width)) := by
    simp only [baseDt, hvn, han]
    generalize a.h / (c.eta * c.width) = dx at *
    generalize √(∑ j, a.vel j ^ 2) = v at *
    generalize √(∑ j, (a.acc j + a.gacc j) ^ 2) = g at *
    generalize a.vsig * (1 + 6 / 10 * c.alpha) = q at *
    refine ⟨by positivity, fun t ht0 ht => ⟨?_, ?_, ?_⟩⟩
    · have h1 : t ≤ c.cfl * (dx / (v + 1 / 10 ^ 24)) :=
        ht.trans (mul_le_mul_of_nonneg_left ((min_le_left _ _).trans (min_le_left _ _)) hcfl.le)
      have h2 : t * (v + 1 / 10 ^ 24) ≤ c.cfl * dx := by
        rw [← mul_div_assoc, le_div_iff₀ (by positivity)] at h1; exact h1
      nlinarith
    · have h1 : t ≤ c.cfl * √(dx / (g + 1 / 10 ^ 24)) :=
        ht.trans (mul_le_mul_of_nonneg_left ((min_le_left _ _).trans (min_le_right _ _)) hcfl.le)
      have h2 : t ^ 2 ≤ c.cfl ^ 2 * (dx / (g + 1 / 10 ^ 24)) := by
        have := pow_le_pow_left₀ ht0.le h1 2
        rwa [mul_pow, Real.sq_sqrt (by positivity)] at this
      rw [← mul_div_assoc, le_div_iff₀ (by positivity)] at h2
      nlinarith [sq_nonneg t]
    · have h1 : t ≤ c.cfl * (dx / (1 / 10 ^ 24 + q)) :=
        ht.trans (mul_le_mul_of_nonneg_left (min_le_right _ _) hcfl.le)
      rw [← mul_div_assoc, le_div_iff₀ (by positivity)] at h1
      nlinarith
  have hshrink : ∀ (k : Nat) (t t' : ℝ), 0 < t → shrink c a k t = some t' → 0 < t' ∧ t' ≤ t ∧ deltaE c a t' < a.u * (1 / 2) := by
    intro k
    induction k with
    | zero => intro t t' _ h; simp [shrink] at h
    | succ k ih =>
      intro t t' ht h
      simp only [shrink] at h
      split_ifs at h with h1
      · cases h; exact ⟨ht, le_rfl, h1⟩
      · obtain ⟨h2, h3, h4⟩ := ih _ t' (by linarith) h
        exact ⟨h2, by linarith, h4⟩
  obtain ⟨hb0, hb⟩ := base
  simp only [computeDt] at h
  split_ifs at h with h1 h2
  · obtain ⟨t', ht', rfl⟩ := Option.map_eq_some_iff.mp h
    obtain ⟨k0, k1, k2⟩ := hshrink 20 _ t' hb0 ht'
    obtain ⟨b1, b2, b3⟩ := hb t' k0 k1
    refine ⟨k0, b1, b2, b3, fun _ => ?_, rfl⟩
    simp only [deltaE] at k2
    show c.phi (a.pos + t' • a.vel) - c.phi a.pos - t' * dot a.vel a.gacc < a.u / 2
    linarith
  · cases h
    obtain ⟨b1, b2, b3⟩ := hb _ hb0 le_rfl
    exact ⟨hb0, b1, b2, b3, fun h => absurd h h1, rfl⟩

/-- Without timed output: the new step is positive, at most the limit of every particle of every process, at most twice the
old one, and the time advances by exactly this step. -/
theorem C40_no_output_partial (o : Outputs) (ho : ∀ k, o.interval k ≤ 0) (limits : List (List ℝ)) (hpos : ∀ l ∈ limits, ∀ x ∈ l, 0 < x)
    (c : Clock) (hdt : 0 < c.dt) :
    let c' := setAdaptive o limits c
    0 < c'.dt ∧ (∀ l ∈ limits, ∀ x ∈ l, c'.dt ≤ x) ∧ c'.dt ≤ 2 * c.dt ∧ (advance true c').totaltime = c.totaltime + c'.dt := by
  intro c'
  have e : c' = _ := setAdaptive_none o (fun k => not_lt.mpr (ho k)) limits c
  obtain ⟨h1, h2, h3⟩ := adapt_spec (smallest_pos limits hpos) hdt
  rw [e]
  exact ⟨h1, fun l hl x hx => h2.trans (smallest_le limits hl hx), h3, rfl⟩

/-- With one kind of timed output, as long as all limits are at most nine tenths of the output interval: the step is positive
and the time does not go past the pending output. For the scalar and data outputs the step is at most the limit of
every particle and at most twice the old one; the screen output may stretch it by a tenth of its interval. The conditions on the
clock hold at the start (`C40_start`) and are kept. -/
theorem C40_single_output_partial (o : Outputs) (k : Kind) (ho : ∀ k', 0 < o.interval k' ↔ k' = k) (limits : List (List ℝ))
    (hpos : ∀ l ∈ limits, ∀ x ∈ l, 0 < x) (hsmall : ∃ l ∈ limits, ∃ x ∈ l, x ≤ 9 / 10 * o.interval k)
    (c : Clock) (hdt : 0 < c.dt) (hs : c.dtSaved ≤ 9 / 10 * o.interval k) (ht : c.totaltime ≤ c.t k) :
    let c' := setAdaptive o limits c
    0 < c'.dt ∧ (advance true c').totaltime = c.totaltime + c'.dt ∧ (advance true c').totaltime ≤ c'.t k ∧
    c'.t k = (if c.totaltime = c.t k then c.t k + o.interval k else c.t k) ∧
    (∀ l ∈ limits, ∀ x ∈ l, c'.dt < x + 1 / 10 * o.interval k) ∧
    (k ≠ .screen → (∀ l ∈ limits, ∀ x ∈ l, c'.dt ≤ x) ∧ c'.dt ≤ 2 * c.dt) ∧
    -- the conditions again, after the call and after advancing
    c'.totaltime ≤ c'.t k ∧ (advance true c').dtSaved ≤ 9 / 10 * o.interval k := by
  intro c'
  have hsm : smallest limits ≤ 9 / 10 * o.interval k := by
    obtain ⟨l, hl, x, hx, h⟩ := hsmall
    exact (smallest_le limits hl hx).trans h
  obtain ⟨_, h2, h3, h4, h5, h6, h7, h8, h9⟩ := setAdaptive_single o k ho limits c (smallest_pos limits hpos) hsm hdt hs ht
  refine ⟨?_, ?_, h6, h3, ?_, fun hk => ⟨?_, (h9 hk).2⟩, ?_, h4⟩
  · show 0 < (setAdaptive o limits c).dt
    rw [h7]; linarith
  · show (setAdaptive o limits c).totaltimeNext = c.totaltime + (setAdaptive o limits c).dt
    rw [h7]; ring
  · intro l hl x hx
    have := smallest_le limits hl hx
    show (setAdaptive o limits c).dt < _
    linarith
  · intro l hl x hx
    exact (h9 hk).1.trans (smallest_le limits hl hx)
  · show (setAdaptive o limits c).totaltime ≤ (setAdaptive o limits c).t k
    rw [h2]; linarith

/-- The clock of `set_initial_time_iteration` meets the conditions. -/
theorem C40_start (o : Outputs) (k : Kind) (hk : 0 < o.interval k) (it : Int) (t0 dt0 : ℝ) (hdt : 0 < dt0) :
    let c := start o it t0 dt0
    0 < c.dt ∧ c.dtSaved ≤ 9 / 10 * o.interval k ∧ c.totaltime ≤ c.t k ∧ (0 ≤ t0 → c.totaltime = t0 ∧ c.t k = t0) := by
  intro c
  refine ⟨hdt, ?_, ?_, fun h0 => ⟨rfl, ?_⟩⟩
  · show (0 : ℝ) ≤ _
    positivity
  · show t0 ≤ if o.interval k > 0 then _ else _
    rw [if_pos hk]
    split_ifs with h
    · exact le_rfl
    · exact not_lt.mp h
  · show (if o.interval k > 0 then _ else _) = t0
    rw [if_pos hk]
    have hq : 0 ≤ t0 / o.interval k := by positivity
    simp only [truncate, if_pos hq]
    have hfl := Int.floor_le (t0 / o.interval k)
    rw [le_div_iff₀ hk] at hfl
    split_ifs with h
    · rfl
    · linarith

/-- Non-vacuity: a moving particle of an adaptive run gets a limit. -/
example (a : Particle 2) : ∃ a', computeDt ⟨13 / 10, 2, 25 / 100, 1, false, fun _ => 0⟩ a = some a' :=
  ⟨{ a with dt := baseDt ⟨13 / 10, 2, 25 / 100, 1, false, fun _ => 0⟩ a }, by simp [computeDt]⟩

/-- Non-vacuity: two processes, scalar output every 1, clock at an output time. -/
example : (∀ k', 0 < (Outputs.mk (fun k => if k = .scalar then 1 else 0) fun _ => 0).interval k' ↔ k' = .scalar) ∧
    ∃ l ∈ [[(3 : ℝ) / 10, 2], [1 / 2]], ∃ x ∈ l, x ≤ 9 / 10 * (1 : ℝ) :=
  ⟨by intro k'; cases k' <;> simp, [3 / 10, 2], by simp, 3 / 10, by simp, by norm_num⟩

end FleCSPH
