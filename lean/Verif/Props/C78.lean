import Verif.Lemmas.Gravitated
import Verif.Lemmas.GravityConserve
import Verif.Lemmas.NewtonStep
import Verif.Spec.Newtonian
/-!
C78: runs with self-gravity, the newtonian driver with `enable_fmm`.

Proved for the constant viscosity and a fixed time step, in exact arithmetic: how a run ends does not depend on the number of processes, on the divisions of the particles, on the messages, on the orders of
visits or on `std::sort`; a run on `2^m` processes can always be carried out; every iteration is the leapfrog scheme with Newton's attraction at the new positions, up to the error of the multipole
method; and momentum and angular momentum are kept up to that error.

The steps, momenta and energies are those of either viscosity, the independence of the number of processes that of the constant one.

Missing for the full property: the adaptive time step, the adaptive viscosity (see `C70_violated`), periodic boundaries, rounding. The process of a particle in the passes of SPH and the division used for
gravity are any two divisions in the model, so there are more runs in the model than in the program; C79 has only the runs in which both come from one tree.
-/
namespace FleCSPH.Newtonian
open FleCSPH.Geometry FleCSPH.Sph FleCSPH.Driver FleCSPH.Spec FleCSPH.DistRun FleCSPH.Integration FleCSPH.RunExamples FleCSPH.Key FleCSPH.Cofm

variable {i : Fin 3} {n : Nat}

/-- Gravity from the same particles, on any numbers of processes. -/
private theorem determined (g : Gravity) (hbits : i.val + 1 < g.bits) (hn : 2 ≤ n) (m m' : Nat) {ids : Fin n → Nat} (hids : ∀ a b, ids a = ids b → a = b) :
    Determined (i := i) (n := n) (fun s => Separate (maxDepth g.bits (i + 1)) fun a => bodyOf (s a)) (Gravitated g m) (Gravitated g m') fun s => (∀ a, DistRun.Dense (s a)) ∧ ∀ a, (s a).id = ids a := by
  have hb : ∀ {s s' : Fin n → Particle (i + 1)}, (∀ a, er (s a) = er (s' a)) → (fun a => bodyOf (s' a)) = fun a => bodyOf (s a) := by
    intro s s' e
    funext a
    have := congrArg bodyOf (e a)
    exact this.symm
  have spec : ∀ s : Fin n → Particle (i + 1), ((∀ a, DistRun.Dense (s a)) ∧ ∀ a, (s a).id = ids a) → Separate (maxDepth g.bits (i + 1)) (fun a => bodyOf (s a)) → _ := fun s hs hsep =>
    gravitated_spec g hbits hn (fun a => bodyOf (s a)) (fun a => (hs.1 a).1) (fun a => (hs.1 a).2.1) hsep
  have inj : ∀ {s : Fin n → Particle (i + 1)}, (∀ a, (s a).id = ids a) → ∀ a b, (s a).id = (s b).id → a = b := fun h a b hab => hids a b (by rw [← h, ← h, hab])
  refine ⟨fun s s' e h => ?_, fun s s' v v' hs hs' e hsep hg hg' a => ?_, fun s v hs hsep hg a => ?_, fun s v hs hsep hg a => ?_⟩
  · rw [hb e]; exact h
  · obtain ⟨pot, acc, -, hG⟩ := spec s hs hsep
    have h1 := (hG s (fun _ => rfl) (inj hs.2) m).2 v hg a
    have h2 := (hG s' (fun a => congrFun (hb e) a) (inj hs'.2) m').2 v' hg' a
    rw [h1, h2]
    have := congrArg (fun x : Particle (i + 1) => ({ x with gpot := pot a, gacc := acc a } : Particle (i + 1))) (e a)
    exact this
  · obtain ⟨pot, acc, -, hG⟩ := spec s hs hsep
    exact ⟨_, _, (hG s (fun _ => rfl) (inj hs.2) m).2 v hg a⟩
  · obtain ⟨pot, acc, -, hG⟩ := spec s hs hsep
    exact ⟨_, _, (hG s (fun _ => rfl) (inj hs.2) m').2 v hg a⟩

section
variable {z : Config i} (hv : z.sph.visc = .constant) (he : 0 < z.eta) (hw : 0 < z.width) (hrep : z.repulsionRadius ≤ 1) (g : Gravity) (hbits : i.val + 1 < g.bits) (hn : 2 ≤ n)
include hv he hw hrep hbits hn

/-- Two runs from the same particles, on `2^m` and on `2^m'` processes, end in the same way: both after all iterations, with the same clock and the same data of all particles but the signal speeds, or both
with a failed assertion, or both in the same iteration because two particles came into one cell of the finest grid. -/
theorem C78_processes_partial (hext : ∀ a, z.sph.external { a with vsig := 0 } = z.sph.external a) {m m' N : Nat} {c : Timestep.Clock} {home home' : Fin n → Nat} {d d' : DState (Particle (i + 1)) n}
    {r r' : Outcome i n} (h : Run NearLists g m z N c home d r) (h' : Run NearLists g m' z N c home' d' r') (hsame : d.val = d'.val) (hpos : ∀ a, 0 < (d.val a).mass ∧ 0 < (d.val a).h)
    (hid : ∀ a b, (d.val a).id = (d.val b).id → a = b) (hf : d.flight = []) (hf' : d'.flight = []) : SameOutcome r r' := by
  have := nrun_agree hv he hw hrep hext (determined g hbits hn m m' hid) h h' hpos (fun _ => rfl) (fun a => by rw [hsame]) hf hf'
  cases r <;> cases r' <;> simp only [Outcome.erase, Outcome.done.injEq, Outcome.clash.injEq, reduceCtorEq] at this <;> simp only [SameOutcome]
  · exact ⟨this.1, fun a => congrFun this.2 a⟩
  · exact this

/-- Runs on `2^m` processes exist, whenever there are particles for all of them. -/
theorem C78_exists (hext : ∀ a, z.sph.external { a with vsig := 0 } = z.sph.external a) {m N : Nat} (hm : 2 ^ m ≤ n) {c : Timestep.Clock} {home : Fin n → Nat} (hh : ∀ a, home a < 2 ^ m)
    (s : Fin n → Particle (i + 1)) (hpos : ∀ a, 0 < (s a).mass ∧ 0 < (s a).h) (hid : ∀ a b, (s a).id = (s b).id → a = b) :
    ∃ r, Run NearLists g m z N c home ⟨s, fun _ b => some (s b), []⟩ r := by
  have search : ∀ s : Fin n → Particle (i + 1), ∃ nbs, NearLists s nbs := fun s => ⟨fun _ => List.finRange n, fun _ => List.nodup_finRange n, fun _ b _ => List.mem_finRange b⟩
  have key : ∀ N c (d : DState (Particle (i + 1)) n), (∀ a, Sized (d.val a)) → (∀ a b, (d.val a).id = (d.val b).id → a = b) → Full d → d.flight = [] → ∃ r, Run NearLists g m z N c home d r := by
    intro N
    induction N with
    | zero => intro c d _ _ _ _; exact ⟨_, .nil⟩
    | succ N ih =>
      intro c d hp hi hF hf
      have hH : Disc n (headOps z c) (fun _ => False) Sized Dense := disc_head z hv c hext
      have hT : Disc n (tailOps z c) (fun v => v = flow ∨ v = geo) Dense := disc_tail z he hw c fun _ => hrep
      obtain ⟨r, h1, h2⟩ := exec_exists (near := NearLists) (fun s _ => search s) hh hH hp hF hf
      cases r with
      | none => exact ⟨_, .failHead h1⟩
      | some x =>
        obtain ⟨home1, d1⟩ := x
        obtain ⟨rfl, hF1⟩ := h2 _ rfl
        obtain ⟨p1, p2⟩ := exec_post h1 hH hp hf _ rfl
        have i1 : ∀ a b, (d1.val a).id = (d1.val b).id → a = b := by
          intro a b hab
          have k : ∀ a, (d1.val a).id = (d.val a).id := fun a => congrArg Prod.fst (dexec_keep h1 (keep_head z hv c) _ rfl a)
          exact hi a b (by rw [← k, ← k, hab])
        by_cases hsep : Separate (maxDepth g.bits (i + 1)) fun a => bodyOf (d1.val a)
        · obtain ⟨pot, acc, -, hG⟩ := gravitated_spec g hbits hn (fun a => bodyOf (d1.val a)) (fun a => (p1 a).1) (fun a => (p1 a).2.1) hsep
          have hg := (hG d1.val (fun _ => rfl) i1 m).1 hm
          obtain ⟨r, h3, h4⟩ := exec_exists (near := NearLists) (d := { d1 with val := fun a => { d1.val a with gpot := pot a, gacc := acc a } }) (fun s _ => search s) hh hT (fun a => p1 a)
            (fun p b => hF1 p b) p2
          cases r with
          | none => exact ⟨_, .failTail h1 hsep hg h3⟩
          | some x =>
            obtain ⟨home2, d2⟩ := x
            obtain ⟨rfl, hF2⟩ := h4 _ rfl
            obtain ⟨q1, q2⟩ := exec_post h3 hT (fun a => p1 a) p2 _ rfl
            have i2 : ∀ a b, (d2.val a).id = (d2.val b).id → a = b := by
              intro a b hab
              have k : ∀ a, (d2.val a).id = (d1.val a).id := fun a => congrArg (fun x => x.1.1) (dexec_keep h3 (keep_tail z c) _ rfl a)
              exact i1 a b (by rw [← k, ← k, hab])
            obtain ⟨r, hr⟩ := ih (Timestep.advance false c) d2 q1 i2 hF2 q2
            exact ⟨r, .cons h1 hsep hg h3 hr⟩
        · exact ⟨_, .clash h1 hsep⟩
  exact key N c _ hpos hid (fun _ _ => rfl) rfl

end

/-! ### Newton's third law -/

private theorem pairs_cancel (f : Fin n → Fin n → ℝ) (hf : ∀ a b, f a b = -f b a) : ∑ a, ∑ b ∈ Finset.univ.erase a, f a b = 0 := by
  have h : ∑ a, ∑ b ∈ Finset.univ.erase a, f a b = ∑ b, ∑ a ∈ Finset.univ.erase b, f a b :=
    Finset.sum_comm' fun a b => by simp only [Finset.mem_univ, Finset.mem_erase, true_and, and_true, ne_eq]; exact ⟨fun h e => h e.symm, fun h e => h e.symm⟩
  have h2 : ∑ b, ∑ a ∈ Finset.univ.erase b, f a b = -∑ b, ∑ a ∈ Finset.univ.erase b, f b a := by
    simp only [← Finset.sum_neg_distrib]
    exact Finset.sum_congr rfl fun b _ => Finset.sum_congr rfl fun a _ => hf a b
  linarith

private theorem newton_force (G : ℝ) (s : Fin n → Particle (i + 1)) (j : Fin (i + 1)) : ∑ a, (s a).mass * accelerationAt G (fun b => bodyOf (s b)) a j = 0 := by
  simp only [accelerationAt, bodyOf, Finset.mul_sum]
  refine pairs_cancel _ fun a b => ?_
  rw [distance_comm (s a).pos (s b).pos]; ring

private theorem newton_torque (G : ℝ) (s : Fin n → Particle (i + 1)) (j k : Fin (i + 1)) :
    ∑ a, (s a).mass * ((s a).pos j * accelerationAt G (fun b => bodyOf (s b)) a k - (s a).pos k * accelerationAt G (fun b => bodyOf (s b)) a j) = 0 := by
  simp only [accelerationAt, bodyOf, Finset.mul_sum, ← Finset.sum_sub_distrib]
  refine pairs_cancel _ fun a b => ?_
  rw [distance_comm (s a).pos (s b).pos]; ring

/-- The net force and the net torque after a step. -/
theorem net {G angle : ℝ} {first : Prop} [Decidable first] {dt : ℝ} {s t : Fin n → Particle (i + 1)} (h : Leapfrog G angle first dt s t) (hm : ∀ a, 0 < (t a).mass) {u : ℝ} (hu : u = max angle 0) :
    (∀ j, |∑ a, (t a).mass * ((t a).acc j + (t a).gacc j)| ≤ (4 * u + 5 * u ^ 2 + 2 * u ^ 3) * ∑ a, (t a).mass * pull G t a) ∧
    ∀ j k, |∑ a, (t a).mass * ((t a).pos j * ((t a).acc k + (t a).gacc k) - (t a).pos k * ((t a).acc j + (t a).gacc j))| ≤
      (4 * u + 5 * u ^ 2 + 2 * u ^ 3) * ∑ a, (t a).mass * (|(t a).pos j| + |(t a).pos k|) * pull G t a := by
  obtain ⟨E, hE⟩ : ∃ E : Fin n → Point (i + 1), ∀ a j, E a j = (t a).gacc j - accelerationAt G (fun b => bodyOf (t b)) a j := ⟨fun a j => _, fun _ _ => rfl⟩
  have hb : ∀ a j, |E a j| ≤ (4 * u + 5 * u ^ 2 + 2 * u ^ 3) * pull G t a := fun a j => by rw [hE]; exact (coord_le_distance _ _ j).trans (h.gravity a u hu)
  constructor
  · intro j
    have e : ∑ a, (t a).mass * ((t a).acc j + (t a).gacc j) = ∑ a, (t a).mass * E a j := by
      have := newton_force G t j
      have h2 := h.force j
      calc _ = ∑ a, (t a).mass * (t a).acc j + (∑ a, (t a).mass * E a j + ∑ a, (t a).mass * accelerationAt G (fun b => bodyOf (t b)) a j) := by
            rw [← Finset.sum_add_distrib, ← Finset.sum_add_distrib]
            exact Finset.sum_congr rfl fun a _ => by rw [hE]; ring
        _ = _ := by rw [this, h2]; ring
    rw [e, Finset.mul_sum]
    refine (Finset.abs_sum_le_sum_abs _ _).trans (Finset.sum_le_sum fun a _ => ?_)
    rw [abs_mul, abs_of_pos (hm a)]
    calc _ ≤ (t a).mass * ((4 * u + 5 * u ^ 2 + 2 * u ^ 3) * pull G t a) := mul_le_mul_of_nonneg_left (hb a j) (hm a).le
      _ = _ := by ring
  · intro j k
    have e : ∑ a, (t a).mass * ((t a).pos j * ((t a).acc k + (t a).gacc k) - (t a).pos k * ((t a).acc j + (t a).gacc j)) = ∑ a, (t a).mass * ((t a).pos j * E a k - (t a).pos k * E a j) := by
      have := newton_torque G t j k
      have h2 := h.torque j k
      calc _ = ∑ a, (t a).mass * ((t a).pos j * (t a).acc k - (t a).pos k * (t a).acc j) + (∑ a, (t a).mass * ((t a).pos j * E a k - (t a).pos k * E a j) +
              ∑ a, (t a).mass * ((t a).pos j * accelerationAt G (fun b => bodyOf (t b)) a k - (t a).pos k * accelerationAt G (fun b => bodyOf (t b)) a j)) := by
            rw [← Finset.sum_add_distrib, ← Finset.sum_add_distrib]
            exact Finset.sum_congr rfl fun a _ => by rw [hE, hE]; ring
        _ = _ := by rw [this, h2]; ring
    rw [e, Finset.mul_sum]
    refine (Finset.abs_sum_le_sum_abs _ _).trans (Finset.sum_le_sum fun a _ => ?_)
    rw [abs_mul, abs_of_pos (hm a)]
    have h3 : |(t a).pos j * E a k - (t a).pos k * E a j| ≤ |(t a).pos j| * ((4 * u + 5 * u ^ 2 + 2 * u ^ 3) * pull G t a) + |(t a).pos k| * ((4 * u + 5 * u ^ 2 + 2 * u ^ 3) * pull G t a) := by
      refine (abs_sub _ _).trans ?_
      rw [abs_mul, abs_mul]
      exact add_le_add (mul_le_mul_of_nonneg_left (hb a k) (abs_nonneg _)) (mul_le_mul_of_nonneg_left (hb a j) (abs_nonneg _))
    calc _ ≤ (t a).mass * (|(t a).pos j| * ((4 * u + 5 * u ^ 2 + 2 * u ^ 3) * pull G t a) + |(t a).pos k| * ((4 * u + 5 * u ^ 2 + 2 * u ^ 3) * pull G t a)) := mul_le_mul_of_nonneg_left h3 (hm a).le
      _ = _ := by ring

/-- The momenta after a step. -/
theorem momenta {G angle : ℝ} {first : Prop} [Decidable first] {dt : ℝ} {s t : Fin n → Particle (i + 1)} (h : Leapfrog G angle first dt s t) :
    (∀ j, linearMomentum t j = if first then linearMomentum s j else
      linearMomentum s j + 1 / 2 * dt * (∑ a, (s a).mass * ((s a).acc j + (s a).gacc j) + ∑ a, (t a).mass * ((t a).acc j + (t a).gacc j))) ∧
    ∀ j k, planeMomentum t j k = if first then planeMomentum s j k else
      planeMomentum s j k + 1 / 2 * dt * (∑ a, (s a).mass * ((s a).pos j * ((s a).acc k + (s a).gacc k) - (s a).pos k * ((s a).acc j + (s a).gacc j)) +
        ∑ a, (t a).mass * ((t a).pos j * ((t a).acc k + (t a).gacc k) - (t a).pos k * ((t a).acc j + (t a).gacc j))) := by
  by_cases hf : first
  · simp only [if_pos hf]
    have hp : ∀ a, (t a).pos = (s a).pos := fun a => (h.pos a).trans (if_pos hf)
    have hv : ∀ a, (t a).vel = (s a).vel := fun a => (h.vel a).trans (if_pos hf)
    exact ⟨fun j => Finset.sum_congr rfl fun a _ => by rw [h.mass, hv], fun j k => Finset.sum_congr rfl fun a _ => by rw [h.mass, hv, hp]⟩
  · simp only [if_neg hf]
    have hp : ∀ a j, (t a).pos j = (s a).pos j + dt * ((s a).vel j + 1 / 2 * dt * ((s a).acc j + (s a).gacc j)) := fun a j => by rw [h.pos a, if_neg hf]; rfl
    have hv : ∀ a j, (t a).vel j = (s a).vel j + 1 / 2 * dt * ((s a).acc j + (s a).gacc j) + 1 / 2 * dt * ((t a).acc j + (t a).gacc j) := fun a j => by
      have := congrFun (h.vel a) j
      rw [this, if_neg hf]; rfl
    constructor
    · intro j
      unfold linearMomentum
      rw [mul_add, Finset.mul_sum, Finset.mul_sum, ← Finset.sum_add_distrib, ← Finset.sum_add_distrib]
      exact Finset.sum_congr rfl fun a _ => by rw [hv, h.mass]; ring
    · intro j k
      unfold planeMomentum
      rw [mul_add, Finset.mul_sum, Finset.mul_sum, ← Finset.sum_add_distrib, ← Finset.sum_add_distrib]
      refine Finset.sum_congr rfl fun a _ => ?_
      rw [hv, hv, h.mass]
      have e : (t a).pos j * ((s a).vel k + 1 / 2 * dt * ((s a).acc k + (s a).gacc k)) - (t a).pos k * ((s a).vel j + 1 / 2 * dt * ((s a).acc j + (s a).gacc j)) =
          (s a).pos j * ((s a).vel k + 1 / 2 * dt * ((s a).acc k + (s a).gacc k)) - (s a).pos k * ((s a).vel j + 1 / 2 * dt * ((s a).acc j + (s a).gacc j)) := by rw [hp, hp]; ring
      linear_combination (s a).mass * e

/-- The power of gravity and its energy against Newton's law. -/
theorem gravity_errors {G angle : ℝ} {first : Prop} [Decidable first] {dt : ℝ} {s t : Fin n → Particle (i + 1)} (hl : Leapfrog G angle first dt s t) (hm : ∀ a, 0 < (t a).mass) {u : ℝ} (hu : u = max angle 0) :
    |gravityPower t - ∑ a, (t a).mass * ∑ j, accelerationAt G (fun b => bodyOf (t b)) a j * (t a).vel j| ≤
      (4 * u + 5 * u ^ 2 + 2 * u ^ 3) * ∑ a, (t a).mass * (∑ j, |(t a).vel j|) * pull G t a ∧
    |gravityEnergy t - newtonEnergy G fun b => bodyOf (t b)| ≤ (2 * u + u ^ 2) * ∑ a, 1 / 2 * (t a).mass * well G t a := by
  constructor
  · unfold gravityPower
    rw [← Finset.sum_sub_distrib, Finset.mul_sum]
    refine (Finset.abs_sum_le_sum_abs _ _).trans (Finset.sum_le_sum fun a _ => ?_)
    rw [← mul_sub, ← Finset.sum_sub_distrib, abs_mul, abs_of_pos (hm a)]
    have hc : ∀ j, |(t a).gacc j - accelerationAt G (fun b => bodyOf (t b)) a j| ≤ (4 * u + 5 * u ^ 2 + 2 * u ^ 3) * pull G t a :=
      fun j => (coord_le_distance _ _ j).trans (hl.gravity a u hu)
    calc (t a).mass * |∑ j, ((t a).gacc j * (t a).vel j - accelerationAt G (fun b => bodyOf (t b)) a j * (t a).vel j)|
        ≤ (t a).mass * ∑ j, (4 * u + 5 * u ^ 2 + 2 * u ^ 3) * pull G t a * |(t a).vel j| := by
          refine mul_le_mul_of_nonneg_left ((Finset.abs_sum_le_sum_abs _ _).trans (Finset.sum_le_sum fun j _ => ?_)) (hm a).le
          rw [← sub_mul, abs_mul]
          exact mul_le_mul_of_nonneg_right (hc j) (abs_nonneg _)
      _ = _ := by rw [← Finset.mul_sum]; ring
  · unfold gravityEnergy newtonEnergy
    rw [← Finset.sum_sub_distrib, Finset.mul_sum]
    refine (Finset.abs_sum_le_sum_abs _ _).trans (Finset.sum_le_sum fun a _ => ?_)
    have e : 1 / 2 * (t a).gpot * (t a).mass - 1 / 2 * potentialAt G (fun b => bodyOf (t b)) a * (bodyOf (t a)).mass =
        1 / 2 * (t a).mass * ((t a).gpot - potentialAt G (fun b => bodyOf (t b)) a) := by simp only [bodyOf]; ring
    rw [e, abs_mul, abs_of_pos (by have := hm a; positivity)]
    have := mul_le_mul_of_nonneg_left (hl.potential a u hu) (show 0 ≤ 1 / 2 * (t a).mass by have := hm a; positivity)
    calc _ ≤ _ := this
      _ = _ := by ring

/-- A sum of changes. -/
private theorem drift_bound {N : Nat} {p F E : Nat → ℝ} {dt : ℝ} (h0 : 0 < N → p 1 = p 0) (hstep : ∀ k, 0 < k → k < N → p (k + 1) = p k + 1 / 2 * dt * (F k + F (k + 1)))
    (hF : ∀ k < N, |F (k + 1)| ≤ E (k + 1)) : |p N - p 0| ≤ |dt| * ∑ k ∈ Finset.range N, E (k + 1) := by
  have key : ∀ k, k ≤ N → 0 < k → |p k - p 0| + 1 / 2 * |dt| * E k ≤ |dt| * ∑ l ∈ Finset.range k, E (l + 1) := by
    intro k
    induction k with
    | zero => intro _ h; exact absurd h (lt_irrefl 0)
    | succ k ih =>
      intro hk _
      rw [Finset.sum_range_succ, mul_add]
      have hE := hF k hk
      rcases Nat.eq_zero_or_pos k with rfl | hk0
      · rw [h0 (by omega), sub_self, abs_zero]
        have := mul_nonneg (abs_nonneg dt) ((abs_nonneg _).trans hE)
        simp only [Finset.range_zero, Finset.sum_empty, mul_zero, zero_add] at *
        linarith
      · have h1 := ih (by omega) hk0
        have hE' : |F k| ≤ E k := by have := hF (k - 1) (by omega); rwa [Nat.sub_add_cancel hk0] at this
        have h2 : |p (k + 1) - p 0| ≤ |p k - p 0| + 1 / 2 * |dt| * (E k + E (k + 1)) := by
          rw [hstep k hk0 hk]
          have e : p k + 1 / 2 * dt * (F k + F (k + 1)) - p 0 = (p k - p 0) + 1 / 2 * dt * (F k + F (k + 1)) := by ring
          rw [e]
          refine (abs_add_le _ _).trans ?_
          rw [abs_mul, abs_mul, abs_of_pos (by norm_num : (0 : ℝ) < 1 / 2)]
          have := (abs_add_le (F k) (F (k + 1))).trans (add_le_add hE' hE)
          have := mul_le_mul_of_nonneg_left this (by positivity : (0 : ℝ) ≤ 1 / 2 * |dt|)
          linarith
        linarith
  rcases Nat.eq_zero_or_pos N with rfl | hN
  · simp
  · have h1 := key N le_rfl hN
    have h2 : 0 ≤ E N := by have := (abs_nonneg _).trans (hF (N - 1) (by omega)); rwa [Nat.sub_add_cancel hN] at this
    have := mul_nonneg (by positivity : (0 : ℝ) ≤ 1 / 2 * |dt|) h2
    linarith

/-! ### One iteration -/

private theorem er_split {s t : Fin n → Particle (i + 1)} (h : ∀ a, er (s a) = er (t a)) : ∃ w : Fin n → ℝ, t = fun a => { s a with vsig := w a } := by
  refine ⟨fun a => (t a).vsig, funext fun a => ?_⟩
  have := congrArg (fun x : Particle (i + 1) => ({ x with vsig := (t a).vsig } : Particle (i + 1))) (h a)
  exact this.symm

private theorem head_congr {z : Config i} {c : Timestep.Clock} {s t t' : Fin n → Particle (i + 1)} (h : HeadStep z c s t) (e : ∀ a, er (t a) = er (t' a)) : HeadStep z c s t' := by
  obtain ⟨w, rfl⟩ := er_split e
  exact ⟨h.id, h.mass, h.h, h.vel, h.pos, h.gacc, h.force, h.torque⟩

private theorem tail_congr {z : Config i} {c : Timestep.Clock} {s t t' : Fin n → Particle (i + 1)} (h : TailStep z c s t) (e : ∀ a, er (t a) = er (t' a)) : TailStep z c s t' := by
  obtain ⟨w, rfl⟩ := er_split e
  exact ⟨h.id, h.mass, h.pos, h.acc, h.gacc, h.vel⟩

private theorem everybody_near (s : Fin n → Particle (i + 1)) : NearLists s ((everybody i n).search s) := ⟨fun _ => List.nodup_finRange n, fun _ b _ => List.mem_finRange b⟩

section
variable {z : Config i} (he : 0 < z.eta) (hw : 0 < z.width) (hext : ∀ a, z.sph.external a = 0) (g : Gravity) (hbits : i.val + 1 < g.bits) (hn : 2 ≤ n)
include he hw hext hbits hn

/-- The states between the iterations. -/
private theorem trace {m N : Nat} {c c' : Timestep.Clock} {home : Fin n → Nat} {d : DState (Particle (i + 1)) n} {s : Fin n → Particle (i + 1)} (h : Run NearLists g m z N c home d (.done c' s))
    (hit : z.sph.relaxationSteps ≤ c.iteration) (hpos : ∀ a, 0 < (d.val a).mass ∧ 0 < (d.val a).h) (hid : ∀ a b, (d.val a).id = (d.val b).id → a = b) :
    c'.iteration = c.iteration + N ∧ ∃ S : Nat → Fin n → Particle (i + 1), S 0 = d.val ∧ S N = s ∧ ∀ k < N, Leapfrog g.const g.angle (c.iteration + k = z.initialIteration) c.dt (S k) (S (k + 1)) ∧
      (z.thermokinetic = true → z.evolve = true → 1 ≤ z.updates → EnergyStep z { c with iteration := c.iteration + k } (S k) (S (k + 1))) := by
  generalize hr : Outcome.done c' s = r at h
  induction h with
  | nil => cases hr; exact ⟨by simp, fun _ => _, rfl, rfl, fun k hk => absurd hk (Nat.not_lt_zero k)⟩
  | failHead => cases hr
  | clash => cases hr
  | failTail => cases hr
  | @cons N c home home1 home2 d d1 d2 v r h1 h2 h3 h4 _ ih =>
    obtain ⟨g1, g4, g2⟩ := GravityConserve.fixed_iter hext g hbits hn he hw hit hpos hid h1 h2 h3 h4
    obtain ⟨k1, S, k2, k3, k4⟩ := ih (by show _ ≤ c.iteration + 1; omega) g2 (fun a b hab => hid a b (by rw [← g1.id, ← g1.id, hab])) hr
    refine ⟨by rw [k1]; show c.iteration + 1 + (N : Int) = c.iteration + ((N + 1 : Nat) : Int); push_cast; ring, fun k => if k = 0 then d.val else S (k - 1), if_pos rfl, ?_, fun k hk => ?_⟩
    · exact (if_neg (Nat.succ_ne_zero N)).trans k3
    · rcases Nat.eq_zero_or_pos k with rfl | hk0
      · have e : (c.iteration + ((0 : Nat) : Int) = z.initialIteration) = (c.iteration = z.initialIteration) := by simp
        have e' : ({ c with iteration := c.iteration + ((0 : Nat) : Int) } : Timestep.Clock) = c := by simp
        simp only [if_pos, if_neg (Nat.succ_ne_zero _), Nat.add_sub_cancel, k2]
        refine ⟨?_, ?_⟩
        · convert g1 using 1
        · rw [e']; exact g4
      · have := k4 (k - 1) (by omega)
        have e : c.iteration + 1 + ((k - 1 : Nat) : Int) = c.iteration + k := by omega
        simp only [if_neg (Nat.pos_iff_ne_zero.1 hk0), if_neg (Nat.succ_ne_zero _), Nat.add_sub_cancel]
        rw [show k - 1 + 1 = k by omega] at this
        refine ⟨?_, fun htk hev hup => ?_⟩
        · have := this.1
          change Leapfrog _ _ (c.iteration + 1 + ((k - 1 : Nat) : Int) = _) _ _ _ at this
          convert this using 1
          · rw [e]
          · rfl
        · obtain ⟨q1, q2⟩ := this.2 htk hev hup
          refine ⟨fun a => ?_, q2⟩
          have q1 := q1 a
          change (S k a).e = if c.iteration + 1 + ((k - 1 : Nat) : Int) = _ then _ else _ at q1
          rw [e] at q1
          exact q1

/-- Every iteration of a run past the relaxation phase and without external forces is a step of the leapfrog scheme with Newton's attraction. `S k` is the state after `k` iterations. -/
theorem C78_leapfrog_partial {m N : Nat} {c c' : Timestep.Clock} {home : Fin n → Nat} {d : DState (Particle (i + 1)) n} {s : Fin n → Particle (i + 1)} (h : Run NearLists g m z N c home d (.done c' s))
    (hit : z.sph.relaxationSteps ≤ c.iteration) (hpos : ∀ a, 0 < (d.val a).mass ∧ 0 < (d.val a).h) (hid : ∀ a b, (d.val a).id = (d.val b).id → a = b) :
    c'.iteration = c.iteration + N ∧ ∃ S : Nat → Fin n → Particle (i + 1), S 0 = d.val ∧ S N = s ∧ ∀ k < N, Leapfrog g.const g.angle (c.iteration + k = z.initialIteration) c.dt (S k) (S (k + 1)) := by
  obtain ⟨h1, S, h2, h3, h4⟩ := trace he hw hext g hbits hn h hit hpos hid
  exact ⟨h1, S, h2, h3, fun k hk => (h4 k hk).1⟩

/-- The thermokinetic formulation past the relaxation phase and without external forces. The first iteration sets the total energy of the gas to kinetic energy, initial internal energy and external potential;
each other iteration adds to it the work of gravity, by the trapezoid rule. The power of gravity is that of Newton's law, and the energy of gravity the program adds (analysis.h:113-121) is that of
Newton's law, up to the error of the multipole method; `C78_newton_power` says that the one is the rate of loss of the other. -/
theorem C78_energy_partial (htk : z.thermokinetic = true) (hev : z.evolve = true) (hup : 1 ≤ z.updates) {m N : Nat} {c c' : Timestep.Clock} {home : Fin n → Nat} {d : DState (Particle (i + 1)) n}
    {s : Fin n → Particle (i + 1)} (h : Run NearLists g m z N c home d (.done c' s)) (hrelax : z.sph.relaxationSteps ≤ z.initialIteration) (hstart : c.iteration = z.initialIteration)
    (hpos : ∀ a, 0 < (d.val a).mass ∧ 0 < (d.val a).h) (hid : ∀ a b, (d.val a).id = (d.val b).id → a = b) :
    ∃ S : Nat → Fin n → Particle (i + 1), S 0 = d.val ∧ S N = s ∧ (∀ k < N, Leapfrog g.const g.angle (c.iteration + k = z.initialIteration) c.dt (S k) (S (k + 1))) ∧
      (0 < N → gasEnergy (S 1) = ∑ a, (d.val a).mass * (1 / 2 * ∑ j, (d.val a).vel j * (d.val a).vel j + (Eos.init z.eos z.eosParams (d.val a)).u + z.phi (d.val a).pos)) ∧
      (∀ k, 0 < k → k < N → gasEnergy (S (k + 1)) = gasEnergy (S k) + 1 / 2 * c.dt * (gravityPower (S k) + gravityPower (S (k + 1)))) ∧
      ∀ k, 0 < k → k ≤ N → ∀ u, u = max g.angle 0 →
        |gravityPower (S k) - ∑ a, (S k a).mass * ∑ j, accelerationAt g.const (fun b => bodyOf (S k b)) a j * (S k a).vel j| ≤
          (4 * u + 5 * u ^ 2 + 2 * u ^ 3) * ∑ a, (S k a).mass * (∑ j, |(S k a).vel j|) * pull g.const (S k) a ∧
        |gravityEnergy (S k) - newtonEnergy g.const fun b => bodyOf (S k b)| ≤ (2 * u + u ^ 2) * ∑ a, 1 / 2 * (S k a).mass * well g.const (S k) a := by
  obtain ⟨-, S, h0, hN, hS⟩ := trace he hw hext g hbits hn h (by rw [hstart]; exact hrelax) hpos hid
  have mass : ∀ k ≤ N, ∀ a, (S k a).mass = (d.val a).mass := by
    intro k
    induction k with
    | zero => intro _ a; rw [h0]
    | succ k ih => intro hk a; exact ((hS k hk).1.mass a).trans (ih (by omega) a)
  have hfirst : ∀ k : Nat, (c.iteration + (k : Int) = z.initialIteration) ↔ k = 0 := fun k => by rw [hstart]; omega
  refine ⟨S, h0, hN, fun k hk => (hS k hk).1, fun hN0 => ?_, fun k hk hkN => ?_, fun k hk hkN u hu => ?_⟩
  · have e := ((hS 0 hN0).2 htk hev hup).energy
    refine Finset.sum_congr rfl fun a _ => ?_
    have ea := (e a).trans (if_pos ((hfirst 0).2 rfl))
    rw [h0] at ea
    rw [mass 1 hN0]
    exact congrArg _ ea
  · have e := (hS k hkN).2 htk hev hup
    have e' := (hS (k - 1) (by omega)).2 htk hev hup
    rw [show k - 1 + 1 = k by omega] at e'
    rw [← e.power, ← e'.power]
    unfold gasEnergy
    rw [← Finset.sum_add_distrib, Finset.mul_sum, ← Finset.sum_add_distrib]
    refine Finset.sum_congr rfl fun a _ => ?_
    have ea := (e.energy a).trans (if_neg fun h => hk.ne' ((hfirst k).1 h))
    rw [(hS k hkN).1.mass a, ea]
    ring
  · obtain ⟨l, rfl⟩ : ∃ l, k = l + 1 := ⟨k - 1, by omega⟩
    exact gravity_errors (hS l hkN).1 (fun a => by rw [mass _ hkN]; exact (hpos a).1) hu

/-- The particles and their masses are kept; momentum and angular momentum change by no more than the error of the multipole method allows, and not at all for `fmm_macangle` zero. -/
theorem C78_momentum_partial {m N : Nat} {c c' : Timestep.Clock} {home : Fin n → Nat} {d : DState (Particle (i + 1)) n} {s : Fin n → Particle (i + 1)} (h : Run NearLists g m z N c home d (.done c' s))
    (hrelax : z.sph.relaxationSteps ≤ z.initialIteration) (hstart : c.iteration = z.initialIteration) (hpos : ∀ a, 0 < (d.val a).mass ∧ 0 < (d.val a).h)
    (hid : ∀ a b, (d.val a).id = (d.val b).id → a = b) :
    (∀ a, (s a).id = (d.val a).id ∧ (s a).mass = (d.val a).mass) ∧
    (g.angle ≤ 0 → (∀ j, linearMomentum s j = linearMomentum d.val j) ∧ ∀ j k, planeMomentum s j k = planeMomentum d.val j k) ∧
    ∃ S : Nat → Fin n → Particle (i + 1), S 0 = d.val ∧ S N = s ∧ (∀ k < N, Leapfrog g.const g.angle (c.iteration + k = z.initialIteration) c.dt (S k) (S (k + 1))) ∧ ∀ u, u = max g.angle 0 →
      (∀ j, |linearMomentum s j - linearMomentum d.val j| ≤ |c.dt| * ∑ k ∈ Finset.range N, (4 * u + 5 * u ^ 2 + 2 * u ^ 3) * ∑ a, (S (k + 1) a).mass * pull g.const (S (k + 1)) a) ∧
      ∀ j l, |planeMomentum s j l - planeMomentum d.val j l| ≤
        |c.dt| * ∑ k ∈ Finset.range N, (4 * u + 5 * u ^ 2 + 2 * u ^ 3) * ∑ a, (S (k + 1) a).mass * (|(S (k + 1) a).pos j| + |(S (k + 1) a).pos l|) * pull g.const (S (k + 1)) a := by
  obtain ⟨-, S, h0, hN, hS⟩ := C78_leapfrog_partial he hw hext g hbits hn h (by rw [hstart]; exact hrelax) hpos hid
  have tags : ∀ k ≤ N, ∀ a, (S k a).id = (d.val a).id ∧ (S k a).mass = (d.val a).mass := by
    intro k
    induction k with
    | zero => intro _ a; rw [h0]; exact ⟨rfl, rfl⟩
    | succ k ih => intro hk a; exact ⟨((hS k hk).id a).trans (ih (by omega) a).1, ((hS k hk).mass a).trans (ih (by omega) a).2⟩
  have mass : ∀ k < N, ∀ a, 0 < (S (k + 1) a).mass := fun k hk a => by rw [(tags (k + 1) hk a).2]; exact (hpos a).1
  have hfirst : ∀ k : Nat, (c.iteration + (k : Int) = z.initialIteration) ↔ k = 0 := fun k => by rw [hstart]; omega
  have bound : ∀ u, u = max g.angle 0 →
      (∀ j, |linearMomentum s j - linearMomentum d.val j| ≤ |c.dt| * ∑ k ∈ Finset.range N, (4 * u + 5 * u ^ 2 + 2 * u ^ 3) * ∑ a, (S (k + 1) a).mass * pull g.const (S (k + 1)) a) ∧
      ∀ j l, |planeMomentum s j l - planeMomentum d.val j l| ≤
        |c.dt| * ∑ k ∈ Finset.range N, (4 * u + 5 * u ^ 2 + 2 * u ^ 3) * ∑ a, (S (k + 1) a).mass * (|(S (k + 1) a).pos j| + |(S (k + 1) a).pos l|) * pull g.const (S (k + 1)) a := by
    intro u hu
    constructor
    · intro j
      have := drift_bound (N := N) (p := fun k => linearMomentum (S k) j) (dt := c.dt) (F := fun k => ∑ a, (S k a).mass * ((S k a).acc j + (S k a).gacc j))
        (E := fun k => (4 * u + 5 * u ^ 2 + 2 * u ^ 3) * ∑ a, (S k a).mass * pull g.const (S k) a)
        (fun hN => ((momenta (hS 0 hN)).1 j).trans (if_pos ((hfirst 0).2 rfl))) (fun k hk hkN => ((momenta (hS k hkN)).1 j).trans (if_neg fun h => hk.ne' ((hfirst k).1 h)))
        fun k hk => (net (hS k hk) (mass k hk) hu).1 j
      rwa [h0, hN] at this
    · intro j l
      have := drift_bound (N := N) (p := fun k => planeMomentum (S k) j l) (dt := c.dt)
        (F := fun k => ∑ a, (S k a).mass * ((S k a).pos j * ((S k a).acc l + (S k a).gacc l) - (S k a).pos l * ((S k a).acc j + (S k a).gacc j)))
        (E := fun k => (4 * u + 5 * u ^ 2 + 2 * u ^ 3) * ∑ a, (S k a).mass * (|(S k a).pos j| + |(S k a).pos l|) * pull g.const (S k) a)
        (fun hN => ((momenta (hS 0 hN)).2 j l).trans (if_pos ((hfirst 0).2 rfl))) (fun k hk hkN => ((momenta (hS k hkN)).2 j l).trans (if_neg fun h => hk.ne' ((hfirst k).1 h)))
        fun k hk => (net (hS k hk) (mass k hk) hu).2 j l
      rwa [h0, hN] at this
  refine ⟨fun a => by rw [← hN]; exact tags N le_rfl a, fun hang => ?_, S, h0, hN, hS, bound⟩
  obtain ⟨b1, b2⟩ := bound 0 (max_eq_right hang).symm
  constructor
  · intro j
    have := b1 j
    simp only [ne_eq, OfNat.ofNat_ne_zero, not_false_eq_true, zero_pow, mul_zero, add_zero, zero_mul, Finset.sum_const_zero] at this
    exact sub_eq_zero.1 (abs_nonpos_iff.1 this)
  · intro j k
    have := b2 j k
    simp only [ne_eq, OfNat.ofNat_ne_zero, not_false_eq_true, zero_pow, mul_zero, add_zero, zero_mul, Finset.sum_const_zero] at this
    exact sub_eq_zero.1 (abs_nonpos_iff.1 this)

end

/-- The power of gravity by Newton's law is the rate at which the particles, moving with their velocities, lose energy of gravity. -/
theorem C78_newton_power (G : ℝ) (body : Fin n → Body (i + 1)) (v : Fin n → Point (i + 1)) (hne : ∀ a b, a ≠ b → (body a).pos ≠ (body b).pos) :
    HasDerivAt (fun t : ℝ => newtonEnergy G fun a => { body a with pos := (body a).pos + t • v a }) (-∑ a, (body a).mass * ∑ j, accelerationAt G body a j * v a j) 0 := by
  -- the distance of two particles
  have dist : ∀ a b, a ≠ b → HasDerivAt (fun t : ℝ => distance ((body a).pos + t • v a) ((body b).pos + t • v b))
      ((∑ j, ((body a).pos j - (body b).pos j) * (v a j - v b j)) / distance (body a).pos (body b).pos) 0 := by
    intro a b hab
    have hp : 0 < distance (body a).pos (body b).pos := lt_of_le_of_ne (distance_nonneg _ _) fun h => hne a b hab (Fmm.distance_eq_zero.1 h.symm)
    have h1 : HasDerivAt (fun t : ℝ => ∑ j, (((body a).pos + t • v a) j - ((body b).pos + t • v b) j) * (((body a).pos + t • v a) j - ((body b).pos + t • v b) j))
        (∑ j, ((v a j - v b j) * ((body a).pos j - (body b).pos j) + ((body a).pos j - (body b).pos j) * (v a j - v b j))) 0 := by
      refine HasDerivAt.fun_sum fun j _ => ?_
      have h2 : HasDerivAt (fun t : ℝ => ((body a).pos + t • v a) j - ((body b).pos + t • v b) j) (v a j - v b j) 0 := by
        have h3 : ∀ x y : ℝ, HasDerivAt (fun t : ℝ => x + t * y) y 0 := fun x y => by simpa using ((hasDerivAt_id (0 : ℝ)).mul_const y).const_add x
        exact (h3 _ _).sub (h3 _ _)
      have := h2.fun_mul h2
      simpa using this
    have h4 := h1.sqrt (by
      have : distance (body a).pos (body b).pos ≠ 0 := hp.ne'
      unfold distance at this
      intro h
      apply this
      simp only [zero_smul, add_zero] at h
      rw [h, Real.sqrt_zero])
    unfold distance
    convert h4 using 1
    simp only [zero_smul, add_zero]
    rw [Finset.sum_add_distrib]
    have e : ∑ j, (v a j - v b j) * ((body a).pos j - (body b).pos j) = ∑ j, ((body a).pos j - (body b).pos j) * (v a j - v b j) := Finset.sum_congr rfl fun j _ => mul_comm _ _
    rw [e]
    have hp' : √(∑ j, ((body a).pos j - (body b).pos j) * ((body a).pos j - (body b).pos j)) ≠ 0 := hp.ne'
    field_simp
    ring
  have pair : ∀ a b, a ≠ b → HasDerivAt (fun t : ℝ => -G * (body b).mass / distance ((body a).pos + t • v a) ((body b).pos + t • v b))
      (G * (body b).mass * (∑ j, ((body a).pos j - (body b).pos j) * (v a j - v b j)) / distance (body a).pos (body b).pos ^ 3) 0 := by
    intro a b hab
    have hp : distance (body a).pos (body b).pos ≠ 0 := fun h => hne a b hab (Fmm.distance_eq_zero.1 h)
    have := (hasDerivAt_const (0 : ℝ) (-G * (body b).mass)).fun_div (dist a b hab) (by simpa using hp)
    refine this.congr_deriv ?_
    simp only [zero_smul, add_zero]
    field_simp
    ring
  have total : HasDerivAt (fun t : ℝ => newtonEnergy G fun a => { body a with pos := (body a).pos + t • v a })
      (∑ a, 1 / 2 * (∑ b ∈ Finset.univ.erase a, G * (body b).mass * (∑ j, ((body a).pos j - (body b).pos j) * (v a j - v b j)) / distance (body a).pos (body b).pos ^ 3) * (body a).mass) 0 := by
    unfold newtonEnergy potentialAt
    refine HasDerivAt.fun_sum fun a _ => HasDerivAt.mul_const (HasDerivAt.const_mul _ (HasDerivAt.fun_sum fun b hb => ?_)) _
    exact pair a b (Finset.ne_of_mem_erase hb).symm
  convert total using 1
  obtain ⟨f, hf⟩ : ∃ f : Fin n → Fin n → ℝ, ∀ a b, f a b = G * (body a).mass * (body b).mass * (∑ j, ((body a).pos j - (body b).pos j) * v a j) / distance (body a).pos (body b).pos ^ 3 := ⟨fun a b => _, fun _ _ => rfl⟩
  have e1 : -∑ a, (body a).mass * ∑ j, accelerationAt G body a j * v a j = ∑ a, ∑ b ∈ Finset.univ.erase a, f a b := by
    rw [← Finset.sum_neg_distrib]
    refine Finset.sum_congr rfl fun a _ => ?_
    simp only [accelerationAt, Finset.sum_mul]
    rw [Finset.sum_comm, Finset.mul_sum, ← Finset.sum_neg_distrib]
    refine Finset.sum_congr rfl fun b _ => ?_
    rw [hf, Finset.mul_sum, Finset.mul_sum, ← Finset.sum_neg_distrib, Finset.sum_div]
    exact Finset.sum_congr rfl fun j _ => by ring
  have e2 : (∑ a, 1 / 2 * (∑ b ∈ Finset.univ.erase a, G * (body b).mass * (∑ j, ((body a).pos j - (body b).pos j) * (v a j - v b j)) / distance (body a).pos (body b).pos ^ 3) * (body a).mass) =
      ∑ a, ∑ b ∈ Finset.univ.erase a, (1 / 2 * f a b + 1 / 2 * f b a) := by
    refine Finset.sum_congr rfl fun a _ => ?_
    rw [Finset.mul_sum, Finset.sum_mul]
    refine Finset.sum_congr rfl fun b _ => ?_
    have e3 : ∑ j, ((body a).pos j - (body b).pos j) * (v a j - v b j) = ∑ j, ((body a).pos j - (body b).pos j) * v a j + ∑ j, ((body b).pos j - (body a).pos j) * v b j := by
      rw [← Finset.sum_add_distrib]; exact Finset.sum_congr rfl fun j _ => by ring
    rw [hf, hf, e3, distance_comm (body b).pos (body a).pos]
    ring
  rw [e1, e2]
  have e4 := pairs_cancel (fun a b => 1 / 2 * f a b - 1 / 2 * f b a) fun a b => by ring
  rw [← sub_eq_zero, ← e4, ← Finset.sum_sub_distrib]
  refine Finset.sum_congr rfl fun a _ => ?_
  rw [← Finset.sum_sub_distrib]
  exact Finset.sum_congr rfl fun b _ => by ring

/-! ### Non-vacuity -/

theorem two_separate : Separate (maxDepth 64 2) fun a => bodyOf (i := 1) (two a) := by
  refine Update.C77_separate (fun a => by simp [bodyOf, two]) fun a b hab => ⟨0, ?_⟩
  have h1 : boxHigh (fun a => bodyOf (i := 1) (two a)) 0 ≤ 2 := ciSup_le fun a => by fin_cases a <;> norm_num [bodyOf, two]
  have h2 : -1 ≤ boxLow (fun a => bodyOf (i := 1) (two a)) 0 := le_ciInf fun a => by fin_cases a <;> norm_num [bodyOf, two]
  have h3 : (boxHigh (fun a => bodyOf (i := 1) (two a)) 0 - boxLow (fun a => bodyOf (i := 1) (two a)) 0) / 2 ^ maxDepth 64 2 < 1 / 4 := by
    have : (2 : ℝ) ^ maxDepth 64 2 = 2147483648 := by norm_num [maxDepth]
    rw [this, div_lt_iff₀ (by norm_num)]
    linarith
  refine lt_of_lt_of_le h3 ?_
  fin_cases a <;> fin_cases b <;> first | exact absurd rfl hab | (norm_num [bodyOf, two, abs_of_nonneg, abs_of_neg])

theorem two_distance : distance (two 0).pos (two 1).pos = 1 / 2 := by
  unfold distance
  rw [show (∑ i, ((two 0).pos i - (two 1).pos i) * ((two 0).pos i - (two 1).pos i)) = (1 / 2) ^ 2 by simp [two, Fin.sum_univ_two]; norm_num, Real.sqrt_sq (by norm_num)]

/-- Runs of any length of the two particles of Props/RunExamples.lean with gravity, on one and on two processes, end in the same way. -/
example (k : Nat) (dt angle : ℝ) : ∃ r r', Run NearLists ⟨64, 1000, angle, 1⟩ 0 (gas false .polytropic) k (start dt).clock (fun _ => 0) ⟨two, fun _ b => some (two b), []⟩ r ∧
    Run NearLists ⟨64, 1000, angle, 1⟩ 1 (gas false .polytropic) k (start dt).clock (fun a => a.val) ⟨two, fun _ b => some (two b), []⟩ r' ∧ SameOutcome r r' := by
  have hp : ∀ a, 0 < (two a).mass ∧ 0 < (two a).h := fun a => by simp [two]
  have hid : ∀ a b : Fin 2, (two a).id = (two b).id → a = b := fun a b h => Fin.ext h
  have he : 0 < (gas false .polytropic).eta := by norm_num [gas]
  have hw : 0 < (gas false .polytropic).width := by norm_num [gas]
  have hr : (gas false .polytropic).repulsionRadius ≤ 1 := by norm_num [gas]
  obtain ⟨r, h⟩ := C78_exists (z := gas false .polytropic) rfl he hw hr ⟨64, 1000, angle, 1⟩ (show (1 : Fin 3).val + 1 < 64 by decide) (by decide) (fun _ => rfl) (m := 0) (N := k) (by decide) (c := (start dt).clock)
    (home := fun _ => 0) (fun _ => by decide) two hp hid
  obtain ⟨r', h'⟩ := C78_exists (z := gas false .polytropic) rfl he hw hr ⟨64, 1000, angle, 1⟩ (show (1 : Fin 3).val + 1 < 64 by decide) (by decide) (fun _ => rfl) (m := 1) (N := k) (by decide) (c := (start dt).clock)
    (home := fun a => a.val) (fun a => a.isLt) two hp hid
  exact ⟨r, r', h, h', C78_processes_partial (z := gas false .polytropic) rfl he hw hr ⟨64, 1000, angle, 1⟩ (show (1 : Fin 3).val + 1 < 64 by decide) (by decide) (fun _ => rfl) h h' rfl hp hid rfl rfl⟩

/-- If the first iteration of the two particles can be done on one process whatever gravity gives, it is done on two. -/
private theorem first_done {z : Config 1} (hv : z.sph.visc = .constant) (he : 0 < z.eta) (hw : 0 < z.width) (hrep : z.repulsionRadius ≤ 1) (hext : ∀ a, z.sph.external a = 0)
    (hit : z.sph.relaxationSteps ≤ 0) (hz : z.initialIteration = 0) (dt : ℝ) {s1 : Fin 2 → Particle 2} (hs1 : thermo z dt true (everybody 1 2) (initialise z two) = some s1)
    (htail : ∀ (p : Fin 2 → ℝ) (q : Fin 2 → Point 2) (w : Fin 2 → ℝ),
      exec1 (everybody 1 2) (tailOps z (start dt).clock) (fun a => { sphPass (everybody 1 2) 2 (computeAcceleration z.sph) s1 a with gpot := p a, gacc := q a, vsig := w a }) ≠ none) :
    ∃ c s, Run NearLists ⟨64, 1000, 0, 1⟩ 1 z 1 (start dt).clock (fun a => a.val) ⟨two, fun _ b => some (two b), []⟩ (.done c s) := by
  have hp : ∀ a, 0 < (two a).mass ∧ 0 < (two a).h := fun a => by simp [two]
  have hid : ∀ a b : Fin 2, (two a).id = (two b).id → a = b := fun a b h => Fin.ext h
  have hfirst : (start dt).clock.iteration = z.initialIteration := hz.symm
  obtain ⟨r, h⟩ := C78_exists hv he hw hrep ⟨64, 1000, 0, 1⟩ (by decide) (by decide) (fun a => by rw [hext, hext]) (m := 1) (N := 1) (by decide) (c := (start dt).clock)
    (home := fun a => a.val) (fun a => a.isLt) two hp hid
  have hH : Disc 2 (headOps z (start dt).clock) (fun _ => False) Sized Dense := disc_head _ hv _ fun a => by rw [hext, hext]
  have hT : Disc 2 (tailOps z (start dt).clock) (fun v => v = flow ∨ v = geo) Dense := disc_tail _ he hw _ fun _ => hrep
  have order : ∀ k, VisitsAll ((everybody 1 2).order k) := fun k => ⟨List.nodup_finRange 2, List.mem_finRange⟩
  have eh : exec1 (everybody 1 2) (headOps z (start dt).clock) two = some (sphPass (everybody 1 2) 2 (computeAcceleration z.sph) s1) := by
    have : headOps z (start dt).clock = firstHead z dt := if_pos hfirst
    rw [this, exec1_firstHead _ _ hv, hs1]; rfl
  obtain ⟨r0, x1, x2, -⟩ := exec1_exec (d := ⟨two, fun _ b => some (two b), []⟩) (everybody 1 2) (fun s _ => everybody_near s) order hH hp rfl
  dsimp only at x2
  rw [eh] at x2
  have agree : ∀ {r : Option ((Fin 2 → Nat) × DState (Particle 2) 2)}, DExec NearLists 2 (headOps z (start dt).clock) (fun a => a.val) ⟨two, fun _ b => some (two b), []⟩ r →
      ∃ x, r = some x ∧ ∀ a, er (sphPass (everybody 1 2) 2 (computeAcceleration z.sph) s1 a) = er (x.2.val a) := by
    intro r hx
    have e := exec_agree near_er x1 hH (fun v h => h.elim) (fun v h => h.elim) hp (show ∀ a, Sized (i := 1) (two a) from hp) (fun _ => rfl) hx
    obtain ⟨y, rfl, hy⟩ := Option.map_eq_some_iff.1 x2
    obtain ⟨x, rfl, hx2⟩ := Option.map_eq_some_iff.1 e.symm
    refine ⟨x, rfl, fun a => ?_⟩
    rw [← hy]
    exact (congrFun hx2 a).symm
  cases h with
  | failHead hx => obtain ⟨x, hx, -⟩ := agree hx; cases hx
  | @clash _ _ _ home' _ d' hx hns =>
    exfalso
    obtain ⟨x, e, hx2⟩ := agree hx
    obtain rfl := Option.some.inj e
    have hs := head_congr (head_step (everybody 1 2) (everybody_faithful _ _) _ hv hext _ hit hp eh) hx2
    have : (fun a => bodyOf (d'.val a)) = fun a => bodyOf (i := 1) (two a) := by
      funext a
      have e1 := (hs.pos a).trans (if_pos hfirst)
      have e2 := hs.mass a
      have e3 := hs.h a
      simp only [bodyOf]
      rw [e1, e2, e3]
    exact hns (this ▸ two_separate)
  | @failTail _ _ _ home' _ d' v hx hsep hg hy =>
    exfalso
    obtain ⟨p1, p2⟩ := exec_post hx hH hp rfl _ rfl
    have i1 : ∀ a b, (d'.val a).id = (d'.val b).id → a = b := by
      intro a b hab
      have k : ∀ a, (d'.val a).id = (two a).id := fun a => congrArg Prod.fst (dexec_keep hx (keep_head _ hv _) _ rfl a)
      exact hid a b (by rw [← k, ← k, hab])
    obtain ⟨pot, acc, -, hG⟩ := gravitated_spec (⟨64, 1000, 0, 1⟩ : Gravity) (by decide) le_rfl (fun a => bodyOf (d'.val a)) (fun a => (p1 a).1) (fun a => (p1 a).2.1) hsep
    obtain rfl : v = _ := funext ((hG d'.val (fun _ => rfl) i1 1).2 v hg)
    have hk : ∀ a, ∃ p g, ({ d'.val a with gpot := pot a, gacc := acc a } : Particle 2) = { d'.val a with gpot := p, gacc := g } := fun a => ⟨_, _, rfl⟩
    have hC : ∀ w, w = flow ∨ w = geo → Consistent w { d' with val := fun a => { d'.val a with gpot := pot a, gacc := acc a } } := fun w hw => consistent_grav hw ((head_consistent hx).1 w hw) hk
    have hD := dense_grav p1 hk
    obtain ⟨r, f1, f2, -⟩ := exec1_exec (d := { d' with val := fun a => { d'.val a with gpot := pot a, gacc := acc a } }) (everybody 1 2) (fun s _ => everybody_near s) order hT hD p2
    have f3 := exec_agree near_er f1 hT hC hC hD hD (fun _ => rfl) hy
    obtain rfl : r = none := Option.map_eq_none_iff.1 f3
    obtain ⟨x, e, hx2⟩ := agree hx
    obtain rfl := Option.some.inj e
    obtain ⟨w, hw⟩ := er_split hx2
    refine htail pot acc w ?_
    have f2 := f2.symm
    dsimp only at f2 hw
    rw [hw] at f2
    exact f2
  | @cons _ _ _ home' home'' _ d' d'' v _ hx hsep hg hy hr' =>
    cases hr'
    exact ⟨_, _, .cons hx hsep hg hy .nil⟩

/-- The first iteration on two processes is done, and afterwards the first particle is attracted by the second, at distance 1/2 with mass 1, with the acceleration 4. -/
theorem two_done (dt : ℝ) : ∃ c s, Run NearLists ⟨64, 1000, 0, 1⟩ 1 (gas false .polytropic) 1 (start dt).clock (fun a => a.val) ⟨two, fun _ b => some (two b), []⟩ (.done c s) ∧ (s 0).gacc 0 = 4 ∧
    linearMomentum (i := 1) s 1 = 2 / 3 := by
  have hp : ∀ a, 0 < (two a).mass ∧ 0 < (two a).h := fun a => by simp [two]
  have hid : ∀ a b : Fin 2, (two a).id = (two b).id → a = b := fun a b h => Fin.ext h
  have he : 0 < (gas false .polytropic).eta := by norm_num [gas]
  have hw : 0 < (gas false .polytropic).width := by norm_num [gas]
  have hr : (gas false .polytropic).repulsionRadius ≤ 1 := by norm_num [gas]
  -- the state before gravity, by the run without gravity
  obtain ⟨st', h1, -, -⟩ := gas_begins dt
  obtain ⟨s1, hs1, hs2⟩ : ∃ s1, thermo (gas false .polytropic) dt true (everybody 1 2) (initialise (gas false .polytropic) two) = some s1 ∧ ∀ a, 0 ≤ (s1 a).rho ∧ 0 ≤ (s1 a).P := by
    unfold iteration at h1
    rw [if_pos (by rfl)] at h1
    obtain ⟨st1, h2, h3⟩ := Option.bind_eq_some_iff.1 h1
    obtain ⟨t1, h3, -⟩ := Option.bind_eq_some_iff.1 h3
    unfold firstBranch at h2
    obtain ⟨s1, h4, h5⟩ := Option.bind_eq_some_iff.1 h2
    refine ⟨s1, h4, fun a => ?_⟩
    obtain ⟨x, y, w, hf⟩ := forces_keep (gas false .polytropic) 0 (everybody 1 2) s1 a
    have h6 : st1 = ⟨(start dt).clock, forces (gas false .polytropic) 0 (everybody 1 2) s1⟩ := (Option.some.inj h5).symm
    unfold checkNegativity at h3
    split_ifs at h3 with h7
    have h8 := h7 a
    rw [h6] at h8
    have h9 : 0 ≤ (forces (gas false .polytropic) 0 (everybody 1 2) s1 a).rho ∧ 0 ≤ (forces (gas false .polytropic) 0 (everybody 1 2) s1 a).P := ⟨h8.1, h8.2.1⟩
    rw [hf] at h9
    exact h9
  obtain ⟨c, s, hrun⟩ := first_done (z := gas false .polytropic) rfl he hw hr (fun _ => rfl) le_rfl rfl dt hs1 fun p q w => by
    have e : tailOps (gas false .polytropic) (start dt).clock = firstTail (gas false .polytropic) dt 0 ++ lastOps (gas false .polytropic) := by unfold tailOps; exact congrArg (· ++ _) (if_pos rfl)
    rw [e, exec1_append, exec1_firstTail _ _ _ _ (show (gas false .polytropic).sph.relaxationSteps ≤ 0 from le_rfl)]
    show (exec1 (everybody 1 2) (lastOps (gas false .polytropic)) _) ≠ none
    rw [exec1_last]
    unfold checkNegativity
    rw [if_pos]
    · simp
    · intro a
      obtain ⟨x, y, w, hf⟩ := forces_keep (gas false .polytropic) 0 (everybody 1 2) s1 a
      have hf : sphPass (everybody 1 2) 2 (computeAcceleration (gas false .polytropic).sph) s1 a = _ := hf
      have := hs2 a
      have g1 := congrArg Particle.rho hf
      have g2 := congrArg Particle.P hf
      exact ⟨g1 ▸ this.1, g2 ▸ this.2, fun h => by cases h⟩
  refine ⟨c, s, hrun, ?_, ?_⟩
  · obtain ⟨-, S, g0, g1, g2⟩ := C78_leapfrog_partial (z := gas false .polytropic) he hw (fun _ => rfl) ⟨64, 1000, 0, 1⟩ (by decide) le_rfl hrun le_rfl hp hid
    have g3 := g2 0 Nat.one_pos
    have g4 := g3.gravity 0 0 (by simp)
    simp only [ne_eq, OfNat.ofNat_ne_zero, not_false_eq_true, zero_pow, mul_zero, add_zero, zero_mul] at g4
    have g5 := Fmm.distance_eq_zero.1 (le_antisymm g4 (distance_nonneg _ _))
    have gp : ∀ a, (S 1 a).pos = (two a).pos := fun a => by
      have := g3.pos a
      rw [g0] at this
      exact this.trans (if_pos rfl)
    have gm : ∀ a, (S 1 a).mass = 1 := fun a => by
      have := g3.mass a
      rw [g0] at this
      exact this
    have g6 := congrFun g5 0
    rw [← g1]
    rw [zero_add] at g6
    rw [g6]
    have hu : (Finset.univ : Finset (Fin 2)).erase 0 = {1} := by decide
    simp only [accelerationAt, bodyOf, gp, gm, hu, Finset.sum_singleton, two_distance]
    simp [two]
    norm_num
  · rw [((C78_momentum_partial (z := gas false .polytropic) he hw (fun _ => rfl) ⟨64, 1000, 0, 1⟩ (by decide) le_rfl hrun le_rfl rfl hp hid).2.1 le_rfl).1 1]
    simp [linearMomentum, two]; norm_num

/-- The first iteration with evolved energy is done on two processes; afterwards the energy of the gas is that of the initial data, that of gravity -2, and the power of gravity 4, for the particles approach
each other with the velocity 1. -/
example (dt : ℝ) : ∃ c s, Run NearLists ⟨64, 1000, 0, 1⟩ 1 (gas true .noEos) 1 (start dt).clock (fun a => a.val) ⟨two, fun _ b => some (two b), []⟩ (.done c s) ∧ gasEnergy (i := 1) s = 2 + 1 / 4 + 1 / 9 ∧
    gravityEnergy (i := 1) s = -2 ∧ gravityPower (i := 1) s = 4 := by
  have hp : ∀ a, 0 < (two a).mass ∧ 0 < (two a).h := fun a => by simp [two]
  have hid : ∀ a b : Fin 2, (two a).id = (two b).id → a = b := fun a b h => Fin.ext h
  have he : 0 < (gas true .noEos).eta := by norm_num [gas]
  have hw : 0 < (gas true .noEos).width := by norm_num [gas]
  have hr : (gas true .noEos).repulsionRadius ≤ 1 := by norm_num [gas]
  obtain ⟨s1, hs1, hs2⟩ := heating_thermo dt
  obtain ⟨c, s, hrun⟩ := first_done (z := gas true .noEos) rfl he hw hr (fun _ => rfl) le_rfl rfl dt hs1 fun p q w => by
    have e : tailOps (gas true .noEos) (start dt).clock = firstTail (gas true .noEos) dt 0 ++ lastOps (gas true .noEos) := by unfold tailOps; exact congrArg (· ++ _) (if_pos rfl)
    rw [e, exec1_append, exec1_firstTail _ _ _ _ (show (gas true .noEos).sph.relaxationSteps ≤ 0 from le_rfl), if_pos (show (gas true .noEos).thermokinetic = true from rfl)]
    obtain ⟨t, ht, hw⟩ := heating_energy dt (applyAll (setTotalEnergy (gas true .noEos).phi) fun a => { sphPass (everybody 1 2) 2 (computeAcceleration (gas true .noEos).sph) s1 a with gpot := p a, gacc := q a, vsig := w a }) fun a => by
      obtain ⟨x, y, w, hf⟩ := forces_keep (gas true .noEos) 0 (everybody 1 2) s1 a
      have hf : sphPass (everybody 1 2) 2 (computeAcceleration (gas true .noEos).sph) s1 a = { s1 a with acc := x, gacc := y, gpot := w } := hf
      simp only [applyAll, setTotalEnergy, hf]
      obtain ⟨⟨h1, h2, h3, h4, h5⟩, h6, h7⟩ := hs2 a
      refine ⟨⟨h1, h2, ?_, h4, h5⟩, h7⟩
      show 1 / 2 * dot (s1 a).vel (s1 a).vel + (s1 a).u + 0 = _
      rw [h6]; ring
    rw [ht, Option.bind_some, exec1_last]
    unfold checkNegativity
    rw [if_pos]
    · simp
    · intro a
      exact ⟨(hw a).2.1.le, (hw a).1.2.2.2.1, fun _ => (hw a).1.2.2.2.2⟩
  obtain ⟨S, g0, g1, g2, g3, -, g5⟩ := C78_energy_partial (z := gas true .noEos) he hw (fun _ => rfl) ⟨64, 1000, 0, 1⟩ (by decide) le_rfl rfl rfl le_rfl hrun le_rfl rfl hp hid
  have g6 := g2 0 Nat.one_pos
  have gp : ∀ a, (S 1 a).pos = (two a).pos := fun a => by
    have := g6.pos a
    rw [g0] at this
    exact this.trans (if_pos rfl)
  have gv : ∀ a, (S 1 a).vel = (two a).vel := fun a => by
    have := g6.vel a
    rw [g0] at this
    exact this.trans (if_pos rfl)
  have gm : ∀ a, (S 1 a).mass = 1 := fun a => by
    have := g6.mass a
    rw [g0] at this
    exact this
  have hu : ∀ a : Fin 2, (Finset.univ : Finset (Fin 2)).erase a = {1 - a} := by decide
  obtain ⟨k1, k2⟩ := g5 1 Nat.one_pos le_rfl 0 (by simp)
  simp only [ne_eq, OfNat.ofNat_ne_zero, not_false_eq_true, zero_pow, mul_zero, add_zero, zero_mul] at k1 k2
  refine ⟨c, s, hrun, ?_, ?_, ?_⟩
  · rw [← g1, g3 Nat.one_pos]
    simp [Fin.sum_univ_two, two, gas, Eos.init]; norm_num
  · rw [← g1, sub_eq_zero.1 (abs_nonpos_iff.1 k2)]
    simp only [newtonEnergy, potentialAt, bodyOf, gp, gm, hu, Finset.sum_singleton, Fin.sum_univ_two, distance_comm (two (1 - 0)).pos]
    have := two_distance
    simp [distance_comm (two 1).pos (two 0).pos, this]
    norm_num
  · rw [← g1, sub_eq_zero.1 (abs_nonpos_iff.1 k1)]
    simp only [accelerationAt, bodyOf, gp, gv, gm, hu, Finset.sum_singleton, Fin.sum_univ_two]
    have := two_distance
    simp [distance_comm (two 1).pos (two 0).pos, this, Fin.sum_univ_two]
    simp [two]
    norm_num

/-- Two bodies. -/
example : ∀ a b : Fin 2, a ≠ b → (bodyOf (i := 1) (two a)).pos ≠ (bodyOf (i := 1) (two b)).pos := by
  intro a b hab h
  have := congrFun h 0
  fin_cases a <;> fin_cases b <;> first | exact absurd rfl hab | (norm_num [bodyOf, two] at this)

end FleCSPH.Newtonian
