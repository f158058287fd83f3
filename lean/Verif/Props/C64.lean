import Verif.Lemmas.Wvt
import Mathlib.Data.List.Perm.Basic
import Mathlib.Algebra.BigOperators.Group.List.Basic
/-!
C64: a relaxation run ends, ends at the latest with the last iteration of the cool down, and writes the relaxed particles, with the density of the profile, exactly when it ends; convergence
means that less than the wanted percentage of all particles still moves by more than a thousandth of the particle spacing, however the particles are distributed.
-/
namespace FleCSPH
open Wvt Geometry

namespace Wvt

/-- A particle with acceleration `q.1` and smoothing length `q.2` moves by more than a thousandth of the spacing. -/
noncomputable def Moves (i : Fin 3) (mu ngb : ℝ) (q : Point (i + 1) × ℝ) : Prop :=
  √(∑ j, (mu * q.1 j) ^ 2) > 1 / 1000 * ((1 / ngb) ^ ((1 : ℝ) / (i + 1 : ℕ)) * q.2)

end Wvt

/-- The run has consecutive iterations from the initial one; the last one is an iteration at which the check succeeds or the last of the cool down, or the initial one when there is no
other; it resets the density and is written, and no other iteration resets it. -/
theorem C64_run (r : Run) (conv : Int → Bool) (h : r.initial ≤ r.final + r.coolDown) :
    ∃ recs fuel0, (∀ fuel, fuel0 ≤ fuel → r.loop conv fuel r.initial false = some recs) ∧
      recs ≠ [] ∧ (∀ k (hk : k < recs.length), recs[k].iteration = r.initial + k) ∧ r.initial + (recs.length : Int) - 1 ≤ r.final + r.coolDown ∧
      (∀ k (hk : k < recs.length), recs[k].reset = true ↔ k + 1 = recs.length) ∧
      (∀ k (hk : k < recs.length), k + 1 = recs.length → recs[k].snapshot = true) ∧
      (r.initial + (recs.length : Int) - 1 = r.final + r.coolDown ∨
        (r.check = true ∧ r.initial < r.initial + (recs.length : Int) - 1 ∧ r.initial + (recs.length : Int) - 1 ≤ r.final ∧ conv (r.initial + (recs.length : Int) - 1) = true)) := by
  suffices H : ∀ (n : ℕ) (k : Int), r.initial ≤ k → r.final + r.coolDown - k = n →
      ∃ recs, (∀ fuel, n + 1 ≤ fuel → r.loop conv fuel k false = some recs) ∧
        recs ≠ [] ∧ (∀ j (hj : j < recs.length), recs[j].iteration = k + j) ∧ k + (recs.length : Int) - 1 ≤ r.final + r.coolDown ∧
        (∀ j (hj : j < recs.length), recs[j].reset = true ↔ j + 1 = recs.length) ∧
        (∀ j (hj : j < recs.length), j + 1 = recs.length → recs[j].snapshot = true) ∧
        (k + (recs.length : Int) - 1 = r.final + r.coolDown ∨
          (r.check = true ∧ r.initial < k + (recs.length : Int) - 1 ∧ k + (recs.length : Int) - 1 ≤ r.final ∧ conv (k + (recs.length : Int) - 1) = true)) by
    obtain ⟨recs, h1⟩ := H (r.final + r.coolDown - r.initial).toNat r.initial le_rfl (by omega)
    exact ⟨recs, _, h1⟩
  have hconv : ∀ k, r.initial ≤ k → r.converged conv k false = true → r.check = true ∧ r.initial < k ∧ k ≤ r.final ∧ conv k = true := by
    intro k hk hc
    unfold Run.converged at hc
    simp only [Bool.false_or, Bool.and_eq_true, decide_eq_true_eq] at hc
    obtain ⟨⟨h1, h2, h3⟩, h4⟩ := hc
    refine ⟨h3, h2, ?_, h4⟩
    unfold Run.step at h1
    split_ifs at h1 with h5 h6
    exact h6
  intro n
  induction n with
  | zero =>
    intro k hk hn
    have hkl : k = r.final + r.coolDown := by omega
    refine ⟨[⟨k, r.step k, true, true⟩], ?_, by simp, ?_, ?_, ?_, ?_, ?_⟩
    · intro fuel hf
      obtain ⟨f, rfl⟩ : ∃ f, fuel = f + 1 := ⟨fuel - 1, by omega⟩
      simp only [Run.loop]
      rw [if_neg (by omega)]
      simp [hkl]
    · intro j hj
      simp at hj
      subst hj
      simp
    · simp; omega
    · intro j hj
      simp at hj
      subst hj
      simp
    · intro j hj
      simp at hj
      subst hj
      simp
    · left; simp; omega
  | succ n ih =>
    intro k hk hn
    cases hc : r.converged conv k false with
    | true =>
      obtain ⟨c1, c2, c3, c4⟩ := hconv k hk hc
      refine ⟨[⟨k, r.step k, true, true⟩], ?_, by simp, ?_, ?_, ?_, ?_, ?_⟩
      · intro fuel hf
        obtain ⟨f, rfl⟩ : ∃ f, fuel = f + 1 := ⟨fuel - 1, by omega⟩
        simp only [Run.loop, hc]
        rw [if_neg (by simp)]
        simp
      · intro j hj
        simp at hj
        subst hj
        simp
      · simp; omega
      · intro j hj
        simp at hj
        subst hj
        simp
      · intro j hj
        simp at hj
        subst hj
        simp
      · right
        simp [c1, c2, c3, c4]
    | false =>
      obtain ⟨recs, h1, h2, h3, h4, h5, h6, h7⟩ := ih (k + 1) (by omega) (by omega)
      have hne : ¬ k = r.final + r.coolDown := by omega
      have hlen : 0 < recs.length := List.length_pos_iff.2 h2
      refine ⟨⟨k, r.step k, false, decide (r.every > 0) && decide (k.tmod r.every = 0)⟩ :: recs, ?_, by simp, ?_, ?_, ?_, ?_, ?_⟩
      · intro fuel hf
        obtain ⟨f, rfl⟩ : ∃ f, fuel = f + 1 := ⟨fuel - 1, by omega⟩
        simp only [Run.loop, hc]
        rw [if_pos ⟨by omega, trivial⟩, h1 f (by omega)]
        simp [hne]
      · intro j hj
        cases j with
        | zero => simp
        | succ j =>
          rw [List.getElem_cons_succ, h3 j (by simpa using hj)]
          push_cast
          ring
      · rw [List.length_cons]; push_cast; omega
      · intro j hj
        cases j with
        | zero =>
          rw [List.getElem_cons_zero, List.length_cons]
          constructor
          · intro h; exact absurd h (by simp)
          · intro h; omega
        | succ j =>
          rw [List.getElem_cons_succ, h5 j (by simpa using hj), List.length_cons]
          omega
      · intro j hj hl
        cases j with
        | zero =>
          rw [List.length_cons] at hl
          omega
        | succ j =>
          rw [List.getElem_cons_succ]
          rw [List.length_cons] at hl
          exact h6 j (by simpa using hj) (by omega)
      · rw [List.length_cons]
        have e : k + ((recs.length + 1 : ℕ) : Int) - 1 = k + 1 + (recs.length : Int) - 1 := by push_cast; ring
        rw [e]
        exact h7

/-- If the initial iteration is already past the cool down, the run is one iteration, its density is not reset, and it is written only when the output interval divides it. -/
theorem C64_run_past (r : Run) (conv : Int → Bool) (fuel : Nat) (h : r.final + r.coolDown < r.initial) :
    ∃ rec1, r.loop conv (fuel + 1) r.initial false = some [rec1] ∧ rec1.iteration = r.initial ∧ rec1.reset = false ∧
      (rec1.snapshot = true ↔ 0 < r.every ∧ r.every ∣ r.initial) := by
  have hc : r.converged conv r.initial false = false := by
    unfold Run.converged
    simp
  have hne : ¬ r.initial = r.final + r.coolDown := by omega
  simp only [Run.loop, hc]
  rw [if_neg (by omega)]
  refine ⟨_, rfl, rfl, by simp [hne], ?_⟩
  simp only [hne, decide_false, Bool.or_false, Bool.and_eq_true, decide_eq_true_eq]
  exact and_congr Iff.rfl Int.dvd_iff_tmod_eq_zero.symm

example : ∃ r : Run, r.initial ≤ r.final + r.coolDown ∧ r.check = true ∧ r.initial < r.final := ⟨⟨0, 500, 10, 100, true⟩, by decide, rfl, by decide⟩

open Classical in
/-- The check on the particles of all processes together: it succeeds when less than `point` percent of the particles move. It never takes back an earlier success. -/
theorem C64_convergence (i : Fin 3) (mu ngb point : ℝ) (hn : 0 < ngb) (ranks : List (List (Point (i + 1) × ℝ))) (l : List (Point (i + 1) × ℝ)) (hl : ranks.flatten.Perm l) (hne : l ≠ []) (old : Bool) :
    ∃ c, checkConvergence i mu ngb point ranks old = some c ∧
      (c = true ↔ old = true ∨ 100 * ((l.filter fun q => decide (Moves i mu ngb q)).length : ℝ) < point * (l.length : ℝ)) := by
  obtain ⟨P, hP⟩ : ∃ P : Point (i + 1) × ℝ → Bool, P = fun q => decide (mag (fun j => mu * q.1 j) > 1 / 1000 * ((1 / ngb) ^ ((1 : ℝ) / ((i : ℝ) + 1)) * q.2)) := ⟨_, rfl⟩
  have hPM : (fun q => decide (Moves i mu ngb q)) = P := by
    rw [hP]
    funext q
    congr 1
    unfold Moves mag
    simp only [sq]
    push_cast
    rfl
  have hlen : (ranks.map List.length).sum = l.length := by
    rw [← List.length_flatten, hl.length_eq]
  have hcnt : (ranks.map fun l => (l.filter P).length).sum = (l.filter P).length := by
    rw [← (hl.filter P).length_eq]
    clear hl hlen hPM hP
    induction ranks with
    | nil => rfl
    | cons a as ih => simp [ih]
  have hpos : 0 < l.length := List.length_pos_iff.2 hne
  have hposR : (0 : ℝ) < (l.length : ℝ) := by exact_mod_cast hpos
  rw [hPM]
  refine ⟨if ((l.filter P).length : ℝ) * 100 / (l.length : ℝ) < point then true else old, ?_, ?_⟩
  · unfold checkConvergence
    simp only [hlen, ← hP, hcnt]
    rw [if_neg (by rintro (h | h) <;> [omega; linarith])]
  · rw [← div_lt_iff₀ hposR, mul_comm (100 : ℝ)]
    by_cases hlt : ((l.filter P).length : ℝ) * 100 / (l.length : ℝ) < point
    · rw [if_pos hlt]; simp [hlt]
    · rw [if_neg hlt]; simp [hlt]

example : ∃ l : List (Point 1 × ℝ), l ≠ [] ∧ [[(![1], 1), (![2], 1)], [(![3], (2 : ℝ))]].flatten.Perm l := ⟨[(![3], 2), (![1], 1), (![2], 1)], by simp, by
  simp only [List.flatten_cons, List.flatten_nil, List.append_nil, List.cons_append, List.nil_append]
  exact (List.perm_append_comm (l₁ := [(![1], 1), (![2], 1)]) (l₂ := [(![3], (2 : ℝ))]))⟩

/-- The step size decreases linearly during the cool down, from a tenth of the parameter to zero at its last iteration. -/
theorem C64_cool_down (mu : ℝ) (hmu : 0 ≤ mu) (final cool k : Int) (hk : 0 < k) (hc : k ≤ cool) :
    stepSize mu final cool (final + k) = some (1 / 10 * mu * (1 - (k : ℝ) / (cool : ℝ))) := by
  unfold stepSize
  rw [if_pos (by omega), if_neg (by omega)]
  have hcR : (0 : ℝ) < (cool : ℝ) := by exact_mod_cast (by omega : (0 : Int) < cool)
  have hkc : (k : ℝ) ≤ (cool : ℝ) := by exact_mod_cast hc
  have e : -(1 / 10) * mu / (cool : ℝ) * ((final + k - final : Int) : ℝ) + 1 / 10 * mu = 1 / 10 * mu * (1 - (k : ℝ) / (cool : ℝ)) := by
    have : ((final + k - final : Int) : ℝ) = (k : ℝ) := by push_cast; ring
    rw [this]
    field_simp
    ring
  rw [e, max_eq_left]
  have : (k : ℝ) / (cool : ℝ) ≤ 1 := (div_le_one hcR).2 hkc
  exact mul_nonneg (by linarith) (by linarith)

end FleCSPH
