import Verif.Lemmas.SphSum
import Verif.Model.Cullen
/-! C58: the adaptive viscosity parameter stays in its range. -/
namespace FleCSPH
open Sph Spec Geometry Kernels Cullen

variable {i : Fin 3}

private theorem xi_nonneg (p : Params i) (a : Particle (i + 1)) (nbs : List (Particle (i + 1))) : 0 ≤ computeXi p a nbs := by
  simp only [computeXi]
  split_ifs
  · exact le_rfl
  · refine div_nonneg (mul_self_nonneg _) (add_nonneg (mul_self_nonneg _) ?_)
    exact Finset.sum_nonneg fun j _ => Finset.sum_nonneg fun k _ => mul_self_nonneg _

private theorem vsig_nonneg {d : Nat} (a : Particle d) (nbs : List (Particle d)) : 0 ≤ (computeSignalspeed a nbs).vsig := by
  simp only [computeSignalspeed]
  have key : ∀ (l : List (Particle d)) (z : ℝ), 0 ≤ z → 0 ≤ l.foldl (fun vsig b =>
      if b.pos = a.pos then vsig
      else max vsig (max a.cs b.cs -
        min (dot (a.vel - b.vel) (fun j => (a.pos j - b.pos j) / distance a.pos b.pos)) 0)) z := by
    intro l
    induction l with
    | nil => intro z hz; exact hz
    | cons b l ih =>
      intro z hz
      rw [List.foldl_cons]
      refine ih _ ?_
      split_ifs
      · exact hz
      · exact hz.trans (le_max_left _ _)
  exact key nbs 0 le_rfl

/-- One update keeps the range. -/
theorem C58_update (p : Params i) (c : Settings) (hmax : 0 ≤ c.alphaMax) (hdel : 0 ≤ c.delta) (hl : 0 < c.l) (hdt : 0 ≤ c.dt)
    (a a' : Particle (i + 1)) (nbs : List (Particle (i + 1))) (hh : 0 < a.h) (h0 : 0 ≤ a.alpha) (h1 : a.alpha ≤ c.alphaMax)
    (h : computeAlpha p c a nbs = some a') : 0 ≤ a'.alpha ∧ a'.alpha ≤ c.alphaMax := by
  have hA : 0 ≤ aTrigger p a nbs := mul_nonneg (xi_nonneg p a nbs) (le_max_right _ _)
  have hv := vsig_nonneg a nbs
  simp only [computeAlpha] at h
  generalize aTrigger p a nbs = A at *
  generalize (computeSignalspeed a nbs).vsig = v at *
  have hq : 0 ≤ c.delta * (v / a.h * (v / a.h)) := mul_nonneg hdel (mul_self_nonneg _)
  split_ifs at h with hd hle hz
  · cases h
    have hden : 0 < c.delta * (v / a.h * (v / a.h)) + A := lt_of_le_of_ne (by linarith) (Ne.symm hd)
    refine ⟨by positivity, ?_⟩
    show c.alphaMax * A / _ ≤ _
    rw [div_le_iff₀ hden]
    nlinarith [mul_nonneg hmax hq]
  · cases h; exact ⟨h0, h1⟩
  · cases h
    have hden : 0 < c.delta * (v / a.h * (v / a.h)) + A := lt_of_le_of_ne (by linarith) (Ne.symm hd)
    set al := c.alphaMax * A / (c.delta * (v / a.h * (v / a.h)) + A) with hal
    have hal0 : 0 ≤ al := by positivity
    have hexp : Real.exp (-((a.alpha - al) / (a.h / (2 * c.l * v))) * c.dt) ≤ 1 := by
      rw [Real.exp_le_one_iff]
      have : 0 ≤ (a.alpha - al) / (a.h / (2 * c.l * v)) := div_nonneg (by linarith) (by positivity)
      nlinarith [mul_nonneg this hdt]
    refine ⟨mul_nonneg h0 (Real.exp_pos _).le, ?_⟩
    show a.alpha * _ ≤ _
    calc a.alpha * Real.exp (-((a.alpha - al) / (a.h / (2 * c.l * v))) * c.dt) ≤ a.alpha * 1 := mul_le_mul_of_nonneg_left hexp h0
      _ ≤ c.alphaMax := by rw [mul_one]; exact h1

/-- A history of one particle as far as its viscosity parameter goes: it starts with `initialize_alpha`, everything else
may change in any way between the updates, and the updates use any neighbours and any time step. -/
inductive AlphaHistory (p : Params i) (alphaMax delta l : ℝ) : Particle (i + 1) → Prop
  | start (a : Particle (i + 1)) : AlphaHistory p alphaMax delta l (initializeAlpha p a)
  | other (a b : Particle (i + 1)) (ha : AlphaHistory p alphaMax delta l a) (hab : b.alpha = a.alpha) : AlphaHistory p alphaMax delta l b
  | update (a b : Particle (i + 1)) (dt : ℝ) (nbs : List (Particle (i + 1))) (ha : AlphaHistory p alphaMax delta l a) (hh : 0 < a.h)
      (hdt : 0 ≤ dt) (hb : computeAlpha p ⟨alphaMax, delta, l, dt⟩ a nbs = some b) : AlphaHistory p alphaMax delta l b

/-- Over every history, as long as no update divides 0 by 0, the parameter stays between 0 and the maximum. -/
theorem C58_history_partial (p : Params i) (hp : p.visc = .cullen) (alphaMax delta l : ℝ) (hmax : 0 ≤ alphaMax) (hdel : 0 ≤ delta) (hl : 0 < l)
    (a : Particle (i + 1)) (ha : AlphaHistory p alphaMax delta l a) : 0 ≤ a.alpha ∧ a.alpha ≤ alphaMax := by
  induction ha with
  | start a => simp only [initializeAlpha, hp]; exact ⟨le_rfl, hmax⟩
  | other a b _ hab ih => rw [hab]; exact ih
  | update a b dt nbs _ hh hdt hb ih => exact C58_update p _ hmax hdel hl hdt a b nbs hh ih.1 ih.2 hb

/-- A particle without a neighbour at another position gets 0/0 unless the trigger is positive; right after the start
(`alpha` and `ddivvdt` zero) its parameter is lost. -/
theorem C58_violated (p : Params i) (c : Settings) (a : Particle (i + 1)) (ha : 0 ≤ a.ddivvdt) :
    computeAlpha p c a [a] = none := by
  have h1 : (computeSignalspeed a [a]).vsig = 0 := by simp [computeSignalspeed]
  have h2 : aTrigger p a [a] = 0 := by simp [aTrigger, ha]
  simp [computeAlpha, h1, h2]

/-- Non-vacuity: with a neighbour elsewhere and a positive sound speed an update is possible. -/
example : ∃ (p : Params 0) (a b : Particle 1), p.visc = .cullen ∧ 0 < a.h ∧ b.pos ≠ a.pos ∧
    ∃ a', computeAlpha p ⟨2, 1, 1, 1⟩ a [a, b] = some a' := by
  let p : Params 0 := ⟨.wendlandC2, .cullen, 1, 2, 1 / 100, fun _ => 0, 0⟩
  let a : Particle 1 := ⟨0, 1, 1, fun _ => 0, 0, 0, 0, 0, 0, 1, 0, 1, 0, 0, 0, 0, 0, 0, 0, 0, 0, 0, 0⟩
  let b : Particle 1 := ⟨1, 1, 1, fun _ => 1 / 2, 0, 0, 0, 0, 0, 1, 0, 1, 0, 0, 0, 0, 0, 0, 0, 0, 0, 0, 0⟩
  have hne : b.pos ≠ a.pos := fun h => by have := congrFun h 0; norm_num [a, b] at this
  refine ⟨p, a, b, rfl, one_pos, hne, ?_⟩
  have hv : (computeSignalspeed a [a, b]).vsig = 1 := by
    simp only [computeSignalspeed, List.foldl_cons, List.foldl_nil, if_true, if_neg hne]
    have : dot (a.vel - b.vel) (fun j => (a.pos j - b.pos j) / distance a.pos b.pos) = 0 := by simp [dot, a, b]
    rw [this]
    norm_num [a, b]
  have hA : aTrigger p a [a, b] = 0 := by simp [aTrigger, a]
  simp only [computeAlpha, hv, hA]
  rw [if_neg (by norm_num [a])]
  split_ifs <;> exact ⟨_, rfl⟩

end FleCSPH
