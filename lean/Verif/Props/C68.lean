import Verif.Model.Driver
import Mathlib.Tactic.Positivity
import Mathlib.Tactic.Linarith
import Mathlib.Tactic.FieldSimp
/-! C68: the smoothing lengths follow the density. -/
namespace FleCSPH
open Sph Geometry Driver

variable {i : Fin 3} {n : Nat}

/-- C68, variable smoothing lengths: the mass inside a cube whose side is the conventional smoothing length (`h / kernel_width`) is `sph_eta^dim` times the mass of the particle; nothing else of the
particle changes. -/
theorem C68_variable (z : Config i) (hz : z.hMode = .variable) (heta : 0 < z.eta) (hw : 0 < z.width) (s : Fin n → Particle (i + 1)) (a : Fin n) (hm : 0 < (s a).mass) (hr : 0 < (s a).rho) :
    (s a).rho * ((updateH z s a).h / z.width) ^ (i + 1 : ℕ) = z.eta ^ (i + 1 : ℕ) * (s a).mass ∧ 0 < (updateH z s a).h ∧ updateH z s a = { s a with h := (updateH z s a).h } := by
  have hx : 0 < (s a).mass / (s a).rho := by positivity
  have hroot : root i ((s a).mass / (s a).rho) ^ (i + 1 : ℕ) = (s a).mass / (s a).rho := by
    rw [root, ← Real.rpow_natCast, ← Real.rpow_mul hx.le]
    rw [show 1 / ((i : ℕ) + 1 : ℝ) * ((i + 1 : ℕ) : ℝ) = 1 by push_cast; field_simp, Real.rpow_one]
  have e : updateH z s a = { s a with h := newH z (s a) } := by rw [updateH, hz]
  rw [e]
  refine ⟨?_, ?_, rfl⟩
  · show (s a).rho * (newH z (s a) / z.width) ^ (i + 1 : ℕ) = _
    rw [newH, mul_div_assoc, div_self hw.ne', mul_one, mul_pow, hroot]
    field_simp
  · show 0 < newH z (s a)
    have : 0 < root i ((s a).mass / (s a).rho) := Real.rpow_pos_of_pos hx _
    unfold newH; positivity

/-- C68, uniform smoothing lengths: all particles get the same smoothing length, which is the average of the ones they would have got; nothing else changes. -/
theorem C68_uniform (z : Config i) (hz : z.hMode = .uniform) (s : Fin n → Particle (i + 1)) :
    (∀ a b, (updateH z s a).h = (updateH z s b).h) ∧ ∑ a, (updateH z s a).h = ∑ a, (updateH { z with hMode := .variable } s a).h ∧ ∀ a, updateH z s a = { s a with h := (updateH z s a).h } := by
  have e : updateH z s = fun a => { s a with h := 1 / (n : ℝ) * ∑ b, newH z (s b) } := by rw [updateH, hz]
  rw [e]
  refine ⟨fun _ _ => rfl, ?_, fun _ => rfl⟩
  show ∑ _a : Fin n, 1 / (n : ℝ) * ∑ b, newH z (s b) = ∑ a, newH z (s a)
  rw [Finset.sum_const, Finset.card_univ, Fintype.card_fin, nsmul_eq_mul]
  rcases Nat.eq_zero_or_pos n with rfl | hn
  · simp
  · have : (n : ℝ) ≠ 0 := by positivity
    field_simp

/-- C68, fixed smoothing lengths stay. -/
theorem C68_fixed (z : Config i) (hz : z.hMode = .fixed) (s : Fin n → Particle (i + 1)) : updateH z s = s := by rw [updateH, hz]

/-- Two particles of masses 1 and 8 and density 1 in space, with `sph_eta = 1` and width 2, get the lengths 2 and 4. -/
example (z : Config 2) (hz : z.hMode = .variable) (he : z.eta = 1) (hw : z.width = 2) (s : Fin 2 → Particle 3) (h0 : (s 1).mass = 8) (h1 : (s 1).rho = 1) : (updateH z s 1).h = 4 := by
  obtain ⟨e, hp, -⟩ := C68_variable z hz (by rw [he]; norm_num) (by rw [hw]; norm_num) s 1 (by rw [h0]; norm_num) (by rw [h1]; norm_num)
  rw [h0, h1, he, hw] at e
  norm_num at e
  obtain ⟨x, hx⟩ : ∃ x, x = (updateH z s 1).h := ⟨_, rfl⟩
  rw [← hx] at e hp ⊢
  have : (x - 4) * (x ^ 2 + 4 * x + 16) = 0 := by
    have : x ^ 3 = 64 := by
      have e' : (x / 2) ^ 3 = 8 := e
      have : (x / 2) ^ 3 = x ^ 3 / 8 := by ring
      linarith
    ring_nf; linarith
  rcases mul_eq_zero.mp this with h | h
  · linarith
  · nlinarith

end FleCSPH
