import Verif.Lemmas.Wvt
import Mathlib.MeasureTheory.Measure.Lebesgue.VolumeOfBalls
/-!
C63: `compute_smoothinglength_wvt` rescales all smoothing lengths by one factor, so that the volumes of the kernel balls of all particles add up to the wanted number of neighbours times the
volume of the sphere, whatever the distribution of the particles.
-/
namespace FleCSPH
open Wvt Geometry

namespace Wvt

/-- The volume (length, area) of a ball in Euclidean space. -/
noncomputable def volumeOfBall (i : Fin 3) (h : ℝ) : ℝ := (MeasureTheory.volume (Metric.ball (0 : EuclideanSpace ℝ (Fin (i + 1))) h)).toReal

theorem ball_eq (i : Fin 3) (h : ℝ) (hh : 0 ≤ h) : volumeOfBall i h = ball i h := by
  fin_cases i
  · show (MeasureTheory.volume (Metric.ball (0 : EuclideanSpace ℝ (Fin 1)) h)).toReal = 2 * h
    rw [EuclideanSpace.volume_ball]
    have h1 : √Real.pi / Real.Gamma (1 / 2 + 1) = 2 := by
      rw [Real.Gamma_add_one (by norm_num), Real.Gamma_one_half_eq]
      have : √Real.pi ≠ 0 := (Real.sqrt_pos.2 Real.pi_pos).ne'
      field_simp
    simp only [Fintype.card_fin, Nat.cast_one, pow_one]
    rw [h1, ENNReal.toReal_mul, ENNReal.toReal_ofReal hh, ENNReal.toReal_ofReal (by norm_num), mul_comm]
  · show (MeasureTheory.volume (Metric.ball (0 : EuclideanSpace ℝ (Fin 2)) h)).toReal = Real.pi * (h * h)
    rw [EuclideanSpace.volume_ball_fin_two]
    rw [ENNReal.toReal_mul, ENNReal.toReal_pow, ENNReal.toReal_ofReal hh]
    rw [ENNReal.toReal_ofReal Real.pi_pos.le]
    ring
  · show (MeasureTheory.volume (Metric.ball (0 : EuclideanSpace ℝ (Fin 3)) h)).toReal = Real.pi * 4 * (h * h * h) / 3
    rw [EuclideanSpace.volume_ball_fin_three]
    rw [ENNReal.toReal_mul, ENNReal.toReal_pow, ENNReal.toReal_ofReal hh, ENNReal.toReal_ofReal (by positivity)]
    ring

theorem ball_scale (i : Fin 3) (h v : ℝ) (hv : 0 ≤ v) : ball i (h * root i v) = v * ball i h := by
  fin_cases i
  · show 2 * (h * v) = v * (2 * h)
    ring
  · show Real.pi * (h * √v * (h * √v)) = v * (Real.pi * (h * h))
    have := Real.mul_self_sqrt hv
    linear_combination Real.pi * h * h * this
  · show Real.pi * 4 * (h * v ^ ((1 : ℝ) / 3) * (h * v ^ ((1 : ℝ) / 3)) * (h * v ^ ((1 : ℝ) / 3))) / 3 = v * (Real.pi * 4 * (h * h * h) / 3)
    have h3 : v ^ ((1 : ℝ) / 3) * v ^ ((1 : ℝ) / 3) * v ^ ((1 : ℝ) / 3) = v := by
      have h1 : (v ^ ((1 : ℝ) / 3)) ^ 3 = v := by
        rw [← Real.rpow_natCast, ← Real.rpow_mul hv]
        norm_num
      rw [← pow_three', h1]
    obtain ⟨w, hw⟩ : ∃ w, w = v ^ ((1 : ℝ) / 3) := ⟨_, rfl⟩
    rw [← hw] at h3 ⊢
    linear_combination Real.pi * 4 / 3 * h * h * h * h3

theorem reduceSum_eq {α : Type} (ranks : List (List α)) (f : α → ℝ) : reduceSum ranks f = (ranks.flatten.map f).sum := by
  unfold reduceSum
  induction ranks with
  | nil => rfl
  | cons l ls ih => simp [ih]

end Wvt

/-- All smoothing lengths are multiplied by one factor; afterwards the volumes of the kernel balls of all particles of all processes add up to the wanted number of neighbours times the volume
of the sphere of radius `b`. -/
theorem C63_volume (i : Fin 3) (b ngb : ℝ) (hb : 0 ≤ b) (hn : 0 ≤ ngb) (ranks : List (List ℝ)) (hpos : ∀ l ∈ ranks, ∀ h ∈ l, 0 < h) (hne : ∃ l ∈ ranks, l ≠ []) :
    ∃ ranks' c, rescale i b ngb ranks = some ranks' ∧ 0 ≤ c ∧ ranks' = ranks.map (fun l => l.map fun h => h * c) ∧
      (ranks'.flatten.map (volumeOfBall i)).sum = ngb * volumeOfBall i b := by
  have hball : ∀ h, 0 < h → 0 < ball i h := by
    intro h hh
    have hpi := Real.pi_pos
    fin_cases i
    · show 0 < 2 * h
      positivity
    · show 0 < Real.pi * (h * h)
      positivity
    · show 0 < Real.pi * 4 * (h * h * h) / 3
      positivity
  have hV : 0 < reduceSum ranks (ball i) := by
    rw [reduceSum_eq]
    obtain ⟨l, hl, hlne⟩ := hne
    obtain ⟨h, hh⟩ := List.exists_mem_of_ne_nil l hlne
    have hmem : h ∈ ranks.flatten := List.mem_flatten.2 ⟨l, hl, hh⟩
    refine lt_of_lt_of_le (hball h (hpos l hl h hh)) ?_
    refine List.single_le_sum ?_ _ (List.mem_map.2 ⟨h, hmem, rfl⟩)
    intro x hx
    obtain ⟨y, hy, rfl⟩ := List.mem_map.1 hx
    obtain ⟨l', hl', hy'⟩ := List.mem_flatten.1 hy
    exact (hball y (hpos l' hl' y hy')).le
  obtain ⟨V, hVdef⟩ : ∃ V, V = reduceSum ranks (ball i) := ⟨_, rfl⟩
  have hb0 : 0 ≤ ball i b := by
    rw [← ball_eq i b hb]
    exact ENNReal.toReal_nonneg
  have hv : 0 ≤ ball i b * ngb / V := by
    rw [hVdef]
    exact div_nonneg (mul_nonneg hb0 hn) hV.le
  have hc : 0 ≤ root i (ball i b * ngb / V) := by
    fin_cases i
    · exact hv
    · exact Real.sqrt_nonneg _
    · exact Real.rpow_nonneg hv _
  refine ⟨_, root i (ball i b * ngb / V), ?_, hc, rfl, ?_⟩
  · unfold rescale
    rw [if_neg hV.ne', hVdef]
  · obtain ⟨c, hcdef⟩ : ∃ c, c = root i (ball i b * ngb / V) := ⟨_, rfl⟩
    have hfl : (ranks.map fun l => l.map fun h => h * c).flatten = ranks.flatten.map fun h => h * c := by
      rw [List.map_flatten]
    rw [← hcdef] at hc ⊢
    rw [hfl, List.map_map]
    have hmap : ranks.flatten.map (volumeOfBall i ∘ fun h => h * c) = ranks.flatten.map fun h => ball i b * ngb / V * ball i h := by
      refine List.map_congr_left fun h hh => ?_
      obtain ⟨l, hl, hh'⟩ := List.mem_flatten.1 hh
      have h0 := (hpos l hl h hh').le
      show volumeOfBall i (h * c) = _
      rw [ball_eq i _ (mul_nonneg h0 hc), hcdef, ball_scale i h _ hv]
    rw [hmap, List.sum_map_mul_left, ← reduceSum_eq, ← hVdef, ball_eq i b hb]
    have : V ≠ 0 := by rw [hVdef]; exact hV.ne'
    field_simp

example : (∀ l ∈ [[1, 2], [], [(3 : ℝ)]], ∀ h ∈ l, 0 < h) ∧ ∃ l ∈ [[1, 2], [], [(3 : ℝ)]], l ≠ [] :=
  ⟨by simp, [3], by simp, by simp⟩

end FleCSPH
