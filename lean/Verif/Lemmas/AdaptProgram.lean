import Verif.Model.AdaptProgram
import Verif.Lemmas.ProgramFit
import Verif.Lemmas.AdaptRun
/-! Adaptive runs with trees: which calls use the trees, and what the processes know of the limits of the particles. -/
namespace FleCSPH.AdaptProgram
open FleCSPH.Geometry FleCSPH.Sph FleCSPH.Driver FleCSPH.DistRun FleCSPH.AdaptRun FleCSPH.Program FleCSPH.Spec FleCSPH.Integration FleCSPH.Newtonian

variable {i : Fin 3} {n m : Nat}

theorem fit_append {b : List (Op (Particle (i + 1)))} {t' te : Bool} {I' J : Particle (i + 1) → Prop} (hb : Fit b t' I' te J) : ∀ {a : List (Op (Particle (i + 1)))} {t : Bool} {I : Particle (i + 1) → Prop},
    Fit a t I t' I' → Fit (a ++ b) t I te J := by
  have weak : ∀ {b : List (Op (Particle (i + 1)))} {t t' : Bool} {I I' : Particle (i + 1) → Prop}, Fit b t' I' te J → (t' = true → t = true) → (∀ a, I a → I' a) → Fit b t I te J := by
    intro b
    induction b with
    | nil => intro t t' I I' h h1 h2; exact ⟨fun e => h1 (h.1 e), fun a ha => h.2 a (h2 a ha)⟩
    | cons o b ih =>
      intro t t' I I' h h1 h2
      cases o with
      | all f =>
        obtain ⟨g1, t2, I2, g2, g3, g4⟩ := h
        exact ⟨g1, t2, I2, fun e => ⟨h1 (g2 e).1, (g2 e).2⟩, fun a x ha hx => g3 a x (h2 a ha) hx, g4⟩
      | pass k f =>
        obtain ⟨g0, g1, g2, I2, g3, g4⟩ := h
        exact ⟨h1 g0, fun a ha => g1 a (h2 a ha), g2, I2, fun a l x ha hx => g3 a l x (h2 a ha) hx, g4⟩
      | reset => exact ⟨h1 h.1, ih h.2 id h2⟩
      | update => exact ⟨fun a ha => h.1 a (h2 a ha), ih h.2 id h2⟩
      | mean g set =>
        obtain ⟨g1, g2, I2, g3, g4⟩ := h
        exact ⟨fun a ha => g1 a (h2 a ha), g2, I2, fun x a hx ha => g3 x a hx (h2 a ha), g4⟩
  intro a
  induction a with
  | nil => intro t I h; exact weak hb h.1 h.2
  | cons o a ih =>
    intro t I h
    cases o with
    | all f =>
      obtain ⟨g1, t2, I2, g2, g3, g4⟩ := h
      exact ⟨g1, t2, I2, g2, g3, ih g4⟩
    | pass k f =>
      obtain ⟨g0, g1, g2, I2, g3, g4⟩ := h
      exact ⟨g0, g1, g2, I2, g3, ih g4⟩
    | reset => exact ⟨h.1, ih h.2⟩
    | update => exact ⟨h.1, ih h.2⟩
    | mean g set =>
      obtain ⟨g1, g2, I2, g3, g4⟩ := h
      exact ⟨g1, g2, I2, g3, ih g4⟩

theorem fit_step (z : Config i) {t : Bool} {I : Particle (i + 1) → Prop} (hI : ∀ a x, I a → I { a with dt := x }) : Fit [stepOp z] t I t I := by
  refine ⟨fun a x h => ?_, t, I, fun e => ⟨e, fun a x h => ?_⟩, fun a x ha h => ?_, id, fun _ h => h⟩
  all_goals obtain ⟨y, rfl⟩ := computeDt_keep _ _ _ h
  · rfl
  · rfl
  · exact hI _ _ ha

theorem fit_first (z : Config i) (hv : z.sph.visc = .constant) (dt : ℝ) (it : Int) : Fit (firstForces z dt it ++ [stepOp z]) false Sized true DistRun.Dense := by
  refine fit_append (fit_step z fun _ _ h => h) ?_
  have hnil : Fit ([] : List (Op (Particle (i + 1)))) true DistRun.Dense true DistRun.Dense := ⟨id, fun _ h => h⟩
  have h2 : Fit (densityOp z dt :: .all (fun a => some (saveVelocityhalf a)) :: forceOps z it) true Sized true DistRun.Dense := by
    refine fit_density z dt (fit_all (fun _ => ⟨rfl, rfl⟩) (fun _ (h : DistRun.Dense _) => (show DistRun.Dense _ from h)) ?_)
    have := fit_force z it hnil
    rwa [List.append_nil] at this
  unfold firstForces alphaOps
  simp only [hv, List.append_nil, List.append_assoc, List.cons_append, List.nil_append]
  refine ⟨fun _ h => h, fit_all (I' := Sized) (init_keep z) (init_sized z) ?_⟩
  by_cases htk : z.thermokinetic = true
  · rw [if_pos htk]
    exact fit_all (I' := Sized) (fun _ => ⟨rfl, rfl⟩) (fun _ h => h) h2
  · rw [if_neg htk]
    exact h2

theorem fit_rest (z : Config i) (he : 0 < z.eta) (hw : 0 < z.width) (dt : ℝ) (it : Int) : Fit (firstRest z dt it ++ [stepOp z]) true DistRun.Dense false Sized :=
  fit_append (fit_step z fun _ _ h => h) (fit_evolve z dt it (fit_last z he hw))

theorem fit_next (z : Config i) (hv : z.sph.visc = .constant) (he : 0 < z.eta) (hw : 0 < z.width) {c : Timestep.Clock} (hc : c.iteration ≠ z.initialIteration) :
    Fit (nextOps z c.dt c.iteration ++ lastOps z ++ [stepOp z]) false Sized false Sized := by
  refine fit_append (fit_step z fun _ _ h => h) ?_
  have := fit_iteration z hv he hw c
  unfold iterationOps at this
  rwa [if_neg hc] at this

/-- The order of the particles and their division do not matter for the step. -/
theorem limits_eq (o : Timestep.Outputs) {T : Trees i n m} (hd : Division n (2 ^ m) T.vec) (s : Fin n → Particle (i + 1)) (c : Timestep.Clock) :
    Timestep.setAdaptive o (limits T s) c = Timestep.setAdaptive o (AdaptRun.limits (2 ^ m) (homeOf T.vec) s) c := by
  refine setAdaptive_smallest o ?_ c
  have hm : ∀ x, (∃ l ∈ limits T s, x ∈ l) ↔ ∃ l ∈ AdaptRun.limits (2 ^ m) (homeOf T.vec) s, x ∈ l := by
    intro x
    constructor
    · rintro ⟨l, hl, hx⟩
      obtain ⟨p, -, rfl⟩ := List.mem_map.mp hl
      obtain ⟨a, -, rfl⟩ := List.mem_map.mp hx
      exact ⟨_, List.mem_map.mpr ⟨homeOf T.vec a, List.mem_range.mpr (home_mem hd a), rfl⟩, List.mem_map.mpr ⟨a, List.mem_filter.mpr ⟨List.mem_finRange a, by simp⟩, rfl⟩⟩
    · rintro ⟨l, hl, hx⟩
      obtain ⟨p, -, rfl⟩ := List.mem_map.mp hl
      obtain ⟨a, -, rfl⟩ := List.mem_map.mp hx
      obtain ⟨r, hr⟩ := Update.Division.mem hd a
      exact ⟨_, List.mem_map.mpr ⟨r, List.mem_finRange r, rfl⟩, List.mem_map.mpr ⟨a, hr, rfl⟩⟩
  have hle : ∀ ls ls' : List (List ℝ), (∀ x, (∃ l ∈ ls', x ∈ l) → ∃ l ∈ ls, x ∈ l) → Timestep.smallest ls ≤ Timestep.smallest ls' := by
    intro ls ls' h
    rcases Timestep.smallest_mem ls' with h1 | h1
    · rw [h1]
      exact (Timestep.foldl_min_le _ _).1
    · obtain ⟨l, hl, hx⟩ := h _ h1
      exact Timestep.smallest_le ls hl hx
  exact le_antisymm (hle _ _ fun x hx => (hm x).mpr hx) (hle _ _ fun x hx => (hm x).mp hx)

theorem no_update_rest (z : Config i) (dt : ℝ) (it : Int) : Op.update ∉ firstRest z dt it ++ [stepOp z] := by
  have h1 : ∀ m, Op.update ∉ energyOps z dt it m := by
    intro m
    induction m with
    | zero => simp [energyOps]
    | succ m ih =>
      rw [energyOps, List.mem_append, List.mem_append, not_or, not_or]
      refine ⟨⟨?_, ?_⟩, ih⟩ <;> split_ifs <;> simp
  have h3 : Op.update ∉ lastOps z := by
    unfold lastOps
    cases z.hMode <;> simp
  unfold firstRest stepOp
  rw [List.mem_append, List.mem_append, not_or, not_or]
  refine ⟨⟨?_, h3⟩, by simp⟩
  split_ifs
  exacts [h1 _, by simp]

end FleCSPH.AdaptProgram
