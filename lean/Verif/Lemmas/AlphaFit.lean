import Verif.Lemmas.AdaptProgram
import Verif.Lemmas.DistConserve
/-! The calls of the drivers use the trees only while they are those of the particles, for either viscosity. -/
namespace FleCSPH.AlphaFit
open FleCSPH.Geometry FleCSPH.Sph FleCSPH.Driver FleCSPH.DistRun FleCSPH.AdaptRun FleCSPH.Program FleCSPH.AdaptProgram FleCSPH.DistConserve FleCSPH.Spec FleCSPH.Integration FleCSPH.Newtonian

variable {i : Fin 3} {n m : Nat} {te : Bool} {J : Particle (i + 1) → Prop}

theorem fit_begin (z : Config i) {ops : List (Op (Particle (i + 1)))} (h : Fit ops true Sized te J) : Fit (beginOps z ++ ops) false Sized te J := by
  unfold beginOps
  simp only [List.append_assoc, List.cons_append, List.nil_append]
  refine ⟨fun _ h => h, fit_all (I' := Sized) (init_keep z) (init_sized z) ?_⟩
  have h2 : Fit ((match z.sph.visc with | .constant => [] | .cullen => [Op.all fun a => some (Cullen.initializeAlpha z.sph a)]) ++ ops) true Sized te J := by
    cases z.sph.visc with
    | constant => exact h
    | cullen =>
      refine fit_all (I' := Sized) (fun a => ?_) (fun a ha => ?_) h
      · unfold Cullen.initializeAlpha; split <;> exact ⟨rfl, rfl⟩
      · unfold Cullen.initializeAlpha; split <;> exact ha
  split_ifs
  · exact fit_all (I' := Sized) (fun _ => ⟨rfl, rfl⟩) (fun _ h => h) h2
  · exact h2

theorem fit_forces (z : Config i) (dt : ℝ) (it : Int) : Fit (firstForces z dt it) false Sized true DistRun.Dense := by
  have hnil : Fit ([] : List (Op (Particle (i + 1)))) true DistRun.Dense true DistRun.Dense := ⟨id, fun _ h => h⟩
  rw [firstForces_eq]
  simp only [List.cons_append, List.nil_append]
  refine fit_begin z (fit_density z dt (fit_all (fun _ => ⟨rfl, rfl⟩) (fun _ (h : DistRun.Dense _) => (show DistRun.Dense _ from h)) (fit_alpha z dt ?_)))
  have := fit_force z it hnil
  rwa [List.append_nil] at this

theorem fit_after (z : Config i) (he : 0 < z.eta) (hw : 0 < z.width) (dt : ℝ) (it : Int) : Fit (firstRest z dt it) true DistRun.Dense false Sized :=
  fit_evolve z dt it (fit_last z he hw)

theorem fit_others (z : Config i) (he : 0 < z.eta) (hw : 0 < z.width) (dt : ℝ) (it : Int) : Fit (nextOps z dt it ++ lastOps z) false Sized false Sized := by
  unfold nextOps
  simp only [List.append_assoc, List.cons_append, List.nil_append]
  refine fit_kick z dt (fun _ _ h => h) (fun _ _ h => h) ?_
  refine fit_all (I' := Sized) (fun _ => ⟨rfl, rfl⟩) (fun _ h => h) ?_
  refine fit_all (I' := Sized) (fun _ => ⟨rfl, rfl⟩) (fun _ h => h) ?_
  refine fit_move (I' := Sized) (fun _ => rfl) (fun _ h => h) ?_
  refine ⟨fun _ h => h, fit_density z dt (fit_alpha z dt (fit_force z _ ?_))⟩
  exact fit_all (fun _ => ⟨rfl, rfl⟩) (fun _ (h : DistRun.Dense _) => (show DistRun.Dense _ from h)) ⟨rfl, fit_evolve z _ _ (fit_kick z dt (fun _ _ h => h) (fun _ _ h => h) (fit_last z he hw))⟩

theorem firstOps_eq (z : Config i) (dt : ℝ) (it : Int) : firstOps z dt it ++ lastOps z = firstForces z dt it ++ firstRest z dt it := by
  unfold firstOps firstForces firstRest
  simp only [List.append_assoc]
  cases z.sph.visc <;> rfl

/-- An iteration with a fixed step. -/
theorem fit_fixed (z : Config i) (he : 0 < z.eta) (hw : 0 < z.width) (c : Timestep.Clock) : Fit (iterationOps z c) false Sized false Sized := by
  unfold iterationOps
  split_ifs
  · rw [firstOps_eq]
    exact fit_append (fit_after z he hw _ _) (fit_forces z _ _)
  · exact fit_others z he hw _ _

/-- The parts of an iteration with an adaptive step. -/
theorem fit_adapt1 (z : Config i) (dt : ℝ) (it : Int) : Fit (firstForces z dt it ++ [stepOp z]) false Sized true DistRun.Dense :=
  fit_append (fit_step z fun _ _ h => h) (fit_forces z dt it)

theorem fit_adapt2 (z : Config i) (he : 0 < z.eta) (hw : 0 < z.width) (dt : ℝ) (it : Int) : Fit (firstRest z dt it ++ [stepOp z]) true DistRun.Dense false Sized :=
  fit_append (fit_step z fun _ _ h => h) (fit_after z he hw dt it)

theorem fit_adapt3 (z : Config i) (he : 0 < z.eta) (hw : 0 < z.width) (dt : ℝ) (it : Int) : Fit (nextOps z dt it ++ lastOps z ++ [stepOp z]) false Sized false Sized :=
  fit_append (fit_step z fun _ _ h => h) (fit_others z he hw dt it)

/-- What holds of the particles after calls which fit, and their identifiers, without the trees. -/
theorem exec_fit {near : (Fin n → Particle (i + 1)) → (Fin n → List (Fin n)) → Prop} {procs : Nat} {ops : List (Op (Particle (i + 1)))} {home : Fin n → Nat} {d : DState (Particle (i + 1)) n}
    {r : Option ((Fin n → Nat) × DState (Particle (i + 1)) n)} (h : DExec near procs ops home d r) : ∀ {t : Bool} {I : Particle (i + 1) → Prop}, Fit ops t I te J → (∀ a, I (d.val a)) →
      ∀ x, r = some x → ∀ a, J (x.2.val a) ∧ (x.2.val a).id = (d.val a).id := by
  induction h with
  | nil => intro t I hF hI x h; obtain rfl := Option.some.inj h; exact fun a => ⟨hF.2 _ (hI a), rfl⟩
  | all v hv _ ih =>
    intro t I hF hI x h a
    obtain ⟨h1, t', I', -, h3, h4⟩ := hF
    obtain ⟨k1, k2⟩ := ih h4 (fun a => h3 _ _ (hI a) (hv a)) x h a
    exact ⟨k1, k2.trans (h1 _ _ (hv a))⟩
  | allFail => intro _ _ _ _ x h; cases h
  | @pass k f l home d d' r nbs order h1 h2 h3 h4 _ ih =>
    intro t I hF hI x h a
    obtain ⟨-, -, g1, I', g2, g3⟩ := hF
    obtain ⟨k1, k2⟩ := ih g3 (dpass_inv g2 h4 h2 (fun a _ => hI a) (fun a ha => absurd (h3 a) ha) d' rfl) x h a
    exact ⟨k1, k2.trans (dpass_view (v := fun a : Particle (i + 1) => a.id) (fun a l x h => (g1 a l x h).1) h4 d' rfl a)⟩
  | passFail => intro _ _ _ _ x h; cases h
  | reset h1 _ ih =>
    intro t I hF hI x h a
    have e := h1.1
    obtain ⟨k1, k2⟩ := ih hF.2 (fun a => by rw [e]; exact hI a) x h a
    exact ⟨k1, by rw [k2, e]⟩
  | update _ h1 _ ih =>
    intro t I hF hI x h a
    have e := h1.1
    obtain ⟨k1, k2⟩ := ih hF.2 (fun a => by rw [e]; exact hI a) x h a
    exact ⟨k1, by rw [k2, e]⟩
  | mean hh _ ih =>
    intro t I hF hI x h a
    obtain ⟨h1, h2, I', h3, h4⟩ := hF
    obtain ⟨k1, k2⟩ := ih h4 (fun a => h3 _ _ (mean_pos hh (fun b => h1 _ (hI b)) a) (hI a)) x h a
    exact ⟨k1, k2.trans (h2 _ _)⟩

end FleCSPH.AlphaFit
