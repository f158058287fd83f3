import Verif.Lemmas.Torus
import Verif.Lemmas.DistDriver
/-! The functions of the hydro driver add up contributions of the neighbours which do not change when everything is moved by periods. -/
namespace FleCSPH.Torus
open FleCSPH.Geometry FleCSPH.Sph FleCSPH.Driver FleCSPH.DistRun FleCSPH.Spec FleCSPH.Kernels FleCSPH.Integration

variable {i : Fin 3} {sides : Fin (i + 1) → ℝ} {periodic : Fin (i + 1) → Bool}

theorem gap_mag (p q : Point (i + 1)) : gap p q = magnitude (p - q) := by
  rw [magnitude_sub_eq]; rfl

theorem image_sub (a b : Particle (i + 1)) (k : Fin (i + 1) → ℤ) : (imageOf sides a k).pos - (imageOf sides b k).pos = a.pos - b.pos := by
  funext j
  simp [imageOf]

theorem image_ne (a b : Particle (i + 1)) (k : Fin (i + 1) → ℤ) : ((imageOf sides b k).pos ≠ (imageOf sides a k).pos) = (b.pos ≠ a.pos) := by
  apply propext
  rw [ne_eq, ne_eq, not_iff_not]
  constructor
  · intro h
    funext j
    have := congrFun h j
    simpa [imageOf] using this
  · intro h
    simp [imageOf, h]

theorem massOf_image (a b : Particle (i + 1)) (k : Fin (i + 1) → ℤ) : massOf (imageOf sides a k) (imageOf sides b k) = massOf a b := by
  unfold massOf
  simp only [image_ne]
  rfl

theorem gradOf_image (p : Params i) (a b : Particle (i + 1)) (k : Fin (i + 1) → ℤ) : gradOf p (imageOf sides a k) (imageOf sides b k) = gradOf p a b := by
  unfold gradOf
  rw [image_sub]
  rfl

theorem viscOf_image (p : Params i) (a b : Particle (i + 1)) (k : Fin (i + 1) → ℤ) : viscOf p (imageOf sides a k) (imageOf sides b k) = viscOf p a b := by
  unfold viscOf
  rw [image_sub]
  rfl

/-! ### Density -/

/-- What the density reads from a neighbour. -/
def geoC {d : Nat} (a : Particle d) : Particle d := geo (core a)
/-- What forces and rates read from a neighbour. -/
def flowC {d : Nat} (a : Particle d) : Particle d := flow (core a)

theorem geoC_core {d : Nat} {a b : Particle d} (h : core a = core b) : geoC a = geoC b := by unfold geoC; rw [h]
theorem flowC_core {d : Nat} {a b : Particle d} (h : core a = core b) : flowC a = flowC b := by unfold flowC; rw [h]
theorem geoC_flowC {d : Nat} {a b : Particle d} (h : flowC a = flowC b) : geoC a = geoC b := by
  have : ∀ a : Particle d, geoC a = geo (flowC a) := fun _ => rfl
  rw [this a, this b, h]

/-- A neighbour's contribution to the density. -/
noncomputable def rhoTerm (p : Params i) (a b : Particle (i + 1)) : ℝ := b.mass * kernel p.kernel i (magnitude (a.pos - b.pos)) (1 / 2 * (a.h + b.h))

open Classical in
/-- What is done with the density. -/
noncomputable def rhoDone (z : Config i) (dt : ℝ) (a : Particle (i + 1)) (m : ℝ) : Option (Particle (i + 1)) :=
  if 0 < m then (Eos.recoverIf (setup z dt) { a with rho := m }).map fun x => core (Eos.computeSoundspeed z.eos z.eosParams (Eos.computePressure z.eos z.eosParams x)) else none

theorem eos_core (e : Eos.Kind) (q : Eos.Params) {d : Nat} (a : Particle d) :
    core (Eos.computeSoundspeed e q (Eos.computePressure e q a)) = core (Eos.computeSoundspeed e q (Eos.computePressure e q (core a))) := by
  cases e <;> rfl

theorem eos_image (e : Eos.Kind) (q : Eos.Params) (a : Particle (i + 1)) (k : Fin (i + 1) → ℤ) :
    Eos.computeSoundspeed e q (Eos.computePressure e q (imageOf sides a k)) = imageOf sides (Eos.computeSoundspeed e q (Eos.computePressure e q a)) k := by
  cases e <;> rfl

theorem recoverIf_core {d : Nat} (z : Eos.Setup d) (a : Particle d) : Eos.recoverIf z (core a) = (Eos.recoverIf z a).map core := by
  simp only [Eos.recoverIf, recoverInternalEnergy]
  split_ifs with h1 h2 h3 h3
  · rfl
  · exact absurd h2 h3
  · exact absurd h3 h2
  · rfl
  · rfl

theorem recoverInternal_image {phi : Point (i + 1) → ℝ} (hphi : ∀ (p : Point (i + 1)) k, Lattice periodic k → phi (fun j => p j + k j * sides j) = phi p) (a : Particle (i + 1)) (k : Fin (i + 1) → ℤ)
    (hk : Lattice periodic k) : recoverInternalEnergy phi (imageOf sides a k) = (recoverInternalEnergy phi a).map fun y => imageOf sides y k := by
  have h1 : phi (imageOf sides a k).pos = phi a.pos := hphi a.pos k hk
  have h2 : (imageOf sides a k).e = a.e := rfl
  have h3 : (imageOf sides a k).vel = a.vel := rfl
  simp only [recoverInternalEnergy, h1, h2, h3]
  split_ifs <;> rfl

theorem recoverIf_image {z : Eos.Setup (i + 1)} (hphi : ∀ (p : Point (i + 1)) k, Lattice periodic k → z.phi (fun j => p j + k j * sides j) = z.phi p) (a : Particle (i + 1)) (k : Fin (i + 1) → ℤ)
    (hk : Lattice periodic k) : Eos.recoverIf z (imageOf sides a k) = (Eos.recoverIf z a).map fun y => imageOf sides y k := by
  unfold Eos.recoverIf
  split
  · exact recoverInternal_image hphi a k hk
  · rfl

theorem kernel_term_far (p : Params i) (a b : Particle (i + 1)) (ha : 0 < a.h) (hb : 0 < b.h) (h : (a.h + b.h) / 2 < gap a.pos b.pos) : rhoTerm p a b = 0 := by
  rw [gap_mag] at h
  unfold rhoTerm
  rw [kernel_far _ _ (by linarith) (by linarith), mul_zero]

theorem grad_gap (p : Params i) {a b : Particle (i + 1)} (ha : 0 < a.h) (hb : 0 < b.h) (h : (a.h + b.h) / 2 < gap a.pos b.pos) : gradOf p a b = 0 := by
  rw [gap_mag] at h
  exact grad_far p ha hb (by linarith)

noncomputable def densityForm (z : Config i) (hf : PeriodicForce sides periodic z) (hv : z.sph.visc = .constant) (dt : ℝ) :
    SumForm sides periodic geoC (Eos.computeDensityPressureSoundspeed z.sph z.eos z.eosParams (setup z dt)) where
  M := ℝ
  φ := rhoTerm z.sph
  G := rhoDone z dt
  form a l hl := by
    have h1 : ((Eos.computeDensityPressureSoundspeed z.sph z.eos z.eosParams (setup z dt) a l).map er).map core = (Eos.computeDensityPressureSoundspeed z.sph z.eos z.eosParams (setup z dt) a l).map core := by
      rw [Option.map_map]; rfl
    rw [← h1, density_er z hv]
    have h2 : 0 < l.length := List.length_pos_iff.mpr hl
    have h3 : (l.map (rhoTerm z.sph a)).sum = rhoSum z.sph a l := rfl
    rw [h3]
    unfold rhoDone
    simp only [h2, true_and]
    split_ifs with h4
    · have h5 : ({ core a with rho := rhoSum z.sph a l } : Particle (i + 1)) = core { er a with rho := rhoSum z.sph a l } := rfl
      rw [h5, recoverIf_core, Option.map_map, Option.map_map]
      congr 1
      funext x
      simp only [Function.comp]
      exact eos_core _ _ x
    · rfl
  far := kernel_term_far z.sph
  view a a' b b' ha hb := by
    have e1 : a.pos = a'.pos := by have := congrArg Particle.pos ha; exact this
    have e2 : a.h = a'.h := by have := congrArg Particle.h ha; exact this
    have e3 : b.pos = b'.pos := by have := congrArg Particle.pos hb; exact this
    have e4 : b.h = b'.h := by have := congrArg Particle.h hb; exact this
    have e5 : b.mass = b'.mass := by have := congrArg Particle.mass hb; exact this
    unfold rhoTerm
    rw [e1, e2, e3, e4, e5]
  shift a b k _ := by
    unfold rhoTerm
    rw [image_sub]
    rfl
  shiftG a m k hk := by
    unfold rhoDone
    split_ifs with h
    · have h5 : ({ imageOf sides a k with rho := m } : Particle (i + 1)) = imageOf sides { a with rho := m } k := rfl
      rw [h5, recoverIf_image (z := setup z dt) hf.potential _ k hk, Option.map_map, Option.map_map]
      congr 1
      funext x
      simp only [Function.comp]
      rw [eos_image, core_imageOf]
    · rfl
  keepId a l y h := by
    obtain ⟨_, _, _, _, _, _, _, _, rfl⟩ := density_keep _ _ _ _ _ _ _ h
    rfl

/-! ### Forces and rates -/

theorem flowC_fields {d : Nat} {a b : Particle d} (h : flowC a = flowC b) : a.pos = b.pos ∧ a.h = b.h ∧ a.mass = b.mass ∧ a.vel = b.vel ∧ a.vhalf = b.vhalf ∧ a.rho = b.rho ∧ a.P = b.P ∧ a.cs = b.cs ∧ a.alpha = b.alpha :=
by
  have h1 := congrArg Particle.pos h
  have h2 := congrArg Particle.h h
  have h3 := congrArg Particle.mass h
  have h4 := congrArg Particle.vel h
  have h5 := congrArg Particle.vhalf h
  have h6 := congrArg Particle.rho h
  have h7 := congrArg Particle.P h
  have h8 := congrArg Particle.cs h
  have h9 := congrArg Particle.alpha h
  exact ⟨h1, h2, h3, h4, h5, h6, h7, h8, h9⟩

theorem core_flowC {d : Nat} {a b : Particle d} (h : core a = core b) : flowC a = flowC b := by unfold flowC; rw [h]

theorem massOf_view {d : Nat} {a a' b b' : Particle d} (ha : flowC a = flowC a') (hb : flowC b = flowC b') : massOf a b = massOf a' b' := by
  obtain ⟨h1, -⟩ := flowC_fields ha
  obtain ⟨h2, -, h3, -⟩ := flowC_fields hb
  unfold massOf
  rw [h1, h2, h3]

theorem gradOf_view (p : Params i) {a a' b b' : Particle (i + 1)} (ha : flowC a = flowC a') (hb : flowC b = flowC b') : gradOf p a b = gradOf p a' b' := by
  obtain ⟨h1, h2, -⟩ := flowC_fields ha
  obtain ⟨h3, h4, -⟩ := flowC_fields hb
  unfold gradOf
  rw [h1, h2, h3, h4]

theorem viscOf_view (p : Params i) {a a' b b' : Particle (i + 1)} (ha : flowC a = flowC a') (hb : flowC b = flowC b') : viscOf p a b = viscOf p a' b' := by
  obtain ⟨h1, h2, -, -, h3, h4, -, h5, h6⟩ := flowC_fields ha
  obtain ⟨g1, g2, -, -, g3, g4, -, g5, g6⟩ := flowC_fields hb
  unfold viscOf
  rw [h1, h2, h3, h4, h5, h6, g1, g2, g3, g4, g5, g6]

/-- A neighbour's contribution to the acceleration. -/
noncomputable def accTerm (p : Params i) (a b : Particle (i + 1)) : Point (i + 1) := (-massOf a b * (a.P / (a.rho * a.rho) + b.P / (b.rho * b.rho) + viscOf p a b)) • gradOf p a b

noncomputable def accelerationForm (z : Config i) (hf : PeriodicForce sides periodic z) : SumForm sides periodic flowC (fun a l => some (computeAcceleration z.sph a l)) where
  M := Point (i + 1)
  inst := inferInstanceAs (AddCommMonoid (Fin (i + 1) → ℝ))
  φ := accTerm z.sph
  G a m := some { core a with acc := m + z.sph.external a, gacc := 0, gpot := 0 }
  form a l _ := by
    have h1 : z.sph.external (core a) = z.sph.external a := by
      have := hf.force a 0 0 0 Lattice.zero
      rw [imageOf_zero] at this
      exact this
    simp only [computeAcceleration, accumulate_eq, Option.map_some]
    rw [h1]
    rfl
  far a b ha hb h := by
    unfold accTerm
    rw [grad_gap _ ha hb h, smul_zero]
  view a a' b b' ha hb := by
    have ha := core_flowC ha
    unfold accTerm
    rw [massOf_view ha hb, gradOf_view _ ha hb, viscOf_view _ ha hb]
    obtain ⟨-, -, -, -, -, h4, h5, -⟩ := flowC_fields ha
    obtain ⟨-, -, -, -, -, g4, g5, -⟩ := flowC_fields hb
    rw [h4, h5, g4, g5]
  shift a b k _ := by
    unfold accTerm
    rw [massOf_image, gradOf_image, viscOf_image]
    rfl
  shiftG a m k hk := by
    have h1 : z.sph.external (imageOf sides a k) = z.sph.external a := hf.force a k _ _ hk
    rw [h1]
    rfl
  keepId a l y h := by obtain rfl := Option.some.inj h; rfl

/-- A neighbour's contributions to `dudt`. -/
noncomputable def uTerm (p : Params i) (a b : Particle (i + 1)) : ℝ × ℝ := (massOf a b * dot (a.vel - b.vel) (gradOf p a b), massOf a b * dot (a.vel - b.vel) (gradOf p a b) * viscOf p a b)

theorem sum_pair {α : Type} (f g : α → ℝ) : ∀ l : List α, (l.map fun x => (f x, g x)).sum = ((l.map f).sum, (l.map g).sum) := by
  intro l
  induction l with
  | nil => rfl
  | cons x l ih => simp [ih]

noncomputable def dudtForm (z : Config i) (it : Int) : SumForm sides periodic flowC (fun a l => some (computeDudt z.sph it a l)) where
  M := ℝ × ℝ
  φ := uTerm z.sph
  G a m := some (if it < z.sph.relaxationSteps then { core a with dudt := 0 } else { core a with dudt := a.P / (a.rho * a.rho) * m.1 + 1 / 2 * m.2 })
  form a l _ := by
    have h1 : (l.map (uTerm z.sph a)).sum = ((l.map fun b => massOf a b * dot (a.vel - b.vel) (gradOf z.sph a b)).sum,
        (l.map fun b => massOf a b * dot (a.vel - b.vel) (gradOf z.sph a b) * viscOf z.sph a b).sum) := sum_pair _ _ l
    rw [h1]
    simp only [computeDudt, accumulate_eq, Option.map_some]
    split <;> rfl
  far a b ha hb h := by
    unfold uTerm
    rw [grad_gap _ ha hb h, dot_zero, mul_zero, zero_mul]
    rfl
  view a a' b b' ha hb := by
    have ha := core_flowC ha
    unfold uTerm
    rw [massOf_view ha hb, gradOf_view _ ha hb, viscOf_view _ ha hb]
    obtain ⟨-, -, -, h4, -⟩ := flowC_fields ha
    obtain ⟨-, -, -, g4, -⟩ := flowC_fields hb
    rw [h4, g4]
  shift a b k _ := by
    unfold uTerm
    rw [massOf_image, gradOf_image, viscOf_image]
    rfl
  shiftG a m k _ := by
    show some _ = some _
    split <;> rfl
  keepId a l y h := by
    obtain rfl := Option.some.inj h
    simp only [computeDudt]
    split <;> rfl

/-- A neighbour's contribution to `dedt`. -/
noncomputable def eTerm (p : Params i) (a b : Particle (i + 1)) : ℝ := -(massOf a b *
      (a.P / (a.rho * a.rho) * dot b.vel (gradOf p a b) + dot a.vel (gradOf p a b) * (b.P / (b.rho * b.rho)) +
        1 / 2 * viscOf p a b * (dot b.vel (gradOf p a b) + dot a.vel (gradOf p a b))))

theorem sum_neg {α : Type} (f : α → ℝ) : ∀ l : List α, (l.map fun x => -f x).sum = -(l.map f).sum := by
  intro l
  induction l with
  | nil => simp
  | cons x l ih => simp [ih]; ring

noncomputable def dedtForm (z : Config i) : SumForm sides periodic flowC (fun a l => some (computeDedt z.sph a l)) where
  M := ℝ
  φ := eTerm z.sph
  G a m := some { core a with dedt := m + dot a.gacc a.vel }
  form a l _ := by
    have h1 : (l.map (eTerm z.sph a)).sum = _ := sum_neg _ l
    rw [h1]
    simp only [computeDedt, foldl_sub_eq, Option.map_some]
    simp only [core]
  far a b ha hb h := by
    unfold eTerm
    rw [grad_gap _ ha hb h]
    simp only [dot_zero]
    ring
  view a a' b b' ha hb := by
    have ha := core_flowC ha
    unfold eTerm
    rw [massOf_view ha hb, gradOf_view _ ha hb, viscOf_view _ ha hb]
    obtain ⟨-, -, -, h3, -, h4, h5, -⟩ := flowC_fields ha
    obtain ⟨-, -, -, g3, -, g4, g5, -⟩ := flowC_fields hb
    rw [h3, h4, h5, g3, g4, g5]
  shift a b k _ := by
    unfold eTerm
    rw [massOf_image, gradOf_image, viscOf_image]
    rfl
  shiftG a m k _ := rfl
  keepId a l y h := by obtain rfl := Option.some.inj h; rfl

end FleCSPH.Torus
