import Verif.Lemmas.Pass
import Verif.Lemmas.Density
import Verif.Model.Eos
import Verif.Model.Cullen
/-! C55: a pass over the neighbours does not depend on the visiting order. -/
namespace FleCSPH
open Sph Spec Geometry Kernels

variable {i : Fin 3} {n : Nat}

private theorem pass_order {P V : Type} (f : P → List P → P) (view : P → V) (g : P → List V → P)
    (hg : ∀ a l, f a l = g a (l.map view)) (hv : ∀ a l, view (f a l) = view a)
    (nbs : Fin n → List (Fin n)) (order order' : List (Fin n)) (hall : VisitsAll order) (hall' : VisitsAll order') (s : Fin n → P) :
    pass f nbs order s = pass f nbs order' s := by
  rw [pass_eq f view g hg hv nbs order hall, pass_eq f view g hg hv nbs order' hall']

/-- Density: also whether the assertion fails does not depend on the order. -/
theorem C55_density (p : Params i) (nbs : Fin n → List (Fin n)) (order order' : List (Fin n)) (hall : VisitsAll order)
    (hall' : VisitsAll order') (s : Fin n → Particle (i + 1)) :
    passM (computeDensity p) nbs order s = passM (computeDensity p) nbs order' s := by
  refine passM_order (computeDensity p) (fun b => { b with rho := 0 }) (computeDensity p) ?_ ?_ nbs order order' hall hall' s
  · intro a l
    simp only [computeDensity, accumulate_eq, List.map_map, List.length_map]; rfl
  · intro a l x h
    simp only [computeDensity] at h
    split_ifs at h
    cases h; rfl

/-- Acceleration, the energy derivatives, the velocity divergence and the repulsion. -/
theorem C55_rates (p : Params i) (iteration : Int) (dt radius gamma : ℝ) (nbs : Fin n → List (Fin n)) (order order' : List (Fin n))
    (hall : VisitsAll order) (hall' : VisitsAll order') (s : Fin n → Particle (i + 1)) :
    pass (computeAcceleration p) nbs order s = pass (computeAcceleration p) nbs order' s ∧
    pass (computeDudt p iteration) nbs order s = pass (computeDudt p iteration) nbs order' s ∧
    pass (computeDedt p) nbs order s = pass (computeDedt p) nbs order' s ∧
    pass (computeDivv p dt) nbs order s = pass (computeDivv p dt) nbs order' s ∧
    pass (addShortRangeRepulsion radius gamma) nbs order s = pass (addShortRangeRepulsion radius gamma) nbs order' s := by
  refine ⟨?_, ?_, ?_, ?_, ?_⟩
  · exact pass_order (computeAcceleration p) (fun b => { b with acc := 0, gacc := 0, gpot := 0 }) (computeAcceleration p)
      (fun a l => by simp only [computeAcceleration, accumulate_eq, List.map_map]; rfl) (fun a l => rfl) nbs order order' hall hall' s
  · exact pass_order (computeDudt p iteration) (fun b => { b with dudt := 0 }) (computeDudt p iteration)
      (fun a l => by simp only [computeDudt, accumulate_eq, List.map_map]; split <;> rfl)
      (fun a l => by simp only [computeDudt]; split <;> rfl) nbs order order' hall hall' s
  · exact pass_order (computeDedt p) (fun b => { b with dedt := 0 }) (computeDedt p)
      (fun a l => by simp only [computeDedt, foldl_sub_eq, List.map_map]; rfl) (fun a l => rfl) nbs order order' hall hall' s
  · exact pass_order (computeDivv p dt) (fun b => { b with divv := 0, ddivvdt := 0 }) (computeDivv p dt)
      (fun a l => by simp only [computeDivv, accumulate_eq, List.map_map]; rfl) (fun a l => rfl) nbs order order' hall hall' s
  · exact pass_order (addShortRangeRepulsion radius gamma) (fun b => { b with acc := 0 }) (addShortRangeRepulsion radius gamma)
      (fun a l => by simp only [addShortRangeRepulsion, List.foldl_map]) (fun a l => rfl) nbs order order' hall hall' s

/-- The viscosity parameter. -/
theorem C55_alpha (p : Params i) (c : Cullen.Settings) (nbs : Fin n → List (Fin n)) (order order' : List (Fin n))
    (hall : VisitsAll order) (hall' : VisitsAll order') (s : Fin n → Particle (i + 1)) :
    passM (Cullen.computeAlpha p c) nbs order s = passM (Cullen.computeAlpha p c) nbs order' s := by
  refine passM_order (Cullen.computeAlpha p c) (fun b => { b with alpha := 0 }) (Cullen.computeAlpha p c) ?_ ?_ nbs order order' hall hall' s
  · intro a l
    have e1 : (computeSignalspeed a l).vsig = (computeSignalspeed a (l.map fun b => { b with alpha := 0 })).vsig := by
      simp only [computeSignalspeed, List.foldl_map]
    have e2 : Cullen.aTrigger p a l = Cullen.aTrigger p a (l.map fun b => { b with alpha := 0 }) := by
      have h1 : ∀ j k, Cullen.gradV p a l j k = Cullen.gradV p a (l.map fun b => { b with alpha := 0 }) j k := by
        intro j k; simp only [Cullen.gradV, accumulate_eq, List.map_map]; rfl
      have h2 : Cullen.ra p a l = Cullen.ra p a (l.map fun b => { b with alpha := 0 }) := by
        simp only [Cullen.ra, accumulate_eq, List.map_map]; rfl
      simp only [Cullen.aTrigger, Cullen.computeXi, Cullen.symT, h1, h2]
    simp only [Cullen.computeAlpha, e1, e2]
  · intro a l x h
    simp only [Cullen.computeAlpha] at h
    split_ifs at h <;> (cases h; rfl)

private theorem bind_view {P Q : Type} (o : Option P) (h : P → P) (er : P → Q) : (o.map h).map er = o.map fun x => er (h x) := by
  cases o <;> rfl

/-- Everything but the signal speed after `compute_density_pressure_soundspeed`: density, pressure, sound speed, internal
energy and velocity divergence do not depend on the order. -/
theorem C55_state_partial (p : Params i) (e : Eos.Kind) (q : Eos.Params) (z : Eos.Setup (i + 1))
    (nbs : Fin n → List (Fin n)) (order order' : List (Fin n)) (hall : VisitsAll order) (hall' : VisitsAll order')
    (s : Fin n → Particle (i + 1)) :
    (passM (Eos.computeDensityPressureSoundspeed p e q z) nbs order s).map (fun t a => { t a with vsig := 0 }) =
    (passM (Eos.computeDensityPressureSoundspeed p e q z) nbs order' s).map (fun t a => { t a with vsig := 0 }) := by
  -- the same function without the signal speed
  let f := Eos.computeDensityPressureSoundspeed p e q z
  let er : Particle (i + 1) → Particle (i + 1) := fun b => { b with vsig := 0 }
  let view : Particle (i + 1) → Particle (i + 1) := fun b =>
    { b with rho := 0, P := 0, cs := 0, u := 0, divv := 0, ddivvdt := 0, vsig := 0 }
  have hd : ∀ a l, computeDensity p (er a) (l.map view) = (computeDensity p a l).map er := by
    intro a l
    simp only [computeDensity, accumulate_eq, List.map_map, List.length_map]
    split_ifs with h1 h2 h2
    · rfl
    · exact absurd h1 h2
    · exact absurd h2 h1
    · rfl
  have hr : ∀ a, Eos.recoverIf z (er a) = (Eos.recoverIf z a).map er := by
    intro a
    simp only [Eos.recoverIf, recoverInternalEnergy]
    split_ifs <;> rfl
  have hP : ∀ a, Eos.computePressure e q (er a) = er (Eos.computePressure e q a) := by
    intro a; cases e <;> rfl
  have hS : ∀ a, Eos.computeSoundspeed e q (er a) = er (Eos.computeSoundspeed e q a) := by
    intro a; cases e <;> rfl
  have hsig : ∀ (a : Particle (i + 1)) l, er (computeSignalspeed a l) = er a := fun a l => rfl
  have hdv : ∀ a l, Eos.divvIf p z.dt (er a) (l.map view) = er (Eos.divvIf p z.dt a l) := by
    intro a l
    simp only [Eos.divvIf]
    split
    · rfl
    · simp only [computeDivv, accumulate_eq, List.map_map]; rfl
  have hdv0 : ∀ a l, er (Eos.divvIf p z.dt a l) = Eos.divvIf p z.dt (er a) (l.map view) := fun a l => (hdv a l).symm
  let g : Particle (i + 1) → List (Particle (i + 1)) → Option (Particle (i + 1)) := fun a l => (f a l).map er
  -- erasing commutes
  have core : ∀ a l, (f a l).map er = (((computeDensity p (er a) (l.map view)).bind (Eos.recoverIf z)).map fun a =>
      Eos.divvIf p z.dt (Eos.computeSoundspeed e q (Eos.computePressure e q a)) (l.map view)) := by
    intro a l
    rw [hd]
    show ((computeDensity p a l).bind fun a1 => (Eos.recoverIf z a1).bind fun a2 =>
      some (Eos.divvIf p z.dt (computeSignalspeed (Eos.computeSoundspeed e q (Eos.computePressure e q a2)) l) l)).map er = _
    rcases computeDensity p a l with _ | a1
    · rfl
    · simp only [Option.bind_some, Option.map_some]
      rw [hr]
      rcases Eos.recoverIf z a1 with _ | a2
      · rfl
      · simp only [Option.bind_some, Option.map_some]
        rw [hdv0, hsig, hP, hS]
  have hview : ∀ l : List (Particle (i + 1)), (l.map er).map view = l.map view := by
    intro l; rw [List.map_map]; rfl
  have hfg : ∀ a l, (f a l).map er = g (er a) (l.map er) := by
    intro a l
    show _ = (f (er a) (l.map er)).map er
    rw [core, core, hview]
  have hgview : ∀ a l, g a l = g a (l.map view) := by
    intro a l
    show (f a l).map er = (f a (l.map view)).map er
    rw [core, core, List.map_map]
    rfl
  have hkeep : ∀ a l x, g a l = some x → view x = view a := by
    intro a l x h
    have h : (f a l).map er = some x := h
    rw [core] at h
    obtain ⟨b, hb, rfl⟩ := Option.map_eq_some_iff.mp h
    obtain ⟨c, hc, hb⟩ := Option.bind_eq_some_iff.mp hb
    have e1 : view c = view a := by
      simp only [computeDensity] at hc
      split_ifs at hc
      cases hc; rfl
    have e2 : view b = view c := by
      simp only [Eos.recoverIf, recoverInternalEnergy] at hb
      split_ifs at hb
      · cases hb; rfl
      · cases hb; rfl
    rw [← e1, ← e2]
    have e3 : ∀ c l', view (Eos.divvIf p z.dt c l') = view c := by
      intro c l'; simp only [Eos.divvIf]; split <;> rfl
    rw [e3]
    cases e <;> rfl
  show (passM f nbs order s).map (fun t a => er (t a)) = (passM f nbs order' s).map (fun t a => er (t a))
  rw [passM_map f g er hfg, passM_map f g er hfg]
  exact passM_order g view g hgview hkeep nbs order order' hall hall' _

/-- The signal speed does depend on the order: it reads the sound speed of the neighbours, which the same pass writes. -/
theorem C55_violated : ∃ (p : Params 0) (q : Eos.Params) (s : Fin 2 → Particle 1) (t t' : Fin 2 → Particle 1),
    (∀ a, 0 < (s a).mass ∧ 0 < (s a).h ∧ 0 < (s a).u) ∧
    passM (Eos.computeDensityPressureSoundspeed p .ideal q ⟨false, fun _ => 0, 1⟩) (fun _ => [0, 1]) [0, 1] s = some t ∧
    passM (Eos.computeDensityPressureSoundspeed p .ideal q ⟨false, fun _ => 0, 1⟩) (fun _ => [0, 1]) [1, 0] s = some t' ∧
    (t 0).vsig ≠ (t' 0).vsig := by
  let p : Params 0 := ⟨.wendlandC2, .constant, 1, 2, 1 / 100, fun _ => 0, 0⟩
  let q : Eos.Params := ⟨2, 2, 1⟩
  let z : Eos.Setup 1 := ⟨false, fun _ => 0, 1⟩
  -- the sound speed of particle 1 is 5 before the pass and √2 after it
  let a : Particle 1 := ⟨0, 1, 1, fun _ => 0, 0, 0, 0, 0, 0, 0, 0, 0, 0, 1, 0, 0, 0, 0, 0, 0, 0, 0, 0⟩
  let b : Particle 1 := ⟨1, 1, 1, fun _ => 1 / 2, 0, 0, 0, 0, 0, 0, 0, 5, 0, 1, 0, 0, 0, 0, 0, 0, 0, 0, 0⟩
  let f := Eos.computeDensityPressureSoundspeed p .ideal q z
  have hf : ∀ (x : Particle 1) (l : List (Particle 1)), (∃ y ∈ l, y.pos = x.pos) → (∀ y ∈ l, 0 < y.mass) → 0 < x.h → (∀ y ∈ l, 0 < y.h) →
      ∃ x', f x l = some x' ∧ x'.cs = √(2 * (2 - 1) * x.u) ∧ x'.mass = x.mass ∧ x'.h = x.h ∧ x'.pos = x.pos ∧ x'.vel = x.vel ∧
        x'.vsig = (computeSignalspeed { x with cs := √(2 * (2 - 1) * x.u) } l).vsig := by
    intro x l h1 h2 h3 h4
    obtain ⟨ρ, hd⟩ : ∃ ρ, computeDensity p x l = some { x with rho := ρ } :=
      ⟨_, (density_some (i := 0) p (Or.inl .wendlandC2) x l h1 h2 h3 h4).2⟩
    refine ⟨Eos.divvIf p z.dt (computeSignalspeed (Eos.computeSoundspeed .ideal q (Eos.computePressure .ideal q
      { x with rho := ρ })) l) l, ?_, rfl, rfl, rfl, rfl, rfl, rfl⟩
    show ((computeDensity p x l).bind fun a1 => (Eos.recoverIf z a1).bind fun a2 =>
        some (Eos.divvIf p z.dt (computeSignalspeed (Eos.computeSoundspeed .ideal q (Eos.computePressure .ideal q a2)) l) l)) = some _
    rw [hd, Option.bind_some]
    rfl
  have hdist : ∀ (x y : Particle 1), x.vel = 0 → y.vel = 0 → dot (x.vel - y.vel) (fun j => (x.pos j - y.pos j) / distance x.pos y.pos) = 0 := by
    intro x y h1 h2; rw [h1, h2]; simp [dot]
  have hsig : ∀ (x y : Particle 1), x.vel = 0 → y.vel = 0 → y.pos ≠ x.pos → 0 ≤ y.cs → ∀ x0 : Particle 1, x0.pos = x.pos →
      (computeSignalspeed x [x0, y]).vsig = max x.cs y.cs := by
    intro x y h1 h2 h3 h4 x0 h5
    simp only [computeSignalspeed, List.foldl_cons, List.foldl_nil, h5, if_true, if_neg h3, hdist x y h1 h2, min_self, sub_zero]
    exact max_eq_right (h4.trans (le_max_right _ _))
  have hne : b.pos ≠ a.pos := fun h => by have := congrFun h 0; norm_num [a, b] at this
  let s : Fin 2 → Particle 1 := ![a, b]
  -- first order
  obtain ⟨a1, ha1, _, m1, h1, p1, v1, g1⟩ := hf a [a, b] ⟨a, by simp, rfl⟩ (by simp [a, b]) one_pos (by simp [a, b])
  obtain ⟨b1, hb1, _⟩ := hf b [a1, b] ⟨b, by simp, rfl⟩ (by simp [m1]; simp [a, b]) one_pos (by simp [h1]; simp [a, b])
  -- second order
  obtain ⟨b2, hb2, cb2, mb2, hb2', pb2, vb2, _⟩ := hf b [a, b] ⟨b, by simp, rfl⟩ (by simp [a, b]) one_pos (by simp [a, b])
  obtain ⟨a2, ha2, _, _, _, _, _, g2⟩ := hf a [a, b2] ⟨a, by simp, rfl⟩ (by simp [mb2]; simp [a, b]) one_pos (by simp [hb2']; simp [a, b])
  refine ⟨p, q, s, ![a1, b1], ![a2, b2], ?_, ?_, ?_, ?_⟩
  · intro k
    match k with
    | 0 => exact ⟨one_pos, one_pos, one_pos⟩
    | 1 => exact ⟨one_pos, one_pos, one_pos⟩
  · show passM f _ _ _ = _
    rw [passM_cons]
    show (f a [a, b]).bind _ = _
    rw [ha1, Option.bind_some, passM_cons]
    show (f b [a1, b]).bind _ = _
    rw [hb1, Option.bind_some]
    show some _ = some _
    congr 1
    funext k
    match k with
    | 0 => rfl
    | 1 => rfl
  · show passM f _ _ _ = _
    rw [passM_cons]
    show (f b [a, b]).bind _ = _
    rw [hb2, Option.bind_some, passM_cons]
    show (f a [a, b2]).bind _ = _
    rw [ha2, Option.bind_some]
    show some _ = some _
    congr 1
    funext k
    match k with
    | 0 => rfl
    | 1 => rfl
  · show a1.vsig ≠ a2.vsig
    have k1 := hsig { a with cs := √(2 * (2 - 1) * a.u) } b rfl rfl hne (by norm_num [b]) a rfl
    have k2 := hsig { a with cs := √(2 * (2 - 1) * a.u) } b2 rfl (by rw [vb2]) (by rw [pb2]; exact hne)
      (by rw [cb2]; exact Real.sqrt_nonneg _) a rfl
    rw [g1, g2, k1, k2, cb2]
    show max √(2 * (2 - 1) * 1) 5 ≠ max √(2 * (2 - 1) * 1) √(2 * (2 - 1) * 1)
    rw [max_self]
    have : √(2 * (2 - 1) * 1) < 5 := by
      rw [Real.sqrt_lt' (by norm_num)]; norm_num
    rw [max_eq_right this.le]
    exact this.ne'

/-- Non-vacuity: two different orders of three particles. -/
example : VisitsAll ([0, 1, 2] : List (Fin 3)) ∧ VisitsAll ([2, 0, 1] : List (Fin 3)) :=
  ⟨⟨by decide, by decide⟩, ⟨by decide, by decide⟩⟩

end FleCSPH
