import Verif.Props.C35run
import Verif.Lemmas.Density
/-! C36 over whole runs: a run of a polytropic gas never stops on an assertion. -/
namespace FleCSPH
open Sph Spec Geometry Driver Integration Kernels

variable {i : Fin 3} {n : Nat}

theorem thermo_some (z : Config i) (hκ : NonNegKernel z.sph.kernel) (hv : z.sph.visc = .constant) (he : z.eos = .polytropic) (hev : z.evolve = false)
    (dt : ℝ) (first : Bool) (w : Schedule i n) (hw : Faithful w) (s : Fin n → Particle (i + 1)) (hs : Sane s) (hK : ∀ a, 0 ≤ (s a).K) :
    ∃ t, thermo z dt first w s = some t ∧ ∀ a, 0 ≤ (t a).P := by
  set f := Eos.computeDensityPressureSoundspeed z.sph z.eos z.eosParams (setup z dt) with hf
  have hself : ∀ a, a ∈ w.search s a := fun a => (hw.lists s fun a => (hs a).2).complete a a (by
    simp only [sub_self, ne_eq, OfNat.ofNat_ne_zero, not_false_eq_true, zero_pow, Finset.sum_const_zero, Real.sqrt_zero]
    have := (hs a).2; linarith)
  have key : ∃ t, passM f (w.search s) (w.order 0) s = some t ∧ ∀ b, (t b).mass = (s b).mass ∧ (t b).h = (s b).h := by
    refine passM_some f (fun t => ∀ b, (t b).mass = (s b).mass ∧ (t b).h = (s b).h) _ (fun t a ht => ?_) _ s fun b => ⟨rfl, rfl⟩
    obtain ⟨_, hd⟩ := density_some z.sph hκ (t a) ((w.search s a).map t) ⟨t a, List.mem_map_of_mem (hself a), rfl⟩
      (fun b hb => by obtain ⟨c, _, rfl⟩ := List.mem_map.mp hb; rw [(ht c).1]; exact (hs c).1)
      (by rw [(ht a).2]; exact (hs a).2)
      (fun b hb => by obtain ⟨c, _, rfl⟩ := List.mem_map.mp hb; rw [(ht c).2]; exact (hs c).2)
    have hx : ∃ x, f (t a) ((w.search s a).map t) = some x := by
      simp only [hf, Eos.computeDensityPressureSoundspeed, hd, Eos.recoverIf, setup, hev, Bool.false_and, Bool.false_eq_true, if_false, Option.bind_eq_bind,
        Option.bind_some, Option.pure_def]
      exact ⟨_, rfl⟩
    obtain ⟨x, hx⟩ := hx
    refine ⟨x, hx, fun b => ?_⟩
    by_cases hb : b = a
    · subst hb
      rw [Function.update_self]
      obtain ⟨_, r, u, P, c, v, x', y, rfl⟩ := density_keep _ _ _ _ _ _ _ hx
      exact ht b
    · rw [Function.update_of_ne hb]; exact ht b
  obtain ⟨t, ht, _⟩ := key
  have hP : ∀ a, 0 ≤ (t a).P := by
    intro a
    have h1 : 0 ≤ (t a).K → 0 ≤ (t a).P := passM_establish f (fun b => 0 ≤ b.K → 0 ≤ b.P) (fun a l x hx => by
      simp only [hf, Eos.computeDensityPressureSoundspeed, Option.bind_eq_bind, Option.pure_def] at hx
      obtain ⟨a1, h1, hx⟩ := Option.bind_eq_some_iff.mp hx
      obtain ⟨a2, h2, hx⟩ := Option.bind_eq_some_iff.mp hx
      simp only [Eos.recoverIf, setup, hev, Bool.false_and, Bool.false_eq_true, if_false, Option.some.injEq] at h2
      subst h2
      obtain rfl := Option.some.inj hx
      have hr : 0 < a1.rho := by
        unfold computeDensity at h1
        simp only at h1
        split_ifs at h1 with h
        obtain rfl := Option.some.inj h1
        exact h.2
      simp only [Eos.divvIf, hv, he, Eos.computePressure, Eos.computeSoundspeed, computeSignalspeed, Eos.soundspeedPoly, Eos.pressurePoly]
      intro hK
      exact mul_nonneg hK (Real.rpow_nonneg hr.le _)) _ _ _ _ ht a (Or.inl ((hw.order 0).all a))
    refine h1 ?_
    have h2 : (t a).K = (s a).K := passM_keep f (fun b => b.K) (fun a l x hx => by
      obtain ⟨_, r, u, P, c, v, x', y, rfl⟩ := density_keep _ _ _ _ _ _ _ hx; rfl) _ _ _ _ ht a
    rw [h2]; exact hK a
  refine ⟨if first then applyAll saveVelocityhalf t else t, ?_, fun a => ?_⟩
  · unfold thermo sphPassM
    rw [← hf, ht, Option.bind_some]
    unfold alphaPass
    rw [hv]
  · split_ifs
    · exact hP a
    · exact hP a

private theorem adaptStep_some (z : Config i) (hev : z.evolve = false) (st : State i n) : ∃ st', adaptStep z st = some st' := by
  unfold adaptStep
  split_ifs
  · refine ⟨_, Option.map_eq_some_iff.mpr ⟨fun a => { st.parts a with dt := Timestep.baseDt (stepSettings z) (st.parts a) }, (applyAllM_iff _ _ _).mpr fun a => ?_, rfl⟩⟩
    unfold Timestep.computeDt
    rw [if_neg (by simp [stepSettings, hev])]
  · exact ⟨_, rfl⟩

theorem iteration_some (z : Config i) (hκ : NonNegKernel z.sph.kernel) (hv : z.sph.visc = .constant) (he : z.eos = .polytropic) (hev : z.evolve = false)
    (heta : 0 < z.eta) (hwidth : 0 < z.width) (w : Schedule i n) (hw : Faithful w) (st : State i n) (hs : Sane st.parts)
    (h0 : st.clock.iteration = z.initialIteration → ∀ a, 0 ≤ (st.parts a).P ∧ 0 ≤ (st.parts a).rho)
    (h1 : st.clock.iteration ≠ z.initialIteration → ∀ a, 0 ≤ (st.parts a).K) :
    ∃ st', iteration z w st = some st' ∧ Sane st'.parts ∧ (∀ a, 0 ≤ (st'.parts a).K) ∧ st'.clock.iteration = st.clock.iteration + 1 ∧
      ∀ a, 0 < (st'.parts a).rho ∧ 0 ≤ (st'.parts a).P := by
  have mid : ∃ st1, (if st.clock.iteration = z.initialIteration then firstBranch z w st else nextBranch z w st) = some st1 ∧ Sane st1.parts ∧
      (∀ a, 0 ≤ (st1.parts a).K) ∧ st1.clock.iteration = st.clock.iteration ∧ ∀ a, 0 < (st1.parts a).rho ∧ 0 ≤ (st1.parts a).P := by
    split_ifs with hfirst
    · have ki := initialise_keep z st.parts
      have kK : ∀ a, 0 ≤ (initialise z st.parts a).K := by
        intro a
        unfold initialise
        simp only [hv, he, Eos.init]
        have := h0 hfirst a
        have q : 0 ≤ (Eos.adiabaticPoly z.eosParams (st.parts a)).K := div_nonneg this.1 (Real.rpow_nonneg this.2 _)
        split_ifs
        · exact q
        · exact q
      have sane0 : Sane (initialise z st.parts) := by
        intro a
        have := ki a
        simp only [Prod.mk.injEq] at this
        rw [this.2.1, this.2.2.1]; exact hs a
      obtain ⟨s1, t1, p1⟩ := thermo_some z hκ hv he hev st.clock.dt true w hw _ sane0 kK
      have kt := thermo_keep z _ _ w hw.order _ _ t1
      have kf := forces_keep z st.clock.iteration w s1
      obtain ⟨st2, t2⟩ := adaptStep_some z hev ⟨st.clock, forces z st.clock.iteration w s1⟩
      have ka := adaptStep_keep z _ _ t2
      refine ⟨st2, ?_, ?_⟩
      · unfold firstBranch
        rw [t1, Option.bind_some, t2, Option.bind_some]
        unfold energy
        rw [if_neg (by simp [hev])]
        rfl
      · have e : ∀ a, ∃ x y g t, st2.parts a = { s1 a with acc := x, gacc := y, gpot := g, dt := t } := by
          intro a
          obtain ⟨x, hx⟩ := ka a
          obtain ⟨a1, a2, a3, hf⟩ := kf a
          simp only at hx
          rw [hf] at hx
          exact ⟨a1, a2, a3, x, hx⟩
        have e1 : ∀ a, (s1 a).mass = (initialise z st.parts a).mass ∧ (s1 a).h = (initialise z st.parts a).h ∧ (s1 a).K = (initialise z st.parts a).K := by
          intro a
          have := (kt a).1
          simp only [energetics, dynamics, motion, Prod.mk.injEq] at this
          tauto
        refine ⟨fun a => ?_, fun a => ?_, adaptStep_iteration z ⟨st.clock, forces z st.clock.iteration w s1⟩ _ t2, fun a => ?_⟩
        · obtain ⟨x, y, g, t, h⟩ := e a
          rw [h]
          show 0 < (s1 a).mass ∧ 0 < (s1 a).h
          rw [(e1 a).1, (e1 a).2.1]; exact sane0 a
        · obtain ⟨x, y, g, t, h⟩ := e a
          rw [h]
          show 0 ≤ (s1 a).K
          rw [(e1 a).2.2]; exact kK a
        · obtain ⟨x, y, g, t, h⟩ := e a
          rw [h]
          exact ⟨(kt a).2, p1 a⟩
    · set dt := st.clock.dt with hdt
      have kke : ∀ s : Fin n → Particle (i + 1), kickEnergy z dt s = s := by
        intro s; unfold kickEnergy; rw [if_neg (by simp [hev])]
      have e0 : kickDrift z dt st.parts = applyAll (drift dt) (applyAll saveVelocityhalf (applyAll (kickV dt) st.parts)) := by
        unfold kickDrift; rw [kke]
      have sane0 : Sane (kickDrift z dt st.parts) := by rw [e0]; exact hs
      have kK : ∀ a, 0 ≤ (kickDrift z dt st.parts a).K := by rw [e0]; exact h1 hfirst
      obtain ⟨s1, t1, p1⟩ := thermo_some z hκ hv he hev dt false w hw _ sane0 kK
      have kt := thermo_keep z _ _ w hw.order _ _ t1
      have kf := forces_keep z st.clock.iteration w s1
      have e1 : ∀ a, (s1 a).mass = (kickDrift z dt st.parts a).mass ∧ (s1 a).h = (kickDrift z dt st.parts a).h ∧ (s1 a).K = (kickDrift z dt st.parts a).K := by
        intro a
        have := (kt a).1
        simp only [energetics, dynamics, motion, Prod.mk.injEq] at this
        tauto
      have e : ∀ a, ∃ x y g v, applyAll (kickV dt) (forces z st.clock.iteration w s1) a = { s1 a with acc := x, gacc := y, gpot := g, vel := v } := by
        intro a
        obtain ⟨a1, a2, a3, hf⟩ := kf a
        refine ⟨a1, a2, a3, (kickV dt (forces z st.clock.iteration w s1 a)).vel, ?_⟩
        show kickV dt (forces z st.clock.iteration w s1 a) = _
        rw [hf]; rfl
      refine ⟨⟨st.clock, applyAll (kickV dt) (forces z st.clock.iteration w s1)⟩, ?_, ?_, ?_, rfl, ?_⟩
      · unfold nextBranch
        rw [← hdt, t1, Option.bind_some]
        unfold energy
        rw [if_neg (by simp [hev]), Option.map_some, kke]
      · intro a
        obtain ⟨x, y, g, t, h⟩ := e a
        simp only [h]
        rw [(e1 a).1, (e1 a).2.1]; exact sane0 a
      · intro a
        obtain ⟨x, y, g, t, h⟩ := e a
        simp only [h]
        rw [(e1 a).2.2]; exact kK a
      · intro a
        obtain ⟨x, y, g, t, h⟩ := e a
        simp only [h]
        exact ⟨(kt a).2, p1 a⟩
  obtain ⟨st1, k1, g1, g2, g3, g4⟩ := mid
  have hu : ∀ a, ∃ x, updateH z st1.parts a = { st1.parts a with h := x } := by
    intro a; unfold updateH; cases z.hMode
    · exact ⟨_, rfl⟩
    · exact ⟨_, rfl⟩
    · exact ⟨(st1.parts a).h, rfl⟩
  have hc : checkNegativity z (updateH z st1.parts) = some (updateH z st1.parts) := by
    unfold checkNegativity
    rw [if_pos]
    intro a
    obtain ⟨x, hx⟩ := hu a
    rw [hx]
    exact ⟨(g4 a).1.le, (g4 a).2, fun h => by rw [hev] at h; cases h⟩
  obtain ⟨st2, t2⟩ := adaptStep_some z hev ⟨st1.clock, updateH z st1.parts⟩
  have htail : ((checkNegativity z (updateH z st1.parts)).bind fun s =>
      (adaptStep z ⟨st1.clock, s⟩).map fun st => { st with clock := Timestep.advance z.adaptive st.clock }) =
      some { st2 with clock := Timestep.advance z.adaptive st2.clock } := by
    rw [hc, Option.bind_some, t2]; rfl
  obtain ⟨f1, f2, f3⟩ := tail_keep z heta hwidth st1 _ g1 (fun a => (g4 a).1) htail
  refine ⟨{ st2 with clock := Timestep.advance z.adaptive st2.clock }, ?_, f1, fun a => ?_, by rw [f3, g3], fun a => ?_⟩
  · unfold iteration
    rw [k1, Option.bind_some, htail]
  · obtain ⟨x, y, h⟩ := f2 a
    rw [h]; exact g2 a
  · obtain ⟨x, y, h⟩ := f2 a
    rw [h]; exact g4 a

/-- A polytropic gas with constant viscosity and a kernel which is not negative, the internal energy not evolved: no run of the hydro driver,
of any number of iterations, with or without relaxation phase, external force, adaptive time steps and variable smoothing lengths, stops on a
failed assertion, and after every iteration densities, masses and smoothing lengths are positive and pressures not negative. -/
theorem C36_run_partial (z : Config i) (hκ : NonNegKernel z.sph.kernel) (hv : z.sph.visc = .constant) (he : z.eos = .polytropic) (hev : z.evolve = false)
    (heta : 0 < z.eta) (hwidth : 0 < z.width) (ws : List (Schedule i n)) (hne : ws ≠ []) (hw : ∀ w ∈ ws, Faithful w) (st : State i n)
    (hstart : st.clock.iteration = z.initialIteration) (hs : ∀ a, 0 < (st.parts a).mass ∧ 0 < (st.parts a).h ∧ 0 ≤ (st.parts a).P ∧ 0 ≤ (st.parts a).rho) :
    ∃ st', run z ws st = some st' ∧ st'.clock.iteration = st.clock.iteration + ws.length ∧
      ∀ a, 0 < (st'.parts a).mass ∧ 0 < (st'.parts a).h ∧ 0 < (st'.parts a).rho ∧ 0 ≤ (st'.parts a).P := by
  have gen : ∀ (ws : List (Schedule i n)), (∀ w ∈ ws, Faithful w) → ∀ st : State i n, Sane st.parts → z.initialIteration < st.clock.iteration →
      (∀ a, 0 ≤ (st.parts a).K) → (∀ a, 0 < (st.parts a).rho ∧ 0 ≤ (st.parts a).P) → ∃ st', run z ws st = some st' ∧
      st'.clock.iteration = st.clock.iteration + ws.length ∧ ∀ a, 0 < (st'.parts a).mass ∧ 0 < (st'.parts a).h ∧ 0 < (st'.parts a).rho ∧ 0 ≤ (st'.parts a).P := by
    intro ws
    induction ws with
    | nil => intro _ st h1 h2 h3 h4; exact ⟨st, rfl, by simp, fun a => ⟨(h1 a).1, (h1 a).2, h4 a⟩⟩
    | cons w ws ih =>
      intro hw st h1 h2 h3 h4
      obtain ⟨st1, k1, q1, q2, q3, q4⟩ := iteration_some z hκ hv he hev heta hwidth w (hw w List.mem_cons_self) st h1 (fun h => by omega) (fun _ => h3)
      obtain ⟨st', r1, r2, r3⟩ := ih (fun v hv => hw v (List.mem_cons_of_mem _ hv)) st1 q1 (by omega) q2 q4
      refine ⟨st', ?_, ?_, r3⟩
      · simp only [run, List.foldlM_cons, Option.bind_eq_bind, k1, Option.bind_some]; exact r1
      · rw [r2, q3, List.length_cons]; push_cast; ring
  cases ws with
  | nil => exact absurd rfl hne
  | cons w ws =>
    obtain ⟨st1, k1, q1, q2, q3, q4⟩ := iteration_some z hκ hv he hev heta hwidth w (hw w List.mem_cons_self) st (fun a => ⟨(hs a).1, (hs a).2.1⟩)
      (fun _ a => (hs a).2.2) (fun h => absurd hstart h)
    obtain ⟨st', r1, r2, r3⟩ := gen ws (fun v hv => hw v (List.mem_cons_of_mem _ hv)) st1 q1 (by omega) q2 q4
    refine ⟨st', ?_, ?_, r3⟩
    · simp only [run, List.foldlM_cons, Option.bind_eq_bind, k1, Option.bind_some]; exact r1
    · rw [r2, q3, List.length_cons]; push_cast; ring

/-! Non-vacuity: Props/RunExamples.lean. -/

end FleCSPH
