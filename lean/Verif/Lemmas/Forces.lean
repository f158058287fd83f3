import Verif.Lemmas.Driver
import Verif.Spec.Run
/-! Without viscosity and with a polytropic equation of state the acceleration is a function of the positions. -/
namespace FleCSPH.Driver
open FleCSPH.Geometry FleCSPH.Sph FleCSPH.Integration FleCSPH.Spec FleCSPH.Kernels

variable {i : Fin 3} {n : Nat}

theorem kernel_out {κ : Kernel} (hκ : κ ≠ .gaussian) (i : Fin 3) {r h : ℝ} (hh : 0 < h) (hr : h ≤ r) : kernel κ i r h = 0 := by
  have h1 : ¬ r / h < 1 := by rw [not_lt, one_le_div hh]; exact hr
  have h2 : ¬ 2 * r / h < 2 := by rw [not_lt, le_div_iff₀ hh]; linarith
  have h3 : ¬ 3 * r / h < 3 := by rw [not_lt, le_div_iff₀ hh]; linarith
  have h4 : ¬ |r / h| < 1 := by rw [abs_of_nonneg (div_nonneg (hh.le.trans hr) hh.le)]; exact h1
  have h5 : ¬ |3 * r / h| < 3 := by rw [abs_of_nonneg (div_nonneg (by linarith [hh.le.trans hr]) hh.le)]; exact h3
  cases κ <;> first | exact absurd rfl hκ | skip
  all_goals (try rcases fin3 i with rfl | rfl | rfl) <;>
    simp [kernel, cubicSpline, quinticSpline, wendlandC2, wendlandC4, wendlandC6, superGaussian, sincKernel, fac, h1, h2, h3, h4, h5]

/-- What the inviscid polytropic forces depend on. -/
structure Site (d : Nat) where
  mass : ℝ
  h : ℝ
  K : ℝ
  pos : Point d

def site {d : Nat} (a : Particle d) : Site d := ⟨a.mass, a.h, a.K, a.pos⟩

/-- The density at a particle, a sum over all particles. -/
noncomputable def rhoField (z : Config i) (s : Fin n → Site (i + 1)) (a : Fin n) : ℝ :=
  ∑ b, (s b).mass * kernel z.sph.kernel i (magnitude ((s a).pos - (s b).pos)) (1 / 2 * ((s a).h + (s b).h))

/-- Pressure over density squared. -/
noncomputable def pressField (z : Config i) (s : Fin n → Site (i + 1)) (a : Fin n) : ℝ :=
  (s a).K * rhoField z s a ^ z.eosParams.gamma / (rhoField z s a * rhoField z s a)

open Classical in
/-- The acceleration, a sum over all particles. -/
noncomputable def accField (z : Config i) (ext : Point (i + 1) → Point (i + 1)) (s : Fin n → Site (i + 1)) (a : Fin n) : Point (i + 1) :=
  ∑ b, (-((s b).mass * fac ((s b).pos ≠ (s a).pos)) * (pressField z s a + pressField z s b)) •
    kernelGradient z.sph.kernel i ((s a).pos - (s b).pos) (1 / 2 * ((s a).h + (s b).h)) + ext (s a).pos

/-- A sum over a complete list is the sum over all particles. -/
theorem sum_complete {β : Type} [AddCommMonoid β] (s : Fin n → Particle (i + 1)) (nbs : Fin n → List (Fin n)) (hl : CompleteLists s nbs) (a : Fin n)
    (f : Fin n → β) (h0 : ∀ b, ¬ √(∑ j, ((s a).pos j - (s b).pos j) ^ 2) < ((s a).h + (s b).h) / 2 → f b = 0) :
    ((nbs a).map f).sum = ∑ b, f b := by
  rw [sum_list _ (hl.nodup a)]
  refine Finset.sum_congr rfl fun b _ => ?_
  split_ifs with h
  · rfl
  · by_cases hc : √(∑ j, ((s a).pos j - (s b).pos j) ^ 2) < ((s a).h + (s b).h) / 2
    · exact absurd (hl.complete a b hc) h
    · exact (h0 b hc).symm

/-- The parameters of an inviscid polytropic gas whose external force depends on the position only. -/
structure Inviscid (z : Config i) (ext : Point (i + 1) → Point (i + 1)) : Prop where
  kernel : z.sph.kernel ≠ .gaussian
  visc : z.sph.visc = .constant
  alpha : z.sph.alpha = 0
  beta : z.sph.beta = 0
  eos : z.eos = .polytropic
  evolve : z.evolve = false
  external : ∀ a, z.sph.external a = ext a.pos

theorem thermo_field (z : Config i) (ext : Point (i + 1) → Point (i + 1)) (hz : Inviscid z ext) (dt : ℝ) (first : Bool) (w : Schedule i n) (hw : Faithful w)
    (s t : Fin n → Particle (i + 1)) (hh : ∀ a, 0 < (s a).h) (h : thermo z dt first w s = some t) (a : Fin n) :
    (t a).rho = rhoField z (fun b => site (s b)) a ∧ (t a).P = (s a).K * rhoField z (fun b => site (s b)) a ^ z.eosParams.gamma ∧
    ∃ r P c v x, t a = { s a with rho := r, P := P, cs := c, vsig := v, vhalf := x } := by
  have hl := hw.lists s hh
  unfold thermo at h
  obtain ⟨s1, h1, hlast⟩ := Option.bind_eq_some_iff.mp h
  unfold alphaPass at hlast
  simp only [hz.visc, Option.some.injEq] at hlast
  clear h
  set f := Eos.computeDensityPressureSoundspeed z.sph z.eos z.eosParams (setup z dt) with hf
  have hfs : ∀ (x : Particle (i + 1)) l y, f x l = some y →
      y.rho = (l.map fun b => b.mass * kernel z.sph.kernel i (magnitude (x.pos - b.pos)) (1 / 2 * (x.h + b.h))).sum ∧
      y.P = x.K * y.rho ^ z.eosParams.gamma ∧ ∃ r P c v, y = { x with rho := r, P := P, cs := c, vsig := v } := by
    intro x l y hy
    simp only [hf, Eos.computeDensityPressureSoundspeed, Option.bind_eq_bind, Option.pure_def] at hy
    obtain ⟨a1, k1, hy⟩ := Option.bind_eq_some_iff.mp hy
    obtain ⟨a2, k2, hy⟩ := Option.bind_eq_some_iff.mp hy
    simp only [Eos.recoverIf, setup, hz.evolve, Bool.false_and, Bool.false_eq_true, if_false, Option.some.injEq] at k2
    subst k2
    unfold computeDensity at k1
    simp only at k1
    split_ifs at k1
    obtain rfl := Option.some.inj k1
    obtain rfl := Option.some.inj hy
    simp only [Eos.divvIf, hz.visc, hz.eos, Eos.computePressure, Eos.computeSoundspeed, computeSignalspeed, Eos.soundspeedPoly, Eos.pressurePoly, accumulate_eq]
    exact ⟨trivial, trivial, _, _, _, _, rfl⟩
  -- the pass: mass, h and pos are not written
  have key : ∀ (l : List (Fin n)) (t0 : Fin n → Particle (i + 1)), (∀ b, site (t0 b) = site (s b)) → passM f (w.search s) l t0 = some s1 →
      (a ∈ l ∨ ((t0 a).rho = rhoField z (fun b => site (s b)) a ∧ (t0 a).P = (s a).K * rhoField z (fun b => site (s b)) a ^ z.eosParams.gamma)) →
      (∃ r P c v, t0 a = { s a with rho := r, P := P, cs := c, vsig := v }) →
      ((s1 a).rho = rhoField z (fun b => site (s b)) a ∧ (s1 a).P = (s a).K * rhoField z (fun b => site (s b)) a ^ z.eosParams.gamma) ∧
      ∃ r P c v, s1 a = { s a with rho := r, P := P, cs := c, vsig := v } := by
    intro l
    induction l with
    | nil =>
      intro t0 _ ht ha he
      simp only [passM, List.foldlM_nil, Option.pure_def, Option.some.injEq] at ht
      subst ht
      exact ⟨by simpa using ha, he⟩
    | cons c l ih =>
      intro t0 hs0 ht ha he
      rw [passM_cons] at ht
      obtain ⟨x, hx, ht⟩ := Option.bind_eq_some_iff.mp ht
      obtain ⟨x1, x2, r, P, cc, v, x3⟩ := hfs _ _ _ hx
      have hsite : ∀ b, (t0 b).mass = (s b).mass ∧ (t0 b).h = (s b).h ∧ (t0 b).K = (s b).K ∧ (t0 b).pos = (s b).pos := by
        intro b
        have := hs0 b
        simp only [site, Site.mk.injEq] at this
        exact this
      refine ih _ (fun b => ?_) ht ?_ ?_
      · by_cases hb : b = c
        · subst hb; rw [Function.update_self, x3]; exact hs0 b
        · rw [Function.update_of_ne hb]; exact hs0 b
      · by_cases hc : a = c
        · right
          subst hc
          rw [Function.update_self]
          have hr : x.rho = rhoField z (fun b => site (s b)) a := by
            rw [x1, List.map_map]
            have e : ((w.search s a).map ((fun b => b.mass * kernel z.sph.kernel i (magnitude ((t0 a).pos - b.pos)) (1 / 2 * ((t0 a).h + b.h))) ∘ t0)) =
                (w.search s a).map fun b => (s b).mass * kernel z.sph.kernel i (magnitude ((s a).pos - (s b).pos)) (1 / 2 * ((s a).h + (s b).h)) := by
              refine List.map_congr_left fun b _ => ?_
              simp only [Function.comp]
              rw [(hsite b).1, (hsite a).2.2.2, (hsite b).2.2.2, (hsite a).2.1, (hsite b).2.1]
            rw [e, sum_complete s (w.search s) hl a]
            · rfl
            · intro b hb
              rw [kernel_out hz.kernel i (by have := hh a; have := hh b; linarith) (by rw [magnitude_sub_eq]; linarith [not_lt.mp hb]), mul_zero]
          exact ⟨hr, by rw [x2, hr, (hsite a).2.2.1]⟩
        · rw [Function.update_of_ne hc]
          rcases ha with ha | ha
          · exact Or.inl ((List.mem_cons.mp ha).resolve_left hc)
          · exact Or.inr ha
      · by_cases hc : a = c
        · subst hc
          rw [Function.update_self, x3]
          obtain ⟨r0, P0, c0, v0, he⟩ := he
          rw [he]
          exact ⟨_, _, _, _, rfl⟩
        · rw [Function.update_of_ne hc]; exact he
  obtain ⟨q1, r, P, c, v, q2⟩ := key (w.order 0) s (fun _ => rfl) h1 (Or.inl ((hw.order 0).all a)) ⟨_, _, _, _, rfl⟩
  subst hlast
  cases first
  · exact ⟨q1.1, q1.2, r, P, c, v, (s a).vhalf, by rw [if_neg (by simp), q2]⟩
  · refine ⟨q1.1, q1.2, r, P, c, v, (s a).vel, ?_⟩
    show saveVelocityhalf (s1 a) = _
    rw [q2]; rfl

theorem forces_field (z : Config i) (ext : Point (i + 1) → Point (i + 1)) (hz : Inviscid z ext) (dt : ℝ) (first : Bool) (w : Schedule i n) (hw : Faithful w)
    (it : Int) (hit : z.sph.relaxationSteps ≤ it)
    (s t : Fin n → Particle (i + 1)) (hh : ∀ a, 0 < (s a).h) (h : thermo z dt first w s = some t) (a : Fin n) :
    (forces z it w t a).acc = accField z ext (fun b => site (s b)) a ∧ (forces z it w t a).gacc = 0 := by
  have hth := thermo_field z ext hz dt first w hw s t hh h
  have hs : ∀ b, (t b).mass = (s b).mass ∧ (t b).h = (s b).h ∧ (t b).pos = (s b).pos := by
    intro b
    obtain ⟨_, _, r, P, c, v, x, e⟩ := hth b
    rw [e]; exact ⟨rfl, rfl, rfl⟩
  have hh' : ∀ b, 0 < (t b).h := fun b => by rw [(hs b).2.1]; exact hh b
  have hf : forces z it w t = pass (computeAcceleration z.sph) (w.search t) (w.order 2) t := by
    unfold forces sphPass; simp only [if_neg (not_lt.mpr hit)]
  rw [hf, pass_eq (computeAcceleration z.sph) (fun b : Particle (i + 1) => ({ b with acc := 0, gacc := 0, gpot := 0 } : Particle (i + 1))) (computeAcceleration z.sph)
    (fun a l => by simp only [computeAcceleration, accumulate_eq, List.map_map]; rfl) (fun a l => rfl) _ _ (hw.order 2) t]
  refine ⟨?_, rfl⟩
  simp only [computeAcceleration, accumulate_eq, List.map_map, accField]
  rw [hz.external]
  have hp : ∀ b, (t b).P / ((t b).rho * (t b).rho) = pressField z (fun b => site (s b)) b := by
    intro b
    rw [(hth b).1, (hth b).2.1]; rfl
  have hv : ∀ b, viscOf z.sph (t a) (t b) = 0 := by
    intro b; simp [viscOf, artificialViscosity, hz.visc, hz.alpha, hz.beta]
  have hpa : (t a).pos = (site (s a)).pos := (hs a).2.2
  rw [hpa]
  congr 1
  rw [sum_complete t (w.search t) (hw.lists t hh') a]
  · refine Finset.sum_congr rfl fun b _ => ?_
    simp only [Function.comp, hv, add_zero, hp, massOf, gradOf]
    rw [(hs a).2.2, (hs b).2.2, (hs a).2.1, (hs b).2.1, (hs b).1]
    rfl
  · intro b hb
    simp only [Function.comp]
    rw [gradOf_zero z.sph (t a) (t b) (by linarith [hh' a, hh' b]) hb, smul_zero]

/-- What an iteration other than the first does to an inviscid polytropic gas with fixed smoothing lengths and time step. -/
theorem iteration_inviscid (z : Config i) (ext : Point (i + 1) → Point (i + 1)) (hz : Inviscid z ext) (hh : z.hMode = .fixed) (had : z.adaptive = false)
    (w : Schedule i n) (hw : Faithful w) (st st' : State i n) (hpos : ∀ a, 0 < (st.parts a).h) (hit : z.sph.relaxationSteps ≤ st.clock.iteration)
    (hne : st.clock.iteration ≠ z.initialIteration) (h : iteration z w st = some st') :
    st'.clock = { st.clock with iteration := st.clock.iteration + 1, totaltime := st.clock.totaltime + st.clock.dt } ∧ ∀ a,
      (st'.parts a).mass = (st.parts a).mass ∧ (st'.parts a).h = (st.parts a).h ∧ (st'.parts a).K = (st.parts a).K ∧
      (st'.parts a).pos = (st.parts a).pos + st.clock.dt • ((st.parts a).vel + (1 / 2 * st.clock.dt) • ((st.parts a).acc + (st.parts a).gacc)) ∧
      (st'.parts a).acc = accField z ext (fun b => site (st'.parts b)) a ∧ (st'.parts a).gacc = 0 ∧
      (st'.parts a).vel = (st.parts a).vel + (1 / 2 * st.clock.dt) • ((st.parts a).acc + (st.parts a).gacc) +
        (1 / 2 * st.clock.dt) • (st'.parts a).acc ∧
      0 < (st'.parts a).rho ∧ (st'.parts a).P = (st'.parts a).K * (st'.parts a).rho ^ z.eosParams.gamma ∧ (st'.parts a).id = (st.parts a).id := by
  unfold iteration at h
  rw [if_neg hne] at h
  obtain ⟨st1, h1, h⟩ := Option.bind_eq_some_iff.mp h
  obtain ⟨s1, h2, h⟩ := Option.bind_eq_some_iff.mp h
  obtain ⟨st2, h3, rfl⟩ := Option.map_eq_some_iff.mp h
  have e1 : s1 = st1.parts := by
    unfold checkNegativity at h2
    split_ifs at h2
    have := (Option.some.inj h2).symm
    rw [this]; unfold updateH; rw [hh]
  subst e1
  have e2 : st2 = st1 := by
    unfold adaptStep at h3
    rw [if_neg (by simp [had])] at h3
    exact (Option.some.inj h3).symm
  subst e2
  unfold nextBranch at h1
  obtain ⟨s1, t1, h1⟩ := Option.bind_eq_some_iff.mp h1
  obtain ⟨s3, t3, rfl⟩ := Option.map_eq_some_iff.mp h1
  have hk : ∀ (dt : ℝ) (s : Fin n → Particle (i + 1)), kickEnergy z dt s = s := fun dt s => by
    unfold kickEnergy; rw [if_neg (by simp [hz.evolve])]
  have e3 : s3 = applyAll (kickV st.clock.dt) (forces z st.clock.iteration w s1) := by
    unfold energy at t3; rw [if_neg (by simp [hz.evolve])] at t3; exact (Option.some.inj t3).symm
  have ht := thermo_field z ext hz _ _ w hw _ _ (fun a => by unfold kickDrift; rw [hk]; exact hpos a) t1
  have hf := forces_field z ext hz _ _ w hw st.clock.iteration hit _ _ (fun a => by unfold kickDrift; rw [hk]; exact hpos a) t1
  have kf := forces_keep z st.clock.iteration w s1
  simp only [hk]
  have hs3 : ∀ a, (s3 a).mass = (st.parts a).mass ∧ (s3 a).h = (st.parts a).h ∧ (s3 a).K = (st.parts a).K ∧
      (s3 a).pos = (kickDrift z st.clock.dt st.parts a).pos ∧ (s3 a).acc = accField z ext (fun b => site (kickDrift z st.clock.dt st.parts b)) a ∧ (s3 a).gacc = 0 ∧
      (s3 a).vel = (kickDrift z st.clock.dt st.parts a).vel + (1 / 2 * st.clock.dt) • (s3 a).acc ∧
      0 < (s3 a).rho ∧ (s3 a).P = (s3 a).K * (s3 a).rho ^ z.eosParams.gamma ∧ (s3 a).id = (st.parts a).id := by
    intro a
    obtain ⟨x, y, g, hfa⟩ := kf a
    obtain ⟨hta1, hta2, r, P, c, v, vh, hta⟩ := ht a
    have htr := (thermo_keep z _ _ w hw.order _ _ t1 a).2
    have hfa2 := hf a
    have q1 : (s3 a).acc = (forces z st.clock.iteration w s1 a).acc := by rw [e3]; rfl
    have q2 : (s3 a).gacc = (forces z st.clock.iteration w s1 a).gacc := by rw [e3]; rfl
    have q3 : (s3 a).vel = (forces z st.clock.iteration w s1 a).vel + (1 / 2 * st.clock.dt) • ((s3 a).acc + (s3 a).gacc) := by rw [e3]; rfl
    have q4 : (s3 a).mass = (forces z st.clock.iteration w s1 a).mass ∧ (s3 a).h = (forces z st.clock.iteration w s1 a).h ∧
      (s3 a).K = (forces z st.clock.iteration w s1 a).K ∧ (s3 a).pos = (forces z st.clock.iteration w s1 a).pos := by rw [e3]; exact ⟨rfl, rfl, rfl, rfl⟩
    have q5 : (forces z st.clock.iteration w s1 a).mass = (st.parts a).mass ∧ (forces z st.clock.iteration w s1 a).h = (st.parts a).h ∧
      (forces z st.clock.iteration w s1 a).K = (st.parts a).K ∧ (forces z st.clock.iteration w s1 a).pos = (kickDrift z st.clock.dt st.parts a).pos ∧
      (forces z st.clock.iteration w s1 a).vel = (kickDrift z st.clock.dt st.parts a).vel := by
      rw [hfa, hta]
      refine ⟨?_, ?_, ?_, rfl, rfl⟩
      all_goals show _ = _
      all_goals unfold kickDrift
      all_goals rw [hk]
      all_goals rfl
    refine ⟨q4.1.trans q5.1, q4.2.1.trans q5.2.1, q4.2.2.1.trans q5.2.2.1, q4.2.2.2.trans q5.2.2.2.1, q1.trans hfa2.1, q2.trans hfa2.2, ?_, ?_, ?_, ?_⟩
    · rw [q3, q5.2.2.2.2, q2.trans hfa2.2, add_zero]
    · have : (s3 a).rho = (s1 a).rho := by rw [e3]; show (forces z st.clock.iteration w s1 a).rho = _; rw [hfa]
      rw [this]; exact htr
    · have h1 : (s3 a).rho = (s1 a).rho := by rw [e3]; show (forces z st.clock.iteration w s1 a).rho = _; rw [hfa]
      have h2 : (s3 a).P = (s1 a).P := by rw [e3]; show (forces z st.clock.iteration w s1 a).P = _; rw [hfa]
      have h3 : (s3 a).K = (kickDrift z st.clock.dt st.parts a).K := by
        rw [e3]; show (forces z st.clock.iteration w s1 a).K = _; rw [hfa, hta]
      rw [h1, h2, h3, hta1, hta2]
    · rw [e3]; show (forces z st.clock.iteration w s1 a).id = _; rw [hfa, hta]
      show (kickDrift z st.clock.dt st.parts a).id = _
      unfold kickDrift; rw [hk]; rfl
  refine ⟨by simp [Timestep.advance, had], fun a => ?_⟩
  obtain ⟨p1, p2, p3, p4, p5, p6, p7, p8⟩ := hs3 a
  refine ⟨p1, p2, p3, ?_, ?_, p6, ?_, p8⟩
  · show (s3 a).pos = _
    rw [p4]; unfold kickDrift; rw [hk]; rfl
  · show (s3 a).acc = accField z ext (fun b => site (s3 b)) a
    rw [p5]
    congr 1
    funext b
    obtain ⟨r1, r2, r3, r4, _⟩ := hs3 b
    unfold site
    rw [r1, r2, r3, r4]
    unfold kickDrift; rw [hk]; rfl
  · show (s3 a).vel = _ + _ • (s3 a).acc
    rw [p7]; congr 1
    unfold kickDrift; rw [hk]; rfl

/-- The same for the first iteration: nothing moves, and the adiabatic constants come from pressure and density. -/
theorem first_inviscid (z : Config i) (ext : Point (i + 1) → Point (i + 1)) (hz : Inviscid z ext) (hh : z.hMode = .fixed) (had : z.adaptive = false)
    (w : Schedule i n) (hw : Faithful w) (st st' : State i n) (hpos : ∀ a, 0 < (st.parts a).h) (hit : z.sph.relaxationSteps ≤ st.clock.iteration)
    (hne : st.clock.iteration = z.initialIteration) (h : iteration z w st = some st') :
    st'.clock = { st.clock with iteration := st.clock.iteration + 1, totaltime := st.clock.totaltime + st.clock.dt } ∧ ∀ a,
      (st'.parts a).mass = (st.parts a).mass ∧ (st'.parts a).h = (st.parts a).h ∧
      (st'.parts a).K = (st.parts a).P / (st.parts a).rho ^ z.eosParams.gamma ∧
      (st'.parts a).pos = (st.parts a).pos ∧
      (st'.parts a).acc = accField z ext (fun b => site (st'.parts b)) a ∧ (st'.parts a).gacc = 0 ∧
      (st'.parts a).vel = (st.parts a).vel ∧ (st'.parts a).id = (st.parts a).id := by
  unfold iteration at h
  rw [if_pos hne] at h
  obtain ⟨st1, h1, h⟩ := Option.bind_eq_some_iff.mp h
  obtain ⟨s1, h2, h⟩ := Option.bind_eq_some_iff.mp h
  obtain ⟨st2, h3, rfl⟩ := Option.map_eq_some_iff.mp h
  have e1 : s1 = st1.parts := by
    unfold checkNegativity at h2
    split_ifs at h2
    have := (Option.some.inj h2).symm
    rw [this]; unfold updateH; rw [hh]
  subst e1
  have e2 : st2 = st1 := by
    unfold adaptStep at h3
    rw [if_neg (by simp [had])] at h3
    exact (Option.some.inj h3).symm
  subst e2
  unfold firstBranch at h1
  obtain ⟨s1, t1, h1⟩ := Option.bind_eq_some_iff.mp h1
  obtain ⟨st2, t2, h1⟩ := Option.bind_eq_some_iff.mp h1
  obtain ⟨s3, t3, rfl⟩ := Option.map_eq_some_iff.mp h1
  have e2 : st2 = ⟨st.clock, forces z st.clock.iteration w s1⟩ := by
    unfold adaptStep at t2
    rw [if_neg (by simp [had])] at t2
    exact (Option.some.inj t2).symm
  subst e2
  have e3 : s3 = forces z st.clock.iteration w s1 := by
    unfold energy at t3; rw [if_neg (by simp [hz.evolve])] at t3; exact (Option.some.inj t3).symm
  subst e3
  have ki := initialise_keep z st.parts
  have kK : ∀ a, (initialise z st.parts a).K = (st.parts a).P / (st.parts a).rho ^ z.eosParams.gamma := by
    intro a
    unfold initialise
    simp only [hz.visc, hz.eos, Eos.init]
    split_ifs <;> rfl
  have hpos' : ∀ a, 0 < (initialise z st.parts a).h := fun a => by
    have := ki a; simp only [Prod.mk.injEq] at this; rw [this.2.2.1]; exact hpos a
  have ht := thermo_field z ext hz _ _ w hw _ _ hpos' t1
  have hf := forces_field z ext hz _ _ w hw st.clock.iteration hit _ _ hpos' t1
  have kf := forces_keep z st.clock.iteration w s1
  have key : ∀ a, (forces z st.clock.iteration w s1 a).mass = (st.parts a).mass ∧ (forces z st.clock.iteration w s1 a).h = (st.parts a).h ∧
      (forces z st.clock.iteration w s1 a).K = (initialise z st.parts a).K ∧ (forces z st.clock.iteration w s1 a).pos = (st.parts a).pos ∧
      (forces z st.clock.iteration w s1 a).vel = (st.parts a).vel ∧ (forces z st.clock.iteration w s1 a).id = (st.parts a).id := by
    intro a
    obtain ⟨x, y, g, hfa⟩ := kf a
    obtain ⟨_, _, r, P, c, v, vh, hta⟩ := ht a
    have := ki a
    simp only [Prod.mk.injEq] at this
    rw [hfa, hta]
    exact ⟨this.2.1, this.2.2.1, rfl, this.2.2.2.1, this.2.2.2.2, this.1⟩
  refine ⟨by simp [Timestep.advance, had], fun a => ?_⟩
  obtain ⟨p1, p2, p3, p4, p5, p6⟩ := key a
  refine ⟨p1, p2, p3.trans (kK a), p4, ?_, (hf a).2, p5, p6⟩
  show (forces z st.clock.iteration w s1 a).acc = accField z ext (fun b => site (forces z st.clock.iteration w s1 b)) a
  rw [(hf a).1]
  congr 1
  funext b
  obtain ⟨q1, q2, q3, q4, _⟩ := key b
  have := ki b
  simp only [Prod.mk.injEq] at this
  unfold site
  rw [q1, q2, q3, q4, this.2.1, this.2.2.1, this.2.2.2.1]

end FleCSPH.Driver
