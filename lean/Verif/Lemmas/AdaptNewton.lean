import Verif.Lemmas.AdaptRun
import Verif.Lemmas.Gravitated
import Verif.Lemmas.NewtonStep
import Verif.Model.AdaptNewton
/-! The calls of the newtonian driver before and after gravity as disciplined programs, up to signal speeds and particle time steps; one iteration with an adaptive time step against the calls on one process. -/
namespace FleCSPH.AdaptNewton
open FleCSPH.Geometry FleCSPH.Sph FleCSPH.Driver FleCSPH.Spec FleCSPH.DistRun FleCSPH.Integration FleCSPH.RunExamples FleCSPH.Newtonian FleCSPH.AdaptRun FleCSPH.Key

variable {i : Fin 3} {n : Nat}

/-! ### Discipline -/

theorem free_acc (z : Config i) (hext : ∀ a, z.sph.external { a with vsig := 0, dt := 0 } = z.sph.external a)
    {V : (Particle (i + 1) → Particle (i + 1)) → Prop} : Free.Disc n (accOps z) V DistRun.Dense DistRun.Dense := by
  have hacc : ∀ (a : Particle (i + 1)) l, Free.er (computeAcceleration z.sph (Free.er a) l) = Free.er (computeAcceleration z.sph a l) := by
    intro a l
    have := hext a
    simp only [computeAcceleration, Free.er] at this ⊢
    rw [this]
    rfl
  show Free.Disc n [.pass 2 fun a l => some (computeAcceleration z.sph a l)] (fun _ => True) DistRun.Dense DistRun.Dense
  exact Free.disc_pass (W := fun _ => False) flow trivial (Free.acceleration_reads z.sph) (fun _ => rfl) hacc dense_pos (fun s nbs nbs' h1 h2 h3 a => acceleration_lists _ h1 h2 h3 a) (fun a l h => h)
    (fun v h => h.elim) fun _ h => h

theorem free_relax {J : Particle (i + 1) → Prop} (z : Config i) (it : Int) (hrep : z.repulsionRadius ≤ 1) {ops : List (Op (Particle (i + 1)))}
    (h : Free.Disc n ops (fun v => v = flow) DistRun.Dense J) : Free.Disc n (relaxOps z it ++ ops) (fun v => v = flow ∨ v = geo) DistRun.Dense J := by
  unfold relaxOps
  split_ifs with hr
  · refine Free.disc_all (W := fun v => v = flow ∨ v = geo) (I' := DistRun.Dense) (fun a => rfl) (fun a h => h) ?_ ?_
    · rintro v (rfl | rfl)
      exacts [⟨Or.inl rfl, fun _ => rfl⟩, ⟨Or.inr rfl, fun _ => rfl⟩]
    · refine Free.disc_pass geo (Or.inr rfl) (Free.repulsion_reads _ _) (fun _ => rfl) (fun a l => rfl) dense_pos (fun s nbs nbs' h1 h2 h3 a => repulsion_lists hrep _ h1 h2 h3 a) (fun a l h => h) ?_ h
      rintro v rfl
      exact ⟨Or.inl rfl, fun _ _ => rfl⟩
  · exact Disciplined.mono (fun v hv => Or.inl hv) h

theorem free_head (z : Config i) (hv : z.sph.visc = .constant) (c : Timestep.Clock) (hext : ∀ a, z.sph.external { a with vsig := 0, dt := 0 } = z.sph.external a)
    {V : (Particle (i + 1) → Particle (i + 1)) → Prop} : Free.Disc n (headOps z c) V Sized DistRun.Dense := by
  have ha : ∀ {V : (Particle (i + 1) → Particle (i + 1)) → Prop}, Free.Disc n (accOps z) V DistRun.Dense DistRun.Dense := free_acc z hext
  unfold headOps
  split_ifs with hc
  · have hinit : ∀ a : Particle (i + 1), Free.er (Eos.init z.eos z.eosParams (Free.er a)) = Free.er (Eos.init z.eos z.eosParams a) ∧ geo (Eos.init z.eos z.eosParams a) = geo a ∧
        (Eos.init z.eos z.eosParams a).mass = a.mass ∧ (Eos.init z.eos z.eosParams a).h = a.h := by
      intro a
      cases z.eos <;> exact ⟨rfl, rfl, rfl, rfl⟩
    have h2 : Free.Disc n (densityOp z c.dt :: .all (fun a => some (saveVelocityhalf a)) :: accOps z) (fun v => v = geo) Sized DistRun.Dense :=
      Free.disc_density z hv c.dt (Free.disc_all (f := saveVelocityhalf) (W := fun _ => False) (I' := DistRun.Dense) (fun a => rfl) (fun a h => h) (fun v h => h.elim) ha) (V := fun v => v = geo) rfl
    unfold firstHead alphaOps
    simp only [hv, List.append_nil, List.append_assoc, List.cons_append, List.nil_append]
    show Free.Disc n (.all (fun a => some (Eos.init z.eos z.eosParams a)) :: _) (fun _ => True) Sized DistRun.Dense
    refine Free.disc_all (W := fun v => v = geo) (I' := Sized) (fun a => (hinit a).1) (fun a h => ?_) ?_ ?_
    · unfold Sized; rw [(hinit a).2.2.1, (hinit a).2.2.2]; exact h
    · rintro v rfl; exact ⟨trivial, fun a => (hinit a).2.1⟩
    · split_ifs
      · refine Free.disc_all (W := fun v => v = geo) (I' := Sized) (fun a => rfl) (fun a h => h) ?_ h2
        rintro v rfl; exact ⟨rfl, fun _ => rfl⟩
      · exact h2
  · have h3 : Free.Disc n (densityOp z c.dt :: accOps z) (fun _ => True) Sized DistRun.Dense := Free.disc_density z hv c.dt ha (V := fun _ => True) trivial
    unfold nextHead alphaOps
    simp only [hv, List.append_nil, List.append_assoc, List.cons_append, List.nil_append]
    refine Free.disc_kick z c.dt (fun _ _ h => h) (fun _ _ h => h) ?_
    refine Free.disc_all (W := fun _ => False) (I' := Sized) (fun a => rfl) (fun a h => h) (fun v h => h.elim) ?_
    refine Free.disc_all (W := fun _ => False) (I' := Sized) (fun a => rfl) (fun a h => h) (fun v h => h.elim) ?_
    refine Free.disc_all (W := fun _ => False) (I' := Sized) (fun a => rfl) (fun a h => h) (fun v h => h.elim) ?_
    exact h3

theorem free_mid (z : Config i) (it : Int) (hrep : z.repulsionRadius ≤ 1) : Free.Disc n (midOps z it) (fun v => v = flow ∨ v = geo) DistRun.Dense DistRun.Dense := by
  unfold midOps
  refine free_relax z it hrep ?_
  split_ifs
  · exact Free.disc_all (W := fun _ => False) (I' := DistRun.Dense) (fun a => rfl) (fun a h => h) (fun v h => h.elim) fun _ h => h
  · exact fun _ h => h

theorem free_next (z : Config i) (he : 0 < z.eta) (hw : 0 < z.width) (c : Timestep.Clock) (hrep : z.repulsionRadius ≤ 1) (hc : c.iteration ≠ z.initialIteration) :
    Free.Disc n (tailOps z c) (fun v => v = flow ∨ v = geo) DistRun.Dense := by
  unfold tailOps
  rw [if_neg hc]
  unfold nextTail
  simp only [List.append_assoc]
  refine free_relax z _ hrep ?_
  have h0 : Free.Disc n (kickOps z c.dt ++ lastOps z) (fun _ => False) DistRun.Dense := Free.disc_kick z c.dt (fun _ _ h => h) (fun _ _ h => h) (Free.disc_last z he hw)
  have h1 : Free.Disc n ((if z.evolve then energyOps z c.dt c.iteration z.updates else []) ++ (kickOps z c.dt ++ lastOps z)) (fun _ => True) DistRun.Dense := by
    split_ifs
    · exact Free.disc_energy z _ _ h0 _ trivial
    · exact Free.disc_any h0
  exact Free.disc_all (W := fun _ => False) (fun a => rfl) (fun a h => h) (fun v h => h.elim) h1

theorem mid_same (z : Config i) (it : Int) : ∀ o ∈ midOps z it ++ [stepOp z], Same flow o := by
  intro o ho
  unfold midOps relaxOps at ho
  rw [List.mem_append, List.mem_append] at ho
  rcases ho with (ho | ho) | ho
  · split_ifs at ho
    · simp only [List.mem_cons, List.not_mem_nil, or_false] at ho
      rcases ho with rfl | rfl
      · intro a x hx; obtain rfl := Option.some.inj hx; rfl
      · intro a l x hx; obtain rfl := Option.some.inj hx; rfl
    · cases ho
  · split_ifs at ho
    · simp only [List.mem_cons, List.not_mem_nil, or_false] at ho
      subst ho
      intro a x hx; obtain rfl := Option.some.inj hx; rfl
    · cases ho
  · exact forces_same z it o (List.mem_append_right _ ho)

/-- The first iteration after gravity, without its two calls of `compute_dt`, is that of a fixed time step. -/
theorem mid_rest (z : Config i) (c : Timestep.Clock) (hc : c.iteration = z.initialIteration) (dt : ℝ) : midOps z c.iteration ++ firstRest z dt c.iteration = tailOps z { c with dt := dt } := by
  unfold tailOps midOps firstRest firstTail
  rw [if_pos hc]
  simp only [List.append_assoc]

/-! ### One iteration -/

theorem step_er {procs : Nat} {z : Config i} {home : Fin n → Nat} {d : DState (Particle (i + 1)) n} {x : (Fin n → Nat) × DState (Particle (i + 1)) n}
    (h : DExec NearLists procs [stepOp z] home d (some x)) : ∀ a, Free.er (x.2.val a) = Free.er (d.val a) := by
  intro a
  obtain ⟨-, t, ht⟩ := (exec_step h).2.2.2 a
  rw [ht]; rfl

theorem step_inv {procs : Nat} {z : Config i} {home : Fin n → Nat} {d : DState (Particle (i + 1)) n} {x : (Fin n → Nat) × DState (Particle (i + 1)) n} {J : Particle (i + 1) → Prop}
    (h : DExec NearLists procs [stepOp z] home d (some x)) (hJ : ∀ a t, J a → J { a with dt := t }) (hd : ∀ a, J (d.val a)) : ∀ a, J (x.2.val a) := by
  intro a
  obtain ⟨-, t, ht⟩ := (exec_step h).2.2.2 a
  rw [ht]; exact hJ _ _ (hd a)

theorem er_split {s t : Fin n → Particle (i + 1)} (h : ∀ a, Free.er (s a) = Free.er (t a)) : ∃ w x : Fin n → ℝ, t = fun a => { s a with vsig := w a, dt := x a } := by
  refine ⟨fun a => (t a).vsig, fun a => (t a).dt, funext fun a => ?_⟩
  have := congrArg (fun x : Particle (i + 1) => ({ x with vsig := (t a).vsig, dt := (t a).dt } : Particle (i + 1))) (h a)
  exact this.symm

theorem er_dense {s t : Fin n → Particle (i + 1)} (h : ∀ a, Free.er (s a) = Free.er (t a)) (hs : ∀ a, DistRun.Dense (s a)) : ∀ a, DistRun.Dense (t a) := by
  obtain ⟨w, x, rfl⟩ := er_split h
  exact fun a => hs a

theorem er_sized {s t : Fin n → Particle (i + 1)} (h : ∀ a, Free.er (s a) = Free.er (t a)) (hs : ∀ a, Sized (s a)) : ∀ a, Sized (t a) := by
  obtain ⟨w, x, rfl⟩ := er_split h
  exact fun a => hs a

theorem head_congr {z : Config i} {c : Timestep.Clock} {s t t' : Fin n → Particle (i + 1)} (h : HeadStep z c s t) (e : ∀ a, Free.er (t a) = Free.er (t' a)) : HeadStep z c s t' := by
  obtain ⟨w, x, rfl⟩ := er_split e
  exact ⟨h.id, h.mass, h.h, h.vel, h.pos, h.gacc, h.force, h.torque⟩

theorem tail_congr {z : Config i} {c : Timestep.Clock} {s t t' : Fin n → Particle (i + 1)} (h : TailStep z c s t) (e : ∀ a, Free.er (t a) = Free.er (t' a)) : TailStep z c s t' := by
  obtain ⟨w, x, rfl⟩ := er_split e
  exact ⟨h.id, h.mass, h.pos, h.acc, h.gacc, h.vel⟩

theorem all_near (s : Fin n → Particle (i + 1)) : NearLists s ((everybody i n).search s) := ⟨fun _ => List.nodup_finRange n, fun _ b _ => List.mem_finRange b⟩
theorem all_order (k : Nat) : VisitsAll ((everybody i n).order k) := ⟨List.nodup_finRange n, List.mem_finRange⟩

section
variable {z : Config i} (hv : z.sph.visc = .constant) (he : 0 < z.eta) (hw : 0 < z.width) (hrep : z.repulsionRadius ≤ 1)
  (hext : ∀ a, z.sph.external { a with vsig := 0, dt := 0 } = z.sph.external a) (g : Gravity) (hbits : i.val + 1 < g.bits) (hn : 2 ≤ n)

/-- What an iteration does, seen on one process: the calls before gravity lead to `s1`, gravity gives potentials and accelerations close to Newton's law, and the calls after it, with the time step `dt`, to `s2`. -/
structure OneProcess (z : Config i) (g : Gravity) (c : Timestep.Clock) (dt : ℝ) (s t : Fin n → Particle (i + 1)) : Prop where
  run : ∃ (s1 s2 : Fin n → Particle (i + 1)) (pot : Fin n → ℝ) (acc : Fin n → Point (i + 1)), exec1 (everybody i n) (headOps z c) s = some s1 ∧ (∀ a, DistRun.Dense (s1 a)) ∧
    (∀ a, Close g.angle g.const (fun b => bodyOf (s1 b)) a (pot a) (acc a)) ∧
    exec1 (everybody i n) (tailOps z { c with dt := dt }) (fun a => { s1 a with gpot := pot a, gacc := acc a }) = some s2 ∧ ∀ a, Free.er (t a) = Free.er (s2 a)

include hv hext hbits hn in
/-- Up to gravity. -/
theorem to_gravity {procs m : Nat} {c : Timestep.Clock} {home home' : Fin n → Nat} {d d' : DState (Particle (i + 1)) n} {v : Fin n → Particle (i + 1)} (hpos : ∀ a, Sized (d.val a))
    (hid : ∀ a b, (d.val a).id = (d.val b).id → a = b) (hf : d.flight = []) (h1 : DExec NearLists procs (headOps z c) home d (some (home', d')))
    (h2 : Separate (maxDepth g.bits (i + 1)) fun a => bodyOf (d'.val a)) (h3 : Gravitated g m d'.val v) :
    ∃ (s1 : Fin n → Particle (i + 1)) (pot : Fin n → ℝ) (acc : Fin n → Point (i + 1)), exec1 (everybody i n) (headOps z c) d.val = some s1 ∧ (∀ a, Free.er (d'.val a) = Free.er (s1 a)) ∧ (∀ a, DistRun.Dense (s1 a)) ∧
      (∀ a, Close g.angle g.const (fun b => bodyOf (s1 b)) a (pot a) (acc a)) ∧ v = (fun a => { d'.val a with gpot := pot a, gacc := acc a }) ∧ (∀ a, DistRun.Dense (v a)) ∧ d'.flight = [] ∧
      ∀ w, w = flow ∨ w = geo → Consistent w { d' with val := v } := by
  have hH : Free.Disc n (headOps z c) (fun _ => False) Sized DistRun.Dense := free_head z hv c hext
  obtain ⟨s1, e1, e2⟩ := agree (everybody i n) (fun s _ => all_near s) all_order hH h1 (fun v h => h.elim) hpos d.val hpos (fun _ => rfl)
  obtain ⟨p1, p2⟩ := exec_post h1 hH hpos hf _ rfl
  have i1 : ∀ a b, (d'.val a).id = (d'.val b).id → a = b := by
    intro a b hab
    have k : ∀ a, (d'.val a).id = (d.val a).id := fun a => congrArg Prod.fst (dexec_keep h1 (keep_head z hv c) _ rfl a)
    exact hid a b (by rw [← k, ← k, hab])
  obtain ⟨pot, acc, hc, hG⟩ := gravitated_spec g hbits hn (fun a => bodyOf (d'.val a)) (fun a => (p1 a).1) (fun a => (p1 a).2.1) h2
  obtain rfl : v = _ := funext ((hG d'.val (fun _ => rfl) i1 m).2 v h3)
  have hk : ∀ a, ∃ p g, ({ d'.val a with gpot := pot a, gacc := acc a } : Particle (i + 1)) = { d'.val a with gpot := p, gacc := g } := fun a => ⟨_, _, rfl⟩
  refine ⟨s1, pot, acc, e1, e2, er_dense e2 p1, ?_, rfl, dense_grav p1 hk, p2, fun w hw => consistent_grav hw ((head_consistent h1).1 w hw) hk⟩
  obtain ⟨w, x, rfl⟩ := er_split e2
  exact hc

include hv he hw hrep hext hbits hn in
theorem one_process {m : Nat} {c c1 c2 : Timestep.Clock} {home home' : Fin n → Nat} {d d' : DState (Particle (i + 1)) n} (hpos : ∀ a, Sized (d.val a)) (hid : ∀ a b, (d.val a).id = (d.val b).id → a = b)
    (hf : d.flight = []) (h : Iter NearLists g m z c home d (.done c1 c2 home' d')) :
    OneProcess z g c c1.dt d.val d'.val ∧ (∀ a, Sized (d'.val a)) ∧ d'.flight = [] ∧ c2.iteration = c.iteration + 1 := by
  cases h with
  | @first homeh dh v home1 d1 _ _ _ hc h1 h2 h3 h4 h5 h6 =>
    obtain ⟨s1, pot, acc, e1, e2, e3, e4, e5, e6, e7, e8⟩ := to_gravity hv hext g hbits hn hpos hid hf h1 h2 h3
    have i1 : c1.iteration = c.iteration := by rw [h5, AdaptRun.setAdaptive_iteration]
    -- up to the first time step
    obtain ⟨y, hA, hB⟩ := exec_split h4
    have hM := free_mid (n := n) z c.iteration hrep
    have hs1 : ∀ a, DistRun.Dense ({ s1 a with gpot := pot a, gacc := acc a } : Particle (i + 1)) := fun a => e3 a
    have ev : ∀ a, Free.er (v a) = Free.er ({ s1 a with gpot := pot a, gacc := acc a } : Particle (i + 1)) := by
      intro a
      rw [e5]
      exact congrArg (fun x : Particle (i + 1) => ({ x with gpot := pot a, gacc := acc a } : Particle (i + 1))) (e2 a)
    obtain ⟨sm, f1, f2⟩ := agree (d := { dh with val := v }) (everybody i n) (fun s _ => all_near s) all_order hM hA e8 e6 _ hs1 ev
    obtain ⟨p1, p2⟩ := exec_post hA hM e6 e7 y rfl
    have ed : ∀ a, Free.er (d1.val a) = Free.er (sm a) := fun a => (step_er hB a).trans (f2 a)
    have dn := step_inv hB (J := DistRun.Dense) (fun _ _ h => h) p1
    have hfl : d1.flight = [] := (exec_step hB).2.2.1.trans p2
    have hcons := exec_consistent h4 (mid_same z c.iteration) (e8 flow (Or.inl rfl)) _ rfl
    -- the rest
    obtain ⟨y2, hC, hE⟩ := exec_split h6
    have hR := Free.disc_rest (n := n) z he hw c1.dt c1.iteration
    obtain ⟨s4, f3, f4⟩ := agree (everybody i n) (fun s _ => all_near s) all_order hR hC (fun v h => by rw [h]; exact hcons) dn sm (er_dense ed dn) ed
    obtain ⟨q1, q2⟩ := exec_post hC hR dn hfl y2 rfl
    refine ⟨⟨s1, s4, pot, acc, e1, e3, e4, ?_, fun a => (step_er hE a).trans (f4 a)⟩, step_inv hE (J := Sized) (fun _ _ h => h) q1, (exec_step hE).2.2.1.trans q2, ?_⟩
    · rw [← mid_rest z c hc, exec1_append, f1, Option.bind_some, ← i1, f3]
    · show (Timestep.setAdaptive _ _ _).iteration + 1 = _
      rw [AdaptRun.setAdaptive_iteration, i1]
  | @next homeh dh v _ _ hc h1 h2 h3 h4 =>
    obtain ⟨s1, pot, acc, e1, e2, e3, e4, e5, e6, e7, e8⟩ := to_gravity hv hext g hbits hn hpos hid hf h1 h2 h3
    obtain ⟨y, hA, hB⟩ := exec_split h4
    have hN := free_next (n := n) z he hw c hrep hc
    have hs1 : ∀ a, DistRun.Dense ({ s1 a with gpot := pot a, gacc := acc a } : Particle (i + 1)) := fun a => e3 a
    have ev : ∀ a, Free.er (v a) = Free.er ({ s1 a with gpot := pot a, gacc := acc a } : Particle (i + 1)) := by
      intro a
      rw [e5]
      exact congrArg (fun x : Particle (i + 1) => ({ x with gpot := pot a, gacc := acc a } : Particle (i + 1))) (e2 a)
    obtain ⟨s4, f1, f2⟩ := agree (d := { dh with val := v }) (everybody i n) (fun s _ => all_near s) all_order hN hA e8 e6 _ hs1 ev
    obtain ⟨p1, p2⟩ := exec_post hA hN e6 e7 y rfl
    refine ⟨⟨s1, s4, pot, acc, e1, e3, e4, f1, fun a => (step_er hB a).trans (f2 a)⟩, step_inv hB (J := Sized) (fun _ _ h => h) p1, (exec_step hB).2.2.1.trans p2, ?_⟩
    show (Timestep.setAdaptive _ _ _).iteration + 1 = _
    rw [AdaptRun.setAdaptive_iteration]

include he hw hrep in
/-- One iteration on one process is a step of the leapfrog scheme. -/
theorem one_leapfrog (hv : z.sph.visc = .constant) (hext : ∀ a, z.sph.external a = 0) {c : Timestep.Clock} {dt : ℝ} (hdt : c.iteration ≠ z.initialIteration → dt = c.dt) (hit : z.sph.relaxationSteps ≤ c.iteration) {s t : Fin n → Particle (i + 1)} (hpos : ∀ a, Sized (s a))
    (h : OneProcess z g c dt s t) :
    Leapfrog g.const g.angle (c.iteration = z.initialIteration) c.dt s t ∧ (z.thermokinetic = true → z.evolve = true → 1 ≤ z.updates → EnergyStep z c s t) := by
  obtain ⟨s1, s2, pot, acc, h1, hD, hc, h2, e⟩ := h
  have e' := fun a => (e a).symm
  have hs := head_step (everybody i n) (everybody_faithful _ _) z hv hext c hit hpos h1
  have ht := tail_congr (tail_step (everybody i n) z { c with dt := dt } hit h2) e'
  have tg : ∀ a, (t a).gacc = acc a := ht.gacc
  have tp : ∀ a, (t a).pos = (s1 a).pos := ht.pos
  have tm : ∀ a, (t a).mass = (s1 a).mass := ht.mass
  have ta : ∀ a, (t a).acc = (s1 a).acc := ht.acc
  obtain ⟨w, x, hw2⟩ := er_split e'
  have tq : ∀ a, (t a).gpot = pot a := by
    intro a
    have hT : Disc n (tailOps z { c with dt := dt }) (fun v => v = flow ∨ v = geo) DistRun.Dense := disc_tail z he hw _ fun _ => hrep
    obtain ⟨r, f1, f2, -⟩ := exec1_exec (d := ⟨fun a => { s1 a with gpot := pot a, gacc := acc a }, fun _ _ => none, []⟩) (everybody i n) (fun s _ => all_near s) all_order hT (fun a => hD a) rfl
    rw [h2] at f2
    obtain ⟨y, rfl, f3⟩ := Option.map_eq_some_iff.1 f2
    have k : mark (y.2.val a) = _ := dexec_keep f1 (keep_tail z _) _ rfl a
    have k : (y.2.val a).gpot = pot a := congrArg (fun x => x.2) k
    rw [hw2, ← f3]
    exact k
  refine ⟨⟨fun a => (ht.id a).trans (hs.id a), fun a => (tm a).trans (hs.mass a), fun a => ?_, fun a => ?_, fun j => ?_, fun j k => ?_, fun a u hu => ?_, fun a u hu => ?_⟩, fun htk hev hup => ⟨fun a => ?_, ?_⟩⟩
  · rw [tp, hs.pos]
    by_cases h : c.iteration = z.initialIteration
    · rw [if_pos h, if_pos h]
    · rw [if_neg h, if_neg h, hs.vel, if_neg h]
  · have tv := ht.vel a
    dsimp only at tv
    rw [tv, tg, ta, hs.vel]
    by_cases h : c.iteration = z.initialIteration
    · rw [if_pos h, if_pos h, if_pos h]
    · rw [if_neg h, if_neg h, if_neg h, hdt h]
  · rw [← hs.force j]
    exact Finset.sum_congr rfl fun a _ => by rw [tm, ta]
  · rw [← hs.torque j k]
    exact Finset.sum_congr rfl fun a _ => by rw [tm, ta, tp]
  · have := (hc a u hu).1
    have e1 : accelerationAt g.const (fun b => bodyOf (t b)) a = accelerationAt g.const (fun b => bodyOf (s1 b)) a := by
      funext j
      simp only [accelerationAt, bodyOf, tp, tm]
    have e2 : pull g.const t a = ∑ b ∈ Finset.univ.erase a, |g.const| * (bodyOf (s1 b)).mass / distance (bodyOf (s1 a)).pos (bodyOf (s1 b)).pos ^ 2 := by
      simp only [pull, bodyOf, tp, tm]
    rw [tg, e1, e2]
    exact this
  · have := (hc a u hu).2
    have e1 : potentialAt g.const (fun b => bodyOf (t b)) a = potentialAt g.const (fun b => bodyOf (s1 b)) a := by
      simp only [potentialAt, bodyOf, tp, tm]
    have e2 : well g.const t a = ∑ b ∈ Finset.univ.erase a, |g.const| * (bodyOf (s1 b)).mass / distance (bodyOf (s1 a)).pos (bodyOf (s1 b)).pos := by
      simp only [well, bodyOf, tp, tm]
    rw [tq, e1, e2]
    exact this
  · have k1 := head_energy (everybody i n) all_order z hv htk hev c h1 a
    obtain ⟨k2, -⟩ := tail_energy (s := fun a => { s1 a with gpot := pot a, gacc := acc a }) (everybody i n) (everybody_faithful _ _) z htk hev hup { c with dt := dt } hit (fun a => (hD a).2.1) (fun a => (hD a).2.2) h2
    have k3 : (t a).e = (s2 a).e ∧ (t a).dedt = (s2 a).dedt := by rw [hw2]; exact ⟨rfl, rfl⟩
    have k5 := k2 a
    dsimp only at k5
    rw [k3.1, k3.2, k5]
    by_cases h : c.iteration = z.initialIteration
    · rw [if_pos h] at k1
      rw [if_pos h, if_pos h, k1, hs.pos, hs.vel, if_pos h, if_pos h]
    · rw [if_neg h] at k1
      rw [if_neg h, if_neg h, k1, hdt h]
  · obtain ⟨-, k2⟩ := tail_energy (s := fun a => { s1 a with gpot := pot a, gacc := acc a }) (everybody i n) (everybody_faithful _ _) z htk hev hup { c with dt := dt } hit (fun a => (hD a).2.1) (fun a => (hD a).2.2) h2
    rw [hw2]
    exact k2

end

end FleCSPH.AdaptNewton
