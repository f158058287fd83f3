import Verif.Lemmas.AdaptRun
import Verif.Props.C35run
/-! Conservation laws on several processes directly from the calls, for either viscosity: what the passes read of the copies at the moment of the forces and of the energy equation is up to date. -/
namespace FleCSPH.DistConserve
open FleCSPH.Geometry FleCSPH.Sph FleCSPH.Driver FleCSPH.DistRun FleCSPH.AdaptRun FleCSPH.Spec FleCSPH.Kernels FleCSPH.Integration

section
variable {P : Type} {n : Nat} {near : (Fin n → P) → (Fin n → List (Fin n)) → Prop} {procs : Nat}

theorem dpass_view {V : Type} {v : P → V} {f : P → List P → Option P} (hk : ∀ a l x, f a l = some x → v x = v a) {home : Fin n → Nat} {nbs : Fin n → List (Fin n)}
    {todo : List (Fin n)} {d : DState P n} {r : Option (DState P n)} (h : DPass home f nbs todo d r) : ∀ d', r = some d' → ∀ a, v (d'.val a) = v (d.val a) := by
  induction h with
  | done hfl => intro d' h; obtain rfl := Option.some.inj h; exact fun _ => rfl
  | send p b _ _ ih => exact ih
  | recv before after p b x hfl _ ih => exact ih
  | @visit d r before after a l x hl hx _ ih =>
    intro d' h b
    refine (ih d' h b).trans ?_
    by_cases hb : b = a
    · subst hb
      simp only [DState.put, Function.update_self]
      exact hk _ _ _ hx
    · simp only [DState.put]; rw [Function.update_of_ne hb]
  | fail => intro d' h; cases h

/-- What no call writes stays the same. -/
theorem exec_view {V : Type} {v : P → V} {ops : List (Op P)} {home : Fin n → Nat} {d : DState P n} {r : Option ((Fin n → Nat) × DState P n)} (h : DExec near procs ops home d r) :
    (∀ o ∈ ops, Same v o) → ∀ x, r = some x → ∀ a, v (x.2.val a) = v (d.val a) := by
  induction h with
  | nil => intro _ x h; obtain rfl := Option.some.inj h; exact fun _ => rfl
  | @all f l home d r u hu _ ih =>
    intro ho x h a
    have h0 : ∀ a x, f a = some x → v x = v a := ho _ List.mem_cons_self
    exact (ih (fun o h => ho o (List.mem_cons_of_mem _ h)) x h a).trans (h0 _ _ (hu a))
  | allFail => intro _ x h; cases h
  | @pass k f l home d d' r nbs order h1 h2 h3 h4 _ ih =>
    intro ho x h a
    have h0 : ∀ a l x, f a l = some x → v x = v a := ho _ List.mem_cons_self
    exact (ih (fun o h => ho o (List.mem_cons_of_mem _ h)) x h a).trans (dpass_view h0 h4 d' rfl a)
  | passFail => intro _ x h; cases h
  | reset hb _ ih => intro ho x h a; rw [ih (fun o h => ho o (List.mem_cons_of_mem _ h)) x h a, hb.val]
  | update _ hb _ ih => intro ho x h a; rw [ih (fun o h => ho o (List.mem_cons_of_mem _ h)) x h a, hb.val]
  | @mean g set l home d r hh _ ih =>
    intro ho x h a
    have h0 : ∀ x a, v (set x a) = v a := ho _ List.mem_cons_self
    exact (ih (fun o h => ho o (List.mem_cons_of_mem _ h)) x h a).trans (h0 _ _)

theorem exec_cons {o : Op P} {ops : List (Op P)} {home : Fin n → Nat} {d : DState P n} {x : (Fin n → Nat) × DState P n} (h : DExec near procs (o :: ops) home d (some x)) :
    ∃ y, DExec near procs [o] home d (some y) ∧ DExec near procs ops y.1 y.2 (some x) := exec_split (ops := [o]) h

theorem exec_all {f : P → P} {home : Fin n → Nat} {d : DState P n} {x : (Fin n → Nat) × DState P n} (h : DExec near procs [.all fun a => some (f a)] home d (some x)) :
    x.2.val = fun a => f (d.val a) := by
  cases h with
  | all v hv h => cases h; exact funext fun a => (Option.some.inj (hv a)).symm

theorem exec_reset {home : Fin n → Nat} {d : DState P n} {x : (Fin n → Nat) × DState P n} (h : DExec near procs [.reset] home d (some x)) {V : Type} (v : P → V) :
    x.2.val = d.val ∧ Consistent v x.2 := by
  cases h with
  | reset hb h => cases h; exact ⟨hb.val, hb.consistent v⟩

/-- A pass after which every particle has the value on the state before it. -/
theorem exec_pass {V : Type} {v : P → V} {k : Nat} {f : P → List P → P} (hf : Reads (id : P → P) v fun a l => some (f a l)) {home : Fin n → Nat} {d : DState P n} {x : (Fin n → Nat) × DState P n}
    (h : DExec near procs [.pass k fun a l => some (f a l)] home d (some x)) (hc : Consistent v d) :
    ∃ nbs, near d.val nbs ∧ (∀ a, x.2.val a = f (d.val a) ((nbs a).map d.val)) ∧ Consistent v x.2 := by
  cases h with
  | pass nbs order h1 h2 h3 h4 h =>
    cases h
    obtain ⟨-, r2, r3, -⟩ := (dpass_result hf d.val h4 h2 hc (fun _ => rfl) (fun _ _ => rfl)).1 _ rfl
    exact ⟨nbs, h1, fun a => (Option.some.inj (r3 a (h3 a))).symm, r2⟩

end

variable {i : Fin 3} {n : Nat} {procs : Nat} {home : Fin n → Nat} {d : DState (Particle (i + 1)) n} {x : (Fin n → Nat) × DState (Particle (i + 1)) n}

/-- What momentum and angular momentum depend on. -/
def dyn {d : Nat} (a : Particle d) : Nat × ℝ × Point d × Point d × Point d × Point d := (a.id, a.mass, a.pos, a.vel, a.acc, a.gacc)

/-- What the total energy depends on. -/
def heat {d : Nat} (a : Particle d) : ℝ × ℝ × ℝ := (a.mass, a.e, a.dedt)

theorem dyn_of {a b : Particle (i + 1)} (h : dyn a = dyn b) : a.id = b.id ∧ a.mass = b.mass ∧ a.pos = b.pos ∧ a.vel = b.vel ∧ a.acc = b.acc ∧ a.gacc = b.gacc := by
  simp only [dyn, Prod.mk.injEq] at h; exact h

theorem same_all {V : Type} {v : Particle (i + 1) → V} {f : Particle (i + 1) → Particle (i + 1)} (h : ∀ a, v (f a) = v a) : Same v (.all fun a => some (f a)) := by
  intro a x hx; obtain rfl := Option.some.inj hx; exact h a

theorem same_pass {V : Type} {v : Particle (i + 1) → V} {k : Nat} {f : Particle (i + 1) → List (Particle (i + 1)) → Particle (i + 1)} (h : ∀ a l, v (f a l) = v a) :
    Same v (.pass k fun a l => some (f a l)) := by
  intro a l x hx; obtain rfl := Option.some.inj hx; exact h a l

/-- A view which does not show what density, viscosity, and the end of an iteration write. -/
structure Blind {V : Type} (v : Particle (i + 1) → V) : Prop where
  density : ∀ a r u P c s x y, v { a with rho := r, u := u, P := P, cs := c, vsig := s, divv := x, ddivvdt := y } = v a
  alpha : ∀ a x, v { a with alpha := x } = v a
  half : ∀ a x, v { a with vhalf := x } = v a
  size : ∀ a x, v { a with h := x } = v a
  step : ∀ a x, v { a with dt := x } = v a

theorem blind_dyn : Blind (i := i) dyn := ⟨fun _ _ _ _ _ _ _ _ => rfl, fun _ _ => rfl, fun _ _ => rfl, fun _ _ => rfl, fun _ _ => rfl⟩
theorem blind_heat : Blind (i := i) heat := ⟨fun _ _ _ _ _ _ _ _ => rfl, fun _ _ => rfl, fun _ _ => rfl, fun _ _ => rfl, fun _ _ => rfl⟩

theorem same_density {V : Type} {v : Particle (i + 1) → V} (hv : Blind v) (z : Config i) (dt : ℝ) : Same v (densityOp z dt) := by
  intro a l x hx
  obtain ⟨-, _, _, _, _, _, _, _, rfl⟩ := density_keep _ _ _ _ _ _ _ hx
  exact hv.density _ _ _ _ _ _ _ _

theorem same_alpha {V : Type} {v : Particle (i + 1) → V} (hv : Blind v) (z : Config i) (dt : ℝ) : ∀ o ∈ alphaOps z dt, Same v o := by
  intro o h
  unfold alphaOps at h
  cases hz : z.sph.visc <;> rw [hz] at h
  · cases h
  · obtain rfl := List.mem_singleton.mp h
    intro a l x hx
    obtain ⟨y, rfl⟩ := computeAlpha_keep _ _ _ _ _ hx
    exact hv.alpha _ _

theorem same_step {V : Type} {v : Particle (i + 1) → V} (hv : Blind v) (z : Config i) : Same v (stepOp z) := by
  intro a x hx; obtain ⟨t, rfl⟩ := computeDt_keep _ _ _ hx; exact hv.step _ _

theorem same_last {V : Type} {v : Particle (i + 1) → V} (hv : Blind v) (z : Config i) : ∀ o ∈ lastOps z, Same v o := by
  classical
  intro o h
  unfold lastOps at h
  rcases List.mem_append.mp h with h | h
  · cases hm : z.hMode
    all_goals rw [hm] at h; simp only [List.mem_cons, List.not_mem_nil, or_false] at h
    · subst h; exact same_all fun a => hv.size _ _
    · subst h; exact fun x a => hv.size _ _
  · obtain rfl := List.mem_singleton.mp h
    intro a x hx
    simp only at hx
    split_ifs at hx
    obtain rfl := Option.some.inj hx; rfl

/-! ### Positive densities -/

/-- After the density pass, the viscosity and what may come between them. -/
theorem dense_after (z : Config i) (dt : ℝ) {near : (Fin n → Particle (i + 1)) → (Fin n → List (Fin n)) → Prop} (hs : ∀ a, Sized (d.val a)) (h : DExec near procs [densityOp z dt] home d (some x)) :
    ∀ a, DistRun.Dense (x.2.val a) := by
  cases h with
  | pass nbs order h1 h2 h3 h4 h =>
    cases h
    refine dpass_inv (I := Sized) (I' := DistRun.Dense) (fun a l y ha hx => ?_) h4 h2 (fun a _ => hs a) (fun a ha => absurd (h3 a) ha) _ rfl
    obtain ⟨h1, _, _, _, _, _, _, _, rfl⟩ := density_keep _ _ _ _ _ _ _ hx
    exact ⟨ha.1, ha.2, h1⟩

theorem keeps_alpha {I : Particle (i + 1) → Prop} (hI : ∀ a x, I a → I { a with alpha := x }) (z : Config i) (dt : ℝ) : ∀ o ∈ alphaOps z dt, Keeps I o := by
  intro o h
  unfold alphaOps at h
  cases hz : z.sph.visc <;> rw [hz] at h
  · cases h
  · obtain rfl := List.mem_singleton.mp h
    intro a l x ha hx
    obtain ⟨y, rfl⟩ := computeAlpha_keep _ _ _ _ _ hx
    exact hI _ _ ha

theorem keeps_all' {I : Particle (i + 1) → Prop} {f : Particle (i + 1) → Particle (i + 1)} (h : ∀ a, I a → I (f a)) : Keeps I (.all fun a => some (f a)) := by
  intro a x ha hx; obtain rfl := Option.some.inj hx; exact h a ha

theorem keeps_pass' {I : Particle (i + 1) → Prop} {k : Nat} {f : Particle (i + 1) → List (Particle (i + 1)) → Particle (i + 1)} (h : ∀ a l, I a → I (f a l)) :
    Keeps I (.pass k fun a l => some (f a l)) := by
  intro a l x ha hx; obtain rfl := Option.some.inj hx; exact h a l ha

theorem keeps_energy {I : Particle (i + 1) → Prop} (hI : ∀ (a : Particle (i + 1)) u P c p q, I a → I { a with u := u, P := P, cs := c, dudt := p, dedt := q }) (z : Config i) (dt : ℝ) (it : Int) (m : Nat) :
    ∀ o ∈ energyOps z dt it m, Keeps I o := by
  induction m with
  | zero => intro o h; cases h
  | succ m ih =>
    intro o h
    rw [energyOps] at h
    simp only [List.mem_append] at h
    rcases h with (h | h) | h
    · have q : ∀ (a : Particle (i + 1)) p, I a → I { a with dudt := p } := fun a p ha => hI a a.u a.P a.cs p a.dedt ha
      have q' : ∀ (a : Particle (i + 1)) p, I a → I { a with dedt := p } := fun a p ha => hI a a.u a.P a.cs a.dudt p ha
      split_ifs at h <;> simp only [List.mem_append, List.mem_cons, List.not_mem_nil, or_false, false_or] at h
      · rcases h with rfl | rfl | rfl
        · exact keeps_pass' fun a l ha => q' _ _ ha
        · exact keeps_all' fun a ha => q' _ _ ha
        · intro a x ha hx
          obtain ⟨u, P, c, rfl⟩ := recomputeT_keep _ _ _ _ _ _ hx
          exact hI a u P c a.dudt a.dedt ha
      · rcases h with rfl | rfl
        · exact keeps_pass' fun a l ha => q' _ _ ha
        · intro a x ha hx
          obtain ⟨u, P, c, rfl⟩ := recomputeT_keep _ _ _ _ _ _ hx
          exact hI a u P c a.dudt a.dedt ha
      all_goals
        have r : Keeps I (.all fun a => some (Eos.recomputePressureSoundspeed z.eos z.eosParams dt a)) := keeps_all' fun a ha => by
          obtain ⟨P, c, e⟩ := recompute_keep z.eos z.eosParams dt a
          rw [e]; exact hI a a.u P c a.dudt a.dedt ha
        have r' : Keeps I (.pass (4 + m) fun a l => some (computeDudt z.sph it a l)) := keeps_pass' fun a l ha => by
          simp only [computeDudt]; split <;> exact q _ _ ha
      · rcases h with rfl | rfl | rfl
        · exact r'
        · exact keeps_all' fun a ha => q _ _ ha
        · exact r
      · rcases h with rfl | rfl
        · exact r'
        · exact r
    · split_ifs at h
      · obtain rfl := List.mem_singleton.mp h; trivial
      · cases h
    · exact ih o h

theorem same_energy {V : Type} {v : Particle (i + 1) → V} (hI : ∀ (a : Particle (i + 1)) u P c p q, v { a with u := u, P := P, cs := c, dudt := p, dedt := q } = v a) (z : Config i) (dt : ℝ) (it : Int) (m : Nat) :
    ∀ o ∈ energyOps z dt it m, Same v o := by
  induction m with
  | zero => intro o h; cases h
  | succ m ih =>
    intro o h
    rw [energyOps] at h
    simp only [List.mem_append] at h
    rcases h with (h | h) | h
    · have q : ∀ (a : Particle (i + 1)) p, v { a with dudt := p } = v a := fun a p => hI a a.u a.P a.cs p a.dedt
      have q' : ∀ (a : Particle (i + 1)) p, v { a with dedt := p } = v a := fun a p => hI a a.u a.P a.cs a.dudt p
      split_ifs at h <;> simp only [List.mem_append, List.mem_cons, List.not_mem_nil, or_false, false_or] at h
      · rcases h with rfl | rfl | rfl
        · exact same_pass fun a l => q' _ _
        · exact same_all fun a => q' _ _
        · intro a x hx
          obtain ⟨u, P, c, rfl⟩ := recomputeT_keep _ _ _ _ _ _ hx
          exact hI a u P c a.dudt a.dedt
      · rcases h with rfl | rfl
        · exact same_pass fun a l => q' _ _
        · intro a x hx
          obtain ⟨u, P, c, rfl⟩ := recomputeT_keep _ _ _ _ _ _ hx
          exact hI a u P c a.dudt a.dedt
      all_goals
        have r : Same v (.all fun a => some (Eos.recomputePressureSoundspeed z.eos z.eosParams dt a)) := same_all fun a => by
          obtain ⟨P, c, e⟩ := recompute_keep z.eos z.eosParams dt a
          rw [e]; exact hI a a.u P c a.dudt a.dedt
        have r' : Same v (.pass (4 + m) fun a l => some (computeDudt z.sph it a l)) := same_pass fun a l => by
          simp only [computeDudt]; split <;> exact q _ _
      · rcases h with rfl | rfl | rfl
        · exact r'
        · exact same_all fun a => q _ _
        · exact r
      · rcases h with rfl | rfl
        · exact r'
        · exact r
    · split_ifs at h
      · obtain rfl := List.mem_singleton.mp h; trivial
      · cases h
    · exact ih o h

theorem same_kick {V : Type} {v : Particle (i + 1) → V} (hu : ∀ (a : Particle (i + 1)) u, v { a with u := u } = v a) (he : ∀ (a : Particle (i + 1)) e, v { a with e := e } = v a) (z : Config i) (dt : ℝ) :
    ∀ o ∈ kickOps z dt, Same v o := by
  intro o h
  unfold kickOps at h
  split_ifs at h
  all_goals simp only [List.mem_cons, List.not_mem_nil, or_false] at h
  · subst h; exact same_all fun a => he _ _
  · subst h; exact same_all fun a => hu _ _

theorem keeps_kick' {I : Particle (i + 1) → Prop} (hu : ∀ (a : Particle (i + 1)) u, I a → I { a with u := u }) (he : ∀ (a : Particle (i + 1)) e, I a → I { a with e := e }) (z : Config i) (dt : ℝ) :
    ∀ o ∈ kickOps z dt, Keeps I o := by
  intro o h
  unfold kickOps at h
  split_ifs at h
  all_goals simp only [List.mem_cons, List.not_mem_nil, or_false] at h
  · subst h; exact keeps_all' fun a h => he _ _ h
  · subst h; exact keeps_all' fun a h => hu _ _ h

/-- The end of an iteration leaves masses and smoothing lengths positive. -/
theorem sized_last (z : Config i) (he : 0 < z.eta) (hw : 0 < z.width) (hs : ∀ a, DistRun.Dense (d.val a)) (h : DExec NearLists procs (lastOps z) home d (some x)) : ∀ a, Sized (x.2.val a) := by
  have hN : ∀ a, 0 < newH z (d.val a) := fun a => newH_pos z he hw (hs a)
  unfold lastOps at h
  obtain ⟨y, h1, h2⟩ := exec_split h
  have hy : ∀ a, Sized (y.2.val a) := by
    cases hm : z.hMode
    all_goals rw [hm] at h1; dsimp only at h1
    · have e := exec_all h1
      intro a; rw [e]; exact ⟨(hs a).1, hN a⟩
    · cases h1 with
      | mean hh h1 =>
        cases h1
        exact fun a => ⟨(hs a).1, mean_pos hh hN a⟩
    · cases h1; exact fun a => ⟨(hs a).1, (hs a).2.1⟩
  refine exec_keeps h2 (fun o ho => ?_) hy x rfl
  obtain rfl := List.mem_singleton.mp ho
  intro a w ha hx
  simp only at hx
  split_ifs at hx
  obtain rfl := Option.some.inj hx; exact ha

/-! ### The forces and the energy equation -/

theorem acceleration_reads (p : Params i) : Reads (id : Particle (i + 1) → Particle (i + 1)) flow (fun a l => some (computeAcceleration p a l)) := by
  refine ⟨fun a l l' h => ?_, fun a l x h => by obtain rfl := Option.some.inj h; rfl⟩
  have e : ∀ l, computeAcceleration p a (l.map flow) = computeAcceleration p a l := by
    intro l; simp only [computeAcceleration, accumulate_eq, List.map_map]; rfl
  rw [← e l, h, e]

theorem dedt_reads (p : Params i) : Reads (id : Particle (i + 1) → Particle (i + 1)) flow (fun a l => some (computeDedt p a l)) := by
  refine ⟨fun a l l' h => ?_, fun a l x h => by obtain rfl := Option.some.inj h; rfl⟩
  have e : ∀ l, computeDedt p a (l.map flow) = computeDedt p a l := by
    intro l; simp only [computeDedt, foldl_sub_eq, List.map_map]; rfl
  rw [← e l, h, e]

theorem symmetric {s : Fin n → Particle (i + 1)} {nbs : Fin n → List (Fin n)} (h : NearLists s nbs) : SymmetricLists s nbs := by
  refine ⟨h.nodup, fun a b hab => ⟨fun _ => h.complete b a ?_, fun _ => h.complete a b hab.le⟩⟩
  have e : (∑ j, ((s b).pos j - (s a).pos j) ^ 2) = ∑ j, ((s a).pos j - (s b).pos j) ^ 2 := Finset.sum_congr rfl fun j _ => by ring
  rw [e, add_comm (s b).h]; exact hab.le

theorem in_order : VisitsAll (List.finRange n) := ⟨List.nodup_finRange n, List.mem_finRange⟩

/-- The forces: the ghosts were refreshed after the viscosity was computed, so they hold what is read. -/
theorem exec_forces (z : Config i) (it : Int) (hit : z.sph.relaxationSteps ≤ it) (h : DExec NearLists procs (forceOps z it) home d (some x)) :
    ∃ nbs, NearLists d.val nbs ∧ x.2.val = pass (computeAcceleration z.sph) nbs (List.finRange n) d.val ∧ Consistent flow x.2 ∧ (∀ a, (x.2.val a).gacc = 0) ∧
      ∀ a, ∃ f g p, x.2.val a = { d.val a with acc := f, gacc := g, gpot := p } := by
  unfold forceOps at h
  rw [if_neg (not_lt.mpr hit), List.append_nil] at h
  obtain ⟨y, h1, h2⟩ := exec_cons h
  obtain ⟨e1, c1⟩ := exec_reset h1 flow
  obtain ⟨nbs, r1, r2, r3⟩ := exec_pass (acceleration_reads z.sph) h2 c1
  rw [e1] at r1 r2
  have e2 : x.2.val = fun a => computeAcceleration z.sph (d.val a) ((nbs a).map d.val) := funext r2
  refine ⟨nbs, r1, ?_, r3, fun a => by rw [r2]; rfl, fun a => ⟨_, _, _, r2 a⟩⟩
  rw [e2, pass_eq (computeAcceleration z.sph) (fun b : Particle (i + 1) => ({ b with acc := 0, gacc := 0, gpot := 0 } : Particle (i + 1))) (computeAcceleration z.sph)
    (fun a l => by simp only [computeAcceleration, accumulate_eq, List.map_map]; rfl) (fun a l => rfl) _ _ in_order]

/-- Without external forces they balance. -/
theorem forces_balance (z : Config i) (it : Int) (hit : z.sph.relaxationSteps ≤ it) (hext : ∀ a, z.sph.external a = 0) (hs : ∀ a, DistRun.Dense (d.val a))
    (h : DExec NearLists procs (forceOps z it) home d (some x)) : Balanced x.2.val := by
  obtain ⟨nbs, r1, r2, -, r4, r5⟩ := exec_forces z it hit h
  have hh : ∀ a, 0 < (d.val a).h := fun a => (hs a).2.1
  have hrho : ∀ a, 0 < (d.val a).rho := fun a => (hs a).2.2
  have keep : ∀ a, (x.2.val a).mass = (d.val a).mass ∧ (x.2.val a).pos = (d.val a).pos := fun a => by obtain ⟨_, _, _, e⟩ := r5 a; rw [e]; exact ⟨rfl, rfl⟩
  refine ⟨fun j => ?_, fun j k => ?_⟩
  · have := C34_momentum z.sph d.val nbs _ in_order (symmetric r1) hh hrho j
    rw [← r2] at this
    simp only [hext, Pi.zero_apply, mul_zero, Finset.sum_const_zero] at this
    rw [← this]
    exact Finset.sum_congr rfl fun a _ => by rw [(keep a).1, r4 a]; simp
  · have := C56_angular_momentum z.sph d.val nbs _ in_order (symmetric r1) hh hrho j k
    rw [← r2] at this
    simp only [hext, Pi.zero_apply, mul_zero, sub_zero, Finset.sum_const_zero] at this
    rw [← this]
    exact Finset.sum_congr rfl fun a _ => by rw [(keep a).1, (keep a).2, r4 a]; simp

/-- The energy equation of the thermokinetic formulation leaves no net rate. -/
theorem exec_energy (z : Config i) (dt : ℝ) (it : Int) (htk : z.thermokinetic = true) (hit : z.sph.relaxationSteps ≤ it) : ∀ (m : Nat) {home : Fin n → Nat} {d : DState (Particle (i + 1)) n}, 1 ≤ m →
    (∀ a, DistRun.Dense (d.val a)) → (∀ a, (d.val a).gacc = 0) → Consistent flow d → DExec NearLists procs (energyOps z dt it m) home d (some x) →
    ∑ a, (x.2.val a).mass * (x.2.val a).dedt = 0 ∧ ∀ a, (x.2.val a).mass = (d.val a).mass ∧ (x.2.val a).e = (d.val a).e := by
  intro m
  induction m with
  | zero => intro _ _ hm; omega
  | succ m ih =>
    intro home d _ hs hg hc h
    rw [energyOps, if_pos htk, if_neg (not_lt.mpr hit), List.nil_append, List.append_assoc] at h
    obtain ⟨y2, h12, h3⟩ := exec_split h
    obtain ⟨y1, h1, h2⟩ := exec_cons h12
    obtain ⟨nbs, r1, r2, r3⟩ := exec_pass (dedt_reads z.sph) h1 hc
    have e2 : y1.2.val = pass (computeDedt z.sph) nbs (List.finRange n) d.val := by
      rw [pass_eq (computeDedt z.sph) (fun b : Particle (i + 1) => ({ b with dedt := 0 } : Particle (i + 1))) (computeDedt z.sph)
        (fun a l => by simp only [computeDedt, foldl_sub_eq, List.map_map]; rfl) (fun a l => rfl) _ _ in_order]
      exact funext r2
    have k1 : ∀ a, ∃ q, y1.2.val a = { d.val a with dedt := q } := fun a => ⟨_, r2 a⟩
    have t1 : ∑ a, (y1.2.val a).mass * (y1.2.val a).dedt = 0 := by
      have := C35_total_energy z.sph d.val nbs _ in_order (symmetric r1) (fun a => (hs a).2.1) (fun a => (hs a).2.2)
      rw [← e2] at this
      simp only [hg, Pi.zero_apply, zero_mul, Finset.sum_const_zero, mul_zero] at this
      rw [← this]
      exact Finset.sum_congr rfl fun a _ => by obtain ⟨q, e⟩ := k1 a; rw [e]
    have k2 : ∀ a, ∃ u P c, y2.2.val a = { y1.2.val a with u := u, P := P, cs := c } := by
      cases h2 with
      | all v hv h2 => cases h2; exact fun a => recomputeT_keep _ _ _ _ _ _ (hv a)
    have m2 : ∀ a, (y2.2.val a).mass = (d.val a).mass ∧ (y2.2.val a).e = (d.val a).e ∧ DistRun.Dense (y2.2.val a) ∧ (y2.2.val a).gacc = 0 := fun a => by
      obtain ⟨q, e1⟩ := k1 a
      obtain ⟨u, P, c, e2⟩ := k2 a
      rw [e2, e1]; exact ⟨rfl, rfl, hs a, hg a⟩
    have t2 : ∑ a, (y2.2.val a).mass * (y2.2.val a).dedt = 0 := by
      rw [← t1]
      exact Finset.sum_congr rfl fun a _ => by obtain ⟨u, P, c, e⟩ := k2 a; rw [e]
    split_ifs at h3 with hm
    · obtain ⟨y3, h3, h4⟩ := exec_split h3
      obtain ⟨e3, c3⟩ := exec_reset h3 flow
      obtain ⟨s1, s2⟩ := ih hm (fun a => by rw [e3]; exact (m2 a).2.2.1) (fun a => by rw [e3]; exact (m2 a).2.2.2) c3 h4
      refine ⟨s1, fun a => ?_⟩
      rw [(s2 a).1, (s2 a).2, e3]; exact ⟨(m2 a).1, (m2 a).2.1⟩
    · obtain rfl : m = 0 := by omega
      cases h3
      exact ⟨t2, fun a => ⟨(m2 a).1, (m2 a).2.1⟩⟩

/-! ### One iteration -/

/-- What a part of an iteration conserves. -/
structure Conserves (s t : Fin n → Particle (i + 1)) : Prop where
  particles : ∀ a, (t a).id = (s a).id ∧ (t a).mass = (s a).mass
  momentum : ∀ j, momentum t j = momentum s j
  angular : ∀ j k, angularMomentum t j k = angularMomentum s j k

theorem Conserves.trans {s t u : Fin n → Particle (i + 1)} (h : Conserves s t) (h' : Conserves t u) : Conserves s u :=
  ⟨fun a => ⟨(h'.particles a).1.trans (h.particles a).1, (h'.particles a).2.trans (h.particles a).2⟩, fun j => (h'.momentum j).trans (h.momentum j),
    fun j k => (h'.angular j k).trans (h.angular j k)⟩

theorem Conserves.of_eq {s t : Fin n → Particle (i + 1)} (h : ∀ a, (t a).id = (s a).id ∧ (t a).mass = (s a).mass ∧ (t a).pos = (s a).pos ∧ (t a).vel = (s a).vel) : Conserves s t := by
  have m := momenta_congr (s := s) (t := t) fun a => (h a).2
  exact ⟨fun a => ⟨(h a).1, (h a).2.1⟩, m.1, m.2⟩

theorem Conserves.of_dyn {s t : Fin n → Particle (i + 1)} (h : ∀ a, dyn (t a) = dyn (s a)) : Conserves s t :=
  .of_eq fun a => by obtain ⟨h1, h2, h3, h4, -⟩ := dyn_of (h a); exact ⟨h1, h2, h3, h4⟩

theorem balanced_dyn {s t : Fin n → Particle (i + 1)} (h : ∀ a, dyn (t a) = dyn (s a)) (hb : Balanced s) : Balanced t :=
  balanced_congr (fun a => by obtain ⟨-, h2, h3, -, h5, h6⟩ := dyn_of (h a); exact ⟨h2, h3, h5, h6⟩) hb

theorem kickV_conserves (dt : ℝ) {s t : Fin n → Particle (i + 1)} (hb : Balanced s) (h : t = fun a => kickV dt (s a)) : Conserves s t ∧ Balanced t := by
  subst h
  refine ⟨⟨fun a => ⟨rfl, rfl⟩, fun j => ?_, fun j k => ?_⟩, balanced_congr (s := s) (t := fun a => kickV dt (s a)) (fun a => ⟨rfl, rfl, rfl, rfl⟩) hb⟩
  · have : FleCSPH.momentum (fun a => kickV dt (s a)) j = FleCSPH.momentum s j + 1 / 2 * dt * ∑ a, (s a).mass * ((s a).acc j + (s a).gacc j) := by
      simp only [FleCSPH.momentum, kickV, Pi.add_apply, Pi.smul_apply, smul_eq_mul, Finset.mul_sum, ← Finset.sum_add_distrib]
      exact Finset.sum_congr rfl fun a _ => by ring
    rw [this, hb.force j]; ring
  · have : angularMomentum (fun a => kickV dt (s a)) j k = angularMomentum s j k +
        1 / 2 * dt * ∑ a, (s a).mass * ((s a).pos j * ((s a).acc k + (s a).gacc k) - (s a).pos k * ((s a).acc j + (s a).gacc j)) := by
      simp only [angularMomentum, kickV, Pi.add_apply, Pi.smul_apply, smul_eq_mul, Finset.mul_sum, ← Finset.sum_add_distrib]
      exact Finset.sum_congr rfl fun a _ => by ring
    rw [this, hb.torque j k]; ring

theorem drift_conserves (dt : ℝ) {s t : Fin n → Particle (i + 1)} (h : t = fun a => drift dt (s a)) : Conserves s t := by
  subst h
  refine ⟨fun a => ⟨rfl, rfl⟩, fun j => rfl, fun j k => Finset.sum_congr rfl fun a _ => ?_⟩
  simp only [drift, Pi.add_apply, Pi.smul_apply, smul_eq_mul]
  ring

theorem kickE_conserves (dt : ℝ) {s t : Fin n → Particle (i + 1)} (hb : ∑ a, (s a).mass * (s a).dedt = 0) (h : t = fun a => kickE dt (s a)) :
    energyTotal t = energyTotal s ∧ ∑ a, (t a).mass * (t a).dedt = 0 := by
  subst h
  refine ⟨?_, hb⟩
  have : energyTotal (fun a => kickE dt (s a)) = energyTotal s + 1 / 2 * dt * ∑ a, (s a).mass * (s a).dedt := by
    simp only [energyTotal, kickE, Finset.mul_sum, ← Finset.sum_add_distrib]
    exact Finset.sum_congr rfl fun a _ => by ring
  rw [this, hb]; ring

theorem heat_sums {s t : Fin n → Particle (i + 1)} (h : ∀ a, heat (t a) = heat (s a)) : energyTotal t = energyTotal s ∧ ∑ a, (t a).mass * (t a).dedt = ∑ a, (s a).mass * (s a).dedt := by
  have h' : ∀ a, (t a).mass = (s a).mass ∧ (t a).e = (s a).e ∧ (t a).dedt = (s a).dedt := fun a => by have := h a; simp only [heat, Prod.mk.injEq] at this; exact this
  exact ⟨total_congr fun a => ⟨(h' a).1, (h' a).2.1⟩, Finset.sum_congr rfl fun a _ => by rw [(h' a).1, (h' a).2.2]⟩

theorem dense_energy (z : Config i) (dt : ℝ) (it : Int) (m : Nat) : ∀ o ∈ energyOps z dt it m, Keeps (P := Particle (i + 1)) DistRun.Dense o :=
  keeps_energy (I := DistRun.Dense) (fun _ _ _ _ _ _ h => h) z dt it m

theorem exec_update {home : Fin n → Nat} (h : DExec NearLists procs [.update] home d (some x)) : x.2.val = d.val := by
  cases h with
  | update _ hb h => cases h; exact hb.val

/-- Density and viscosity. -/
theorem exec_density (z : Config i) (dt : ℝ) {mid : List (Op (Particle (i + 1)))} (hmid : ∀ o ∈ mid, Same dyn o ∧ Same heat o ∧ Keeps DistRun.Dense o) (hs : ∀ a, Sized (d.val a))
    (h : DExec NearLists procs (densityOp z dt :: (mid ++ alphaOps z dt)) home d (some x)) :
    (∀ a, DistRun.Dense (x.2.val a)) ∧ (∀ a, dyn (x.2.val a) = dyn (d.val a)) ∧ ∀ a, heat (x.2.val a) = heat (d.val a) := by
  have hD : ∀ o ∈ mid ++ alphaOps z dt, Keeps DistRun.Dense o := fun o ho => (List.mem_append.mp ho).elim (fun h => (hmid o h).2.2) (keeps_alpha (I := DistRun.Dense) (fun _ _ h => h) z dt o)
  refine ⟨?_, exec_view h ?_ x rfl, exec_view h ?_ x rfl⟩
  · obtain ⟨y, h1, h2⟩ := exec_cons h
    exact exec_keeps h2 hD (dense_after z dt hs h1) x rfl
  · intro o ho
    rcases List.mem_cons.mp ho with rfl | ho
    · exact same_density blind_dyn z dt
    · exact (List.mem_append.mp ho).elim (fun h => (hmid o h).1) (same_alpha blind_dyn z dt o)
  · intro o ho
    rcases List.mem_cons.mp ho with rfl | ho
    · exact same_density blind_heat z dt
    · exact (List.mem_append.mp ho).elim (fun h => (hmid o h).2.1) (same_alpha blind_heat z dt o)

theorem mid_half : ∀ o ∈ [(.all fun a => some (saveVelocityhalf a) : Op (Particle (i + 1)))], Same dyn o ∧ Same heat o ∧ Keeps DistRun.Dense o := by
  intro o ho
  obtain rfl := List.mem_singleton.mp ho
  exact ⟨same_all fun _ => rfl, same_all fun _ => rfl, keeps_all' fun _ h => h⟩

/-- The calls before the first density pass. -/
noncomputable def beginOps (z : Config i) : List (Op (Particle (i + 1))) :=
  [.update, .all fun a => some (Eos.init z.eos z.eosParams a)] ++
  (if z.thermokinetic then [.all fun a => some (setTotalEnergy z.phi a)] else []) ++
  (match z.sph.visc with
    | .constant => []
    | .cullen => [.all fun a => some (Cullen.initializeAlpha z.sph a)])

theorem firstForces_eq (z : Config i) (dt : ℝ) (it : Int) :
    firstForces z dt it = beginOps z ++ ((densityOp z dt :: ([.all fun a => some (saveVelocityhalf a)] ++ alphaOps z dt)) ++ forceOps z it) := by
  unfold firstForces beginOps
  simp only [List.append_assoc, List.cons_append, List.nil_append]
  cases z.sph.visc <;> rfl

theorem exec_begin (z : Config i) (h : DExec NearLists procs (beginOps z) home d (some x)) :
    (∀ a, (x.2.val a).id = (d.val a).id ∧ (x.2.val a).mass = (d.val a).mass ∧ (x.2.val a).h = (d.val a).h ∧ (x.2.val a).pos = (d.val a).pos ∧ (x.2.val a).vel = (d.val a).vel) ∧
    (z.thermokinetic = true → energyTotal x.2.val = initialEnergy z d.val) := by
  unfold beginOps at h
  obtain ⟨y3, h, h4⟩ := exec_split h
  obtain ⟨y2, h, h3⟩ := exec_split h
  obtain ⟨y1, h1, h2⟩ := exec_cons h
  have e1 := exec_update h1
  have e2 := exec_all h2
  have hinit : ∀ a : Particle (i + 1), (Eos.init z.eos z.eosParams a).id = a.id ∧ (Eos.init z.eos z.eosParams a).mass = a.mass ∧ (Eos.init z.eos z.eosParams a).h = a.h ∧
      (Eos.init z.eos z.eosParams a).pos = a.pos ∧ (Eos.init z.eos z.eosParams a).vel = a.vel := by
    intro a; cases z.eos <;> exact ⟨rfl, rfl, rfl, rfl, rfl⟩
  have e4 : ∀ a, ∃ w, x.2.val a = { y3.2.val a with alpha := w } := by
    cases hz : z.sph.visc <;> rw [hz] at h4
    · cases h4; exact fun a => ⟨_, rfl⟩
    · have e4 := exec_all h4
      intro a; rw [e4]
      simp only [Cullen.initializeAlpha, hz]
      exact ⟨_, rfl⟩
  have e3 : ∀ a, (y3.2.val a).id = (d.val a).id ∧ (y3.2.val a).mass = (d.val a).mass ∧ (y3.2.val a).h = (d.val a).h ∧ (y3.2.val a).pos = (d.val a).pos ∧ (y3.2.val a).vel = (d.val a).vel := by
    rw [e1] at e2
    split_ifs at h3
    · have e3 := exec_all h3
      intro a; rw [e3, e2]; exact hinit _
    · cases h3
      intro a; rw [e2]; exact hinit _
  refine ⟨fun a => by obtain ⟨w, e⟩ := e4 a; rw [e]; exact e3 a, fun htk => ?_⟩
  rw [if_pos htk] at h3
  have e3 := exec_all h3
  rw [e2, e1] at e3
  refine Finset.sum_congr rfl fun a _ => ?_
  obtain ⟨w, e⟩ := e4 a
  rw [e, e3]
  obtain ⟨-, h2, -, h4, h5⟩ := hinit (d.val a)
  simp only [setTotalEnergy, h2, h4, h5, dot]

/-- The first iteration up to its time step. -/
theorem first_forces (z : Config i) (dt : ℝ) (it : Int) (hit : z.sph.relaxationSteps ≤ it) (hs : ∀ a, Sized (d.val a)) (h : DExec NearLists procs (firstForces z dt it) home d (some x)) :
    (∀ a, DistRun.Dense (x.2.val a)) ∧ Conserves d.val x.2.val ∧ ((∀ a, z.sph.external a = 0) → Balanced x.2.val) ∧ (∀ a, (x.2.val a).gacc = 0) ∧ Consistent flow x.2 ∧
    (z.thermokinetic = true → energyTotal x.2.val = initialEnergy z d.val) := by
  rw [firstForces_eq] at h
  obtain ⟨y1, h1, h⟩ := exec_split h
  obtain ⟨y2, h2, h3⟩ := exec_split h
  obtain ⟨b1, b2⟩ := exec_begin z h1
  obtain ⟨c1, c2, c3⟩ := exec_density z dt mid_half (fun a => by unfold Sized; rw [(b1 a).2.1, (b1 a).2.2.1]; exact hs a) h2
  obtain ⟨nbs, -, -, f3, f4, f5⟩ := exec_forces z it hit h3
  refine ⟨fun a => ?_, ?_, fun hext => forces_balance z it hit hext c1 h3, f4, f3, fun htk => ?_⟩
  · obtain ⟨_, _, _, e⟩ := f5 a; rw [e]; exact c1 a
  · have k1 : Conserves d.val y1.2.val := .of_eq fun a => ⟨(b1 a).1, (b1 a).2.1, (b1 a).2.2.2⟩
    exact (k1.trans (.of_dyn c2)).trans (.of_eq fun a => by obtain ⟨_, _, _, e⟩ := f5 a; rw [e]; exact ⟨rfl, rfl, rfl, rfl⟩)
  · rw [← b2 htk, ← (heat_sums c3).1]
    exact total_congr fun a => by obtain ⟨_, _, _, e⟩ := f5 a; rw [e]; exact ⟨rfl, rfl⟩

/-- The particle time steps, with an adaptive step. -/
theorem exec_steps (z : Config i) {t : List (Op (Particle (i + 1)))} (ht : t = [] ∨ t = [stepOp z]) (h : DExec NearLists procs t home d (some x)) :
    (∀ a, ∃ w, x.2.val a = { d.val a with dt := w }) ∧ (Consistent flow d → Consistent flow x.2) := by
  rcases ht with rfl | rfl
  · cases h; exact ⟨fun a => ⟨_, rfl⟩, id⟩
  · refine ⟨fun a => ((exec_step h).2.2.2 a).2, fun hc => exec_consistent h (fun o ho => ?_) hc x rfl⟩
    obtain rfl := List.mem_singleton.mp ho
    intro a x hx; obtain ⟨t, rfl⟩ := computeDt_keep _ _ _ hx; rfl

/-- The energy equation and the end of an iteration keep positions, velocities and forces. -/
theorem rest_dyn (z : Config i) (he : 0 < z.eta) (hw : 0 < z.width) (dt : ℝ) (it : Int) {k : List (Op (Particle (i + 1)))} (hk : k = [] ∨ k = kickOps z dt) {t : List (Op (Particle (i + 1)))}
    (ht : t = [] ∨ t = [stepOp z]) (hs : ∀ a, DistRun.Dense (d.val a))
    (h : DExec NearLists procs ((if z.evolve then energyOps z dt it z.updates else []) ++ (k ++ (lastOps z ++ t))) home d (some x)) :
    (∀ a, Sized (x.2.val a)) ∧ ∀ a, dyn (x.2.val a) = dyn (d.val a) := by
  obtain ⟨y1, h1, h⟩ := exec_split h
  obtain ⟨y2, h2, h⟩ := exec_split h
  obtain ⟨y3, h3, h4⟩ := exec_split h
  have s1 : (∀ a, DistRun.Dense (y1.2.val a)) ∧ ∀ a, dyn (y1.2.val a) = dyn (d.val a) := by
    split_ifs at h1
    · exact ⟨exec_keeps h1 (dense_energy z dt it _) hs _ rfl, exec_view h1 (same_energy (fun _ _ _ _ _ _ => rfl) z dt it _) _ rfl⟩
    · cases h1; exact ⟨hs, fun _ => rfl⟩
  have s2 : (∀ a, DistRun.Dense (y2.2.val a)) ∧ ∀ a, dyn (y2.2.val a) = dyn (y1.2.val a) := by
    rcases hk with rfl | rfl
    · cases h2; exact ⟨s1.1, fun _ => rfl⟩
    · exact ⟨exec_keeps h2 (keeps_kick' (I := DistRun.Dense) (fun _ _ h => h) (fun _ _ h => h) z dt) s1.1 _ rfl, exec_view h2 (same_kick (fun _ _ => rfl) (fun _ _ => rfl) z dt) _ rfl⟩
  have s3 := sized_last z he hw s2.1 h3
  have s3' := exec_view h3 (same_last blind_dyn z) _ rfl
  obtain ⟨s4, -⟩ := exec_steps z ht h4
  refine ⟨fun a => ?_, fun a => ?_⟩
  · obtain ⟨w, e⟩ := s4 a; rw [e]; exact s3 a
  · obtain ⟨w, e⟩ := s4 a
    have : dyn (x.2.val a) = dyn (y3.2.val a) := by rw [e]; rfl
    rw [this, s3' a, s2.2 a, s1.2 a]

/-- The energy equation and the end of an iteration keep the total energy of the thermokinetic formulation. -/
theorem rest_heat (z : Config i) (dt : ℝ) (it : Int) (htk : z.thermokinetic = true) (hev : z.evolve = true) (hup : 1 ≤ z.updates) (hit : z.sph.relaxationSteps ≤ it)
    {k : List (Op (Particle (i + 1)))} (hk : k = [] ∨ k = kickOps z dt) {t : List (Op (Particle (i + 1)))} (ht : t = [] ∨ t = [stepOp z]) (hs : ∀ a, DistRun.Dense (d.val a)) (hg : ∀ a, (d.val a).gacc = 0)
    (hc : Consistent flow d) (h : DExec NearLists procs ((if z.evolve then energyOps z dt it z.updates else []) ++ (k ++ (lastOps z ++ t))) home d (some x)) :
    energyTotal x.2.val = energyTotal d.val ∧ ∑ a, (x.2.val a).mass * (x.2.val a).dedt = 0 := by
  rw [if_pos hev] at h
  obtain ⟨y1, h1, h⟩ := exec_split h
  obtain ⟨y2, h2, h⟩ := exec_split h
  obtain ⟨y3, h3, h4⟩ := exec_split h
  obtain ⟨r1, r2⟩ := exec_energy z dt it htk hit z.updates hup hs hg hc h1
  have s2 : energyTotal y2.2.val = energyTotal y1.2.val ∧ ∑ a, (y2.2.val a).mass * (y2.2.val a).dedt = 0 := by
    rcases hk with rfl | rfl
    · cases h2; exact ⟨rfl, r1⟩
    · unfold kickOps at h2
      rw [if_pos hev, if_pos htk] at h2
      exact kickE_conserves dt r1 (exec_all h2)
  obtain ⟨u1, u2⟩ := heat_sums (exec_view h3 (same_last blind_heat z) _ rfl)
  obtain ⟨s4, -⟩ := exec_steps z ht h4
  obtain ⟨v1, v2⟩ := heat_sums (s := y3.2.val) (t := x.2.val) fun a => by obtain ⟨w, e⟩ := s4 a; rw [e]; rfl
  exact ⟨by rw [v1, u1, s2.1]; exact total_congr r2, by rw [v2, u2, s2.2]⟩

theorem nextOps_eq (z : Config i) (dt : ℝ) (it : Int) (t : List (Op (Particle (i + 1)))) :
    nextOps z dt it ++ lastOps z ++ t = (kickOps z dt ++ [.all fun a => some (kickV dt a), .all fun a => some (saveVelocityhalf a), .all fun a => some (drift dt a), .update]) ++
      ((densityOp z dt :: ([] ++ alphaOps z dt)) ++ (forceOps z it ++ ([.all fun a => some (kickV dt a)] ++ ([.reset] ++
        ((if z.evolve then energyOps z dt it z.updates else []) ++ (kickOps z dt ++ (lastOps z ++ t))))))) := by
  unfold nextOps
  simp only [List.append_assoc, List.cons_append, List.nil_append]

/-- The other iterations. -/
theorem next_parts (z : Config i) (dt : ℝ) (it : Int) (hit : z.sph.relaxationSteps ≤ it) {t : List (Op (Particle (i + 1)))} (hs : ∀ a, Sized (d.val a))
    (h : DExec NearLists procs (nextOps z dt it ++ lastOps z ++ t) home d (some x)) :
    ∃ y : (Fin n → Nat) × DState (Particle (i + 1)) n, (∀ a, DistRun.Dense (y.2.val a)) ∧ (∀ a, (y.2.val a).gacc = 0) ∧ Consistent flow y.2 ∧
      ((∀ a, z.sph.external a = 0) → Balanced d.val → Balanced y.2.val ∧ Conserves d.val y.2.val) ∧
      (z.thermokinetic = true → z.evolve = true → ∑ a, (d.val a).mass * (d.val a).dedt = 0 → energyTotal y.2.val = energyTotal d.val) ∧
      DExec NearLists procs ((if z.evolve then energyOps z dt it z.updates else []) ++ (kickOps z dt ++ (lastOps z ++ t))) y.1 y.2 (some x) := by
  rw [nextOps_eq] at h
  obtain ⟨y4, h04, h⟩ := exec_split h
  obtain ⟨y5, h5, h⟩ := exec_split h
  obtain ⟨y6, h6, h⟩ := exec_split h
  obtain ⟨y7, h7, h⟩ := exec_split h
  obtain ⟨y8, h8, h9⟩ := exec_split h
  obtain ⟨y0, h0, h14⟩ := exec_split h04
  obtain ⟨y1, h1, h14⟩ := exec_cons h14
  obtain ⟨y2, h2, h14⟩ := exec_cons h14
  obtain ⟨y3, h3, h4⟩ := exec_cons h14
  have e0 := exec_view h0 (same_kick (v := dyn) (fun _ _ => rfl) (fun _ _ => rfl) z dt) _ rfl
  have z0 := exec_keeps h0 (keeps_kick' (I := Sized) (fun _ _ h => h) (fun _ _ h => h) z dt) hs _ rfl
  have e1 := exec_all h1
  have e2 := exec_all h2
  have e3 := exec_all h3
  have e4 := exec_update h4
  have z4 : ∀ a, Sized (y4.2.val a) := fun a => by rw [e4, e3, e2, e1]; exact z0 a
  obtain ⟨c1, c2, c3⟩ := exec_density z dt (fun o ho => (List.not_mem_nil ho).elim) z4 h5
  obtain ⟨nbs, -, -, f3, f4, f5⟩ := exec_forces z it hit h6
  have e7 := exec_all h7
  obtain ⟨e8, q8⟩ := exec_reset h8 flow
  have k6 : ∀ a, DistRun.Dense (y6.2.val a) ∧ heat (y6.2.val a) = heat (y5.2.val a) := fun a => by obtain ⟨_, _, _, e⟩ := f5 a; rw [e]; exact ⟨c1 a, rfl⟩
  refine ⟨y8, fun a => by rw [e8, e7]; exact (k6 a).1, fun a => by rw [e8, e7]; exact f4 a, q8, fun hext hb => ?_, fun htk hev hb => ?_, h9⟩
  · obtain ⟨m1, -⟩ := kickV_conserves dt (balanced_dyn e0 hb) e1
    have m2 : Conserves y1.2.val y2.2.val := .of_dyn fun a => by rw [e2]; rfl
    have m3 := drift_conserves dt e3
    have m4 : Conserves y3.2.val y4.2.val := .of_dyn fun a => by rw [e4]
    have m6 : Conserves y5.2.val y6.2.val := .of_eq fun a => by obtain ⟨_, _, _, e⟩ := f5 a; rw [e]; exact ⟨rfl, rfl, rfl, rfl⟩
    obtain ⟨m7, b7⟩ := kickV_conserves dt (forces_balance z it hit hext c1 h6) e7
    rw [e8]
    exact ⟨b7, (((((((Conserves.of_dyn e0).trans m1).trans m2).trans m3).trans m4).trans (.of_dyn c2)).trans m6).trans m7⟩
  · unfold kickOps at h0
    rw [if_pos hev, if_pos htk] at h0
    obtain ⟨k0, -⟩ := kickE_conserves dt hb (exec_all h0)
    have k4 : energyTotal y4.2.val = energyTotal y0.2.val := total_congr fun a => by rw [e4, e3, e2, e1]; exact ⟨rfl, rfl⟩
    have k8 : energyTotal y8.2.val = energyTotal y6.2.val := total_congr fun a => by rw [e8, e7]; exact ⟨rfl, rfl⟩
    rw [k8, (heat_sums fun a => (k6 a).2).1, (heat_sums c3).1, k4, k0]

/-- The first iteration: its step may be set between its two parts. -/
theorem first_iter {z : Config i} (he : 0 < z.eta) (hw : 0 < z.width) {dt dt' : ℝ} {it : Int} (hit : z.sph.relaxationSteps ≤ it) {t t' : List (Op (Particle (i + 1)))} (ht : t = [] ∨ t = [stepOp z])
    (ht' : t' = [] ∨ t' = [stepOp z]) (hs : ∀ a, Sized (d.val a)) {y : (Fin n → Nat) × DState (Particle (i + 1)) n} (h1 : DExec NearLists procs (firstForces z dt it ++ t) home d (some y))
    (h2 : DExec NearLists procs (firstRest z dt' it ++ t') y.1 y.2 (some x)) :
    (∀ a, Sized (x.2.val a)) ∧ ((∀ a, z.sph.external a = 0) → Balanced x.2.val ∧ Conserves d.val x.2.val) ∧
    (z.thermokinetic = true → z.evolve = true → 1 ≤ z.updates → ∑ a, (x.2.val a).mass * (x.2.val a).dedt = 0 ∧ energyTotal x.2.val = initialEnergy z d.val) := by
  obtain ⟨y0, h0, h1⟩ := exec_split h1
  obtain ⟨f1, f2, f3, f4, f5, f6⟩ := first_forces z dt it hit hs h0
  obtain ⟨s1, s2⟩ := exec_steps z ht h1
  have sd : ∀ a, dyn (y.2.val a) = dyn (y0.2.val a) := fun a => by obtain ⟨w, e⟩ := s1 a; rw [e]; rfl
  have sh : ∀ a, heat (y.2.val a) = heat (y0.2.val a) := fun a => by obtain ⟨w, e⟩ := s1 a; rw [e]; rfl
  have sD : ∀ a, DistRun.Dense (y.2.val a) := fun a => by obtain ⟨w, e⟩ := s1 a; rw [e]; exact f1 a
  have sg : ∀ a, (y.2.val a).gacc = 0 := fun a => by obtain ⟨w, e⟩ := s1 a; rw [e]; exact f4 a
  have hrest : firstRest z dt' it ++ t' = (if z.evolve then energyOps z dt' it z.updates else []) ++ ([] ++ (lastOps z ++ t')) := by
    unfold firstRest; rw [List.append_assoc, List.nil_append]
  rw [hrest] at h2
  obtain ⟨r1, r2⟩ := rest_dyn z he hw dt' it (Or.inl rfl) ht' sD h2
  refine ⟨r1, fun hext => ⟨balanced_dyn r2 (balanced_dyn sd (f3 hext)), (f2.trans (.of_dyn sd)).trans (.of_dyn r2)⟩, fun htk hev hup => ?_⟩
  obtain ⟨q1, q2⟩ := rest_heat z dt' it htk hev hup hit (Or.inl rfl) ht' sD sg (s2 f5) h2
  exact ⟨q2, by rw [q1, (heat_sums sh).1, f6 htk]⟩

/-- The other iterations. -/
theorem next_iter {z : Config i} (he : 0 < z.eta) (hw : 0 < z.width) {dt : ℝ} {it : Int} (hit : z.sph.relaxationSteps ≤ it) {t : List (Op (Particle (i + 1)))} (ht : t = [] ∨ t = [stepOp z])
    (hs : ∀ a, Sized (d.val a)) (h : DExec NearLists procs (nextOps z dt it ++ lastOps z ++ t) home d (some x)) :
    (∀ a, Sized (x.2.val a)) ∧ ((∀ a, z.sph.external a = 0) → Balanced d.val → Balanced x.2.val ∧ Conserves d.val x.2.val) ∧
    (z.thermokinetic = true → z.evolve = true → 1 ≤ z.updates → ∑ a, (d.val a).mass * (d.val a).dedt = 0 →
      ∑ a, (x.2.val a).mass * (x.2.val a).dedt = 0 ∧ energyTotal x.2.val = energyTotal d.val) := by
  obtain ⟨y, y1, y2, y3, y4, y5, h⟩ := next_parts z dt it hit hs h
  obtain ⟨r1, r2⟩ := rest_dyn z he hw dt it (Or.inr rfl) ht y1 h
  refine ⟨r1, fun hext hb => ⟨balanced_dyn r2 (y4 hext hb).1, (y4 hext hb).2.trans (.of_dyn r2)⟩, fun htk hev hup hb => ?_⟩
  obtain ⟨q1, q2⟩ := rest_heat z dt it htk hev hup hit (Or.inr rfl) ht y1 y2 y3 h
  exact ⟨q2, by rw [q1, y5 htk hev hb]⟩

end FleCSPH.DistConserve
