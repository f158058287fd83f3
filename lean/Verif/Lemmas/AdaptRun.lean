import Verif.Lemmas.AdaptPhys
import Verif.Lemmas.Timestep
/-! Adaptive runs on several processes: parts of programs, invariants, and one iteration against the calls on one process. -/
namespace FleCSPH.AdaptRun
open FleCSPH.Geometry FleCSPH.Sph FleCSPH.Driver FleCSPH.DistRun FleCSPH.Spec FleCSPH.Kernels FleCSPH.Integration

section
variable {P : Type} {n : Nat} {near : (Fin n → P) → (Fin n → List (Fin n)) → Prop} {procs : Nat}

/-- The parts of a program which does not fail. -/
theorem exec_split {ops ops' : List (Op P)} {home : Fin n → Nat} {d : DState P n} {x : (Fin n → Nat) × DState P n} (h : DExec near procs (ops ++ ops') home d (some x)) :
    ∃ y, DExec near procs ops home d (some y) ∧ DExec near procs ops' y.1 y.2 (some x) := by
  generalize e : ops ++ ops' = o at h
  generalize er : some x = r at h
  induction h generalizing ops with
  | @nil home d =>
    obtain ⟨rfl, rfl⟩ := List.append_eq_nil_iff.mp e
    exact ⟨(home, d), .nil, .nil⟩
  | @all f l home d r v hv h ih =>
    rcases ops with _ | ⟨o, ops⟩
    · obtain rfl : ops' = _ := e
      exact ⟨(home, d), .nil, .all v hv h⟩
    · obtain ⟨rfl, rfl⟩ := List.cons.inj e
      obtain ⟨y, h1, h2⟩ := ih rfl er
      exact ⟨y, .all v hv h1, h2⟩
  | allFail => cases er
  | @pass k f l home d d' r nbs order h1 h2 h3 h4 h ih =>
    rcases ops with _ | ⟨o, ops⟩
    · obtain rfl : ops' = _ := e
      exact ⟨(home, d), .nil, .pass nbs order h1 h2 h3 h4 h⟩
    · obtain ⟨rfl, rfl⟩ := List.cons.inj e
      obtain ⟨y, g1, g2⟩ := ih rfl er
      exact ⟨y, .pass nbs order h1 h2 h3 h4 g1, g2⟩
  | passFail => cases er
  | @reset l home d d' r hb h ih =>
    rcases ops with _ | ⟨o, ops⟩
    · obtain rfl : ops' = _ := e
      exact ⟨(home, d), .nil, .reset hb h⟩
    · obtain ⟨rfl, rfl⟩ := List.cons.inj e
      obtain ⟨y, g1, g2⟩ := ih rfl er
      exact ⟨y, .reset hb g1, g2⟩
  | @update l home home' d d' r hh hb h ih =>
    rcases ops with _ | ⟨o, ops⟩
    · obtain rfl : ops' = _ := e
      exact ⟨(home, d), .nil, .update hh hb h⟩
    · obtain ⟨rfl, rfl⟩ := List.cons.inj e
      obtain ⟨y, g1, g2⟩ := ih rfl er
      exact ⟨y, .update hh hb g1, g2⟩
  | @mean g set l home d r hh h ih =>
    rcases ops with _ | ⟨o, ops⟩
    · obtain rfl : ops' = _ := e
      exact ⟨(home, d), .nil, .mean hh h⟩
    · obtain ⟨rfl, rfl⟩ := List.cons.inj e
      obtain ⟨y, g1, g2⟩ := ih rfl er
      exact ⟨y, .mean hh g1, g2⟩

/-- The parts of a program which fails. -/
theorem exec_split_fail {ops ops' : List (Op P)} {home : Fin n → Nat} {d : DState P n} (h : DExec near procs (ops ++ ops') home d none) :
    DExec near procs ops home d none ∨ ∃ y, DExec near procs ops home d (some y) ∧ DExec near procs ops' y.1 y.2 none := by
  generalize e : ops ++ ops' = o at h
  generalize er : none = r at h
  induction h generalizing ops with
  | nil => cases er
  | @all f l home d r v hv h ih =>
    rcases ops with _ | ⟨o, ops⟩
    · obtain rfl : ops' = _ := e
      subst er
      exact .inr ⟨(home, d), .nil, .all v hv h⟩
    · obtain ⟨rfl, rfl⟩ := List.cons.inj e
      rcases ih rfl er with h1 | ⟨y, h1, h2⟩
      exacts [.inl (.all v hv h1), .inr ⟨y, .all v hv h1, h2⟩]
  | @allFail f l home d a ha =>
    rcases ops with _ | ⟨o, ops⟩
    · obtain rfl : ops' = _ := e
      exact .inr ⟨(home, d), .nil, .allFail a ha⟩
    · obtain ⟨rfl, rfl⟩ := List.cons.inj e
      exact .inl (.allFail a ha)
  | @pass k f l home d d' r nbs order h1 h2 h3 h4 h ih =>
    rcases ops with _ | ⟨o, ops⟩
    · obtain rfl : ops' = _ := e
      subst er
      exact .inr ⟨(home, d), .nil, .pass nbs order h1 h2 h3 h4 h⟩
    · obtain ⟨rfl, rfl⟩ := List.cons.inj e
      rcases ih rfl er with g1 | ⟨y, g1, g2⟩
      exacts [.inl (.pass nbs order h1 h2 h3 h4 g1), .inr ⟨y, .pass nbs order h1 h2 h3 h4 g1, g2⟩]
  | @passFail k f l home d nbs order h1 h2 h3 h4 =>
    rcases ops with _ | ⟨o, ops⟩
    · obtain rfl : ops' = _ := e
      exact .inr ⟨(home, d), .nil, .passFail nbs order h1 h2 h3 h4⟩
    · obtain ⟨rfl, rfl⟩ := List.cons.inj e
      exact .inl (.passFail nbs order h1 h2 h3 h4)
  | @reset l home d d' r hb h ih =>
    rcases ops with _ | ⟨o, ops⟩
    · obtain rfl : ops' = _ := e
      subst er
      exact .inr ⟨(home, d), .nil, .reset hb h⟩
    · obtain ⟨rfl, rfl⟩ := List.cons.inj e
      rcases ih rfl er with g1 | ⟨y, g1, g2⟩
      exacts [.inl (.reset hb g1), .inr ⟨y, .reset hb g1, g2⟩]
  | @update l home home' d d' r hh hb h ih =>
    rcases ops with _ | ⟨o, ops⟩
    · obtain rfl : ops' = _ := e
      subst er
      exact .inr ⟨(home, d), .nil, .update hh hb h⟩
    · obtain ⟨rfl, rfl⟩ := List.cons.inj e
      rcases ih rfl er with g1 | ⟨y, g1, g2⟩
      exacts [.inl (.update hh hb g1), .inr ⟨y, .update hh hb g1, g2⟩]
  | @mean g set l home d r hh h ih =>
    rcases ops with _ | ⟨o, ops⟩
    · obtain rfl : ops' = _ := e
      subst er
      exact .inr ⟨(home, d), .nil, .mean hh h⟩
    · obtain ⟨rfl, rfl⟩ := List.cons.inj e
      rcases ih rfl er with g1 | ⟨y, g1, g2⟩
      exacts [.inl (.mean hh g1), .inr ⟨y, .mean hh g1, g2⟩]

/-- Two parts make a program. -/
theorem exec_join {ops ops' : List (Op P)} {home : Fin n → Nat} {d : DState P n} {r : Option ((Fin n → Nat) × DState P n)} {y : (Fin n → Nat) × DState P n}
    (h : DExec near procs ops home d (some y)) (h' : DExec near procs ops' y.1 y.2 r) : DExec near procs (ops ++ ops') home d r := by
  generalize e : some y = ry at h
  induction h with
  | nil => obtain rfl := Option.some.inj e; exact h'
  | all v hv _ ih => exact .all v hv (ih e)
  | allFail => cases e
  | pass nbs order h1 h2 h3 h4 _ ih => exact .pass nbs order h1 h2 h3 h4 (ih e)
  | passFail => cases e
  | reset hb _ ih => exact .reset hb (ih e)
  | update hh hb _ ih => exact .update hh hb (ih e)
  | mean hh _ ih => exact .mean hh (ih e)

/-- A program whose first part fails. -/
theorem exec_join_fail {ops : List (Op P)} (ops' : List (Op P)) {home : Fin n → Nat} {d : DState P n} (h : DExec near procs ops home d none) : DExec near procs (ops ++ ops') home d none := by
  generalize e : none = ry at h
  induction h with
  | nil => cases e
  | all v hv _ ih => exact .all v hv (ih e)
  | allFail a h => exact .allFail a h
  | pass nbs order h1 h2 h3 h4 _ ih => exact .pass nbs order h1 h2 h3 h4 (ih e)
  | passFail nbs order h1 h2 h3 h4 => exact .passFail nbs order h1 h2 h3 h4
  | reset hb _ ih => exact .reset hb (ih e)
  | update hh hb _ ih => exact .update hh hb (ih e)
  | mean hh _ ih => exact .mean hh (ih e)

/-- A call which keeps a property of every particle. -/
def Keeps (I : P → Prop) : Op P → Prop
  | .all f => ∀ a x, I a → f a = some x → I x
  | .pass _ f => ∀ a l x, I a → f a l = some x → I x
  | .reset => True
  | .update => True
  | .mean _ set => ∀ x a, I a → I (set x a)

theorem exec_keeps {I : P → Prop} {ops : List (Op P)} {home : Fin n → Nat} {d : DState P n} {r : Option ((Fin n → Nat) × DState P n)} (h : DExec near procs ops home d r) :
    (∀ o ∈ ops, Keeps I o) → (∀ a, I (d.val a)) → ∀ x, r = some x → ∀ a, I (x.2.val a) := by
  induction h with
  | nil => intro _ hI x h; obtain rfl := Option.some.inj h; exact hI
  | all v hv _ ih =>
    intro ho hI x h
    have h1 : ∀ a x, I a → _ = some x → I x := ho _ List.mem_cons_self
    exact ih (fun o h => ho o (List.mem_cons_of_mem _ h)) (fun a => h1 _ _ (hI a) (hv a)) x h
  | allFail => intro _ _ x h; cases h
  | @pass k f l home d d' r nbs order h1 h2 h3 h4 _ ih =>
    intro ho hI x h
    have h0 : ∀ a l x, I a → f a l = some x → I x := ho _ List.mem_cons_self
    exact ih (fun o h => ho o (List.mem_cons_of_mem _ h)) (dpass_inv h0 h4 h2 (fun a _ => hI a) (fun a ha => absurd (h3 a) ha) d' rfl) x h
  | passFail => intro _ _ x h; cases h
  | reset hb _ ih => intro ho hI x h; exact ih (fun o h => ho o (List.mem_cons_of_mem _ h)) (fun a => by rw [hb.val]; exact hI a) x h
  | update _ hb _ ih => intro ho hI x h; exact ih (fun o h => ho o (List.mem_cons_of_mem _ h)) (fun a => by rw [hb.val]; exact hI a) x h
  | @mean g set l home d r hh _ ih =>
    intro ho hI x h
    have h0 : ∀ x a, I a → I (set x a) := ho _ List.mem_cons_self
    exact ih (fun o h => ho o (List.mem_cons_of_mem _ h)) (fun a => h0 _ _ (hI a)) x h

/-- The homes after a program: they belong to the processes. -/
theorem exec_homes {ops : List (Op P)} {home : Fin n → Nat} {d : DState P n} {r : Option ((Fin n → Nat) × DState P n)} (h : DExec near procs ops home d r) :
    (∀ a, home a < procs) → ∀ x, r = some x → ∀ a, x.1 a < procs := by
  induction h with
  | nil => intro hh x h; obtain rfl := Option.some.inj h; exact hh
  | all _ _ _ ih => exact ih
  | allFail => intro _ x h; cases h
  | pass _ _ _ _ _ _ _ ih => exact ih
  | passFail => intro _ x h; cases h
  | reset _ _ ih => exact ih
  | update hh _ _ ih => exact fun _ => ih hh
  | mean _ _ ih => exact ih

/-- A call which keeps a view of every particle. -/
def Same {V : Type} (v : P → V) : Op P → Prop
  | .all f => ∀ a x, f a = some x → v x = v a
  | .pass _ f => ∀ a l x, f a l = some x → v x = v a
  | .reset => True
  | .update => True
  | .mean _ set => ∀ x a, v (set x a) = v a

theorem dpass_consistent {V : Type} {v : P → V} {f : P → List P → Option P} (hk : ∀ a l x, f a l = some x → v x = v a) {home : Fin n → Nat} {nbs : Fin n → List (Fin n)}
    {todo : List (Fin n)} {d : DState P n} {r : Option (DState P n)} (h : DPass home f nbs todo d r) : Consistent v d → ∀ d', r = some d' → Consistent v d' := by
  induction h with
  | done _ => intro hc d' h; obtain rfl := Option.some.inj h; exact hc
  | send p b _ _ ih => exact fun hc => ih (hc.send p b)
  | recv before after p b x hx _ ih => exact fun hc => ih (hc.recv hx)
  | visit before after a l x _ hx _ ih => exact fun hc => ih (hc.put (hk _ _ _ hx))
  | fail => intro _ d' h; cases h

/-- The copies stay up to date as far as the calls do not write. -/
theorem exec_consistent {V : Type} {v : P → V} {ops : List (Op P)} {home : Fin n → Nat} {d : DState P n} {r : Option ((Fin n → Nat) × DState P n)} (h : DExec near procs ops home d r) :
    (∀ o ∈ ops, Same v o) → Consistent v d → ∀ x, r = some x → Consistent v x.2 := by
  induction h with
  | nil => intro _ hc x h; obtain rfl := Option.some.inj h; exact hc
  | @all f l home d r u hu _ ih =>
    intro ho hc x h
    have h0 : ∀ a x, f a = some x → v x = v a := ho _ List.mem_cons_self
    exact ih (fun o h => ho o (List.mem_cons_of_mem _ h))
      ⟨fun p b x hx => (hc.copy p b x hx).trans (h0 _ _ (hu b)).symm, fun p b x hx => (hc.flight p b x hx).trans (h0 _ _ (hu b)).symm⟩ x h
  | allFail => intro _ _ x h; cases h
  | @pass k f l home d d' r nbs order h1 h2 h3 h4 _ ih =>
    intro ho hc x h
    have h0 : ∀ a l x, f a l = some x → v x = v a := ho _ List.mem_cons_self
    exact ih (fun o h => ho o (List.mem_cons_of_mem _ h)) (dpass_consistent h0 h4 hc d' rfl) x h
  | passFail => intro _ _ x h; cases h
  | reset hb _ ih => intro ho _ x h; exact ih (fun o h => ho o (List.mem_cons_of_mem _ h)) (hb.consistent v) x h
  | update _ hb _ ih => intro ho _ x h; exact ih (fun o h => ho o (List.mem_cons_of_mem _ h)) (hb.consistent v) x h
  | @mean g set l home d r hh _ ih =>
    intro ho hc x h
    have h0 : ∀ x a, v (set x a) = v a := ho _ List.mem_cons_self
    exact ih (fun o h => ho o (List.mem_cons_of_mem _ h))
      ⟨fun p b x hx => (hc.copy p b x hx).trans (h0 _ _).symm, fun p b x hx => (hc.flight p b x hx).trans (h0 _ _).symm⟩ x h

end

variable {i : Fin 3} {n : Nat}

/-- What `compute_dt` writes. -/
theorem exec_step {near : (Fin n → Particle (i + 1)) → (Fin n → List (Fin n)) → Prop} {procs : Nat} {z : Config i} {home : Fin n → Nat} {d : DState (Particle (i + 1)) n}
    {x : (Fin n → Nat) × DState (Particle (i + 1)) n} (h : DExec near procs [stepOp z] home d (some x)) :
    x.1 = home ∧ x.2.copy = d.copy ∧ x.2.flight = d.flight ∧ ∀ a, Timestep.computeDt (stepSettings z) (d.val a) = some (x.2.val a) ∧ ∃ t, x.2.val a = { d.val a with dt := t } := by
  cases h with
  | all v hv h =>
    cases h
    refine ⟨rfl, rfl, rfl, fun a => ⟨hv a, ?_⟩⟩
    have := hv a
    unfold Timestep.computeDt at this
    split_ifs at this
    · obtain ⟨t, -, h⟩ := Option.map_eq_some_iff.mp this
      exact ⟨t, h.symm⟩
    · exact ⟨_, (Option.some.inj this).symm⟩

/-- The smallest limit does not depend on the division of the particles. -/
theorem smallest_limits {procs : Nat} {home : Fin n → Nat} (hh : ∀ a, home a < procs) (s : Fin n → Particle (i + 1)) :
    Timestep.smallest (limits procs home s) = Timestep.smallest [List.ofFn fun a => (s a).dt] := by
  have hm : ∀ x, (∃ l ∈ limits procs home s, x ∈ l) ↔ ∃ l ∈ [List.ofFn fun a => (s a).dt], x ∈ l := by
    intro x
    simp only [limits, List.mem_map, List.mem_range, List.mem_singleton, exists_eq_left, List.mem_ofFn]
    constructor
    · rintro ⟨l, ⟨p, -, rfl⟩, hx⟩
      obtain ⟨a, -, rfl⟩ := List.mem_map.mp hx
      exact ⟨a, rfl⟩
    · rintro ⟨a, rfl⟩
      exact ⟨_, ⟨home a, hh a, rfl⟩, List.mem_map.mpr ⟨a, List.mem_filter.mpr ⟨List.mem_finRange a, by simp⟩, rfl⟩⟩
  have hle : ∀ ls ls' : List (List ℝ), (∀ x, (∃ l ∈ ls', x ∈ l) → ∃ l ∈ ls, x ∈ l) → Timestep.smallest ls ≤ Timestep.smallest ls' := by
    intro ls ls' h
    rcases Timestep.smallest_mem ls' with h1 | h1
    · rw [h1]
      exact (Timestep.foldl_min_le _ _).1
    · obtain ⟨l, hl, hx⟩ := h _ h1
      exact Timestep.smallest_le ls hl hx
  exact le_antisymm (hle _ _ fun x hx => (hm x).mpr hx) (hle _ _ fun x hx => (hm x).mp hx)

theorem setAdaptive_smallest (o : Timestep.Outputs) {ls ls' : List (List ℝ)} (h : Timestep.smallest ls = Timestep.smallest ls') (c : Timestep.Clock) :
    Timestep.setAdaptive o ls c = Timestep.setAdaptive o ls' c := by
  unfold Timestep.setAdaptive; rw [h]

theorem setAdaptive_iteration (o : Timestep.Outputs) (ls : List (List ℝ)) (c : Timestep.Clock) : (Timestep.setAdaptive o ls c).iteration = c.iteration := by
  have h1 : ∀ k c, (Timestep.block o k c).iteration = c.iteration := by
    intro k c
    unfold Timestep.block Timestep.align Timestep.catchUp
    split_ifs <;> rfl
  simp only [Timestep.setAdaptive, h1]

/-! ### The calls on one process -/


theorem exec1_forces (w : Schedule i n) (z : Config i) (dt : ℝ) (it : Int) (s : Fin n → Particle (i + 1)) :
    exec1 w (firstForces z dt it) s = (thermo z dt true w (initialise z s)).map (forces z it w) := by
  have hinit : exec1 w ([.update, .all fun a => some (Eos.init z.eos z.eosParams a)] ++ (if z.thermokinetic then [.all fun a => some (setTotalEnergy z.phi a)] else []) ++
      (match z.sph.visc with
        | .constant => []
        | .cullen => [.all fun a => some (Cullen.initializeAlpha z.sph a)])) s = some (initialise z s) := by
    unfold initialise
    cases z.sph.visc <;> simp only <;> split_ifs
    all_goals simp only [List.cons_append, List.nil_append, List.append_nil]
    all_goals (show exec1 w (.all _ :: _) _ = _; simp only [exec1_all]; rfl)
  unfold firstForces
  rw [List.append_assoc, List.append_assoc, exec1_append]
  erw [hinit]
  rw [Option.bind_some, List.cons_append, exec1_density]
  unfold thermo
  rw [Option.map_bind]
  congr 1
  funext s
  simp only [List.cons_append, List.nil_append, Function.comp, if_true]
  rw [exec1_all, exec1_append, exec1_alpha, Option.map_eq_bind]
  congr 1
  funext s
  rw [exec1_force]; rfl

theorem exec1_rest (w : Schedule i n) (z : Config i) (dt : ℝ) (it : Int) (s : Fin n → Particle (i + 1)) :
    exec1 w (firstRest z dt it) s = (energy z dt it w s).bind fun s => checkNegativity z (updateH z s) := by
  unfold firstRest
  rw [exec1_append, exec1_evolve]
  congr 1
  funext s
  exact exec1_last w z s

section
variable (w : Schedule i n) (hw : ∀ s : Fin n → Particle (i + 1), (∀ a, 0 < (s a).h) → NearLists s (w.search s)) (ho : ∀ k, VisitsAll (w.order k)) {procs : Nat}

include hw ho in
/-- A program on several processes against the calls on one process, from particles which agree. -/
theorem agree {J : Particle (i + 1) → Prop} {ops : List (Op (Particle (i + 1)))} {V : (Particle (i + 1) → Particle (i + 1)) → Prop} {I : Particle (i + 1) → Prop}
    (hD : Free.Disc n ops V I J) {home : Fin n → Nat} {d : DState (Particle (i + 1)) n} {x : (Fin n → Nat) × DState (Particle (i + 1)) n}
    (h : DExec NearLists procs ops home d (some x)) (hV : ∀ v, V v → Consistent v d) (hI : ∀ a, I (d.val a)) (s : Fin n → Particle (i + 1)) (hI' : ∀ a, I (s a))
    (he : ∀ a, Free.er (d.val a) = Free.er (s a)) : ∃ s', exec1 w ops s = some s' ∧ ∀ a, Free.er (x.2.val a) = Free.er (s' a) := by
  obtain ⟨r, h1, h2, -⟩ := exec1_exec w hw ho (d := ⟨s, fun _ _ => none, []⟩) hD hI' rfl
  have h3 := exec_agree Free.near_er h hD hV (fun v _ => ⟨fun p b x h => (by cases h), fun p b x h => (by cases h)⟩) hI hI' he h1
  rcases r with _ | y
  · cases h3
  · exact ⟨y.2.val, h2.symm, fun a => congrFun (Option.some.inj h3) a⟩

include hw ho in
/-- A program which fails on several processes fails on one. -/
theorem agree_fail {J : Particle (i + 1) → Prop} {ops : List (Op (Particle (i + 1)))} {V : (Particle (i + 1) → Particle (i + 1)) → Prop} {I : Particle (i + 1) → Prop}
    (hD : Free.Disc n ops V I J) {home : Fin n → Nat} {d : DState (Particle (i + 1)) n} (h : DExec NearLists procs ops home d none) (hV : ∀ v, V v → Consistent v d) (hI : ∀ a, I (d.val a))
    (s : Fin n → Particle (i + 1)) (hI' : ∀ a, I (s a)) (he : ∀ a, Free.er (d.val a) = Free.er (s a)) : exec1 w ops s = none := by
  obtain ⟨r, h1, h2, -⟩ := exec1_exec w hw ho (d := ⟨s, fun _ _ => none, []⟩) hD hI' rfl
  have h3 := exec_agree Free.near_er h hD hV (fun v _ => ⟨fun p b x h => (by cases h), fun p b x h => (by cases h)⟩) hI hI' he h1
  rcases r with _ | y
  · exact h2.symm
  · cases h3

/-- `compute_acceleration` and what follows leaves what the energy equation reads of the neighbours. -/
theorem forces_same (z : Config i) (it : Int) : ∀ o ∈ forceOps z it ++ [stepOp z], Same flow o := by
  have hs : Same flow (stepOp z) := by
    intro a x h
    unfold Timestep.computeDt at h
    split_ifs at h
    · obtain ⟨t, -, rfl⟩ := Option.map_eq_some_iff.mp h; rfl
    · obtain rfl := Option.some.inj h; rfl
  intro o h
  unfold forceOps at h
  split_ifs at h
  all_goals simp only [List.mem_append, List.mem_cons, List.not_mem_nil, or_false] at h
  · rcases h with ((rfl | rfl) | rfl | rfl) | rfl
    · trivial
    · intro a l x h; obtain rfl := Option.some.inj h; rfl
    · intro a x h; obtain rfl := Option.some.inj h; rfl
    · intro a l x h; obtain rfl := Option.some.inj h; rfl
    · exact hs
  · rcases h with (rfl | rfl) | rfl
    · trivial
    · intro a l x h; obtain rfl := Option.some.inj h; rfl
    · exact hs

/-- After the first part of the first iteration the copies hold what the energy equation reads. -/
theorem forces_consistent {near : (Fin n → Particle (i + 1)) → (Fin n → List (Fin n)) → Prop} (z : Config i) (dt : ℝ) (it : Int) {home : Fin n → Nat} {d : DState (Particle (i + 1)) n}
    {x : (Fin n → Nat) × DState (Particle (i + 1)) n} (h : DExec near procs (firstForces z dt it ++ [stepOp z]) home d (some x)) : Consistent flow x.2 := by
  unfold firstForces at h
  rw [List.append_assoc] at h
  obtain ⟨y, -, h2⟩ := exec_split h
  have hf : forceOps z it ++ [stepOp z] = .reset :: (forceOps z it ++ [stepOp z]).tail := rfl
  have hs := forces_same z it
  rw [hf] at h2 hs
  cases h2 with
  | reset hb h3 => exact exec_consistent h3 (fun o h => hs o (List.mem_cons_of_mem _ h)) (hb.consistent flow) x rfl

end

end FleCSPH.AdaptRun
