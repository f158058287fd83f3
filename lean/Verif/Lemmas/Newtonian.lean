import Verif.Model.Newtonian
import Verif.Lemmas.DistDriver
/-! The calls before and after gravity form disciplined programs; runs on any number of processes agree if gravity is determined by the particles. -/
namespace FleCSPH.Newtonian
open FleCSPH.Geometry FleCSPH.Sph FleCSPH.Driver FleCSPH.Spec FleCSPH.Kernels FleCSPH.Integration FleCSPH.DistRun

variable {i : Fin 3} {n : Nat}

theorem dexec_append {P : Type} {near : (Fin n → P) → (Fin n → List (Fin n)) → Prop} {procs : Nat} {b : List (Op P)} : ∀ {a : List (Op P)} {home : Fin n → Nat} {d : DState P n}
    {r : Option ((Fin n → Nat) × DState P n)}, DExec near procs (a ++ b) home d r →
      (r = none ∧ DExec near procs a home d none) ∨ ∃ home' d', DExec near procs a home d (some (home', d')) ∧ DExec near procs b home' d' r := by
  intro a
  induction a with
  | nil => intro home d r h; exact Or.inr ⟨home, d, .nil, h⟩
  | cons o a ih =>
    intro home d r h
    cases h with
    | all v hv h =>
      rcases ih h with ⟨h1, h2⟩ | ⟨home', d', h1, h2⟩
      exacts [Or.inl ⟨h1, .all v hv h2⟩, Or.inr ⟨home', d', .all v hv h1, h2⟩]
    | allFail a ha => exact Or.inl ⟨rfl, .allFail a ha⟩
    | pass nbs order g1 g2 g3 g4 h =>
      rcases ih h with ⟨h1, h2⟩ | ⟨home', d', h1, h2⟩
      exacts [Or.inl ⟨h1, .pass nbs order g1 g2 g3 g4 h2⟩, Or.inr ⟨home', d', .pass nbs order g1 g2 g3 g4 h1, h2⟩]
    | passFail nbs order g1 g2 g3 g4 => exact Or.inl ⟨rfl, .passFail nbs order g1 g2 g3 g4⟩
    | reset g h =>
      rcases ih h with ⟨h1, h2⟩ | ⟨home', d', h1, h2⟩
      exacts [Or.inl ⟨h1, .reset g h2⟩, Or.inr ⟨home', d', .reset g h1, h2⟩]
    | update g1 g2 h =>
      rcases ih h with ⟨h1, h2⟩ | ⟨home', d', h1, h2⟩
      exacts [Or.inl ⟨h1, .update g1 g2 h2⟩, Or.inr ⟨home', d', .update g1 g2 h1, h2⟩]
    | mean g h =>
      rcases ih h with ⟨h1, h2⟩ | ⟨home', d', h1, h2⟩
      exacts [Or.inl ⟨h1, .mean g h2⟩, Or.inr ⟨home', d', .mean g h1, h2⟩]

/-- After the acceleration the copies agree with the particles up to what it has written. -/
theorem acc_consistent {near : (Fin n → Particle (i + 1)) → (Fin n → List (Fin n)) → Prop} {procs : Nat} {z : Config i} {home home' : Fin n → Nat} {d d' : DState (Particle (i + 1)) n}
    (h : DExec near procs (accOps z) home d (some (home', d'))) (v : Particle (i + 1) → Particle (i + 1)) (hv : ∀ a l, v (computeAcceleration z.sph a l) = v a) : Consistent v d' ∧ d'.flight = [] := by
  unfold accOps at h
  cases h with
  | reset hb h =>
    cases h with
    | pass nbs order _ _ _ hp h =>
      cases h
      exact ⟨(dpass_keep (fun a l x hx => by obtain rfl := Option.some.inj hx; exact hv a l) hp (hb.consistent v) _ rfl).1, dpass_flight hp _ rfl⟩

theorem head_split (z : Config i) (c : Timestep.Clock) : ∃ l, headOps z c = l ++ accOps z := by
  by_cases h : c.iteration = z.initialIteration
  · exact ⟨_, if_pos h⟩
  · exact ⟨_, if_neg h⟩

theorem head_consistent {near : (Fin n → Particle (i + 1)) → (Fin n → List (Fin n)) → Prop} {procs : Nat} {z : Config i} {c : Timestep.Clock} {home home' : Fin n → Nat} {d d' : DState (Particle (i + 1)) n}
    (h : DExec near procs (headOps z c) home d (some (home', d'))) : (∀ v, v = flow ∨ v = geo → Consistent v d') ∧ d'.flight = [] := by
  obtain ⟨l, hl⟩ := head_split z c
  rw [hl] at h
  rcases dexec_append h with ⟨h1, -⟩ | ⟨home1, d1, -, h2⟩
  · cases h1
  · refine ⟨?_, (acc_consistent h2 flow fun _ _ => rfl).2⟩
    rintro v (rfl | rfl)
    exacts [(acc_consistent h2 flow fun _ _ => rfl).1, (acc_consistent h2 geo fun _ _ => rfl).1]

/-! ### Discipline -/

theorem disc_acc {J : Particle (i + 1) → Prop} (z : Config i) (hext : ∀ a, z.sph.external { a with vsig := 0 } = z.sph.external a) (hJ : ∀ a, Dense a → J a)
    {V : (Particle (i + 1) → Particle (i + 1)) → Prop} : Disc n (accOps z) V Dense J := by
  have hacc : ∀ (a : Particle (i + 1)) l, er (computeAcceleration z.sph (er a) l) = er (computeAcceleration z.sph a l) := by
    intro a l
    have := hext a
    simp only [computeAcceleration, er] at this ⊢
    rw [this]
    rfl
  show Disc n [.pass 2 fun a l => some (computeAcceleration z.sph a l)] (fun _ => True) Dense J
  exact disc_pass (W := fun _ => False) flow trivial (acceleration_reads z.sph) (fun _ => rfl) hacc dense_pos (fun s nbs nbs' h1 h2 h3 a => acceleration_lists _ h1 h2 h3 a) (fun a l h => h) (fun v h => h.elim) hJ

theorem disc_relax {J : Particle (i + 1) → Prop} (z : Config i) (it : Int) (hrep : it < z.sph.relaxationSteps → z.repulsionRadius ≤ 1) {ops : List (Op (Particle (i + 1)))}
    (h : Disc n ops (fun v => v = flow) Dense J) : Disc n (relaxOps z it ++ ops) (fun v => v = flow ∨ v = geo) Dense J := by
  unfold relaxOps
  split_ifs with hr
  · refine disc_all (W := fun v => v = flow ∨ v = geo) (I' := Dense) (fun a => rfl) (fun a h => h) ?_ ?_
    · rintro v (rfl | rfl)
      exacts [⟨Or.inl rfl, fun _ => rfl⟩, ⟨Or.inr rfl, fun _ => rfl⟩]
    · refine disc_pass geo (Or.inr rfl) (repulsion_reads _ _) (fun _ => rfl) (fun a l => rfl) dense_pos (fun s nbs nbs' h1 h2 h3 a => repulsion_lists (hrep hr) _ h1 h2 h3 a) (fun a l h => h) ?_ h
      rintro v rfl
      exact ⟨Or.inl rfl, fun _ _ => rfl⟩
  · exact Disciplined.mono (fun v hv => Or.inl hv) h

theorem disc_head (z : Config i) (hv : z.sph.visc = .constant) (c : Timestep.Clock) (hext : ∀ a, z.sph.external { a with vsig := 0 } = z.sph.external a)
    {V : (Particle (i + 1) → Particle (i + 1)) → Prop} : Disc n (headOps z c) V Sized Dense := by
  have ha : ∀ {V : (Particle (i + 1) → Particle (i + 1)) → Prop}, Disc n (accOps z) V Dense Dense := disc_acc z hext fun _ h => h
  unfold headOps
  split_ifs with hc
  · have hinit : ∀ a : Particle (i + 1), er (Eos.init z.eos z.eosParams (er a)) = er (Eos.init z.eos z.eosParams a) ∧ geo (Eos.init z.eos z.eosParams a) = geo a ∧
        (Eos.init z.eos z.eosParams a).mass = a.mass ∧ (Eos.init z.eos z.eosParams a).h = a.h := by
      intro a
      cases z.eos <;> exact ⟨rfl, rfl, rfl, rfl⟩
    have h2 : Disc n (densityOp z c.dt :: .all (fun a => some (saveVelocityhalf a)) :: accOps z) (fun v => v = geo) Sized Dense :=
      disc_density z hv c.dt (disc_all (f := saveVelocityhalf) (W := fun _ => False) (I' := Dense) (fun a => rfl) (fun a h => h) (fun v h => h.elim) ha) (V := fun v => v = geo) rfl
    unfold firstHead alphaOps
    simp only [hv, List.append_nil, List.append_assoc, List.cons_append, List.nil_append]
    show Disc n (.all (fun a => some (Eos.init z.eos z.eosParams a)) :: _) (fun _ => True) Sized Dense
    refine disc_all (W := fun v => v = geo) (I' := Sized) (fun a => (hinit a).1) (fun a h => ?_) ?_ ?_
    · unfold Sized; rw [(hinit a).2.2.1, (hinit a).2.2.2]; exact h
    · rintro v rfl; exact ⟨trivial, fun a => (hinit a).2.1⟩
    · split_ifs
      · refine disc_all (W := fun v => v = geo) (I' := Sized) (fun a => rfl) (fun a h => h) ?_ h2
        rintro v rfl; exact ⟨rfl, fun _ => rfl⟩
      · exact h2
  · have h3 : Disc n (densityOp z c.dt :: accOps z) (fun _ => True) Sized Dense := disc_density z hv c.dt ha (V := fun _ => True) trivial
    unfold nextHead alphaOps
    simp only [hv, List.append_nil, List.append_assoc, List.cons_append, List.nil_append]
    refine disc_kick z c.dt (fun _ _ h => h) (fun _ _ h => h) ?_
    refine disc_all (W := fun _ => False) (I' := Sized) (fun a => rfl) (fun a h => h) (fun v h => h.elim) ?_
    refine disc_all (W := fun _ => False) (I' := Sized) (fun a => rfl) (fun a h => h) (fun v h => h.elim) ?_
    refine disc_all (W := fun _ => False) (I' := Sized) (fun a => rfl) (fun a h => h) (fun v h => h.elim) ?_
    exact h3

theorem disc_tail (z : Config i) (he : 0 < z.eta) (hw : 0 < z.width) (c : Timestep.Clock) (hrep : c.iteration < z.sph.relaxationSteps → z.repulsionRadius ≤ 1) :
    Disc n (tailOps z c) (fun v => v = flow ∨ v = geo) Dense := by
  unfold tailOps
  split_ifs with hc
  · unfold firstTail
    rw [List.append_assoc, List.append_assoc]
    refine disc_relax z _ hrep ?_
    have h1 : Disc n ((if z.evolve then energyOps z c.dt c.iteration z.updates else []) ++ lastOps z) (fun v => v = flow) Dense := by
      split_ifs
      · exact disc_energy z _ _ (disc_last z he hw) _ rfl
      · exact disc_last z he hw
    by_cases htk : z.thermokinetic = true
    · rw [if_pos htk]
      refine disc_all (W := fun v => v = flow) (I' := Dense) (fun a => rfl) (fun a h => h) ?_ h1
      rintro v rfl; exact ⟨rfl, fun _ => rfl⟩
    · rw [if_neg htk]
      exact h1
  · unfold nextTail
    simp only [List.append_assoc]
    refine disc_relax z _ hrep ?_
    have h0 : Disc n (kickOps z c.dt ++ lastOps z) (fun _ => False) Dense := disc_kick z c.dt (fun _ _ h => h) (fun _ _ h => h) (disc_last z he hw)
    have h1 : Disc n ((if z.evolve then energyOps z c.dt c.iteration z.updates else []) ++ (kickOps z c.dt ++ lastOps z)) (fun _ => True) Dense := by
      split_ifs
      · exact disc_energy z _ _ h0 _ trivial
      · exact disc_any h0
    exact disc_all (W := fun _ => False) (fun a => rfl) (fun a h => h) (fun v h => h.elim) h1

/-! ### What the calls do not write -/

def KeepsOp {P α : Type} (g : P → α) : Op P → Prop
  | .all f => ∀ a x, f a = some x → g x = g a
  | .pass _ f => ∀ a l x, f a l = some x → g x = g a
  | .reset => True
  | .update => True
  | .mean _ set => ∀ x a, g (set x a) = g a

theorem dpass_val {P α : Type} {g : P → α} {f : P → List P → Option P} (hk : ∀ a l x, f a l = some x → g x = g a) {home : Fin n → Nat} {nbs : Fin n → List (Fin n)}
    {todo : List (Fin n)} {d : DState P n} {r : Option (DState P n)} (h : DPass home f nbs todo d r) : ∀ d', r = some d' → ∀ a, g (d'.val a) = g (d.val a) := by
  induction h with
  | done hfl => intro d' h; obtain rfl := Option.some.inj h; exact fun _ => rfl
  | send p b _ _ ih => exact ih
  | recv before after p b x hfl _ ih => exact ih
  | @visit d r before after a l x hl hx _ ih =>
    intro d' h b
    refine (ih d' h b).trans ?_
    by_cases hb : b = a
    · subst hb
      simp only [DState.put, Function.update_self]
      exact hk _ _ _ hx
    · simp only [DState.put]; rw [Function.update_of_ne hb]
  | fail => intro d' h; cases h

theorem dexec_keep {P α : Type} {g : P → α} {near : (Fin n → P) → (Fin n → List (Fin n)) → Prop} {procs : Nat} {ops : List (Op P)} {home : Fin n → Nat} {d : DState P n}
    {r : Option ((Fin n → Nat) × DState P n)} (h : DExec near procs ops home d r) : (∀ o ∈ ops, KeepsOp g o) → ∀ x, r = some x → ∀ a, g (x.2.val a) = g (d.val a) := by
  induction h with
  | nil => intro _ x h; obtain rfl := Option.some.inj h; exact fun _ => rfl
  | all v hv _ ih => intro hk x h a; exact (ih (fun o ho => hk o (List.mem_cons_of_mem _ ho)) x h a).trans (hk _ List.mem_cons_self _ _ (hv a))
  | allFail => intro _ x h; cases h
  | pass nbs order _ _ _ hp _ ih => intro hk x h a; exact (ih (fun o ho => hk o (List.mem_cons_of_mem _ ho)) x h a).trans (dpass_val (hk _ List.mem_cons_self) hp _ rfl a)
  | passFail => intro _ x h; cases h
  | reset hb _ ih => intro hk x h a; exact (ih (fun o ho => hk o (List.mem_cons_of_mem _ ho)) x h a).trans (by rw [hb.val])
  | update _ hb _ ih => intro hk x h a; exact (ih (fun o ho => hk o (List.mem_cons_of_mem _ ho)) x h a).trans (by rw [hb.val])
  | mean _ _ ih => intro hk x h a; exact (ih (fun o ho => hk o (List.mem_cons_of_mem _ ho)) x h a).trans (hk _ List.mem_cons_self _ _)

/-- Identifier and mass. -/
def tag (a : Particle (i + 1)) : Nat × ℝ := (a.id, a.mass)

/-- The same and the potential of gravity. -/
def mark (a : Particle (i + 1)) : (Nat × ℝ) × ℝ := (tag a, a.gpot)

theorem keep_weak {o : Op (Particle (i + 1))} (h : KeepsOp mark o) : KeepsOp tag o := by
  cases o with
  | all f => exact fun a x hx => congrArg Prod.fst (h a x hx)
  | pass k f => exact fun a l x hx => congrArg Prod.fst (h a l x hx)
  | reset => trivial
  | update => trivial
  | mean f set => exact fun x a => congrArg Prod.fst (h x a)

theorem keep_kick (z : Config i) (dt : ℝ) : ∀ o ∈ kickOps z dt, KeepsOp mark o := by
  unfold kickOps
  split_ifs
  all_goals
    intro o ho
    simp only [List.mem_cons, List.not_mem_nil, or_false] at ho
  all_goals
    subst ho
    intro a x hx
    obtain rfl := Option.some.inj hx
    rfl

theorem keep_some {α : Type} {g : Particle (i + 1) → α} (f : Particle (i + 1) → Particle (i + 1)) (h : ∀ a, g (f a) = g a) : KeepsOp g (.all fun a => some (f a)) := by
  intro a x hx
  obtain rfl := Option.some.inj hx
  exact h a

theorem keep_energy (z : Config i) (dt : ℝ) (it : Int) : ∀ m, ∀ o ∈ energyOps z dt it m, KeepsOp mark o := by
  intro m
  induction m with
  | zero => intro o ho; cases ho
  | succ m ih =>
    intro o ho
    rw [energyOps, List.mem_append, List.mem_append] at ho
    rcases ho with (ho | ho) | ho
    · split_ifs at ho
      all_goals simp only [List.cons_append, List.nil_append, List.mem_cons, List.not_mem_nil, or_false] at ho
      · rcases ho with rfl | rfl | rfl
        · intro a l x hx; obtain rfl := Option.some.inj hx; rfl
        · exact keep_some _ fun _ => rfl
        · intro a x hx; obtain ⟨_, _, _, rfl⟩ := recomputeT_keep _ _ _ _ _ _ hx; rfl
      · rcases ho with rfl | rfl
        · intro a l x hx; obtain rfl := Option.some.inj hx; rfl
        · intro a x hx; obtain ⟨_, _, _, rfl⟩ := recomputeT_keep _ _ _ _ _ _ hx; rfl
      · rcases ho with rfl | rfl | rfl
        · intro a l x hx; obtain rfl := Option.some.inj hx; simp only [computeDudt]; split <;> rfl
        · exact keep_some _ fun _ => rfl
        · refine keep_some _ fun a => ?_
          obtain ⟨_, _, e⟩ := recompute_keep z.eos z.eosParams dt a
          rw [e]; rfl
      · rcases ho with rfl | rfl
        · intro a l x hx; obtain rfl := Option.some.inj hx; simp only [computeDudt]; split <;> rfl
        · refine keep_some _ fun a => ?_
          obtain ⟨_, _, e⟩ := recompute_keep z.eos z.eosParams dt a
          rw [e]; rfl
    · split_ifs at ho
      · simp only [List.mem_cons, List.not_mem_nil, or_false] at ho
        subst ho; trivial
      · cases ho
    · exact ih o ho

theorem keep_density (z : Config i) (dt : ℝ) : KeepsOp tag (densityOp z dt) := by
  intro a l x hx
  obtain ⟨_, _, _, _, _, _, _, _, rfl⟩ := density_keep _ _ _ _ _ _ _ hx
  rfl

theorem keep_acc (z : Config i) : ∀ o ∈ accOps z, KeepsOp tag o := by
  intro o ho
  simp only [accOps, List.mem_cons, List.not_mem_nil, or_false] at ho
  rcases ho with rfl | rfl
  · trivial
  · intro a l x hx; obtain rfl := Option.some.inj hx; rfl

theorem keep_relax (z : Config i) (it : Int) : ∀ o ∈ relaxOps z it, KeepsOp mark o := by
  intro o ho
  unfold relaxOps at ho
  split_ifs at ho
  · simp only [List.mem_cons, List.not_mem_nil, or_false] at ho
    rcases ho with rfl | rfl
    · exact keep_some _ fun _ => rfl
    · intro a l x hx; obtain rfl := Option.some.inj hx; rfl
  · cases ho

theorem keep_last (z : Config i) : ∀ o ∈ lastOps z, KeepsOp mark o := by
  intro o ho
  unfold lastOps at ho
  rw [List.mem_append] at ho
  rcases ho with ho | ho
  · cases hm : z.hMode with
    | «variable» => rw [hm] at ho; simp only [List.mem_cons, List.not_mem_nil, or_false] at ho; subst ho; exact keep_some _ fun _ => rfl
    | uniform => rw [hm] at ho; simp only [List.mem_cons, List.not_mem_nil, or_false] at ho; subst ho; intro x a; rfl
    | fixed => rw [hm] at ho; cases ho
  · simp only [List.mem_cons, List.not_mem_nil, or_false] at ho
    subst ho
    intro a x hx
    dsimp only at hx
    split_ifs at hx
    obtain rfl := Option.some.inj hx
    rfl

theorem keep_head (z : Config i) (hv : z.sph.visc = .constant) (c : Timestep.Clock) : ∀ o ∈ headOps z c, KeepsOp tag o := by
  intro o ho
  unfold headOps firstHead nextHead alphaOps at ho
  rw [hv] at ho
  split_ifs at ho
  all_goals simp only [List.append_nil, List.mem_append, List.mem_cons, List.not_mem_nil, or_false] at ho
  · rcases ho with (((rfl | rfl) | rfl) | rfl | rfl) | ho
    · trivial
    · exact keep_some _ fun a => by cases z.eos <;> rfl
    · exact keep_some _ fun _ => rfl
    · exact keep_density z _
    · exact keep_some _ fun _ => rfl
    · exact keep_acc z o ho
  · rcases ho with ((rfl | rfl) | rfl | rfl) | ho
    · trivial
    · exact keep_some _ fun a => by cases z.eos <;> rfl
    · exact keep_density z _
    · exact keep_some _ fun _ => rfl
    · exact keep_acc z o ho
  · rcases ho with (ho | rfl | rfl | rfl | rfl | rfl) | ho
    · exact keep_weak (keep_kick z _ o ho)
    · exact keep_some _ fun _ => rfl
    · exact keep_some _ fun _ => rfl
    · exact keep_some _ fun _ => rfl
    · trivial
    · exact keep_density z _
    · exact keep_acc z o ho

theorem keep_tail (z : Config i) (c : Timestep.Clock) : ∀ o ∈ tailOps z c, KeepsOp mark o := by
  have he : ∀ o ∈ (if z.evolve then energyOps z c.dt c.iteration z.updates else []), KeepsOp mark o := by
    intro o ho
    split_ifs at ho
    · exact keep_energy z _ _ _ o ho
    · cases ho
  have ht : ∀ o ∈ (if z.thermokinetic then [Op.all fun a => some (setTotalEnergy z.phi a)] else []), KeepsOp mark o := by
    intro o ho
    split_ifs at ho
    · simp only [List.mem_cons, List.not_mem_nil, or_false] at ho
      subst ho; exact keep_some _ fun _ => rfl
    · cases ho
  intro o ho
  unfold tailOps at ho
  rw [List.mem_append] at ho
  rcases ho with ho | ho
  · by_cases hc : c.iteration = z.initialIteration
    · rw [if_pos hc] at ho
      unfold firstTail at ho
      rw [List.mem_append, List.mem_append] at ho
      rcases ho with (ho | ho) | ho
      exacts [keep_relax z _ o ho, ht o ho, he o ho]
    · rw [if_neg hc] at ho
      unfold nextTail at ho
      rw [List.mem_append, List.mem_append, List.mem_append] at ho
      rcases ho with ((ho | ho) | ho) | ho
      · exact keep_relax z _ o ho
      · simp only [List.mem_cons, List.not_mem_nil, or_false] at ho
        rcases ho with rfl | rfl
        · exact keep_some _ fun _ => rfl
        · trivial
      · exact he o ho
      · exact keep_kick z _ o ho
  · exact keep_last z o ho

/-! ### Runs -/

/-- What is asked of gravity, for two computations of it: from the same particles they give the same, and they write only potential and acceleration. -/
structure Determined (sep : (Fin n → Particle (i + 1)) → Prop) (grav grav' : (Fin n → Particle (i + 1)) → (Fin n → Particle (i + 1)) → Prop) (Ok : (Fin n → Particle (i + 1)) → Prop) : Prop where
  cong : ∀ s s', (∀ a, er (s a) = er (s' a)) → sep s → sep s'
  same : ∀ s s' v v', Ok s → Ok s' → (∀ a, er (s a) = er (s' a)) → sep s → grav s v → grav' s' v' → ∀ a, er (v a) = er (v' a)
  keep : ∀ s v, Ok s → sep s → grav s v → ∀ a, ∃ p g, v a = { s a with gpot := p, gacc := g }
  keep' : ∀ s v, Ok s → sep s → grav' s v → ∀ a, ∃ p g, v a = { s a with gpot := p, gacc := g }

/-- The outcome without the signal speeds. -/
noncomputable def Outcome.erase : Outcome i n → Outcome i n
  | .done c s => .done c fun a => er (s a)
  | .failed => .failed
  | .clash k => .clash k

theorem consistent_grav {d : DState (Particle (i + 1)) n} {v : Fin n → Particle (i + 1)} {w : Particle (i + 1) → Particle (i + 1)} (hw : w = flow ∨ w = geo) (h : Consistent w d)
    (hk : ∀ a, ∃ p g, v a = { d.val a with gpot := p, gacc := g }) : Consistent w { d with val := v } := by
  have e : ∀ a, w (v a) = w (d.val a) := by
    intro a
    obtain ⟨p, g, h⟩ := hk a
    rw [h]
    rcases hw with rfl | rfl <;> rfl
  exact ⟨fun p b x hx => (h.copy p b x hx).trans (e b).symm, fun p b x hx => (h.flight p b x hx).trans (e b).symm⟩

theorem dense_grav {s v : Fin n → Particle (i + 1)} (hd : ∀ a, DistRun.Dense (s a)) (hk : ∀ a, ∃ p g, v a = { s a with gpot := p, gacc := g }) (a : Fin n) : DistRun.Dense (v a) := by
  obtain ⟨p, g, h⟩ := hk a
  rw [h]; exact hd a

section
variable {z : Config i} (hv : z.sph.visc = .constant) (he : 0 < z.eta) (hw : 0 < z.width) (hrep : z.repulsionRadius ≤ 1) (hext : ∀ a, z.sph.external { a with vsig := 0 } = z.sph.external a)
  {sep : (Fin n → Particle (i + 1)) → Prop} {grav grav' : (Fin n → Particle (i + 1)) → (Fin n → Particle (i + 1)) → Prop}
include hv he hw hrep hext

/-- Runs on any numbers of processes agree, if gravity does. `ids` are the identifiers of the particles. -/
theorem nrun_agree {ids : Fin n → Nat} (hg : Determined sep grav grav' fun s => (∀ a, DistRun.Dense (s a)) ∧ ∀ a, (s a).id = ids a)
    {procs procs' N : Nat} {c : Timestep.Clock} {home : Fin n → Nat} {d : DState (Particle (i + 1)) n} {r : Outcome i n} (h : NRun NearLists sep grav procs z N c home d r) :
    ∀ {home' : Fin n → Nat} {d' : DState (Particle (i + 1)) n} {r' : Outcome i n}, NRun NearLists sep grav' procs' z N c home' d' r' → (∀ a, Sized (d.val a)) → (∀ a, (d.val a).id = ids a) →
      (∀ a, er (d.val a) = er (d'.val a)) → d.flight = [] → d'.flight = [] → r.erase = r'.erase := by
  have hH : ∀ c, Disc n (headOps z c) (fun _ => False) Sized Dense := fun c => disc_head z hv c hext
  have hT : ∀ c, Disc n (tailOps z c) (fun v => v = flow ∨ v = geo) Dense := fun c => disc_tail z he hw c fun _ => hrep
  have er_id : ∀ {a b : Particle (i + 1)}, er a = er b → a.id = b.id := fun h => by have := congrArg Particle.id h; exact this
  have er_sized : ∀ {s s' : Fin n → Particle (i + 1)}, (∀ a, er (s a) = er (s' a)) → (∀ a, Sized (s a)) → ∀ a, Sized (s' a) := by
    intro s s' e h a
    have e1 : (s a).mass = (s' a).mass := by have := congrArg Particle.mass (e a); exact this
    have e2 : (s a).h = (s' a).h := by have := congrArg Particle.h (e a); exact this
    exact ⟨e1 ▸ (h a).1, e2 ▸ (h a).2⟩
  have er_dense : ∀ {s s' : Fin n → Particle (i + 1)}, (∀ a, er (s a) = er (s' a)) → (∀ a, DistRun.Dense (s a)) → ∀ a, DistRun.Dense (s' a) := by
    intro s s' e h a
    have e1 : (s a).mass = (s' a).mass := by have := congrArg Particle.mass (e a); exact this
    have e2 : (s a).h = (s' a).h := by have := congrArg Particle.h (e a); exact this
    have e3 : (s a).rho = (s' a).rho := by have := congrArg Particle.rho (e a); exact this
    exact ⟨e1 ▸ (h a).1, e2 ▸ (h a).2.1, e3 ▸ (h a).2.2⟩
  have head_id : ∀ {c : Timestep.Clock} {home home' : Fin n → Nat} {d d' : DState (Particle (i + 1)) n}, DExec NearLists procs (headOps z c) home d (some (home', d')) → (∀ a, (d.val a).id = ids a) →
      ∀ a, (d'.val a).id = ids a := by
    intro c home home' d d' h hi a
    have := congrArg Prod.fst (dexec_keep h (keep_head z hv c) _ rfl a)
    exact this.trans (hi a)
  -- the two heads agree
  have head : ∀ {c : Timestep.Clock} {home home' : Fin n → Nat} {d d' : DState (Particle (i + 1)) n} {r r' : Option ((Fin n → Nat) × DState (Particle (i + 1)) n)},
      DExec NearLists procs (headOps z c) home d r → DExec NearLists procs' (headOps z c) home' d' r' → (∀ a, Sized (d.val a)) → (∀ a, er (d.val a) = er (d'.val a)) →
      (r.map fun x a => er (x.2.val a)) = r'.map fun x a => er (x.2.val a) :=
    fun hx hx' h1 e => exec_agree near_er hx (hH _) (fun v h => h.elim) (fun v h => h.elim) h1 (er_sized e h1) e hx'
  have tail : ∀ {c : Timestep.Clock} {home home' : Fin n → Nat} {d d' : DState (Particle (i + 1)) n} {v v' : Fin n → Particle (i + 1)} {r r' : Option ((Fin n → Nat) × DState (Particle (i + 1)) n)},
      (∀ v, v = flow ∨ v = geo → Consistent v d) → (∀ v, v = flow ∨ v = geo → Consistent v d') → (∀ a, DistRun.Dense (d.val a)) → (∀ a, (d.val a).id = ids a) → (∀ a, er (d.val a) = er (d'.val a)) →
      sep d.val → sep d'.val → grav d.val v → grav' d'.val v' → DExec NearLists procs (tailOps z c) home { d with val := v } r → DExec NearLists procs' (tailOps z c) home' { d' with val := v' } r' →
      (r.map fun x a => er (x.2.val a)) = r'.map fun x a => er (x.2.val a) := by
    intro c home home' d d' v v' r r' c1 c2 i1 j1 e s1 s2 g1 g2 x1 x2
    have i2 := er_dense e i1
    have j2 : ∀ a, (d'.val a).id = ids a := fun a => (er_id (e a)).symm.trans (j1 a)
    have k1 := hg.keep _ _ ⟨i1, j1⟩ s1 g1
    have k2 := hg.keep' _ _ ⟨i2, j2⟩ s2 g2
    exact exec_agree near_er x1 (hT c) (fun w hw => consistent_grav hw (c1 w hw) k1) (fun w hw => consistent_grav hw (c2 w hw) k2) (dense_grav i1 k1) (dense_grav i2 k2)
      (hg.same _ _ _ _ ⟨i1, j1⟩ ⟨i2, j2⟩ e s1 g1 g2) x2
  induction h with
  | @nil c home d =>
    intro home' d' r' h' _ _ e _ _
    cases h'
    simp only [Outcome.erase]
    congr 1
    exact funext e
  | @failHead N c home d hx =>
    intro home' d' r' h' h1 hi e _ _
    cases h' with
    | failHead _ => rfl
    | clash hx' _ => cases head hx hx' h1 e
    | failTail hx' _ _ _ => rfl
    | cons hx' _ _ _ _ => cases head hx hx' h1 e
  | @clash N c home home1 d d1 hx hns =>
    intro home' d' r' h' h1 hi e _ _
    cases h' with
    | failHead hx' => cases head hx hx' h1 e
    | clash _ _ => rfl
    | failTail hx' hs' _ _ =>
      have e1 := fun a => congrFun (Option.some.inj (head hx hx' h1 e)) a
      exact absurd (hg.cong _ _ (fun a => (e1 a).symm) hs') hns
    | cons hx' hs' _ _ _ =>
      have e1 := fun a => congrFun (Option.some.inj (head hx hx' h1 e)) a
      exact absurd (hg.cong _ _ (fun a => (e1 a).symm) hs') hns
  | @failTail N c home home1 d d1 v hx hs hgr hy =>
    intro home' d' r' h' h1 hi e f1 f2
    cases h' with
    | failHead _ => rfl
    | clash hx' hns' =>
      have e1 := fun a => congrFun (Option.some.inj (head hx hx' h1 e)) a
      exact absurd (hg.cong _ _ e1 hs) hns'
    | failTail _ _ _ _ => rfl
    | cons hx' hs' hgr' hy' _ =>
      have e1 := fun a => congrFun (Option.some.inj (head hx hx' h1 e)) a
      cases tail (head_consistent hx).1 (head_consistent hx').1 (exec_post hx (hH c) h1 f1 _ rfl).1 (head_id hx hi) e1 hs hs' hgr hgr' hy hy'
  | @cons N c home home1 home2 d d1 d2 v r hx hs hgr hy _ ih =>
    intro home' d' r' h' h1 hi e f1 f2
    cases h' with
    | failHead hx' => cases head hx hx' h1 e
    | clash hx' hns' =>
      have e1 := fun a => congrFun (Option.some.inj (head hx hx' h1 e)) a
      exact absurd (hg.cong _ _ e1 hs) hns'
    | failTail hx' hs' hgr' hy' =>
      have e1 := fun a => congrFun (Option.some.inj (head hx hx' h1 e)) a
      cases tail (head_consistent hx).1 (head_consistent hx').1 (exec_post hx (hH c) h1 f1 _ rfl).1 (head_id hx hi) e1 hs hs' hgr hgr' hy hy'
    | cons hx' hs' hgr' hy' hr' =>
      have e1 := fun a => congrFun (Option.some.inj (head hx hx' h1 e)) a
      have q1 := exec_post hx (hH c) h1 f1 _ rfl
      have j1 := head_id hx hi
      have e2 := fun a => congrFun (Option.some.inj (tail (head_consistent hx).1 (head_consistent hx').1 q1.1 j1 e1 hs hs' hgr hgr' hy hy')) a
      have k1 := hg.keep _ _ ⟨q1.1, j1⟩ hs hgr
      have k2 := hg.keep' _ _ ⟨er_dense e1 q1.1, fun a => (er_id (e1 a)).symm.trans (j1 a)⟩ hs' hgr'
      have p1 := exec_post hy (hT c) (dense_grav q1.1 k1) q1.2 _ rfl
      have p2 := exec_post hy' (hT c) (dense_grav (er_dense e1 q1.1) k2) (head_consistent hx').2 _ rfl
      refine ih hr' p1.1 (fun a => ?_) e2 p1.2 p2.2
      have := congrArg (fun x => x.1.1) (dexec_keep hy (keep_tail z c) _ rfl a)
      refine this.trans ?_
      obtain ⟨p, g, hk⟩ := k1 a
      show (v a).id = ids a
      rw [hk]
      exact j1 a

end

end FleCSPH.Newtonian
