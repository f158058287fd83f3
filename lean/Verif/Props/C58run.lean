import Verif.Props.C58
import Verif.Props.C105
import Verif.Props.C98
import Verif.Props.C102
/-! C58 over whole runs of both drivers on several processes: the parameter of the adaptive viscosity stays in its range. -/
namespace FleCSPH.AlphaRange
open FleCSPH.Geometry FleCSPH.Sph FleCSPH.Driver FleCSPH.DistRun FleCSPH.AdaptRun FleCSPH.Program FleCSPH.Newtonian FleCSPH.Spec FleCSPH.AlphaFit FleCSPH.Integration

variable {i : Fin 3} {n m : Nat}

/-- The range of the parameter. -/
def Within (M : ℝ) (a : Particle (i + 1)) : Prop := 0 ≤ a.alpha ∧ a.alpha ≤ M

/-- A call which keeps `R`; a pass does for particles with positive mass and smoothing length. -/
private def Guards (R : Particle (i + 1) → Prop) : Op (Particle (i + 1)) → Prop
  | .all f => ∀ a x, R a → f a = some x → R x
  | .pass _ f => ∀ a l x, Sized a → R a → f a l = some x → R x
  | .reset => True
  | .update => True
  | .mean _ set => ∀ x a, R a → R (set x a)

section
variable {near : (Fin n → Particle (i + 1)) → (Fin n → List (Fin n)) → Prop} {procs : Nat} {te : Bool} {J R : Particle (i + 1) → Prop}

private theorem exec_range {ops : List (Op (Particle (i + 1)))} {home : Fin n → Nat} {d : DState (Particle (i + 1)) n} {r : Option ((Fin n → Nat) × DState (Particle (i + 1)) n)}
    (h : DExec near procs ops home d r) : ∀ {t : Bool} {I : Particle (i + 1) → Prop}, Fit ops t I te J → (∀ a, I (d.val a)) → (∀ o ∈ ops, Guards R o) → (∀ a, R (d.val a)) →
      ∀ x, r = some x → ∀ a, R (x.2.val a) := by
  induction h with
  | nil => intro t I _ _ _ hR x h; obtain rfl := Option.some.inj h; exact hR
  | all v hv _ ih =>
    intro t I hF hI hG hR x h
    obtain ⟨-, t', I', -, h3, h4⟩ := hF
    exact ih h4 (fun a => h3 _ _ (hI a) (hv a)) (fun o ho => hG o (List.mem_cons_of_mem _ ho)) (fun a => hG _ List.mem_cons_self _ _ (hR a) (hv a)) x h
  | allFail => intro _ _ _ _ _ _ x h; cases h
  | @pass k f l home d d' r nbs order h1 h2 h3 h4 _ ih =>
    intro t I hF hI hG hR x h
    obtain ⟨-, g0, -, I', g2, g3⟩ := hF
    have hg := hG _ List.mem_cons_self
    have key := dpass_inv (I := fun a => I a ∧ R a) (I' := fun a => I' a ∧ R a) (fun a l x ha hx => ⟨g2 a l x ha.1 hx, hg a l x (g0 a ha.1) ha.2 hx⟩) h4 h2 (fun a _ => ⟨hI a, hR a⟩)
      (fun a ha => absurd (h3 a) ha) d' rfl
    exact ih g3 (fun a => (key a).1) (fun o ho => hG o (List.mem_cons_of_mem _ ho)) (fun a => (key a).2) x h
  | passFail => intro _ _ _ _ _ _ x h; cases h
  | reset h1 _ ih =>
    intro t I hF hI hG hR x h
    have e := h1.1
    exact ih hF.2 (fun a => by rw [e]; exact hI a) (fun o ho => hG o (List.mem_cons_of_mem _ ho)) (fun a => by rw [e]; exact hR a) x h
  | update _ h1 _ ih =>
    intro t I hF hI hG hR x h
    have e := h1.1
    exact ih hF.2 (fun a => by rw [e]; exact hI a) (fun o ho => hG o (List.mem_cons_of_mem _ ho)) (fun a => by rw [e]; exact hR a) x h
  | mean hh _ ih =>
    intro t I hF hI hG hR x h
    obtain ⟨h1, -, I', h3, h4⟩ := hF
    exact ih h4 (fun a => h3 _ _ (mean_pos hh (fun b => h1 _ (hI b)) a) (hI a)) (fun o ho => hG o (List.mem_cons_of_mem _ ho)) (fun a => hG _ List.mem_cons_self _ _ (hR a)) x h

/-- Calls with one which makes `R` hold. -/
private theorem exec_begin {A B : List (Op (Particle (i + 1)))} {f : Particle (i + 1) → Option (Particle (i + 1))} {home : Fin n → Nat} {d : DState (Particle (i + 1)) n}
    {x : (Fin n → Nat) × DState (Particle (i + 1)) n} (h : DExec near procs (A ++ .all f :: B) home d (some x)) {t : Bool} {I : Particle (i + 1) → Prop} (hF : Fit (A ++ .all f :: B) t I te J)
    (hI : ∀ a, I (d.val a)) (hf : ∀ a x, f a = some x → R x) (hG : ∀ o ∈ B, Guards R o) : ∀ a, R (x.2.val a) := by
  obtain ⟨y, h1, h2⟩ := exec_split h
  obtain ⟨t', I', f1, f2⟩ := hF.split
  have k := exec_fit h1 f1 hI y rfl
  cases h2 with
  | all v hv h2 =>
    obtain ⟨-, t2, I2, -, g3, g4⟩ := f2
    exact exec_range h2 g4 (fun a => g3 _ _ (k a).1 (hv a)) hG (fun a => hf _ _ (hv a)) x rfl

end

/-! ### The calls of the drivers -/

section
variable {z : Config i}

private theorem g_all {M : ℝ} {f : Particle (i + 1) → Particle (i + 1)} (h : ∀ a, (f a).alpha = a.alpha) : Guards (Within M) (.all fun a => some (f a)) := by
  intro a x ha hx; obtain rfl := Option.some.inj hx; unfold Within; rw [h]; exact ha

private theorem g_pass {M : ℝ} {k : Nat} {f : Particle (i + 1) → List (Particle (i + 1)) → Particle (i + 1)} (h : ∀ a l, (f a l).alpha = a.alpha) : Guards (Within M) (.pass k fun a l => some (f a l)) := by
  intro a l x _ ha hx; obtain rfl := Option.some.inj hx; unfold Within; rw [h]; exact ha

private theorem g_density {M : ℝ} (dt : ℝ) : Guards (Within M) (densityOp z dt) := by
  intro a l x _ ha hx
  obtain ⟨-, r, u, P, c, v, x', y, rfl⟩ := density_keep _ _ _ _ _ _ _ hx
  exact ha

private theorem g_step {M : ℝ} : Guards (Within M) (stepOp z) := by
  intro a x ha hx; obtain ⟨t, rfl⟩ := computeDt_keep _ _ _ hx; exact ha

private theorem g_alpha (hmax : 0 ≤ z.alphaMax) (hdel : 0 ≤ z.delta) (hl : 0 < z.l) {dt : ℝ} (hdt : 0 ≤ dt) : ∀ o ∈ alphaOps z dt, Guards (Within z.alphaMax) o := by
  intro o h
  unfold alphaOps at h
  cases hv : z.sph.visc with
  | constant => rw [hv] at h; cases h
  | cullen =>
    rw [hv] at h
    obtain rfl := List.mem_singleton.mp h
    intro a l x hs ha hx
    exact C58_update z.sph ⟨z.alphaMax, z.delta, z.l, dt⟩ hmax hdel hl hdt a x l hs.2 ha.1 ha.2 hx

private theorem g_force {M : ℝ} (it : Int) : ∀ o ∈ forceOps z it, Guards (Within M) o := by
  intro o h
  unfold forceOps at h
  split_ifs at h
  all_goals simp only [List.mem_append, List.mem_cons, List.not_mem_nil, or_false] at h
  · rcases h with (rfl | rfl) | rfl | rfl
    · trivial
    · exact g_pass fun a l => rfl
    · exact g_all fun a => rfl
    · exact g_pass fun a l => rfl
  · rcases h with rfl | rfl
    · trivial
    · exact g_pass fun a l => rfl

private theorem g_acc {M : ℝ} : ∀ o ∈ accOps z, Guards (Within M) o := by
  intro o h
  unfold accOps at h
  simp only [List.mem_cons, List.not_mem_nil, or_false] at h
  rcases h with rfl | rfl
  · trivial
  · exact g_pass fun a l => rfl

private theorem g_relax {M : ℝ} (it : Int) : ∀ o ∈ relaxOps z it, Guards (Within M) o := by
  intro o h
  unfold relaxOps at h
  split_ifs at h
  · simp only [List.mem_cons, List.not_mem_nil, or_false] at h
    rcases h with rfl | rfl
    · exact g_all fun a => rfl
    · exact g_pass fun a l => rfl
  · cases h

private theorem g_kick {M : ℝ} (dt : ℝ) : ∀ o ∈ kickOps z dt, Guards (Within M) o := by
  intro o h
  unfold kickOps at h
  split_ifs at h
  all_goals simp only [List.mem_cons, List.not_mem_nil, or_false] at h
  · subst h; exact g_all fun a => rfl
  · subst h; exact g_all fun a => rfl

private theorem g_last {M : ℝ} : ∀ o ∈ lastOps z, Guards (Within M) o := by
  intro o h
  unfold lastOps at h
  rcases List.mem_append.mp h with h | h
  · cases hm : z.hMode
    all_goals rw [hm] at h; simp only [List.mem_cons, List.not_mem_nil, or_false] at h
    · subst h; exact g_all fun a => rfl
    · subst h; exact fun x a h => h
  · obtain rfl := List.mem_singleton.mp h
    intro a x ha hx
    simp only at hx
    split_ifs at hx
    obtain rfl := Option.some.inj hx; exact ha

private theorem g_energy {M : ℝ} (dt : ℝ) (it : Int) (m : Nat) : ∀ o ∈ energyOps z dt it m, Guards (Within M) o := by
  induction m with
  | zero => intro o h; cases h
  | succ m ih =>
    intro o h
    unfold energyOps at h
    have hT : Guards (Within M) (.all (Eos.recomputePressureSoundspeedThermokinetic z.eos z.eosParams z.phi dt)) := by
      intro a x ha hx; obtain ⟨u, P, c, rfl⟩ := recomputeT_keep _ _ _ _ _ _ hx; exact ha
    have hU : Guards (Within M) (.all fun a => some (Eos.recomputePressureSoundspeed (d := i + 1) z.eos z.eosParams dt a)) :=
      g_all fun a => by obtain ⟨P, c, e⟩ := recompute_keep z.eos z.eosParams dt a; rw [e]
    have hP : ∀ k, Guards (Within M) (.pass k fun a l => some (computeDudt z.sph it a l)) := fun k => g_pass fun a l => by unfold computeDudt; split_ifs <;> rfl
    rcases List.mem_append.mp h with h | h
    · rcases List.mem_append.mp h with h | h
      · split_ifs at h
        all_goals simp only [List.mem_append, List.mem_cons, List.not_mem_nil, or_false, false_or] at h
        · rcases h with rfl | rfl | rfl
          exacts [g_pass fun a l => rfl, g_all fun a => rfl, hT]
        · rcases h with rfl | rfl
          exacts [g_pass fun a l => rfl, hT]
        · rcases h with rfl | rfl | rfl
          exacts [hP _, g_all fun a => rfl, hU]
        · rcases h with rfl | rfl
          exacts [hP _, hU]
      · split_ifs at h
        · obtain rfl := List.mem_singleton.mp h; trivial
        · cases h
    · exact ih o h

private theorem g_evolve {M : ℝ} (dt : ℝ) (it : Int) : ∀ o ∈ (if z.evolve then energyOps z dt it z.updates else []), Guards (Within M) o := by
  intro o h
  split_ifs at h
  · exact g_energy _ _ _ o h
  · cases h

private theorem g_total {M : ℝ} : ∀ o ∈ (if z.thermokinetic then [Op.all fun a : Particle (i + 1) => some (setTotalEnergy z.phi a)] else []), Guards (Within M) o := by
  intro o h
  split_ifs at h
  · obtain rfl := List.mem_singleton.mp h; exact g_all fun a => rfl
  · cases h

private theorem g_rest {M : ℝ} (dt : ℝ) (it : Int) : ∀ o ∈ firstRest z dt it, Guards (Within M) o := by
  intro o h
  unfold firstRest at h
  rcases List.mem_append.mp h with h | h
  exacts [g_evolve dt it o h, g_last o h]

private theorem g_tail {M : ℝ} (c : Timestep.Clock) : ∀ o ∈ tailOps z c, Guards (Within M) o := by
  intro o h
  unfold tailOps at h
  rcases List.mem_append.mp h with h | h
  · by_cases hc : c.iteration = z.initialIteration
    · rw [if_pos hc] at h
      unfold firstTail at h
      rcases List.mem_append.mp h with h | h
      · rcases List.mem_append.mp h with h | h
        exacts [g_relax _ o h, g_total o h]
      · exact g_evolve _ _ o h
    · rw [if_neg hc] at h
      unfold nextTail at h
      rcases List.mem_append.mp h with h | h
      · rcases List.mem_append.mp h with h | h
        · rcases List.mem_append.mp h with h | h
          · exact g_relax _ o h
          · simp only [List.mem_cons, List.not_mem_nil, or_false] at h
            rcases h with rfl | rfl
            exacts [g_all fun a => rfl, trivial]
        · exact g_evolve _ _ o h
      · exact g_kick _ o h
  · exact g_last o h

private theorem g_mid {M : ℝ} (it : Int) : ∀ o ∈ AdaptNewton.midOps z it, Guards (Within M) o := by
  intro o h
  unfold AdaptNewton.midOps at h
  rcases List.mem_append.mp h with h | h
  exacts [g_relax it o h, g_total o h]

private theorem g_end {M : ℝ} {ops : List (Op (Particle (i + 1)))} (h : ∀ o ∈ ops, Guards (Within M) o) : ∀ o ∈ ops ++ [stepOp z], Guards (Within M) o := by
  intro o ho
  rcases List.mem_append.mp ho with ho | ho
  · exact h o ho
  · obtain rfl := List.mem_singleton.mp ho; exact g_step

section
variable (hmax : 0 ≤ z.alphaMax) (hdel : 0 ≤ z.delta) (hl : 0 < z.l)
include hmax hdel hl

private theorem g_next {dt : ℝ} (hdt : 0 ≤ dt) (it : Int) : ∀ o ∈ nextOps z dt it ++ lastOps z, Guards (Within z.alphaMax) o := by
  intro o h
  unfold nextOps at h
  simp only [List.mem_append, List.mem_cons, List.not_mem_nil, or_false] at h
  rcases h with (((((((h | rfl | rfl | rfl | rfl | rfl)) | h) | h) | rfl | rfl) | h) | h) | h
  · exact g_kick dt o h
  · exact g_all fun a => rfl
  · exact g_all fun a => rfl
  · exact g_all fun a => rfl
  · trivial
  · exact g_density dt
  · exact g_alpha hmax hdel hl hdt o h
  · exact g_force it o h
  · exact g_all fun a => rfl
  · trivial
  · exact g_evolve dt it o h
  · exact g_kick dt o h
  · exact g_last o h

variable (hv : z.sph.visc = .cullen)
include hv

private theorem init_within (a x : Particle (i + 1)) (h : some (Cullen.initializeAlpha z.sph a) = some x) : Within z.alphaMax x := by
  obtain rfl := Option.some.inj h
  unfold Within Cullen.initializeAlpha
  rw [hv]
  exact ⟨le_rfl, hmax⟩

/-- The first iteration of the hydro driver. -/
private theorem first_within {near : (Fin n → Particle (i + 1)) → (Fin n → List (Fin n)) → Prop} {procs : Nat} {te : Bool} {J : Particle (i + 1) → Prop} {dt : ℝ} (hdt : 0 ≤ dt) {it : Int}
    {ops : List (Op (Particle (i + 1)))} (ho : ∀ o ∈ ops, Guards (Within z.alphaMax) o) {home : Fin n → Nat} {d : DState (Particle (i + 1)) n} {x : (Fin n → Nat) × DState (Particle (i + 1)) n}
    (hF : Fit (firstForces z dt it ++ ops) false Sized te J) (hs : ∀ a, Sized (d.val a)) (h : DExec near procs (firstForces z dt it ++ ops) home d (some x)) : ∀ a, Within z.alphaMax (x.2.val a) := by
  obtain ⟨A, hA⟩ : ∃ A, A = [Op.update, .all fun a : Particle (i + 1) => some (Eos.init z.eos z.eosParams a)] ++ (if z.thermokinetic then [.all fun a => some (setTotalEnergy z.phi a)] else []) := ⟨_, rfl⟩
  have e : firstForces z dt it ++ ops = A ++ .all (fun a => some (Cullen.initializeAlpha z.sph a)) :: ([densityOp z dt, .all fun a => some (saveVelocityhalf a)] ++ alphaOps z dt ++ forceOps z it ++ ops) := by
    rw [hA]; unfold firstForces; rw [hv]; simp only [List.append_assoc, List.cons_append, List.nil_append]
  rw [e] at hF h
  refine exec_begin h hF hs (fun a x => init_within hmax hdel hl hv a x) fun o h => ?_
  simp only [List.mem_append, List.mem_cons, List.not_mem_nil, or_false] at h
  rcases h with (((rfl | rfl) | h) | h) | h
  exacts [g_density dt, g_all fun a => rfl, g_alpha hmax hdel hl hdt o h, g_force it o h, ho o h]

/-- The calls of the newtonian driver before gravity. -/
private theorem head_within {near : (Fin n → Particle (i + 1)) → (Fin n → List (Fin n)) → Prop} {procs : Nat} {c : Timestep.Clock} (hdt : 0 ≤ c.dt) {home : Fin n → Nat} {d : DState (Particle (i + 1)) n}
    {x : (Fin n → Nat) × DState (Particle (i + 1)) n} (hs : ∀ a, Sized (d.val a)) (hR : c.iteration ≠ z.initialIteration → ∀ a, Within z.alphaMax (d.val a))
    (h : DExec near procs (headOps z c) home d (some x)) : ∀ a, Within z.alphaMax (x.2.val a) := by
  have hF := fit_head z c
  by_cases hc : c.iteration = z.initialIteration
  · have e : headOps z c = [Op.update, .all fun a : Particle (i + 1) => some (Eos.init z.eos z.eosParams a)] ++ .all (fun a => some (Cullen.initializeAlpha z.sph a)) ::
        ((if z.thermokinetic then [.all fun a => some (setTotalEnergy z.phi a)] else []) ++ [densityOp z c.dt, .all fun a => some (saveVelocityhalf a)] ++ alphaOps z c.dt ++ accOps z) := by
      unfold headOps firstHead; rw [if_pos hc, hv]; simp only [List.append_assoc, List.cons_append, List.nil_append]
    rw [e] at hF h
    refine exec_begin h hF hs (fun a x => init_within hmax hdel hl hv a x) fun o h => ?_
    rcases List.mem_append.mp h with h | h
    · rcases List.mem_append.mp h with h | h
      · rcases List.mem_append.mp h with h | h
        · exact g_total o h
        · simp only [List.mem_cons, List.not_mem_nil, or_false] at h
          rcases h with rfl | rfl
          exacts [g_density c.dt, g_all fun a => rfl]
      · exact g_alpha hmax hdel hl hdt o h
    · exact g_acc o h
  · refine exec_range h hF hs (fun o h => ?_) (hR hc) x rfl
    unfold headOps nextHead at h
    rw [if_neg hc] at h
    simp only [List.mem_append, List.mem_cons, List.not_mem_nil, or_false] at h
    rcases h with ((h | rfl | rfl | rfl | rfl | rfl) | h) | h
    exacts [g_kick _ o h, g_all fun a => rfl, g_all fun a => rfl, g_all fun a => rfl, trivial, g_density _, g_alpha hmax hdel hl hdt o h, g_acc o h]

end
end

private theorem pull_alpha {z : Config i} (g : Gravity) (hbits : i.val + 1 < g.bits) (hn : 2 ≤ n) {m : Nat} {c : Timestep.Clock} {home home' : Fin n → Nat} {d d' : DState (Particle (i + 1)) n}
    {v : Fin n → Particle (i + 1)} (hs : ∀ a, Sized (d.val a)) (hid : ∀ a b, (d.val a).id = (d.val b).id → a = b) (h1 : DExec NearLists (2 ^ m) (headOps z c) home d (some (home', d')))
    (h2 : Separate (Key.maxDepth g.bits (i + 1)) fun a => bodyOf (d'.val a)) (h3 : Gravitated g m d'.val v) : ∀ a, (v a).alpha = (d'.val a).alpha := by
  have k := exec_fit h1 (fit_head z c) hs _ rfl
  obtain ⟨pot, acc, -, rfl⟩ := GravityConserve.gravity_of g hbits hn (fun a => (k a).1) (fun a b e => hid a b (by rw [← (k a).2, ← (k b).2]; exact e)) h2 h3
  exact fun a => rfl

/-! ### Whole runs -/

section
variable {z : Config i} (hv : z.sph.visc = .cullen) (he : 0 < z.eta) (hw : 0 < z.width) (hmax : 0 ≤ z.alphaMax) (hdel : 0 ≤ z.delta) (hl : 0 < z.l)
include hv he hw hmax hdel hl

/-- The hydro driver with a fixed step, on any number of processes: after every number of iterations the parameter of every particle is between 0 and the maximum. -/
theorem C58_fixed_partial {procs N : Nat} (hN : 0 < N) {c c' : Timestep.Clock} (hstart : c.iteration = z.initialIteration) (hdt : 0 ≤ c.dt) {home : Fin n → Nat} {d : DState (Particle (i + 1)) n}
    (hpos : ∀ a, 0 < (d.val a).mass ∧ 0 < (d.val a).h) {s : Fin n → Particle (i + 1)} (h : DRun NearLists procs z N c home d (some (c', s))) : ∀ a, 0 ≤ (s a).alpha ∧ (s a).alpha ≤ z.alphaMax := by
  have iter : ∀ {c : Timestep.Clock} {home home' : Fin n → Nat} {d d' : DState (Particle (i + 1)) n}, DExec NearLists procs (iterationOps z c) home d (some (home', d')) → 0 ≤ c.dt → (∀ a, Sized (d.val a)) →
      (c.iteration ≠ z.initialIteration → ∀ a, Within z.alphaMax (d.val a)) → ∀ a, Sized (d'.val a) ∧ Within z.alphaMax (d'.val a) := by
    intro c home home' d d' h hc hs hR a
    have hF := fit_fixed z he hw c
    refine ⟨(exec_fit h hF hs _ rfl a).1, ?_⟩
    unfold iterationOps at h hF
    split_ifs at h hF with h0
    · rw [firstOps_eq] at h hF
      exact first_within hmax hdel hl hv hc (g_rest _ _) hF hs h a
    · exact exec_range h hF hs (g_next hmax hdel hl hc _) (hR h0) _ rfl a
  have gen : ∀ {N : Nat} {c : Timestep.Clock} {home : Fin n → Nat} {d : DState (Particle (i + 1)) n} {r : Option (Timestep.Clock × (Fin n → Particle (i + 1)))}, DRun NearLists procs z N c home d r →
      0 ≤ c.dt → (∀ a, Sized (d.val a) ∧ Within z.alphaMax (d.val a)) → ∀ c' s, r = some (c', s) → ∀ a, Within z.alphaMax (s a) := by
    intro N c home d r h
    induction h with
    | nil => intro _ hR c' s e; cases e; exact fun a => (hR a).2
    | fail => intro _ _ c' s e; cases e
    | cons h1 _ ih => intro hc hR c' s e; exact ih hc (iter h1 hc (fun a => (hR a).1) fun _ a => (hR a).2) c' s e
  cases h with
  | nil => exact absurd hN (lt_irrefl 0)
  | cons h1 h2 => exact gen h2 hdt (iter h1 hdt hpos fun h => absurd hstart h) _ _ rfl

/-- The hydro driver with an adaptive step, as long as the steps are not negative (without timed outputs they are positive, `C97_limits_partial`; with them, `C103_hydro_partial`). -/
theorem C58_adaptive_partial {procs N : Nat} (hN : 0 < N) {c c' : Timestep.Clock} (hstart : c.iteration = z.initialIteration) (hdt : 0 ≤ c.dt) {home : Fin n → Nat} {d : DState (Particle (i + 1)) n}
    (hpos : ∀ a, 0 < (d.val a).mass ∧ 0 < (d.val a).h) {steps : List (Timestep.Clock × Timestep.Clock)} {s : Fin n → Particle (i + 1)} (h : ARun NearLists procs z N c home d steps (some (c', s)))
    (hsteps : ∀ x ∈ steps, 0 ≤ x.2.dt) : ∀ a, 0 ≤ (s a).alpha ∧ (s a).alpha ≤ z.alphaMax := by
  have iter : ∀ {c c1 c2 : Timestep.Clock} {home home' : Fin n → Nat} {d d' : DState (Particle (i + 1)) n}, AIter NearLists procs z c home d (some (c1, c2, home', d')) → 0 ≤ c.dt → (∀ a, Sized (d.val a)) →
      (c.iteration ≠ z.initialIteration → ∀ a, Within z.alphaMax (d.val a)) → ∀ a, Sized (d'.val a) ∧ Within z.alphaMax (d'.val a) := by
    intro c c1 c2 home home' d d' h hc hs hR a
    cases h with
    | first h0 h1 _ h2 =>
      have f1 := exec_fit h1 (fit_adapt1 z _ _) hs _ rfl
      have k1 := first_within hmax hdel hl hv hc (fun o ho => by obtain rfl := List.mem_singleton.mp ho; exact g_step) (fit_adapt1 z _ _) hs h1
      exact ⟨(exec_fit h2 (fit_adapt2 z he hw _ _) (fun a => (f1 a).1) _ rfl a).1, exec_range h2 (fit_adapt2 z he hw _ _) (fun a => (f1 a).1) (g_end (g_rest _ _)) k1 _ rfl a⟩
    | next h0 h1 =>
      exact ⟨(exec_fit h1 (fit_adapt3 z he hw _ _) hs _ rfl a).1, exec_range h1 (fit_adapt3 z he hw _ _) hs (g_end (g_next hmax hdel hl hc _)) (hR h0) _ rfl a⟩
  have gen : ∀ {N : Nat} {c : Timestep.Clock} {home : Fin n → Nat} {d : DState (Particle (i + 1)) n} {steps : List (Timestep.Clock × Timestep.Clock)} {r : Option (Timestep.Clock × (Fin n → Particle (i + 1)))},
      ARun NearLists procs z N c home d steps r → (∀ x ∈ steps, 0 ≤ x.2.dt) → 0 ≤ c.dt → (∀ a, Sized (d.val a) ∧ Within z.alphaMax (d.val a)) → ∀ c' s, r = some (c', s) → ∀ a, Within z.alphaMax (s a) := by
    intro N c home d steps r h
    induction h with
    | nil => intro _ _ hR c' s e; cases e; exact fun a => (hR a).2
    | fail => intro _ _ _ c' s e; cases e
    | cons h1 _ ih =>
      intro hS hc hR c' s e
      exact ih (fun x hx => hS x (List.mem_cons_of_mem _ hx)) (hS _ List.mem_cons_self) (iter h1 hc (fun a => (hR a).1) fun _ a => (hR a).2) c' s e
  cases h with
  | nil => exact absurd hN (lt_irrefl 0)
  | cons h1 h2 => exact gen h2 (fun x hx => hsteps x (List.mem_cons_of_mem _ hx)) (hsteps _ List.mem_cons_self) (iter h1 hdt hpos fun h => absurd hstart h) _ _ rfl

/-- The newtonian driver with self-gravity and a fixed step, on `2^m` processes. -/
theorem C58_newton_partial (g : Gravity) (hbits : i.val + 1 < g.bits) (hn : 2 ≤ n) {m N : Nat} (hN : 0 < N) {c c' : Timestep.Clock} (hstart : c.iteration = z.initialIteration) (hdt : 0 ≤ c.dt)
    {home : Fin n → Nat} {d : DState (Particle (i + 1)) n} (hpos : ∀ a, 0 < (d.val a).mass ∧ 0 < (d.val a).h) (hid : ∀ a b, (d.val a).id = (d.val b).id → a = b) {s : Fin n → Particle (i + 1)}
    (h : Newtonian.Run NearLists g m z N c home d (.done c' s)) : ∀ a, 0 ≤ (s a).alpha ∧ (s a).alpha ≤ z.alphaMax := by
  have gen : ∀ {N : Nat} {c : Timestep.Clock} {home : Fin n → Nat} {d : DState (Particle (i + 1)) n} {r : Outcome i n}, Newtonian.Run NearLists g m z N c home d r →
      0 ≤ c.dt → (∀ a, Sized (d.val a)) → (∀ a b, (d.val a).id = (d.val b).id → a = b) → (c.iteration ≠ z.initialIteration → ∀ a, Within z.alphaMax (d.val a)) → z.initialIteration ≤ c.iteration →
      (N = 0 → ∀ a, Within z.alphaMax (d.val a)) → ∀ c' s, r = .done c' s → ∀ a, Within z.alphaMax (s a) := by
    intro N c home d r h
    induction h with
    | nil => intro _ _ _ _ _ h0 c' s e; cases e; exact h0 rfl
    | failHead => intro _ _ _ _ _ _ c' s e; cases e
    | clash => intro _ _ _ _ _ _ c' s e; cases e
    | failTail => intro _ _ _ _ _ _ c' s e; cases e
    | @cons N c home home' home'' d d' d'' v r h1 h2 h3 h4 _ ih =>
      intro hc hs hi hR hle _ c' s e
      obtain ⟨e1, e2, e3⟩ := AdaptNewton.pull_fit g hbits hn hs hi h1 h2 h3
      have k0 := head_within hmax hdel hl hv hc hs hR h1
      have ka : ∀ a, (v a).alpha = (d'.val a).alpha := pull_alpha g hbits hn hs hi h1 h2 h3
      have k1 : ∀ a, Within z.alphaMax (v a) := fun a => by unfold Within; rw [ka]; exact k0 a
      have f2 := exec_fit h4 (fit_tail z he hw c) e1 _ rfl
      have k2 := exec_range h4 (fit_tail z he hw c) e1 (g_tail c) k1 _ rfl
      exact ih hc (fun a => (f2 a).1) (fun a b h => hi a b (by rw [← e3, ← e3, ← (f2 a).2, ← (f2 b).2]; exact h)) (fun _ => k2) (by show _ ≤ c.iteration + 1; omega) (fun _ => k2) c' s e
  exact gen h hdt hpos hid (fun h => absurd hstart h) hstart.ge (fun h => absurd h hN.ne') _ _ rfl

/-- The newtonian driver with self-gravity and an adaptive step, as long as the steps are not negative (`C101_limits_partial`, `C103_newton_partial`). -/
theorem C58_newton_adaptive_partial (g : Gravity) (hbits : i.val + 1 < g.bits) (hn : 2 ≤ n) {m N : Nat} (hN : 0 < N) {c c' : Timestep.Clock} (hstart : c.iteration = z.initialIteration) (hdt : 0 ≤ c.dt)
    {home : Fin n → Nat} {d : DState (Particle (i + 1)) n} (hpos : ∀ a, 0 < (d.val a).mass ∧ 0 < (d.val a).h) (hid : ∀ a b, (d.val a).id = (d.val b).id → a = b)
    {steps : List (Timestep.Clock × Timestep.Clock)} {s : Fin n → Particle (i + 1)} (h : AdaptNewton.Run NearLists g m z N c home d steps (.done c' s)) (hsteps : ∀ x ∈ steps, 0 ≤ x.2.dt) :
    ∀ a, 0 ≤ (s a).alpha ∧ (s a).alpha ≤ z.alphaMax := by
  have iter : ∀ {c c1 c2 : Timestep.Clock} {home home' : Fin n → Nat} {d d' : DState (Particle (i + 1)) n}, AdaptNewton.Iter NearLists g m z c home d (.done c1 c2 home' d') → 0 ≤ c.dt → (∀ a, Sized (d.val a)) →
      (∀ a b, (d.val a).id = (d.val b).id → a = b) → (c.iteration ≠ z.initialIteration → ∀ a, Within z.alphaMax (d.val a)) →
      (∀ a, Sized (d'.val a)) ∧ (∀ a b, (d'.val a).id = (d'.val b).id → a = b) ∧ ∀ a, Within z.alphaMax (d'.val a) := by
    intro c c1 c2 home home' d d' h hc hs hi hR
    cases h with
    | first h0 h1 h2 h3 h4 h5 h6 =>
      obtain ⟨e1, e2, e3⟩ := AdaptNewton.pull_fit g hbits hn hs hi h1 h2 h3
      have k0 := head_within hmax hdel hl hv hc hs hR h1
      have ka := pull_alpha g hbits hn hs hi h1 h2 h3
      have f1 := exec_fit h4 (AdaptNewton.fit_mid z _) e1 _ rfl
      have k1 := exec_range h4 (AdaptNewton.fit_mid z _) e1 (g_end (g_mid _)) (fun a => by unfold Within; rw [show (_ : Particle (i + 1)).alpha = _ from ka a]; exact k0 a) _ rfl
      have f2 := exec_fit h6 (fit_adapt2 z he hw _ _) (fun a => (f1 a).1) _ rfl
      have k2 := exec_range h6 (fit_adapt2 z he hw _ _) (fun a => (f1 a).1) (g_end (g_rest _ _)) k1 _ rfl
      exact ⟨fun a => (f2 a).1, fun a b h => hi a b (by rw [← e3, ← e3, ← (f1 a).2, ← (f1 b).2, ← (f2 a).2, ← (f2 b).2]; exact h), k2⟩
    | next h0 h1 h2 h3 h4 =>
      obtain ⟨e1, e2, e3⟩ := AdaptNewton.pull_fit g hbits hn hs hi h1 h2 h3
      have k0 := head_within hmax hdel hl hv hc hs hR h1
      have ka := pull_alpha g hbits hn hs hi h1 h2 h3
      have f2 := exec_fit h4 (AdaptNewton.fit_end z he hw _) e1 _ rfl
      have k2 := exec_range h4 (AdaptNewton.fit_end z he hw _) e1 (g_end (g_tail _)) (fun a => by unfold Within; rw [show (_ : Particle (i + 1)).alpha = _ from ka a]; exact k0 a) _ rfl
      exact ⟨fun a => (f2 a).1, fun a b h => hi a b (by rw [← e3, ← e3, ← (f2 a).2, ← (f2 b).2]; exact h), k2⟩
  have gen : ∀ {N : Nat} {c : Timestep.Clock} {home : Fin n → Nat} {d : DState (Particle (i + 1)) n} {steps : List (Timestep.Clock × Timestep.Clock)} {r : Outcome i n},
      AdaptNewton.Run NearLists g m z N c home d steps r → (∀ x ∈ steps, 0 ≤ x.2.dt) → 0 ≤ c.dt → (∀ a, Sized (d.val a)) → (∀ a b, (d.val a).id = (d.val b).id → a = b) →
      (∀ a, Within z.alphaMax (d.val a)) → ∀ c' s, r = .done c' s → ∀ a, Within z.alphaMax (s a) := by
    intro N c home d steps r h
    induction h with
    | nil => intro _ _ _ _ hR c' s e; cases e; exact hR
    | failed => intro _ _ _ _ _ c' s e; cases e
    | clash => intro _ _ _ _ _ c' s e; cases e
    | cons h1 _ ih =>
      intro hS hc hs hi hR c' s e
      obtain ⟨k1, k2, k3⟩ := iter h1 hc hs hi fun _ => hR
      exact ih (fun x hx => hS x (List.mem_cons_of_mem _ hx)) (hS _ List.mem_cons_self) k1 k2 k3 c' s e
  cases h with
  | nil => exact absurd hN (lt_irrefl 0)
  | cons h1 h2 =>
    obtain ⟨k1, k2, k3⟩ := iter h1 hdt hpos hid fun h => absurd hstart h
    exact gen h2 (fun x hx => hsteps x (List.mem_cons_of_mem _ hx)) (hsteps _ List.mem_cons_self) k1 k2 k3 _ _ rfl

section
variable (g : Settings) (hbits : i.val + 1 < g.bits) (hn : 2 ≤ n) (htol : 0 ≤ g.tol) {N : Nat} (hN : 0 < N) {c c' : Timestep.Clock} (hstart : c.iteration = z.initialIteration) (hdt : 0 ≤ c.dt)
  {T : Trees i n m} {d : DState (Particle (i + 1)) n} (hpos : ∀ a, 0 < (d.val a).mass ∧ 0 < (d.val a).h) (hid : ∀ a b, (d.val a).id = (d.val b).id → a = b) (hdiv : Division n (2 ^ m) T.vec)
  {steps : List (Timestep.Clock × Timestep.Clock)} {s : Fin n → Particle (i + 1)}
include hbits hn htol hN hstart hdt hpos hid hdiv

/-- The same for the hydro driver with its trees and messages, fixed step. -/
theorem C58_program_partial (h : Hydro g z N c T d (.done c' s)) : ∀ a, 0 ≤ (s a).alpha ∧ (s a).alpha ≤ z.alphaMax :=
  C58_fixed_partial hv he hw hmax hdel hl hN hstart hdt hpos ((DistConserve.C105_fixed_refines he hw g hbits hn htol h hpos hid hdiv).1 _ _ rfl)

/-- Adaptive step. -/
theorem C58_program_adaptive_partial (h : AdaptProgram.Run g z N c T d steps (.done c' s)) (hsteps : ∀ x ∈ steps, 0 ≤ x.2.dt) : ∀ a, 0 ≤ (s a).alpha ∧ (s a).alpha ≤ z.alphaMax :=
  C58_adaptive_partial hv he hw hmax hdel hl hN hstart hdt hpos ((AdaptProgram.C98_refines he hw g hbits hn htol h hpos hid hdiv).1 _ _ rfl) hsteps

/-- The newtonian driver with its trees and messages, fixed step. -/
theorem C58_program_newton_partial (h : Newton g z N c T d (.done c' s)) : ∀ a, 0 ≤ (s a).alpha ∧ (s a).alpha ≤ z.alphaMax :=
  C58_newton_partial hv he hw hmax hdel hl g.toGravity hbits hn hN hstart hdt hpos hid (C79_newton_refines he hw g hbits hn htol h hpos hid hdiv fun _ => by simp)

/-- Adaptive step. -/
theorem C58_program_newton_adaptive_partial (h : NewtonProgram.Run g z N c T d steps (.done c' s)) (hsteps : ∀ x ∈ steps, 0 ≤ x.2.dt) : ∀ a, 0 ≤ (s a).alpha ∧ (s a).alpha ≤ z.alphaMax :=
  C58_newton_adaptive_partial hv he hw hmax hdel hl g.toGravity hbits hn hN hstart hdt hpos hid (NewtonProgram.C102_refines he hw g hbits hn htol h hpos hid hdiv fun _ => by simp) hsteps

end
end
/-! ### Non-vacuity: runs of two particles on two processes -/

section
open FleCSPH.DistConserve

/-- With a fixed and an adaptive step the hydro driver ends, and the parameters are in the range. -/
example (dt : ℝ) (hdt : 0 < dt) : (∃ x, DRun NearLists 2 viscous 1 (RunExamples.start dt).clock (fun a => a.val) ⟨RunExamples.two, fun _ b => some (RunExamples.two b), []⟩ (some x) ∧
      ∀ a, 0 ≤ (x.2 a).alpha ∧ (x.2 a).alpha ≤ 2) ∧
    ∃ steps x, ARun NearLists 2 viscous 1 (RunExamples.start dt).clock (fun a => a.val) ⟨RunExamples.two, fun _ b => some (RunExamples.two b), []⟩ steps (some x) ∧
      ∀ a, 0 ≤ (x.2 a).alpha ∧ (x.2 a).alpha ≤ 2 := by
  have he : 0 < viscous.eta := by norm_num [viscous, RunExamples.gas]
  have hw : 0 < viscous.width := by norm_num [viscous, RunExamples.gas]
  have hM : viscous.alphaMax = 2 := by norm_num [viscous, RunExamples.gas]
  have hd : 0 ≤ viscous.delta := by norm_num [viscous, RunExamples.gas]
  have hl : 0 < viscous.l := by norm_num [viscous, RunExamples.gas]
  obtain ⟨⟨x, hx⟩, steps, y, hy⟩ := viscous_runs dt
  refine ⟨⟨x, hx, ?_⟩, steps, y, hy, ?_⟩
  · rw [← hM]
    exact C58_fixed_partial (z := viscous) rfl he hw (by rw [hM]; norm_num) hd hl Nat.one_pos rfl hdt.le (fun a => ⟨one_pos, one_pos⟩) hx
  · rw [← hM]
    obtain ⟨-, -, h2, -⟩ := C97_limits_partial (z := viscous) he hw (by norm_num [viscous, RunExamples.gas])
      (by norm_num [viscous, RunExamples.gas]) (fun _ => le_rfl) Nat.one_pos (fun a => a.2) (fun a => ⟨one_pos, one_pos⟩) (fun _ => le_rfl) hdt hy
    exact C58_adaptive_partial (z := viscous) rfl he hw (by rw [hM]; norm_num) hd hl Nat.one_pos rfl hdt.le (fun a => ⟨one_pos, one_pos⟩) hy fun x hx => (h2 x hx).le

/-- The same gas, its energy not evolved. -/
noncomputable def calm : Config 1 := { viscous with thermokinetic := false, evolve := false }

private def V (a : Fin 2) (x : Particle 2) : Prop := x.mass = 1 ∧ x.h = 1 ∧ x.pos = (RunExamples.two a).pos ∧ x.vel = (RunExamples.two a).vel ∧ x.cs = 1 ∧ x.P = 1
private def VD (a : Fin 2) (x : Particle 2) : Prop := (V a x ∧ 0 < x.rho) ∧ x.id = a.val

private theorem signal_pos {x : Particle 2} {a : Fin 2} (hx : V a x) {ys : Fin 2 → Particle 2} (hy : ∀ b, V b (ys b)) : 0 < (computeSignalspeed x ((List.finRange 2).map ys)).vsig := by
  have hmono : ∀ (l : List (Particle 2)) (v : ℝ), v ≤ l.foldl (fun vsig b => if b.pos = x.pos then vsig else max vsig (max x.cs b.cs -
      min (dot (x.vel - b.vel) (fun j => (x.pos j - b.pos j) / distance x.pos b.pos)) 0)) v := by
    intro l
    induction l with
    | nil => intro v; exact le_rfl
    | cons b l ih =>
      intro v
      rw [List.foldl_cons]
      refine le_trans ?_ (ih _)
      split_ifs
      · exact le_rfl
      · exact le_max_left _ _
  have hstep : ∀ (b : Particle 2) (v : ℝ), b.pos ≠ x.pos → 1 ≤ max v (max x.cs b.cs - min (dot (x.vel - b.vel) (fun j => (x.pos j - b.pos j) / distance x.pos b.pos)) 0) := by
    intro b v _
    have h1 : (1 : ℝ) ≤ max x.cs b.cs := by rw [hx.2.2.2.2.1]; exact le_max_left _ _
    have h2 := min_le_right (dot (x.vel - b.vel) (fun j => (x.pos j - b.pos j) / distance x.pos b.pos)) 0
    exact le_trans (by linarith) (le_max_right _ _)
  have e : (List.finRange 2).map ys = [ys 0, ys 1] := by simp [List.finRange_succ]
  have p0 := (hy 0).2.2.1
  have p1 := (hy 1).2.2.1
  have px := hx.2.2.1
  rw [e]
  refine lt_of_lt_of_le one_pos ?_
  show 1 ≤ List.foldl _ _ _
  fin_cases a
  · have hne : (ys 1).pos ≠ x.pos := by rw [p1, px]; exact two_apart
    rw [List.foldl_cons, List.foldl_cons, List.foldl_nil, if_neg hne]
    exact hstep _ _ hne
  · have hne : (ys 0).pos ≠ x.pos := by rw [p0, px]; exact two_apart.symm
    rw [List.foldl_cons, if_neg hne]
    exact le_trans (hstep _ _ hne) (hmono _ _)

private theorem alpha_some {x : Particle 2} {a : Fin 2} (hx : V a x) {ys : Fin 2 → Particle 2} (hy : ∀ b, V b (ys b)) (dt : ℝ) :
    ∃ y, Cullen.computeAlpha calm.sph ⟨calm.alphaMax, calm.delta, calm.l, dt⟩ x ((List.finRange 2).map ys) = some { x with alpha := y } := by
  have hs := signal_pos hx hy
  have ht : 0 ≤ Cullen.aTrigger calm.sph x ((List.finRange 2).map ys) := by
    unfold Cullen.aTrigger
    refine mul_nonneg ?_ (le_max_right _ _)
    unfold Cullen.computeXi
    dsimp only
    split_ifs
    · exact le_rfl
    · refine div_nonneg (mul_self_nonneg _) (add_nonneg (mul_self_nonneg _) (Finset.sum_nonneg fun j _ => Finset.sum_nonneg fun k _ => mul_self_nonneg _))
  have hden : 0 < calm.delta * ((computeSignalspeed x ((List.finRange 2).map ys)).vsig / x.h * ((computeSignalspeed x ((List.finRange 2).map ys)).vsig / x.h)) + Cullen.aTrigger calm.sph x ((List.finRange 2).map ys) := by
    have hd : calm.delta = 1 / 10 := rfl
    rw [hd, hx.2.1]
    positivity
  unfold Cullen.computeAlpha
  dsimp only
  rw [if_neg hden.ne', if_neg hs.ne']
  split_ifs
  · exact ⟨_, rfl⟩
  · exact ⟨_, rfl⟩

private theorem density_ok {x : Particle 2} {a : Fin 2} (hx : V a x ∧ x.id = a.val) {ys : Fin 2 → Particle 2} (hy : ∀ b, V b (ys b)) (hself : ys a = x) (dt : ℝ) :
    ∃ y, Eos.computeDensityPressureSoundspeed calm.sph calm.eos calm.eosParams (setup calm dt) x ((List.finRange 2).map ys) = some y ∧ VD a y := by
  obtain ⟨r, hr, hd⟩ : ∃ r, 0 < r ∧ computeDensity calm.sph x ((List.finRange 2).map ys) = some { x with rho := r } := ⟨_, density_some (i := 1) calm.sph (Or.inl Kernels.Poly.wendlandC4) x ((List.finRange 2).map ys)
      ⟨x, List.mem_map.mpr ⟨a, List.mem_finRange a, hself⟩, rfl⟩
      (fun b hb => by obtain ⟨c, _, rfl⟩ := List.mem_map.mp hb; rw [(hy c).1]; exact one_pos) (by rw [hx.1.2.1]; exact one_pos)
      (fun b hb => by obtain ⟨c, _, rfl⟩ := List.mem_map.mp hb; rw [(hy c).2.1]; exact one_pos)⟩
  rw [Eos.computeDensityPressureSoundspeed, hd, Option.bind_eq_bind, Option.bind_some, Eos.recoverIf, if_neg (show ¬(setup calm dt).thermokinetic = true from Bool.false_ne_true)]
  exact ⟨_, rfl, ⟨hx.1, hr⟩, hx.2⟩

private theorem can_head {home : Fin 2 → Nat} {procs : Nat} (hh : ∀ a, home a < procs) (dt : ℝ) :
    Can (i := 1) procs home (headOps calm (RunExamples.start dt).clock) V (fun a x => V a x ∧ x.id = a.val) VD := by
  have e : headOps calm (RunExamples.start dt).clock = [.update, .all fun a => some (Eos.init .noEos calm.eosParams a), .all fun a => some (Cullen.initializeAlpha calm.sph a), densityOp calm dt,
      .all fun a => some (saveVelocityhalf a), .pass 1 (Cullen.computeAlpha calm.sph ⟨calm.alphaMax, calm.delta, calm.l, dt⟩), .reset, .pass 2 fun a l => some (computeAcceleration calm.sph a l)] := by
    unfold headOps
    rw [if_pos (show (RunExamples.start dt).clock.iteration = calm.initialIteration from rfl)]
    rfl
  rw [e]
  refine can_update hh (fun _ _ h => h.1) (can_all (V1 := fun a x => V a x ∧ x.id = a.val) (fun a x h => ⟨_, rfl, h⟩) (can_all (V1 := fun a x => V a x ∧ x.id = a.val) (fun a x h => ⟨_, rfl, h⟩) ?_))
  refine can_pass (V1 := VD) (fun _ _ h => h.1) (fun _ _ h => ⟨h.1.1, h.2⟩) (fun a x ys h1 h2 h3 => density_ok h1 h2 h3 dt) ?_
  refine can_all (V1 := VD) (fun a x h => ⟨_, rfl, h⟩) ?_
  refine can_pass (V1 := VD) (fun _ _ h => h.1.1) (fun _ _ h => h) (fun a x ys h1 h2 _ => ?_) ?_
  · obtain ⟨y, hy⟩ := alpha_some h1.1.1 h2 dt
    exact ⟨_, hy, h1⟩
  exact can_reset (fun _ _ h => h.1.1) (can_pass (V1 := VD) (fun _ _ h => h.1.1) (fun _ _ h => h) (fun a x ys h1 _ _ => ⟨_, rfl, h1⟩) can_nil)

private theorem can_last {home : Fin 2 → Nat} {procs : Nat} {t : List (Op (Particle (((1 : Fin 3) : ℕ) + 1)))} {V' : Fin 2 → Particle 2 → Prop} (ht : Can (i := 1) procs home t V VD V') :
    Can (i := 1) procs home (lastOps calm ++ t) V VD V' := by
  have e : lastOps calm = [.all fun a => open Classical in if 0 ≤ a.rho ∧ 0 ≤ a.P ∧ (calm.evolve = true → 0 ≤ a.u) then some a else none] := rfl
  rw [e, List.cons_append, List.nil_append]
  exact can_all (V1 := VD) (fun a x h => ⟨x, if_pos ⟨h.1.2.le, by rw [h.1.1.2.2.2.2.2]; exact zero_le_one, fun h => by cases h⟩, h⟩) ht

private theorem can_step {home : Fin 2 → Nat} {procs : Nat} : Can (i := 1) procs home [stepOp calm] V VD VD :=
  can_all (fun a x h => ⟨_, if_neg Bool.false_ne_true, h⟩) can_nil

/-- The first iteration of the newtonian driver with self-gravity ends too, with a fixed and with an adaptive step. -/
theorem calm_runs (dt : ℝ) : (∃ c s, Newtonian.Run NearLists ⟨64, 1000, 0, 1⟩ 1 calm 1 (RunExamples.start dt).clock (fun a => a.val) ⟨RunExamples.two, fun _ b => some (RunExamples.two b), []⟩ (.done c s)) ∧
    ∃ steps c s, AdaptNewton.Run NearLists ⟨64, 1000, 0, 1⟩ 1 calm 1 (RunExamples.start dt).clock (fun a => a.val) ⟨RunExamples.two, fun _ b => some (RunExamples.two b), []⟩ steps (.done c s) := by
  have hV : ∀ a, V a (RunExamples.two a) := fun a => ⟨rfl, rfl, rfl, rfl, rfl, rfl⟩
  have hSt : St V (fun a x => V a x ∧ x.id = a.val) (⟨RunExamples.two, fun _ b => some (RunExamples.two b), []⟩ : DState (Particle 2) 2) := ⟨fun _ b => ⟨_, rfl, hV b⟩, fun a => ⟨hV a, rfl⟩, rfl⟩
  obtain ⟨d, h1, h2⟩ := can_head (procs := 2) (home := fun a : Fin 2 => a.val) (fun a => a.2) dt _ hSt
  have eb : (fun a => bodyOf (i := 1) (d.val a)) = fun a => bodyOf (i := 1) (RunExamples.two a) := by
    funext a
    obtain ⟨⟨⟨w1, w2, w3, -⟩, -⟩, -⟩ := h2.val a
    simp only [bodyOf]
    rw [w1, w2, w3]; rfl
  have hsep : Separate (Key.maxDepth 64 2) fun a => bodyOf (i := 1) (d.val a) := by rw [eb]; exact two_separate
  obtain ⟨pot, acc, -, hG⟩ := gravitated_spec (i := 1) (⟨64, 1000, 0, 1⟩ : Gravity) (by decide) le_rfl (fun a => bodyOf (d.val a)) (fun a => by rw [show (bodyOf (i := 1) (d.val a)).mass = _ from (h2.val a).1.1.1]; exact one_pos)
    (fun a => by rw [show (bodyOf (i := 1) (d.val a)).h = _ from (h2.val a).1.1.2.1]; exact one_pos) hsep
  have hg := (hG d.val (fun _ => rfl) (fun a b e => Fin.ext (by rw [← (h2.val a).2, ← (h2.val b).2, e])) 1).1 le_rfl
  have h3 : St V VD ({ d with val := fun a => { d.val a with gpot := pot a, gacc := acc a } } : DState (Particle 2) 2) := ⟨h2.copy, fun a => h2.val a, h2.flight⟩
  refine ⟨?_, ?_⟩
  · have e : tailOps calm (RunExamples.start dt).clock = lastOps calm ++ [] := by
      unfold tailOps
      rw [if_pos (show (RunExamples.start dt).clock.iteration = calm.initialIteration from rfl), List.append_nil]
      unfold firstTail relaxOps
      rw [if_neg (show ¬(RunExamples.start dt).clock.iteration < calm.sph.relaxationSteps from lt_irrefl _)]; rfl
    obtain ⟨d', h4, -⟩ := can_last (procs := 2) (home := fun a : Fin 2 => a.val) can_nil _ h3
    exact ⟨_, _, .cons h1 hsep hg (by rw [e]; exact h4) .nil⟩
  · have e : AdaptNewton.midOps calm (RunExamples.start dt).clock.iteration ++ [stepOp calm] = [stepOp calm] := by
      unfold AdaptNewton.midOps relaxOps
      rw [if_neg (show ¬(RunExamples.start dt).clock.iteration < calm.sph.relaxationSteps from lt_irrefl _)]; rfl
    obtain ⟨d', h4, h5⟩ := can_step (procs := 2) (home := fun a : Fin 2 => a.val) _ h3
    obtain ⟨d'', h6, -⟩ := can_last (procs := 2) (home := fun a : Fin 2 => a.val) can_step _ h5
    exact ⟨_, _, _, .cons (.first rfl h1 hsep hg (by rw [e]; exact h4) rfl h6) .nil⟩

example (dt : ℝ) (hdt : 0 < dt) : (∃ c s, Newtonian.Run NearLists ⟨64, 1000, 0, 1⟩ 1 calm 1 (RunExamples.start dt).clock (fun a => a.val) ⟨RunExamples.two, fun _ b => some (RunExamples.two b), []⟩ (.done c s) ∧
      ∀ a, 0 ≤ (s a).alpha ∧ (s a).alpha ≤ 2) ∧
    ∃ steps c s, AdaptNewton.Run NearLists ⟨64, 1000, 0, 1⟩ 1 calm 1 (RunExamples.start dt).clock (fun a => a.val) ⟨RunExamples.two, fun _ b => some (RunExamples.two b), []⟩ steps (.done c s) ∧
      ∀ a, 0 ≤ (s a).alpha ∧ (s a).alpha ≤ 2 := by
  have he : 0 < calm.eta := by norm_num [calm, viscous, RunExamples.gas]
  have hw : 0 < calm.width := by norm_num [calm, viscous, RunExamples.gas]
  have hM : calm.alphaMax = 2 := by norm_num [calm, viscous, RunExamples.gas]
  have hd : 0 ≤ calm.delta := by norm_num [calm, viscous, RunExamples.gas]
  have hl : 0 < calm.l := by norm_num [calm, viscous, RunExamples.gas]
  have hid : ∀ a b : Fin 2, (RunExamples.two a).id = (RunExamples.two b).id → a = b := fun a b h => Fin.ext h
  obtain ⟨⟨c, s, h⟩, steps, c2, s2, h2⟩ := calm_runs dt
  refine ⟨⟨c, s, h, ?_⟩, steps, c2, s2, h2, ?_⟩
  · rw [← hM]
    exact C58_newton_partial (z := calm) rfl he hw (by rw [hM]; norm_num) hd hl ⟨64, 1000, 0, 1⟩ (by decide) le_rfl Nat.one_pos rfl hdt.le (fun a => ⟨one_pos, one_pos⟩) hid h
  · rw [← hM]
    obtain ⟨-, -, k, -⟩ := AdaptNewton.C101_limits_partial (z := calm) he hw ⟨64, 1000, 0, 1⟩ (by decide) le_rfl (by norm_num [calm, viscous, RunExamples.gas]) (by norm_num [calm, viscous, RunExamples.gas])
      (fun _ => le_rfl) Nat.one_pos (fun a => a.2) (fun a => ⟨one_pos, one_pos⟩) hid (fun _ => le_rfl) hdt h2
    exact C58_newton_adaptive_partial (z := calm) rfl he hw (by rw [hM]; norm_num) hd hl ⟨64, 1000, 0, 1⟩ (by decide) le_rfl Nat.one_pos rfl hdt.le (fun a => ⟨one_pos, one_pos⟩) hid h2 fun x hx => (k x hx).le

end
end FleCSPH.AlphaRange
