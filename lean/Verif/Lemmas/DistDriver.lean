import Verif.Lemmas.DistPhys
/-! The calls of an iteration with constant viscosity form a disciplined program, and on one process they are `Driver.iteration`. -/
namespace FleCSPH.DistRun
open FleCSPH.Geometry FleCSPH.Sph FleCSPH.Driver FleCSPH.Spec FleCSPH.Kernels FleCSPH.Integration

variable {i : Fin 3} {n : Nat}

/-- Positive mass and smoothing length. -/
def Sized (a : Particle (i + 1)) : Prop := 0 < a.mass ∧ 0 < a.h
/-- And positive density. -/
def Dense (a : Particle (i + 1)) : Prop := 0 < a.mass ∧ 0 < a.h ∧ 0 < a.rho

/-- Discipline for the driver. -/
abbrev Disc (n : Nat) (ops : List (Op (Particle (i + 1)))) (V : (Particle (i + 1) → Particle (i + 1)) → Prop) (I : Particle (i + 1) → Prop) (J : Particle (i + 1) → Prop := Sized) : Prop :=
  Disciplined (n := n) er NearLists (fun a => 0 < a.h) J ops V I

theorem disc_all {J : Particle (i + 1) → Prop} {f : Particle (i + 1) → Particle (i + 1)} {ops : List (Op (Particle (i + 1)))} {W V : (Particle (i + 1) → Particle (i + 1)) → Prop} {I I' : Particle (i + 1) → Prop}
    (hc : ∀ a, er (f (er a)) = er (f a)) (hI : ∀ a, I a → I' (f a)) (hV : ∀ v, W v → V v ∧ ∀ a, v (f a) = v a) (h : Disc n ops W I' J) : Disc n (.all (fun a => some (f a)) :: ops) V I J := by
  refine ⟨fun a => congrArg some (hc a), I', fun a x ha hx => by obtain rfl := Option.some.inj hx; exact hI a ha, ?_⟩
  refine Disciplined.mono (fun v hv => ?_) h
  exact ⟨(hV v hv).1, fun a x hx => by obtain rfl := Option.some.inj hx; exact (hV v hv).2 a⟩

/-- After the tree was built, or with nothing to read. -/
theorem disc_any {J : Particle (i + 1) → Prop} {ops : List (Op (Particle (i + 1)))} {V : (Particle (i + 1) → Particle (i + 1)) → Prop} {I : Particle (i + 1) → Prop} (h : Disc n ops (fun _ => False) I J) : Disc n ops V I J :=
  Disciplined.mono (fun _ h => h.elim) h

theorem disc_pass {J : Particle (i + 1) → Prop} {k : Nat} {f : Particle (i + 1) → List (Particle (i + 1)) → Particle (i + 1)} {ops : List (Op (Particle (i + 1)))} {W V : (Particle (i + 1) → Particle (i + 1)) → Prop}
    {I : Particle (i + 1) → Prop} (v : Particle (i + 1) → Particle (i + 1)) (hv : V v) (hr : Reads er v fun a l => some (f a l)) (hve : ∀ a, v (er a) = v a) (hc : ∀ a l, er (f (er a) l) = er (f a l))
    (hp : ∀ a, I a → 0 < a.h) (hl : ∀ (s : Fin n → Particle (i + 1)) nbs nbs', (∀ a, 0 < (s a).h) → NearLists s nbs → NearLists s nbs' → ∀ a, f (s a) ((nbs a).map s) = f (s a) ((nbs' a).map s))
    (hI : ∀ a l, I a → I (f a l)) (hV : ∀ v, W v → V v ∧ ∀ a l, v (f a l) = v a) (h : Disc n ops W I J) : Disc n (.pass k (fun a l => some (f a l)) :: ops) V I J := by
  refine ⟨⟨v, hv, hr, hve⟩, fun a l => congrArg some (hc a l), hp, fun s nbs nbs' h1 h2 h3 a => congrArg (fun x => (some x).map er) (hl s nbs nbs' h1 h2 h3 a), I,
    fun a l x ha hx => by obtain rfl := Option.some.inj hx; exact hI a l ha, ?_⟩
  refine Disciplined.mono (fun v hv => ?_) h
  exact ⟨(hV v hv).1, fun a l x hx => by obtain rfl := Option.some.inj hx; exact (hV v hv).2 a l⟩

theorem dense_pos : ∀ a : Particle (i + 1), Dense a → 0 < a.h := fun _ h => h.2.1

theorem recomputeT_er {d : Nat} (e : Eos.Kind) (q : Eos.Params) (phi : Point d → ℝ) (dt : ℝ) (a : Particle d) :
    (Eos.recomputePressureSoundspeedThermokinetic e q phi dt (er a)).map er = (Eos.recomputePressureSoundspeedThermokinetic e q phi dt a).map er := by
  have h : recoverInternalEnergy phi (er a) = (recoverInternalEnergy phi a).map er := by
    simp only [recoverInternalEnergy]
    split_ifs with h1 h2 h2
    · rfl
    · exact absurd h1 h2
    · exact absurd h2 h1
    · rfl
  simp only [Eos.recomputePressureSoundspeedThermokinetic, Option.bind_eq_bind, Option.pure_def, h]
  cases recoverInternalEnergy phi a with
  | none => rfl
  | some x => simp only [Option.map_some, Option.bind_some]; cases e <;> rfl

theorem disc_kick {J : Particle (i + 1) → Prop} (z : Config i) (dt : ℝ) {ops : List (Op (Particle (i + 1)))} {V : (Particle (i + 1) → Particle (i + 1)) → Prop} {I : Particle (i + 1) → Prop} (hI : ∀ a u, I a → I { a with u := u })
    (hI' : ∀ a e, I a → I { a with e := e }) (h : Disc n ops (fun _ => False) I J) : Disc n (kickOps z dt ++ ops) V I J := by
  unfold kickOps
  split_ifs
  · exact disc_all (fun a => rfl) (fun a => hI' a _) (fun v h => h.elim) h
  · exact disc_all (fun a => rfl) (fun a => hI a _) (fun v h => h.elim) h
  · exact disc_any h

theorem disc_energy {J : Particle (i + 1) → Prop} (z : Config i) (dt : ℝ) (it : Int) {ops : List (Op (Particle (i + 1)))} (h : Disc n ops (fun _ => False) Dense J) :
    ∀ (m : Nat) {V : (Particle (i + 1) → Particle (i + 1)) → Prop}, V flow → Disc n (energyOps z dt it m ++ ops) V Dense J := by
  intro m
  induction m with
  | zero => intro V _; exact disc_any h
  | succ m ih =>
    intro V hV
    have htail : Disc n (((if 0 < m then [.reset] else []) ++ energyOps z dt it m) ++ ops) (fun _ => False) Dense J := by
      split_ifs with hm
      · exact ih (V := fun _ => True) trivial
      · obtain rfl : m = 0 := by omega
        exact h
    rw [energyOps]
    rw [show ∀ (a b c : List (Op (Particle (i + 1)))), (a ++ b ++ c) ++ ops = a ++ ((b ++ c) ++ ops) from fun a b c => by simp only [List.append_assoc]]
    generalize ((if 0 < m then [.reset] else []) ++ energyOps z dt it m) ++ ops = tl at htail ⊢
    split_ifs with htk hrel hrel
    · refine disc_pass (W := fun _ => False) flow hV (dedt_reads z.sph) (fun _ => rfl) (fun a l => ?_) dense_pos (fun s nbs nbs' h1 h2 h3 a => dedt_lists _ h1 h2 h3 a) (fun a l h => h) (fun v h => h.elim) ?_
      · rfl
      · refine disc_all (W := fun _ => False) (fun a => rfl) (fun a (h : Dense a) => (show Dense _ from h)) (fun v h => h.elim) ?_
        refine ⟨fun a => recomputeT_er _ _ _ _ a, Dense, fun a x ha hx => ?_, disc_any htail⟩
        obtain ⟨_, _, _, rfl⟩ := recomputeT_keep _ _ _ _ _ _ hx
        exact ha
    · refine disc_pass (W := fun _ => False) flow hV (dedt_reads z.sph) (fun _ => rfl) (fun a l => ?_) dense_pos (fun s nbs nbs' h1 h2 h3 a => dedt_lists _ h1 h2 h3 a) (fun a l h => h) (fun v h => h.elim) ?_
      · rfl
      · refine ⟨fun a => recomputeT_er _ _ _ _ a, Dense, fun a x ha hx => ?_, disc_any htail⟩
        obtain ⟨_, _, _, rfl⟩ := recomputeT_keep _ _ _ _ _ _ hx
        exact ha
    · refine disc_pass (W := fun _ => False) flow hV (dudt_reads z.sph it) (fun _ => rfl) (fun a l => ?_) dense_pos (fun s nbs nbs' h1 h2 h3 a => dudt_lists _ _ h1 h2 h3 a) (fun a l h => ?_) (fun v h => h.elim) ?_
      · simp only [computeDudt]; split <;> rfl
      · simp only [computeDudt]; split <;> exact h
      · refine disc_all (W := fun _ => False) (fun a => rfl) (fun a (h : Dense a) => (show Dense _ from h)) (fun v h => h.elim) ?_
        refine disc_all (W := fun _ => False) (fun a => ?_) (fun a h => ?_) (fun v h => h.elim) htail
        · simp only [Eos.recomputePressureSoundspeed]; cases z.eos <;> rfl
        · obtain ⟨_, _, e⟩ := recompute_keep z.eos z.eosParams dt a
          rw [e]; exact h
    · refine disc_pass (W := fun _ => False) flow hV (dudt_reads z.sph it) (fun _ => rfl) (fun a l => ?_) dense_pos (fun s nbs nbs' h1 h2 h3 a => dudt_lists _ _ h1 h2 h3 a) (fun a l h => ?_) (fun v h => h.elim) ?_
      · simp only [computeDudt]; split <;> rfl
      · simp only [computeDudt]; split <;> exact h
      · refine disc_all (W := fun _ => False) (fun a => ?_) (fun a h => ?_) (fun v h => h.elim) htail
        · simp only [Eos.recomputePressureSoundspeed]; cases z.eos <;> rfl
        · obtain ⟨_, _, e⟩ := recompute_keep z.eos z.eosParams dt a
          rw [e]; exact h

theorem disc_force {J : Particle (i + 1) → Prop} (z : Config i) (it : Int) (hrep : it < z.sph.relaxationSteps → z.repulsionRadius ≤ 1) (hext : ∀ a, z.sph.external { a with vsig := 0 } = z.sph.external a)
    {ops : List (Op (Particle (i + 1)))} (h : Disc n ops (fun v => v = flow) Dense J) {V : (Particle (i + 1) → Particle (i + 1)) → Prop} : Disc n (forceOps z it ++ ops) V Dense J := by
  unfold forceOps
  show Disc n (_ ++ ops) (fun _ => True) Dense J
  have hacc : ∀ (a : Particle (i + 1)) l, er (computeAcceleration z.sph (er a) l) = er (computeAcceleration z.sph a l) := by
    intro a l
    have := hext a
    simp only [computeAcceleration, er] at this ⊢
    rw [this]
    rfl
  split_ifs with hr
  · refine disc_pass (W := fun v => v = flow ∨ v = geo) flow trivial (acceleration_reads z.sph) (fun _ => rfl) hacc dense_pos (fun s nbs nbs' h1 h2 h3 a => acceleration_lists _ h1 h2 h3 a) (fun a l h => h) ?_ ?_
    · rintro v (rfl | rfl) <;> exact ⟨trivial, fun _ _ => rfl⟩
    · refine disc_all (W := fun v => v = flow ∨ v = geo) (I' := Dense) (fun a => rfl) (fun a h => h) ?_ ?_
      · rintro v (rfl | rfl)
        exacts [⟨Or.inl rfl, fun _ => rfl⟩, ⟨Or.inr rfl, fun _ => rfl⟩]
      · refine disc_pass geo (Or.inr rfl) (repulsion_reads _ _) (fun _ => rfl) (fun a l => rfl) dense_pos (fun s nbs nbs' h1 h2 h3 a => repulsion_lists (hrep hr) _ h1 h2 h3 a) (fun a l h => h) ?_ h
        rintro v rfl
        exact ⟨Or.inl rfl, fun _ _ => rfl⟩
  · refine disc_pass flow trivial (acceleration_reads z.sph) (fun _ => rfl) hacc dense_pos (fun s nbs nbs' h1 h2 h3 a => acceleration_lists _ h1 h2 h3 a) (fun a l h => h) ?_ h
    rintro v rfl
    exact ⟨trivial, fun _ _ => rfl⟩

theorem disc_density {J : Particle (i + 1) → Prop} (z : Config i) (hv : z.sph.visc = .constant) (dt : ℝ) {ops : List (Op (Particle (i + 1)))} (h : Disc n ops (fun _ => False) Dense J)
    {V : (Particle (i + 1) → Particle (i + 1)) → Prop} (hV : V geo) : Disc n (densityOp z dt :: ops) V Sized J := by
  refine ⟨⟨geo, hV, density_reads z hv dt, fun _ => rfl⟩, fun a l => ?_, fun a h => h.2, fun s nbs nbs' h1 h2 h3 a => density_lists z hv dt h1 h2 h3 a, Dense, fun a l x ha hx => ?_, disc_any h⟩
  · rw [density_er z hv, density_er z hv]; rfl
  · obtain ⟨h1, _, _, _, _, _, _, _, rfl⟩ := density_keep _ _ _ _ _ _ _ hx
    exact ⟨ha.1, ha.2, h1⟩

theorem newH_pos (z : Config i) (he : 0 < z.eta) (hw : 0 < z.width) {a : Particle (i + 1)} (h : Dense a) : 0 < newH z a := by
  unfold newH root
  have := Real.rpow_pos_of_pos (div_pos h.1 h.2.2) (1 / ((i : ℕ) + 1 : ℝ))
  positivity

theorem disc_last (z : Config i) (he : 0 < z.eta) (hw : 0 < z.width) {V : (Particle (i + 1) → Particle (i + 1)) → Prop} : Disc n (lastOps z) V Dense := by
  have hcheck : ∀ {I : Particle (i + 1) → Prop} {V : (Particle (i + 1) → Particle (i + 1)) → Prop}, (∀ a, I a → Sized a) → Disc n [.all fun a => open Classical in
      if 0 ≤ a.rho ∧ 0 ≤ a.P ∧ (z.evolve = true → 0 ≤ a.u) then some a else none] V I := by
    intro I V hI
    refine ⟨fun a => ?_, I, fun a x ha hx => ?_, hI⟩
    · by_cases hc : 0 ≤ a.rho ∧ 0 ≤ a.P ∧ (z.evolve = true → 0 ≤ a.u)
      · have hc' : 0 ≤ (er a).rho ∧ 0 ≤ (er a).P ∧ (z.evolve = true → 0 ≤ (er a).u) := hc
        simp only [if_pos hc, if_pos hc']; rfl
      · have hc' : ¬(0 ≤ (er a).rho ∧ 0 ≤ (er a).P ∧ (z.evolve = true → 0 ≤ (er a).u)) := hc
        simp only [if_neg hc, if_neg hc']
    · dsimp only at hx
      split_ifs at hx
      obtain rfl := Option.some.inj hx
      exact ha
  unfold lastOps
  cases z.hMode with
  | «variable» => exact disc_all (W := fun _ => False) (I' := Sized) (fun a => rfl) (fun a h => ⟨h.1, newH_pos z he hw h⟩) (fun v h => h.elim) (hcheck fun _ h => h)
  | uniform => exact ⟨fun a => rfl, fun x a => rfl, fun a h => newH_pos z he hw h, Sized, fun x a hx h => ⟨h.1, hx⟩, hcheck fun _ h => h⟩
  | fixed => exact hcheck fun _ h => ⟨h.1, h.2.1⟩

theorem disc_first (z : Config i) (hv : z.sph.visc = .constant) (he : 0 < z.eta) (hw : 0 < z.width) (dt : ℝ) (it : Int) (hrep : it < z.sph.relaxationSteps → z.repulsionRadius ≤ 1)
    (hext : ∀ a, z.sph.external { a with vsig := 0 } = z.sph.external a) {V : (Particle (i + 1) → Particle (i + 1)) → Prop} : Disc n (firstOps z dt it ++ lastOps z) V Sized := by
  have h1 : Disc n ((if z.evolve then energyOps z dt it z.updates else []) ++ lastOps z) (fun v => v = flow) Dense := by
    split_ifs
    · exact disc_energy z dt it (disc_last z he hw) _ rfl
    · exact disc_last z he hw
  have h2 : Disc n (densityOp z dt :: .all (fun a => some (saveVelocityhalf a)) :: (forceOps z it ++ ((if z.evolve then energyOps z dt it z.updates else []) ++ lastOps z))) (fun v => v = geo) Sized :=
    disc_density z hv dt (disc_all (f := saveVelocityhalf) (W := fun _ => False) (I' := Dense) (fun a => rfl) (fun a h => h) (fun v h => h.elim) (disc_force z it hrep hext h1)) (V := fun v => v = geo) rfl
  have hinit : ∀ a : Particle (i + 1), er (Eos.init z.eos z.eosParams (er a)) = er (Eos.init z.eos z.eosParams a) ∧ geo (Eos.init z.eos z.eosParams a) = geo a ∧
      (Eos.init z.eos z.eosParams a).mass = a.mass ∧ (Eos.init z.eos z.eosParams a).h = a.h := by
    intro a
    cases z.eos <;> exact ⟨rfl, rfl, rfl, rfl⟩
  unfold firstOps alphaOps
  simp only [hv, List.append_nil, List.append_assoc, List.cons_append, List.nil_append]
  show Disc n (.all (fun a => some (Eos.init z.eos z.eosParams a)) :: _) (fun _ => True) Sized
  split_ifs
  all_goals
    refine disc_all (W := fun v => v = geo) (I' := Sized) (fun a => (hinit a).1) (fun a h => ?_) ?_ ?_
    · unfold Sized; rw [(hinit a).2.2.1, (hinit a).2.2.2]; exact h
    · rintro v rfl; exact ⟨trivial, fun a => (hinit a).2.1⟩
  · simp only [List.cons_append, List.nil_append]
    refine disc_all (W := fun v => v = geo) (I' := Sized) (fun a => rfl) (fun a h => h) ?_ (by simpa [*] using h2)
    rintro v rfl; exact ⟨rfl, fun _ => rfl⟩
  · simp only [List.cons_append, List.nil_append]
    refine disc_all (W := fun v => v = geo) (I' := Sized) (fun a => rfl) (fun a h => h) ?_ (by simpa [*] using h2)
    rintro v rfl; exact ⟨rfl, fun _ => rfl⟩
  · simpa [*] using h2
  · simpa [*] using h2

theorem disc_next (z : Config i) (hv : z.sph.visc = .constant) (he : 0 < z.eta) (hw : 0 < z.width) (dt : ℝ) (it : Int) (hrep : it < z.sph.relaxationSteps → z.repulsionRadius ≤ 1)
    (hext : ∀ a, z.sph.external { a with vsig := 0 } = z.sph.external a) {V : (Particle (i + 1) → Particle (i + 1)) → Prop} : Disc n (nextOps z dt it ++ lastOps z) V Sized := by
  have h0 : Disc n (kickOps z dt ++ lastOps z) (fun _ => False) Dense := disc_kick z dt (fun _ _ h => h) (fun _ _ h => h) (disc_last z he hw)
  have h1 : Disc n ((if z.evolve then energyOps z dt it z.updates else []) ++ (kickOps z dt ++ lastOps z)) (fun _ => True) Dense := by
    split_ifs
    · exact disc_energy z dt it h0 _ trivial
    · exact disc_any h0
  have h2 : Disc n (.all (fun a => some (kickV dt a)) :: .reset :: ((if z.evolve then energyOps z dt it z.updates else []) ++ (kickOps z dt ++ lastOps z))) (fun v => v = flow) Dense :=
    disc_all (W := fun _ => False) (fun a => rfl) (fun a h => h) (fun v h => h.elim) h1
  have h3 := disc_density z hv dt (disc_any (disc_force z it hrep hext h2)) (V := fun _ => True) trivial
  unfold nextOps alphaOps
  simp only [hv, List.append_nil, List.append_assoc, List.cons_append, List.nil_append]
  refine disc_kick z dt (fun _ _ h => h) (fun _ _ h => h) ?_
  refine disc_all (W := fun _ => False) (I' := Sized) (fun a => rfl) (fun a h => h) (fun v h => h.elim) ?_
  refine disc_all (W := fun _ => False) (I' := Sized) (fun a => rfl) (fun a h => h) (fun v h => h.elim) ?_
  refine disc_all (W := fun _ => False) (I' := Sized) (fun a => rfl) (fun a h => h) (fun v h => h.elim) ?_
  exact h3

theorem disc_iteration (z : Config i) (hv : z.sph.visc = .constant) (he : 0 < z.eta) (hw : 0 < z.width) (c : Timestep.Clock) (hrep : c.iteration < z.sph.relaxationSteps → z.repulsionRadius ≤ 1)
    (hext : ∀ a, z.sph.external { a with vsig := 0 } = z.sph.external a) {V : (Particle (i + 1) → Particle (i + 1)) → Prop} : Disc n (iterationOps z c) V Sized := by
  unfold iterationOps
  split_ifs
  · exact disc_first z hv he hw _ _ hrep hext
  · exact disc_next z hv he hw _ _ hrep hext

/-! ### One process -/

theorem exec1_append (w : Schedule i n) : ∀ (o o' : List (Op (Particle (i + 1)))) (s : Fin n → Particle (i + 1)), exec1 w (o ++ o') s = (exec1 w o s).bind (exec1 w o') := by
  intro o
  induction o with
  | nil => intro o' s; rfl
  | cons a o ih =>
    intro o' s
    cases a <;> simp only [List.cons_append, exec1, ih, Option.bind_assoc]

theorem applyAllM_some {P : Type} (f : P → P) (s : Fin n → P) : applyAllM (fun a => some (f a)) s = some (applyAll f s) := (applyAllM_iff _ _ _).mpr fun _ => rfl

theorem passM_pure {P : Type} (f : P → List P → P) (nbs : Fin n → List (Fin n)) : ∀ (order : List (Fin n)) (s : Fin n → P), passM (fun a l => some (f a l)) nbs order s = some (pass f nbs order s) := by
  intro order
  induction order with
  | nil => intro s; rfl
  | cons a l ih => intro s; rw [passM_cons, Option.bind_some, ih]; rfl

theorem exec1_all (w : Schedule i n) (f : Particle (i + 1) → Particle (i + 1)) (ops : List (Op (Particle (i + 1)))) (s : Fin n → Particle (i + 1)) :
    exec1 w (.all (fun a => some (f a)) :: ops) s = exec1 w ops (applyAll f s) := by
  rw [exec1, applyAllM_some]; rfl

theorem exec1_pass (w : Schedule i n) (k : Nat) (f : Particle (i + 1) → List (Particle (i + 1)) → Particle (i + 1)) (ops : List (Op (Particle (i + 1)))) (s : Fin n → Particle (i + 1)) :
    exec1 w (.pass k (fun a l => some (f a l)) :: ops) s = exec1 w ops (sphPass w k f s) := by
  rw [exec1, sphPassM, passM_pure]; rfl

theorem exec1_kick (w : Schedule i n) (z : Config i) (dt : ℝ) (s : Fin n → Particle (i + 1)) : exec1 w (kickOps z dt) s = some (kickEnergy z dt s) := by
  unfold kickOps kickEnergy
  split_ifs
  · exact exec1_all w _ [] s
  · exact exec1_all w _ [] s
  · rfl

theorem exec1_energy (w : Schedule i n) (z : Config i) (dt : ℝ) (it : Int) : ∀ (m : Nat) (s : Fin n → Particle (i + 1)), exec1 w (energyOps z dt it m) s = energyPasses z dt it w m s := by
  intro m
  induction m with
  | zero => intro s; rfl
  | succ m ih =>
    intro s
    have hr : ∀ s, exec1 w ((if 0 < m then [.reset] else []) ++ energyOps z dt it m) s = energyPasses z dt it w m s := by
      intro s; rw [← ih]; split_ifs <;> rfl
    rw [energyOps, List.append_assoc, exec1_append, energyPasses]
    have he : (exec1 w ((if 0 < m then [.reset] else []) ++ energyOps z dt it m)) = energyPasses z dt it w m := funext hr
    rw [he]
    congr 1
    split_ifs with htk hrel hrel
    · rw [exec1_pass, List.cons_append, exec1_all, List.nil_append, exec1]
      simp only [dedtPass, if_pos hrel]
      exact Option.bind_fun_some _
    · rw [exec1_pass, List.nil_append, exec1]
      simp only [dedtPass, if_neg hrel]
      exact Option.bind_fun_some _
    · rw [exec1_pass, List.cons_append, exec1_all, List.nil_append, exec1_all]
      simp only [dudtPass, if_pos hrel]; rfl
    · rw [exec1_pass, List.nil_append, exec1_all]
      simp only [dudtPass, if_neg hrel]; rfl

theorem exec1_alpha (w : Schedule i n) (z : Config i) (dt : ℝ) (s : Fin n → Particle (i + 1)) : exec1 w (alphaOps z dt) s = alphaPass z dt w 1 s := by
  unfold alphaOps alphaPass
  cases z.sph.visc with
  | constant => rfl
  | cullen => exact Option.bind_fun_some (sphPassM w 1 _ s)

theorem exec1_force (w : Schedule i n) (z : Config i) (it : Int) (s : Fin n → Particle (i + 1)) : exec1 w (forceOps z it) s = some (forces z it w s) := by
  unfold forceOps forces
  rw [exec1_append]
  show (exec1 w (.pass 2 _ :: []) s).bind _ = _
  rw [exec1_pass]
  show exec1 w _ _ = _
  split_ifs
  · rw [exec1_all, exec1_pass]; rfl
  · rfl

theorem exec1_density (w : Schedule i n) (z : Config i) (dt : ℝ) (ops : List (Op (Particle (i + 1)))) (s : Fin n → Particle (i + 1)) :
    exec1 w (densityOp z dt :: ops) s = (sphPassM w 0 (Eos.computeDensityPressureSoundspeed z.sph z.eos z.eosParams (setup z dt)) s).bind (exec1 w ops) := rfl

theorem exec1_evolve (w : Schedule i n) (z : Config i) (dt : ℝ) (it : Int) (s : Fin n → Particle (i + 1)) :
    exec1 w (if z.evolve then energyOps z dt it z.updates else []) s = energy z dt it w s := by
  unfold energy
  split_ifs
  · exact exec1_energy w z dt it _ s
  · rfl

theorem exec1_first (w : Schedule i n) (z : Config i) (had : z.adaptive = false) (st : State i n) :
    ((exec1 w (firstOps z st.clock.dt st.clock.iteration) st.parts).map fun s => (⟨st.clock, s⟩ : State i n)) = firstBranch z w st := by
  have hinit : exec1 w ([.update, .all fun a => some (Eos.init z.eos z.eosParams a)] ++ (if z.thermokinetic then [.all fun a => some (setTotalEnergy z.phi a)] else []) ++
      (match z.sph.visc with
        | .constant => []
        | .cullen => [.all fun a => some (Cullen.initializeAlpha z.sph a)])) st.parts = some (initialise z st.parts) := by
    unfold initialise
    cases z.sph.visc <;> simp only <;> split_ifs
    all_goals simp only [List.cons_append, List.nil_append, List.append_nil]
    all_goals (show exec1 w (.all _ :: _) _ = _; simp only [exec1_all]; rfl)
  unfold firstOps
  rw [List.append_assoc, List.append_assoc, List.append_assoc, exec1_append]
  erw [hinit]
  rw [Option.bind_some, List.cons_append, exec1_density]
  unfold firstBranch thermo
  rw [Option.map_bind, Option.bind_assoc]
  congr 1
  funext s
  simp only [List.cons_append, List.nil_append, Function.comp, if_true]
  rw [exec1_all, exec1_append, exec1_alpha, Option.map_bind]
  congr 1
  funext s
  simp only [Function.comp]
  rw [exec1_append, exec1_force, Option.bind_some, exec1_evolve]
  simp only [adaptStep, had, Bool.false_eq_true, if_false, Option.bind_some]

theorem exec1_next (w : Schedule i n) (z : Config i) (st : State i n) :
    ((exec1 w (nextOps z st.clock.dt st.clock.iteration) st.parts).map fun s => (⟨st.clock, s⟩ : State i n)) = nextBranch z w st := by
  unfold nextOps nextBranch thermo
  simp only [List.append_assoc]
  rw [exec1_append, exec1_kick, Option.bind_some]
  simp only [List.cons_append, List.nil_append]
  rw [exec1_all, exec1_all, exec1_all]
  show (exec1 w (densityOp z st.clock.dt :: _) _).map _ = _
  rw [exec1_density, Option.map_bind, Option.bind_assoc]
  congr 1
  funext s
  simp only [Function.comp, Bool.false_eq_true, if_false]
  rw [exec1_append, exec1_alpha, Option.map_bind]
  congr 1
  funext s
  simp only [Function.comp]
  rw [exec1_append, exec1_force, Option.bind_some, exec1_all]
  show (exec1 w (_ ++ kickOps z st.clock.dt) _).map _ = _
  rw [exec1_append, exec1_evolve, Option.map_bind, Option.map_eq_bind]
  congr 1
  funext s
  simp only [Function.comp]
  rw [exec1_kick]; rfl

theorem exec1_last (w : Schedule i n) (z : Config i) (s : Fin n → Particle (i + 1)) : exec1 w (lastOps z) s = checkNegativity z (updateH z s) := by
  have hcheck : ∀ s : Fin n → Particle (i + 1), exec1 w [.all fun a => open Classical in
      if 0 ≤ a.rho ∧ 0 ≤ a.P ∧ (z.evolve = true → 0 ≤ a.u) then some a else none] s = checkNegativity z s := by
    intro s
    unfold checkNegativity
    rw [exec1]
    split_ifs with h
    · have : applyAllM (fun a : Particle (i + 1) => open Classical in if 0 ≤ a.rho ∧ 0 ≤ a.P ∧ (z.evolve = true → 0 ≤ a.u) then some a else none) s = some s :=
        (applyAllM_iff _ _ _).mpr fun a => if_pos (h a)
      rw [this]; rfl
    · rcases hs : applyAllM (fun a : Particle (i + 1) => open Classical in if 0 ≤ a.rho ∧ 0 ≤ a.P ∧ (z.evolve = true → 0 ≤ a.u) then some a else none) s with _ | t
      · rfl
      · exfalso
        have := (applyAllM_iff _ _ _).mp hs
        refine h fun a => ?_
        have := this a
        split_ifs at this with hc
        exact hc
  unfold lastOps updateH
  cases z.hMode with
  | «variable» => rw [List.cons_append, exec1_all]; exact hcheck _
  | uniform => exact hcheck _
  | fixed => exact hcheck _

/-- On one process the calls are the iteration of Model/Driver.lean. -/
theorem exec1_iteration (w : Schedule i n) (z : Config i) (had : z.adaptive = false) (st : State i n) :
    iteration z w st = (exec1 w (iterationOps z st.clock) st.parts).map fun s => ⟨Timestep.advance false st.clock, s⟩ := by
  have hb : (if st.clock.iteration = z.initialIteration then firstBranch z w st else nextBranch z w st) =
      (exec1 w (if st.clock.iteration = z.initialIteration then firstOps z st.clock.dt st.clock.iteration else nextOps z st.clock.dt st.clock.iteration) st.parts).map fun s =>
        (⟨st.clock, s⟩ : State i n) := by
    split_ifs
    · rw [exec1_first w z had]
    · rw [exec1_next]
  unfold iteration iterationOps
  rw [hb, exec1_append, Option.map_bind, Option.bind_map]
  congr 1
  funext s
  simp only [Function.comp]
  rw [exec1_last]
  simp only [adaptStep, had, Bool.false_eq_true, if_false, Option.map_some]
  cases checkNegativity z (updateH z s) <;> rfl

end FleCSPH.DistRun
