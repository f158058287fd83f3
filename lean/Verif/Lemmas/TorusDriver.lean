import Verif.Lemmas.TorusRun
/-! The iterations of the hydro driver with periodic boundaries follow the torus. -/
namespace FleCSPH.Torus
open FleCSPH.Geometry FleCSPH.Sph FleCSPH.Driver FleCSPH.DistRun FleCSPH.PeriodicRun FleCSPH.Spec FleCSPH.Integration

variable {i : Fin 3} {n : Nat} {sides : Fin (i + 1) → ℝ} {periodic : Fin (i + 1) → Bool} {procs : Nat} {z : Config i} {ops : List (Op (Particle (i + 1)))} {J : Particle (i + 1) → Prop}

theorem dense_er : ∀ a b : Particle (i + 1), er a = er b → Dense a → Dense b := by
  intro a b h ha
  have h1 : a.mass = b.mass := by have := congrArg Particle.mass h; exact this
  have h2 : a.h = b.h := by have := congrArg Particle.h h; exact this
  have h3 : a.rho = b.rho := by have := congrArg Particle.rho h; exact this
  unfold DistRun.Dense at ha ⊢
  rw [← h1, ← h2, ← h3]; exact ha

/-- A function which does the same to ghosts as to their particles. -/
theorem commutes {g : Particle (i + 1) → Particle (i + 1)} (h1 : ∀ a, core (g a) = core (g (core a))) (h2 : ∀ a k, Lattice periodic k → g (imageOf sides a k) = imageOf sides (g a) k) :
    ∀ a b k y y', Lattice periodic k → core a = core (imageOf sides b k) → some (g a) = some y → some (g b) = some y' → core y = core (imageOf sides y' k) := by
  intro a b k y y' hk hab hy hy'
  obtain rfl := Option.some.inj hy
  obtain rfl := Option.some.inj hy'
  rw [h1, hab, ← h1, h2 _ _ hk]

section
variable (hs : ∀ j, periodic j = true → 0 < sides j) (hf : PeriodicForce sides periodic z) (hv : z.sph.visc = .constant)

theorem lead_pure {I I' : Particle (i + 1) → Prop} {g : Particle (i + 1) → Particle (i + 1)} (hI : ∀ a, I a → I' (g a)) (h : Leads sides periodic procs n J ops (Simple procs I')) :
    Leads sides periodic procs n J (.all (fun a => some (g a)) :: ops) (Simple procs I) :=
  lead_all (fun a y ha hy => by obtain rfl := Option.some.inj hy; exact hI a ha) h

include hf in
theorem lead_force (it : Int) (hrel : ¬ it < z.sph.relaxationSteps) {v : Particle (i + 1) → Particle (i + 1)} {R : ℝ} (h : Leads sides periodic procs n J ops (Rich sides periodic procs flow (1 / 2) (3 / 2) Dense)) :
    Leads sides periodic procs n J (forceOps z it ++ ops) (Rich sides periodic procs v (3 / 2) R Dense) := by
  unfold forceOps
  rw [if_neg hrel]
  refine lead_rich_reset (w := flow) ?_
  have h1 : Leads sides periodic procs n J (.pass 2 (fun a l => some (computeAcceleration z.sph a l)) :: ops) (Rich sides periodic procs flow (3 / 2) (3 / 2) Dense) := by
    refine lead_rich_pass (r' := 1 / 2) (R' := 3 / 2) (I' := Dense) (accelerationForm z hf) (acceleration_reads z.sph) (by norm_num) (by norm_num) (by norm_num) (Or.inl ⟨by norm_num, fun _ _ => core_flowC⟩)
      (Or.inr ⟨le_refl _, fun a l y hy => ?_⟩) (fun a l y hy => ?_) (fun a l y ha hy => ?_) dense_er h
    · obtain rfl := Option.some.inj hy; rfl
    · obtain rfl := Option.some.inj hy; rfl
    · obtain rfl := Option.some.inj hy; exact ha
  refine h1.weaken ?_
  rintro σ s ⟨H, x, base, shift, real, g1, g2, g3, g4, g5, g6⟩
  exact ⟨H, x, base, shift, real, g1, g2, g3, g4, fun e he => core_flowC (g4 e he), g6⟩

include hf hv in
theorem lead_density (dt : ℝ) (h : Leads sides periodic procs n J ops (Rich sides periodic procs geo (3 / 2) (3 / 2) Dense)) :
    Leads sides periodic procs n J (densityOp z dt :: ops) (Rich sides periodic procs geo (5 / 2) (5 / 2) Sized) := by
  refine lead_rich_pass (r' := 3 / 2) (R' := 3 / 2) (I' := Dense) (densityForm z hf hv dt) (density_reads z hv dt) (by norm_num) (by norm_num) (by norm_num) (Or.inl ⟨by norm_num, fun _ _ => geoC_core⟩)
    (Or.inl (le_refl _)) (fun a l y hy => (density_reads z hv dt).keep a l y hy) (fun a l y ha hy => ?_) dense_er h
  obtain ⟨h1, _, _, _, _, _, _, _, rfl⟩ := density_keep _ _ _ _ _ _ _ hy
  exact ⟨ha.1, ha.2, h1⟩

theorem lead_last (he : 0 < z.eta) (hw : 0 < z.width) (hm : z.hMode ≠ .uniform) : Leads sides periodic procs n Sized (lastOps z) (Simple procs Dense) := by
  have hcheck : ∀ {I : Particle (i + 1) → Prop}, (∀ a, I a → Sized a) → Leads sides periodic procs n Sized [.all fun a => open Classical in
      if 0 ≤ a.rho ∧ 0 ≤ a.P ∧ (z.evolve = true → 0 ≤ a.u) then some a else none] (Simple procs I) := by
    intro I hI
    refine lead_all (I' := I) (fun a y ha hy => ?_) (lead_nil hI)
    split_ifs at hy
    obtain rfl := Option.some.inj hy
    exact ha
  unfold lastOps
  cases h : z.hMode with
  | «variable» => exact lead_pure (I' := Sized) (g := fun a => { a with h := newH z a }) (fun a h => ⟨h.1, newH_pos z he hw h⟩) (hcheck fun _ h => h)
  | uniform => exact absurd h hm
  | fixed => exact hcheck fun _ h => ⟨h.1, h.2.1⟩

/-- One pass of the energy equation. -/
theorem lead_energy (dt : ℝ) (it : Int) (hrel : ¬ it < z.sph.relaxationSteps) (h : Leads sides periodic procs n J ops (Simple procs Dense)) {m : Nat} (hm : m ≤ 1) :
    Leads sides periodic procs n J (energyOps z dt it m ++ ops) (Rich sides periodic procs flow (1 / 2) (3 / 2) Dense) := by
  match m, hm with
  | 0, _ => exact h.weaken fun _ _ h => h.simple
  | 1, _ =>
    have hdense : ∀ (ops' : List (Op (Particle (i + 1)))), Leads sides periodic procs n J ops' (Simple procs Dense) →
        Leads sides periodic procs n J ops' (Rich sides periodic procs flow (1 / 2) (3 / 2) Dense) := fun _ h => h.weaken fun _ _ h => h.simple
    rw [energyOps, energyOps, if_neg hrel, if_neg hrel]
    simp only [List.nil_append, Nat.lt_irrefl, if_false, List.append_nil]
    split_ifs
    · refine lead_rich_pass (r' := 1 / 2) (R' := 3 / 2) (I' := Dense) (dedtForm z) (dedt_reads z.sph) (by norm_num) (by norm_num) (by norm_num) (Or.inr ⟨by norm_num, fun _ _ h => h⟩)
        (Or.inr ⟨le_refl _, fun a l y hy => ?_⟩) (fun a l y hy => ?_) (fun a l y ha hy => ?_) dense_er (hdense _ (lead_all (I' := Dense) (fun a y ha hy => ?_) h))
      · obtain rfl := Option.some.inj hy; rfl
      · obtain rfl := Option.some.inj hy; rfl
      · obtain rfl := Option.some.inj hy; exact ha
      · obtain ⟨_, _, _, rfl⟩ := recomputeT_keep _ _ _ _ _ _ hy
        exact ha
    · refine lead_rich_pass (r' := 1 / 2) (R' := 3 / 2) (I' := Dense) (dudtForm z it) (dudt_reads z.sph it) (by norm_num) (by norm_num) (by norm_num) (Or.inr ⟨by norm_num, fun _ _ h => h⟩)
        (Or.inr ⟨le_refl _, fun a l y hy => ?_⟩) (fun a l y hy => ?_) (fun a l y ha hy => ?_) dense_er (hdense _ (lead_pure (I' := Dense) (fun a ha => ?_) h))
      · obtain rfl := Option.some.inj hy; simp only [computeDudt]; split <;> rfl
      · obtain rfl := Option.some.inj hy; simp only [computeDudt]; split <;> rfl
      · obtain rfl := Option.some.inj hy; simp only [computeDudt]; split <;> exact ha
      · obtain ⟨_, _, e⟩ := recompute_keep z.eos z.eosParams dt a
        rw [e]; exact ha

include hs hf hv in
/-- The first iteration up to the acceleration. -/
theorem lead_start (dt : ℝ) (it : Int) (hrel : ¬ it < z.sph.relaxationSteps) (h : Leads sides periodic procs n J ops (Rich sides periodic procs flow (1 / 2) (3 / 2) Dense)) :
    Leads sides periodic procs n J (([.update, .all fun a => some (Eos.init z.eos z.eosParams a)] ++ (if z.thermokinetic then [.all fun a => some (setTotalEnergy z.phi a)] else []) ++
      [densityOp z dt, .all fun a => some (saveVelocityhalf a)] ++ forceOps z it) ++ ops) (Simple procs Sized) := by
  simp only [List.append_assoc, List.cons_append, List.nil_append]
  refine lead_update hs (v := geo) (fun a h => h.2) (fun a k h => h) ?_
  have h2 : Leads sides periodic procs n J (densityOp z dt :: .all (fun a => some (saveVelocityhalf a)) :: (forceOps z it ++ ops)) (Rich sides periodic procs geo (5 / 2) (5 / 2) Sized) := by
    refine lead_density hf hv dt ?_
    refine lead_rich_all (I' := Dense) (commutes (fun _ => rfl) (fun _ _ _ => rfl)) (fun a y hy => ?_) (fun a y ha hy => ?_) (lead_force hf it hrel h)
    · obtain rfl := Option.some.inj hy; exact ⟨rfl, rfl, rfl⟩
    · obtain rfl := Option.some.inj hy; exact ha
  have hinit : ∀ a : Particle (i + 1), core (Eos.init z.eos z.eosParams a) = core (Eos.init z.eos z.eosParams (core a)) ∧
      (∀ k, Eos.init z.eos z.eosParams (imageOf sides a k) = imageOf sides (Eos.init z.eos z.eosParams a) k) ∧ geo (Eos.init z.eos z.eosParams a) = geo a ∧
      (Eos.init z.eos z.eosParams a).mass = a.mass ∧ (Eos.init z.eos z.eosParams a).h = a.h ∧ (Eos.init z.eos z.eosParams a).pos = a.pos := by
    intro a
    cases z.eos <;> exact ⟨rfl, fun _ => rfl, rfl, rfl, rfl, rfl⟩
  refine lead_rich_all (I' := Sized) (commutes (fun a => (hinit a).1) (fun a k _ => (hinit a).2.1 k)) (fun a y hy => ?_) (fun a y ha hy => ?_) ?_
  · obtain rfl := Option.some.inj hy
    exact ⟨(hinit a).2.2.2.2.2, (hinit a).2.2.2.2.1, (hinit a).2.2.1⟩
  · obtain rfl := Option.some.inj hy
    unfold Sized
    rw [(hinit a).2.2.2.1, (hinit a).2.2.2.2.1]
    exact ha
  · split_ifs with ht
    · refine lead_rich_all (I' := Sized) (commutes (fun a => rfl) (fun a k hk => ?_)) (fun a y hy => ?_) (fun a y ha hy => ?_) h2
      · have h1 : z.phi (imageOf sides a k).pos = z.phi a.pos := hf.potential a.pos k hk
        have h2 : (imageOf sides a k).vel = a.vel := rfl
        have h3 : (imageOf sides a k).u = a.u := rfl
        unfold setTotalEnergy
        rw [h1, h2, h3]
        rfl
      · obtain rfl := Option.some.inj hy; exact ⟨rfl, rfl, rfl⟩
      · obtain rfl := Option.some.inj hy; exact ha
    · exact h2

include hs hf hv in
/-- A later iteration, from the drift to the acceleration. -/
theorem lead_move (dt : ℝ) (it : Int) (hrel : ¬ it < z.sph.relaxationSteps) (h : Leads sides periodic procs n J ops (Simple procs Dense)) :
    Leads sides periodic procs n J ((kickOps z dt ++ [.all fun a => some (kickV dt a), .all fun a => some (saveVelocityhalf a), .all fun a => some (drift dt a), .update, densityOp z dt] ++
      forceOps z it ++ [.all fun a => some (kickV dt a)]) ++ ops) (Simple procs Sized) := by
  have h1 : Leads sides periodic procs n J (.update :: densityOp z dt :: (forceOps z it ++ (.all (fun a => some (kickV dt a)) :: ops))) (Simple procs Sized) := by
    refine lead_update hs (v := geo) (fun a h => h.2) (fun a k h => h) (lead_density hf hv dt (lead_force hf it hrel ?_))
    exact (lead_pure (I' := Dense) (g := kickV dt) (fun a h => h) h).weaken fun _ _ h => h.simple
  have h2 : Leads sides periodic procs n J (.all (fun a => some (kickV dt a)) :: .all (fun a => some (saveVelocityhalf a)) :: .all (fun a => some (drift dt a)) :: .update :: densityOp z dt ::
      (forceOps z it ++ (.all (fun a => some (kickV dt a)) :: ops))) (Simple procs Sized) := by
    refine lead_pure (I' := Sized) (g := kickV dt) (fun a h => h) ?_
    refine lead_pure (I' := Sized) (g := saveVelocityhalf) (fun a h => h) ?_
    exact lead_pure (I' := Sized) (g := drift dt) (fun a h => h) h1
  simp only [List.append_assoc, List.cons_append, List.nil_append]
  unfold kickOps
  split_ifs
  · exact lead_pure (I' := Sized) (g := kickE dt) (fun a h => h) h2
  · exact lead_pure (I' := Sized) (g := kickU dt) (fun a h => h) h2
  · exact h2

include hs hf hv in
theorem lead_first (he : 0 < z.eta) (hw : 0 < z.width) (hm : z.hMode ≠ .uniform) (hu : z.evolve = true → z.updates ≤ 1) (dt : ℝ) (it : Int) (hrel : ¬ it < z.sph.relaxationSteps) :
    Leads sides periodic procs n Sized (firstOps z dt it ++ lastOps z) (Simple procs Sized) := by
  have h1 : Leads sides periodic procs n Sized ((if z.evolve then energyOps z dt it z.updates else []) ++ lastOps z) (Rich sides periodic procs flow (1 / 2) (3 / 2) Dense) := by
    split_ifs with hev
    · exact lead_energy dt it hrel (lead_last he hw hm) (hu hev)
    · exact (lead_last he hw hm).weaken fun _ _ h => h.simple
  have h2 := lead_start hs hf hv dt it hrel h1
  unfold firstOps alphaOps
  simp only [hv, List.append_nil, List.append_assoc, List.cons_append, List.nil_append] at h2 ⊢
  exact h2

include hs hf hv in
theorem lead_next (he : 0 < z.eta) (hw : 0 < z.width) (hm : z.hMode ≠ .uniform) (hev : z.evolve = false) (dt : ℝ) (it : Int) (hrel : ¬ it < z.sph.relaxationSteps) :
    Leads sides periodic procs n Sized (nextOps z dt it ++ lastOps z) (Simple procs Sized) := by
  have hk : kickOps z dt = [] := by unfold kickOps; rw [hev]; rfl
  have h2 := lead_move hs hf hv dt it hrel (lead_reset (n := n) (lead_last (sides := sides) (periodic := periodic) (procs := procs) he hw hm))
  unfold nextOps alphaOps
  rw [hk] at h2 ⊢
  simp only [hv, hev, Bool.false_eq_true, if_false, List.append_nil, List.append_assoc, List.cons_append, List.nil_append] at h2 ⊢
  exact h2

end

end FleCSPH.Torus
