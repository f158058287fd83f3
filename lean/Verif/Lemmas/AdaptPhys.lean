import Verif.Lemmas.DistDriver
import Verif.Model.AdaptRun
/-! The lemmas of Lemmas/DistPhys.lean and Lemmas/DistDriver.lean for programs which write the time step of the particles: what two executions agree on is everything but the signal speed and the time step. -/
namespace FleCSPH.DistRun.Free
open FleCSPH.Geometry FleCSPH.Sph FleCSPH.Driver FleCSPH.Spec FleCSPH.Kernels FleCSPH.Integration

variable {i : Fin 3} {n : Nat}

/-- Everything but the signal speed and the time step of the particle. -/
def er {d : Nat} (a : Particle d) : Particle d := { a with vsig := 0, dt := 0 }

theorem near_er (s s' : Fin n → Particle (i + 1)) (nbs : Fin n → List (Fin n)) (he : ∀ a, er (s a) = er (s' a)) (h : NearLists s nbs) : NearLists s' nbs := by
  have e : ∀ a, (s a).pos = (s' a).pos ∧ (s a).h = (s' a).h := fun a => by
    have h1 := congrArg Particle.pos (he a)
    have h2 := congrArg Particle.h (he a)
    exact ⟨h1, h2⟩
  refine ⟨h.nodup, fun a b hab => h.complete a b ?_⟩
  rw [(e a).1, (e a).2, (e b).1, (e b).2]; exact hab

theorem recoverIf_er {d : Nat} (z : Eos.Setup d) (a : Particle d) : Eos.recoverIf z (er a) = (Eos.recoverIf z a).map er := by
  simp only [Eos.recoverIf, recoverInternalEnergy]
  split_ifs with h1 h2 h3 h3
  · rfl
  · exact absurd h2 h3
  · exact absurd h3 h2
  · rfl
  · rfl

open Classical in

theorem density_er (z : Config i) (hv : z.sph.visc = .constant) (dt : ℝ) (a : Particle (i + 1)) (l : List (Particle (i + 1))) :
    (Eos.computeDensityPressureSoundspeed z.sph z.eos z.eosParams (setup z dt) a l).map er =
    if 0 < l.length ∧ 0 < rhoSum z.sph a l then
      (Eos.recoverIf (setup z dt) { er a with rho := rhoSum z.sph a l }).map fun x => Eos.computeSoundspeed z.eos z.eosParams (Eos.computePressure z.eos z.eosParams x)
    else none := by
  simp only [Eos.computeDensityPressureSoundspeed, Option.bind_eq_bind, Option.pure_def, computeDensity, accumulate_eq]
  change ((if 0 < l.length ∧ 0 < rhoSum z.sph a l then some _ else none : Option (Particle (i + 1))).bind _).map er = _
  split_ifs with h
  · rw [Option.bind_some]
    have hfin : ∀ x : Particle (i + 1), er (Eos.divvIf z.sph (setup z dt).dt (computeSignalspeed (Eos.computeSoundspeed z.eos z.eosParams (Eos.computePressure z.eos z.eosParams x)) l) l) =
        Eos.computeSoundspeed z.eos z.eosParams (Eos.computePressure z.eos z.eosParams (er x)) := by
      intro x
      simp only [Eos.divvIf, hv]
      cases z.eos <;> rfl
    have hrec : Eos.recoverIf (setup z dt) { er a with rho := rhoSum z.sph a l } = (Eos.recoverIf (setup z dt) { a with rho := rhoSum z.sph a l }).map er :=
      recoverIf_er (setup z dt) { a with rho := rhoSum z.sph a l }
    rw [hrec]
    change ((Eos.recoverIf (setup z dt) { a with rho := rhoSum z.sph a l }).bind _).map er = _
    cases Eos.recoverIf (setup z dt) { a with rho := rhoSum z.sph a l } with
    | none => rfl
    | some x => simp only [Option.bind_some, Option.map_some, hfin]
  · rfl

theorem density_reads (z : Config i) (hv : z.sph.visc = .constant) (dt : ℝ) : Reads er geo (Eos.computeDensityPressureSoundspeed z.sph z.eos z.eosParams (setup z dt)) := by
  refine ⟨fun a l l' h => ?_, fun a l x h => ?_⟩
  · have h1 : l.length = l'.length := by have := congrArg List.length h; simpa using this
    rw [density_er z hv, density_er z hv, ← rhoSum_geo _ a l, ← rhoSum_geo _ a l', h, h1]
  · obtain ⟨_, _, _, _, _, _, _, _, rfl⟩ := density_keep _ _ _ _ _ _ _ h
    rfl

theorem density_lists (z : Config i) (hv : z.sph.visc = .constant) (dt : ℝ) {s : Fin n → Particle (i + 1)} {nbs nbs' : Fin n → List (Fin n)} (hh : ∀ a, 0 < (s a).h) (hl : NearLists s nbs)
    (hl' : NearLists s nbs') (a : Fin n) : (Eos.computeDensityPressureSoundspeed z.sph z.eos z.eosParams (setup z dt) (s a) ((nbs a).map s)).map er =
      (Eos.computeDensityPressureSoundspeed z.sph z.eos z.eosParams (setup z dt) (s a) ((nbs' a).map s)).map er := by
  have h1 : 0 < ((nbs a).map s).length := by rw [List.length_map]; exact List.length_pos_of_mem (self_near hl a (hh a))
  have h2 : 0 < ((nbs' a).map s).length := by rw [List.length_map]; exact List.length_pos_of_mem (self_near hl' a (hh a))
  rw [density_er z hv, density_er z hv, rhoSum_near _ hl hh, rhoSum_near _ hl' hh]
  simp only [h1, h2, true_and]

/-- A function which sums over the neighbours. -/
theorem reads_of_map {V : Type} {v : Particle (i + 1) → V} {f : Particle (i + 1) → List (Particle (i + 1)) → Particle (i + 1)} (hv : ∀ a l l', l.map v = l'.map v → f a l = f a l')
    (hk : ∀ a l, v (f a l) = v a) : Reads er v (fun a l => some (f a l)) :=
  ⟨fun a l l' h => by rw [hv a l l' h], fun a l x h => by obtain rfl := Option.some.inj h; exact hk a l⟩

theorem acceleration_reads (p : Params i) : Reads er flow (fun a l => some (computeAcceleration p a l)) := by
  refine reads_of_map (fun a l l' h => ?_) fun a l => rfl
  have e : ∀ l, computeAcceleration p a (l.map flow) = computeAcceleration p a l := by
    intro l; simp only [computeAcceleration, accumulate_eq, List.map_map]; rfl
  rw [← e l, h, e]

theorem dudt_reads (p : Params i) (it : Int) : Reads er flow (fun a l => some (computeDudt p it a l)) := by
  refine reads_of_map (fun a l l' h => ?_) fun a l => by simp only [computeDudt]; split <;> rfl
  have e : ∀ l, computeDudt p it a (l.map flow) = computeDudt p it a l := by
    intro l; simp only [computeDudt, accumulate_eq, List.map_map]; split <;> rfl
  rw [← e l, h, e]

theorem dedt_reads (p : Params i) : Reads er flow (fun a l => some (computeDedt p a l)) := by
  refine reads_of_map (fun a l l' h => ?_) fun a l => rfl
  have e : ∀ l, computeDedt p a (l.map flow) = computeDedt p a l := by
    intro l; simp only [computeDedt, foldl_sub_eq, List.map_map]; rfl
  rw [← e l, h, e]

theorem repulsion_reads (radius gamma : ℝ) : Reads er geo (fun (a : Particle (i + 1)) l => some (addShortRangeRepulsion radius gamma a l)) := by
  refine reads_of_map (fun a l l' h => ?_) fun a l => rfl
  have e : ∀ l, addShortRangeRepulsion radius gamma a (l.map geo) = addShortRangeRepulsion radius gamma a l := by
    intro l; simp only [addShortRangeRepulsion, List.foldl_map]; rfl
  rw [← e l, h, e]

/-- Discipline for the driver. -/
abbrev Disc (n : Nat) (ops : List (Op (Particle (i + 1)))) (V : (Particle (i + 1) → Particle (i + 1)) → Prop) (I : Particle (i + 1) → Prop) (J : Particle (i + 1) → Prop := Sized) : Prop :=
  Disciplined (n := n) er NearLists (fun a => 0 < a.h) J ops V I

theorem disc_all {J : Particle (i + 1) → Prop} {f : Particle (i + 1) → Particle (i + 1)} {ops : List (Op (Particle (i + 1)))} {W V : (Particle (i + 1) → Particle (i + 1)) → Prop} {I I' : Particle (i + 1) → Prop}
    (hc : ∀ a, er (f (er a)) = er (f a)) (hI : ∀ a, I a → I' (f a)) (hV : ∀ v, W v → V v ∧ ∀ a, v (f a) = v a) (h : Disc n ops W I' J) : Disc n (.all (fun a => some (f a)) :: ops) V I J := by
  refine ⟨fun a => congrArg some (hc a), I', fun a x ha hx => by obtain rfl := Option.some.inj hx; exact hI a ha, ?_⟩
  refine Disciplined.mono (fun v hv => ?_) h
  exact ⟨(hV v hv).1, fun a x hx => by obtain rfl := Option.some.inj hx; exact (hV v hv).2 a⟩

/-- After the tree was built, or with nothing to read. -/
theorem disc_any {J : Particle (i + 1) → Prop} {ops : List (Op (Particle (i + 1)))} {V : (Particle (i + 1) → Particle (i + 1)) → Prop} {I : Particle (i + 1) → Prop} (h : Disc n ops (fun _ => False) I J) : Disc n ops V I J :=
  Disciplined.mono (fun _ h => h.elim) h

theorem disc_pass {J : Particle (i + 1) → Prop} {k : Nat} {f : Particle (i + 1) → List (Particle (i + 1)) → Particle (i + 1)} {ops : List (Op (Particle (i + 1)))} {W V : (Particle (i + 1) → Particle (i + 1)) → Prop}
    {I : Particle (i + 1) → Prop} (v : Particle (i + 1) → Particle (i + 1)) (hv : V v) (hr : Reads er v fun a l => some (f a l)) (hve : ∀ a, v (er a) = v a) (hc : ∀ a l, er (f (er a) l) = er (f a l))
    (hp : ∀ a, I a → 0 < a.h) (hl : ∀ (s : Fin n → Particle (i + 1)) nbs nbs', (∀ a, 0 < (s a).h) → NearLists s nbs → NearLists s nbs' → ∀ a, f (s a) ((nbs a).map s) = f (s a) ((nbs' a).map s))
    (hI : ∀ a l, I a → I (f a l)) (hV : ∀ v, W v → V v ∧ ∀ a l, v (f a l) = v a) (h : Disc n ops W I J) : Disc n (.pass k (fun a l => some (f a l)) :: ops) V I J := by
  refine ⟨⟨v, hv, hr, hve⟩, fun a l => congrArg some (hc a l), hp, fun s nbs nbs' h1 h2 h3 a => congrArg (fun x => (some x).map er) (hl s nbs nbs' h1 h2 h3 a), I,
    fun a l x ha hx => by obtain rfl := Option.some.inj hx; exact hI a l ha, ?_⟩
  refine Disciplined.mono (fun v hv => ?_) h
  exact ⟨(hV v hv).1, fun a l x hx => by obtain rfl := Option.some.inj hx; exact (hV v hv).2 a l⟩

theorem recomputeT_er {d : Nat} (e : Eos.Kind) (q : Eos.Params) (phi : Point d → ℝ) (dt : ℝ) (a : Particle d) :
    (Eos.recomputePressureSoundspeedThermokinetic e q phi dt (er a)).map er = (Eos.recomputePressureSoundspeedThermokinetic e q phi dt a).map er := by
  have h : recoverInternalEnergy phi (er a) = (recoverInternalEnergy phi a).map er := by
    simp only [recoverInternalEnergy]
    split_ifs with h1 h2 h2
    · rfl
    · exact absurd h1 h2
    · exact absurd h2 h1
    · rfl
  simp only [Eos.recomputePressureSoundspeedThermokinetic, Option.bind_eq_bind, Option.pure_def, h]
  cases recoverInternalEnergy phi a with
  | none => rfl
  | some x => simp only [Option.map_some, Option.bind_some]; cases e <;> rfl

theorem disc_kick {J : Particle (i + 1) → Prop} (z : Config i) (dt : ℝ) {ops : List (Op (Particle (i + 1)))} {V : (Particle (i + 1) → Particle (i + 1)) → Prop} {I : Particle (i + 1) → Prop} (hI : ∀ a u, I a → I { a with u := u })
    (hI' : ∀ a e, I a → I { a with e := e }) (h : Disc n ops (fun _ => False) I J) : Disc n (kickOps z dt ++ ops) V I J := by
  unfold kickOps
  split_ifs
  · exact disc_all (fun a => rfl) (fun a => hI' a _) (fun v h => h.elim) h
  · exact disc_all (fun a => rfl) (fun a => hI a _) (fun v h => h.elim) h
  · exact disc_any h

theorem disc_energy {J : Particle (i + 1) → Prop} (z : Config i) (dt : ℝ) (it : Int) {ops : List (Op (Particle (i + 1)))} (h : Disc n ops (fun _ => False) Dense J) :
    ∀ (m : Nat) {V : (Particle (i + 1) → Particle (i + 1)) → Prop}, V flow → Disc n (energyOps z dt it m ++ ops) V Dense J := by
  intro m
  induction m with
  | zero => intro V _; exact disc_any h
  | succ m ih =>
    intro V hV
    have htail : Disc n (((if 0 < m then [.reset] else []) ++ energyOps z dt it m) ++ ops) (fun _ => False) Dense J := by
      split_ifs with hm
      · exact ih (V := fun _ => True) trivial
      · obtain rfl : m = 0 := by omega
        exact h
    rw [energyOps]
    rw [show ∀ (a b c : List (Op (Particle (i + 1)))), (a ++ b ++ c) ++ ops = a ++ ((b ++ c) ++ ops) from fun a b c => by simp only [List.append_assoc]]
    generalize ((if 0 < m then [.reset] else []) ++ energyOps z dt it m) ++ ops = tl at htail ⊢
    split_ifs with htk hrel hrel
    · refine disc_pass (W := fun _ => False) flow hV (dedt_reads z.sph) (fun _ => rfl) (fun a l => ?_) dense_pos (fun s nbs nbs' h1 h2 h3 a => dedt_lists _ h1 h2 h3 a) (fun a l h => h) (fun v h => h.elim) ?_
      · rfl
      · refine disc_all (W := fun _ => False) (fun a => rfl) (fun a (h : Dense a) => (show Dense _ from h)) (fun v h => h.elim) ?_
        refine ⟨fun a => recomputeT_er _ _ _ _ a, Dense, fun a x ha hx => ?_, disc_any htail⟩
        obtain ⟨_, _, _, rfl⟩ := recomputeT_keep _ _ _ _ _ _ hx
        exact ha
    · refine disc_pass (W := fun _ => False) flow hV (dedt_reads z.sph) (fun _ => rfl) (fun a l => ?_) dense_pos (fun s nbs nbs' h1 h2 h3 a => dedt_lists _ h1 h2 h3 a) (fun a l h => h) (fun v h => h.elim) ?_
      · rfl
      · refine ⟨fun a => recomputeT_er _ _ _ _ a, Dense, fun a x ha hx => ?_, disc_any htail⟩
        obtain ⟨_, _, _, rfl⟩ := recomputeT_keep _ _ _ _ _ _ hx
        exact ha
    · refine disc_pass (W := fun _ => False) flow hV (dudt_reads z.sph it) (fun _ => rfl) (fun a l => ?_) dense_pos (fun s nbs nbs' h1 h2 h3 a => dudt_lists _ _ h1 h2 h3 a) (fun a l h => ?_) (fun v h => h.elim) ?_
      · simp only [computeDudt]; split <;> rfl
      · simp only [computeDudt]; split <;> exact h
      · refine disc_all (W := fun _ => False) (fun a => rfl) (fun a (h : Dense a) => (show Dense _ from h)) (fun v h => h.elim) ?_
        refine disc_all (W := fun _ => False) (fun a => ?_) (fun a h => ?_) (fun v h => h.elim) htail
        · simp only [Eos.recomputePressureSoundspeed]; cases z.eos <;> rfl
        · obtain ⟨_, _, e⟩ := recompute_keep z.eos z.eosParams dt a
          rw [e]; exact h
    · refine disc_pass (W := fun _ => False) flow hV (dudt_reads z.sph it) (fun _ => rfl) (fun a l => ?_) dense_pos (fun s nbs nbs' h1 h2 h3 a => dudt_lists _ _ h1 h2 h3 a) (fun a l h => ?_) (fun v h => h.elim) ?_
      · simp only [computeDudt]; split <;> rfl
      · simp only [computeDudt]; split <;> exact h
      · refine disc_all (W := fun _ => False) (fun a => ?_) (fun a h => ?_) (fun v h => h.elim) htail
        · simp only [Eos.recomputePressureSoundspeed]; cases z.eos <;> rfl
        · obtain ⟨_, _, e⟩ := recompute_keep z.eos z.eosParams dt a
          rw [e]; exact h

theorem disc_force {J : Particle (i + 1) → Prop} (z : Config i) (it : Int) (hrep : it < z.sph.relaxationSteps → z.repulsionRadius ≤ 1) (hext : ∀ a, z.sph.external { a with vsig := 0, dt := 0 } = z.sph.external a)
    {ops : List (Op (Particle (i + 1)))} (h : Disc n ops (fun v => v = flow) Dense J) {V : (Particle (i + 1) → Particle (i + 1)) → Prop} : Disc n (forceOps z it ++ ops) V Dense J := by
  unfold forceOps
  show Disc n (_ ++ ops) (fun _ => True) Dense J
  have hacc : ∀ (a : Particle (i + 1)) l, er (computeAcceleration z.sph (er a) l) = er (computeAcceleration z.sph a l) := by
    intro a l
    have := hext a
    simp only [computeAcceleration, er] at this ⊢
    rw [this]
    rfl
  split_ifs with hr
  · refine disc_pass (W := fun v => v = flow ∨ v = geo) flow trivial (acceleration_reads z.sph) (fun _ => rfl) hacc dense_pos (fun s nbs nbs' h1 h2 h3 a => acceleration_lists _ h1 h2 h3 a) (fun a l h => h) ?_ ?_
    · rintro v (rfl | rfl) <;> exact ⟨trivial, fun _ _ => rfl⟩
    · refine disc_all (W := fun v => v = flow ∨ v = geo) (I' := Dense) (fun a => rfl) (fun a h => h) ?_ ?_
      · rintro v (rfl | rfl)
        exacts [⟨Or.inl rfl, fun _ => rfl⟩, ⟨Or.inr rfl, fun _ => rfl⟩]
      · refine disc_pass geo (Or.inr rfl) (repulsion_reads _ _) (fun _ => rfl) (fun a l => rfl) dense_pos (fun s nbs nbs' h1 h2 h3 a => repulsion_lists (hrep hr) _ h1 h2 h3 a) (fun a l h => h) ?_ h
        rintro v rfl
        exact ⟨Or.inl rfl, fun _ _ => rfl⟩
  · refine disc_pass flow trivial (acceleration_reads z.sph) (fun _ => rfl) hacc dense_pos (fun s nbs nbs' h1 h2 h3 a => acceleration_lists _ h1 h2 h3 a) (fun a l h => h) ?_ h
    rintro v rfl
    exact ⟨trivial, fun _ _ => rfl⟩

theorem disc_density {J : Particle (i + 1) → Prop} (z : Config i) (hv : z.sph.visc = .constant) (dt : ℝ) {ops : List (Op (Particle (i + 1)))} (h : Disc n ops (fun _ => False) Dense J)
    {V : (Particle (i + 1) → Particle (i + 1)) → Prop} (hV : V geo) : Disc n (densityOp z dt :: ops) V Sized J := by
  refine ⟨⟨geo, hV, density_reads z hv dt, fun _ => rfl⟩, fun a l => ?_, fun a h => h.2, fun s nbs nbs' h1 h2 h3 a => density_lists z hv dt h1 h2 h3 a, Dense, fun a l x ha hx => ?_, disc_any h⟩
  · rw [density_er z hv, density_er z hv]; rfl
  · obtain ⟨h1, _, _, _, _, _, _, _, rfl⟩ := density_keep _ _ _ _ _ _ _ hx
    exact ⟨ha.1, ha.2, h1⟩

theorem disc_last (z : Config i) (he : 0 < z.eta) (hw : 0 < z.width) {V : (Particle (i + 1) → Particle (i + 1)) → Prop} : Disc n (lastOps z) V Dense := by
  have hcheck : ∀ {I : Particle (i + 1) → Prop} {V : (Particle (i + 1) → Particle (i + 1)) → Prop}, (∀ a, I a → Sized a) → Disc n [.all fun a => open Classical in
      if 0 ≤ a.rho ∧ 0 ≤ a.P ∧ (z.evolve = true → 0 ≤ a.u) then some a else none] V I := by
    intro I V hI
    refine ⟨fun a => ?_, I, fun a x ha hx => ?_, hI⟩
    · by_cases hc : 0 ≤ a.rho ∧ 0 ≤ a.P ∧ (z.evolve = true → 0 ≤ a.u)
      · have hc' : 0 ≤ (er a).rho ∧ 0 ≤ (er a).P ∧ (z.evolve = true → 0 ≤ (er a).u) := hc
        simp only [if_pos hc, if_pos hc']; rfl
      · have hc' : ¬(0 ≤ (er a).rho ∧ 0 ≤ (er a).P ∧ (z.evolve = true → 0 ≤ (er a).u)) := hc
        simp only [if_neg hc, if_neg hc']
    · dsimp only at hx
      split_ifs at hx
      obtain rfl := Option.some.inj hx
      exact ha
  unfold lastOps
  cases z.hMode with
  | «variable» => exact disc_all (W := fun _ => False) (I' := Sized) (fun a => rfl) (fun a h => ⟨h.1, newH_pos z he hw h⟩) (fun v h => h.elim) (hcheck fun _ h => h)
  | uniform => exact ⟨fun a => rfl, fun x a => rfl, fun a h => newH_pos z he hw h, Sized, fun x a hx h => ⟨h.1, hx⟩, hcheck fun _ h => h⟩
  | fixed => exact hcheck fun _ h => ⟨h.1, h.2.1⟩

theorem disc_forces {J : Particle (i + 1) → Prop} (z : Config i) (hv : z.sph.visc = .constant) (dt : ℝ) (it : Int) (hrep : it < z.sph.relaxationSteps → z.repulsionRadius ≤ 1)
    (hext : ∀ a, z.sph.external { a with vsig := 0, dt := 0 } = z.sph.external a) {ops : List (Op (Particle (i + 1)))} (h1 : Disc n ops (fun v => v = flow) Dense J)
    {V : (Particle (i + 1) → Particle (i + 1)) → Prop} : Disc n (AdaptRun.firstForces z dt it ++ ops) V Sized J := by
  have h2 : Disc n (densityOp z dt :: .all (fun a => some (saveVelocityhalf a)) :: (forceOps z it ++ ops)) (fun v => v = geo) Sized J :=
    disc_density z hv dt (disc_all (f := saveVelocityhalf) (W := fun _ => False) (I' := Dense) (fun a => rfl) (fun a h => h) (fun v h => h.elim) (disc_force z it hrep hext h1)) (V := fun v => v = geo) rfl
  have hinit : ∀ a : Particle (i + 1), er (Eos.init z.eos z.eosParams (er a)) = er (Eos.init z.eos z.eosParams a) ∧ geo (Eos.init z.eos z.eosParams a) = geo a ∧
      (Eos.init z.eos z.eosParams a).mass = a.mass ∧ (Eos.init z.eos z.eosParams a).h = a.h := by
    intro a
    cases z.eos <;> exact ⟨rfl, rfl, rfl, rfl⟩
  unfold AdaptRun.firstForces alphaOps
  simp only [hv, List.append_nil, List.append_assoc, List.cons_append, List.nil_append]
  show Disc n (.all (fun a => some (Eos.init z.eos z.eosParams a)) :: _) (fun _ => True) Sized J
  split_ifs
  all_goals
    refine disc_all (W := fun v => v = geo) (I' := Sized) (fun a => (hinit a).1) (fun a h => ?_) ?_ ?_
    · unfold Sized; rw [(hinit a).2.2.1, (hinit a).2.2.2]; exact h
    · rintro v rfl; exact ⟨trivial, fun a => (hinit a).2.1⟩
  · simp only [List.cons_append, List.nil_append]
    refine disc_all (W := fun v => v = geo) (I' := Sized) (fun a => rfl) (fun a h => h) ?_ h2
    rintro v rfl; exact ⟨rfl, fun _ => rfl⟩
  · exact h2

theorem disc_rest (z : Config i) (he : 0 < z.eta) (hw : 0 < z.width) (dt : ℝ) (it : Int) : Disc n (AdaptRun.firstRest z dt it) (fun v => v = flow) Dense := by
  unfold AdaptRun.firstRest
  split_ifs
  · exact disc_energy z dt it (disc_last z he hw) _ rfl
  · exact disc_last z he hw

theorem disc_next (z : Config i) (hv : z.sph.visc = .constant) (he : 0 < z.eta) (hw : 0 < z.width) (dt : ℝ) (it : Int) (hrep : it < z.sph.relaxationSteps → z.repulsionRadius ≤ 1)
    (hext : ∀ a, z.sph.external { a with vsig := 0, dt := 0 } = z.sph.external a) {V : (Particle (i + 1) → Particle (i + 1)) → Prop} : Disc n (nextOps z dt it ++ lastOps z) V Sized := by
  have h0 : Disc n (kickOps z dt ++ lastOps z) (fun _ => False) Dense := disc_kick z dt (fun _ _ h => h) (fun _ _ h => h) (disc_last z he hw)
  have h1 : Disc n ((if z.evolve then energyOps z dt it z.updates else []) ++ (kickOps z dt ++ lastOps z)) (fun _ => True) Dense := by
    split_ifs
    · exact disc_energy z dt it h0 _ trivial
    · exact disc_any h0
  have h2 : Disc n (.all (fun a => some (kickV dt a)) :: .reset :: ((if z.evolve then energyOps z dt it z.updates else []) ++ (kickOps z dt ++ lastOps z))) (fun v => v = flow) Dense :=
    disc_all (W := fun _ => False) (fun a => rfl) (fun a h => h) (fun v h => h.elim) h1
  have h3 := disc_density z hv dt (disc_any (disc_force z it hrep hext h2)) (V := fun _ => True) trivial
  unfold nextOps alphaOps
  simp only [hv, List.append_nil, List.append_assoc, List.cons_append, List.nil_append]
  refine disc_kick z dt (fun _ _ h => h) (fun _ _ h => h) ?_
  refine disc_all (W := fun _ => False) (I' := Sized) (fun a => rfl) (fun a h => h) (fun v h => h.elim) ?_
  refine disc_all (W := fun _ => False) (I' := Sized) (fun a => rfl) (fun a h => h) (fun v h => h.elim) ?_
  refine disc_all (W := fun _ => False) (I' := Sized) (fun a => rfl) (fun a h => h) (fun v h => h.elim) ?_
  exact h3

end FleCSPH.DistRun.Free
