import Verif.Lemmas.ProgramRun
/-! The calls of the two drivers use the trees only while they are those of the particles. -/
namespace FleCSPH.Program
open FleCSPH.Geometry FleCSPH.Sph FleCSPH.Driver FleCSPH.DistRun FleCSPH.Cofm FleCSPH.Newtonian FleCSPH.Spec FleCSPH.Integration

variable {i : Fin 3} {n : Nat} {te : Bool} {J : Particle (i + 1) → Prop}

/-- A call which changes neither identifier nor position, mass and smoothing length. -/
theorem fit_all {f : Particle (i + 1) → Particle (i + 1)} {ops : List (Op (Particle (i + 1)))} {t : Bool} {I I' : Particle (i + 1) → Prop} (hk : ∀ a, (f a).id = a.id ∧ bodyOf (f a) = bodyOf a) (hI : ∀ a, I a → I' (f a))
    (h : Fit ops t I' te J) : Fit (.all (fun a => some (f a)) :: ops) t I te J :=
  ⟨fun a x hx => by obtain rfl := Option.some.inj hx; exact (hk a).1, t, I', fun ht => ⟨ht, fun a x hx => by obtain rfl := Option.some.inj hx; exact (hk a).2⟩,
    fun a x ha hx => by obtain rfl := Option.some.inj hx; exact hI a ha, h⟩

theorem fit_move {f : Particle (i + 1) → Particle (i + 1)} {ops : List (Op (Particle (i + 1)))} {t : Bool} {I I' : Particle (i + 1) → Prop} (hk : ∀ a, (f a).id = a.id) (hI : ∀ a, I a → I' (f a))
    (h : Fit ops false I' te J) : Fit (.all (fun a => some (f a)) :: ops) t I te J :=
  ⟨fun a x hx => by obtain rfl := Option.some.inj hx; exact hk a, false, I', fun ht => Bool.noConfusion ht, fun a x ha hx => by obtain rfl := Option.some.inj hx; exact hI a ha, h⟩

theorem fit_pass {k : Nat} {f : Particle (i + 1) → List (Particle (i + 1)) → Particle (i + 1)} {ops : List (Op (Particle (i + 1)))} (hk : ∀ a l, (f a l).id = a.id ∧ bodyOf (f a l) = bodyOf a)
    (hI : ∀ a l, DistRun.Dense a → DistRun.Dense (f a l)) (h : Fit ops true DistRun.Dense te J) : Fit (.pass k (fun a l => some (f a l)) :: ops) true DistRun.Dense te J :=
  ⟨rfl, fun a h => ⟨h.1, h.2.1⟩, fun a l x hx => by obtain rfl := Option.some.inj hx; exact hk a l, DistRun.Dense, fun a l x ha hx => by obtain rfl := Option.some.inj hx; exact hI a l ha, h⟩

theorem fit_kick (z : Config i) (dt : ℝ) {ops : List (Op (Particle (i + 1)))} {t : Bool} {I : Particle (i + 1) → Prop} (hI : ∀ a u, I a → I { a with u := u }) (hI' : ∀ a e, I a → I { a with e := e })
    (h : Fit ops t I te J) : Fit (kickOps z dt ++ ops) t I te J := by
  unfold kickOps
  split_ifs
  · exact fit_all (fun a => ⟨rfl, rfl⟩) (fun a => hI' a _) h
  · exact fit_all (fun a => ⟨rfl, rfl⟩) (fun a => hI a _) h
  · exact h

theorem fit_energy (z : Config i) (dt : ℝ) (it : Int) {ops : List (Op (Particle (i + 1)))} (h : Fit ops true DistRun.Dense te J) : ∀ m, Fit (energyOps z dt it m ++ ops) true DistRun.Dense te J := by
  intro m
  induction m with
  | zero => exact h
  | succ m ih =>
    have htail : Fit (((if 0 < m then [.reset] else []) ++ energyOps z dt it m) ++ ops) true DistRun.Dense te J := by
      split_ifs with hm
      · exact ⟨rfl, ih⟩
      · exact ih
    rw [energyOps]
    rw [show ∀ (a b c : List (Op (Particle (i + 1)))), (a ++ b ++ c) ++ ops = a ++ ((b ++ c) ++ ops) from fun a b c => by simp only [List.append_assoc]]
    generalize ((if 0 < m then [.reset] else []) ++ energyOps z dt it m) ++ ops = tl at htail ⊢
    have hT : Fit (.all (Eos.recomputePressureSoundspeedThermokinetic z.eos z.eosParams z.phi dt) :: tl) true DistRun.Dense te J := by
      refine ⟨fun a x hx => ?_, true, DistRun.Dense, fun _ => ⟨rfl, fun a x hx => ?_⟩, fun a x ha hx => ?_, htail⟩
      all_goals obtain ⟨_, _, _, rfl⟩ := recomputeT_keep _ _ _ _ _ _ hx
      exacts [rfl, rfl, ha]
    have hU : Fit (.all (fun a => some (Eos.recomputePressureSoundspeed z.eos z.eosParams dt a)) :: tl) true DistRun.Dense te J := by
      refine fit_all (fun a => ?_) (fun a h => ?_) htail
      all_goals
        obtain ⟨_, _, e⟩ := recompute_keep z.eos z.eosParams dt a
        rw [e]
      exacts [⟨rfl, rfl⟩, h]
    have hdk : ∀ a l, (computeDudt z.sph it a l).id = a.id ∧ bodyOf (computeDudt z.sph it a l) = bodyOf a := fun a l => by
      simp only [computeDudt]; split <;> exact ⟨rfl, rfl⟩
    have hdd : ∀ a l, DistRun.Dense a → DistRun.Dense (computeDudt z.sph it a l) := fun a l h => by
      simp only [computeDudt]; split <;> exact h
    split_ifs with htk hrel hrel
    · exact fit_pass (fun _ _ => ⟨rfl, rfl⟩) (fun _ _ h => h) (fit_all (fun _ => ⟨rfl, rfl⟩) (fun _ (h : DistRun.Dense _) => (show DistRun.Dense _ from h)) hT)
    · exact fit_pass (fun _ _ => ⟨rfl, rfl⟩) (fun _ _ h => h) hT
    · exact fit_pass hdk hdd (fit_all (fun _ => ⟨rfl, rfl⟩) (fun _ (h : DistRun.Dense _) => (show DistRun.Dense _ from h)) hU)
    · exact fit_pass hdk hdd hU

theorem fit_evolve (z : Config i) (dt : ℝ) (it : Int) {ops : List (Op (Particle (i + 1)))} (h : Fit ops true DistRun.Dense te J) :
    Fit ((if z.evolve then energyOps z dt it z.updates else []) ++ ops) true DistRun.Dense te J := by
  split_ifs
  · exact fit_energy z dt it h _
  · exact h

theorem fit_acc (z : Config i) {ops : List (Op (Particle (i + 1)))} (h : Fit ops true DistRun.Dense te J) : Fit (accOps z ++ ops) true DistRun.Dense te J :=
  ⟨rfl, fit_pass (fun _ _ => ⟨rfl, rfl⟩) (fun _ _ h => h) h⟩

theorem fit_relax (z : Config i) (it : Int) {ops : List (Op (Particle (i + 1)))} (h : Fit ops true DistRun.Dense te J) : Fit (relaxOps z it ++ ops) true DistRun.Dense te J := by
  unfold relaxOps
  split_ifs
  · exact fit_all (fun _ => ⟨rfl, rfl⟩) (fun _ (h : DistRun.Dense _) => (show DistRun.Dense _ from h)) (fit_pass (fun _ _ => ⟨rfl, rfl⟩) (fun _ _ h => h) h)
  · exact h

theorem fit_density (z : Config i) (dt : ℝ) {ops : List (Op (Particle (i + 1)))} (h : Fit ops true DistRun.Dense te J) : Fit (densityOp z dt :: ops) true Sized te J := by
  refine ⟨rfl, fun _ h => h, fun a l x hx => ?_, DistRun.Dense, fun a l x ha hx => ?_, h⟩
  all_goals obtain ⟨h1, _, _, _, _, _, _, _, rfl⟩ := density_keep _ _ _ _ _ _ _ hx
  exacts [⟨rfl, rfl⟩, ⟨ha.1, ha.2, h1⟩]

theorem fit_last (z : Config i) (he : 0 < z.eta) (hw : 0 < z.width) {t : Bool} : Fit (lastOps z) t DistRun.Dense false Sized := by
  have hcheck : ∀ {I : Particle (i + 1) → Prop} {t : Bool}, (∀ a, I a → Sized a) → Fit [.all fun a => open Classical in
      if 0 ≤ a.rho ∧ 0 ≤ a.P ∧ (z.evolve = true → 0 ≤ a.u) then some a else none] t I false Sized := by
    intro I t hI
    have same : ∀ a x : Particle (i + 1), (open Classical in if 0 ≤ a.rho ∧ 0 ≤ a.P ∧ (z.evolve = true → 0 ≤ a.u) then some a else none) = some x → x = a := by
      intro a x hx
      split_ifs at hx
      exact (Option.some.inj hx).symm
    exact ⟨fun a x hx => by rw [same a x hx], false, I, fun h => Bool.noConfusion h, fun a x ha hx => by rw [same a x hx]; exact ha, fun h => Bool.noConfusion h, hI⟩
  unfold lastOps
  cases z.hMode with
  | «variable» => exact fit_move (I' := Sized) (fun _ => rfl) (fun a h => ⟨h.1, newH_pos z he hw h⟩) (hcheck fun _ h => h)
  | uniform => exact ⟨fun a h => newH_pos z he hw h, fun x a => rfl, Sized, fun x a hx h => ⟨h.1, hx⟩, hcheck fun _ h => h⟩
  | fixed => exact hcheck fun _ h => ⟨h.1, h.2.1⟩

theorem init_keep (z : Config i) (a : Particle (i + 1)) : (Eos.init z.eos z.eosParams a).id = a.id ∧ bodyOf (Eos.init z.eos z.eosParams a) = bodyOf a := by
  cases z.eos <;> exact ⟨rfl, rfl⟩

theorem init_sized (z : Config i) (a : Particle (i + 1)) (h : Sized a) : Sized (Eos.init z.eos z.eosParams a) := by
  cases z.eos <;> exact h

theorem fit_alpha (z : Config i) (dt : ℝ) {ops : List (Op (Particle (i + 1)))} (h : Fit ops true DistRun.Dense te J) : Fit (alphaOps z dt ++ ops) true DistRun.Dense te J := by
  unfold alphaOps
  cases z.sph.visc with
  | constant => exact h
  | cullen =>
    refine ⟨rfl, fun _ h => ⟨h.1, h.2.1⟩, fun a l x hx => ?_, DistRun.Dense, fun a l x ha hx => ?_, h⟩
    all_goals obtain ⟨y, rfl⟩ := computeAlpha_keep _ _ _ _ _ hx
    exacts [⟨rfl, rfl⟩, ha]

theorem fit_head (z : Config i) (c : Timestep.Clock) : Fit (headOps z c) false Sized true DistRun.Dense := by
  have hnil : Fit ([] : List (Op (Particle (i + 1)))) true DistRun.Dense true DistRun.Dense := ⟨id, fun _ h => h⟩
  have ha : Fit (alphaOps z c.dt ++ accOps z) true DistRun.Dense true DistRun.Dense := by
    have := fit_alpha z c.dt (fit_acc z hnil)
    rwa [List.append_nil] at this
  unfold headOps
  split_ifs with hc
  · have h2 : Fit (densityOp z c.dt :: .all (fun a => some (saveVelocityhalf a)) :: (alphaOps z c.dt ++ accOps z)) true Sized true DistRun.Dense :=
      fit_density z c.dt (fit_all (fun _ => ⟨rfl, rfl⟩) (fun _ (h : DistRun.Dense _) => (show DistRun.Dense _ from h)) ha)
    have h3 : Fit ((if z.thermokinetic then [Op.all fun a => some (setTotalEnergy z.phi a)] else []) ++
        densityOp z c.dt :: .all (fun a => some (saveVelocityhalf a)) :: (alphaOps z c.dt ++ accOps z)) true Sized true DistRun.Dense := by
      split_ifs
      · exact fit_all (I' := Sized) (fun _ => ⟨rfl, rfl⟩) (fun _ h => h) h2
      · exact h2
    unfold firstHead
    simp only [List.append_assoc, List.cons_append, List.nil_append]
    refine ⟨fun _ h => h, fit_all (I' := Sized) (init_keep z) (init_sized z) ?_⟩
    cases z.sph.visc with
    | constant => exact h3
    | cullen =>
      refine fit_all (I' := Sized) (fun a => ?_) (fun a ha => ?_) h3
      · unfold Cullen.initializeAlpha; split <;> exact ⟨rfl, rfl⟩
      · unfold Cullen.initializeAlpha; split <;> exact ha
  · unfold nextHead
    simp only [List.append_assoc, List.cons_append, List.nil_append]
    refine fit_kick z c.dt (fun _ _ h => h) (fun _ _ h => h) ?_
    refine fit_all (I' := Sized) (fun _ => ⟨rfl, rfl⟩) (fun _ h => h) ?_
    refine fit_all (I' := Sized) (fun _ => ⟨rfl, rfl⟩) (fun _ h => h) ?_
    refine fit_move (I' := Sized) (fun _ => rfl) (fun _ h => h) ?_
    exact ⟨fun _ h => h, fit_density z c.dt ha⟩

theorem fit_tail (z : Config i) (he : 0 < z.eta) (hw : 0 < z.width) (c : Timestep.Clock) : Fit (tailOps z c) true DistRun.Dense false Sized := by
  unfold tailOps
  split_ifs with hc
  · unfold firstTail
    rw [List.append_assoc, List.append_assoc]
    refine fit_relax z _ ?_
    have h1 := fit_evolve z c.dt c.iteration (fit_last z he hw (t := true))
    by_cases htk : z.thermokinetic = true
    · rw [if_pos htk]
      exact fit_all (fun _ => ⟨rfl, rfl⟩) (fun _ (h : DistRun.Dense _) => (show DistRun.Dense _ from h)) h1
    · rw [if_neg htk]
      exact h1
  · unfold nextTail
    simp only [List.append_assoc]
    refine fit_relax z _ ?_
    exact fit_all (fun _ => ⟨rfl, rfl⟩) (fun _ (h : DistRun.Dense _) => (show DistRun.Dense _ from h)) ⟨rfl, fit_evolve z _ _ (fit_kick z c.dt (fun _ _ h => h) (fun _ _ h => h) (fit_last z he hw))⟩

theorem fit_force (z : Config i) (it : Int) {ops : List (Op (Particle (i + 1)))} (h : Fit ops true DistRun.Dense te J) : Fit (forceOps z it ++ ops) true DistRun.Dense te J := by
  have e : forceOps z it = accOps z ++ relaxOps z it := rfl
  rw [e, List.append_assoc]
  exact fit_acc z (fit_relax z it h)

theorem fit_iteration (z : Config i) (hv : z.sph.visc = .constant) (he : 0 < z.eta) (hw : 0 < z.width) (c : Timestep.Clock) : Fit (iterationOps z c) false Sized false Sized := by
  unfold iterationOps
  split_ifs
  · have h2 : Fit (densityOp z c.dt :: .all (fun a => some (saveVelocityhalf a)) :: (forceOps z c.iteration ++ ((if z.evolve then energyOps z c.dt c.iteration z.updates else []) ++ lastOps z))) true Sized false Sized :=
      fit_density z c.dt (fit_all (fun _ => ⟨rfl, rfl⟩) (fun _ (h : DistRun.Dense _) => (show DistRun.Dense _ from h)) (fit_force z _ (fit_evolve z _ _ (fit_last z he hw))))
    unfold firstOps alphaOps
    simp only [hv, List.append_nil, List.append_assoc, List.cons_append, List.nil_append]
    refine ⟨fun _ h => h, fit_all (I' := Sized) (init_keep z) (init_sized z) ?_⟩
    by_cases htk : z.thermokinetic = true
    · rw [if_pos htk]
      exact fit_all (I' := Sized) (fun _ => ⟨rfl, rfl⟩) (fun _ h => h) h2
    · rw [if_neg htk]
      exact h2
  · unfold nextOps alphaOps
    simp only [hv, List.append_nil, List.append_assoc, List.cons_append, List.nil_append]
    refine fit_kick z c.dt (fun _ _ h => h) (fun _ _ h => h) ?_
    refine fit_all (I' := Sized) (fun _ => ⟨rfl, rfl⟩) (fun _ h => h) ?_
    refine fit_all (I' := Sized) (fun _ => ⟨rfl, rfl⟩) (fun _ h => h) ?_
    refine fit_move (I' := Sized) (fun _ => rfl) (fun _ h => h) ?_
    refine ⟨fun _ h => h, fit_density z c.dt (fit_force z _ ?_)⟩
    exact fit_all (fun _ => ⟨rfl, rfl⟩) (fun _ (h : DistRun.Dense _) => (show DistRun.Dense _ from h)) ⟨rfl, fit_evolve z _ _ (fit_kick z c.dt (fun _ _ h => h) (fun _ _ h => h) (fit_last z he hw))⟩

end FleCSPH.Program
