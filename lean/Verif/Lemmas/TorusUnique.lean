import Verif.Lemmas.TorusDriver
/-! The calls of the driver on the torus determine the particles up to periods. -/
namespace FleCSPH.Torus
open FleCSPH.Geometry FleCSPH.Sph FleCSPH.Driver FleCSPH.DistRun FleCSPH.PeriodicRun FleCSPH.Spec FleCSPH.Integration

section
variable {d n : Nat} {sides : Fin d → ℝ} {periodic : Fin d → Bool}

theorem er_of_core {a b : Particle d} (h : core a = core b) (hid : a.id = b.id) : er a = er b := by
  have : ∀ p : Particle d, er p = { core p with id := p.id } := fun _ => rfl
  rw [this a, this b, h, hid]

theorem core_of_er {a b : Particle d} (h : er a = er b) : core a = core b := by
  have : ∀ p : Particle d, core p = core (er p) := fun _ => rfl
  rw [this a, this b, h]

theorem id_of_er {a b : Particle d} (h : er a = er b) : a.id = b.id := by have := congrArg Particle.id h; exact this
theorem pos_of_core {a b : Particle d} (h : core a = core b) : a.pos = b.pos := by have := congrArg Particle.pos h; exact this
theorem h_of_core {a b : Particle d} (h : core a = core b) : a.h = b.h := by have := congrArg Particle.h h; exact this

/-- A pass on the torus has one result. -/
theorem pass_unique {V : Type} {v : Particle d → V} (hcv : ∀ a b, core a = core b → v a = v b) {f : Particle d → List (Particle d) → Option (Particle d)} (S : SumForm sides periodic v f)
    {s s' t t' : Fin n → Particle d} (hh : ∀ a, 0 < (s a).h) (hs : Same sides periodic s s') (h : Pass sides periodic f s t) (h' : Pass sides periodic f s' t') : Same sides periodic t t' := by
  let _ := S.inst
  choose k hk hsk using hs
  intro a
  refine ⟨k a, hk a, ?_⟩
  obtain ⟨l, x, hl, hx, ex⟩ := h a
  obtain ⟨l', x', hl', hx', ex'⟩ := h' a
  have hck : ∀ b, core (s' b) = core (imageOf sides (s b) (k b)) := fun b => core_of_er (hsk b)
  have hpk : ∀ b, (s' b).pos = (imageOf sides (s b) (k b)).pos := fun b => pos_of_core (hck b)
  have hhk : ∀ b, (s' b).h = (s b).h := fun b => by have := h_of_core (hck b); exact this
  have hperm : l.Perm (l'.map fun q => (q.1, q.2 + k q.1 - k a)) := by
    rw [List.perm_ext_iff_of_nodup hl.nodup (hl'.nodup.map_on ?_)]
    · rintro ⟨b, κ⟩
      rw [List.mem_map, hl.mem]
      have key : ∀ κ', √(∑ j, ((s' a).pos j - (imageOf sides (s' b) κ').pos j) ^ 2) = √(∑ j, ((s a).pos j - (imageOf sides (s b) (κ' + k b - k a)).pos j) ^ 2) := by
        intro κ'
        congr 1
        refine Finset.sum_congr rfl fun j _ => ?_
        have e1 : (s' a).pos j = (s a).pos j + k a j * sides j := by rw [hpk]; rfl
        have e2 : (imageOf sides (s' b) κ').pos j = (s b).pos j + k b j * sides j + κ' j * sides j := by
          show (s' b).pos j + _ = _
          rw [hpk]; rfl
        have e3 : (imageOf sides (s b) (κ' + k b - k a)).pos j = (s b).pos j + (κ' j + k b j - k a j : ℝ) * sides j := by
          show (s b).pos j + (((κ' + k b - k a) j : ℤ) : ℝ) * sides j = _
          simp
        rw [e1, e2, e3]
        ring
      constructor
      · rintro ⟨h1, h2⟩
        refine ⟨(b, κ + k a - k b), ?_, by simp⟩
        rw [hl'.mem]
        refine ⟨(h1.add (hk a)).sub (hk b), ?_⟩
        rw [key, hhk, hhk]
        simpa using h2
      · rintro ⟨⟨b', κ'⟩, h1, h2⟩
        simp only [Prod.mk.injEq] at h2
        obtain ⟨rfl, rfl⟩ := h2
        rw [hl'.mem] at h1
        refine ⟨(h1.1.add (hk _)).sub (hk a), ?_⟩
        rw [← key, ← hhk a, ← hhk b']
        exact h1.2
    · rintro ⟨b, κ⟩ _ ⟨b', κ'⟩ _ h
      simp only [Prod.mk.injEq] at h
      obtain ⟨rfl, h⟩ := h
      simpa using h
  have hne : (l.map fun q => imageOf sides (s q.1) q.2) ≠ [] := by
    intro h0
    rw [List.map_eq_nil_iff] at h0
    have : (a, (0 : Fin d → ℤ)) ∈ l := by
      rw [hl.mem]
      refine ⟨Lattice.zero, ?_⟩
      rw [imageOf_zero]
      have := hh a
      simp; linarith
    rw [h0] at this; simp at this
  have hne' : (l'.map fun q => imageOf sides (s' q.1) q.2) ≠ [] := by
    intro h0
    rw [List.map_eq_nil_iff] at h0
    rw [h0, List.map_nil, List.perm_nil] at hperm
    exact hne (by rw [hperm]; rfl)
  have hsum : ((l'.map fun q => imageOf sides (s' q.1) q.2).map (S.φ (s' a))).sum = ((l.map fun q => imageOf sides (s q.1) q.2).map (S.φ (s a))).sum := by
    rw [List.map_map, List.map_map]
    refine Eq.trans (congrArg List.sum (List.map_congr_left fun q _ => ?_)) ((hperm.map _).sum_eq.trans (by rw [List.map_map])).symm
    simp only [Function.comp]
    have e1 : core (imageOf sides (s' q.1) q.2) = core (imageOf sides (imageOf sides (s q.1) (q.2 + k q.1 - k a)) (k a)) := by
      rw [imageOf_imageOf, sub_add_cancel, add_comm, ← imageOf_imageOf, core_imageOf, hck]
      rfl
    rw [S.view _ _ _ _ (hck a) (hcv _ _ e1), S.shift _ _ _ (hk a)]
  have h1 := S.form (s a) _ hne
  have h2 := S.form (s' a) _ hne'
  rw [hx] at h1
  rw [hx', hsum, hck, core_imageOf, S.shiftG _ _ _ (hk a), ← h1] at h2
  have h3 : core x' = core (imageOf sides x (k a)) := by rw [core_imageOf]; exact Option.some.inj h2
  have i1 : x.id = (s a).id := S.keepId _ _ _ hx
  have i2 : x'.id = (s' a).id := S.keepId _ _ _ hx'
  have i3 : (s' a).id = (s a).id := by have := id_of_er (a := s' a) (b := imageOf sides (s a) (k a)) (hsk a); exact this
  have h4 : core (t' a) = core (imageOf sides (t a) (k a)) := by
    rw [← core_of_er (show er x' = er (t' a) from ex'), h3, core_imageOf, core_imageOf, core_of_er (show er x = er (t a) from ex)]
  refine er_of_core h4 ?_
  have j1 : x'.id = (t' a).id := id_of_er ex'
  have j2 : x.id = (t a).id := id_of_er ex
  show (t' a).id = (t a).id
  rw [← j1, ← j2, i1, i2, i3]

end

variable {i : Fin 3} {n : Nat} {sides : Fin (i + 1) → ℝ} {periodic : Fin (i + 1) → Bool} {z : Config i} {ops : List (Op (Particle (i + 1)))} {J I I' : Particle (i + 1) → Prop}

/-- Two executions from the same particles give the same particles. -/
def Unique (sides : Fin (i + 1) → ℝ) (periodic : Fin (i + 1) → Bool) (n : Nat) (J : Particle (i + 1) → Prop) (ops : List (Op (Particle (i + 1)))) (I : Particle (i + 1) → Prop) : Prop :=
  ∀ s s' t t' : Fin n → Particle (i + 1), (∀ a, I (s a)) → Same sides periodic s s' → Exec sides periodic ops s t → Exec sides periodic ops s' t' → Same sides periodic t t' ∧ ∀ a, J (t a)

theorem unique_nil (h : ∀ a, I a → J a) : Unique sides periodic n J [] I := by
  intro s s' t t' hI hs h1 h2
  cases h1; cases h2
  exact ⟨hs, fun a => h _ (hI a)⟩

theorem unique_all {f : Particle (i + 1) → Option (Particle (i + 1))} (hf : ∀ a b k y y', Lattice periodic k → core a = core (imageOf sides b k) → f a = some y → f b = some y' → core y = core (imageOf sides y' k))
    (hid : ∀ a y, f a = some y → y.id = a.id) (hI : ∀ a y, I a → f a = some y → I' y) (h : Unique sides periodic n J ops I') : Unique sides periodic n J (.all f :: ops) I := by
  intro s s' t t' hIs hs h1 h2
  cases h1 with
  | @all _ _ _ w _ g1 g2 =>
    cases h2 with
    | @all _ _ _ w' _ g1' g2' =>
      refine h w w' t t' (fun a => hI _ _ (hIs a) (g1 a)) (fun a => ?_) g2 g2'
      obtain ⟨k, hk, e⟩ := hs a
      refine ⟨k, hk, er_of_core (hf _ _ _ _ _ hk (core_of_er e) (g1' a) (g1 a)) ?_⟩
      have h1 : (s' a).id = (s a).id := by have := id_of_er (a := s' a) (b := imageOf sides (s a) k) e; exact this
      show (w' a).id = (w a).id
      rw [hid _ _ (g1 a), hid _ _ (g1' a), h1]

theorem unique_pass {V : Type} {v : Particle (i + 1) → V} (hcv : ∀ a b, core a = core b → v a = v b) {k : Nat} {f : Particle (i + 1) → List (Particle (i + 1)) → Option (Particle (i + 1))} (S : SumForm sides periodic v f)
    (hh : ∀ a, I a → 0 < a.h) (hI : ∀ a l y, I a → f a l = some y → I' y) (hI' : ∀ a b, er a = er b → I' a → I' b) (h : Unique sides periodic n J ops I') :
    Unique sides periodic n J (.pass k f :: ops) I := by
  intro s s' t t' hIs hs h1 h2
  cases h1 with
  | @pass _ _ _ _ w _ g1 g2 =>
    cases h2 with
    | @pass _ _ _ _ w' _ g1' g2' =>
      refine h w w' t t' (fun a => ?_) (pass_unique hcv S (fun a => hh _ (hIs a)) hs g1 g1') g2 g2'
      obtain ⟨l, x, _, hx, e⟩ := g1 a
      exact hI' _ _ e (hI _ _ _ (hIs a) hx)

theorem unique_reset (h : Unique sides periodic n J ops I) : Unique sides periodic n J (.reset :: ops) I := by
  intro s s' t t' hIs hs h1 h2
  cases h1 with
  | reset g =>
    cases h2 with
    | reset g' => exact h s s' t t' hIs hs g g'

theorem unique_update (hI : ∀ a k, I a → I (imageOf sides a k)) (h : Unique sides periodic n J ops I) : Unique sides periodic n J (.update :: ops) I := by
  intro s s' t t' hIs hs h1 h2
  cases h1 with
  | @update _ _ w _ g1 g2 =>
    cases h2 with
    | @update _ _ w' _ g1' g2' =>
      refine h w w' t t' (fun a => ?_) (fun a => ?_) g2 g2'
      · obtain ⟨k, _, e⟩ := g1 a
        rw [e]; exact hI _ _ (hIs a)
      · obtain ⟨k, hk, e⟩ := g1 a
        obtain ⟨k', hk', e'⟩ := g1' a
        obtain ⟨κ, hκ, e2⟩ := hs a
        refine ⟨k' + κ - k, (hk'.add hκ).sub hk, ?_⟩
        have h1 : er (imageOf sides (s' a) k') = imageOf sides (er (s' a)) k' := rfl
        have h2 : ∀ b : Particle (i + 1), ∀ k, er (imageOf sides b k) = imageOf sides (er b) k := fun _ _ => rfl
        show er (w' a) = er (imageOf sides (w a) _)
        rw [e, e', h1, show er (s' a) = er (imageOf sides (s a) κ) from e2, h2, imageOf_imageOf, h2, h2, imageOf_imageOf]
        congr 1
        abel

theorem unique_mean {g : Particle (i + 1) → ℝ} {set : ℝ → Particle (i + 1) → Particle (i + 1)} (hg : ∀ a b k, er a = er (imageOf sides b k) → g a = g b)
    (hset : ∀ x a b k, er a = er (imageOf sides b k) → er (set x a) = er (imageOf sides (set x b) k)) (hI : ∀ (s : Fin n → Particle (i + 1)) a, (∀ a, I (s a)) → I' (set (1 / (n : ℝ) * ∑ b, g (s b)) (s a)))
    (h : Unique sides periodic n J ops I') : Unique sides periodic n J (.mean g set :: ops) I := by
  intro s s' t t' hIs hs h1 h2
  cases h1 with
  | @mean _ _ _ _ w _ g1 g2 =>
    cases h2 with
    | @mean _ _ _ _ w' _ g1' g2' =>
      refine h w w' t t' (fun a => by rw [g1]; exact hI s a hIs) (fun a => ?_) g2 g2'
      have hsum : ∑ b, g (s' b) = ∑ b, g (s b) := Finset.sum_congr rfl fun b _ => by
        obtain ⟨k, _, e⟩ := hs b
        exact hg _ _ _ e
      obtain ⟨k, hk, e⟩ := hs a
      refine ⟨k, hk, ?_⟩
      rw [g1, g1', hsum]
      exact hset _ _ _ _ e

/-! ### The iterations -/

theorem unique_pure {g : Particle (i + 1) → Particle (i + 1)} (h1 : ∀ a, core (g a) = core (g (core a))) (h2 : ∀ a k, Lattice periodic k → g (imageOf sides a k) = imageOf sides (g a) k)
    (hid : ∀ a, (g a).id = a.id) (hI : ∀ a, I a → I' (g a)) (h : Unique sides periodic n J ops I') : Unique sides periodic n J (.all (fun a => some (g a)) :: ops) I :=
  unique_all (commutes h1 h2) (fun a y hy => by obtain rfl := Option.some.inj hy; exact hid a) (fun a y ha hy => by obtain rfl := Option.some.inj hy; exact hI a ha) h

theorem eta_core (a : Particle (i + 1)) : newH z a = newH z (core a) := rfl

section
variable (hf : PeriodicForce sides periodic z) (hv : z.sph.visc = .constant)

theorem dense_h : ∀ a : Particle (i + 1), DistRun.Dense a → 0 < a.h := fun _ h => h.2.1

include hf in
theorem unique_force (it : Int) (hrel : ¬ it < z.sph.relaxationSteps) (h : Unique sides periodic n J ops DistRun.Dense) : Unique sides periodic n J (forceOps z it ++ ops) DistRun.Dense := by
  unfold forceOps
  rw [if_neg hrel]
  refine unique_reset (unique_pass (fun _ _ => flowC_core) (accelerationForm z hf) dense_h (fun a l y ha hy => ?_) dense_er h)
  obtain rfl := Option.some.inj hy; exact ha

include hf hv in
theorem unique_density (dt : ℝ) (h : Unique sides periodic n J ops DistRun.Dense) : Unique sides periodic n J (densityOp z dt :: ops) Sized := by
  refine unique_pass (fun _ _ => geoC_core) (densityForm z hf hv dt) (fun a h => h.2) (fun a l y ha hy => ?_) dense_er h
  obtain ⟨h1, _, _, _, _, _, _, _, rfl⟩ := density_keep _ _ _ _ _ _ _ hy
  exact ⟨ha.1, ha.2, h1⟩

theorem unique_last (he : 0 < z.eta) (hw : 0 < z.width) : Unique sides periodic n Sized (lastOps z) DistRun.Dense := by
  have hcheck : ∀ {I : Particle (i + 1) → Prop}, (∀ a, I a → Sized a) → Unique sides periodic n Sized [.all fun a => open Classical in
      if 0 ≤ a.rho ∧ 0 ≤ a.P ∧ (z.evolve = true → 0 ≤ a.u) then some a else none] I := by
    intro I hI
    have hsome : ∀ (a y : Particle (i + 1)), (open Classical in if 0 ≤ a.rho ∧ 0 ≤ a.P ∧ (z.evolve = true → 0 ≤ a.u) then some a else none) = some y → y = a := by
      intro a y hy
      split_ifs at hy
      exact (Option.some.inj hy).symm
    refine unique_all (I' := I) (fun a b k y y' _ hab hy hy' => ?_) (fun a y hy => ?_) (fun a y ha hy => ?_) (unique_nil hI)
    · rw [hsome _ _ hy, hsome _ _ hy']; exact hab
    · rw [hsome _ _ hy]
    · rw [hsome _ _ hy]; exact ha
  unfold lastOps
  cases h : z.hMode with
  | «variable» => exact unique_pure (I' := Sized) (g := fun a => { a with h := newH z a }) (fun a => rfl) (fun a k _ => rfl) (fun _ => rfl) (fun a h => ⟨h.1, newH_pos z he hw h⟩) (hcheck fun _ h => h)
  | uniform =>
    refine unique_mean (I' := Sized) (g := newH z) (set := fun x a => { a with h := x }) (fun a b k e => ?_) (fun x a b k e => ?_) (fun s a hs => ⟨(hs a).1, ?_⟩) (hcheck fun _ h => h)
    · rw [eta_core, core_of_er e]; rfl
    · have : ∀ c : Particle (i + 1), er { c with h := x } = { er c with h := x } := fun _ => rfl
      rw [this, e]; rfl
    · have hn : 0 < n := a.pos
      have : (0 : ℝ) < ∑ b, newH z (s b) := Finset.sum_pos (fun b _ => newH_pos z he hw (hs b)) ⟨a, Finset.mem_univ _⟩
      show 0 < 1 / (n : ℝ) * ∑ b, newH z (s b)
      positivity
  | fixed => exact hcheck fun _ h => ⟨h.1, h.2.1⟩

theorem recoverInternal_core {d : Nat} (phi : Point d → ℝ) (a : Particle d) : recoverInternalEnergy phi (core a) = (recoverInternalEnergy phi a).map core := by
  simp only [recoverInternalEnergy]
  split_ifs with h2 h3 h3
  · rfl
  · exact absurd h2 h3
  · exact absurd h3 h2
  · rfl

include hf in
theorem recomputeT_commutes (dt : ℝ) (a b : Particle (i + 1)) (k : Fin (i + 1) → ℤ) (y y' : Particle (i + 1)) (hk : Lattice periodic k) (hab : core a = core (imageOf sides b k))
    (hy : Eos.recomputePressureSoundspeedThermokinetic z.eos z.eosParams z.phi dt a = some y) (hy' : Eos.recomputePressureSoundspeedThermokinetic z.eos z.eosParams z.phi dt b = some y') :
    core y = core (imageOf sides y' k) := by
  unfold Eos.recomputePressureSoundspeedThermokinetic at hy hy'
  obtain ⟨c, hc, hy⟩ := Option.bind_eq_some_iff.mp hy
  obtain ⟨c', hc', hy'⟩ := Option.bind_eq_some_iff.mp hy'
  obtain rfl := Option.some.inj hy
  obtain rfl := Option.some.inj hy'
  have h1 : core c = core (imageOf sides c' k) := by
    have e1 := recoverInternal_core z.phi a
    rw [hab, recoverInternal_core, recoverInternal_image hf.potential _ _ hk, hc, hc'] at e1
    exact (Option.some.inj e1).symm
  have h2 : a.dedt = b.dedt := by have := congrArg Particle.dedt hab; exact this
  have h3 : c.u = c'.u := by have := congrArg Particle.u h1; exact this
  have h4 : c.vel = c'.vel := by have := congrArg Particle.vel h1; exact this
  have h5 : c.acc = c'.acc := by have := congrArg Particle.acc h1; exact this
  have h7 : c.u + 1 / 2 * dt * (a.dedt - dot c.vel c.acc) = c'.u + 1 / 2 * dt * (b.dedt - dot c'.vel c'.acc) := by rw [h2, h3, h4, h5]
  have h6 : ∀ (U : ℝ), core (Eos.computeSoundspeed z.eos z.eosParams (Eos.computePressure z.eos z.eosParams { c with u := U })) =
      core (imageOf sides (Eos.computeSoundspeed z.eos z.eosParams (Eos.computePressure z.eos z.eosParams { c' with u := U })) k) := by
    intro U
    rw [← eos_image, eos_core, eos_core _ _ (imageOf _ _ _)]
    have : core { c with u := U } = core (imageOf sides { c' with u := U } k) := by
      have e : ∀ x : Particle (i + 1), core { x with u := U } = { core x with u := U } := fun _ => rfl
      rw [e, h1]; rfl
    rw [this]
  have e : ∀ (x : Particle (i + 1)) U, core { x with u := U } = { core x with u := U } := fun _ _ => rfl
  rw [e, h7, h6, h3]
  rfl

include hf in
theorem unique_energy (dt : ℝ) (it : Int) (hrel : ¬ it < z.sph.relaxationSteps) (h : Unique sides periodic n J ops DistRun.Dense) : ∀ m, Unique sides periodic n J (energyOps z dt it m ++ ops) DistRun.Dense := by
  intro m
  induction m with
  | zero => exact h
  | succ m ih =>
    have hrest : Unique sides periodic n J ((if 0 < m then [.reset] else []) ++ (energyOps z dt it m ++ ops)) DistRun.Dense := by
      split_ifs
      · exact unique_reset ih
      · exact ih
    rw [energyOps, if_neg hrel, if_neg hrel, List.append_assoc, List.append_assoc]
    by_cases ht : z.thermokinetic = true
    · simp only [if_pos ht, List.nil_append]
      show Unique sides periodic n J (_ :: _ :: _) _
      refine unique_pass (I' := DistRun.Dense) (fun _ _ => flowC_core) (dedtForm z) dense_h (fun a l y ha hy => ?_) dense_er (unique_all (I' := DistRun.Dense) (fun a b k y y' hk hab hy hy' => ?_) (fun a y hy => ?_) (fun a y ha hy => ?_) hrest)
      · obtain rfl := Option.some.inj hy; exact ha
      · exact recomputeT_commutes hf dt a b k y y' hk hab hy hy'
      · obtain ⟨_, _, _, rfl⟩ := recomputeT_keep _ _ _ _ _ _ hy
        rfl
      · obtain ⟨_, _, _, rfl⟩ := recomputeT_keep _ _ _ _ _ _ hy
        exact ha
    · simp only [if_neg ht, List.nil_append]
      show Unique sides periodic n J (_ :: _ :: _) _
      refine unique_pass (I' := DistRun.Dense) (fun _ _ => flowC_core) (dudtForm z it) dense_h (fun a l y ha hy => ?_) dense_er (unique_pure (I' := DistRun.Dense) (fun a => ?_) (fun a k hk => ?_) (fun a => ?_) (fun a ha => ?_) hrest)
      · obtain rfl := Option.some.inj hy; simp only [computeDudt]; split <;> exact ha
      · cases z.eos <;> rfl
      · cases z.eos <;> rfl
      · obtain ⟨_, _, e⟩ := recompute_keep z.eos z.eosParams dt a
        rw [e]
      · obtain ⟨_, _, e⟩ := recompute_keep z.eos z.eosParams dt a
        rw [e]; exact ha

theorem unique_kick (dt : ℝ) (hI : ∀ a, I a → I (kickE dt a)) (hI' : ∀ a, I a → I (kickU dt a)) (h : Unique sides periodic n J ops I) : Unique sides periodic n J (kickOps z dt ++ ops) I := by
  unfold kickOps
  split_ifs
  · exact unique_pure (I' := I) (g := kickE dt) (fun _ => rfl) (fun _ _ _ => rfl) (fun _ => rfl) hI h
  · exact unique_pure (I' := I) (g := kickU dt) (fun _ => rfl) (fun _ _ _ => rfl) (fun _ => rfl) hI' h
  · exact h

theorem drift_image (dt : ℝ) (a : Particle (i + 1)) (k : Fin (i + 1) → ℤ) : drift dt (imageOf sides a k) = imageOf sides (drift dt a) k := by
  unfold drift imageOf
  congr 1
  funext j
  simp
  ring

include hf hv in
theorem unique_iteration (he : 0 < z.eta) (hw : 0 < z.width) (c : Timestep.Clock) (hrel : ¬ c.iteration < z.sph.relaxationSteps) : Unique sides periodic n Sized (iterationOps z c) Sized := by
  have henergy : ∀ ops : List (Op (Particle (i + 1))), Unique sides periodic n Sized ops DistRun.Dense →
      Unique sides periodic n Sized ((if z.evolve then energyOps z c.dt c.iteration z.updates else []) ++ ops) DistRun.Dense := by
    intro ops h
    split_ifs
    · exact unique_energy hf c.dt c.iteration hrel h z.updates
    · exact h
  have hlast := unique_last (sides := sides) (periodic := periodic) (n := n) (z := z) he hw
  unfold iterationOps
  split_ifs
  · unfold firstOps alphaOps
    simp only [hv, List.append_nil, List.append_assoc, List.cons_append, List.nil_append]
    refine unique_update (I := Sized) (fun a k h => h) ?_
    have h2 : Unique sides periodic n Sized (densityOp z c.dt :: .all (fun a => some (saveVelocityhalf a)) :: (forceOps z c.iteration ++
        ((if z.evolve then energyOps z c.dt c.iteration z.updates else []) ++ lastOps z))) Sized := by
      refine unique_density hf hv c.dt ?_
      exact unique_pure (I' := DistRun.Dense) (fun _ => rfl) (fun _ _ _ => rfl) (fun _ => rfl) (fun a h => h) (unique_force hf c.iteration hrel (henergy _ hlast))
    have hinit : ∀ a : Particle (i + 1), core (Eos.init z.eos z.eosParams a) = core (Eos.init z.eos z.eosParams (core a)) ∧
        (∀ k, Eos.init z.eos z.eosParams (imageOf sides a k) = imageOf sides (Eos.init z.eos z.eosParams a) k) ∧ (Eos.init z.eos z.eosParams a).id = a.id ∧
        (Eos.init z.eos z.eosParams a).mass = a.mass ∧ (Eos.init z.eos z.eosParams a).h = a.h := by
      intro a
      cases z.eos <;> exact ⟨rfl, fun _ => rfl, rfl, rfl, rfl⟩
    refine unique_pure (I' := Sized) (fun a => (hinit a).1) (fun a k _ => (hinit a).2.1 k) (fun a => (hinit a).2.2.1) (fun a h => ?_) ?_
    · unfold Sized
      rw [(hinit a).2.2.2.1, (hinit a).2.2.2.2]
      exact h
    · by_cases ht : z.thermokinetic = true
      · simp only [if_pos ht, List.cons_append, List.nil_append]
        refine unique_pure (I' := Sized) (fun a => rfl) (fun a k hk => ?_) (fun _ => rfl) (fun a h => h) h2
        have h1 : z.phi (imageOf sides a k).pos = z.phi a.pos := hf.potential a.pos k hk
        have h2 : (imageOf sides a k).vel = a.vel := rfl
        have h3 : (imageOf sides a k).u = a.u := rfl
        unfold setTotalEnergy
        rw [h1, h2, h3]
        rfl
      · simp only [if_neg ht, List.nil_append]
        exact h2
  · unfold nextOps alphaOps
    simp only [hv, List.append_nil, List.append_assoc, List.cons_append, List.nil_append]
    refine unique_kick (I := Sized) c.dt (fun a h => h) (fun a h => h) ?_
    refine unique_pure (I' := Sized) (g := kickV c.dt) (fun _ => rfl) (fun _ _ _ => rfl) (fun _ => rfl) (fun a h => h) ?_
    refine unique_pure (I' := Sized) (g := saveVelocityhalf) (fun _ => rfl) (fun _ _ _ => rfl) (fun _ => rfl) (fun a h => h) ?_
    refine unique_pure (I' := Sized) (g := drift c.dt) (fun _ => rfl) (fun a k _ => drift_image _ a k) (fun _ => rfl) (fun a h => h) ?_
    refine unique_update (I := Sized) (fun a k h => h) (unique_density hf hv c.dt (unique_force hf c.iteration hrel ?_))
    refine unique_pure (I' := DistRun.Dense) (g := kickV c.dt) (fun _ => rfl) (fun _ _ _ => rfl) (fun _ => rfl) (fun a h => h) (unique_reset (henergy _ ?_))
    exact unique_kick (I := DistRun.Dense) c.dt (fun a h => h) (fun a h => h) hlast

include hf hv in
theorem run_unique (he : 0 < z.eta) (hw : 0 < z.width) {N : Nat} {c : Timestep.Clock} (hrel : z.sph.relaxationSteps ≤ c.iteration) {s s' t t' : Fin n → Particle (i + 1)} (hp : ∀ a, Sized (s a))
    (hs : Same sides periodic s s') (h : Run sides periodic z N c s t) (h' : Run sides periodic z N c s' t') : Same sides periodic t t' := by
  induction h generalizing s' with
  | nil => cases h'; exact hs
  | @cons N c s t u h1 _ ih =>
    cases h' with
    | cons h1' h2' =>
      obtain ⟨g1, g2⟩ := unique_iteration hf hv he hw c (by omega) _ _ _ _ hp hs h1 h1'
      refine ih ?_ g2 g1 h2'
      show _ ≤ c.iteration + 1
      omega

end

end FleCSPH.Torus
