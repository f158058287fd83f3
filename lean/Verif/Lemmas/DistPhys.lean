import Verif.Lemmas.DistRun
import Verif.Lemmas.Forces
import Verif.Spec.NearLists
/-! The calls of the hydro driver with constant viscosity read only what was not written since the tree was built. -/
namespace FleCSPH.DistRun
open FleCSPH.Geometry FleCSPH.Sph FleCSPH.Driver FleCSPH.Spec FleCSPH.Kernels FleCSPH.Integration

variable {i : Fin 3} {n : Nat}

/-- Everything but the signal speed. -/
def er {d : Nat} (a : Particle d) : Particle d := { a with vsig := 0 }

/-- Identity, mass, smoothing length and position. -/
def geo {d : Nat} (a : Particle d) : Particle d :=
  { a with vel := 0, vhalf := 0, acc := 0, gacc := 0, gpot := 0, rho := 0, P := 0, cs := 0, alpha := 0, u := 0, e := 0, dudt := 0, dedt := 0, K := 0, divv := 0, ddivvdt := 0, vsig := 0, dt := 0, ye := 0 }

/-- Everything but rates, energies, time step and signal speed. -/
def flow {d : Nat} (a : Particle d) : Particle d := { a with acc := 0, gacc := 0, gpot := 0, u := 0, e := 0, dudt := 0, dedt := 0, vsig := 0, dt := 0 }

theorem kernel_far (κ : Kernel) (i : Fin 3) {r h : ℝ} (hh : 0 < h) (hr : h < r) : kernel κ i r h = 0 := by
  by_cases hκ : κ = .gaussian
  · subst hκ
    have h4 : ¬ 3 * r / h ≤ 3 := by rw [not_le, lt_div_iff₀ hh]; linarith
    simp [kernel, gaussian, h4]
  · exact kernel_out hκ i hh hr.le

theorem sum_near {β : Type} [AddCommMonoid β] {s : Fin n → Particle (i + 1)} {nbs : Fin n → List (Fin n)} (hl : NearLists s nbs) (a : Fin n) (f : Fin n → β)
    (h0 : ∀ b, (s a).h + (s b).h < 2 * magnitude ((s a).pos - (s b).pos) → f b = 0) : ((nbs a).map f).sum = ∑ b, f b := by
  rw [sum_list _ (hl.nodup a)]
  refine Finset.sum_congr rfl fun b _ => ?_
  split_ifs with h
  · rfl
  · by_cases hc : √(∑ j, ((s a).pos j - (s b).pos j) ^ 2) ≤ ((s a).h + (s b).h) / 2
    · exact absurd (hl.complete a b hc) h
    · exact (h0 b (by rw [magnitude_sub_eq]; linarith [not_le.mp hc])).symm

theorem near_er (s s' : Fin n → Particle (i + 1)) (nbs : Fin n → List (Fin n)) (he : ∀ a, er (s a) = er (s' a)) (h : NearLists s nbs) : NearLists s' nbs := by
  have e : ∀ a, (s a).pos = (s' a).pos ∧ (s a).h = (s' a).h := fun a => by
    have h1 := congrArg Particle.pos (he a)
    have h2 := congrArg Particle.h (he a)
    exact ⟨h1, h2⟩
  refine ⟨h.nodup, fun a b hab => h.complete a b ?_⟩
  rw [(e a).1, (e a).2, (e b).1, (e b).2]; exact hab

theorem self_near {s : Fin n → Particle (i + 1)} {nbs : Fin n → List (Fin n)} (hl : NearLists s nbs) (a : Fin n) (hh : 0 < (s a).h) : a ∈ nbs a := by
  refine hl.complete a a ?_
  simp only [sub_self, ne_eq, OfNat.ofNat_ne_zero, not_false_eq_true, zero_pow, Finset.sum_const_zero, Real.sqrt_zero]
  linarith

/-! ### Density -/

/-- The sum `compute_density` forms. -/
noncomputable def rhoSum (p : Params i) (a : Particle (i + 1)) (l : List (Particle (i + 1))) : ℝ :=
  (l.map fun b => b.mass * kernel p.kernel i (magnitude (a.pos - b.pos)) (1 / 2 * (a.h + b.h))).sum

theorem recoverIf_er {d : Nat} (z : Eos.Setup d) (a : Particle d) : Eos.recoverIf z (er a) = (Eos.recoverIf z a).map er := by
  simp only [Eos.recoverIf, recoverInternalEnergy]
  split_ifs with h1 h2 h3 h3
  · rfl
  · exact absurd h2 h3
  · exact absurd h3 h2
  · rfl
  · rfl

open Classical in
theorem density_er (z : Config i) (hv : z.sph.visc = .constant) (dt : ℝ) (a : Particle (i + 1)) (l : List (Particle (i + 1))) :
    (Eos.computeDensityPressureSoundspeed z.sph z.eos z.eosParams (setup z dt) a l).map er =
    if 0 < l.length ∧ 0 < rhoSum z.sph a l then
      (Eos.recoverIf (setup z dt) { er a with rho := rhoSum z.sph a l }).map fun x => Eos.computeSoundspeed z.eos z.eosParams (Eos.computePressure z.eos z.eosParams x)
    else none := by
  simp only [Eos.computeDensityPressureSoundspeed, Option.bind_eq_bind, Option.pure_def, computeDensity, accumulate_eq]
  change ((if 0 < l.length ∧ 0 < rhoSum z.sph a l then some _ else none : Option (Particle (i + 1))).bind _).map er = _
  split_ifs with h
  · rw [Option.bind_some]
    have hfin : ∀ x : Particle (i + 1), er (Eos.divvIf z.sph (setup z dt).dt (computeSignalspeed (Eos.computeSoundspeed z.eos z.eosParams (Eos.computePressure z.eos z.eosParams x)) l) l) =
        Eos.computeSoundspeed z.eos z.eosParams (Eos.computePressure z.eos z.eosParams (er x)) := by
      intro x
      simp only [Eos.divvIf, hv]
      cases z.eos <;> rfl
    have hrec : Eos.recoverIf (setup z dt) { er a with rho := rhoSum z.sph a l } = (Eos.recoverIf (setup z dt) { a with rho := rhoSum z.sph a l }).map er :=
      recoverIf_er (setup z dt) { a with rho := rhoSum z.sph a l }
    rw [hrec]
    change ((Eos.recoverIf (setup z dt) { a with rho := rhoSum z.sph a l }).bind _).map er = _
    cases Eos.recoverIf (setup z dt) { a with rho := rhoSum z.sph a l } with
    | none => rfl
    | some x => simp only [Option.bind_some, Option.map_some, hfin]
  · rfl

theorem rhoSum_geo (p : Params i) (a : Particle (i + 1)) (l : List (Particle (i + 1))) : rhoSum p a (l.map geo) = rhoSum p a l := by
  unfold rhoSum; rw [List.map_map]; rfl

theorem density_reads (z : Config i) (hv : z.sph.visc = .constant) (dt : ℝ) : Reads er geo (Eos.computeDensityPressureSoundspeed z.sph z.eos z.eosParams (setup z dt)) := by
  refine ⟨fun a l l' h => ?_, fun a l x h => ?_⟩
  · have h1 : l.length = l'.length := by have := congrArg List.length h; simpa using this
    rw [density_er z hv, density_er z hv, ← rhoSum_geo _ a l, ← rhoSum_geo _ a l', h, h1]
  · obtain ⟨_, _, _, _, _, _, _, _, rfl⟩ := density_keep _ _ _ _ _ _ _ h
    rfl

theorem rhoSum_near (p : Params i) {s : Fin n → Particle (i + 1)} {nbs : Fin n → List (Fin n)} (hl : NearLists s nbs) (hh : ∀ a, 0 < (s a).h) (a : Fin n) :
    rhoSum p (s a) ((nbs a).map s) = ∑ b, (s b).mass * kernel p.kernel i (magnitude ((s a).pos - (s b).pos)) (1 / 2 * ((s a).h + (s b).h)) := by
  unfold rhoSum
  rw [List.map_map]
  refine sum_near hl a _ fun b hb => ?_
  simp only [Function.comp]
  rw [kernel_far _ _ (by have := hh a; have := hh b; linarith) (by linarith), mul_zero]

theorem density_lists (z : Config i) (hv : z.sph.visc = .constant) (dt : ℝ) {s : Fin n → Particle (i + 1)} {nbs nbs' : Fin n → List (Fin n)} (hh : ∀ a, 0 < (s a).h) (hl : NearLists s nbs)
    (hl' : NearLists s nbs') (a : Fin n) : (Eos.computeDensityPressureSoundspeed z.sph z.eos z.eosParams (setup z dt) (s a) ((nbs a).map s)).map er =
      (Eos.computeDensityPressureSoundspeed z.sph z.eos z.eosParams (setup z dt) (s a) ((nbs' a).map s)).map er := by
  have h1 : 0 < ((nbs a).map s).length := by rw [List.length_map]; exact List.length_pos_of_mem (self_near hl a (hh a))
  have h2 : 0 < ((nbs' a).map s).length := by rw [List.length_map]; exact List.length_pos_of_mem (self_near hl' a (hh a))
  rw [density_er z hv, density_er z hv, rhoSum_near _ hl hh, rhoSum_near _ hl' hh]
  simp only [h1, h2, true_and]

/-! ### The other sums -/

theorem massOf_flow {d : Nat} (a b : Particle d) : massOf a (flow b) = massOf a b := rfl
theorem viscOf_flow (p : Params i) (a b : Particle (i + 1)) : viscOf p a (flow b) = viscOf p a b := rfl
theorem gradOf_flow (p : Params i) (a b : Particle (i + 1)) : gradOf p a (flow b) = gradOf p a b := rfl

/-- A function which sums over the neighbours. -/
theorem reads_of_map {V : Type} {v : Particle (i + 1) → V} {f : Particle (i + 1) → List (Particle (i + 1)) → Particle (i + 1)} (hv : ∀ a l l', l.map v = l'.map v → f a l = f a l')
    (hk : ∀ a l, v (f a l) = v a) : Reads er v (fun a l => some (f a l)) :=
  ⟨fun a l l' h => by rw [hv a l l' h], fun a l x h => by obtain rfl := Option.some.inj h; exact hk a l⟩

theorem acceleration_reads (p : Params i) : Reads er flow (fun a l => some (computeAcceleration p a l)) := by
  refine reads_of_map (fun a l l' h => ?_) fun a l => rfl
  have e : ∀ l, computeAcceleration p a (l.map flow) = computeAcceleration p a l := by
    intro l; simp only [computeAcceleration, accumulate_eq, List.map_map]; rfl
  rw [← e l, h, e]

theorem dudt_reads (p : Params i) (it : Int) : Reads er flow (fun a l => some (computeDudt p it a l)) := by
  refine reads_of_map (fun a l l' h => ?_) fun a l => by simp only [computeDudt]; split <;> rfl
  have e : ∀ l, computeDudt p it a (l.map flow) = computeDudt p it a l := by
    intro l; simp only [computeDudt, accumulate_eq, List.map_map]; split <;> rfl
  rw [← e l, h, e]

theorem dedt_reads (p : Params i) : Reads er flow (fun a l => some (computeDedt p a l)) := by
  refine reads_of_map (fun a l l' h => ?_) fun a l => rfl
  have e : ∀ l, computeDedt p a (l.map flow) = computeDedt p a l := by
    intro l; simp only [computeDedt, foldl_sub_eq, List.map_map]; rfl
  rw [← e l, h, e]

theorem repulsion_reads (radius gamma : ℝ) : Reads er geo (fun (a : Particle (i + 1)) l => some (addShortRangeRepulsion radius gamma a l)) := by
  refine reads_of_map (fun a l l' h => ?_) fun a l => rfl
  have e : ∀ l, addShortRangeRepulsion radius gamma a (l.map geo) = addShortRangeRepulsion radius gamma a l := by
    intro l; simp only [addShortRangeRepulsion, List.foldl_map]; rfl
  rw [← e l, h, e]

theorem grad_far (p : Params i) {a b : Particle (i + 1)} (ha : 0 < a.h) (hb : 0 < b.h) (h : a.h + b.h < 2 * magnitude (a.pos - b.pos)) : gradOf p a b = 0 := by
  refine gradOf_zero p a b (by linarith) ?_
  rw [magnitude_sub_eq] at h
  rw [not_lt]; linarith

theorem acceleration_lists (p : Params i) {s : Fin n → Particle (i + 1)} {nbs nbs' : Fin n → List (Fin n)} (hh : ∀ a, 0 < (s a).h) (hl : NearLists s nbs) (hl' : NearLists s nbs') (a : Fin n) :
    computeAcceleration p (s a) ((nbs a).map s) = computeAcceleration p (s a) ((nbs' a).map s) := by
  simp only [computeAcceleration, accumulate_eq, List.map_map]
  rw [sum_near hl a, sum_near hl' a] <;> (intro b hb; simp only [Function.comp]; rw [grad_far p (hh a) (hh b) hb, smul_zero])

theorem dot_zero {d : Nat} (a : Point d) : dot a 0 = 0 := by simp [dot]

theorem dudt_lists (p : Params i) (it : Int) {s : Fin n → Particle (i + 1)} {nbs nbs' : Fin n → List (Fin n)} (hh : ∀ a, 0 < (s a).h) (hl : NearLists s nbs) (hl' : NearLists s nbs') (a : Fin n) :
    computeDudt p it (s a) ((nbs a).map s) = computeDudt p it (s a) ((nbs' a).map s) := by
  simp only [computeDudt, accumulate_eq, List.map_map]
  split
  · rfl
  · have e : ∀ b, (s a).h + (s b).h < 2 * magnitude ((s a).pos - (s b).pos) → massOf (s a) (s b) * dot ((s a).vel - (s b).vel) (gradOf p (s a) (s b)) = 0 := by
      intro b hb; rw [grad_far p (hh a) (hh b) hb, dot_zero, mul_zero]
    have e1 : ∀ {nbs : Fin n → List (Fin n)}, NearLists s nbs → ((nbs a).map ((fun b => massOf (s a) b * dot ((s a).vel - b.vel) (gradOf p (s a) b)) ∘ s)).sum = _ := fun h => sum_near h a _ e
    have e2 : ∀ {nbs : Fin n → List (Fin n)}, NearLists s nbs → ((nbs a).map ((fun b => massOf (s a) b * dot ((s a).vel - b.vel) (gradOf p (s a) b) * viscOf p (s a) b) ∘ s)).sum = _ :=
      fun h => sum_near h a _ fun b hb => by simp only [Function.comp]; rw [e b hb, zero_mul]
    rw [e1 hl, e1 hl', e2 hl, e2 hl']

theorem dedt_lists (p : Params i) {s : Fin n → Particle (i + 1)} {nbs nbs' : Fin n → List (Fin n)} (hh : ∀ a, 0 < (s a).h) (hl : NearLists s nbs) (hl' : NearLists s nbs') (a : Fin n) :
    computeDedt p (s a) ((nbs a).map s) = computeDedt p (s a) ((nbs' a).map s) := by
  simp only [computeDedt, foldl_sub_eq, List.map_map]
  rw [sum_near hl a, sum_near hl' a] <;> (intro b hb; simp only [Function.comp]; rw [grad_far p (hh a) (hh b) hb]; simp only [dot_zero]; ring)

open Classical in
theorem repulsion_lists {radius : ℝ} (hr : radius ≤ 1) (gamma : ℝ) {s : Fin n → Particle (i + 1)} {nbs nbs' : Fin n → List (Fin n)} (hh : ∀ a, 0 < (s a).h) (hl : NearLists s nbs) (hl' : NearLists s nbs')
    (a : Fin n) : addShortRangeRepulsion radius gamma (s a) ((nbs a).map s) = addShortRangeRepulsion radius gamma (s a) ((nbs' a).map s) := by
  let term : Particle (i + 1) → Particle (i + 1) → Point (i + 1) := fun a b => if b.id = a.id then 0 else if magnitude (a.pos - b.pos) > 1 / 2 * (a.h + b.h) * radius then 0
    else (b.mass / (magnitude (a.pos - b.pos) * magnitude (a.pos - b.pos) * magnitude (a.pos - b.pos))) • (a.pos - b.pos)
  have e : ∀ a l, addShortRangeRepulsion radius gamma a l = { a with acc := a.acc + gamma • (l.map (term a)).sum } := by
    intro a l
    rw [← accumulate_eq]
    simp only [addShortRangeRepulsion, accumulate]
    congr 5
    funext s b
    simp only [term]
    split_ifs <;> simp
  rw [e, e, List.map_map, List.map_map, sum_near hl a, sum_near hl' a]
  all_goals
    intro b hb
    simp only [Function.comp, term]
    split_ifs with h1 h2
    · rfl
    · rfl
    · exfalso
      have hp : 0 < 1 / 2 * ((s a).h + (s b).h) := by have := hh a; have := hh b; linarith
      have := mul_le_mul_of_nonneg_left hr hp.le
      apply h2
      linarith

end FleCSPH.DistRun
