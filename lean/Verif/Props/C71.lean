import Verif.Spec.Totals
import Verif.Props.C70cons
import Mathlib.Tactic.Ring
import Mathlib.Tactic.Linarith
import Mathlib.Tactic.NormNum
import Mathlib.Tactic.IntervalCases
/-! C71: the scalar reductions are the totals of all particles, whatever the division on processes. -/
namespace FleCSPH.Reductions
open FleCSPH.Geometry FleCSPH.Sph FleCSPH.Conservation FleCSPH.Spec

variable {d n : Nat}

private theorem foldl_if (f : Particle d → ℝ) (l : List (Body d)) (s : ℝ) :
    l.foldl (fun s b => if b.wall then s else s + f b.data) s = s + (((l.filter fun b => !b.wall).map fun b => b.data).map f).sum := by
  induction l generalizing s with
  | nil => simp
  | cons b l ih =>
    rw [List.foldl_cons, ih]
    cases hb : b.wall <;> simp [hb, add_assoc]

private theorem reduceSum_eq (l : List ℝ) : reduceSum l = l.sum := by
  rw [reduceSum]
  suffices ∀ s, l.foldl (· + ·) s = s + l.sum by rw [this, zero_add]
  induction l with
  | nil => simp
  | cons a l ih => intro s; rw [List.foldl_cons, ih, List.sum_cons, add_assoc]

private theorem reduce_local (f : Particle d → ℝ) (procs : List (List (Body d))) :
    reduceSum (procs.map (localSum f)) = (((procs.flatten.filter fun b => !b.wall).map fun b => b.data).map f).sum := by
  rw [reduceSum_eq]
  induction procs with
  | nil => rfl
  | cons l procs ih =>
    rw [List.map_cons, List.sum_cons, ih, List.flatten_cons, List.filter_append, List.map_append, List.map_append, List.sum_append, localSum, foldl_if, zero_add]

private theorem reduce_total {ps : Fin n → Particle d} {procs : List (List (Body d))} (h : Held ps procs) (f : Particle d → ℝ) :
    reduceSum (procs.map (localSum f)) = total ps f := by
  rw [reduce_local, (h.map f).sum_eq, List.map_ofFn, List.sum_ofFn]; rfl

private theorem reduce_add (f g : List (Body d) → ℝ) (procs : List (List (Body d))) : reduceSum (procs.map fun l => f l + g l) = reduceSum (procs.map f) + reduceSum (procs.map g) := by
  simp only [reduceSum_eq]
  induction procs with
  | nil => simp
  | cons l procs ih => simp only [List.map_cons, List.sum_cons, ih]; ring

private theorem reduce_mul (f : List (Body d) → ℝ) (c : ℝ) (procs : List (List (Body d))) : reduceSum (procs.map fun l => f l * c) = reduceSum (procs.map f) * c := by
  simp only [reduceSum_eq]
  induction procs with
  | nil => simp
  | cons l procs ih => simp only [List.map_cons, List.sum_cons, ih]; ring

private theorem reduce_zero (procs : List (List (Body d))) : reduceSum (procs.map fun _ => (0 : ℝ)) = 0 := by
  rw [reduceSum_eq]
  induction procs with
  | nil => simp
  | cons l procs ih => simp

private theorem total_congr {ps : Fin n → Particle d} {f g : Particle d → ℝ} (h : ∀ a, f a = g a) : total ps f = total ps g := Finset.sum_congr rfl fun a _ => h (ps a)

private theorem energy_eq {ps : Fin n → Particle d} {procs : List (List (Body d))} (h : Held ps procs) (tk fmm : Bool) (phi : Point d → ℝ) :
    totalEnergy tk fmm phi procs = (if tk then total ps (fun a => a.mass * a.e) else total ps (mechanical phi)) + if fmm then total ps (fun a => a.mass * a.gpot) / 2 else 0 := by
  have e2 : reduceSum (procs.map (localSum fun a => 1 / 2 * a.gpot * a.mass)) = total ps (fun a => a.mass * a.gpot) / 2 := by
    rw [reduce_total h, total, total, Finset.sum_div]; exact Finset.sum_congr rfl fun a _ => by ring
  have e1 : reduceSum (procs.map (localSum fun a => a.mass * (1 / 2 * dot a.vel a.vel + a.u + phi a.pos))) = total ps (mechanical phi) := by
    rw [reduce_total h]; exact total_congr fun a => by rw [mechanical, dot, Finset.sum_congr rfl fun j _ => (pow_two (a.vel j)).symm]; ring
  have e0 : reduceSum (procs.map (localSum fun a => a.mass * a.e)) = total ps (fun a => a.mass * a.e) := reduce_total h _
  rw [totalEnergy, reduce_add]
  congr 1
  · cases tk
    · exact e1
    · exact e0
  · cases fmm
    · exact reduce_zero procs
    · exact e2

private theorem kinetic_eq {ps : Fin n → Particle d} {procs : List (List (Body d))} (h : Held ps procs) : totalKinetic procs = total ps fun a => a.mass * (∑ j, a.vel j ^ 2) / 2 := by
  rw [totalKinetic, reduce_total h]; exact total_congr fun a => by rw [dot, Finset.sum_congr rfl fun j _ => (pow_two (a.vel j)).symm]; ring

private theorem grav_eq {ps : Fin n → Particle d} {procs : List (List (Body d))} (h : Held ps procs) : totalGravitational procs = total ps (fun a => a.mass * a.gpot) / 2 := by
  rw [totalGravitational, reduce_mul, reduce_total h, total_congr (g := fun a => a.mass * a.gpot) fun a => mul_comm _ _]; ring

private theorem angular_eq {ps : Fin n → Particle d} {procs : List (List (Body d))} (h : Held ps procs) {j k : Nat} (hj : j < d) (hk : k < d) : angular procs j k = total ps (moment j k hj hk) := by
  rw [angular, reduce_total h]; exact total_congr fun a => by simp only [comp, moment, dif_pos hj, dif_pos hk]

/-- C71: every value of a line of scalar_reductions.dat is the quantity of all particles its column is named after, however the particles, and whatever walls and periodic copies, are divided among the
processes. `hroot`: the root node has the centre of mass of the particles (C11; without periodic copies). Excluded: self-gravity without evolution of the internal energy in one and two dimensions, see
`C71_column_violated`. -/
theorem C71_columns_partial (hd : d = 1 ∨ d = 2 ∨ d = 3) (z : Setting d) (hz : d = 3 ∨ z.fmm = false ∨ z.evolve = true) (it : Nat) (t dt : ℝ) (root : Point d) (ps : Fin n → Particle d)
    (procs : List (List (Body d))) (h : Held ps procs) (hroot : ∀ j, root j = (total ps fun a => a.mass * a.pos j) / total ps fun a => a.mass) :
    ∃ values, (scalarRow z it t dt root procs).toks = values.map Tok.num ∧ List.Forall₂ (Column z it t dt ps) (columns z) values := by
  refine ⟨_, rfl, ?_⟩
  have hm : totalMass procs = total ps fun a => a.mass := reduce_total h _
  have he : Column z it t dt ps "total_energy" (totalEnergy z.thermokinetic z.fmm z.phi procs) := by
    rw [energy_eq h]
    cases htk : z.thermokinetic
    · exact .energy htk
    · exact .evolved htk
  have hi : (z.fmm && !z.evolve) = false → Column z it t dt ps "internal_energy" (if (z.fmm && !z.evolve) = true then totalGravitational procs else totalInternal procs) := fun e => by
    rw [e, if_neg (by simp), totalInternal, reduce_total h]; exact .internal
  have hg : (z.fmm && !z.evolve) = true → Column z it t dt ps "gravitational_energy" (if (z.fmm && !z.evolve) = true then totalGravitational procs else totalInternal procs) := fun e => by
    rw [e, if_pos rfl, grav_eq h]; exact .gravitational
  have hk : Column z it t dt ps "kinetic_energy" (totalKinetic procs) := by rw [kinetic_eq h]; exact .kinetic
  have hv : ∀ j, totalMomentum procs j = total ps fun a => a.mass * a.vel j := fun j => reduce_total h _
  have hmass : Column z it t dt ps "total_mass" (totalMass procs) := by rw [hm]; exact .mass
  rcases hd with rfl | rfl | rfl
  · have hzz : (z.fmm && !z.evolve) = false := by rcases hz with h | h | h <;> simp_all
    simp only [scalarRow, columns, angularList, List.ofFn_succ, List.ofFn_zero, if_true, List.cons_append, List.nil_append, List.append_nil]
    refine .cons .iteration (.cons .time (.cons .timestep (.cons hmass (.cons he (.cons hk (.cons (hi hzz) (.cons ?_ ?_)))))))
    · rw [hv]; exact .momX (by omega)
    · exact .nil
  · have hzz : (z.fmm && !z.evolve) = false := by rcases hz with h | h | h <;> simp_all
    simp only [scalarRow, columns, angularList, List.ofFn_succ, List.ofFn_zero, if_true, List.cons_append, List.nil_append, List.append_nil]
    refine .cons .iteration (.cons .time (.cons .timestep (.cons hmass (.cons he (.cons hk (.cons (hi hzz) (.cons ?_ (.cons ?_ (.cons ?_ ?_)))))))))
    · rw [hv]; exact .momX (by omega)
    · rw [hv]; exact .momY (by omega)
    · rw [angular_eq h (by omega) (by omega)]; exact .angZ2 (by omega)
    · exact .nil
  · have hlast : List.Forall₂ (Column z it t dt ps) ["mom_x", "mom_y", "mom_z", "ang_mom_x", "ang_mom_y", "ang_mom_z", "com_x", "com_y", "com_z"]
        [totalMomentum procs 0, totalMomentum procs 1, totalMomentum procs 2, angular procs 1 2, angular procs 2 0, angular procs 0 1, root 0, root 1, root 2] := by
      refine .cons ?_ (.cons ?_ (.cons ?_ (.cons ?_ (.cons ?_ (.cons ?_ (.cons ?_ (.cons ?_ (.cons ?_ .nil))))))))
      · rw [hv]; exact .momX (by omega)
      · rw [hv]; exact .momY (by omega)
      · rw [hv]; exact .momZ (by omega)
      · rw [angular_eq h (by omega) (by omega)]; exact .angX (by omega)
      · rw [angular_eq h (by omega) (by omega)]; exact .angY (by omega)
      · rw [angular_eq h (by omega) (by omega)]; exact .angZ (by omega)
      · rw [hroot]; exact .comX (by omega)
      · rw [hroot]; exact .comY (by omega)
      · rw [hroot]; exact .comZ (by omega)
    cases hzz : (z.fmm && !z.evolve)
    · simp only [scalarRow, columns, angularList, List.ofFn_succ, List.ofFn_zero, if_true, List.cons_append, List.nil_append, List.append_nil, hzz]
      exact .cons .iteration (.cons .time (.cons .timestep (.cons hmass (.cons he (.cons hk (.cons (by have := hi hzz; rwa [hzz] at this) hlast))))))
    · simp only [scalarRow, columns, angularList, List.ofFn_succ, List.ofFn_zero, if_true, List.cons_append, List.nil_append, List.append_nil, hzz]
      exact .cons .iteration (.cons .time (.cons .timestep (.cons hmass (.cons he (.cons hk (.cons (by have := hg hzz; rwa [hzz] at this) hlast))))))

/-- A particle with these mass, velocity and internal energy, and nothing else. -/
private noncomputable def only (d : Nat) (m u : ℝ) (x v : Point d) : Particle d := ⟨0, m, 1, x, v, v, 0, 0, 0, 1, 1, 1, 1, u, 0, 0, 0, 0, 0, 0, 0, 0, 0⟩

/-- Non-vacuity: two particles in space, one on each of the processes 0 and 2, process 1 is empty, process 2 holds a periodic copy as well. -/
example : Held (fun a : Fin 2 => only 3 (a.val + 1) 1 0 ![1, 0, 0]) [[⟨false, only 3 (0 + 1) 1 0 ![1, 0, 0]⟩], [], [⟨true, only 3 7 1 0 0⟩, ⟨false, only 3 (1 + 1) 1 0 ![1, 0, 0]⟩]] := by
  simp [Held, List.ofFn_succ]

/-- C71 fails in one and two dimensions with self-gravity and without evolution of the internal energy: the column named `internal_energy` holds the gravitational energy. A particle with energy 1 shows 0. -/
theorem C71_column_violated : ∃ (z : Setting 2) (ps : Fin 1 → Particle 2) (procs : List (List (Body 2))), Held ps procs ∧ (columns z)[6]? = some "internal_energy" ∧
    (∀ x, Column z 0 0 0 ps "internal_energy" x → x = 1) ∧ ∀ root, (scalarRow z 0 0 0 root procs).toks[6]? = some (Tok.num 0) := by
  refine ⟨⟨false, true, false, 0⟩, fun _ => only 2 1 1 0 0, [[⟨false, only 2 1 1 0 0⟩]], by simp [Held, List.ofFn_succ], by simp [columns], fun x hx => ?_, fun root => ?_⟩
  · obtain ⟨nm, hnm⟩ : ∃ nm, nm = "internal_energy" := ⟨_, rfl⟩
    rw [← hnm] at hx
    cases hx <;> first | exact absurd hnm (by decide) | simp [total, only]
  · simp [scalarRow, Scalars.toks, totalGravitational, reduceSum, localSum, only]

section
open DistRun Driver
variable {i : Fin 3} {z : Config i} (hv : z.sph.visc = .constant) (had : z.adaptive = false) (he : 0 < z.eta) (hw : 0 < z.width) (hrep : z.repulsionRadius ≤ 1)
  {nprocs N : Nat} {c : Timestep.Clock} {home : Fin n → Nat} {s : DState (Particle (i + 1)) n} (hpos : ∀ a, 0 < (s.val a).mass ∧ 0 < (s.val a).h) (hf : s.flight = [])

include hv had he hw hrep hpos hf

/-- C71 and C34: what is written of mass, momentum and angular momentum after any number of iterations on any number of processes is what the initial particles have. -/
theorem C71_run (w : Setting (i + 1)) (hext : ∀ a, z.sph.external a = 0) (hrelax : z.sph.relaxationSteps ≤ z.initialIteration) (hstart : c.iteration = z.initialIteration)
    {x : Timestep.Clock × (Fin n → Particle (i + 1))} (h : DRun NearLists nprocs z N c home s (some x)) (procs procs' : List (List (Body (i + 1)))) (h1 : Held s.val procs) (h2 : Held x.2 procs')
    (it it' : Nat) (t t' dt dt' : ℝ) (root root' : Point (i + 1)) :
    (scalarRow w it' t' dt' root' procs').mass = (scalarRow w it t dt root procs).mass ∧ (scalarRow w it' t' dt' root' procs').momentum = (scalarRow w it t dt root procs).momentum ∧
    (scalarRow w it' t' dt' root' procs').angular = (scalarRow w it t dt root procs).angular := by
  obtain ⟨g1, g2, g3⟩ := C34_processes hv had he hw hrep hpos hf hext hrelax hstart h
  have ha : ∀ j k, j < (i : ℕ) + 1 → k < (i : ℕ) + 1 → angular procs' j k = angular procs j k := fun j k hj hk => by
    rw [angular_eq h2 hj hk, angular_eq h1 hj hk]; exact g3 ⟨j, hj⟩ ⟨k, hk⟩
  refine ⟨?_, ?_, ?_⟩
  · show totalMass procs' = totalMass procs
    rw [totalMass, totalMass, reduce_total h2, reduce_total h1]; exact Finset.sum_congr rfl fun a _ => (g1 a).2
  · show List.ofFn (totalMomentum procs') = List.ofFn (totalMomentum procs)
    congr 1
    funext j
    rw [totalMomentum, totalMomentum, reduce_total h2, reduce_total h1]; exact g2 j
  · show angularList procs' = angularList procs
    unfold angularList
    split_ifs with e1 e2
    · rw [ha 0 1 (by omega) (by omega)]
    · rw [ha 1 2 (by omega) (by omega), ha 2 0 (by omega) (by omega), ha 0 1 (by omega) (by omega)]
    · rfl

/-- C71 and C35: in the thermokinetic formulation, without self-gravity, what is written of the total energy is the same after any two numbers of iterations, on any numbers of processes. -/
theorem C71_run_energy (w : Setting (i + 1)) (hwt : w.thermokinetic = true) (hwf : w.fmm = false) (hext : ∀ a, z.sph.external { a with vsig := 0 } = z.sph.external a) (htk : z.thermokinetic = true)
    (hev : z.evolve = true) (hup : 1 ≤ z.updates) (hrelax : z.sph.relaxationSteps ≤ z.initialIteration) (hstart : c.iteration = z.initialIteration) (hN : 0 < N) {M nprocs' : Nat} (hM : 0 < M)
    {home' : Fin n → Nat} {s' : DState (Particle (i + 1)) n} (hsame : s'.val = s.val) (hf' : s'.flight = []) {x y : Timestep.Clock × (Fin n → Particle (i + 1))}
    (h : DRun NearLists nprocs z N c home s (some x)) (h' : DRun NearLists nprocs' z M c home' s' (some y)) (procs procs' : List (List (Body (i + 1)))) (h1 : Held x.2 procs) (h2 : Held y.2 procs')
    (it it' : Nat) (t t' dt dt' : ℝ) (root root' : Point (i + 1)) : (scalarRow w it' t' dt' root' procs').energy = (scalarRow w it t dt root procs).energy := by
  have e1 := C35_processes hv had he hw hrep hpos hf hext htk hev hup hrelax hstart hN h
  have e2 := C35_processes hv had he hw hrep (by rw [hsame]; exact hpos) hf' hext htk hev hup hrelax hstart hM h'
  rw [hsame] at e2
  show totalEnergy w.thermokinetic w.fmm w.phi procs' = totalEnergy w.thermokinetic w.fmm w.phi procs
  rw [energy_eq h2, energy_eq h1, hwt, hwf, if_pos rfl, if_pos rfl]
  show total y.2 _ + _ = total x.2 _ + _
  rw [show (total y.2 fun a => a.mass * a.e) = total x.2 fun a => a.mass * a.e from e2.trans e1.symm]
  rfl
end

end FleCSPH.Reductions
