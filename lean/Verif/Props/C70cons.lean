import Verif.Props.C70
import Verif.Props.RunExamples
/-!
Conservation and safety on several processes, from the theorems for one process and C70, and non-vacuity of C70: the example of Props/RunExamples.lean on one and on two processes.
-/
namespace FleCSPH.DistRun
open FleCSPH.Geometry FleCSPH.Sph FleCSPH.Driver FleCSPH.Spec FleCSPH.Kernels FleCSPH.RunExamples

variable {i : Fin 3} {n : Nat}

private theorem everybody_near (s : Fin n → Particle (i + 1)) : NearLists s ((everybody i n).search s) := ⟨fun _ => List.nodup_finRange n, fun _ b _ => List.mem_finRange b⟩

section
variable {z : Config i} (hv : z.sph.visc = .constant) (had : z.adaptive = false) (he : 0 < z.eta) (hw : 0 < z.width) (hrep : z.repulsionRadius ≤ 1)
  {procs N : Nat} {c : Timestep.Clock} {home : Fin n → Nat} {d : DState (Particle (i + 1)) n} (hpos : ∀ a, 0 < (d.val a).mass ∧ 0 < (d.val a).h) (hf : d.flight = [])

include hv had he hw hrep hpos hf in
/-- What a run on several processes gives, up to the signal speed, is what a run on one process gives. -/
private theorem as_one (hext : ∀ a, z.sph.external { a with vsig := 0 } = z.sph.external a) {r : Option (Timestep.Clock × (Fin n → Particle (i + 1)))} (h : DRun NearLists procs z N c home d r) :
    (r.map fun x => (x.1, fun a => ({ x.2 a with vsig := 0 } : Particle (i + 1)))) =
      (run z (List.replicate N (everybody i n)) ⟨c, d.val⟩).map fun st => (st.clock, fun a => { st.parts a with vsig := 0 }) := by
  refine C70_single_partial hv he hw hrep hext had (List.replicate N (everybody i n)) (fun w hw => ?_) (by rw [List.length_replicate]; exact h) hpos hf
  rw [List.eq_of_mem_replicate hw]
  exact ⟨fun s _ => everybody_near s, fun k => ⟨List.nodup_finRange n, List.mem_finRange⟩⟩

include hv had he hw hrep hpos hf in
private theorem as_one_some (hext : ∀ a, z.sph.external { a with vsig := 0 } = z.sph.external a) {x : Timestep.Clock × (Fin n → Particle (i + 1))} (h : DRun NearLists procs z N c home d (some x)) :
    ∃ st, run z (List.replicate N (everybody i n)) ⟨c, d.val⟩ = some st ∧ st.clock = x.1 ∧ ∀ a, ({ x.2 a with vsig := 0 } : Particle (i + 1)) = { st.parts a with vsig := 0 } := by
  have := as_one hv had he hw hrep hpos hf hext h
  rw [Option.map_some] at this
  obtain ⟨st, h1, h2⟩ := Option.map_eq_some_iff.mp this.symm
  exact ⟨st, h1, congrArg Prod.fst h2, fun a => (congrFun (congrArg Prod.snd h2) a).symm⟩

include hv had he hw hrep hpos hf

/-- C34 and C56 on any number of processes: a run conserves the particles, their masses, the total momentum and the total angular momentum. -/
theorem C34_processes (hext : ∀ a, z.sph.external a = 0) (hrelax : z.sph.relaxationSteps ≤ z.initialIteration) (hstart : c.iteration = z.initialIteration)
    {x : Timestep.Clock × (Fin n → Particle (i + 1))} (h : DRun NearLists procs z N c home d (some x)) :
    (∀ a, (x.2 a).id = (d.val a).id ∧ (x.2 a).mass = (d.val a).mass) ∧
    (∀ j, ∑ a, (x.2 a).mass * (x.2 a).vel j = ∑ a, (d.val a).mass * (d.val a).vel j) ∧
    ∀ j k, ∑ a, (x.2 a).mass * ((x.2 a).pos j * (x.2 a).vel k - (x.2 a).pos k * (x.2 a).vel j) =
      ∑ a, (d.val a).mass * ((d.val a).pos j * (d.val a).vel k - (d.val a).pos k * (d.val a).vel j) := by
  obtain ⟨st, h1, -, h2⟩ := as_one_some hv had he hw hrep hpos hf (fun a => by rw [hext, hext]) h
  have e : ∀ a, (x.2 a).id = (st.parts a).id ∧ (x.2 a).mass = (st.parts a).mass ∧ (x.2 a).pos = (st.parts a).pos ∧ (x.2 a).vel = (st.parts a).vel := fun a => by
    have e1 := congrArg Particle.id (h2 a)
    have e2 := congrArg Particle.mass (h2 a)
    have e3 := congrArg Particle.pos (h2 a)
    have e4 := congrArg Particle.vel (h2 a)
    exact ⟨e1, e2, e3, e4⟩
  obtain ⟨g1, g2, g3⟩ := C34_run z hext he hw hrelax _ (fun w hw => by rw [List.eq_of_mem_replicate hw]; exact everybody_faithful _ _) _ st hstart hpos h1
  refine ⟨fun a => by rw [(e a).1, (e a).2.1]; exact g1 a, fun j => ?_, fun j k => ?_⟩
  · rw [← g2 j]; exact Finset.sum_congr rfl fun a _ => by rw [(e a).2.1, (e a).2.2.2]
  · rw [← g3 j k]; exact Finset.sum_congr rfl fun a _ => by rw [(e a).2.1, (e a).2.2.1, (e a).2.2.2]

/-- C35 on any number of processes: in the thermokinetic formulation a run conserves the total energy. -/
theorem C35_processes (hext : ∀ a, z.sph.external { a with vsig := 0 } = z.sph.external a) (htk : z.thermokinetic = true) (hev : z.evolve = true) (hup : 1 ≤ z.updates)
    (hrelax : z.sph.relaxationSteps ≤ z.initialIteration) (hstart : c.iteration = z.initialIteration) (hN : 0 < N) {x : Timestep.Clock × (Fin n → Particle (i + 1))} (h : DRun NearLists procs z N c home d (some x)) :
    ∑ a, (x.2 a).mass * (x.2 a).e = ∑ a, (d.val a).mass * (1 / 2 * ∑ j, (d.val a).vel j * (d.val a).vel j + (Eos.init z.eos z.eosParams (d.val a)).u + z.phi (d.val a).pos) := by
  obtain ⟨st, h1, -, h2⟩ := as_one_some hv had he hw hrep hpos hf hext h
  have g := C35_run z htk hev hup he hw hrelax _ (by intro h0; have := congrArg List.length h0; simp at this; omega)
    (fun w hw => by rw [List.eq_of_mem_replicate hw]; exact everybody_faithful _ _) _ st hstart hpos h1
  rw [← g]
  refine Finset.sum_congr rfl fun a _ => ?_
  have e1 := congrArg Particle.mass (h2 a)
  have e2 := congrArg Particle.e (h2 a)
  have e1 : (x.2 a).mass = (st.parts a).mass := e1
  have e2 : (x.2 a).e = (st.parts a).e := e2
  rw [e1, e2]

/-- C36 on any number of processes: a polytropic gas whose internal energy is not evolved; no run stops with a failed assertion, and densities and smoothing lengths stay positive. -/
theorem C36_processes_partial (hext : ∀ a, z.sph.external { a with vsig := 0 } = z.sph.external a) (hκ : NonNegKernel z.sph.kernel) (heos : z.eos = .polytropic) (hev : z.evolve = false)
    (hstart : c.iteration = z.initialIteration) (hN : 0 < N) (hP : ∀ a, 0 ≤ (d.val a).P ∧ 0 ≤ (d.val a).rho) {r : Option (Timestep.Clock × (Fin n → Particle (i + 1)))}
    (h : DRun NearLists procs z N c home d r) : ∃ x, r = some x ∧ x.1.iteration = c.iteration + N ∧ ∀ a, 0 < (x.2 a).mass ∧ 0 < (x.2 a).h ∧ 0 < (x.2 a).rho ∧ 0 ≤ (x.2 a).P := by
  obtain ⟨st, h1, h2, h3⟩ := C36_run_partial z hκ hv heos hev he hw (List.replicate N (everybody i n)) (by intro h0; have := congrArg List.length h0; simp at this; omega)
    (fun w hw => by rw [List.eq_of_mem_replicate hw]; exact everybody_faithful _ _) ⟨c, d.val⟩ hstart (fun a => ⟨(hpos a).1, (hpos a).2, hP a⟩)
  have := as_one hv had he hw hrep hpos hf hext h
  rw [h1] at this
  cases r with
  | none => cases this
  | some x =>
    have := Option.some.inj this
    have e0 : x.1 = st.clock := congrArg Prod.fst this
    refine ⟨x, rfl, by rw [e0, h2, List.length_replicate], fun a => ?_⟩
    have ha := congrFun (congrArg Prod.snd this) a
    have e1 := congrArg Particle.mass ha
    have e2 := congrArg Particle.h ha
    have e3 := congrArg Particle.rho ha
    have e4 := congrArg Particle.P ha
    have e1 : (x.2 a).mass = (st.parts a).mass := e1
    have e2 : (x.2 a).h = (st.parts a).h := e2
    have e3 : (x.2 a).rho = (st.parts a).rho := e3
    have e4 : (x.2 a).P = (st.parts a).P := e4
    rw [e1, e2, e3, e4]
    exact h3 a

end

/-- Non-vacuity of C70, C34_processes and C36_processes_partial: the two particles of Props/RunExamples.lean on one process and, one each, on two processes; runs of any length exist, do not fail, and keep
the momentum 2/3. -/
example (k : Nat) (hk : 0 < k) (dt : ℝ) : ∃ x y, DRun NearLists 1 (gas false .polytropic) k (start dt).clock (fun _ => 0) ⟨two, fun _ b => some (two b), []⟩ (some x) ∧
    DRun NearLists 2 (gas false .polytropic) k (start dt).clock (fun a => a.val) ⟨two, fun _ b => some (two b), []⟩ (some y) ∧ x.1 = y.1 ∧ (∀ a, (x.2 a).pos = (y.2 a).pos) ∧
    ∑ a, (y.2 a).mass * (y.2 a).vel 1 = 2 / 3 := by
  have hp : ∀ a, 0 < (two a).mass ∧ 0 < (two a).h := fun a => by simp [two]
  have he : 0 < (gas false .polytropic).eta := by norm_num [gas]
  have hw : 0 < (gas false .polytropic).width := by norm_num [gas]
  have hr : (gas false .polytropic).repulsionRadius ≤ 1 := by norm_num [gas]
  obtain ⟨r, h1⟩ := C70_exists (z := gas false .polytropic) rfl he hw hr (fun _ => rfl) (procs := 1) (N := k) (c := (start dt).clock) (home := fun _ => 0) (fun _ => Nat.one_pos) two hp
  obtain ⟨r', h2⟩ := C70_exists (z := gas false .polytropic) rfl he hw hr (fun _ => rfl) (procs := 2) (N := k) (c := (start dt).clock) (home := fun a => a.val) (fun a => a.isLt) two hp
  obtain ⟨x, rfl, -⟩ := C36_processes_partial (z := gas false .polytropic) rfl rfl he hw hr hp rfl (fun _ => rfl) (Or.inl Poly.wendlandC4) rfl rfl rfl hk (fun a => by simp [two]) h1
  obtain ⟨y, rfl, -⟩ := C36_processes_partial (z := gas false .polytropic) rfl rfl he hw hr hp rfl (fun _ => rfl) (Or.inl Poly.wendlandC4) rfl rfl rfl hk (fun a => by simp [two]) h2
  have hsame := Option.some.inj (C70_processes_partial (z := gas false .polytropic) rfl he hw hr (fun _ => rfl) h1 h2 rfl hp rfl rfl)
  have h0 := congrArg Prod.fst hsame
  refine ⟨x, y, h1, h2, h0, fun a => ?_, ?_⟩
  · have h3 := congrFun (congrArg Prod.snd hsame) a
    have h4 := congrArg Particle.pos h3
    exact h4
  · rw [(C34_processes (z := gas false .polytropic) rfl rfl he hw hr hp rfl (fun _ => rfl) le_rfl rfl h2).2.1 1]
    simp [Fin.sum_univ_two, two]; norm_num

/-- Non-vacuity of C35_processes: the first iteration of a run with evolved energy, on two processes. -/
example (dt : ℝ) : ∃ y, DRun NearLists 2 (gas true .noEos) 1 (start dt).clock (fun a => a.val) ⟨two, fun _ b => some (two b), []⟩ (some y) ∧ ∑ a, (y.2 a).mass * (y.2 a).e = 2 + 1 / 4 + 1 / 9 := by
  have hp : ∀ a, 0 < (two a).mass ∧ 0 < (two a).h := fun a => by simp [two]
  have he : 0 < (gas true .noEos).eta := by norm_num [gas]
  have hw : 0 < (gas true .noEos).width := by norm_num [gas]
  have hr : (gas true .noEos).repulsionRadius ≤ 1 := by norm_num [gas]
  obtain ⟨r, h⟩ := C70_exists (z := gas true .noEos) rfl he hw hr (fun _ => rfl) (procs := 2) (N := 1) (c := (start dt).clock) (home := fun a => a.val) (fun a => a.isLt) two hp
  have := as_one (z := gas true .noEos) rfl rfl he hw hr hp rfl (fun _ => rfl) h
  obtain ⟨st', h'⟩ := heating_begins dt
  have hrun : run (gas true .noEos) [everybody 1 2] (start dt) = some st' := by
    simp only [run, List.foldlM_cons, List.foldlM_nil, Option.bind_eq_bind, h', Option.bind_some, Option.pure_def]
  cases r with
  | none => rw [show run (gas true .noEos) (List.replicate 1 (everybody 1 2)) ⟨(start dt).clock, two⟩ = some st' from hrun] at this; cases this
  | some y =>
    refine ⟨y, h, (C35_processes (z := gas true .noEos) rfl rfl he hw hr hp rfl (fun _ => rfl) rfl rfl le_rfl le_rfl rfl Nat.one_pos h).trans ?_⟩
    simp [Fin.sum_univ_two, two, gas, Eos.init]; norm_num

end FleCSPH.DistRun
