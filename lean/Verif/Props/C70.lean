import Verif.Lemmas.DistDriver
import Verif.Props.C13dist
import Verif.Lemmas.Density
/-!
C70: the number of processes does not change the physics.

Proved for the constant viscosity and a fixed time step: two runs on any numbers of processes, with any division of the particles at every iteration, any order of visits, any messages and any neighbour
lists the search may deliver, agree on the clock and on all data of all particles but the signal speed, or both stop with a failed assertion.

Missing for the full property: the signal speed (C55_violated) and with it the adaptive time step, and the adaptive viscosity, for which the property does not hold (`C70_violated`).
-/
namespace FleCSPH.DistRun
open FleCSPH.Geometry FleCSPH.Sph FleCSPH.Driver FleCSPH.Spec FleCSPH.Kernels FleCSPH.Integration

variable {i : Fin 3} {n : Nat}

private theorem run_agree {z : Config i} (hv : z.sph.visc = .constant) (he : 0 < z.eta) (hw : 0 < z.width) (hrep : z.repulsionRadius ≤ 1)
    (hext : ∀ a, z.sph.external { a with vsig := 0 } = z.sph.external a) {procs procs' N : Nat} {c : Timestep.Clock} {home : Fin n → Nat} {d : DState (Particle (i + 1)) n}
    {r : Option (Timestep.Clock × (Fin n → Particle (i + 1)))} (h : DRun NearLists procs z N c home d r) : ∀ {home' : Fin n → Nat} {d' : DState (Particle (i + 1)) n}
    {r' : Option (Timestep.Clock × (Fin n → Particle (i + 1)))}, DRun NearLists procs' z N c home' d' r' → (∀ a, Sized (d.val a)) → (∀ a, Sized (d'.val a)) →
      (∀ a, er (d.val a) = er (d'.val a)) → d.flight = [] → d'.flight = [] →
      (r.map fun x => (x.1, fun a => er (x.2 a))) = r'.map fun x => (x.1, fun a => er (x.2 a)) := by
  induction h with
  | @nil c home d =>
    intro home' d' r' h' _ _ e _ _
    cases h'
    exact congrArg some (Prod.ext rfl (funext e))
  | @fail N c home d hx =>
    intro home' d' r' h' h1 h2 e _ _
    have hD := disc_iteration (n := n) z hv he hw c (fun _ => hrep) hext (V := fun _ => False)
    cases h' with
    | fail _ => rfl
    | cons hx' _ =>
      have := exec_agree near_er hx hD (fun v h => h.elim) (fun v h => h.elim) h1 h2 e hx'
      cases this
  | @cons N c home home1 d d1 r hx _ ih =>
    intro home' d' r' h' h1 h2 e f1 f2
    have hD := disc_iteration (n := n) z hv he hw c (fun _ => hrep) hext (V := fun _ => False)
    cases h' with
    | fail hx' =>
      have := exec_agree near_er hx hD (fun v h => h.elim) (fun v h => h.elim) h1 h2 e hx'
      cases this
    | cons hx' hr' =>
      have h3 := Option.some.inj (exec_agree near_er hx hD (fun v h => h.elim) (fun v h => h.elim) h1 h2 e hx')
      have p1 := exec_post hx hD h1 f1 _ rfl
      have p2 := exec_post hx' hD h2 f2 _ rfl
      exact ih hr' p1.1 p2.1 (fun a => congrFun h3 a) p1.2 p2.2

section
variable {z : Config i} (hv : z.sph.visc = .constant) (he : 0 < z.eta) (hw : 0 < z.width) (hrep : z.repulsionRadius ≤ 1)
  (hext : ∀ a, z.sph.external { a with vsig := 0 } = z.sph.external a)
include hv he hw hrep hext

/-- C70 for two runs on `procs` and on `procs'` processes from the same particles. The runs may start with any copies on the processes (`d.copy`); the number of iterations is arbitrary, and so are the
divisions of the particles, the orders of visits, the messages and the neighbour lists in each of them. -/
theorem C70_processes_partial {procs procs' N : Nat} {c : Timestep.Clock} {home home' : Fin n → Nat} {d d' : DState (Particle (i + 1)) n} {r r' : Option (Timestep.Clock × (Fin n → Particle (i + 1)))}
    (h : DRun NearLists procs z N c home d r) (h' : DRun NearLists procs' z N c home' d' r') (hsame : d.val = d'.val) (hpos : ∀ a, 0 < (d.val a).mass ∧ 0 < (d.val a).h)
    (hf : d.flight = []) (hf' : d'.flight = []) :
    (r.map fun x => (x.1, fun a => { x.2 a with vsig := 0 })) = r'.map fun x => (x.1, fun a => { x.2 a with vsig := 0 }) :=
  run_agree hv he hw hrep hext h h' hpos (fun a => by rw [← hsame]; exact hpos a) (fun a => by rw [hsame]) hf hf'

/-- C70 against the program on one process (Model/Driver.lean): a run on any number of processes gives what the run on one process gives, for any schedules of the latter. -/
theorem C70_single_partial (had : z.adaptive = false) {procs : Nat} {c : Timestep.Clock} {home : Fin n → Nat} {d : DState (Particle (i + 1)) n} {r : Option (Timestep.Clock × (Fin n → Particle (i + 1)))}
    (ws : List (Schedule i n)) (hws : ∀ w ∈ ws, (∀ s : Fin n → Particle (i + 1), (∀ a, 0 < (s a).h) → NearLists s (w.search s)) ∧ ∀ k, VisitsAll (w.order k))
    (h : DRun NearLists procs z ws.length c home d r) (hpos : ∀ a, 0 < (d.val a).mass ∧ 0 < (d.val a).h) (hf : d.flight = []) :
    (r.map fun x => (x.1, fun a => { x.2 a with vsig := 0 })) = (run z ws ⟨c, d.val⟩).map fun st => (st.clock, fun a => { st.parts a with vsig := 0 }) := by
  have key : ∀ (ws : List (Schedule i n)), (∀ w ∈ ws, (∀ s : Fin n → Particle (i + 1), (∀ a, 0 < (s a).h) → NearLists s (w.search s)) ∧ ∀ k, VisitsAll (w.order k)) →
      ∀ (c : Timestep.Clock) (d : DState (Particle (i + 1)) n), (∀ a, Sized (d.val a)) → d.flight = [] →
      ∃ r, DRun NearLists 1 z ws.length c (fun _ => 0) d r ∧ r = (run z ws ⟨c, d.val⟩).map fun st => (st.clock, st.parts) := by
    intro ws
    induction ws with
    | nil => intro _ c d _ _; exact ⟨_, .nil, rfl⟩
    | cons w ws ih =>
      intro hws c d hp hf
      have hD := disc_iteration (n := n) z hv he hw c (fun _ => hrep) hext (V := fun _ => False)
      obtain ⟨r, h1, h2, h3⟩ := exec1_exec w (hws w (by simp)).1 (hws w (by simp)).2 hD hp hf
      have hrun : run z (w :: ws) ⟨c, d.val⟩ = (iteration z w ⟨c, d.val⟩).bind (run z ws) := rfl
      rw [hrun, exec1_iteration w z had, ← h2]
      cases r with
      | none => exact ⟨none, .fail h1, rfl⟩
      | some x =>
        obtain ⟨home1, d1⟩ := x
        obtain rfl : home1 = _ := h3 _ rfl
        have p := exec_post h1 hD hp hf _ rfl
        obtain ⟨r, g1, g2⟩ := ih (fun w hw => hws w (List.mem_cons_of_mem _ hw)) (Timestep.advance false c) d1 p.1 p.2
        exact ⟨r, .cons h1 g1, g2⟩
  obtain ⟨r1, h1, h2⟩ := key ws hws c d hpos hf
  have := run_agree hv he hw hrep hext h h1 hpos hpos (fun _ => rfl) hf hf
  rw [h2, Option.map_map] at this
  exact this

/-- Runs on any number of processes exist, for every division of the particles: either all iterations are done or an assertion fails. -/
theorem C70_exists {procs N : Nat} {c : Timestep.Clock} {home : Fin n → Nat} (hh : ∀ a, home a < procs) (s : Fin n → Particle (i + 1)) (hpos : ∀ a, 0 < (s a).mass ∧ 0 < (s a).h) :
    ∃ r, DRun NearLists procs z N c home ⟨s, fun _ b => some (s b), []⟩ r := by
  have key : ∀ N c (d : DState (Particle (i + 1)) n), (∀ a, Sized (d.val a)) → Full d → d.flight = [] → ∃ r, DRun NearLists procs z N c home d r := by
    intro N
    induction N with
    | zero => intro c d _ _ _; exact ⟨_, .nil⟩
    | succ N ih =>
      intro c d hp hF hf
      have hD := disc_iteration (n := n) z hv he hw c (fun _ => hrep) hext (V := fun _ => False)
      obtain ⟨r, h1, h2⟩ := exec_exists (near := NearLists) (fun s _ => ⟨fun _ => List.finRange n, fun _ => List.nodup_finRange n, fun _ b _ => List.mem_finRange b⟩) hh hD hp hF hf
      cases r with
      | none => exact ⟨none, .fail h1⟩
      | some x =>
        obtain ⟨home1, d1⟩ := x
        obtain ⟨rfl, hF1⟩ := h2 _ rfl
        have p := exec_post h1 hD hp hf _ rfl
        obtain ⟨r, g⟩ := ih (Timestep.advance false c) d1 p.1 hF1 p.2
        exact ⟨r, .cons h1 g⟩
  exact key N c _ hpos (fun _ _ => rfl) rfl

end

/-! ### The lists of the search -/

open FleCSPH.Cofm FleCSPH.Startup FleCSPH.SphRun FleCSPH.Tree FleCSPH.Ghosts in
/-- The calls which the traversal makes on the processes (`C13_distributed_partial`) give neighbour lists as they are assumed above: there are lists which satisfy `NearLists`, and each call is made for one of
the particles with the particles of its list. -/
theorem C70_lists {D dim : Nat} {ranks : List (List Nat)} (hdim : 0 < dim) (hD : 0 < D) (hne : ∀ l ∈ ranks, l ≠ []) (hfull : ∀ x ∈ ranks.flatten, FullKey D dim x)
    (hsorted : ranks.flatten.Pairwise (· < ·)) (s : Fin n → Particle (i + 1)) (key : Fin n → Nat) (hinj : key.Injective) (hkey : ∀ x, x ∈ ranks.flatten ↔ ∃ a, key a = x)
    (body : Nat → Body (i + 1)) (hbody : ∀ a, (body (key a)).pos = (s a).pos ∧ (body (key a)).h = (s a).h) (calls : Nat → List (List Nat × List (List Nat)))
    (hs : ∀ p < ranks.length, Served D dim ranks body (fun a b => (a.h + b.h) / 2) p (calls p)) :
    ∃ nbs : Fin n → List (Fin n), NearLists s nbs ∧ ∀ p < ranks.length, ∀ e nb, (e, nb) ∈ calls p → ∃ a, LeafCell D dim (· ∈ ranks.flatten) (key a) (number dim e) ∧
      List.Forall₂ (fun f b => LeafCell D dim (· ∈ ranks.flatten) (key b) (number dim f)) nb (nbs a) := by
  classical
  have P : Parts D dim ranks := ⟨hdim, hD, hne, hfull, hsorted⟩
  have hmem : ∀ a, key a ∈ ranks.flatten := fun a => (hkey _).mpr ⟨a, rfl⟩
  -- the leaf and the call of each particle
  have hcall : ∀ a, ∃ p e nb, p < ranks.length ∧ Digits dim e ∧ LeafCell D dim (· ∈ ranks.flatten) (key a) (number dim e) ∧ (e, nb) ∈ calls p ∧ holder D dim ranks e = p := by
    intro a
    obtain ⟨p, ks, hp, hx⟩ := mem_ranks.mp (hmem a)
    obtain ⟨e, h1, h2, h3, h4⟩ := P.leafOf hp hx
    have hlt : p < ranks.length := (List.getElem?_eq_some_iff.mp hp).1
    have h5 := ((hs p hlt).all e).mpr ⟨h1, ks, key a, hp, hx, h3⟩
    obtain ⟨⟨e', nb⟩, h6, rfl⟩ := List.mem_map.mp h5
    exact ⟨p, e', nb, hlt, h1, h3, h6, h4⟩
  choose p e nb hp hdig hleaf hmemc hold using hcall
  have hpath : ∀ {k : List Nat}, Digits dim k → ∀ a, LeafCell D dim (· ∈ ranks.flatten) (key a) (number dim k) ↔ LeafP D dim (· ∈ ranks.flatten) (key a) k :=
    fun hk a => leaf_path P.hdim P.fullX hk (hmem a)
  have hone : ∀ {k : List Nat}, Digits dim k → ∀ a b, LeafCell D dim (· ∈ ranks.flatten) (key a) (number dim k) → LeafCell D dim (· ∈ ranks.flatten) (key b) (number dim k) → a = b := by
    intro k hk a b ha hb
    have h1 := (hpath hk a).mp ha
    have h2 := (hpath hk b).mp hb
    exact (hinj (h1.2.2.1 _ (hmem b) h2.2.1)).symm
  have hsame : ∀ {k : List Nat}, Digits dim k → ∀ a, LeafCell D dim (· ∈ ranks.flatten) (key a) (number dim k) → k = e a :=
    fun hk a ha => leafP_unique (X := (· ∈ ranks.flatten)) (hmem a) ((hpath hk a).mp ha) ((hpath (hdig a) a).mp (hleaf a))
  -- the particle of a leaf
  by_cases hn : n = 0
  · subst hn
    refine ⟨fun a => a.elim0, ⟨fun a => a.elim0, fun a => a.elim0⟩, fun p hp e nb h => ?_⟩
    obtain ⟨-, ks, x, h1, h2, -⟩ := ((hs p hp).all e).mp (List.mem_map_of_mem h)
    obtain ⟨a, -⟩ := (hkey x).mp (mem_ranks.mpr ⟨p, ks, h1, h2⟩)
    exact a.elim0
  let g : List Nat → Fin n := fun f => if h : ∃ b, LeafCell D dim (· ∈ ranks.flatten) (key b) (number dim f) then h.choose else ⟨0, Nat.pos_of_ne_zero hn⟩
  have hg : ∀ a, ∀ f ∈ nb a, Digits dim f ∧ LeafCell D dim (· ∈ ranks.flatten) (key (g f)) (number dim f) := by
    intro a f hf
    obtain ⟨h1, y, hy, h2, -⟩ := (hs _ (hp a)).sound _ _ _ (hmemc a) (hmem a) (hleaf a) f hf
    obtain ⟨b, rfl⟩ := (hkey y).mp hy
    have hex : ∃ b, LeafCell D dim (· ∈ ranks.flatten) (key b) (number dim f) := ⟨b, h2⟩
    refine ⟨h1, ?_⟩
    simp only [g, dif_pos hex]
    exact hex.choose_spec
  refine ⟨fun a => (nb a).map g, ⟨fun a => ?_, fun a b hab => ?_⟩, fun q hq k l h => ?_⟩
  · refine ((hs _ (hp a)).nodup _ _ (hmemc a)).map_on fun x hx y hy hxy => ?_
    have h1 := hg a x hx
    have h2 := hg a y hy
    rw [hsame h1.1 _ h1.2, hsame h2.1 _ h2.2, hxy]
  · refine List.mem_map.mpr ⟨e b, (hs _ (hp a)).complete _ _ _ (hmemc a) (hmem a) (hleaf a) (e b) (key b) (hmem b) (hdig b) (hleaf b) ?_, ?_⟩
    · rw [(hbody a).1, (hbody b).1, (hbody a).2, (hbody b).2]; exact hab
    · have hex : ∃ c, LeafCell D dim (· ∈ ranks.flatten) (key c) (number dim (e b)) := ⟨b, hleaf b⟩
      simp only [g, dif_pos hex]
      exact hone (hdig b) _ _ hex.choose_spec (hleaf b)
  · obtain ⟨hk, ks, x, h1, h2, h3⟩ := ((hs q hq).all k).mp (List.mem_map_of_mem h)
    obtain ⟨a, rfl⟩ := (hkey x).mp (mem_ranks.mpr ⟨q, ks, h1, h2⟩)
    obtain rfl := hsame hk a h3
    have hq' : q = p a := by rw [← hold a]; exact (P.holder_eq hk h1 h2 ((hpath hk a).mp h3)).symm
    subst hq'
    have hl : l = nb a := by
      have hnd := (hs _ hq).once
      have := List.inj_on_of_nodup_map hnd h (hmemc a) rfl
      exact congrArg Prod.snd this
    subst hl
    refine ⟨a, h3, ?_⟩
    rw [List.forall₂_map_right_iff, List.forall₂_same]
    exact fun f hf => (hg a f hf).2

/-! ### The adaptive viscosity -/

private theorem dpass_some {P V : Type} (home : Fin n → Nat) (g : P → List P → P) (nbs : Fin n → List (Fin n)) (v : P → V) (hk : ∀ a l, v (g a l) = v a) : ∀ (todo : List (Fin n)) (d : DState P n),
    Full d → d.flight = [] → ∃ d', DPass home (fun a l => some (g a l)) nbs todo d (some d') ∧ Full d' ∧ ∀ a, v (d'.val a) = v (d.val a) := by
  intro todo
  induction todo with
  | nil => intro d hd hf; exact ⟨d, .done hf, hd, fun _ => rfl⟩
  | cons a todo ih =>
    intro d hd hf
    obtain ⟨l, hl⟩ := see_some (home := home) hd (home a) (nbs a)
    obtain ⟨d', h1, h2, h3⟩ := ih (d.put a (g (d.val a) l)) hd hf
    refine ⟨d', .visit [] todo a l _ hl rfl h1, h2, fun b => ?_⟩
    rw [h3, DState.put]
    by_cases hb : b = a
    · subst hb; simp only [Function.update_self]; exact hk _ _
    · simp only [Function.update_of_ne hb]

/-- The end of an iteration without energy equation, with fixed smoothing lengths: it does not fail and keeps the viscosity. -/
private theorem tail_exec (z : Config i) (hev : z.evolve = false) (hh : z.hMode = .fixed) (c : Timestep.Clock) (hit : ¬ c.iteration < z.sph.relaxationSteps) {procs : Nat} (home : Fin n → Nat)
    (d : DState (Particle (i + 1)) n) (hd : ∀ a, 0 ≤ (d.val a).rho ∧ 0 ≤ (d.val a).P) :
    ∃ d', DExec NearLists procs (forceOps z c.iteration ++ ([.all fun a => some (kickV c.dt a), .reset] ++ ((if z.evolve then energyOps z c.dt c.iteration z.updates else []) ++ (kickOps z c.dt ++ lastOps z))))
      home d (some (home, d')) ∧ ∀ a, (d'.val a).alpha = (d.val a).alpha := by
  have hr : forceOps z c.iteration = [.reset, .pass 2 fun a l => some (computeAcceleration z.sph a l)] := by simp [forceOps, hit]
  have hl : lastOps z = [.all fun a => open Classical in if 0 ≤ a.rho ∧ 0 ≤ a.P ∧ (z.evolve = true → 0 ≤ a.u) then some a else none] := by simp [lastOps, hh]
  have hk : kickOps z c.dt = [] := by simp [kickOps, hev]
  rw [hr, hl, hk, hev]
  simp only [Bool.false_eq_true, if_false, List.cons_append, List.nil_append]
  obtain ⟨d1, h1, -, h2⟩ := dpass_some home (computeAcceleration z.sph) (fun _ => List.finRange n) (fun a => (a.rho, a.P, a.alpha)) (fun _ _ => rfl) (List.finRange n) (fresh d) (fun _ _ => rfl) rfl
  have h3 : ∀ a, (d1.val a).rho = (d.val a).rho ∧ (d1.val a).P = (d.val a).P ∧ (d1.val a).alpha = (d.val a).alpha := fun a => by
    have := h2 a
    simp only [Prod.mk.injEq] at this
    exact this
  obtain ⟨d2, hd2⟩ : ∃ d2 : DState (Particle (i + 1)) n, d2 = fresh { d1 with val := fun a => kickV c.dt (d1.val a) } := ⟨_, rfl⟩
  refine ⟨{ d2 with val := d2.val }, ?_, fun a => ?_⟩
  · refine .reset (fresh_rebuilt d) (.pass (fun _ => List.finRange n) (List.finRange n) ⟨fun _ => List.nodup_finRange n, fun _ b _ => List.mem_finRange b⟩ (List.nodup_finRange n) List.mem_finRange h1 ?_)
    refine .all (fun a => kickV c.dt (d1.val a)) (fun _ => rfl) (.reset (d' := d2) (by rw [hd2]; exact fresh_rebuilt _) ?_)
    refine .all d2.val (fun a => ?_) .nil
    rw [if_pos]
    have e1 : (d2.val a).rho = (d.val a).rho := by rw [hd2]; exact (h3 a).1
    have e2 : (d2.val a).P = (d.val a).P := by rw [hd2]; exact (h3 a).2.1
    rw [e1, e2]
    exact ⟨(hd a).1, (hd a).2, fun h => by cases h⟩
  · rw [hd2]; exact (h3 a).2.2

/-- With the adaptive viscosity the number of processes does change the result. `compute_alpha` reads the sound speed of the neighbours right after the pass which computes it, with no `reset_ghosts` in
between: a process finds the old value in its copy of a particle of another process. Two particles on one and on two processes, one iteration: the viscosity parameters of the first particle differ. -/
theorem C70_violated : ∃ (z : Config 0) (c : Timestep.Clock) (s : Fin 2 → Particle 1) (r r' : Timestep.Clock × (Fin 2 → Particle 1)),
    z.adaptive = false ∧ 0 < z.eta ∧ 0 < z.width ∧ (∀ a, 0 < (s a).mass ∧ 0 < (s a).h ∧ 0 < (s a).u) ∧
    DRun NearLists 1 z 1 c (fun _ => 0) ⟨s, fun _ _ => none, []⟩ (some r) ∧ DRun NearLists 2 z 1 c (fun a => a.val) ⟨s, fun _ _ => none, []⟩ (some r') ∧
    (r.2 0).alpha ≠ (r'.2 0).alpha := by
  let p : Params 0 := ⟨.wendlandC2, .cullen, 1, 2, 1 / 100, fun _ => 0, 0⟩
  let q : Eos.Params := ⟨2, 2, 1⟩
  let z : Config 0 := ⟨p, .ideal, q, fun _ => 0, false, false, 1, 2, 1, 1, 0, 0, 1, 0, .fixed, 1, 1, 1, false, ⟨fun _ => 0, fun _ => 0⟩, 0⟩
  let c : Timestep.Clock := ⟨1, 1, 0, 0, 0, fun _ => 0⟩
  -- the sound speed of both particles is 5 before the density pass and √2 after it
  let a : Particle 1 := ⟨0, 1, 1, fun _ => 0, 0, 0, 0, 0, 0, 1, 1, 5, 1, 1, 0, 0, 0, 0, 0, 0, 0, 0, 0⟩
  let b : Particle 1 := ⟨1, 1, 1, fun _ => 1 / 2, 0, 0, 0, 0, 0, 1, 1, 5, 1, 1, 0, 0, 0, 0, 0, 0, 0, 0, 0⟩
  let s : Fin 2 → Particle 1 := ![a, b]
  let f := Eos.computeDensityPressureSoundspeed p .ideal q (setup z 1)
  have hf : ∀ (x : Particle 1) (l : List (Particle 1)), (∃ y ∈ l, y.pos = x.pos) → (∀ y ∈ l, 0 < y.mass) → 0 < x.h → (∀ y ∈ l, 0 < y.h) → x.vel = 0 → x.divv = 0 → x.u = 1 →
      ∃ x', f x l = some x' ∧ x'.cs = √2 ∧ x'.mass = x.mass ∧ x'.h = x.h ∧ x'.pos = x.pos ∧ x'.vel = x.vel ∧ x'.alpha = x.alpha ∧ 0 ≤ x'.rho ∧ 0 ≤ x'.P ∧ x'.ddivvdt = 0 := by
    intro x l h1 h2 h3 h4 h5 h6 h7
    obtain ⟨ρ, hρ, hd⟩ : ∃ ρ, 0 < ρ ∧ computeDensity p x l = some { x with rho := ρ } :=
      ⟨_, density_some (i := 0) p (Or.inl .wendlandC2) x l h1 h2 h3 h4⟩
    refine ⟨Eos.divvIf p 1 (computeSignalspeed (Eos.computeSoundspeed .ideal q (Eos.computePressure .ideal q { x with rho := ρ })) l) l, ?_, ?_, rfl, rfl, rfl, rfl, rfl, hρ.le, ?_, ?_⟩
    · show ((computeDensity p x l).bind fun a1 => (Eos.recoverIf (setup z 1) a1).bind fun a2 =>
        some (Eos.divvIf p 1 (computeSignalspeed (Eos.computeSoundspeed .ideal q (Eos.computePressure .ideal q a2)) l) l)) = some _
      rw [hd, Option.bind_some]
      rfl
    · show √(2 * (2 - 1) * x.u) = √2
      rw [h7]; norm_num
    · show 0 ≤ (2 - 1) * ρ * x.u
      rw [h7]; linarith
    · show (accumulate l (fun b => b.mass * dot x.vel (kernelGradient p.kernel 0 (x.pos - b.pos) (1 / 2 * (x.h + b.h)))) / ρ - x.divv) / 1 = 0
      rw [h5, h6]
      have : ∀ y : Point 1, dot 0 y = 0 := fun y => by simp [dot]
      simp only [this, mul_zero, accumulate_eq]
      simp
  have hdist : ∀ (x y : Particle 1), x.vel = 0 → y.vel = 0 → dot (x.vel - y.vel) (fun j => (x.pos j - y.pos j) / distance x.pos y.pos) = 0 := by
    intro x y h1 h2; rw [h1, h2]; simp [dot]
  have hsig : ∀ (x y : Particle 1), x.vel = 0 → y.vel = 0 → y.pos ≠ x.pos → 0 ≤ y.cs → ∀ x0 : Particle 1, x0.pos = x.pos →
      (computeSignalspeed x [x0, y]).vsig = max x.cs y.cs ∧ (computeSignalspeed x [y, x0]).vsig = max x.cs y.cs := by
    intro x y h1 h2 h3 h4 x0 h5
    simp only [computeSignalspeed, List.foldl_cons, List.foldl_nil, h5, if_true, if_neg h3, hdist x y h1 h2, min_self, sub_zero]
    have := max_eq_right (h4.trans (le_max_right x.cs y.cs))
    exact ⟨this, this⟩
  -- the viscosity decays with the signal speed
  have hα : ∀ (x : Particle 1) (l : List (Particle 1)), x.h = 1 → x.alpha = 1 → x.ddivvdt = 0 → 0 < (computeSignalspeed x l).vsig →
      Cullen.computeAlpha p ⟨z.alphaMax, z.delta, z.l, 1⟩ x l = some { x with alpha := Real.exp (-(2 * (computeSignalspeed x l).vsig)) } := by
    intro x l h1 h2 h3 h4
    have ht : Cullen.aTrigger p x l = 0 := by rw [Cullen.aTrigger, h3]; simp
    have hz : z.delta = 1 ∧ z.l = 1 := ⟨rfl, rfl⟩
    simp only [Cullen.computeAlpha, ht, h1, h2, hz.1, hz.2]
    have hv := h4.ne'
    rw [if_neg (by positivity), mul_zero, zero_div, if_neg (by norm_num), if_neg hv]
    congr 3
    field_simp
    ring
  have hne : b.pos ≠ a.pos := fun h => by have := congrFun h 0; norm_num [a, b] at this
  have h2 : (0 : ℝ) < √2 := by positivity
  have h25 : √2 < 5 := by rw [Real.sqrt_lt' (by norm_num)]; norm_num
  -- the three steps before the tree is built change nothing
  have hkick : ∀ k, kickV 1 (s k) = s k ∧ saveVelocityhalf (s k) = s k ∧ drift 1 (s k) = s k := by
    intro k
    match k with
    | 0 => refine ⟨?_, rfl, ?_⟩ <;> simp [s, a, kickV, drift]
    | 1 => refine ⟨?_, rfl, ?_⟩ <;> simp [s, b, kickV, drift]
  have hops : iterationOps z c = .all (fun a => some (kickV 1 a)) :: .all (fun a => some (saveVelocityhalf a)) :: .all (fun a => some (drift 1 a)) :: .update :: densityOp z 1 ::
      .pass 1 (Cullen.computeAlpha p ⟨z.alphaMax, z.delta, z.l, 1⟩) ::
      (forceOps z c.iteration ++ ([.all fun a => some (kickV c.dt a), .reset] ++ ((if z.evolve then energyOps z c.dt c.iteration z.updates else []) ++ (kickOps z c.dt ++ lastOps z)))) := by
    have h0 : ¬ c.iteration = z.initialIteration := by show ¬ (1 : Int) = 0; norm_num
    have hk : kickOps z 1 = [] := rfl
    unfold iterationOps
    rw [if_neg h0]
    show (kickOps z 1 ++ _ ++ alphaOps z 1 ++ _ ++ _ ++ _ ++ _) ++ _ = _
    simp only [hk, List.nil_append, List.append_assoc, List.cons_append]
    rfl
  -- an iteration, given the values of the first two passes
  have hrun : ∀ (procs : Nat) (home : Fin 2 → Nat), (∀ a, home a < procs) → ∀ d1 d2 : DState (Particle 1) 2,
      DPass home f (fun _ => [0, 1]) [0, 1] (fresh ⟨s, fun _ _ => none, []⟩) (some d1) →
      DPass home (Cullen.computeAlpha p ⟨z.alphaMax, z.delta, z.l, 1⟩) (fun _ => [0, 1]) [0, 1] d1 (some d2) → (∀ a, 0 ≤ (d2.val a).rho ∧ 0 ≤ (d2.val a).P) →
      ∃ r, DRun NearLists procs z 1 c home ⟨s, fun _ _ => none, []⟩ (some r) ∧ (r.2 0).alpha = (d2.val 0).alpha := by
    intro procs home hh d1 d2 p1 p2 hpos
    obtain ⟨d3, h3, h4⟩ := tail_exec z rfl rfl c (by show ¬ (1 : Int) < 0; norm_num) (procs := procs) home d2 hpos
    have hnear : ∀ s : Fin 2 → Particle 1, NearLists s (fun _ => [0, 1]) := fun s => ⟨fun _ => by decide, fun _ b _ => by fin_cases b <;> simp⟩
    have hall : ∀ a : Fin 2, a ∈ ([0, 1] : List (Fin 2)) := by decide
    refine ⟨_, .cons (home' := home) (d' := d3) ?_ .nil, h4 0⟩
    rw [hops]
    refine .all s (fun k => by rw [(hkick k).1]) (.all s (fun k => by rw [(hkick k).2.1]) (.all s (fun k => by rw [(hkick k).2.2]) ?_))
    exact .update hh (fresh_rebuilt _) (.pass _ [0, 1] (hnear _) (by decide) hall p1 (.pass _ [0, 1] (hnear _) (by decide) hall p2 h3))
  obtain ⟨a1, ha1, ca1, ma1, ja1, pa1, va1, la1, ra1, qa1, ta1⟩ := hf a [a, b] ⟨a, by simp, rfl⟩ (by simp [a, b]) one_pos (by simp [a, b]) rfl rfl rfl
  obtain ⟨b1, hb1, cb1, mb1, jb1, pb1, vb1, lb1, rb1, qb1, tb1⟩ := hf b [a1, b] ⟨b, by simp, rfl⟩ (by simp [ma1]; simp [a, b]) one_pos (by simp [ja1]; simp [a, b]) rfl rfl rfl
  obtain ⟨b1', hb1', cb1', mb1', jb1', pb1', vb1', lb1', rb1', qb1', tb1'⟩ := hf b [a, b] ⟨b, by simp, rfl⟩ (by simp [a, b]) one_pos (by simp [a, b]) rfl rfl rfl
  have ea : a.pos ≠ b.pos := Ne.symm hne
  -- one process
  have g1 := (hsig a1 b1 va1 vb1 (by rw [pb1, pa1]; exact hne) (by rw [cb1]; exact h2.le) a1 rfl).1
  rw [ca1, cb1, max_self] at g1
  have ka := hα a1 [a1, b1] ja1 la1 ta1 (by rw [g1]; exact h2)
  rw [g1] at ka
  obtain ⟨a2, ha2⟩ : ∃ a2 : Particle 1, a2 = { a1 with alpha := Real.exp (-(2 * √2)) } := ⟨_, rfl⟩
  rw [← ha2] at ka
  have g2 := (hsig b1 a2 vb1 (by rw [ha2]; exact va1) (by rw [ha2, pb1]; show a1.pos ≠ _; rw [pa1]; exact ea) (by rw [ha2]; show 0 ≤ a1.cs; rw [ca1]; exact h2.le) b1 rfl).2
  have kb := hα b1 [a2, b1] jb1 lb1 tb1 (by rw [g2, cb1]; exact h2.trans_le (le_max_left _ _))
  -- two processes
  have g3 := (hsig a1 b va1 rfl (by rw [pa1]; exact hne) (by norm_num [b]) a1 rfl).1
  rw [ca1, max_eq_right h25.le] at g3
  have ka' := hα a1 [a1, b] ja1 la1 ta1 (by rw [g3]; norm_num [b])
  rw [g3] at ka'
  have g4 := (hsig b1' a vb1' rfl (by rw [pb1']; exact ea) (by norm_num [a]) b1' rfl).2
  have kb' := hα b1' [a, b1'] jb1' lb1' tb1' (by rw [g4, cb1']; exact h2.trans_le (le_max_left _ _))
  obtain ⟨r, hr, er⟩ := hrun 1 (fun _ => 0) (fun _ => Nat.one_pos) (((fresh ⟨s, fun _ _ => none, []⟩).put 0 a1).put 1 b1) (((((fresh ⟨s, fun _ _ => none, []⟩).put 0 a1).put 1 b1).put 0 a2).put 1 _)
    (.visit [] [1] 0 [a, b] a1 rfl ha1 (.visit [] [] 1 [a1, b] b1 rfl hb1 (.done rfl)))
    (.visit [] [1] 0 [a1, b1] a2 rfl ka (.visit [] [] 1 [a2, b1] _ rfl kb (.done rfl)))
    (fun k => by
      match k with
      | 0 => show 0 ≤ a2.rho ∧ 0 ≤ a2.P; rw [ha2]; exact ⟨ra1, qa1⟩
      | 1 => exact ⟨rb1, qb1⟩)
  obtain ⟨r', hr', er'⟩ := hrun 2 (fun a => a.val) (fun a => a.isLt) (((fresh ⟨s, fun _ _ => none, []⟩).put 0 a1).put 1 b1') (((((fresh ⟨s, fun _ _ => none, []⟩).put 0 a1).put 1 b1').put 0 _).put 1 _)
    (.visit [] [1] 0 [a, b] a1 rfl ha1 (.visit [] [] 1 [a, b] b1' rfl hb1' (.done rfl)))
    (.visit [] [1] 0 [a1, b] _ rfl ka' (.visit [] [] 1 [a, b1'] _ rfl kb' (.done rfl)))
    (fun k => by
      match k with
      | 0 => exact ⟨ra1, qa1⟩
      | 1 => exact ⟨rb1', qb1'⟩)
  refine ⟨z, c, s, r, r', rfl, one_pos, one_pos, fun k => ?_, hr, hr', ?_⟩
  · match k with
    | 0 => exact ⟨one_pos, one_pos, one_pos⟩
    | 1 => exact ⟨one_pos, one_pos, one_pos⟩
  · rw [er, er']
    show a2.alpha ≠ Real.exp (-(2 * 5))
    rw [ha2]
    show Real.exp (-(2 * √2)) ≠ Real.exp (-(2 * 5))
    intro h
    have := Real.exp_injective h
    linarith

end FleCSPH.DistRun
