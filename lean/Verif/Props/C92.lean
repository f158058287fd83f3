import Verif.Lemmas.WvtRun
import Verif.Props.C64
import Verif.Props.C91
/-!
C92: a whole relaxation run, with the particles: it ends; the particles never leave the sphere and keep their numbers and masses; the outputs on the way carry the densities summed over the
neighbours and the forces at the particles' own places, the final one the density of the profile and the smoothing length that belongs to it; between two outputs each particle moves by the step size
times its acceleration; the run stops when few enough particles move; particles in equilibrium stay where they are.
-/
namespace FleCSPH
open Wvt Geometry Kernels Spec
open FleCSPH.Sph (Particle)

section
variable {i : Fin 3} {n : Nat} {S : Setup} {M ρ H : ℝ} {N : Nat}

/-- The run ends, and however much fuel is given the outcome is the same; iterations are consecutive, the last one, and no other, resets the density, and is written. -/
theorem C92_ends_partial (hS : Meaningful S i M ρ H N) (w : Search i n) (hw : Searches w N) (hn : 0 < n) (s : Fin n → Particle (i + 1)) (hs : InSphere S M H s) :
    ∃ log fuel0 steps0, (∀ fuel steps, fuel0 ≤ fuel → steps0 ≤ steps → relaxation S w fuel steps S.run.initial false s = some log) ∧ log ≠ [] ∧
      (∀ j (hj : j < log.length), log[j].1.iteration = S.run.initial + j) ∧ S.run.initial + (log.length : Int) - 1 ≤ S.run.final + S.run.coolDown ∧
      (∀ j (hj : j < log.length), log[j].1.reset = true ↔ j + 1 = log.length) ∧ (∀ j (hj : j < log.length), j + 1 = log.length → log[j].1.snapshot = true) := by
  obtain ⟨f, hf⟩ := enough S.mu
  obtain ⟨tr, h1, h2, h3, h4, h5⟩ := run_ok hS hw hn f hf (S.run.final + S.run.coolDown - S.run.initial).toNat S.run.initial s le_rfl (by have := hS.ends; omega) hs
    fun h0 => absurd rfl h0
  refine ⟨tr, f + 1, _, h1, h2, fun j hj => ?_, h3, h5, fun j hj hl => ?_⟩
  · obtain ⟨t, c, -, -, -, h, -⟩ := h4 j hj
    exact h
  · obtain ⟨t, c, -, -, -, -, -, h, -⟩ := h4 j hj
    exact h ((h5 j hj).2 hl)

/-- Numbers and masses of the particles stay, the particles stay in the sphere and their smoothing lengths positive and bounded, at every iteration. -/
theorem C92_inside_partial (hS : Meaningful S i M ρ H N) (w : Search i n) (hw : Searches w N) (hn : 0 < n) (s : Fin n → Particle (i + 1)) (hs : InSphere S M H s) (fuel steps : Nat)
    (log : List (Record × (Fin n → Particle (i + 1)))) (h : relaxation S w fuel steps S.run.initial false s = some log) :
    ∀ p ∈ log, ∀ a, length (p.2 a).pos ≤ S.forces.radius ∧ (p.2 a).id = (s a).id ∧ (p.2 a).mass = (s a).mass ∧ 0 < (p.2 a).h ∧ (p.2 a).h ≤ H := by
  obtain ⟨f, -, -, h4, -⟩ := run_links hS hw hn hs h
  have key : ∀ l (hl : l < log.length), ∀ a, (log[l].2 a).id = (s a).id ∧ (log[l].2 a).mass = (s a).mass := by
    intro l
    induction l with
    | zero => exact fun hl => ((h4 0 hl).inSphere hS).2.1
    | succ l ih =>
      intro hl a
      have hl' : l < log.length := by omega
      have h5 := ((h4 (l + 1) hl).inSphere hS).2.1 a
      have hb : before s log (l + 1) = log[l].2 := by simp [before, List.getElem?_eq_getElem hl']
      rw [hb] at h5
      exact ⟨h5.1.trans (ih hl' a).1, h5.2.trans (ih hl' a).2⟩
  intro p hp a
  obtain ⟨l, hl, rfl⟩ := List.mem_iff_getElem.1 hp
  have h5 := ((h4 l hl).inSphere hS).1
  exact ⟨h5.inside a, (key l hl a).1, (key l hl a).2, h5.h a⟩

/-- Before the last iteration the density of a particle is the kernel sum over its neighbours and its acceleration the force at its place, with all particles as they are in the output. -/
theorem C92_density (hS : Meaningful S i M ρ H N) (w : Search i n) (hw : Searches w N) (hn : 0 < n) (s : Fin n → Particle (i + 1)) (hs : InSphere S M H s) (fuel steps : Nat)
    (log : List (Record × (Fin n → Particle (i + 1)))) (h : relaxation S w fuel steps S.run.initial false s = some log) (j : Nat) (hj : j + 1 < log.length) (a : Fin n) :
    (log[j].2 a).rho = kernelSum S.forces.kernel log[j].2 (w.lists log[j].2 a) a ∧
      wvtForce S.forces i (log[j].2 a) ((w.lists log[j].2 a).map log[j].2) = some (log[j].2 a).acc := by
  obtain ⟨f, -, -, h4, h5⟩ := run_links hS hw hn hs h
  have hl : j < log.length := by omega
  have hr : log[j].1.reset = false := by
    rw [← Bool.not_eq_true, h5 j hl]
    omega
  exact (((h4 j hl).inSphere hS).2.2.1 hr).2.2 a

/-- The particles written at the end have the density of the profile at their distance from the centre, and the smoothing length η w (m/ρ)^(1/d). -/
theorem C92_final (hS : Meaningful S i M ρ H N) (w : Search i n) (hw : Searches w N) (hn : 0 < n) (s : Fin n → Particle (i + 1)) (hs : InSphere S M H s) (fuel steps : Nat)
    (log : List (Record × (Fin n → Particle (i + 1)))) (h : relaxation S w fuel steps S.run.initial false s = some log) (j : Nat) (hj : j < log.length) (hlast : j + 1 = log.length) (a : Fin n) :
    (log[j].2 a).rho = S.profile.rho0 * (S.profile.shape (length (log[j].2 a).pos / S.profile.radius) / S.profile.shape 0) ∧
      (log[j].2 a).h = S.profile.eta * kernelWidth S.forces.kernel * ((log[j].2 a).mass / (log[j].2 a).rho) ^ ((1 : ℝ) / ((i : ℝ) + 1)) := by
  obtain ⟨f, -, -, h4, h5⟩ := run_links hS hw hn hs h
  obtain ⟨e1, e2⟩ := ((h4 j hj).inSphere hS).2.2.2 ((h5 j hj).2 hlast) a
  refine ⟨?_, e2⟩
  rw [e1]
  unfold Profile.density
  ring

/-- The positions a record shows are those at the end of its iteration. -/
theorem Wvt.Link.pos_acc {w : Search i n} {fuel : Nat} {k : Int} {s : Fin n → Particle (i + 1)} {p : Record × (Fin n → Particle (i + 1))} (hS : Meaningful S i M ρ H N)
    (h : Link S M H N w fuel k s p) : ∃ t c, Settled S M H N w t ∧ Moved S fuel k s t ∧ converged S k t false = some c ∧
      p.1.reset = (c || decide (k = S.run.final + S.run.coolDown)) ∧ (∀ a, (p.2 a).pos = (t a).pos ∧ (p.2 a).acc = (t a).acc ∧ (p.2 a).mass = (t a).mass) ∧ (p.1.reset = false → p.2 = t) := by
  obtain ⟨t, c, h1, h2, h3, h4, h5, h6, h7, h8⟩ := h
  refine ⟨t, c, h1, h2, h3, h5, fun a => ?_, h7⟩
  cases hr : p.1.reset with
  | false => rw [h7 hr]; exact ⟨rfl, rfl, rfl⟩
  | true =>
    have h9 := (Driver.applyAllM_iff _ _ _).mp (h8 hr) a
    unfold wvtSetDensity at h9
    split at h9
    · cases h9
    · rw [← Option.some_inj.1 h9]
      exact ⟨rfl, rfl, rfl⟩

/-- The first output shows the particles where they were given. -/
theorem C92_first (hS : Meaningful S i M ρ H N) (w : Search i n) (hw : Searches w N) (hn : 0 < n) (s : Fin n → Particle (i + 1)) (hs : InSphere S M H s) (fuel steps : Nat)
    (log : List (Record × (Fin n → Particle (i + 1)))) (h : relaxation S w fuel steps S.run.initial false s = some log) : ∃ p ∈ log.head?, ∀ a, (p.2 a).pos = (s a).pos := by
  obtain ⟨f, h2, -, h4, -⟩ := run_links hS hw hn hs h
  have hl : 0 < log.length := List.length_pos_iff.2 h2
  obtain ⟨t, c, -, m, -, -, e, -⟩ := (h4 0 hl).pos_acc hS
  refine ⟨log[0], by rw [List.head?_eq_getElem?, List.getElem?_eq_getElem hl]; rfl, fun a => ?_⟩
  rw [(e a).1]
  exact (m.2.1 (by simp) a).1

/-- Between two outputs a particle whose step ends in the sphere moves by the step size times its acceleration; the step size is the parameter, and in the cool down it falls
linearly from a tenth of the parameter to zero. -/
theorem C92_moves_partial (hS : Meaningful S i M ρ H N) (w : Search i n) (hw : Searches w N) (hn : 0 < n) (s : Fin n → Particle (i + 1)) (hs : InSphere S M H s) (fuel steps : Nat)
    (log : List (Record × (Fin n → Particle (i + 1)))) (h : relaxation S w fuel steps S.run.initial false s = some log) (j : Nat) (hj : j + 1 < log.length) :
    ∃ m : ℝ, (S.run.initial + (j + 1 : Nat) ≤ S.run.final → m = S.mu) ∧
      (S.run.final < S.run.initial + (j + 1 : Nat) → m = 1 / 10 * S.mu * (1 - ((S.run.initial + (j + 1 : Nat) - S.run.final : Int) : ℝ) / (S.run.coolDown : ℝ))) ∧
      ∀ a, length (fun k => (log[j].2 a).pos k + m * (log[j].2 a).acc k) < S.forces.radius →
        (log[j + 1].2 a).pos = fun k => (log[j].2 a).pos k + m * (log[j].2 a).acc k := by
  obtain ⟨f, h2, h3, h4, h5⟩ := run_links hS hw hn hs h
  have hl : j < log.length := by omega
  obtain ⟨t, c, -, mv, -, -, e, -⟩ := (h4 (j + 1) hj).pos_acc hS
  have hb : before s log (j + 1) = log[j].2 := by simp [before, List.getElem?_eq_getElem hl]
  rw [hb] at mv
  obtain ⟨m, hm, hd⟩ := mv.2.2 (by push_cast; omega)
  refine ⟨m, fun hle => ?_, fun hlt => ?_, fun a ha => ?_⟩
  · unfold stepSize at hm
    rw [if_neg (by omega)] at hm
    exact (Option.some_inj.1 hm).symm
  · have hc := C64_cool_down S.mu hS.mu S.run.final S.run.coolDown (S.run.initial + (j + 1 : Nat) - S.run.final) (by omega) (by omega)
    rw [show S.run.final + (S.run.initial + ((j + 1 : Nat) : Int) - S.run.final) = S.run.initial + ((j + 1 : Nat) : Int) by ring, hm] at hc
    exact Option.some_inj.1 hc
  · have hsh : shrink S.forces.radius (log[j].2 a).pos (log[j].2 a).acc (f + 1) m = some m := by
      unfold shrink
      rw [if_neg]
      rintro ⟨h6, -⟩
      rw [length_eq] at ha
      have h7 : mag (moved (log[j].2 a).pos (log[j].2 a).acc m) / S.forces.radius < 1 := (div_lt_one hS.radius).2 ha
      linarith
    have h8 := (displace_eq i S.forces.radius hS.radius _ _ m (f + 1) m hsh).1 (by rw [length_eq] at ha; exact ha)
    rw [(hd a).1] at h8
    rw [(e a).1]
    exact Option.some_inj.1 h8

/-- With fixed rules for the smoothing length, after each move it is η w (m/ρ)^(1/d) for the profile's density where the particle is now. -/
theorem C92_lengths_partial (hS : Meaningful S i M ρ H N) (w : Search i n) (hw : Searches w N) (hn : 0 < n) (s : Fin n → Particle (i + 1)) (hs : InSphere S M H s) (fuel steps : Nat)
    (hv : S.variableH = false) (hb : S.profile.byNeighbours = false)
    (log : List (Record × (Fin n → Particle (i + 1)))) (h : relaxation S w fuel steps S.run.initial false s = some log) (j : Nat) (hj : j + 1 < log.length) (a : Fin n) :
    (log[j + 1].2 a).h = S.profile.eta * kernelWidth S.forces.kernel *
      ((s a).mass / (S.profile.rho0 / S.profile.shape 0 * S.profile.shape (length (log[j + 1].2 a).pos / S.profile.radius))) ^ ((1 : ℝ) / ((i : ℝ) + 1)) := by
  have hin := C92_inside_partial hS w hw hn s hs fuel steps log h
  obtain ⟨f, h2, h3, h4, h5⟩ := run_links hS hw hn hs h
  cases hr : log[j + 1].1.reset with
  | true =>
    obtain ⟨e1, e2⟩ := ((h4 (j + 1) hj).inSphere hS).2.2.2 hr a
    rw [e2, e1, (hin _ (List.getElem_mem hj) a).2.2.1]
    rfl
  | false =>
    have hl : j < log.length := by omega
    obtain ⟨t, c, -, mv, -, -, e, e'⟩ := (h4 (j + 1) hj).pos_acc hS
    obtain ⟨m, hm, hd⟩ := mv.2.2 (by push_cast; omega)
    have h6 := (hd a).2 hv
    have hbe : before s log (j + 1) = log[j].2 := by simp [before, List.getElem?_eq_getElem hl]
    have hpos : ρ ≤ S.profile.density (length (t a).pos) := by
      rw [← (e a).1]
      exact hS.density _ (length_nonneg _) (hin _ (List.getElem_mem hj) a).1
    have h0 := hS.rho
    unfold newLength at h6
    rw [if_neg (by linarith), if_neg (by rw [hb]; simp), hbe, (hin _ (List.getElem_mem hl) a).2.2.1] at h6
    rw [e' hr, h6]
    rfl

open Classical in
/-- With the same rules a relaxation step ends the run exactly when less than the wanted percentage of the particles still moves by more than a thousandth of its spacing (or it is the last allowed). -/
theorem C92_stop_partial (hS : Meaningful S i M ρ H N) (w : Search i n) (hw : Searches w N) (hn : 0 < n) (s : Fin n → Particle (i + 1)) (hs : InSphere S M H s) (fuel steps : Nat)
    (hv : S.variableH = false) (hb : S.profile.byNeighbours = false) (hcheck : S.run.check = true)
    (log : List (Record × (Fin n → Particle (i + 1)))) (h : relaxation S w fuel steps S.run.initial false s = some log) (j : Nat) (hj : j + 1 < log.length)
    (hf : S.run.initial + (j + 1 : Nat) ≤ S.run.final) :
    j + 2 = log.length ↔ 100 * (((List.finRange n).filter fun a => decide (Moves i S.mu S.profile.ngb ((log[j + 1].2 a).acc, (log[j + 1].2 a).h))).length : ℝ) < S.point * n ∨
      S.run.initial + (j + 1 : Nat) = S.run.final + S.run.coolDown := by
  have hlen := C92_lengths_partial hS w hw hn s hs fuel steps hv hb log h j hj
  have hin := C92_inside_partial hS w hw hn s hs fuel steps log h
  obtain ⟨f, h2, h3, h4, h5⟩ := run_links hS hw hn hs h
  have hl : j < log.length := by omega
  obtain ⟨t, c, -, mv, hc, hr, e, e'⟩ := (h4 (j + 1) hj).pos_acc hS
  obtain ⟨m, hm, hd⟩ := mv.2.2 (by push_cast; omega)
  have hbe : before s log (j + 1) = log[j].2 := by simp [before, List.getElem?_eq_getElem hl]
  have hth : ∀ a, (log[j + 1].2 a).h = (t a).h := fun a => by
    have h6 := (hd a).2 hv
    have hpos : ρ ≤ S.profile.density (length (t a).pos) := by
      rw [← (e a).1]
      exact hS.density _ (length_nonneg _) (hin _ (List.getElem_mem hj) a).1
    have h0 := hS.rho
    unfold newLength at h6
    rw [if_neg (by linarith), if_neg (by rw [hb]; simp), hbe, (hin _ (List.getElem_mem hl) a).2.2.1, ← (e a).1] at h6
    rw [hlen a, h6]
    rfl
  unfold converged at hc
  rw [if_pos ⟨by unfold Run.step; rw [if_neg (by push_cast; omega), if_pos hf], by push_cast; omega, hcheck⟩] at hc
  obtain ⟨l, hldef⟩ : ∃ l, l = List.ofFn fun a => ((t a).acc, (t a).h) := ⟨_, rfl⟩
  obtain ⟨c', hc', hiff⟩ := C64_convergence i S.mu S.profile.ngb S.point hS.ngb [l] l (by simp) (by rw [hldef]; intro h0; have := congrArg List.length h0; simp at this; omega) false
  rw [← hldef, hc'] at hc
  obtain rfl := Option.some_inj.1 hc
  have hcount : (l.filter fun q => decide (Moves i S.mu S.profile.ngb q)).length =
      ((List.finRange n).filter fun a => decide (Moves i S.mu S.profile.ngb ((log[j + 1].2 a).acc, (log[j + 1].2 a).h))).length := by
    rw [hldef, List.ofFn_eq_map, List.filter_map, List.length_map]
    congr 1
    refine List.filter_congr fun a _ => ?_
    simp only [Function.comp_apply, (e a).2.1, hth a]
  have hll : l.length = n := by rw [hldef, List.length_ofFn]
  rw [hcount, hll] at hiff
  rw [← h5 (j + 1) hj, hr, Bool.or_eq_true, decide_eq_true_eq, hiff]
  simp

/-- Particles on which no force acts, with the smoothing lengths of the profile, are in equilibrium: they stay where they are, and the run finds that they do at its first relaxation step. -/
theorem C92_equilibrium (hS : Meaningful S i M ρ H N) (w : Search i n) (hw : Searches w N) (hn : 0 < n) (s : Fin n → Particle (i + 1)) (hs : InSphere S M H s) (fuel steps : Nat)
    (hlt : ∀ a, length (s a).pos < S.forces.radius) (hv : S.variableH = false) (hh : ∀ a, (s a).h = newLength S.profile S.forces.kernel i (s a).mass (S.profile.density (length (s a).pos)))
    (hzero : ∀ a, wvtForce S.forces i (s a) ((w.lists s a).map s) = some 0)
    (log : List (Record × (Fin n → Particle (i + 1)))) (h : relaxation S w fuel steps S.run.initial false s = some log) :
    (∀ p ∈ log, ∀ a, (p.2 a).pos = (s a).pos) ∧ (S.run.check = true → 0 < S.point → S.run.initial + 1 ≤ S.run.final → 0 ≤ S.run.coolDown → log.length = 2) := by
  have hin := C92_inside_partial hS w hw hn s hs fuel steps log h
  obtain ⟨f, h2, h3, h4, h5⟩ := run_links hS hw hn hs h
  have still : ∀ (m : ℝ) (x q : Point (i + 1)), length x < S.forces.radius → displace i S.forces.radius x 0 m (f + 1) = some q → q = x := by
    intro m x q hx hq
    have hmv : moved x 0 m = x := by funext k; simp [moved]
    have hsh : shrink S.forces.radius x 0 (f + 1) m = some m := by
      unfold shrink
      rw [if_neg]
      rintro ⟨h6, -⟩
      rw [hmv, ← length_eq] at h6
      have := (div_lt_one hS.radius).2 hx
      linarith
    have h8 := (displace_eq i S.forces.radius hS.radius x 0 m (f + 1) m hsh).1 (by rw [hmv, ← length_eq]; exact hx)
    rw [hq, hmv] at h8
    exact Option.some_inj.1 h8
  have step : ∀ l (hl : l < log.length), ∃ t c, Settled S M H N w t ∧ converged S (S.run.initial + l) t false = some c ∧ log[l].1.reset = (c || decide (S.run.initial + l = S.run.final + S.run.coolDown)) ∧
      (∀ a, (log[l].2 a).pos = (s a).pos) ∧ (∀ a, (t a).acc = 0) ∧ (log[l].1.reset = false → ∀ a, (log[l].2 a).acc = 0) := by
    intro l
    induction l with
    | zero =>
      intro hl
      obtain ⟨t, c, st, mv, hc, hr, e, e'⟩ := (h4 0 hl).pos_acc hS
      have hph := mv.2.1 (by simp)
      have hacc : ∀ a, (t a).acc = 0 := fun a => by
        have h6 := (st.2.2 a).2
        rw [hw.same t s fun b => hph b, wvtForce_congr _ fun b => hph b, before, hzero a] at h6
        exact (Option.some_inj.1 h6).symm
      exact ⟨t, c, st, hc, hr, fun a => (e a).1.trans (hph a).1, hacc, fun h0 a => (e a).2.1.trans (hacc a)⟩
    | succ l ih =>
      intro hl
      have hl' : l < log.length := by omega
      obtain ⟨-, -, -, -, -, i1, -, i2⟩ := ih hl'
      have hr0 : log[l].1.reset = false := by
        rw [← Bool.not_eq_true, h5 l hl']
        omega
      obtain ⟨t, c, st, mv, hc, hr, e, e'⟩ := (h4 (l + 1) hl).pos_acc hS
      have hb : before s log (l + 1) = log[l].2 := by simp [before, List.getElem?_eq_getElem hl']
      rw [hb] at mv
      obtain ⟨m, hm, hd⟩ := mv.2.2 (by push_cast; omega)
      have hph : ∀ a, (t a).pos = (s a).pos ∧ (t a).h = (s a).h := fun a => by
        have h6 := (hd a).1
        rw [i2 hr0 a, i1 a] at h6
        have h7 := still m _ _ (hlt a) h6
        refine ⟨h7, ?_⟩
        rw [(hd a).2 hv, h7, (hin _ (List.getElem_mem hl') a).2.2.1, ← hh a]
      have hacc : ∀ a, (t a).acc = 0 := fun a => by
        have h6 := (st.2.2 a).2
        rw [hw.same t s fun b => hph b, wvtForce_congr _ fun b => hph b, hzero a] at h6
        exact (Option.some_inj.1 h6).symm
      exact ⟨t, c, st, hc, hr, fun a => (e a).1.trans (hph a).1, hacc, fun h0 a => (e a).2.1.trans (hacc a)⟩
  refine ⟨fun p hp a => ?_, fun hcheck hpoint hini hcool => ?_⟩
  · obtain ⟨l, hl, rfl⟩ := List.mem_iff_getElem.1 hp
    obtain ⟨-, -, -, -, -, i1, -⟩ := step l hl
    exact i1 a
  · have hl0 : 0 < log.length := List.length_pos_iff.2 h2
    have h1len : 1 < log.length := by
      by_contra hle
      obtain ⟨t, c, -, hc, hr, -⟩ := step 0 hl0
      have hr1 := (h5 0 hl0).2 (by omega)
      unfold converged at hc
      rw [if_neg (by simp)] at hc
      obtain rfl := Option.some_inj.1 hc
      rw [hr1, decide_eq_false (by push_cast; omega)] at hr
      cases hr
    obtain ⟨t, c, st, hc, hr, -, hacc, -⟩ := step 1 h1len
    have hct : c = true := by
      unfold converged at hc
      rw [if_pos ⟨by unfold Run.step; rw [if_neg (by push_cast; omega), if_pos (by push_cast; omega)], by push_cast; omega, hcheck⟩] at hc
      classical
      obtain ⟨ll, hldef⟩ : ∃ l, l = List.ofFn fun a => ((t a).acc, (t a).h) := ⟨_, rfl⟩
      have hll : ll.length = n := by rw [hldef, List.length_ofFn]
      obtain ⟨c', hc', hiff⟩ := C64_convergence i S.mu S.profile.ngb S.point hS.ngb [ll] ll (by simp) (by intro h0; rw [h0] at hll; simp at hll; omega) false
      rw [← hldef, hc'] at hc
      obtain rfl := Option.some_inj.1 hc
      refine hiff.2 (Or.inr ?_)
      have hnil : (ll.filter fun q => decide (Moves i S.mu S.profile.ngb q)) = [] := by
        rw [List.filter_eq_nil_iff]
        intro q hq
        rw [hldef, List.mem_ofFn] at hq
        obtain ⟨a, rfl⟩ := hq
        rw [decide_eq_true_eq]
        unfold Moves
        have hsp : 0 < (1 / S.profile.ngb) ^ ((1 : ℝ) / (i + 1 : ℕ)) := Real.rpow_pos_of_pos (one_div_pos.2 hS.ngb) _
        have := mul_pos hsp (st.1.h a).1
        simp only [hacc a, Pi.zero_apply, mul_zero, ne_eq, OfNat.ofNat_ne_zero, not_false_eq_true, zero_pow, Finset.sum_const_zero, Real.sqrt_zero]
        linarith
      rw [hnil, hll]
      have : (0 : ℝ) < n := by exact_mod_cast hn
      simp
      positivity
    rw [hct, Bool.true_or] at hr
    have := (h5 1 h1len).1 hr
    omega

end

/-- The smoothing length a step of the relaxation sets, wherever the particle comes to rest: in the vacuum of the profile it is the radius of the sphere; elsewhere a ball with this radius and the density of
the profile has `wvt_ngb` times the mass of the particle, or, without `wvt_h_ngb`, the cube with the side `h` divided by `sph_eta` and by the width of the kernel has the mass of the particle. -/
theorem C92_length {i : Fin 3} (f : Profile) (κ : Kernel) (b mu : ℝ) (fuel : Nat) (a x : Particle (i + 1)) (hm : 0 ≤ a.mass) (he : 0 < f.eta * kernelWidth κ) (hn : 0 ≤ f.ngb)
    (h : wvtDisplacement f κ i b mu fuel a = some x) (rho : ℝ) (hr : rho = f.rho0 / f.shape 0 * f.shape (length x.pos / f.radius)) :
    x.id = a.id ∧ x.mass = a.mass ∧ x.rho = rho ∧ (rho = 0 → x.h = f.radius) ∧
    (0 < rho → f.byNeighbours = true → 0 ≤ x.h ∧ 
      (i = 0 → rho * (2 * x.h) = f.ngb * a.mass) ∧ (i = 1 → rho * (Real.pi * x.h ^ 2) = f.ngb * a.mass) ∧ (i = 2 → rho * (4 / 3 * Real.pi * x.h ^ 3) = f.ngb * a.mass)) ∧
    (0 < rho → f.byNeighbours = false → 0 ≤ x.h ∧ rho * (x.h / (f.eta * kernelWidth κ)) ^ (i.val + 1) = a.mass) := by
  unfold wvtDisplacement at h
  obtain ⟨q, -, h⟩ := Option.bind_eq_some_iff.1 h
  split_ifs at h
  obtain rfl := Option.some.inj h
  have e : f.density (mag q) = rho := by rw [hr, ← length_eq]; rfl
  dsimp only
  rw [e]
  have hpi := Real.pi_pos
  have cube : ∀ (y : ℝ), 0 ≤ y → (y ^ ((1 : ℝ) / 3)) ^ 3 = y := fun y hy => by rw [← Real.rpow_natCast, ← Real.rpow_mul hy]; norm_num
  refine ⟨rfl, rfl, rfl, fun h0 => by rw [newLength, if_pos h0], fun hp hb => ?_, fun hp hb => ?_⟩
  · rw [newLength, if_neg hp.ne', if_pos hb]
    have h1 : 0 ≤ f.ngb * a.mass := mul_nonneg hn hm
    refine ⟨?_, ?_, ?_, ?_⟩
    · fin_cases i <;> simp only [byNumber] <;> positivity
    · rintro rfl
      show rho * (2 * (f.ngb * a.mass / (2 * rho))) = _
      field_simp
    · rintro rfl
      show rho * (Real.pi * √(f.ngb * a.mass / (Real.pi * rho)) ^ 2) = _
      rw [Real.sq_sqrt (by positivity)]
      field_simp
    · rintro rfl
      show rho * (4 / 3 * Real.pi * ((f.ngb * a.mass / (4 * Real.pi * rho / 3)) ^ ((1 : ℝ) / 3)) ^ 3) = _
      rw [cube _ (by positivity)]
      field_simp
  · rw [newLength, if_neg hp.ne', if_neg (by rw [hb]; simp)]
    unfold byMass
    refine ⟨by positivity, ?_⟩
    rw [mul_div_cancel_left₀ _ he.ne', ← Real.rpow_natCast, ← Real.rpow_mul (by positivity),
      show (1 : ℝ) / ((i : ℝ) + 1) * ((i.val + 1 : ℕ) : ℝ) = 1 by push_cast; field_simp, Real.rpow_one]
    field_simp

section examples

/-- Particles on a line in a sphere of radius 1, of density 1 in the middle. -/
noncomputable def Wvt.onLine (shape : ℝ → ℝ) (byNumber : Bool) (final : Int) : Setup :=
  ⟨⟨.diehl, .open, .wendlandC2, 1⟩, ⟨shape, 1, 1, 1, 5, byNumber⟩, ⟨0, final, 0, 1, true⟩, 1 / 100, false, 10⟩

/-- A particle of mass 1/10 with smoothing length `h` at `x`. -/
noncomputable def Wvt.at1 (x h : ℝ) : Particle ((0 : Fin 3) + 1) := ⟨7, 1 / 10, h, fun _ => x, 0, 0, 0, 0, 0, 1, 0, 0, 0, 0, 0, 0, 0, 0, 0, 0, 0, 0, 0⟩

/-- Every particle is a neighbour of every other. -/
def Wvt.everyone (i : Fin 3) (n : Nat) : Search i n := ⟨fun _ _ => List.finRange n, fun _ _ => List.finRange n⟩

theorem Wvt.meaningful (byNumber : Bool) (final : Int) (hf : 0 ≤ final) : Meaningful (onLine (fun _ => 1) byNumber final) 0 (1 / 10) 1 1 2 where
  radius := by norm_num [onLine]
  kernel := .wendlandC2
  mu := by norm_num [onLine]
  eta := by norm_num [onLine]
  ngb := by norm_num [onLine]
  sphere := by norm_num [onLine]
  center := by norm_num [onLine]
  rho := by norm_num
  mass := by norm_num
  density := fun r _ _ => by norm_num [onLine]
  largest := by norm_num [onLine, kernelWidth]
  number := fun _ => by norm_num [onLine, ball]
  lengths := fun h => by simp [onLine] at h
  slow := by norm_num [onLine, largestPush]
  frozen := fun h => by simp [onLine] at h
  ends := by simp [onLine, hf]

theorem Wvt.searches (i : Fin 3) (n : Nat) (hn : n ≤ 2) : Searches (everyone i n) 2 where
  order := fun _ _ => ⟨List.nodup_finRange n, List.mem_finRange⟩
  self := fun _ a => List.mem_finRange a
  few := fun _ _ => by simp [everyone, hn]
  same := fun _ _ _ => rfl

theorem Wvt.length1 (x h : ℝ) : length (at1 x h).pos = |x| := by
  unfold length
  rw [show ∑ j, (at1 x h).pos j ^ 2 = x ^ 2 from Fin.sum_univ_one _, Real.sqrt_sq_eq_abs]

-- two particles at -1/2 and 1/2
theorem Wvt.inSphere2 (byNumber : Bool) (final : Int) : InSphere (onLine (fun _ => 1) byNumber final) (1 / 10) 1 (fun a : Fin 2 => if a = 0 then at1 (-1 / 2) (1 / 5) else at1 (1 / 2) (1 / 5)) where
  inside := fun a => by fin_cases a <;> simp only [] <;> norm_num [length1, onLine, abs_le]
  mass := fun a => by fin_cases a <;> norm_num [at1]
  h := fun a => by fin_cases a <;> norm_num [at1]

-- the hypotheses of all theorems above on runs
example : ∃ (S : Setup) (w : Search 0 2) (s : Fin 2 → Particle ((0 : Fin 3) + 1)), Meaningful S 0 (1 / 10) 1 1 2 ∧ Searches w 2 ∧ InSphere S (1 / 10) 1 s ∧ S.variableH = false ∧
    S.profile.byNeighbours = false ∧ S.run.check = true ∧ S.run.initial + 1 ≤ S.run.final ∧ ∃ log fuel steps, relaxation S w fuel steps S.run.initial false s = some log := by
  refine ⟨_, _, _, meaningful false 5 (by norm_num), searches 0 2 le_rfl, inSphere2 false 5, rfl, rfl, rfl, by norm_num [onLine], ?_⟩
  obtain ⟨log, f, st, h, -⟩ := C92_ends_partial (meaningful false 5 (by norm_num)) _ (searches 0 2 le_rfl) (by norm_num) _ (inSphere2 false 5)
  exact ⟨log, f, st, h f st le_rfl le_rfl⟩

-- C92_equilibrium: they are farther apart than their smoothing length, which is that of the profile
example : ∀ a : Fin 2, ∃ s : Fin 2 → Particle ((0 : Fin 3) + 1), s = (fun a : Fin 2 => if a = 0 then at1 (-1 / 2) (1 / 5) else at1 (1 / 2) (1 / 5)) ∧
    length (s a).pos < (onLine (fun _ => 1) false 5).forces.radius ∧
    (s a).h = newLength (onLine (fun _ => 1) false 5).profile (onLine (fun _ => 1) false 5).forces.kernel 0 (s a).mass ((onLine (fun _ => 1) false 5).profile.density (length (s a).pos)) ∧
    wvtForce (onLine (fun _ => 1) false 5).forces 0 (s a) (((everyone 0 2).lists s a).map s) = some 0 := by
  intro a
  obtain ⟨s, hs⟩ : ∃ s : Fin 2 → Particle ((0 : Fin 3) + 1), s = fun a : Fin 2 => if a = 0 then at1 (-1 / 2) (1 / 5) else at1 (1 / 2) (1 / 5) := ⟨_, rfl⟩
  have h0 : s 0 = at1 (-1 / 2) (1 / 5) := by rw [hs]; rfl
  have h1 : s 1 = at1 (1 / 2) (1 / 5) := by rw [hs]; rfl
  have hh : ∀ b, (s b).h = 1 / 5 ∧ (s b).mass = 1 / 10 ∧ length (s b).pos = 1 / 2 := fun b => by
    fin_cases b
    · show (s 0).h = _ ∧ (s 0).mass = _ ∧ length (s 0).pos = _
      rw [h0, length1]; norm_num [at1, abs_div]
    · show (s 1).h = _ ∧ (s 1).mass = _ ∧ length (s 1).pos = _
      rw [h1, length1]; norm_num [at1, abs_div]
  refine ⟨s, hs, by rw [(hh a).2.2]; norm_num [onLine], ?_, ?_⟩
  · rw [(hh a).1, (hh a).2.1]
    norm_num [newLength, onLine, Profile.density, byMass, kernelWidth]
  · rw [C91_inside _ _ _ (by rw [(hh a).1]; norm_num) (fun nb hnb => by obtain ⟨b, -, rfl⟩ := List.mem_map.1 hnb; rw [(hh b).1]; norm_num) (by rw [(hh a).2.2]; norm_num [onLine]) (Or.inl rfl)]
    congr 1
    unfold pushes
    refine List.sum_eq_zero fun v hv => ?_
    rw [List.map_map] at hv
    obtain ⟨b, -, rfl⟩ := List.mem_map.1 hv
    funext j
    simp only [Function.comp_apply, Pi.zero_apply]
    by_cases hab : a = b
    · subst hab
      simp [unit]
    · have hd : length (fun k => (s a).pos k - (s b).pos k) = 1 := by
        have : ∀ b, (s b).pos = fun _ => if b = 0 then -1 / 2 else 1 / 2 := fun b => by fin_cases b <;> [exact congrArg _ h0; exact congrArg _ h1]
        unfold length
        rw [this a, this b, show (∑ j : Fin ((0 : Fin 3) + 1), ((if a = 0 then -1 / 2 else 1 / 2 : ℝ) - (if b = 0 then -1 / 2 else 1 / 2)) ^ 2) =
          ((if a = 0 then -1 / 2 else 1 / 2 : ℝ) - (if b = 0 then -1 / 2 else 1 / 2)) ^ 2 from Fin.sum_univ_one _]
        fin_cases a <;> fin_cases b <;> simp at hab ⊢ <;> norm_num
      rw [hd, weight_zero (p := (onLine (fun _ => 1) false 5).forces) (fun h => by simp [onLine] at h) 0 (by rw [(hh a).1]; norm_num) (by rw [(hh b).1]; norm_num)
        (by rw [(hh a).1, (hh b).1]; norm_num), zero_mul]

-- C92_length: a particle at rest in the vacuum around the centre
example : ∃ (f : Profile) (x : Particle ((0 : Fin 3) + 1)), wvtDisplacement f .wendlandC2 0 1 (1 / 100) 1 (at1 (1 / 2) (1 / 5)) = some x ∧ 0 < (at1 (1 / 2) (1 / 5)).mass ∧ 0 < f.eta * kernelWidth .wendlandC2 ∧
    0 ≤ f.ngb ∧ x.h = 3 := by
  have hx : moved (at1 (1 / 2) (1 / 5)).pos (at1 (1 / 2) (1 / 5)).acc (1 / 100) = (at1 (1 / 2) (1 / 5)).pos := by
    funext j
    simp [moved, at1]
  have hm : mag (at1 (1 / 2) (1 / 5)).pos = 1 / 2 := by rw [← length_eq, length1]; norm_num [abs_div]
  obtain ⟨f, hf⟩ : ∃ f : Profile, f = ⟨fun r => 1 - 6 * r, 1, 3, 1, 5, true⟩ := ⟨_, rfl⟩
  have hd : displace 0 1 (at1 (1 / 2) (1 / 5)).pos (at1 (1 / 2) (1 / 5)).acc (1 / 100) 1 = some (at1 (1 / 2) (1 / 5)).pos := by
    have hs : shrink 1 (at1 (1 / 2) (1 / 5)).pos (at1 (1 / 2) (1 / 5)).acc 1 (1 / 100) = some (1 / 100) := by
      unfold shrink
      rw [hx, hm, if_neg (by norm_num)]
    unfold displace
    rw [if_neg one_ne_zero, hs, Option.bind_some, hx, hm, if_neg (by norm_num)]
  refine ⟨f, _, by unfold wvtDisplacement; rw [hd, Option.bind_some, if_neg (by rw [hf]; norm_num)], by norm_num [at1], by rw [hf]; norm_num [kernelWidth], by rw [hf]; norm_num, ?_⟩
  show newLength _ _ _ _ _ = _
  rw [hf, newLength, if_pos (by rw [hm]; norm_num [Profile.density])]

end examples

/-- Where the profile vanishes, as at the edge of a parabolic sphere, the final smoothing length is a division by zero: a run from particles in the sphere, all of whose steps are well defined,
does not end with numbers. -/
theorem C92_edge_violated : ∃ (S : Setup) (w : Search 0 1) (s : Fin 1 → Particle ((0 : Fin 3) + 1)), (S.profile.shape = fun r => 3 / 4 * (1 - r ^ 2)) ∧ InSphere S (1 / 10) 1 s ∧ Searches w 2 ∧
    S.profile.radius = S.forces.radius ∧ (∀ r, 0 ≤ r → r < S.forces.radius → 0 < S.profile.density r) ∧ (∀ fuel, ∃ t, iteration S w fuel S.run.initial s = some t) ∧
    ∀ fuel steps, relaxation S w fuel steps S.run.initial false s = none := by
  obtain ⟨S, hSd⟩ : ∃ S, S = onLine (fun r => 3 / 4 * (1 - r ^ 2)) false 0 := ⟨_, rfl⟩
  have hs : InSphere S (1 / 10) 1 (fun _ : Fin 1 => at1 1 (1 / 5)) := ⟨fun a => by rw [length1, hSd]; norm_num [onLine], fun a => by norm_num [at1], fun a => by norm_num [at1]⟩
  have hs' : InSphere (onLine (fun _ => 1) false 0) (1 / 10) 1 (fun _ : Fin 1 => at1 1 (1 / 5)) := ⟨fun a => by rw [length1]; norm_num [onLine], hs.mass, hs.h⟩
  obtain ⟨t, h1, h2, -⟩ := passes_result (meaningful false 0 le_rfl) (searches 0 1 (by norm_num)) 0 hs'
  have hit : ∀ fuel, iteration S (everyone 0 1) fuel S.run.initial (fun _ => at1 1 (1 / 5)) = some t := fun fuel => by
    unfold iteration
    rw [if_pos (by simp [Run.step])]
    rw [hSd]
    exact h1
  refine ⟨S, everyone 0 1, fun _ => at1 1 (1 / 5), by rw [hSd]; rfl, hs, searches 0 1 (by norm_num), by rw [hSd]; rfl, fun r h0 h1 => ?_, fun fuel => ⟨t, hit fuel⟩, fun fuel steps => ?_⟩
  · rw [hSd] at h1 ⊢
    simp only [onLine, Profile.density] at h1 ⊢
    have : r ^ 2 < 1 := by nlinarith
    rw [div_one]
    have h2 : (0 : ℝ) < 3 / 4 * (1 - r ^ 2) := by linarith
    norm_num at h2 ⊢
    exact h2
  · cases steps with
    | zero => rfl
    | succ steps =>
      unfold relaxation
      rw [hit fuel, Option.bind_some]
      have hc : converged S S.run.initial t false = some false := by
        unfold converged
        rw [if_neg (by simp)]
      rw [hc, Option.bind_some]
      have hlast : (false || decide (S.run.initial = S.run.final + S.run.coolDown)) = true := by rw [hSd]; rfl
      simp only [hlast, if_true]
      have hset : Driver.applyAllM (wvtSetDensity S.profile S.forces.kernel 0) t = none := by
        rw [Option.eq_none_iff_forall_ne_some]
        intro u hu
        have h3 := (Driver.applyAllM_iff _ _ _).mp hu 0
        unfold wvtSetDensity at h3
        rw [if_pos] at h3
        · cases h3
        · right; right
          rw [(fixed_ph (h2 0)).1, ← length_eq, length1, hSd]
          norm_num [onLine, Profile.density]
      rw [hset, Option.bind_none]

/-- When the smoothing lengths are to hold a given number of neighbours, those of the final output do not. -/
theorem C92_neighbours_violated : ∃ (S : Setup) (w : Search 0 2) (s : Fin 2 → Particle ((0 : Fin 3) + 1)) (M ρ H : ℝ), Meaningful S 0 M ρ H 2 ∧ Searches w 2 ∧ InSphere S M H s ∧
    S.profile.byNeighbours = true ∧ ∃ log fuel steps, relaxation S w fuel steps S.run.initial false s = some log ∧
      ∃ p ∈ log.getLast?, ∀ a, ball 0 (p.2 a).h * (p.2 a).rho ≠ S.profile.ngb * (p.2 a).mass := by
  have hM := meaningful true 5 (by norm_num)
  have hI := inSphere2 true 5
  have hW := searches 0 2 le_rfl
  obtain ⟨log, f, st, h, hne, -⟩ := C92_ends_partial hM _ hW (by norm_num) _ hI
  have hrun := h f st le_rfl le_rfl
  refine ⟨_, _, _, _, _, _, hM, hW, hI, rfl, log, f, st, hrun, ?_⟩
  have hl : log.length - 1 < log.length := by have := List.length_pos_iff.2 hne; omega
  refine ⟨log[log.length - 1], by rw [List.getLast?_eq_getElem?, List.getElem?_eq_getElem hl]; rfl, fun a => ?_⟩
  obtain ⟨e1, e2⟩ := C92_final hM _ hW (by norm_num) _ hI f st log hrun (log.length - 1) hl (by omega) a
  have e3 := (C92_inside_partial hM _ hW (by norm_num) _ hI f st log hrun _ (List.getElem_mem hl) a).2.2.1
  rw [e2, e1, e3]
  have hm : ∀ a : Fin 2, ((fun a : Fin 2 => if a = 0 then at1 (-1 / 2) (1 / 5) else at1 (1 / 2) (1 / 5)) a).mass = 1 / 10 := fun a => by fin_cases a <;> rfl
  rw [hm]
  norm_num [onLine, kernelWidth, ball]

end FleCSPH
