import Verif.Lemmas.ProgramFit
import Verif.Props.C70
import Verif.Props.C78
/-!
C79: the two drivers from the positions of the particles, on several processes, with the trees.

In Model/Program.lean the division of the particles, the neighbour lists and gravity are not given: `update_iteration` makes keys, sorts and exchanges the particles and builds the trees, the passes search
them and gravity traverses them, with all messages, one after the other. Proved for the constant viscosity and a fixed time step, in exact arithmetic, for at least two particles: how a run ends does not
depend on the number of processes, the first division, `std::sort`, the messages and the orders of visits; every run is one of C70 or C78, so that what is proved there holds for it; and a run can always be
carried out.

What is said of the newtonian driver but its independence of the number of processes holds for either viscosity.

Missing for the full property: the adaptive time step, the adaptive viscosity (see `C70_violated`), periodic boundaries, rounding, a single particle.
-/
namespace FleCSPH.Program
open FleCSPH.Geometry FleCSPH.Sph FleCSPH.Driver FleCSPH.Spec FleCSPH.DistRun FleCSPH.Newtonian FleCSPH.Key FleCSPH.Cofm FleCSPH.Update FleCSPH.RunExamples

variable {i : Fin 3} {n m m' : Nat}

/-- Gravity of the same particles on two systems of trees. -/
private theorem pulled_same {g : Settings} (hbits : i.val + 1 < g.bits) (hn : 2 ≤ n) {T T1 : Trees i n m} {T' T1' : Trees i n m'} {s s' v v' : Fin n → Particle (i + 1)} (hs : ∀ a, DistRun.Dense (s a))
    (hs' : ∀ a, DistRun.Dense (s' a)) (e : ∀ a, er (s a) = er (s' a)) (hid : Distinct s) (hg : Good g T s) (hg' : Good g T' s') (h : Pulled g T T1 s v) (h' : Pulled g T' T1' s' v') :
    (∀ a, er (v a) = er (v' a)) ∧ (∀ a, ∃ p q, v a = { s a with gpot := p, gacc := q }) ∧ (∀ a, ∃ p q, v' a = { s' a with gpot := p, gacc := q }) := by
  have hid' := hid.of_ids (ids_er e)
  obtain ⟨pot, acc, -, hG⟩ := gravitated_spec g.toGravity hbits hn (fun a => bodyOf (s a)) (fun a => (hs a).1) (fun a => (hs a).2.1) hg.apart
  have h1 := (hG s (fun _ => rfl) hid m).2 v (good_pulled hbits (fun a => ⟨(hs a).1, (hs a).2.1⟩) hid hg h).1
  have h2 := (hG s' (fun a => (body_er e a).symm) hid' m').2 v' (good_pulled hbits (fun a => ⟨(hs' a).1, (hs' a).2.1⟩) hid' hg' h').1
  refine ⟨fun a => ?_, fun a => ⟨_, _, h1 a⟩, fun a => ⟨_, _, h2 a⟩⟩
  rw [h1, h2]
  have := congrArg (fun x : Particle (i + 1) => ({ x with gpot := pot a, gacc := acc a } : Particle (i + 1))) (e a)
  exact this

theorem no_update (z : Config i) (c : Timestep.Clock) : Op.update ∉ tailOps z c := by
  have h1 : ∀ m, Op.update ∉ energyOps z c.dt c.iteration m := by
    intro m
    induction m with
    | zero => simp [energyOps]
    | succ m ih =>
      rw [energyOps, List.mem_append, List.mem_append, not_or, not_or]
      refine ⟨⟨?_, ?_⟩, ih⟩ <;> split_ifs <;> simp
  have h2 : Op.update ∉ (if z.evolve then energyOps z c.dt c.iteration z.updates else []) := by
    split_ifs
    exacts [h1 _, by simp]
  have h3 : Op.update ∉ lastOps z := by
    unfold lastOps
    cases z.hMode <;> simp
  have h4 : Op.update ∉ relaxOps z c.iteration := by
    unfold relaxOps
    split_ifs <;> simp
  have h5 : Op.update ∉ kickOps z c.dt := by
    unfold kickOps
    split_ifs <;> simp
  unfold tailOps
  rw [List.mem_append, not_or]
  refine ⟨?_, h3⟩
  by_cases hc : c.iteration = z.initialIteration
  · rw [if_pos hc]
    unfold firstTail
    rw [List.mem_append, List.mem_append, not_or, not_or]
    refine ⟨⟨h4, ?_⟩, h2⟩
    split_ifs <;> simp
  · rw [if_neg hc]
    unfold nextTail
    rw [List.mem_append, List.mem_append, List.mem_append, not_or, not_or, not_or]
    exact ⟨⟨⟨h4, by simp⟩, h2⟩, h5⟩

private theorem er_dense {s s' : Fin n → Particle (i + 1)} (e : ∀ a, er (s a) = er (s' a)) (h : ∀ a, DistRun.Dense (s a)) : ∀ a, DistRun.Dense (s' a) := by
  intro a
  have e1 : (s a).mass = (s' a).mass := by have := congrArg Particle.mass (e a); exact this
  have e2 : (s a).h = (s' a).h := by have := congrArg Particle.h (e a); exact this
  have e3 : (s a).rho = (s' a).rho := by have := congrArg Particle.rho (e a); exact this
  exact ⟨e1 ▸ (h a).1, e2 ▸ (h a).2.1, e3 ▸ (h a).2.2⟩

private theorem er_sized {s s' : Fin n → Particle (i + 1)} (e : ∀ a, er (s a) = er (s' a)) (h : ∀ a, Sized (s a)) : ∀ a, Sized (s' a) := by
  intro a
  have e1 : (s a).mass = (s' a).mass := by have := congrArg Particle.mass (e a); exact this
  have e2 : (s a).h = (s' a).h := by have := congrArg Particle.h (e a); exact this
  exact ⟨e1 ▸ (h a).1, e2 ▸ (h a).2⟩

private theorem same_of_erase {r r' : Outcome i n} (h : r.erase = r'.erase) : SameOutcome r r' := by
  cases r <;> cases r' <;> simp only [Outcome.erase, Outcome.done.injEq, Outcome.clash.injEq, reduceCtorEq] at h <;> simp only [SameOutcome]
  · exact ⟨h.1, fun a => congrFun h.2 a⟩
  · exact h

section
variable {z : Config i} (hv : z.sph.visc = .constant) (he : 0 < z.eta) (hw : 0 < z.width) (hrep : z.repulsionRadius ≤ 1) (hext : ∀ a, z.sph.external { a with vsig := 0 } = z.sph.external a)
  (g : Settings) (hbits : i.val + 1 < g.bits) (hn : 2 ≤ n) (htol : 0 ≤ g.tol)
include hv he hw hbits hn htol

section
include hrep hext

/-- Two runs of the hydro driver from the same particles, on `2^m` and on `2^m'` processes, with any first divisions of the particles, end in the same way. -/
theorem C79_hydro_partial {N : Nat} {c : Timestep.Clock} {T : Trees i n m} {T' : Trees i n m'} {d d' : DState (Particle (i + 1)) n} {r r' : Outcome i n} (h : Hydro g z N c T d r) (h' : Hydro g z N c T' d' r')
    (hsame : d.val = d'.val) (hpos : ∀ a, 0 < (d.val a).mass ∧ 0 < (d.val a).h) (hid : ∀ a b, (d.val a).id = (d.val b).id → a = b) (hdiv : Division n (2 ^ m) T.vec) (hdiv' : Division n (2 ^ m') T'.vec) :
    SameOutcome r r' := by
  refine same_of_erase ?_
  have main : ∀ {N c} {T : Trees i n m} {d : DState (Particle (i + 1)) n} {r : Outcome i n}, Hydro g z N c T d r → ∀ {T' : Trees i n m'} {d' : DState (Particle (i + 1)) n} {r' : Outcome i n}, Hydro g z N c T' d' r' →
      (∀ a, er (d.val a) = er (d'.val a)) → (∀ a, Sized (d.val a)) → Distinct d.val → Division n (2 ^ m) T.vec → Division n (2 ^ m') T'.vec → r.erase = r'.erase := by
    intro N c T d r h
    induction h with
    | nil =>
      intro T' d' r' h' e _ _ _ _
      cases h'
      simp only [Outcome.erase]
      congr 1
      exact funext e
    | @fail N c T d hx =>
      intro T' d' r' h' e hs hid hd hd'
      have key := fun y (hy : PExec g (iterationOps z c) T' d' y) => agree hbits hn htol hx hy (fit_iteration z hv he hw c) (disc_iteration z hv he hw c (fun _ => hrep) hext (V := fun _ => False)) (fun _ h => h.elim) (fun _ h => h.elim)
        hs (er_sized e hs) e hid hd hd' (fun h => Bool.noConfusion h) (fun h => Bool.noConfusion h)
      cases h' with
      | fail _ => rfl
      | clash hy => exact (key _ hy).elim
      | cons hy _ => exact (key _ hy).elim
    | @clash N c T d hx =>
      intro T' d' r' h' e hs hid hd hd'
      have key := fun y (hy : PExec g (iterationOps z c) T' d' y) => agree hbits hn htol hx hy (fit_iteration z hv he hw c) (disc_iteration z hv he hw c (fun _ => hrep) hext (V := fun _ => False)) (fun _ h => h.elim) (fun _ h => h.elim)
        hs (er_sized e hs) e hid hd hd' (fun h => Bool.noConfusion h) (fun h => Bool.noConfusion h)
      cases h' with
      | fail hy => exact (key _ hy).elim
      | clash _ => rfl
      | cons hy _ => exact (key _ hy).elim
    | @cons N c T T1 d d1 r hx _ ih =>
      intro T' d' r' h' e hs hid hd hd'
      have key := fun y (hy : PExec g (iterationOps z c) T' d' y) => agree hbits hn htol hx hy (fit_iteration z hv he hw c) (disc_iteration z hv he hw c (fun _ => hrep) hext (V := fun _ => False)) (fun _ h => h.elim) (fun _ h => h.elim)
        hs (er_sized e hs) e hid hd hd' (fun h => Bool.noConfusion h) (fun h => Bool.noConfusion h)
      cases h' with
      | fail hy => exact (key _ hy).elim
      | clash hy => exact (key _ hy).elim
      | cons hy hr =>
        obtain ⟨-, s2, s3, -, s5⟩ := sim hbits hn htol hx (fit_iteration z hv he hw c) hs hid hd (fun h => Bool.noConfusion h)
        obtain ⟨-, -, t3, -, -⟩ := sim hbits hn htol hy (fit_iteration z hv he hw c) (er_sized e hs) (hid.of_ids (ids_er e)) hd' (fun h => Bool.noConfusion h)
        exact ih hr (key _ hy) s2 (hid.of_ids s5) s3 t3
  exact main h h' (fun a => by rw [hsame]) hpos hid hdiv hdiv'

/-- The same for the newtonian driver. -/
theorem C79_newton_partial {N : Nat} {c : Timestep.Clock} {T : Trees i n m} {T' : Trees i n m'} {d d' : DState (Particle (i + 1)) n} {r r' : Outcome i n} (h : Newton g z N c T d r) (h' : Newton g z N c T' d' r')
    (hsame : d.val = d'.val) (hpos : ∀ a, 0 < (d.val a).mass ∧ 0 < (d.val a).h) (hid : ∀ a b, (d.val a).id = (d.val b).id → a = b) (hdiv : Division n (2 ^ m) T.vec) (hdiv' : Division n (2 ^ m') T'.vec) :
    SameOutcome r r' := by
  refine same_of_erase ?_
  -- the calls before gravity, and those after it
  have head : ∀ {c} {T : Trees i n m} {T' : Trees i n m'} {d d' : DState (Particle (i + 1)) n} {x y}, PExec g (headOps z c) T d x → PExec g (headOps z c) T' d' y → (∀ a, er (d.val a) = er (d'.val a)) →
      (∀ a, Sized (d.val a)) → Distinct d.val → Division n (2 ^ m) T.vec → Division n (2 ^ m') T'.vec → Same x y := fun hx hy e hs hid hd hd' =>
    agree hbits hn htol hx hy (fit_head z _) (disc_head z hv _ hext (V := fun _ => False)) (fun _ h => h.elim) (fun _ h => h.elim) hs (er_sized e hs) e hid hd hd' (fun h => Bool.noConfusion h) (fun h => Bool.noConfusion h)
  have tail : ∀ {c} {T T1 T2 : Trees i n m} {T' T1' T2' : Trees i n m'} {d d' d1 d1' : DState (Particle (i + 1)) n} {v v' : Fin n → Particle (i + 1)} {x y}, PExec g (headOps z c) T d (.ended T1 d1) →
      PExec g (headOps z c) T' d' (.ended T1' d1') → Pulled g T1 T2 d1.val v → Pulled g T1' T2' d1'.val v' → PExec g (tailOps z c) T2 { d1 with val := v } x → PExec g (tailOps z c) T2' { d1' with val := v' } y →
      (∀ a, er (d.val a) = er (d'.val a)) → (∀ a, Sized (d.val a)) → Distinct d.val → Division n (2 ^ m) T.vec → Division n (2 ^ m') T'.vec → Same x y := by
    intro c T T1 T2 T' T1' T2' d d' d1 d1' v v' x y hx hx' hp hp' hy hy' e hs hid hd hd'
    have e1 : ∀ a, er (d1.val a) = er (d1'.val a) := head hx hx' e hs hid hd hd'
    obtain ⟨s1, s2, s3, s4, s5⟩ := sim hbits hn htol hx (fit_head z c) hs hid hd (fun h => Bool.noConfusion h)
    obtain ⟨t1, t2, t3, t4, t5⟩ := sim hbits hn htol hx' (fit_head z c) (er_sized e hs) (hid.of_ids (ids_er e)) hd' (fun h => Bool.noConfusion h)
    have i1 := hid.of_ids s5
    obtain ⟨k1, k2, k3⟩ := pulled_same hbits hn s2 t2 e1 i1 (s4 rfl) (t4 rfl) hp hp'
    have g1 := (good_pulled hbits (fun a => ⟨(s2 a).1, (s2 a).2.1⟩) i1 (s4 rfl) hp).2
    have g2 := (good_pulled hbits (fun a => ⟨(t2 a).1, (t2 a).2.1⟩) (i1.of_ids (ids_er e1)) (t4 rfl) hp').2
    have b1 : ∀ a, bodyOf (v a) = bodyOf (d1.val a) ∧ (v a).id = (d1.val a).id := fun a => by obtain ⟨_, _, h⟩ := k2 a; rw [h]; exact ⟨rfl, rfl⟩
    have b2 : ∀ a, bodyOf (v' a) = bodyOf (d1'.val a) ∧ (v' a).id = (d1'.val a).id := fun a => by obtain ⟨_, _, h⟩ := k3 a; rw [h]; exact ⟨rfl, rfl⟩
    exact agree hbits hn htol hy hy' (fit_tail z he hw c) (disc_tail z he hw c fun _ => hrep) (fun w hw => consistent_grav hw ((head_consistent s1).1 w hw) k2) (fun w hw => consistent_grav hw ((head_consistent t1).1 w hw) k3)
      (dense_grav s2 k2) (dense_grav t2 k3) k1 (i1.of_ids fun a => (b1 a).2) g1.division g2.division (fun _ => g1.congr b1) (fun _ => g2.congr b2)
  have main : ∀ {N c} {T : Trees i n m} {d : DState (Particle (i + 1)) n} {r : Outcome i n}, Newton g z N c T d r → ∀ {T' : Trees i n m'} {d' : DState (Particle (i + 1)) n} {r' : Outcome i n}, Newton g z N c T' d' r' →
      (∀ a, er (d.val a) = er (d'.val a)) → (∀ a, Sized (d.val a)) → Distinct d.val → Division n (2 ^ m) T.vec → Division n (2 ^ m') T'.vec → r.erase = r'.erase := by
    intro N c T d r h
    induction h with
    | nil =>
      intro T' d' r' h' e _ _ _ _
      cases h'
      simp only [Outcome.erase]
      congr 1
      exact funext e
    | @failHead N c T d hx =>
      intro T' d' r' h' e hs hid hd hd'
      cases h' with
      | failHead _ => rfl
      | clash hy => exact (head hx hy e hs hid hd hd').elim
      | failTail _ _ _ => rfl
      | cons hy _ _ _ => exact (head hx hy e hs hid hd hd').elim
    | @clash N c T d hx =>
      intro T' d' r' h' e hs hid hd hd'
      cases h' with
      | failHead hy => exact (head hx hy e hs hid hd hd').elim
      | clash _ => rfl
      | failTail hy _ _ => exact (head hx hy e hs hid hd hd').elim
      | cons hy _ _ _ => exact (head hx hy e hs hid hd hd').elim
    | @failTail N c T T1 T2 d d1 v hx hp ht =>
      intro T' d' r' h' e hs hid hd hd'
      cases h' with
      | failHead _ => rfl
      | clash hy => exact (head hx hy e hs hid hd hd').elim
      | failTail _ _ _ => rfl
      | cons hy hp' ht' _ => exact (tail hx hy hp hp' ht ht' e hs hid hd hd').elim
    | @cons N c T T1 T2 T3 d d1 d2 v r hx hp ht _ ih =>
      intro T' d' r' h' e hs hid hd hd'
      cases h' with
      | failHead hy => exact (head hx hy e hs hid hd hd').elim
      | clash hy => exact (head hx hy e hs hid hd hd').elim
      | failTail hy hp' ht' => exact (tail hx hy hp hp' ht ht' e hs hid hd hd').elim
      | cons hy hp' ht' hr =>
        have e1 : ∀ a, er (d1.val a) = er _ := head hx hy e hs hid hd hd'
        obtain ⟨s1, s2, s3, s4, s5⟩ := sim hbits hn htol hx (fit_head z c) hs hid hd (fun h => Bool.noConfusion h)
        obtain ⟨t1, t2, t3, t4, t5⟩ := sim hbits hn htol hy (fit_head z c) (er_sized e hs) (hid.of_ids (ids_er e)) hd' (fun h => Bool.noConfusion h)
        have i1 := hid.of_ids s5
        obtain ⟨k1, k2, k3⟩ := pulled_same hbits hn s2 t2 e1 i1 (s4 rfl) (t4 rfl) hp hp'
        have g1 := (good_pulled hbits (fun a => ⟨(s2 a).1, (s2 a).2.1⟩) i1 (s4 rfl) hp).2
        have g2 := (good_pulled hbits (fun a => ⟨(t2 a).1, (t2 a).2.1⟩) (i1.of_ids (ids_er e1)) (t4 rfl) hp').2
        have b1 : ∀ a, bodyOf (v a) = bodyOf (d1.val a) ∧ (v a).id = (d1.val a).id := fun a => by obtain ⟨_, _, h⟩ := k2 a; rw [h]; exact ⟨rfl, rfl⟩
        obtain ⟨-, u2, u3, -, u5⟩ := sim hbits hn htol ht (fit_tail z he hw c) (dense_grav s2 k2) (i1.of_ids fun a => (b1 a).2) g1.division fun _ => g1.congr b1
        obtain ⟨-, -, w3, -, -⟩ := sim hbits hn htol ht' (fit_tail z he hw c) (dense_grav t2 k3) ((i1.of_ids fun a => (b1 a).2).of_ids (ids_er k1)) g2.division fun _ => g2.congr fun a => by
          obtain ⟨_, _, h⟩ := k3 a
          dsimp only
          rw [h]
          exact ⟨rfl, rfl⟩
        exact ih hr (tail hx hy hp hp' ht ht' e hs hid hd hd') u2 ((i1.of_ids fun a => (b1 a).2).of_ids u5) u3 w3
  exact main h h' (fun a => by rw [hsame]) hpos hid hdiv hdiv'

end

/-! ### The runs of C70 and C78 -/

/-- A run of the hydro driver which ends, or stops at an assertion, is one of C70. -/
theorem C79_hydro_refines {N : Nat} {c : Timestep.Clock} {T : Trees i n m} {d : DState (Particle (i + 1)) n} {r : Outcome i n} (h : Hydro g z N c T d r)
    (hpos : ∀ a, 0 < (d.val a).mass ∧ 0 < (d.val a).h) (hid : ∀ a b, (d.val a).id = (d.val b).id → a = b) (hdiv : Division n (2 ^ m) T.vec) :
    (∀ c' s, r = .done c' s → DRun NearLists (2 ^ m) z N c (homeOf T.vec) d (some (c', s))) ∧ (r = .failed → DRun NearLists (2 ^ m) z N c (homeOf T.vec) d none) := by
  change ∀ a, Sized (d.val a) at hpos
  change Distinct d.val at hid
  induction h with
  | nil => exact ⟨fun c' s h => by cases h; exact .nil, fun h => by cases h⟩
  | @fail N c T d hx => exact ⟨fun c' s h => (by cases h), fun _ => .fail (sim hbits hn htol hx (fit_iteration z hv he hw c) hpos hid hdiv (fun h => Bool.noConfusion h))⟩
  | clash hx => exact ⟨fun c' s h => (by cases h), fun h => (by cases h)⟩
  | @cons N c T T1 d d1 r hx _ ih =>
    obtain ⟨s1, s2, s3, -, s5⟩ := sim hbits hn htol hx (fit_iteration z hv he hw c) hpos hid hdiv (fun h => Bool.noConfusion h)
    have := ih s3 s2 (hid.of_ids s5)
    exact ⟨fun c' s h => .cons s1 (this.1 c' s h), fun h => .cons s1 (this.2 h)⟩

omit hv in
/-- A run of the newtonian driver which ends, or stops at an assertion, is one of C78. -/
theorem C79_newton_refines {N : Nat} {c : Timestep.Clock} {T : Trees i n m} {d : DState (Particle (i + 1)) n} {r : Outcome i n} (h : Newton g z N c T d r)
    (hpos : ∀ a, 0 < (d.val a).mass ∧ 0 < (d.val a).h) (hid : ∀ a b, (d.val a).id = (d.val b).id → a = b) (hdiv : Division n (2 ^ m) T.vec) (hr : ∀ k, r ≠ .clash k) :
    Newtonian.Run NearLists g.toGravity m z N c (homeOf T.vec) d r := by
  change ∀ a, Sized (d.val a) at hpos
  change Distinct d.val at hid
  have grav : ∀ {c} {T T1 T2 : Trees i n m} {d d1 : DState (Particle (i + 1)) n} {v : Fin n → Particle (i + 1)}, PExec g (headOps z c) T d (.ended T1 d1) → Pulled g T1 T2 d1.val v →
      (∀ a, Sized (d.val a)) → Distinct d.val → Division n (2 ^ m) T.vec → DExec NearLists (2 ^ m) (headOps z c) (homeOf T.vec) d (some (homeOf T1.vec, d1)) ∧ Apart g d1.val ∧ Gravitated g.toGravity m d1.val v ∧
        homeOf T2.vec = homeOf T1.vec ∧ (∀ a, DistRun.Dense (v a)) ∧ Distinct v ∧ Good g T2 v := by
    intro c T T1 T2 d d1 v hx hp hs hid hd
    obtain ⟨s1, s2, s3, s4, s5⟩ := sim hbits hn htol hx (fit_head z c) hs hid hd (fun h => Bool.noConfusion h)
    have i1 := hid.of_ids s5
    obtain ⟨g0, g1⟩ := good_pulled hbits (fun a => ⟨(s2 a).1, (s2 a).2.1⟩) i1 (s4 rfl) hp
    obtain ⟨pot, acc, -, hG⟩ := gravitated_spec g.toGravity hbits hn (fun a => bodyOf (d1.val a)) (fun a => (s2 a).1) (fun a => (s2 a).2.1) (s4 rfl).apart
    have k2 := (hG d1.val (fun _ => rfl) i1 m).2 v g0
    have b1 : ∀ a, bodyOf (v a) = bodyOf (d1.val a) ∧ (v a).id = (d1.val a).id := fun a => by rw [k2 a]; exact ⟨rfl, rfl⟩
    have ev : T2.vec = T1.vec := by obtain ⟨_, _, -, -, -, -, e, -⟩ := hp; exact e
    exact ⟨s1, (s4 rfl).apart, g0, by rw [ev], dense_grav s2 fun a => ⟨_, _, k2 a⟩, i1.of_ids fun a => (b1 a).2, g1.congr b1⟩
  induction h with
  | nil => exact .nil
  | @failHead N c T d hx => exact .failHead (sim hbits hn htol hx (fit_head z c) hpos hid hdiv (fun h => Bool.noConfusion h))
  | clash hx => exact absurd rfl (hr _)
  | @failTail N c T T1 T2 d d1 v hx hp ht =>
    obtain ⟨s1, s2, s3, s4, s5, s6, s7⟩ := grav hx hp hpos hid hdiv
    have := sim hbits hn htol ht (fit_tail z he hw c) s5 s6 s7.division fun _ => s7
    unfold Simulates at this
    rw [s4] at this
    exact .failTail s1 s2 s3 this
  | @cons N c T T1 T2 T3 d d1 d2 v r hx hp ht _ ih =>
    obtain ⟨s1, s2, s3, s4, s5, s6, s7⟩ := grav hx hp hpos hid hdiv
    obtain ⟨u1, u2, u3, -, u5⟩ := sim hbits hn htol ht (fit_tail z he hw c) s5 s6 s7.division fun _ => s7
    rw [s4] at u1
    exact .cons s1 s2 s3 u1 (ih u3 hr u2 (s6.of_ids u5))

/-- What C34 and C35 say of runs on one process holds for the hydro driver with its trees and messages: a run which ends keeps particles, masses, momentum and angular momentum, and, with the total energy as
variable, the energy. -/
theorem C79_hydro_laws_partial (had : z.adaptive = false) (hrep : z.repulsionRadius ≤ 1) (hext : ∀ a, z.sph.external a = 0) (hrelax : z.sph.relaxationSteps ≤ z.initialIteration) {N : Nat} {c c' : Timestep.Clock}
    {T : Trees i n m} {d : DState (Particle (i + 1)) n} {s : Fin n → Particle (i + 1)} (h : Hydro g z N c T d (.done c' s)) (hstart : c.iteration = z.initialIteration) (hpos : ∀ a, 0 < (d.val a).mass ∧ 0 < (d.val a).h)
    (hid : ∀ a b, (d.val a).id = (d.val b).id → a = b) (hdiv : Division n (2 ^ m) T.vec) (hf : d.flight = []) :
    (∀ a, (s a).id = (d.val a).id ∧ (s a).mass = (d.val a).mass) ∧ (∀ j, linearMomentum s j = linearMomentum d.val j) ∧ (∀ j k, planeMomentum s j k = planeMomentum d.val j k) ∧
    (z.thermokinetic = true → z.evolve = true → 1 ≤ z.updates → 1 ≤ N →
      gasEnergy s = ∑ a, (d.val a).mass * (1 / 2 * ∑ j, (d.val a).vel j * (d.val a).vel j + (Eos.init z.eos z.eosParams (d.val a)).u + z.phi (d.val a).pos)) := by
  have hrun := (C79_hydro_refines hv he hw g hbits hn htol h hpos hid hdiv).1 _ _ rfl
  have hlen : (List.replicate N (everybody i n)).length = N := List.length_replicate
  rw [← hlen] at hrun
  have hws : ∀ w ∈ List.replicate N (everybody i n), w = everybody i n := fun w hw => List.eq_of_mem_replicate hw
  have h1 := C70_single_partial hv he hw hrep (fun a => by rw [hext, hext]) had (List.replicate N (everybody i n)) (fun w hw => by rw [hws w hw]; exact ⟨fun s _ => ⟨fun _ => List.nodup_finRange n, fun _ b _ => List.mem_finRange b⟩, (everybody_faithful i n).order⟩) hrun hpos hf
  obtain ⟨st, h2, h3⟩ := Option.map_eq_some_iff.1 h1.symm
  obtain ⟨h4, h5⟩ := Prod.mk.inj h3
  have e : ∀ a, ({ st.parts a with vsig := 0 } : Particle (i + 1)) = { s a with vsig := 0 } := fun a => congrFun h5 a
  have e1 : ∀ a, (st.parts a).id = (s a).id := fun a => by have := congrArg Particle.id (e a); exact this
  have e2 : ∀ a, (st.parts a).mass = (s a).mass := fun a => by have := congrArg Particle.mass (e a); exact this
  have e3 : ∀ a, (st.parts a).vel = (s a).vel := fun a => by have := congrArg Particle.vel (e a); exact this
  have e4 : ∀ a, (st.parts a).pos = (s a).pos := fun a => by have := congrArg Particle.pos (e a); exact this
  have e5 : ∀ a, (st.parts a).e = (s a).e := fun a => by have := congrArg Particle.e (e a); exact this
  have hfaith : ∀ w ∈ List.replicate N (everybody i n), Faithful w := fun w hw => by rw [hws w hw]; exact everybody_faithful i n
  obtain ⟨l1, l2, l3⟩ := C34_run z hext he hw hrelax _ hfaith ⟨c, d.val⟩ st hstart hpos h2
  simp only [e1, e2, e3, e4] at l1 l2 l3
  refine ⟨l1, l2, l3, fun htk hev hup hN => ?_⟩
  have l4 := C35_run z htk hev hup he hw hrelax _ (by intro h; rw [h] at hlen; simp at hlen; omega) hfaith ⟨c, d.val⟩ st hstart hpos h2
  simp only [e2, e5] at l4
  exact l4

omit hv in
/-- What C78 says of momentum holds for the newtonian driver with its trees and messages, for either viscosity. -/
theorem C79_newton_laws_partial (hext : ∀ a, z.sph.external a = 0) (hrelax : z.sph.relaxationSteps ≤ z.initialIteration) {N : Nat} {c c' : Timestep.Clock}
    {T : Trees i n m} {d : DState (Particle (i + 1)) n} {s : Fin n → Particle (i + 1)} (h : Newton g z N c T d (.done c' s)) (hstart : c.iteration = z.initialIteration) (hpos : ∀ a, 0 < (d.val a).mass ∧ 0 < (d.val a).h)
    (hid : ∀ a b, (d.val a).id = (d.val b).id → a = b) (hdiv : Division n (2 ^ m) T.vec) :
    (∀ a, (s a).id = (d.val a).id ∧ (s a).mass = (d.val a).mass) ∧
    (g.angle ≤ 0 → (∀ j, linearMomentum s j = linearMomentum d.val j) ∧ ∀ j k, planeMomentum s j k = planeMomentum d.val j k) ∧
    ∃ S : Nat → Fin n → Particle (i + 1), S 0 = d.val ∧ S N = s ∧ (∀ k < N, Leapfrog g.const g.angle (c.iteration + k = z.initialIteration) c.dt (S k) (S (k + 1))) ∧ ∀ u, u = max g.angle 0 →
      (∀ j, |linearMomentum s j - linearMomentum d.val j| ≤ |c.dt| * ∑ k ∈ Finset.range N, (4 * u + 5 * u ^ 2 + 2 * u ^ 3) * ∑ a, (S (k + 1) a).mass * pull g.const (S (k + 1)) a) ∧
      ∀ j l, |planeMomentum s j l - planeMomentum d.val j l| ≤
        |c.dt| * ∑ k ∈ Finset.range N, (4 * u + 5 * u ^ 2 + 2 * u ^ 3) * ∑ a, (S (k + 1) a).mass * (|(S (k + 1) a).pos j| + |(S (k + 1) a).pos l|) * pull g.const (S (k + 1)) a :=
  C78_momentum_partial he hw hext g.toGravity hbits hn (C79_newton_refines he hw g hbits hn htol h hpos hid hdiv fun k h => by cases h) hrelax hstart hpos hid

/-! ### Runs exist -/

/-- A run of the hydro driver can be carried out, for any division of the particles at the beginning. -/
theorem C79_hydro_exists {N : Nat} {c : Timestep.Clock} {T : Trees i n m} (hdiv : Division n (2 ^ m) T.vec) (s : Fin n → Particle (i + 1)) (hpos : ∀ a, 0 < (s a).mass ∧ 0 < (s a).h)
    (hid : ∀ a b, (s a).id = (s b).id → a = b) : ∃ r, Hydro g z N c T ⟨s, fun _ b => some (s b), []⟩ r := by
  have key : ∀ N c (T : Trees i n m) (d : DState (Particle (i + 1)) n), Division n (2 ^ m) T.vec → (∀ a, Sized (d.val a)) → Distinct d.val → Full d → d.flight = [] → ∃ r, Hydro g z N c T d r := by
    intro N
    induction N with
    | zero => intro c T d _ _ _ _ _; exact ⟨_, .nil⟩
    | succ N ih =>
      intro c T d hdiv hp hi hF hf
      obtain ⟨r, h1, h2⟩ := pexec_exists hbits hn htol (T := T) (fit_iteration z hv he hw c) hp hi hdiv (fun h => Bool.noConfusion h) hF hf
      cases r with
      | failed => exact ⟨_, .fail h1⟩
      | clash => exact ⟨_, .clash h1⟩
      | ended T1 d1 =>
        obtain ⟨-, s2, s3, -, s5⟩ := sim hbits hn htol h1 (fit_iteration z hv he hw c) hp hi hdiv (fun h => Bool.noConfusion h)
        obtain ⟨r, hr⟩ := ih (Timestep.advance false c) T1 d1 s3 s2 (hi.of_ids s5) (h2 _ _ rfl).1 (h2 _ _ rfl).2
        exact ⟨r, .cons h1 hr⟩
  exact key N c T _ hdiv hpos hid (fun _ _ => rfl) rfl

omit hv in
/-- The same for the newtonian driver, with either viscosity. -/
theorem C79_newton_exists {N : Nat} {c : Timestep.Clock} {T : Trees i n m} (hdiv : Division n (2 ^ m) T.vec) (s : Fin n → Particle (i + 1)) (hpos : ∀ a, 0 < (s a).mass ∧ 0 < (s a).h)
    (hid : ∀ a b, (s a).id = (s b).id → a = b) : ∃ r, Newton g z N c T ⟨s, fun _ b => some (s b), []⟩ r := by
  have key : ∀ N c (T : Trees i n m) (d : DState (Particle (i + 1)) n), Division n (2 ^ m) T.vec → (∀ a, Sized (d.val a)) → Distinct d.val → Full d → d.flight = [] → ∃ r, Newton g z N c T d r := by
    intro N
    induction N with
    | zero => intro c T d _ _ _ _ _; exact ⟨_, .nil⟩
    | succ N ih =>
      intro c T d hdiv hp hi hF hf
      obtain ⟨r, h1, h2⟩ := pexec_exists hbits hn htol (T := T) (fit_head z c) hp hi hdiv (fun h => Bool.noConfusion h) hF hf
      cases r with
      | failed => exact ⟨_, .failHead h1⟩
      | clash => exact ⟨_, .clash h1⟩
      | ended T1 d1 =>
        obtain ⟨-, s2, s3, s4, s5⟩ := sim hbits hn htol h1 (fit_head z c) hp hi hdiv (fun h => Bool.noConfusion h)
        have i1 := hi.of_ids s5
        obtain ⟨T2, v, hp2⟩ := pulled_exists hbits (fun a => ⟨(s2 a).1, (s2 a).2.1⟩) i1 hn (s4 rfl)
        obtain ⟨g0, g1⟩ := good_pulled hbits (fun a => ⟨(s2 a).1, (s2 a).2.1⟩) i1 (s4 rfl) hp2
        obtain ⟨pot, acc, -, hG⟩ := gravitated_spec g.toGravity hbits hn (fun a => bodyOf (d1.val a)) (fun a => (s2 a).1) (fun a => (s2 a).2.1) (s4 rfl).apart
        have k2 := (hG d1.val (fun _ => rfl) i1 m).2 v g0
        have b1 : ∀ a, bodyOf (v a) = bodyOf (d1.val a) ∧ (v a).id = (d1.val a).id := fun a => by rw [k2 a]; exact ⟨rfl, rfl⟩
        have i2 : Distinct v := i1.of_ids fun a => (b1 a).2
        obtain ⟨r, h3, h4⟩ := pexec_exists hbits hn htol (T := T2) (d := { d1 with val := v }) (fit_tail z he hw c) (dense_grav s2 fun a => ⟨_, _, k2 a⟩) i2 g1.division (fun _ => g1.congr b1) (h2 _ _ rfl).1 (h2 _ _ rfl).2
        have nt : ∀ {r : Result i n m}, PExec g (tailOps z c) T2 { d1 with val := v } r → r ≠ .clash := by
          rintro r hr rfl
          obtain ⟨pre, post, _, _, e, -⟩ := sim hbits hn htol hr (fit_tail z he hw c) (dense_grav s2 fun a => ⟨_, _, k2 a⟩) i2 g1.division fun _ => g1.congr b1
          exact no_update z c (by rw [e]; simp)
        cases r with
        | failed => exact ⟨_, .failTail h1 hp2 h3⟩
        | clash => exact absurd rfl (nt h3)
        | ended T3 d2 =>
          obtain ⟨-, u2, u3, -, u5⟩ := sim hbits hn htol h3 (fit_tail z he hw c) (dense_grav s2 fun a => ⟨_, _, k2 a⟩) i2 g1.division fun _ => g1.congr b1
          obtain ⟨r, hr⟩ := ih (Timestep.advance false c) T3 d2 u3 u2 (i2.of_ids u5) (h4 _ _ rfl).1 (h4 _ _ rfl).2
          exact ⟨r, .cons h1 hp2 h3 hr⟩
  exact key N c T _ hdiv hpos hid (fun _ _ => rfl) rfl

end

/-! ### Examples -/

/-- The two particles of Props/RunExamples.lean on one process and on two, in the other order, with no trees yet. -/
private def one2 : Trees 1 2 0 := ⟨fun _ => [1, 0], fun _ => 0, [], fun _ _ => none, fun _ _ => none⟩
def two2 : Trees 1 2 1 := ⟨![[1], [0]], fun _ => 0, [], fun _ _ => none, fun _ _ => none⟩

private theorem one_div : Division 2 (2 ^ 0) one2.vec := ⟨by decide, by decide⟩
theorem two_div : Division 2 (2 ^ 1) two2.vec := ⟨by decide, by decide⟩

/-- The settings of the examples. -/
noncomputable def set2 : Settings := ⟨⟨64, 1000, 0, 1⟩, 0, 8⟩

theorem no_clash {ops : List (Op (Particle 2))} (hF : Fit (i := 1) (.update :: ops) false Sized false Sized ∨ Fit (i := 1) (.update :: ops) false Sized true DistRun.Dense) (ho : Op.update ∉ ops) :
    ¬PExec (i := 1) set2 (.update :: ops) two2 ⟨two, fun _ b => some (two b), []⟩ .clash := by
  have hp : ∀ a, 0 < (two a).mass ∧ 0 < (two a).h := fun a => by simp [two]
  have hid : Distinct (i := 1) two := fun a b h => Fin.ext h
  intro h
  cases h with
  | clash h => exact h two_separate
  | @update _ _ T' _ d' _ hap hu hb h =>
    have hgood := good_update (i := 1) (g := set2) (by decide : (1 : Fin 3).val + 1 < 64) hp hid two_div hap hu
    rcases hF with hF | hF
    all_goals
      obtain ⟨pre, post, _, _, e, -⟩ := sim (by decide : (1 : Fin 3).val + 1 < 64) (by decide) (show 0 ≤ set2.tol from le_rfl) h hF.2 (fun a => by rw [hb.val]; exact hp a) (by rw [hb.val]; exact hid) hgood.division
        (fun _ => by rw [hb.val]; exact hgood)
      exact ho (by rw [e]; simp)

/-- The first iteration of the hydro driver on two processes is done, and the momentum, which is kept, is not zero. -/
example (dt : ℝ) : ∃ c s, Hydro set2 (gas false .polytropic) 1 (start dt).clock two2 ⟨two, fun _ b => some (two b), []⟩ (.done c s) ∧ linearMomentum (i := 1) s 1 = 2 / 3 := by
  have hp : ∀ a, 0 < (two a).mass ∧ 0 < (two a).h := fun a => by simp [two]
  have hid : ∀ a b : Fin 2, (two a).id = (two b).id → a = b := fun a b h => Fin.ext h
  have he : 0 < (gas false .polytropic).eta := by norm_num [gas]
  have hw : 0 < (gas false .polytropic).width := by norm_num [gas]
  have hr : (gas false .polytropic).repulsionRadius ≤ 1 := by norm_num [gas]
  have hb : (1 : Fin 3).val + 1 < set2.bits := (by decide : (1 : Fin 3).val + 1 < 64)
  obtain ⟨r, h⟩ := C79_hydro_exists (z := gas false .polytropic) rfl he hw set2 hb (by decide) le_rfl (N := 1) (c := (start dt).clock) two_div two hp hid
  have ops : ∃ ops, iterationOps (gas false .polytropic) (start dt).clock = .update :: ops ∧ Op.update ∉ ops := by
    refine ⟨_, by unfold iterationOps; rw [if_pos (by rfl)]; rfl, ?_⟩
    have h1 : Op.update ∉ forceOps (gas false .polytropic) (start dt).clock.iteration := by
      unfold forceOps
      rw [List.mem_append, not_or]
      constructor
      · simp
      · split_ifs <;> simp
    have h2 : Op.update ∉ lastOps (gas false .polytropic) := by
      unfold lastOps
      cases (gas false .polytropic).hMode <;> simp
    simp only [gas, alphaOps, densityOp, reduceCtorEq] at h1 h2 ⊢
    simp_all
  obtain ⟨ops, ho, hno⟩ := ops
  cases r with
  | clash k =>
    exfalso
    cases h with
    | clash h => rw [ho] at h; exact no_clash (.inl (by rw [← ho]; exact fit_iteration _ rfl he hw _)) hno h
    | cons _ h => cases h
  | failed =>
    exfalso
    have hrun := (C79_hydro_refines (z := gas false .polytropic) rfl he hw set2 hb (by decide) le_rfl h hp hid two_div).2 rfl
    have h1 := C70_single_partial (z := gas false .polytropic) rfl he hw hr (fun _ => rfl) rfl [everybody 1 2] (fun w hw => by
      rw [List.mem_singleton.1 hw]; exact ⟨fun s _ => ⟨fun _ => List.nodup_finRange 2, fun _ b _ => List.mem_finRange b⟩, (everybody_faithful 1 2).order⟩) hrun hp rfl
    obtain ⟨st, h2, -⟩ := gas_runs 1 Nat.one_pos dt
    have h3 : run (gas false .polytropic) [everybody 1 2] ⟨(start dt).clock, two⟩ = some st := h2
    rw [h3] at h1
    cases h1
  | done c s =>
    refine ⟨c, s, h, ?_⟩
    rw [(C79_hydro_laws_partial (z := gas false .polytropic) rfl he hw set2 hb (by decide) le_rfl rfl hr (fun _ => rfl) le_rfl h rfl hp hid two_div rfl).2.1 1]
    simp [linearMomentum, two]; norm_num

/-- The first iteration of the newtonian driver on two processes is done, and the momentum is kept. -/
example (dt : ℝ) : ∃ c s, Newton set2 (gas false .polytropic) 1 (start dt).clock two2 ⟨two, fun _ b => some (two b), []⟩ (.done c s) ∧ linearMomentum (i := 1) s 1 = 2 / 3 := by
  have hp : ∀ a, 0 < (two a).mass ∧ 0 < (two a).h := fun a => by simp [two]
  have hid : ∀ a b : Fin 2, (two a).id = (two b).id → a = b := fun a b h => Fin.ext h
  have he : 0 < (gas false .polytropic).eta := by norm_num [gas]
  have hw : 0 < (gas false .polytropic).width := by norm_num [gas]
  have hr : (gas false .polytropic).repulsionRadius ≤ 1 := by norm_num [gas]
  have hb : (1 : Fin 3).val + 1 < set2.bits := (by decide : (1 : Fin 3).val + 1 < 64)
  obtain ⟨r, h⟩ := C79_newton_exists (z := gas false .polytropic) he hw set2 hb (by decide) le_rfl (N := 1) (c := (start dt).clock) two_div two hp hid
  have ops : ∃ ops, headOps (gas false .polytropic) (start dt).clock = .update :: ops ∧ Op.update ∉ ops := by
    refine ⟨_, by unfold headOps; rw [if_pos (by rfl)]; rfl, ?_⟩
    simp [gas, alphaOps, densityOp, accOps]
  obtain ⟨ops, ho, hno⟩ := ops
  have hnc : ∀ k, r ≠ .clash k := by
    rintro k rfl
    cases h with
    | clash h => rw [ho] at h; exact no_clash (.inr (by rw [← ho]; exact fit_head _ _)) hno h
    | cons _ _ _ h => cases h
  have hrun := C79_newton_refines (z := gas false .polytropic) he hw set2 hb (by decide) le_rfl h hp hid two_div hnc
  obtain ⟨c1, s1, hrun', -, -⟩ := two_done dt
  have hsame := C78_processes_partial (z := gas false .polytropic) rfl he hw hr set2.toGravity hb (by decide) (fun _ => rfl) hrun hrun' rfl hp hid rfl rfl
  cases r with
  | clash k => exact hsame.elim
  | failed => exact hsame.elim
  | done c s =>
    refine ⟨c, s, h, ?_⟩
    rw [((C79_newton_laws_partial (z := gas false .polytropic) he hw set2 hb (by decide) le_rfl (fun _ => rfl) le_rfl h rfl hp hid two_div).2.1 le_rfl).1 1]
    simp [linearMomentum, two]; norm_num

/-- Runs of any length of both drivers on one and on two processes exist and end in the same way. -/
example (k : Nat) (dt angle tol : ℝ) (htol : 0 ≤ tol) (group : Nat) :
    (∃ r r', Hydro ⟨⟨64, 1000, angle, 1⟩, tol, group⟩ (gas false .polytropic) k (start dt).clock one2 ⟨two, fun _ b => some (two b), []⟩ r ∧
      Hydro ⟨⟨64, 1000, angle, 1⟩, tol, group⟩ (gas false .polytropic) k (start dt).clock two2 ⟨two, fun _ b => some (two b), []⟩ r' ∧ SameOutcome r r') ∧
    ∃ r r', Newton ⟨⟨64, 1000, angle, 1⟩, tol, group⟩ (gas false .polytropic) k (start dt).clock one2 ⟨two, fun _ b => some (two b), []⟩ r ∧
      Newton ⟨⟨64, 1000, angle, 1⟩, tol, group⟩ (gas false .polytropic) k (start dt).clock two2 ⟨two, fun _ b => some (two b), []⟩ r' ∧ SameOutcome r r' := by
  have hp : ∀ a, 0 < (two a).mass ∧ 0 < (two a).h := fun a => by simp [two]
  have hid : ∀ a b : Fin 2, (two a).id = (two b).id → a = b := fun a b h => Fin.ext h
  have he : 0 < (gas false .polytropic).eta := by norm_num [gas]
  have hw : 0 < (gas false .polytropic).width := by norm_num [gas]
  have hr : (gas false .polytropic).repulsionRadius ≤ 1 := by norm_num [gas]
  obtain ⟨G, hG⟩ : ∃ G : Settings, G = ⟨⟨64, 1000, angle, 1⟩, tol, group⟩ := ⟨_, rfl⟩
  have hb : (1 : Fin 3).val + 1 < G.bits := by rw [hG]; exact (by decide : (1 : Fin 3).val + 1 < 64)
  have ht : 0 ≤ G.tol := by rw [hG]; exact htol
  rw [← hG]
  constructor
  · obtain ⟨r, h⟩ := C79_hydro_exists (z := gas false .polytropic) rfl he hw G hb (by decide) ht (N := k) (c := (start dt).clock) one_div two hp hid
    obtain ⟨r', h'⟩ := C79_hydro_exists (z := gas false .polytropic) rfl he hw G hb (by decide) ht (N := k) (c := (start dt).clock) two_div two hp hid
    exact ⟨r, r', h, h', C79_hydro_partial (z := gas false .polytropic) rfl he hw hr (fun _ => rfl) G hb (by decide) ht h h' rfl hp hid one_div two_div⟩
  · obtain ⟨r, h⟩ := C79_newton_exists (z := gas false .polytropic) he hw G hb (by decide) ht (N := k) (c := (start dt).clock) one_div two hp hid
    obtain ⟨r', h'⟩ := C79_newton_exists (z := gas false .polytropic) he hw G hb (by decide) ht (N := k) (c := (start dt).clock) two_div two hp hid
    exact ⟨r, r', h, h', C79_newton_partial (z := gas false .polytropic) rfl he hw hr (fun _ => rfl) G hb (by decide) ht h h' rfl hp hid one_div two_div⟩

end FleCSPH.Program
