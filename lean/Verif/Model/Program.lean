import Verif.Model.Newtonian
import Verif.Model.SphRun
/-!
The two drivers from the positions of the particles to their new state: the calls of Model/DistRun.lean and Model/Newtonian.lean, where the homes of the particles, the neighbour lists and gravity are those
the trees give. `update_iteration` (Model/Update.lean) divides the particles and builds the trees, `reset_ghosts` builds them again, and the traversals (Model/SphRun.lean, Model/DistGravity.lean) are made one
after the other on the tables which the last one has left. Periodic boundaries, outputs and the adaptive time step are left out.
-/
namespace FleCSPH.Program
open FleCSPH.Geometry FleCSPH.Sph FleCSPH.Driver FleCSPH.DistRun FleCSPH.Cofm FleCSPH.Key FleCSPH.Newtonian FleCSPH.Update

variable {i : Fin 3} {n m : Nat}

/-- The settings: those of gravity; the tolerance of the tests of boxes (tree_geometry.h); `sub_entities_`, the largest number of particles of a group (tree_topology.h:221-235). -/
structure Settings extends Gravity where
  tol : ℝ
  group : Nat

/-- The trees of all `2^m` processes: `vec`, the order of the particles in `entities_`; `key`, their keys; `built`, the tables after `build_tree`; `tbl` and `dat`, the tables and the data of the cells now. -/
structure Trees (i : Fin 3) (n m : Nat) where
  vec : Fin (2 ^ m) → List (Fin n)
  key : Fin n → Nat
  built : List (ShareTable.Proc (Startup.Data (i + 1)))
  tbl : Nat → Ghosts.Table
  dat : Nat → DistGravity.DataTable (i + 1)

/-- `entities_` of all processes. -/
def ents (vec : Fin (2 ^ m) → List (Fin n)) (key : Fin n → Nat) (v : Fin n → Particle (i + 1)) (r : Fin (2 ^ m)) : List (Ent (i + 1)) := (vec r).map fun a => ⟨bodyOf (v a), (v a).id, key a⟩

/-- The process which has the particle. -/
def homeOf (vec : Fin (2 ^ m) → List (Fin n)) (a : Fin n) : Nat := ((List.finRange (2 ^ m)).find? fun r => decide (a ∈ vec r)).elim 0 Fin.val

/-- `update_iteration`, bodies_system.h:152-229: new keys, a new division of the particles, new trees. -/
def Updated (g : Settings) (v : Fin n → Particle (i + 1)) (T T' : Trees i n m) : Prop :=
  ∃ (sort : Psort.StdSort) (junk : Nat → Fin (2 ^ m) → Ent (i + 1)) (fuel : Nat), n ≤ fuel ∧ update g.bits sort junk fuel g.big (ents T.vec T.key v) = some (ents T'.vec T'.key v, T'.built) ∧
    T'.tbl = Startup.ghostTables T'.built ∧ T'.dat = DistGravity.dataOf T'.built

/-- `reset_ghosts`, bodies_system.h:273-275 and tree_topology.h:154-157: `build_tree` for the particles and keys as they are. -/
def Again (g : Settings) (v : Fin n → Particle (i + 1)) (T T' : Trees i n m) : Prop :=
  T'.vec = T.vec ∧ T'.key = T.key ∧
    Startup.startup (maxDepth g.bits (i + 1)) (i + 1) (Startup.summarise g.big) (fun x => .inl (bodyAt (ents T.vec T.key v) x)) (ranksOf (ents T.vec T.key v)) = some T'.built ∧
    T'.tbl = Startup.ghostTables T'.built ∧ T'.dat = DistGravity.dataOf T'.built

/-- The messages and calls of `apply_in_smoothinglength`, bodies_system.h:304-307, tree_topology.h:213-442, on all processes, to the end: a run of the search from the tables as they are, for the groups each
process selects, with the data of the cells (`Val`). The calls of the user's function on each process are one for each of its particles with the list `nbs`. The data which was fetched is that of some
process. -/
def Searched (g : Settings) (T T' : Trees i n m) (nbs : Fin n → List (Fin n)) : Prop :=
  ∃ (Val : List Nat → Startup.Data (i + 1)) (groups : Nat → List SphRun.Group) (st : Ghosts.State SphRun.Group (SphRun.Group × List (List Nat))),
    (∀ p < 2 ^ m, ∀ k v, DistGravity.dataOf T.built p k = some v → Val k = v) ∧
    (∀ p < 2 ^ m, ∃ me, T.built[p]? = some me ∧ SphRun.groupsOf (2 ^ (i.val + 1)) me.tbl g.group (maxDepth g.bits (i + 1) + 1) = some (groups p)) ∧
    Ghosts.Run (Ghosts.sph (2 ^ m) (2 ^ (i.val + 1)) (SphRun.accepts g.tol Val) (maxDepth g.bits (i + 1) + 2))
      ⟨T.tbl, groups, fun _ => [], fun _ => [], fun _ => [], fun _ => [], fun _ => false, fun _ _ => false⟩ st ∧
    (∀ p < 2 ^ m, Ghosts.exited (2 ^ m) st p) ∧ (∀ p : Fin (2 ^ m), Spec.CallsFor (maxDepth g.bits (i + 1)) (i + 1) T.key nbs (T.vec p) (SphRun.calls Val (st.results p))) ∧
    T'.vec = T.vec ∧ T'.key = T.key ∧ T'.built = T.built ∧ T'.tbl = st.tbl ∧ (∀ p k v, T'.dat p k = some v → ∃ q < 2 ^ m, DistGravity.dataOf T.built q k = some v) ∧
    ∀ p < 2 ^ m, ∀ k, (st.tbl p k).isSome → (T'.dat p k).isSome

/-- `gravitation_fmm`, bodies_system.h:282-288, on the tables as they are: every process writes potential and acceleration of its particles, whose potential and acceleration were set to zero before
(default_physics.h:406-407). -/
def Pulled (g : Settings) (T T' : Trees i n m) (v v' : Fin n → Particle (i + 1)) : Prop :=
  ∃ (S : DistGravity.DState (i + 1)) (ids : Ghosts.Key → Int),
    (∀ a e, Spec.LeafOf (maxDepth g.bits (i + 1)) (i + 1) ((List.finRange n).map T.key) (T.key a) e → ids e = (v a).id) ∧
    DistGravity.DRun (2 ^ m) (2 ^ (i.val + 1)) g.angle (DistGravity.begin_ (2 ^ m) T.built T.tbl T.dat) S ∧ (∀ p < 2 ^ m, Ghosts.exited (2 ^ m) S.run p) ∧
    (∀ p : Fin (2 ^ m), ∃ F, DistGravity.gravity (2 ^ (i.val + 1)) p (S.run.tbl p) (S.dat p) g.const ids (maxDepth g.bits (i + 1) + 1) (S.run.results p) = some F ∧
      ∀ a ∈ T.vec p, ∀ e, Spec.LeafOf (maxDepth g.bits (i + 1)) (i + 1) ((List.finRange n).map T.key) (T.key a) e → v' a = { v a with gpot := F.pot e, gacc := F.acc e }) ∧
    T'.vec = T.vec ∧ T'.key = T.key ∧ T'.built = T.built ∧ T'.tbl = S.run.tbl ∧ T'.dat = S.dat

/-- How a list of calls ends: with trees and particles; with a failed assertion; or at an `update_iteration` for which two particles are in one cell of the finest grid of the keys. The program is then
undefined (`C10_duplicate_violated`), and nothing is said about it. -/
inductive Result (i : Fin 3) (n m : Nat)
  | ended (T : Trees i n m) (d : DState (Particle (i + 1)) n)
  | failed
  | clash

/-- No two particles are in one cell of the finest grid. -/
def Apart (g : Settings) (v : Fin n → Particle (i + 1)) : Prop := Spec.Separate (maxDepth g.bits (i + 1)) fun a => bodyOf (v a)

/-- A list of calls of a driver. The rules are those of `DistRun.DExec`, with the trees. -/
inductive PExec (g : Settings) : List (Op (Particle (i + 1))) → Trees i n m → DState (Particle (i + 1)) n → Result i n m → Prop
  | nil {T d} : PExec g [] T d (.ended T d)
  | all {f ops T d r} (v) : (∀ a, f (d.val a) = some (v a)) → PExec g ops T { d with val := v } r → PExec g (.all f :: ops) T d r
  | allFail {f ops T d} (a) : f (d.val a) = none → PExec g (.all f :: ops) T d .failed
  | pass {k f ops T T' d d' r} (nbs order) : Searched g T T' nbs → order.Nodup → (∀ a, a ∈ order) → DPass (homeOf T.vec) f nbs order d (some d') → PExec g ops T' d' r → PExec g (.pass k f :: ops) T d r
  | passFail {k f ops T T' d} (nbs order) : Searched g T T' nbs → order.Nodup → (∀ a, a ∈ order) → DPass (homeOf T.vec) f nbs order d none → PExec g (.pass k f :: ops) T d .failed
  | reset {ops T T' d d' r} : Again g d.val T T' → Rebuilt d d' → PExec g ops T' d' r → PExec g (.reset :: ops) T d r
  | update {ops T T' d d' r} : Apart g d.val → Updated g d.val T T' → Rebuilt d d' → PExec g ops T' d' r → PExec g (.update :: ops) T d r
  | clash {ops T d} : ¬Apart g d.val → PExec g (.update :: ops) T d .clash
  | mean {h set ops T d r} : PExec g ops T { d with val := fun a => set (1 / (n : ℝ) * ∑ p ∈ Finset.range (2 ^ m), ∑ b with homeOf T.vec b = p, h (d.val b)) (d.val a) } r → PExec g (.mean h set :: ops) T d r

/-- A run of the hydro driver, app/drivers/hydro/main_driver.cc:98-277. -/
inductive Hydro (g : Settings) (z : Config i) : Nat → Timestep.Clock → Trees i n m → DState (Particle (i + 1)) n → Outcome i n → Prop
  | nil {c T d} : Hydro g z 0 c T d (.done c d.val)
  | fail {N c T d} : PExec g (iterationOps z c) T d .failed → Hydro g z (N + 1) c T d .failed
  | clash {N c T d} : PExec g (iterationOps z c) T d .clash → Hydro g z (N + 1) c T d (.clash c.iteration)
  | cons {N c T T' d d' r} : PExec g (iterationOps z c) T d (.ended T' d') → Hydro g z N (Timestep.advance false c) T' d' r → Hydro g z (N + 1) c T d r

/-- A run of the newtonian driver, app/drivers/newtonian/main_driver.cc:103-298. -/
inductive Newton (g : Settings) (z : Config i) : Nat → Timestep.Clock → Trees i n m → DState (Particle (i + 1)) n → Outcome i n → Prop
  | nil {c T d} : Newton g z 0 c T d (.done c d.val)
  | failHead {N c T d} : PExec g (headOps z c) T d .failed → Newton g z (N + 1) c T d .failed
  | clash {N c T d} : PExec g (headOps z c) T d .clash → Newton g z (N + 1) c T d (.clash c.iteration)
  | failTail {N c T T' T'' d d' v} : PExec g (headOps z c) T d (.ended T' d') → Pulled g T' T'' d'.val v → PExec g (tailOps z c) T'' { d' with val := v } .failed → Newton g z (N + 1) c T d .failed
  | cons {N c T T' T'' T3 d d' d'' v r} : PExec g (headOps z c) T d (.ended T' d') → Pulled g T' T'' d'.val v → PExec g (tailOps z c) T'' { d' with val := v } (.ended T3 d'') →
      Newton g z N (Timestep.advance false c) T3 d'' r → Newton g z (N + 1) c T d r

end FleCSPH.Program
