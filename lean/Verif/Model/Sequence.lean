import Verif.Model.DistGravity
import Verif.Spec.GhostRun
/-!
Several traversals on one tree. The drivers build the tree (`update_iteration`, `reset_ghosts`) and then call `apply_in_smoothinglength` and `gravitation_fmm` one or more times, e.g.
app/drivers/newtonian/main_driver.cc:135-147: what a traversal has fetched from other processes stays in the tables of the process.
-/
namespace FleCSPH.DistGravity
open FleCSPH.Ghosts FleCSPH.Startup

/-- The tables and the data of the processes after `build_tree` and any number of traversals, each of which has ended on all processes (barriers, tree_topology.h:432, 793). `s` is the result of `build_tree`.
A search for neighbours is taken with any tests (`accept`) and groups; what it has fetched are copies of the data some process had after `build_tree`. -/
inductive After {d : Nat} (n nch fuel : Nat) (s : List (ShareTable.Proc (Data d))) : (Nat → Table) → (Nat → DataTable d) → Prop
  | built : After n nch fuel s (ghostTables s) (dataOf s)
  | sph {tbl dat} {τ : Type} (accept : τ → Key → Bool) (s0 s' : State τ (τ × List Key)) (dat' : Nat → DataTable d) (h : After n nch fuel s tbl dat)
      (h0 : s0 = { tbl := tbl, tasks := s0.tasks, results := fun _ => [], toSend := fun _ => [], trans := fun _ => [], asked := fun _ => [], sent := fun _ => false, got := fun _ _ => false })
      (hr : Run (sph n nch accept fuel) s0 s') (hend : ∀ p < n, exited n s' p) (copies : ∀ p k v, dat' p k = some v → ∃ q < n, dataOf s q k = some v)
      (here : ∀ p < n, ∀ k, (s'.tbl p k).isSome → (dat' p k).isSome) : After n nch fuel s s'.tbl dat'
  | fmm {tbl dat} (angle : ℝ) (T : DState d) (h : After n nch fuel s tbl dat) (hr : DRun n nch angle (begin_ n s tbl dat) T) (hend : ∀ p < n, exited n T.run p) : After n nch fuel s T.run.tbl T.dat

end FleCSPH.DistGravity
