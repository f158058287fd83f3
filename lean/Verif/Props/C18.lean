import Verif.Lemmas.GhostSph
import Mathlib.Tactic.FinCases
/-!
C18: during a traversal a remote cell is requested at most once, a cell is treated as complete only when all its announced children have arrived, and for every order of message arrival the
traversal terminates having visited exactly the cells a single-process traversal would visit.

Here: `traversal_sph`, the machine `sph n nch accept fuel` of Model/Ghosts.lean. `Run P s0 s`: the state `s` is reached from `s0` by any interleaving of the processes and any order of message arrival
which MPI allows. The tree is described by `IsTree`, the visited entities by `Reached` (Spec/Ghosts.lean); the state before the traversal by `Start`. For `traversal_fmm` see Props/C18fmm.lean.
-/
namespace FleCSPH.Ghosts

variable {τ : Type}

section
variable {n nch fuel : Nat} {accept : τ → Key → Bool} {G : Key → Option GCell} {cells : Finset Key} {s0 s : State τ (τ × List Key)}

/-- C18, no undefined behaviour: whatever happens next, no missing cell is followed and no cell of the wrong kind is used. -/
theorem C18_safe (hT : IsTree nch G cells) (hf : ∀ k ∈ cells, k.length + 2 ≤ fuel) (h0 : Start (sph n nch accept fuel) G s0) (h : Run (sph n nch accept fuel) s0 s)
    {r : Option (State τ (τ × List Key))} (hn : Next (sph n nch accept fuel) s r) : r ≠ none := by
  obtain ⟨s', h1, _⟩ := inv_next hT (inv_run (K := sphTasks n accept _ hT hf) hT h0 (fun _ _ _ _ => trivial) h) hn
  rw [h1]
  simp

/-- C18, once: no process requests a key twice. -/
theorem C18_once (hT : IsTree nch G cells) (hf : ∀ k ∈ cells, k.length + 2 ≤ fuel) (h0 : Start (sph n nch accept fuel) G s0) (h : Run (sph n nch accept fuel) s0 s) {p : Nat} (hp : p < n) :
    (s.asked p).Nodup :=
  ((inv_run (K := sphTasks n accept _ hT hf) hT h0 (fun _ _ _ _ => trivial) h).asked p hp).1

/-- C18, complete: when a process takes a node for complete, all its children in the global tree are in its table. -/
theorem C18_complete (hT : IsTree nch G cells) (hf : ∀ k ∈ cells, k.length + 2 ≤ fuel) (h0 : Start (sph n nch accept fuel) G s0) (h : Run (sph n nch accept fuel) s0 s) {p : Nat} (hp : p < n)
    {k : Key} {c : Cell} (hc : s.tbl p k = some c) (he : emptyNode c = false) (j : Nat) (hj : (G (j :: k)).isSome) : (s.tbl p (j :: k)).isSome :=
  run_complete (K := sphTasks n accept _ hT hf) hT h0 (fun _ _ _ _ => trivial) h hp hc he j hj

/-- C18, visited: a task which is finished has reached exactly the entities all of whose ancestors pass its tests. -/
theorem C18_visited (hT : IsTree nch G cells) (hf : ∀ k ∈ cells, k.length + 2 ≤ fuel) (h0 : Start (sph n nch accept fuel) G s0) (h : Run (sph n nch accept fuel) s0 s) {p : Nat} (hp : p < n)
    {a : τ} {es : List Key} (hr : (a, es) ∈ s.results p) : Reached G (accept a) es :=
  (sph_hist ((inv_run (K := sphTasks n accept _ hT hf) hT h0 (fun _ _ _ _ => trivial) h).hist p hp)).2 (a, es) hr

/-- C18, as a single process: one process which has the whole tree finds the same entities for the task. -/
theorem C18_single (hT : IsTree nch G cells) (hf : ∀ k ∈ cells, k.length + 2 ≤ fuel) (h0 : Start (sph n nch accept fuel) G s0) (h : Run (sph n nch accept fuel) s0 s) {p : Nat} (hp : p < n)
    {a : τ} {es : List Key} (hr : (a, es) ∈ s.results p) {t : Table} (ht : Good G t) (hall : ∀ k c, t k = some c → emptyNode c = false) :
    ∃ es', explore nch t (accept a) fuel [[]] [] = some (.found es') ∧ es'.Perm es := by
  obtain ⟨r, h1, h2⟩ := explore_spec (accept := accept a) hT ht hf
  cases r with
  | missing ms =>
    obtain ⟨e1, _, e3⟩ := h2
    obtain ⟨k, hk⟩ := List.exists_mem_of_ne_nil _ e1
    obtain ⟨_, _, c, hc, hem⟩ := e3 k hk
    rw [hall k c hc] at hem
    cases hem
  | found es' =>
    have h3 := C18_visited hT hf h0 h hp hr
    refine ⟨es', h1, (List.perm_ext_iff_of_nodup h2.1.1 h3.1).2 fun k => ?_⟩
    rw [h2.1.2, h3.2]

/-- C18, termination: the number of steps which change anything is bounded by the size of the tree, the number of tasks and the number of processes, whatever the order of messages. -/
theorem C18_bounded (hT : IsTree nch G cells) (hf : ∀ k ∈ cells, k.length + 2 ≤ fuel) (h0 : Start (sph n nch accept fuel) G s0) {m : Nat} (h : RunN (sph n nch accept fuel) s0 m s) :
    m ≤ ∑ p ∈ Finset.range n, (5 * cells.card + (s0.tasks p).length + 1 + n) := by
  refine (run_bounded (K := sphTasks n accept _ hT hf) hT h0 (fun _ _ _ _ => trivial) h).trans (le_of_eq (Finset.sum_congr rfl fun p _ => ?_))
  have : ((s0.tasks p).map (sphTasks n accept (Mine s0) hT hf).cost).sum = (s0.tasks p).length := by
    show ((s0.tasks p).map fun _ => 1).sum = _
    simp
  rw [this]
  rfl

/-- C18, no deadlock: as long as a process has not left the traversal, something that changes the state can happen; in particular no process waits for a message that never comes. -/
theorem C18_progress (hT : IsTree nch G cells) (hf : ∀ k ∈ cells, k.length + 2 ≤ fuel) (h0 : Start (sph n nch accept fuel) G s0) (h : Run (sph n nch accept fuel) s0 s)
    (hleft : ∃ p < n, ¬ exited n s p) : ∃ s', Next (sph n nch accept fuel) s (some s') ∧ s' ≠ s :=
  run_progress (K := sphTasks n accept _ hT hf) hT h0 (fun _ _ _ _ => trivial) h hleft

/-- C18, end: when all processes have left the traversal, no message is left, and every task of every process was finished exactly once with the right entities. -/
theorem C18_end (hT : IsTree nch G cells) (hf : ∀ k ∈ cells, k.length + 2 ≤ fuel) (h0 : Start (sph n nch accept fuel) G s0) (h : Run (sph n nch accept fuel) s0 s)
    (hend : ∀ p < n, exited n s p) (p : Nat) (hp : p < n) :
    s.trans p = [] ∧ s.toSend p = [] ∧ s.tasks p = [] ∧ ((s.results p).map Prod.fst).Perm (s0.tasks p) ∧ ∀ r ∈ s.results p, Reached G (accept r.1) r.2 := by
  obtain ⟨h1, h2, h3⟩ := run_end (K := sphTasks n accept _ hT hf) hT h0 (fun _ _ _ _ => trivial) h hend p hp
  obtain ⟨h4, h5⟩ := sph_hist ((inv_run (K := sphTasks n accept _ hT hf) hT h0 (fun _ _ _ _ => trivial) h).hist p hp)
  rw [h3, List.nil_append] at h4
  exact ⟨h1, h2, h3, h4, h5⟩

/-- C18, from every state that is reached the end can be reached. -/
theorem C18_can_end (hT : IsTree nch G cells) (hf : ∀ k ∈ cells, k.length + 2 ≤ fuel) (h0 : Start (sph n nch accept fuel) G s0) (h : Run (sph n nch accept fuel) s0 s) :
    ∃ s', Run (sph n nch accept fuel) s s' ∧ ∀ p < n, exited n s' p :=
  run_can_end (K := sphTasks n accept _ hT hf) hT h0 (fun _ _ _ _ => trivial) h

/-- C18, a process does not leave too early: when one process has left, no request is waiting for an answer anywhere. -/
theorem C18_served (hT : IsTree nch G cells) (hf : ∀ k ∈ cells, k.length + 2 ≤ fuel) (h0 : Start (sph n nch accept fuel) G s0) (h : Run (sph n nch accept fuel) s0 s) {p : Nat} (hp : p < n)
    (he : exited n s p) (q : Nat) (hq : q < n) : s.trans q = [] :=
  run_served (K := sphTasks n accept _ hT hf) hT h0 (fun _ _ _ _ => trivial) h hp he q hq

/-- C18, again: after a traversal the tables are fit for the next one, whatever its tasks and tests; so all of the above holds for every sequence of traversals on one tree. -/
theorem C18_again {τ' ω' : Type} {P' : Par τ' ω'} (hn : P'.n = n) (hT : IsTree nch G cells) (hf : ∀ k ∈ cells, k.length + 2 ≤ fuel) (h0 : Start (sph n nch accept fuel) G s0)
    (h : Run (sph n nch accept fuel) s0 s) (hend : ∀ p < n, exited n s p) (tasks : Nat → List τ') : Start P' G (restart (ω' := ω') s tasks) :=
  (run_again (K := sphTasks n accept _ hT hf) hn hT h0 (fun _ _ _ _ => trivial) h hend tasks).1

end

/-! ### A case

Two processes. The root has the node `[0]`, owned by process 0, and the entity `[1]`, owned by process 1; `[0]` has an entity and a node with one entity. Process 1 knows `[0]` without its
children. -/

def exG : Key → Option GCell
  | [] => some ⟨false, {0, 1}⟩
  | [0] => some ⟨false, {0, 1}⟩
  | [1] => some ⟨true, ∅⟩
  | [0, 0] => some ⟨true, ∅⟩
  | [1, 0] => some ⟨false, {0}⟩
  | [0, 1, 0] => some ⟨true, ∅⟩
  | _ => none

def exCells : Finset Key := {[], [0], [1], [0, 0], [1, 0], [0, 1, 0]}

def exT0 : Table
  | [] => some ⟨false, {0, 1}, 0, false, 0⟩
  | [0] => some ⟨false, {0, 1}, 0, false, 0⟩
  | [1] => some ⟨true, ∅, 0, false, 1⟩
  | [0, 0] => some ⟨true, ∅, 0, false, 0⟩
  | [1, 0] => some ⟨false, {0}, 0, false, 0⟩
  | [0, 1, 0] => some ⟨true, ∅, 0, false, 0⟩
  | _ => none

def exT1 : Table
  | [] => some ⟨false, {0, 1}, 0, false, 1⟩
  | [0] => some ⟨false, ∅, 0, false, 0⟩
  | [1] => some ⟨true, ∅, 0, false, 1⟩
  | _ => none

def exPar : Par Unit (Unit × List Key) := sph 2 2 (fun _ _ => true) 5

def exState : State Unit (Unit × List Key) :=
  { tbl := fun p => if p = 0 then exT0 else exT1, tasks := fun _ => [()], results := fun _ => [], toSend := fun _ => [], trans := fun _ => [], asked := fun _ => [], sent := fun _ => false, got := fun _ _ => false }

theorem ex_tree : IsTree 2 exG exCells where
  mem := by
    intro k
    unfold exG exCells
    split <;> simp_all
  root := ⟨_, rfl, rfl⟩
  child := by
    intro j k
    rcases k with _ | ⟨a, _ | ⟨b, _ | ⟨c, k⟩⟩⟩ <;> rcases j with _ | _ | j <;> try rcases a with _ | _ | a
    all_goals try rcases b with _ | _ | b
    all_goals try rcases c with _ | _ | c
    all_goals simp [exG]
    all_goals (rcases k with _ | ⟨d, k⟩ <;> simp)
  leaf := by
    intro k g h
    unfold exG at h
    split at h <;> simp_all <;> subst h <;> simp
  slots := by
    intro k g h
    unfold exG at h
    split at h <;> simp_all <;> subst h <;> simp

theorem ex_good0 : Good exG exT0 where
  sub := by
    intro k c h
    unfold exT0 at h
    split at h <;> simp_all [exG] <;> subst h <;> simp
  link := by
    intro j k
    rcases k with _ | ⟨a, _ | ⟨b, _ | ⟨c, k⟩⟩⟩ <;> rcases j with _ | _ | j <;> try rcases a with _ | _ | a
    all_goals try rcases b with _ | _ | b
    all_goals try rcases c with _ | _ | c
    all_goals simp [exT0]
    all_goals (rcases k with _ | ⟨d, k⟩ <;> simp)
  root := ⟨_, rfl, by simp [emptyNode]⟩

theorem ex_good1 : Good exG exT1 where
  sub := by
    intro k c h
    unfold exT1 at h
    split at h <;> simp_all [exG] <;> subst h <;> simp
  link := by
    intro j k
    rcases k with _ | ⟨a, _ | ⟨b, k⟩⟩ <;> rcases j with _ | _ | j <;> try rcases a with _ | _ | a
    all_goals simp [exT1]
  root := ⟨_, rfl, by simp [emptyNode]⟩

theorem ex_start : Start exPar exG exState where
  good := by
    intro p _
    show Good exG (if p = 0 then exT0 else exT1)
    split_ifs
    · exact ex_good0
    · exact ex_good1
  own := by
    intro p _ k c h
    change (if p = 0 then exT0 else exT1) k = some c at h
    show c.owner < 2 ∧ ∃ c' g, (if c.owner = 0 then exT0 else exT1) k = some c' ∧ exG k = some g ∧ c'.kids = g.kids
    split_ifs at h
    · unfold exT0 at h
      split at h <;> simp_all <;> subst h <;> simp [exT0, exT1, exG]
    · unfold exT1 at h
      split at h <;> simp_all <;> subst h <;> simp [exT0, exT1, exG]
  fresh := by
    intro p _ k c h
    change (if p = 0 then exT0 else exT1) k = some c at h
    split_ifs at h
    · unfold exT0 at h
      split at h <;> simp_all <;> subst h <;> simp [exG]
    · unfold exT1 at h
      split at h <;> simp_all <;> subst h <;> simp [exG]
  toSend := fun _ _ => rfl
  trans := fun _ _ => rfl
  asked := fun _ _ => rfl
  results := fun _ _ => rfl
  sent := fun _ _ => rfl
  got := fun _ _ _ _ => rfl

theorem ex_fuel : ∀ k ∈ exCells, k.length + 2 ≤ 5 := by decide

/-- Process 1 first misses `[0]` and asks process 0 for it. -/
example : (work exPar exState 1 [] () []).map (fun s => (s.asked 1, ((flush exPar s 1).trans 1).map fun x => (x.owner, x.keys))) = some ([[0]], [(0, [[0]])]) := by decide +kernel

/-- Process 0 can finish its task at once. -/
example : (work exPar exState 0 [] () []).map (fun s => s.results 0) = some [((), [[1], [0, 0], [0, 1, 0]])] := by decide +kernel

example (s : State Unit (Unit × List Key)) (h : Run exPar exState s) : (s.asked 1).Nodup := C18_once ex_tree ex_fuel ex_start h (by decide)

example : ∃ s', Next exPar exState (some s') ∧ s' ≠ exState :=
  C18_progress ex_tree ex_fuel ex_start .start ⟨0, by decide, fun h => by have := h 0 (by decide); cases this⟩

/-- The order of the two replies matters: if the entity reply came first, process 1 would take `[0]` for complete although the node `[1, 0]` below it is missing. -/
theorem C18_order_needed : ∃ ns es t c, reply 2 exT0 [[0]] = some (ns, es) ∧ recvEnts exT1 es = some t ∧ t [0] = some c ∧ emptyNode c = false ∧ (exG [1, 0]).isSome ∧ t [1, 0] = none :=
  ⟨_, _, _, _, rfl, rfl, rfl, by decide, rfl, rfl⟩

end FleCSPH.Ghosts
