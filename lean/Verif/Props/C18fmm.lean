import Verif.Lemmas.GhostCover
import Verif.Props.C18
/-!
C18 and C14 for `traversal_fmm` on several processes, the machine `fmm n nch mac bigger` of Model/Ghosts.lean. Every process starts with the pair of the root and itself.

C14: the particles act on each other exactly once, whatever the number of processes and the order of messages: `actions` are the pairs of a particle and a cell that acts on it, and each particle is
in exactly one of the cells that act on a particle.
-/
namespace FleCSPH.Ghosts

section
variable {n nch fuel : Nat} {mac bigger : Key → Key → Bool} {G : Key → Option GCell} {cells : Finset Key} {s0 s : State (Key × Key) Call}

theorem fmm_ok (hT : IsTree nch G cells) (h0 : Start (fmm n nch mac bigger) G s0) (hq : ∀ p < n, s0.tasks p = [([], [])]) (hm : ∀ p < n, Mine s0 p []) :
    ∀ p < (fmm n nch mac bigger).n, ∀ a ∈ s0.tasks p, (fmmTasks (n := n) (mac := mac) (bigger := bigger) hT s0).Ok p (s0.tbl p) a := by
  intro p hp a ha
  rw [hq p hp, List.mem_singleton] at ha
  subst ha
  obtain ⟨c, hc, _⟩ := (h0.good p hp).root
  exact ⟨hm p hp, by rw [hc]; rfl⟩

/-- C18, no undefined behaviour, and the assertion that a process works for its own cells only holds. -/
theorem C18_fmm_safe (hT : IsTree nch G cells) (h0 : Start (fmm n nch mac bigger) G s0) (hq : ∀ p < n, s0.tasks p = [([], [])]) (hm : ∀ p < n, Mine s0 p [])
    (h : Run (fmm n nch mac bigger) s0 s) {r : Option (State (Key × Key) Call)} (hn : Next (fmm n nch mac bigger) s r) : r ≠ none := by
  obtain ⟨s', h1, _⟩ := inv_next hT (inv_run hT h0 (fmm_ok hT h0 hq hm) h) hn
  rw [h1]
  simp

/-- C18, once: no process requests a key twice. -/
theorem C18_fmm_once (hT : IsTree nch G cells) (h0 : Start (fmm n nch mac bigger) G s0) (hq : ∀ p < n, s0.tasks p = [([], [])]) (hm : ∀ p < n, Mine s0 p [])
    (h : Run (fmm n nch mac bigger) s0 s) {p : Nat} (hp : p < n) : (s.asked p).Nodup :=
  ((inv_run hT h0 (fmm_ok hT h0 hq hm) h).asked p hp).1

/-- C18, complete: when a process takes a node for complete, all its children in the global tree are in its table. -/
theorem C18_fmm_complete (hT : IsTree nch G cells) (h0 : Start (fmm n nch mac bigger) G s0) (hq : ∀ p < n, s0.tasks p = [([], [])]) (hm : ∀ p < n, Mine s0 p [])
    (h : Run (fmm n nch mac bigger) s0 s) {p : Nat} (hp : p < n) {k : Key} {c : Cell} (hc : s.tbl p k = some c) (he : emptyNode c = false) (j : Nat) (hj : (G (j :: k)).isSome) :
    (s.tbl p (j :: k)).isSome :=
  run_complete hT h0 (fmm_ok hT h0 hq hm) h hp hc he j hj

/-- C18, termination: the number of steps which change anything is bounded by the size of the tree and the number of processes. -/
theorem C18_fmm_bounded (hT : IsTree nch G cells) (h0 : Start (fmm n nch mac bigger) G s0) (hq : ∀ p < n, s0.tasks p = [([], [])]) (hm : ∀ p < n, Mine s0 p []) {m : Nat}
    (h : RunN (fmm n nch mac bigger) s0 m s) : m ≤ n * (5 * cells.card + cells.card * cells.card + 1 + n) := by
  refine (run_bounded hT h0 (fmm_ok hT h0 hq hm) h).trans ?_
  have : ∀ p ∈ Finset.range (fmm n nch mac bigger).n, 5 * cells.card + ((s0.tasks p).map (fmmTasks (n := n) (mac := mac) (bigger := bigger) hT s0).cost).sum + 1 + (fmm n nch mac bigger).n ≤
      5 * cells.card + cells.card * cells.card + 1 + n := by
    intro p hp
    rw [hq p (Finset.mem_range.1 hp), List.map_singleton, List.sum_singleton]
    have : (region cells ([], [])).card ≤ cells.card * cells.card := by
      unfold region
      rw [← Finset.card_product]
      exact Finset.card_filter_le _ _
    have e : (fmmTasks (n := n) (mac := mac) (bigger := bigger) hT s0).cost ([], []) = (region cells ([], [])).card := rfl
    have e2 : (fmm n nch mac bigger).n = n := rfl
    rw [e, e2]
    omega
  refine (Finset.sum_le_card_nsmul _ _ _ this).trans (le_of_eq ?_)
  rw [Finset.card_range]
  rfl

/-- C18, no deadlock. -/
theorem C18_fmm_progress (hT : IsTree nch G cells) (h0 : Start (fmm n nch mac bigger) G s0) (hq : ∀ p < n, s0.tasks p = [([], [])]) (hm : ∀ p < n, Mine s0 p [])
    (h : Run (fmm n nch mac bigger) s0 s) (hleft : ∃ p < n, ¬ exited n s p) : ∃ s', Next (fmm n nch mac bigger) s (some s') ∧ s' ≠ s :=
  run_progress hT h0 (fmm_ok hT h0 hq hm) h hleft

/-- C18, from every state that is reached the end can be reached. -/
theorem C18_fmm_can_end (hT : IsTree nch G cells) (h0 : Start (fmm n nch mac bigger) G s0) (hq : ∀ p < n, s0.tasks p = [([], [])]) (hm : ∀ p < n, Mine s0 p [])
    (h : Run (fmm n nch mac bigger) s0 s) : ∃ s', Run (fmm n nch mac bigger) s s' ∧ ∀ p < n, exited n s' p :=
  run_can_end hT h0 (fmm_ok hT h0 hq hm) h

/-- C18, a process does not leave too early: when one process has left, no request is waiting for an answer anywhere. -/
theorem C18_fmm_served (hT : IsTree nch G cells) (h0 : Start (fmm n nch mac bigger) G s0) (hq : ∀ p < n, s0.tasks p = [([], [])]) (hm : ∀ p < n, Mine s0 p [])
    (h : Run (fmm n nch mac bigger) s0 s) {p : Nat} (hp : p < n) (he : exited n s p) (q : Nat) (hqn : q < n) : s.trans q = [] :=
  run_served hT h0 (fmm_ok hT h0 hq hm) h hp he q hqn

/-- C18, again: after the traversal the tables are fit for the next one. -/
theorem C18_fmm_again {τ' ω' : Type} {P' : Par τ' ω'} (hn : P'.n = n) (hT : IsTree nch G cells) (h0 : Start (fmm n nch mac bigger) G s0) (hq : ∀ p < n, s0.tasks p = [([], [])])
    (hm : ∀ p < n, Mine s0 p []) (h : Run (fmm n nch mac bigger) s0 s) (hend : ∀ p < n, exited n s p) (tasks : Nat → List τ') :
    Start P' G (restart (ω' := ω') s tasks) ∧ ∀ p < n, ∀ k, Mine (restart (ω' := ω') s tasks) p k ↔ Mine s0 p k :=
  run_again hn hT h0 (fmm_ok hT h0 hq hm) h hend tasks

/-- C18, end: when all processes have left the traversal no message and no pair is left. -/
theorem C18_fmm_end (hT : IsTree nch G cells) (h0 : Start (fmm n nch mac bigger) G s0) (hq : ∀ p < n, s0.tasks p = [([], [])]) (hm : ∀ p < n, Mine s0 p [])
    (h : Run (fmm n nch mac bigger) s0 s) (hend : ∀ p < n, exited n s p) (p : Nat) (hp : p < n) : s.trans p = [] ∧ s.toSend p = [] ∧ s.tasks p = [] :=
  run_end hT h0 (fmm_ok hT h0 hq hm) h hend p hp

/-- C14 on several processes: whenever all processes have left the traversal, for every process `p`, the calls it made lead to a list of actions such that
only entities of `p` are acted on, and each entity `e` of `p` is acted on by each entity `f` of the global tree exactly once. -/
theorem C14_distributed (hT : IsTree nch G cells) (hfu : ∀ k ∈ cells, k.length < fuel) (hS : Sizes G mac bigger) (h0 : Start (fmm n nch mac bigger) G s0)
    (hq : ∀ p < n, s0.tasks p = [([], [])]) (hm : ∀ p < n, Mine s0 p []) (h : Run (fmm n nch mac bigger) s0 s) (hend : ∀ p < n, exited n s p) (p : Nat) (hp : p < n) :
    ∃ acts, actions nch p (s.tbl p) fuel (s.results p) = some acts ∧ (∀ x ∈ acts, (∃ g, G x.1 = some g ∧ g.ent = true) ∧ Mine s0 p x.1) ∧
      ∀ e f, Owns G s0 p e → (∃ g, G f = some g ∧ g.ent = true) → acts.countP (fun x => decide (x.1 = e) && decide (x.2 <:+ f)) = 1 := by
  have hI := inv_run hT h0 (fmm_ok hT h0 hq hm) h
  have hist := hI.hist p hp
  have hcalls := hist_calls hist (by
    intro x hx a ha
    rw [hq p hp, List.mem_singleton] at hx
    subst hx
    rw [List.suffix_nil.1 ha]
    exact hm p hp)
  obtain ⟨acts, h1, h2, h3⟩ := actions_spec (mac := mac) hT (hI.view p hp) hfu hcalls.2
  refine ⟨acts, h1, h2, fun e f he hf => ?_⟩
  rw [h3 e f he.1 he.2]
  obtain ⟨ge, hge, hee⟩ := he.1
  obtain ⟨gf, hgf, hfe⟩ := hf
  have := hist_count hT hS hist hge hee hgf hfe he.2
  rw [(C18_fmm_end hT h0 hq hm h hend p hp).2.2, hq p hp, List.countP_nil, Nat.zero_add] at this
  rw [this]
  simp [covT]

/-- C14, far cells only: a cell acts as a whole only if it is far enough away, and a pair of entities is treated directly. -/
theorem C14_distributed_calls (hT : IsTree nch G cells) (h0 : Start (fmm n nch mac bigger) G s0) (hq : ∀ p < n, s0.tasks p = [([], [])]) (hm : ∀ p < n, Mine s0 p [])
    (h : Run (fmm n nch mac bigger) s0 s) (p : Nat) (hp : p < n) (k1 k2 : Key) :
    (Call.far k1 k2 ∈ s.results p → mac k1 k2 = true ∧ Mine s0 p k1) ∧
      (Call.near k1 k2 ∈ s.results p → (∃ g, G k1 = some g ∧ g.ent = true) ∧ (∃ g, G k2 = some g ∧ g.ent = true) ∧ Mine s0 p k1) := by
  have hist := (inv_run hT h0 (fmm_ok hT h0 hq hm) h).hist p hp
  have hcalls := (hist_calls hist (by
    intro x hx a ha
    rw [hq p hp, List.mem_singleton] at hx
    subst hx
    rw [List.suffix_nil.1 ha]
    exact hm p hp)).2
  constructor
  · intro hc
    exact ⟨((hcalls _ hc).far rfl).1, (hcalls _ hc).chain _ List.suffix_rfl⟩
  · intro hc
    exact ⟨((hcalls _ hc).near rfl).1, ((hcalls _ hc).near rfl).2, (hcalls _ hc).chain _ List.suffix_rfl⟩

end

/-! ### A case

The tree of Props/C18.lean on two processes; no two cells are far enough apart, and nodes are larger than entities. -/

def exBigger (k1 k2 : Key) : Bool := decide ((exG k1).map GCell.ent = some false) && (decide ((exG k2).map GCell.ent = some true) || decide (k1.length ≤ k2.length))

def exFmm : Par (Key × Key) Call := fmm 2 2 (fun _ _ => false) exBigger

def exFmmState : State (Key × Key) Call :=
  { tbl := fun p => if p = 0 then exT0 else exT1, tasks := fun _ => [([], [])], results := fun _ => [], toSend := fun _ => [], trans := fun _ => [], asked := fun _ => [], sent := fun _ => false,
    got := fun _ _ => false }

theorem ex_fmm_start : Start exFmm exG exFmmState :=
  ⟨ex_start.good, ex_start.own, ex_start.fresh, fun _ _ => rfl, fun _ _ => rfl, fun _ _ => rfl, fun _ _ => rfl, fun _ _ => rfl, fun _ _ _ _ => rfl⟩

theorem ex_fmm_root : ∀ p < 2, Mine exFmmState p [] := by
  intro p hp
  have : p = 0 ∨ p = 1 := by omega
  rcases this with rfl | rfl
  · exact ⟨_, rfl, rfl⟩
  · exact ⟨_, rfl, rfl⟩

theorem ex_sizes : Sizes exG (fun _ _ => false) exBigger where
  first := by
    intro k1 k2 g1 h1 he _
    simp [exBigger, h1, he]
  second := by
    intro k1 k2 g1 g2 h1 h2 he1 he2 _
    simp [exBigger, h1, h2, he1, he2]

theorem ex_owns : Owns exG exFmmState 1 [1] := by
  refine ⟨⟨_, rfl, rfl⟩, fun a ha => ?_⟩
  rcases List.suffix_cons_iff.1 ha with rfl | h
  · exact ⟨_, rfl, rfl⟩
  · rw [List.suffix_nil.1 h]
    exact ⟨_, rfl, rfl⟩

/-- In every run with two processes that comes to its end, the entity of process 1 is acted on once by the entity `[0, 1, 0]` of process 0. -/
example (s : State (Key × Key) Call) (h : Run exFmm exFmmState s) (hend : ∀ p < 2, exited 2 s p) :
    ∃ acts, actions 2 1 (s.tbl 1) 5 (s.results 1) = some acts ∧ acts.countP (fun x => decide (x.1 = [1]) && decide (x.2 <:+ [0, 1, 0])) = 1 := by
  obtain ⟨acts, h1, _, h3⟩ := C14_distributed (fuel := 5) ex_tree (by decide) ex_sizes ex_fmm_start (fun _ _ => rfl) ex_fmm_root h hend 1 (by decide)
  exact ⟨acts, h1, h3 [1] [0, 1, 0] ex_owns ⟨_, rfl, rfl⟩⟩

/-- and such a run exists. -/
example : ∃ s, Run exFmm exFmmState s ∧ ∀ p < 2, exited 2 s p := C18_fmm_can_end ex_tree ex_fmm_start (fun _ _ => rfl) ex_fmm_root .start

/-- Without the size condition a pair can be lost: an entity that is split has no daughters. -/
theorem C14_sizes_needed : fmmStep 2 (fun _ _ => false) (fun _ _ => false) 0 exT0 ([0], [1]) = some (.done [] []) := by decide +kernel

end FleCSPH.Ghosts
