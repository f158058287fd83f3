import Verif.Lemmas.StartupStart
import Verif.Lemmas.StartupCofm
import Verif.Props.C18
import Verif.Props.C18fmm
/-!
From the particle keys to the end of a traversal on `2^m` processes, without assumptions about the state in between: `startup` is `build_tree` on every process followed by `share_nodes_`
(Model/Startup.lean), `begin_` is the state in which a traversal starts, and `Run` any interleaving of the processes and messages.

Missing for C17 in full: a number of processes which is not a power of two, for which the property is false (Props/C17.lean).
-/
namespace FleCSPH.Startup
open FleCSPH.Spec FleCSPH.Tree FleCSPH.Ghosts FleCSPH.Cofm

section
variable {V : Type} {D dim m : Nat} (hdim : 0 < dim) (hD : 0 < D) {ranks : List (List Nat)} (hm : ranks.length = 2 ^ m) (hne : ∀ l ∈ ranks, l ≠ []) (hfull : ∀ x ∈ ranks.flatten, FullKey D dim x)
  (hsorted : ranks.flatten.Pairwise (· < ·)) (F : Nat → List V → List V → V) (val : Nat → V)
include hdim hD hm hne hfull hsorted

/-- C17 on `2^m` processes: `build_tree` succeeds, and afterwards every process has exactly the cells of the tree of all particles in which it has particles itself or whose parent is not entirely in
the hands of one process, in particular all highest cells of every other process; each with the right kind and the data a single process with all particles would compute, and an owner that has particles
in it, which is the process itself if it has some. -/
theorem C17_tables_partial : ∃ s Val, startup D dim F val ranks = some s ∧ s.length = 2 ^ m ∧ TreeData D dim (· ∈ ranks.flatten) F val Val ∧
    ∀ r < 2 ^ m, ∃ me, s[r]? = some me ∧
      (∀ k, (me.tbl k).isSome ↔ Wanted (globalTree D dim (· ∈ ranks.flatten)) (holder D dim ranks) r k) ∧
      (∀ q k, Top (globalTree D dim (· ∈ ranks.flatten)) (holder D dim ranks) q k → (me.tbl k).isSome) ∧
      ∀ k c, me.tbl k = some c → c.data = some (Val k) ∧ (c.ent = true ↔ ∃ x ∈ ranks.flatten, LeafCell D dim (· ∈ ranks.flatten) x (number dim k)) ∧
        (c.node = true ↔ InnerCell D dim (· ∈ ranks.flatten) (number dim k)) ∧ SomeOf (globalTree D dim (· ∈ ranks.flatten)) (holder D dim ranks) c.owner k ∧
        (SomeOf (globalTree D dim (· ∈ ranks.flatten)) (holder D dim ranks) r k → c.owner = r) ∧ (c.ent = true → (c.shared = false ↔ c.owner = r)) := by
  have P : Parts D dim ranks := ⟨hdim, hD, hne, hfull, hsorted⟩
  obtain ⟨s, h1, h2, h3⟩ := P.startup hm F val
  refine ⟨s, _, h1, h2, treeData hdim P.fullX F val, fun r hr => ?_⟩
  obtain ⟨me, h4, h5⟩ := h3 r hr
  refine ⟨me, h4, h5.mem, fun q k hk => (h5.mem k).mpr ⟨hk.1, Or.inr hk.2.2⟩, fun k c hc => ?_⟩
  obtain ⟨g, hg, he, hn⟩ := h5.kind k c hc
  have hd := (global_some hdim P.fullX hg).1
  have t1 := ent_true (D := D) hdim P.fullX hd
  have t2 := ent_false (D := D) hdim P.fullX hd
  rw [hg, Option.map_some, Option.some_inj, ← he] at t1 t2
  refine ⟨h5.data k c hc, t1, ?_, (h5.owner k c hc).1, (h5.owner k c hc).2, h5.shared k c hc⟩
  rw [hn, ← t2, ← he]
  cases c.ent <;> simp

/-- C18, C14: the state after `build_tree` is one in which every traversal can start: the tables are parts of the tree of all particles, a recorded owner has all children of the cell, the process
of a particle owns all cells above it. -/
theorem C18_start_partial {τ ω : Type} (Q : Par τ ω) (hQ : Q.n = 2 ^ m) (tasks : Nat → List τ) : ∃ s, startup D dim F val ranks = some s ∧
    Start Q (globalTree D dim (· ∈ ranks.flatten)) (begin_ (τ := τ) (ω := ω) s tasks) ∧ (∀ p < 2 ^ m, Mine (begin_ (τ := τ) (ω := ω) s tasks) p []) ∧
    ∀ p e, p < 2 ^ m → HasLeaf D dim ranks p e → Digits dim e → Owns (globalTree D dim (· ∈ ranks.flatten)) (begin_ (τ := τ) (ω := ω) s tasks) p e := by
  have P : Parts D dim ranks := ⟨hdim, hD, hne, hfull, hsorted⟩
  obtain ⟨s, h1, h2, h3⟩ := P.startup hm F val
  have hr0 : ranks[0]? = some (ranks[0]'(by rw [hm]; exact Nat.pow_pos (by decide))) := List.getElem?_eq_getElem _
  have hT := global_tree hdim hD (P.flatten_ne hr0) hfull
  have hown : ∀ r < 2 ^ m, ∃ e, IsEnt (globalTree D dim (· ∈ ranks.flatten)) e ∧ holder D dim ranks e = r := fun r hr => P.hasOwn (by omega)
  have hlt : ∀ e, IsEnt (globalTree D dim (· ∈ ranks.flatten)) e → holder D dim ranks e < 2 ^ m := fun e he => by rw [← hm]; exact P.holder_lt he
  refine ⟨s, h1, start_of hT hown hlt h3 hQ tasks, mine_root hT hown h3 tasks, ?_⟩
  rintro p e hp ⟨ks, x, hks, hx, hl⟩ hd
  have hxX : x ∈ ranks.flatten := mem_ranks.mpr ⟨p, ks, hks, hx⟩
  have hl' := (leaf_path hdim P.fullX hd hxX).mp hl
  exact owns_ent hT h3 tasks hp ((isEnt_iff hdim P.fullX).mpr ⟨hd, x, hxX, hl'⟩) (P.holder_eq hd hks hx hl')

/-- C18 from the keys to the end of the SPH traversal, on `2^m` processes, for all tests and tasks and every order of messages: no step is undefined, no key is requested twice, the end can always be
reached, the number of steps that change anything is bounded, and in the end each task of each process has found exactly the leaves of the tree of all particles whose ancestors pass its tests. -/
theorem C18_built_partial {τ : Type} (accept : τ → List Nat → Bool) (tasks : Nat → List τ) : ∃ s, startup D dim F val ranks = some s ∧
    let Q := sph (2 ^ m) (2 ^ dim) accept (D + 2)
    (∃ b, ∀ i s', RunN Q (begin_ s tasks) i s' → i ≤ b) ∧
    ∀ s', Run Q (begin_ s tasks) s' → (∀ r, Next Q s' r → r ≠ none) ∧ (∀ p < 2 ^ m, (s'.asked p).Nodup) ∧ (∃ s'', Run Q s' s'' ∧ ∀ p < 2 ^ m, exited (2 ^ m) s'' p) ∧
      ((∃ p < 2 ^ m, ¬ exited (2 ^ m) s' p) → ∃ s'', Next Q s' (some s'') ∧ s'' ≠ s') ∧
      ((∀ p < 2 ^ m, exited (2 ^ m) s' p) → ∀ p < 2 ^ m, s'.trans p = [] ∧ ((s'.results p).map Prod.fst).Perm (tasks p) ∧
        ∀ r ∈ s'.results p, r.2.Nodup ∧ ∀ k, k ∈ r.2 ↔ Digits dim k ∧ (∃ x ∈ ranks.flatten, LeafCell D dim (· ∈ ranks.flatten) x (number dim k)) ∧ Open (accept r.1) k) := by
  have P : Parts D dim ranks := ⟨hdim, hD, hne, hfull, hsorted⟩
  obtain ⟨s, h1, h2, -, -⟩ := C18_start_partial hdim hD hm hne hfull hsorted F val (sph (2 ^ m) (2 ^ dim) accept (D + 2)) rfl tasks
  have hr0 : ranks[0]? = some (ranks[0]'(by rw [hm]; exact Nat.pow_pos (by decide))) := List.getElem?_eq_getElem _
  have hT := global_tree hdim hD (P.flatten_ne hr0) hfull
  have hf : ∀ k ∈ cellsOf D dim ranks.flatten, k.length + 2 ≤ D + 2 := fun k hk => Nat.add_le_add_right (global_depth hdim hfull k hk) 2
  refine ⟨s, h1, ⟨_, fun i s' h => C18_bounded hT hf h2 h⟩, fun s' h => ⟨fun r hr => C18_safe hT hf h2 h hr, fun p hp => C18_once hT hf h2 h hp, C18_can_end hT hf h2 h, C18_progress hT hf h2 h, ?_⟩⟩
  intro hend p hp
  obtain ⟨g1, -, -, g2, g3⟩ := C18_end hT hf h2 h hend p hp
  refine ⟨g1, g2, fun r hr => ⟨(g3 r hr).1, fun k => ?_⟩⟩
  rw [(g3 r hr).2 k, ← and_assoc]
  refine and_congr_left fun _ => ?_
  show IsEnt _ _ ↔ _
  rw [isEnt_iff hdim P.fullX]
  refine and_congr_right fun hd => exists_congr fun x => and_congr_right fun hx => (leaf_path hdim P.fullX hd hx).symm

/-- C14 from the keys to the end of the FMM traversal, on `2^m` processes and for every order of messages: no step is undefined, the end can always be reached, and in the end every particle `x` of
every process has been acted on by every particle `y` of all processes exactly once: `acts` are the actions (leaf acted on, leaf or cell acting), and exactly one of them acts on the leaf of `x` from
the leaf of `y` or a cell above it. -/
theorem C14_built_partial (mac bigger : List Nat → List Nat → Bool) (hS : Sizes (globalTree D dim (· ∈ ranks.flatten)) mac bigger) : ∃ s, startup D dim F val ranks = some s ∧
    let Q := fmm (2 ^ m) (2 ^ dim) mac bigger
    let s0 := begin_ s fun _ => [([], [])]
    (∃ b, ∀ i s', RunN Q s0 i s' → i ≤ b) ∧
    ∀ s', Run Q s0 s' → (∀ r, Next Q s' r → r ≠ none) ∧ (∀ p < 2 ^ m, (s'.asked p).Nodup) ∧ (∃ s'', Run Q s' s'' ∧ ∀ p < 2 ^ m, exited (2 ^ m) s'' p) ∧
      ((∀ p < 2 ^ m, exited (2 ^ m) s' p) → ∀ p < 2 ^ m, s'.trans p = [] ∧ ∃ acts, actions (2 ^ dim) p (s'.tbl p) (D + 1) (s'.results p) = some acts ∧
        ∀ ks, ranks[p]? = some ks → ∀ x ∈ ks, ∀ y ∈ ranks.flatten, ∀ e f, Digits dim e → Digits dim f → LeafCell D dim (· ∈ ranks.flatten) x (number dim e) →
          LeafCell D dim (· ∈ ranks.flatten) y (number dim f) → acts.countP (fun a => decide (a.1 = e) && decide (a.2 <:+ f)) = 1) := by
  have P : Parts D dim ranks := ⟨hdim, hD, hne, hfull, hsorted⟩
  obtain ⟨s, h1, h2, h3, h4⟩ := C18_start_partial hdim hD hm hne hfull hsorted F val (fmm (2 ^ m) (2 ^ dim) mac bigger) rfl (fun _ => [([], [])])
  have hr0 : ranks[0]? = some (ranks[0]'(by rw [hm]; exact Nat.pow_pos (by decide))) := List.getElem?_eq_getElem _
  have hT := global_tree hdim hD (P.flatten_ne hr0) hfull
  have hf : ∀ k ∈ cellsOf D dim ranks.flatten, k.length < D + 1 := fun k hk => Nat.lt_succ_of_le (global_depth hdim hfull k hk)
  have hq : ∀ p < 2 ^ m, (begin_ (ω := Call) s fun _ => [(([] : Key), ([] : Key))]).tasks p = [([], [])] := fun _ _ => rfl
  refine ⟨s, h1, ⟨_, fun i s' h => C18_fmm_bounded hT h2 hq h3 h⟩, fun s' h => ⟨fun r hr => C18_fmm_safe hT h2 hq h3 h hr, fun p hp => C18_fmm_once hT h2 hq h3 h hp, C18_fmm_can_end hT h2 hq h3 h, ?_⟩⟩
  intro hend p hp
  refine ⟨(C18_fmm_end hT h2 hq h3 h hend p hp).1, ?_⟩
  obtain ⟨acts, g1, -, g2⟩ := C14_distributed hT hf hS h2 hq h3 h hend p hp
  refine ⟨acts, g1, fun ks hks x hx y hy e f he hf' hle hlf => ?_⟩
  refine g2 e f (h4 p e hp ⟨ks, x, hks, hx, hle⟩ he) ?_
  exact (isEnt_iff hdim P.fullX).mpr ⟨hf', y, hy, (leaf_path hdim P.fullX hf' hy).mp hlf⟩

/-- Every particle has a leaf, so the last part of `C14_built_partial` says something about every pair. -/
theorem C14_built_leaves {p x : Nat} {ks : List Nat} (hks : ranks[p]? = some ks) (hx : x ∈ ks) : ∃ e, Digits dim e ∧ LeafCell D dim (· ∈ ranks.flatten) x (number dim e) := by
  have P : Parts D dim ranks := ⟨hdim, hD, hne, hfull, hsorted⟩
  obtain ⟨e, h1, -, h2, -⟩ := P.leafOf hks hx
  exact ⟨e, h1, h2⟩

/-- C11 on `2^m` processes: after `build_tree` every node in the table of every process, also one filled from the summaries of other processes, summarises exactly the particles of all processes it
holds. -/
theorem C11_shared_partial {d : Nat} (big : ℝ) (body : Nat → Body d) (hmass : ∀ x ∈ ranks.flatten, 0 < (body x).mass) : ∃ s, startup D dim (summarise big) (fun x => .inl (body x)) ranks = some s ∧
    ∀ r < 2 ^ m, ∃ me, s[r]? = some me ∧ ∀ k c, me.tbl k = some c → c.node = true → ∃ N S, c.data = some (.inr (some N)) ∧
      (∀ x, x ∈ S ↔ x ∈ ranks.flatten ∧ Holds D dim (number dim k) x) ∧ Summarises body S N ∧ 0 ≤ N.radius ∧ BoxTight big body S N := by
  have P : Parts D dim ranks := ⟨hdim, hD, hne, hfull, hsorted⟩
  obtain ⟨s, h1, -, h3⟩ := P.startup hm (summarise (d := d) big) (fun x => .inl (body x))
  refine ⟨s, h1, fun r hr => ?_⟩
  obtain ⟨me, h4, h5⟩ := h3 r hr
  refine ⟨me, h4, fun k c hc hn => ?_⟩
  obtain ⟨g, hg, -, he⟩ := h5.kind k c hc
  obtain ⟨hd, hin, -⟩ := global_some hdim P.fullX hg
  have hge : g.ent = false := by
    cases hg' : g.ent with
    | false => rfl
    | true => rw [hn, hg'] at he; cases he
  have hr0 : ranks[0]? = some (ranks[0]'(by rw [hm]; exact Nat.pow_pos (by decide))) := List.getElem?_eq_getElem _
  obtain ⟨N, n1, n2, n3⟩ := summary big hdim hD (P.flatten_ne hr0) hfull body hmass D k (by omega) hd (hin hge)
  refine ⟨N, inside D dim ranks.flatten k, by rw [h5.data k c hc, n1], fun x => ?_, n2, n3⟩
  rw [mem_inside]
  exact and_congr_right fun hx => suffix_path hdim hd (hfull x hx)

end

/-! ### A case: four particles in two dimensions on two processes, the second and the third share all but their last digit. -/

def exRanks : List (List Nat) := [[0b1000000, 0b1110100], [0b1110111, 0b1111111]]

example : 0 < 2 ∧ 0 < 3 ∧ exRanks.length = 2 ^ 1 ∧ (∀ l ∈ exRanks, l ≠ []) ∧ (∀ x ∈ exRanks.flatten, FullKey 3 2 x) ∧ exRanks.flatten.Pairwise (· < ·) := by decide

/-- The summary counts the particles: after `build_tree` both processes know that there are four particles below the root, and process 0 has the node of the two particles of which it owns one, and the leaf
of the particle of process 1. -/
example : (startup 3 2 (fun _ es ns => es.length + ns.sum) (fun _ => 1) exRanks).map (fun s => s.map fun me => [[], [3], [1, 3], [0, 1, 3], [3, 1, 3], [3, 3], [0]].map fun k => (me.tbl k).map fun c => (c.data, c.owner)) =
    some [[some (some 4, 0), some (some 3, 0), some (some 2, 0), some (some 1, 0), some (some 1, 1), some (some 1, 1), some (some 1, 0)],
      [some (some 4, 1), some (some 3, 1), some (some 2, 1), some (some 1, 0), some (some 1, 1), some (some 1, 1), some (some 1, 0)]] := by decide +kernel

open Classical in
/-- The sizes needed by the FMM traversal: an opening angle of zero and nodes larger than leaves. -/
example (D dim : Nat) (X : Nat → Prop) : Sizes (globalTree D dim X) (fun _ _ => false) (fun k _ => decide ((globalTree D dim X k).map GCell.ent = some false)) where
  first := by
    intro k1 k2 g1 h1 h2 _
    simp [h1, h2]
  second := by
    intro k1 k2 g1 g2 h1 h2 h3 h4 _
    simp [h1, h3]

end FleCSPH.Startup
