import Verif.Model.Reductions
import Mathlib.Tactic.Linarith
import Mathlib.Tactic.NormNum
import Mathlib.Tactic.Positivity
/-! C72: the diagnostics are the minimum, maximum and average over all particles. -/
namespace FleCSPH.Reductions

/-- `m` is the least value of a nonempty list. -/
def IsMin {α : Type} [LE α] (m : α) (l : List α) : Prop := m ∈ l ∧ ∀ x ∈ l, m ≤ x
/-- `m` is the greatest value of a nonempty list. -/
def IsMax {α : Type} [LE α] (m : α) (l : List α) : Prop := m ∈ l ∧ ∀ x ∈ l, x ≤ m

private theorem foldl_min {α β : Type} [LinearOrder α] (f : β → α) (l : List β) (s : α) :
    l.foldl (fun s x => min s (f x)) s ∈ s :: l.map f ∧ ∀ y ∈ s :: l.map f, l.foldl (fun s x => min s (f x)) s ≤ y := by
  induction l generalizing s with
  | nil => simp
  | cons a l ih =>
    obtain ⟨h1, h2⟩ := ih (min s (f a))
    rw [List.foldl_cons]
    refine ⟨?_, fun y hy => ?_⟩
    · rcases List.mem_cons.mp h1 with h | h
      · rw [h]
        rcases min_choice s (f a) with e | e <;> rw [e] <;> simp
      · simp [h]
    · have h0 := h2 (min s (f a)) List.mem_cons_self
      rcases List.mem_cons.mp hy with rfl | hy
      · exact h0.trans (min_le_left _ _)
      · rw [List.map_cons] at hy
        rcases List.mem_cons.mp hy with rfl | hy
        · exact h0.trans (min_le_right _ _)
        · exact h2 y (List.mem_cons_of_mem _ hy)

private theorem foldl_max {α β : Type} [LinearOrder α] (f : β → α) (l : List β) (s : α) :
    l.foldl (fun s x => max s (f x)) s ∈ s :: l.map f ∧ ∀ y ∈ s :: l.map f, y ≤ l.foldl (fun s x => max s (f x)) s :=
  foldl_min (α := αᵒᵈ) f l s

private theorem foldl_sum {β α : Type} [AddMonoid α] (f : β → α) (l : List β) (s : α) : l.foldl (fun s x => s + f x) s = s + (l.map f).sum := by
  induction l generalizing s with
  | nil => simp
  | cons a l ih => rw [List.foldl_cons, ih, List.map_cons, List.sum_cons, add_assoc]

private theorem sum_flatten {β α : Type} [AddMonoid α] (f : β → α) (procs : List (List β)) : (procs.map fun l => l.foldl (fun s x => s + f x) 0).foldl (· + ·) 0 = (procs.flatten.map f).sum := by
  rw [foldl_sum (fun x => x)]
  simp only [zero_add, foldl_sum, List.map_id']
  induction procs with
  | nil => rfl
  | cons l procs ih => rw [List.map_cons, List.sum_cons, ih, List.flatten_cons, List.map_append, List.sum_append]

private theorem min_flatten {α : Type} [LinearOrder α] (f : Item → α) (top : α) (procs : List (List Item)) (hne : procs.flatten ≠ []) (htop : ∀ b ∈ procs.flatten, f b ≤ top) :
    IsMin ((procs.map fun l => l.foldl (fun s x => min (f x) s) top).foldl min top) (procs.flatten.map f) := by
  simp only [min_comm (f _)]
  obtain ⟨h1, h2⟩ := foldl_min (fun x : α => x) (procs.map fun l => l.foldl (fun s x => min s (f x)) top) top
  rw [List.map_id'] at h1 h2
  obtain ⟨M, hM⟩ : ∃ M, M = (procs.map fun l => l.foldl (fun s x => min s (f x)) top).foldl min top := ⟨_, rfl⟩
  have h2 : ∀ y ∈ top :: procs.map (fun l => l.foldl (fun s x => min s (f x)) top), M ≤ y := by rw [hM]; exact h2
  have h1 : M ∈ top :: procs.map (fun l => l.foldl (fun s x => min s (f x)) top) := by rw [hM]; exact h1
  rw [← hM]
  have hall : ∀ b ∈ procs.flatten, M ≤ f b := fun b hb => by
    obtain ⟨l, hl, hbl⟩ := List.mem_flatten.mp hb
    exact (h2 _ (List.mem_cons_of_mem _ (List.mem_map_of_mem hl))).trans ((foldl_min f l top).2 _ (List.mem_cons_of_mem _ (List.mem_map_of_mem hbl)))
  refine ⟨?_, fun x hx => ?_⟩
  · have htopM : M = top → M ∈ procs.flatten.map f := fun e => by
      obtain ⟨b, hb⟩ := List.exists_mem_of_ne_nil _ hne
      exact List.mem_map.mpr ⟨b, hb, le_antisymm ((htop b hb).trans e.ge) (hall b hb)⟩
    rcases List.mem_cons.mp h1 with h | h
    · exact htopM h
    · obtain ⟨l, hl, e⟩ := List.mem_map.mp h
      rcases List.mem_cons.mp (foldl_min f l top).1 with h | h
      · exact htopM (by rw [← e, h])
      · obtain ⟨b, hb, e'⟩ := List.mem_map.mp h
        exact List.mem_map.mpr ⟨b, List.mem_flatten.mpr ⟨l, hl, hb⟩, by rw [← e, e']⟩
  · obtain ⟨b, hb, rfl⟩ := List.mem_map.mp hx
    exact hall b hb

private theorem max_flatten {α : Type} [LinearOrder α] (f : Item → α) (bot : α) (procs : List (List Item)) (hne : procs.flatten ≠ []) (hbot : ∀ b ∈ procs.flatten, bot ≤ f b) :
    IsMax ((procs.map fun l => l.foldl (fun s x => max (f x) s) bot).foldl max bot) (procs.flatten.map f) :=
  min_flatten (α := αᵒᵈ) f bot procs hne hbot

/-- C72, smoothing lengths: the three values written are the least, the greatest and the average smoothing length of all particles, for every division on processes, also with processes without particles.
The values must be normal positive numbers of double precision. -/
theorem C72_smoothing (procs : List (List Item)) (hne : procs.flatten ≠ []) (hn : ∀ b ∈ procs.flatten, dblMin ≤ b.h ∧ b.h ≤ dblMax) :
    IsMin (smoothingStats procs procs.flatten.length).1 (procs.flatten.map Item.h) ∧ IsMax (smoothingStats procs procs.flatten.length).2.1 (procs.flatten.map Item.h) ∧
    (smoothingStats procs procs.flatten.length).2.2 = (procs.flatten.map Item.h).sum / procs.flatten.length :=
  ⟨min_flatten Item.h dblMax procs hne fun b hb => (hn b hb).2, max_flatten Item.h dblMin procs hne fun b hb => (hn b hb).1, by
    show reduceSum _ / _ = _
    rw [reduceSum, sum_flatten]⟩

private theorem mapM_head (procs : List (List Item)) (h : ∀ l ∈ procs, l ≠ []) :
    (procs.mapM fun l => l.head?.map fun b => l.foldl (fun s x => min s x.neighbors) b.neighbors) =
      some (procs.map fun l => l.foldl (fun s x => min s x.neighbors) ((l.head?.map Item.neighbors).getD 0)) := by
  induction procs with
  | nil => rfl
  | cons l procs ih =>
    rw [List.mapM_cons, ih fun l' hl' => h l' (List.mem_cons_of_mem _ hl')]
    cases l with
    | nil => exact absurd rfl (h [] List.mem_cons_self)
    | cons b l => rfl

private theorem min_local (l : List Item) (h : l ≠ []) : IsMin (l.foldl (fun s x => min s x.neighbors) ((l.head?.map Item.neighbors).getD 0)) (l.map Item.neighbors) := by
  cases l with
  | nil => exact absurd rfl h
  | cons b l =>
    obtain ⟨h1, h2⟩ := foldl_min Item.neighbors (b :: l) b.neighbors
    refine ⟨?_, fun x hx => h2 x (List.mem_cons_of_mem _ hx)⟩
    rcases List.mem_cons.mp h1 with e | e
    · show _ ∈ List.map Item.neighbors (b :: l)
      rw [show ((b :: l).head?.map Item.neighbors).getD 0 = b.neighbors from rfl, e]; exact List.mem_map_of_mem List.mem_cons_self
    · exact e

/-- C72, numbers of neighbours: if every process has a particle the least number and the average, rounded down, are right; the greatest number is the greatest of these and of all outputs before. -/
theorem C72_neighbors_partial (nmax : Nat) (procs : List (List Item)) (hp : procs ≠ []) (hl : ∀ l ∈ procs, l ≠ []) :
    ∃ r, neighborStats (List.replicate procs.length nmax) procs procs.flatten.length = some r ∧ IsMin r.1 (procs.flatten.map Item.neighbors) ∧
      IsMax r.2.1 (nmax :: procs.flatten.map Item.neighbors) ∧ r.2.2 = (procs.flatten.map Item.neighbors).sum / procs.flatten.length := by
  have htot : procs.flatten.length ≠ 0 := by
    cases procs with
    | nil => exact absurd rfl hp
    | cons l procs =>
      have := List.length_pos_iff.mpr (hl l List.mem_cons_self)
      rw [List.flatten_cons, List.length_append]; omega
  rw [neighborStats, if_neg htot, mapM_head procs hl, Option.bind_some]
  cases procs with
  | nil => exact absurd rfl hp
  | cons l procs =>
    refine ⟨_, rfl, ?_, ?_, congrArg (· / (l :: procs).flatten.length) (sum_flatten Item.neighbors (l :: procs))⟩
    · obtain ⟨h1, h2⟩ := foldl_min (fun x : Nat => x) (procs.map fun l => l.foldl (fun s x => min s x.neighbors) ((l.head?.map Item.neighbors).getD 0))
        (l.foldl (fun s x => min s x.neighbors) ((l.head?.map Item.neighbors).getD 0))
      rw [List.map_id', ← List.map_cons (f := fun l : List Item => l.foldl (fun s x => min s x.neighbors) ((l.head?.map Item.neighbors).getD 0))] at h1 h2
      refine ⟨?_, fun x hx => ?_⟩
      · obtain ⟨l', hl', e⟩ := List.mem_map.mp h1
        have := (min_local l' (hl l' hl')).1
        rw [e] at this
        obtain ⟨b, hb, e'⟩ := List.mem_map.mp this
        exact List.mem_map.mpr ⟨b, List.mem_flatten.mpr ⟨l', hl', hb⟩, e'⟩
      · obtain ⟨b, hb, rfl⟩ := List.mem_map.mp hx
        obtain ⟨l', hl', hb⟩ := List.mem_flatten.mp hb
        exact (h2 _ (List.mem_map_of_mem hl')).trans ((min_local l' (hl l' hl')).2 _ (List.mem_map_of_mem hb))
    · have hz : ∀ q : List (List Item), List.zipWith (fun p l => l.foldl (fun s (x : Item) => max s x.neighbors) p) (List.replicate q.length nmax) q =
          q.map fun l => l.foldl (fun s x => max s x.neighbors) nmax := by
        intro q
        induction q with
        | nil => rfl
        | cons a q ih => rw [List.length_cons, List.replicate_succ, List.zipWith_cons_cons, ih, List.map_cons]
      show IsMax ((List.zipWith _ _ _).foldl max 0) _
      rw [hz]
      obtain ⟨h1, h2⟩ := foldl_max (fun x : Nat => x) ((l :: procs).map fun l => l.foldl (fun s x => max s x.neighbors) nmax) 0
      rw [List.map_id'] at h1 h2
      have hlocal : ∀ l' ∈ l :: procs, ∀ y ∈ nmax :: l'.map Item.neighbors, y ≤ ((l :: procs).map fun l => l.foldl (fun s x => max s x.neighbors) nmax).foldl (fun s x => max s x) 0 :=
        fun l' hl' y hy => ((foldl_max Item.neighbors l' nmax).2 y hy).trans (h2 _ (List.mem_cons_of_mem _ (List.mem_map_of_mem hl')))
      refine ⟨?_, fun x hx => ?_⟩
      · rcases List.mem_cons.mp h1 with h | h
        · have h0 := hlocal l List.mem_cons_self nmax List.mem_cons_self
          rw [h] at h0
          rw [show List.foldl max 0 _ = 0 from h, Nat.le_zero.mp h0]; exact List.mem_cons_self
        · obtain ⟨l', hl', e⟩ := List.mem_map.mp h
          have := (foldl_max Item.neighbors l' nmax).1
          rw [e] at this
          rcases List.mem_cons.mp this with h | h
          · exact List.mem_cons.mpr (Or.inl h)
          · obtain ⟨b, hb, e'⟩ := List.mem_map.mp h
            exact List.mem_cons_of_mem _ (List.mem_map.mpr ⟨b, List.mem_flatten.mpr ⟨l', hl', hb⟩, e'⟩)
      · rcases List.mem_cons.mp hx with rfl | hx
        · exact hlocal l List.mem_cons_self x List.mem_cons_self
        · obtain ⟨b, hb, rfl⟩ := List.mem_map.mp hx
          obtain ⟨l', hl', hb⟩ := List.mem_flatten.mp hb
          exact hlocal l' hl' _ (List.mem_cons_of_mem _ (List.mem_map_of_mem hb))

/-- C72 over a whole run: in every line the least numbers, averages and smoothing lengths are those of the particles at that output, and the greatest number of neighbours is the greatest one ever seen. The
processes may change their particles in any way, but each has one at every output. -/
theorem C72_run_partial (outs : List (List (List Item))) (hp : ∀ procs ∈ outs, procs ≠ [] ∧ ∀ l ∈ procs, l ≠ []) :
    ∃ lines, diagnoseAll 0 (outs.map fun p => (p, p.flatten.length)) = some lines ∧ lines.length = outs.length ∧
      ∀ k (hk : k < outs.length) line, lines[k]? = some line → IsMin line.N.1 (outs[k].flatten.map Item.neighbors) ∧ line.N.2.2 = (outs[k].flatten.map Item.neighbors).sum / outs[k].flatten.length ∧
        line.h = smoothingStats outs[k] outs[k].flatten.length ∧ IsMax line.N.2.1 (0 :: ((outs.take (k + 1)).flatMap fun p => p.flatten.map Item.neighbors)) := by
  suffices ∀ nmax, ∃ lines, diagnoseAll nmax (outs.map fun p => (p, p.flatten.length)) = some lines ∧ lines.length = outs.length ∧
      ∀ k (hk : k < outs.length) line, lines[k]? = some line → IsMin line.N.1 (outs[k].flatten.map Item.neighbors) ∧ line.N.2.2 = (outs[k].flatten.map Item.neighbors).sum / outs[k].flatten.length ∧
        line.h = smoothingStats outs[k] outs[k].flatten.length ∧ IsMax line.N.2.1 (nmax :: ((outs.take (k + 1)).flatMap fun p => p.flatten.map Item.neighbors)) from this 0
  induction outs with
  | nil => exact fun nmax => ⟨[], rfl, rfl, fun k hk => absurd hk (by simp)⟩
  | cons p outs ih =>
    intro nmax
    obtain ⟨h0, hl⟩ := hp p List.mem_cons_self
    obtain ⟨r, hr, hmin, hmax, havg⟩ := C72_neighbors_partial nmax p h0 hl
    obtain ⟨l, q, rfl⟩ : ∃ l q, p = l :: q := by
      cases p with
      | nil => exact absurd rfl h0
      | cons l q => exact ⟨l, q, rfl⟩
    obtain ⟨lines, e, hlen, hrest⟩ := ih (fun p' hp' => hp p' (List.mem_cons_of_mem _ hp')) r.2.1
    refine ⟨⟨smoothingStats (l :: q) (l :: q).flatten.length, r, velocityStats l (l :: q).flatten.length⟩ :: lines, ?_, by simp [hlen], fun k hk line hline => ?_⟩
    · rw [List.map_cons, diagnoseAll]
      show ((neighborStats _ _ _).map _).bind _ = _
      rw [hr, Option.map_some, Option.bind_some]
      show (diagnoseAll r.2.1 _).map _ = _
      rw [e, Option.map_some]
    · cases k with
      | zero =>
        rw [List.getElem?_cons_zero] at hline
        have := Option.some.inj hline
        subst this
        refine ⟨hmin, havg, rfl, ?_⟩
        simpa using hmax
      | succ k =>
        rw [List.getElem?_cons_succ] at hline
        obtain ⟨a1, a2, a3, a4, a5⟩ := hrest k (by simpa using hk) line hline
        refine ⟨a1, a2, a3, ?_, fun x hx => ?_⟩
        · rw [List.take_succ_cons, List.flatMap_cons]
          rcases List.mem_cons.mp a4 with h | h
          · rw [h]
            rcases List.mem_cons.mp hmax.1 with h' | h'
            · exact List.mem_cons.mpr (Or.inl h')
            · exact List.mem_cons_of_mem _ (List.mem_append_left _ h')
          · exact List.mem_cons_of_mem _ (List.mem_append_right _ h)
        · rw [List.take_succ_cons, List.flatMap_cons] at hx
          have hr1 := a5 r.2.1 List.mem_cons_self
          rcases List.mem_cons.mp hx with rfl | hx
          · exact (hmax.2 x List.mem_cons_self).trans hr1
          · rcases List.mem_append.mp hx with hx | hx
            · exact (hmax.2 x (List.mem_cons_of_mem _ hx)).trans hr1
            · exact a5 x (List.mem_cons_of_mem _ hx)

/-- C72, velocities, one process: the least, the greatest and the average speed, if all are normal numbers of double precision. -/
theorem C72_velocity_partial (l : List Item) (hne : l ≠ []) (hn : ∀ b ∈ l, dblMin ≤ b.speed ∧ b.speed ≤ dblMax) :
    IsMin (velocityStats l l.length).1 (l.map Item.speed) ∧ IsMax (velocityStats l l.length).2.1 (l.map Item.speed) ∧ (velocityStats l l.length).2.2 = (l.map Item.speed).sum / l.length := by
  have e : ([l] : List (List Item)).flatten = l := by simp
  have h1 := min_flatten Item.speed dblMax [l] (by rw [e]; exact hne) (by rw [e]; exact fun b hb => (hn b hb).2)
  have h2 := max_flatten Item.speed dblMin [l] (by rw [e]; exact hne) (by rw [e]; exact fun b hb => (hn b hb).1)
  rw [e] at h1 h2
  have hlt : dblMin ≤ dblMax := by
    obtain ⟨b, hb⟩ := List.exists_mem_of_ne_nil _ hne
    exact (hn b hb).1.trans (hn b hb).2
  refine ⟨?_, ?_, ?_⟩
  · have : (velocityStats l l.length).1 = (([l] : List (List Item)).map fun l => l.foldl (fun s x => min x.speed s) dblMax).foldl min dblMax := by
      show _ = min dblMax _
      rw [min_eq_right]; · rfl
      simp only [min_comm (Item.speed _)]; exact (foldl_min Item.speed l dblMax).2 _ List.mem_cons_self
    rw [this]; exact h1
  · have : (velocityStats l l.length).2.1 = (([l] : List (List Item)).map fun l => l.foldl (fun s x => max x.speed s) dblMin).foldl max dblMin := by
      show _ = max dblMin _
      rw [max_eq_right]; · rfl
      simp only [max_comm (Item.speed _)]; exact (foldl_max Item.speed l dblMin).2 _ List.mem_cons_self
    rw [this]; exact h2
  · show l.foldl _ 0 / _ = _
    rw [foldl_sum, zero_add]

/-- C72 fails for the greatest number of neighbours: a particle with 5 neighbours at the first output and 3 at the second one is reported with at most 5 both times. -/
theorem C72_max_violated : ∃ lines, diagnoseAll 0 [([[⟨5, 1, 0⟩]], 1), ([[⟨3, 1, 0⟩]], 1)] = some lines ∧ ∃ line, lines[1]? = some line ∧ line.N = (3, 5, 3) := ⟨_, rfl, _, rfl, rfl⟩

/-- C72 fails for velocities on two processes: what is written is of process 0 alone, the average is its sum over the number of all particles. Two particles of speeds 1 and 3: 1, 1 and 1/2 are written. -/
theorem C72_velocity_violated : ∃ line nmax, diagnose 0 [[⟨1, 1, 1⟩], [⟨1, 1, 3⟩]] 2 = some (line, nmax) ∧ line.V = (1, 1, 1 / 2) := by
  have h1 : (1 : ℝ) ≤ dblMax := by
    have : (1 : ℝ) ≤ 2 ^ 1023 := one_le_pow₀ (by norm_num)
    rw [dblMax]; generalize (2 : ℝ) ^ 1023 = x at this ⊢; norm_num; linarith
  have h2 : dblMin ≤ (1 : ℝ) := by rw [dblMin]; exact div_le_one_of_le₀ (one_le_pow₀ (by norm_num)) (by positivity)
  refine ⟨_, _, rfl, ?_⟩
  show (min 1 dblMax, max 1 dblMin, (0 + 1) / ((2 : Nat) : ℝ)) = _
  rw [min_eq_left h1, max_eq_left h2]; norm_num

/-- C72 fails for particles at rest: the greatest speed of a gas at rest is written as the smallest normal number, not 0. -/
theorem C72_rest_violated : ∃ line nmax, diagnose 0 [[⟨1, 1, 0⟩]] 1 = some (line, nmax) ∧ 0 < line.V.2.1 := by
  refine ⟨_, _, rfl, ?_⟩
  show (0 : ℝ) < max 0 dblMin
  exact lt_max_of_lt_right (by rw [dblMin]; norm_num)

/-- C72 fails if a process has no particle: the first particle of an empty vector is read. -/
theorem C72_empty_violated (nmax : Nat) (l : List Item) (total : Nat) : diagnose nmax [l, []] total = none := by
  have : neighborStats (List.replicate 2 nmax) [l, []] total = none := by
    unfold neighborStats
    split
    · rfl
    · cases l <;> rfl
  show Option.map _ (neighborStats (List.replicate 2 nmax) [l, []] total) = none
  rw [this]; rfl

/-- Non-vacuity: two outputs of three particles on two processes. -/
example : ∀ procs ∈ ([[[⟨5, 1, 1⟩, ⟨4, 1, 2⟩], [⟨3, 1, 1⟩]], [[⟨2, 1, 1⟩], [⟨4, 1, 2⟩, ⟨3, 1, 1⟩]]] : List (List (List Item))), procs ≠ [] ∧ ∀ l ∈ procs, l ≠ [] := by simp

end FleCSPH.Reductions
