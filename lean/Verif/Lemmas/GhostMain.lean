import Verif.Lemmas.GhostRun
import Mathlib.Algebra.BigOperators.Group.Finset.Basic
import Mathlib.Algebra.Order.BigOperators.Group.Finset
/-! The runs of the protocol: they end, without deadlock, for any tasks. -/
namespace FleCSPH.Ghosts

variable {τ ω : Type}

section
variable {P : Par τ ω} {G : Key → Option GCell} {cells : Finset Key} {s0 s : State τ ω} {K : Tasks P G (Mine s0)}

theorem inv_run (hT : IsTree P.nch G cells) (h0 : Start P G s0) (hok : ∀ p < P.n, ∀ a ∈ s0.tasks p, K.Ok p (s0.tbl p) a) (h : Run P s0 s) : Inv P G s0 K s := by
  induction h with
  | start => exact inv_start hT h0 K hok
  | next _ hn ih =>
    obtain ⟨s', h1, h2⟩ := inv_next hT ih hn
    cases h1
    exact h2

theorem asked_le (hT : IsTree P.nch G cells) (h : Inv P G s0 K s) {p : Nat} (hp : p < P.n) : (s.asked p).length ≤ cells.card := by
  obtain ⟨h1, h2⟩ := h.asked p hp
  rw [← List.toFinset_card_of_nodup h1]
  apply Finset.card_le_card
  intro k hk
  obtain ⟨c, hc, _⟩ := h2 k (List.mem_toFinset.1 hk)
  obtain ⟨g, hg, _⟩ := (h.view p hp).good.sub k c hc
  exact (hT.mem k).2 (by rw [hg]; rfl)

def weight : Stage → Nat
  | .asked => 3
  | .answered _ _ => 2
  | .rest _ => 1

def sentWeight : Bool → Nat
  | true => 0
  | false => 1

def notGot (n : Nat) (f : Nat → Bool) : Nat := ((Finset.range n).filter fun q => f q = false).card

/-- What process `p` can still do. -/
def remaining1 (n : Nat) (cells : Finset Key) (cost : τ → Nat) (s : State τ ω) (p : Nat) : Nat :=
  5 * (cells.card - (s.asked p).length) + ((s.tasks p).map cost).sum + 4 * (s.toSend p).length + ((s.trans p).map fun x => weight x.stage).sum + sentWeight (s.sent p) + notGot n (s.got p)

def remaining (n : Nat) (cells : Finset Key) (cost : τ → Nat) (s : State τ ω) : Nat := ∑ p ∈ Finset.range n, remaining1 n cells cost s p

theorem remaining_lt {n : Nat} {cost : τ → Nat} {s s' : State τ ω} {p : Nat} (hp : p < n) (h : remaining1 n cells cost s' p < remaining1 n cells cost s p)
    (ho : ∀ q, q ≠ p → remaining1 n cells cost s' q = remaining1 n cells cost s q) : remaining n cells cost s' < remaining n cells cost s := by
  apply Finset.sum_lt_sum
  · intro q _
    by_cases hq : q = p
    · rw [hq]; exact h.le
    · rw [ho q hq]
  · exact ⟨p, Finset.mem_range.2 hp, h⟩

theorem requests_length (n : Nat) (l : List (Nat × Key)) (hl : (l.map Prod.snd).Nodup) : (requests n l).length ≤ l.length := by
  have h1 : (requests n l).length ≤ ((requests n l).flatMap Trans.keys).length := by
    have : ∀ l : List Trans, (∀ x ∈ l, x.keys ≠ []) → l.length ≤ (l.flatMap Trans.keys).length := by
      intro l
      induction l with
      | nil => simp
      | cons x l ih =>
        intro h
        rw [List.flatMap_cons, List.length_append, List.length_cons]
        have := ih fun y hy => h y (by simp [hy])
        have h2 := List.length_pos_iff.2 (h x (by simp))
        omega
    exact this _ fun x hx => (requests_mem hx).2.2.1
  refine h1.trans ?_
  rw [← List.length_map (as := l) Prod.snd, ← List.toFinset_card_of_nodup (requests_nodup n l hl), ← List.toFinset_card_of_nodup hl]
  apply Finset.card_le_card
  intro k hk
  obtain ⟨x, hx, hkx⟩ := List.mem_flatMap.1 (List.mem_toFinset.1 hk)
  exact List.mem_toFinset.2 (List.mem_map.2 ⟨_, ((requests_mem hx).2.2.2 k).1 hkx, rfl⟩)

theorem requests_weight (n : Nat) (l : List (Nat × Key)) : ((requests n l).map fun x => weight x.stage).sum = 3 * (requests n l).length := by
  have : ∀ l : List Trans, (∀ x ∈ l, x.stage = .asked) → (l.map fun x => weight x.stage).sum = 3 * l.length := by
    intro l
    induction l with
    | nil => simp
    | cons x l ih =>
      intro h
      rw [List.map_cons, List.sum_cons, ih fun y hy => h y (by simp [hy]), h x (by simp), List.length_cons]
      show 3 + _ = _
      omega
  exact this _ fun x hx => (requests_mem hx).2.1

/-- A step with a task leaves less to do, unless all it misses is requested. -/
theorem remaining_work (hT : IsTree P.nch G cells) (h : Inv P G s0 K s) {p : Nat} (hp : p < P.n) {l1 l2 : List τ} {a : τ} (hl : s.tasks p = l1 ++ a :: l2) {s' : State τ ω}
    (hr : work P s p l1 a l2 = some s') :
    remaining P.n cells K.cost s' < remaining P.n cells K.cost s ∨ s' = s ∧ ∃ k c, s.tbl p k = some c ∧ c.requested = true ∧ emptyNode c = true := by
  obtain ⟨s2, h2, hI2⟩ := inv_work hT h hp hl
  rw [h2] at hr; cases hr
  obtain ⟨res, he, hpost⟩ := K.step p hp (s.tbl p) (h.view p hp) a (h.ok p hp a (by rw [hl]; simp))
  unfold work at h2
  rw [he] at h2
  cases res with
  | done next out =>
    left
    have hdec := K.dec p a next out hpost.1
    cases h2
    apply remaining_lt hp
    · unfold remaining1
      dsimp only
      rw [upd_eq, hl]
      simp only [List.map_append, List.map_cons, List.sum_append, List.sum_cons]
      omega
    · intro q hq
      unfold remaining1
      dsimp only
      rw [upd_ne _ _ hq]
  | missing ms =>
    dsimp only at h2
    obtain ⟨new, hnew⟩ : ∃ new, new = unrequested (s.tbl p) ms := ⟨_, rfl⟩
    rw [← hnew] at h2
    by_cases hn0 : new = []
    · right
      constructor
      · cases h2
        rw [hn0]
        have e1 : mark (s.tbl p) [] = s.tbl p := by
          funext k
          simp [mark]
        rw [List.map_nil, e1, List.append_nil, List.append_nil, upd_self, upd_self, upd_self]
      · obtain ⟨k, hk⟩ := List.exists_mem_of_ne_nil _ hpost.1
        obtain ⟨_, c, hc, hem⟩ := hpost.2.2 k hk
        refine ⟨k, c, hc, ?_, hem⟩
        cases hrq : c.requested with
        | true => rfl
        | false =>
          have : (c.owner, k) ∈ new := by
            rw [hnew, unrequested_mem]
            exact ⟨hk, c, hc, hrq, rfl⟩
          rw [hn0] at this
          simp at this
    · left
      have hle := asked_le hT hI2 hp
      have hpos := List.length_pos_iff.2 hn0
      cases h2
      apply remaining_lt hp
      · unfold remaining1
        dsimp only at hle ⊢
        rw [upd_eq] at hle ⊢
        rw [upd_eq, List.length_append, List.length_map] at *
        rw [List.length_append]
        omega
      · intro q hq
        unfold remaining1
        dsimp only
        rw [upd_ne _ _ hq, upd_ne _ _ hq]

theorem remaining_flush (h : Inv P G s0 K s) {p : Nat} (hp : p < P.n) (hne : s.toSend p ≠ []) : remaining P.n cells K.cost (flush P s p) < remaining P.n cells K.cost s := by
  have hnd : ((s.toSend p).map Prod.snd).Nodup := by
    have := h.dis p hp
    unfold pendingKeys at this
    exact (List.nodup_append.1 this).1
  have hlen := requests_length P.n (s.toSend p) hnd
  have hw := requests_weight P.n (s.toSend p)
  have hpos := List.length_pos_iff.2 hne
  unfold flush
  apply remaining_lt hp
  · unfold remaining1
    dsimp only
    rw [upd_eq, upd_eq, List.map_append, List.sum_append, hw]
    simp only [List.length_nil]
    omega
  · intro q hq
    unfold remaining1
    dsimp only
    rw [upd_ne _ _ hq, upd_ne _ _ hq]

theorem flush_nil {p : Nat} (h : s.toSend p = []) : flush P s p = s := by
  have e2 : requests P.n [] = [] := by
    unfold requests
    simp
  unfold flush
  rw [h, e2, List.append_nil, upd_self, ← h, upd_self]

/-- Every step either changes nothing or leaves less to do. -/
theorem remaining_next (hT : IsTree P.nch G cells) (h : Inv P G s0 K s) {s' : State τ ω} (hn : Next P s (some s')) :
    s' = s ∨ remaining P.n cells K.cost s' < remaining P.n cells K.cost s := by
  obtain ⟨r, hr⟩ : ∃ r, r = some s' := ⟨_, rfl⟩
  rw [← hr] at hn
  cases hn with
  | work p hp l1 a l2 hl =>
    rcases remaining_work hT h hp hl hr with h1 | h1
    · exact Or.inr h1
    · exact Or.inl h1.1
  | flush p hp =>
    cases hr
    by_cases hne : s.toSend p = []
    · exact Or.inl (flush_nil hne)
    · exact Or.inr (remaining_flush h hp hne)
  | serve p hp l1 x l2 hl hx he =>
    right
    unfold serve at hr
    cases hrep : reply P.nch (s.tbl x.owner) x.keys with
    | none => rw [hrep] at hr; cases hr
    | some v =>
      obtain ⟨ns, es⟩ := v
      rw [hrep] at hr
      cases hr
      apply remaining_lt hp
      · unfold remaining1
        dsimp only
        rw [upd_eq, hl]
        simp only [List.map_append, List.map_cons, List.sum_append, List.sum_cons, hx, weight]
        omega
      · intro q hq
        unfold remaining1
        dsimp only
        rw [upd_ne _ _ hq]
  | takeNodes p hp l1 x l2 ns es hl hx he =>
    right
    unfold takeNodes at hr
    cases hrec : recvNodes (s.tbl p) ns with
    | none => rw [hrec] at hr; cases hr
    | some t =>
      rw [hrec] at hr
      cases hr
      apply remaining_lt hp
      · unfold remaining1
        dsimp only
        rw [upd_eq, hl]
        split_ifs <;> simp only [List.map_append, List.map_cons, List.sum_append, List.sum_cons, hx, weight] <;> omega
      · intro q hq
        unfold remaining1
        dsimp only
        rw [upd_ne _ _ hq]
  | takeEnts p hp l1 x l2 es hl hx he =>
    right
    unfold takeEnts at hr
    cases hrec : recvEnts (s.tbl p) es with
    | none => rw [hrec] at hr; cases hr
    | some t =>
      rw [hrec] at hr
      cases hr
      apply remaining_lt hp
      · unfold remaining1
        dsimp only
        rw [upd_eq, hl]
        simp only [List.map_append, List.map_cons, List.sum_append, List.sum_cons, hx, weight]
        omega
      · intro q hq
        unfold remaining1
        dsimp only
        rw [upd_ne _ _ hq]
  | finish p hp ht hs =>
    right
    cases hr
    apply remaining_lt hp
    · unfold remaining1
      dsimp only
      rw [upd_eq, hs]
      simp only [sentWeight]
      omega
    · intro q hq
      unfold remaining1
      dsimp only
      rw [upd_ne _ _ hq]
  | done p q hp hq hs hg he =>
    right
    cases hr
    apply remaining_lt hp
    · unfold remaining1
      dsimp only
      rw [upd_eq]
      have : notGot P.n (upd (s.got p) q true) < notGot P.n (s.got p) := by
        unfold notGot
        apply Finset.card_lt_card
        refine Finset.ssubset_iff_of_subset ?_ |>.2 ⟨q, ?_, ?_⟩
        · intro q' hq'
          rw [Finset.mem_filter] at hq' ⊢
          refine ⟨hq'.1, ?_⟩
          by_cases hqq : q' = q
          · rw [hqq]; exact hg
          · have := hq'.2
            rwa [upd_ne _ _ hqq] at this
        · rw [Finset.mem_filter]
          exact ⟨Finset.mem_range.2 hq, hg⟩
        · rw [Finset.mem_filter, upd_eq]
          simp
      omega
    · intro q' hq'
      unfold remaining1
      dsimp only
      rw [upd_ne _ _ hq']

theorem run_of_runN {m : Nat} (h : RunN P s0 m s) : Run P s0 s := by
  induction h with
  | start => exact .start
  | idle _ _ ih => exact ih
  | next _ hn _ ih => exact .next ih hn

theorem notGot_le (n : Nat) (f : Nat → Bool) : notGot n f ≤ n := by
  unfold notGot
  exact (Finset.card_filter_le _ _).trans (by simp)

/-- termination: the number of steps which change anything is bounded by the size of the tree, the number of tasks and the number of processes, whatever the order of messages. -/
theorem run_bounded (hT : IsTree P.nch G cells) (h0 : Start P G s0) (hok : ∀ p < P.n, ∀ a ∈ s0.tasks p, K.Ok p (s0.tbl p) a) {m : Nat} (h : RunN P s0 m s) :
    m ≤ ∑ p ∈ Finset.range P.n, (5 * cells.card + ((s0.tasks p).map K.cost).sum + 1 + P.n) := by
  have h1 : m + remaining P.n cells K.cost s ≤ remaining P.n cells K.cost s0 := by
    induction h with
    | start => omega
    | idle _ _ ih => exact ih
    | @next m s s' hr hn hne ih =>
      rcases remaining_next hT (inv_run hT h0 hok (run_of_runN hr)) hn with h2 | h2
      · exact absurd h2 hne
      · omega
  have h2 : remaining P.n cells K.cost s0 ≤ ∑ p ∈ Finset.range P.n, (5 * cells.card + ((s0.tasks p).map K.cost).sum + 1 + P.n) := by
    apply Finset.sum_le_sum
    intro p hp
    have hp := Finset.mem_range.1 hp
    unfold remaining1
    rw [h0.trans p hp, h0.sent p hp, h0.toSend p hp]
    have := notGot_le P.n (s0.got p)
    simp only [List.map_nil, List.sum_nil, List.length_nil, sentWeight]
    omega
  omega

/-- no deadlock: as long as a process has not left the traversal, something that changes the state can happen; in particular no process waits for a message that never comes. -/
theorem run_progress (hT : IsTree P.nch G cells) (h0 : Start P G s0) (hok : ∀ p < P.n, ∀ a ∈ s0.tasks p, K.Ok p (s0.tbl p) a) (h : Run P s0 s) (hleft : ∃ p < P.n, ¬ exited P.n s p) :
    ∃ s', Next P s (some s') ∧ s' ≠ s := by
  have hI := inv_run hT h0 hok h
  -- a step that surely changes the state
  have key : ∀ r, Next P s r → (∀ s', r = some s' → remaining P.n cells K.cost s' ≠ remaining P.n cells K.cost s) → ∃ s', Next P s (some s') ∧ s' ≠ s := by
    intro r hn hne
    obtain ⟨s', h1, _⟩ := inv_next hT hI hn
    subst h1
    exact ⟨s', hn, fun he => hne s' rfl (by rw [he])⟩
  have hchg : ∀ {s' : State τ ω} (p : Nat), p < P.n → remaining1 P.n cells K.cost s' p < remaining1 P.n cells K.cost s p → (∀ q, q ≠ p → remaining1 P.n cells K.cost s' q = remaining1 P.n cells K.cost s q) →
      remaining P.n cells K.cost s' ≠ remaining P.n cells K.cost s := fun p hp h1 h2 => (remaining_lt hp h1 h2).ne
  by_cases htr : ∃ p < P.n, s.trans p ≠ []
  · -- a message of a request is under way
    obtain ⟨p, hp, hne⟩ := htr
    have htask := task_of_trans hT hI hp (Or.inl hne)
    have hsp : s.sent p = false := by
      cases hs : s.sent p with
      | false => rfl
      | true => exact absurd (hI.sent p hp hs) htask
    have hnoexit : ∀ q < P.n, ¬ exited P.n s q := by
      intro q hq he
      have := hI.got q hq p hp (he p hp)
      rw [hsp] at this
      cases this
    obtain ⟨x, l2, hl⟩ := List.exists_cons_of_ne_nil hne
    have hxm : x ∈ s.trans p := by rw [hl]; simp
    obtain ⟨_, hok⟩ := hI.tr p hp x hxm
    have hl' : s.trans p = [] ++ x :: l2 := hl
    cases hst : x.stage with
    | asked =>
      rw [hst] at hok
      refine key _ (.serve p hp [] x l2 hl' hst (hnoexit _ hok.1)) fun s' hs' => ?_
      unfold serve at hs'
      cases hrep : reply P.nch (s.tbl x.owner) x.keys with
      | none => rw [hrep] at hs'; cases hs'
      | some v =>
        obtain ⟨ns, es⟩ := v
        rw [hrep] at hs'
        cases hs'
        apply hchg p hp
        · unfold remaining1
          dsimp only
          rw [upd_eq, hl]
          simp only [List.nil_append, List.map_cons, List.sum_cons, hst, weight]
          omega
        · intro q hq
          unfold remaining1
          dsimp only
          rw [upd_ne _ _ hq]
    | answered ns es =>
      refine key _ (.takeNodes p hp [] x l2 ns es hl' hst (hnoexit p hp)) fun s' hs' => ?_
      unfold takeNodes at hs'
      cases hrec : recvNodes (s.tbl p) ns with
      | none => rw [hrec] at hs'; cases hs'
      | some t =>
        rw [hrec] at hs'
        cases hs'
        apply hchg p hp
        · unfold remaining1
          dsimp only
          rw [upd_eq, hl]
          split_ifs <;> simp only [List.nil_append, List.map_cons, List.sum_cons, hst, weight] <;> omega
        · intro q hq
          unfold remaining1
          dsimp only
          rw [upd_ne _ _ hq]
    | rest es =>
      refine key _ (.takeEnts p hp [] x l2 es hl' hst (hnoexit p hp)) fun s' hs' => ?_
      unfold takeEnts at hs'
      cases hrec : recvEnts (s.tbl p) es with
      | none => rw [hrec] at hs'; cases hs'
      | some t =>
        rw [hrec] at hs'
        cases hs'
        apply hchg p hp
        · unfold remaining1
          dsimp only
          rw [upd_eq, hl]
          simp only [List.nil_append, List.map_cons, List.sum_cons, hst, weight]
          omega
        · intro q hq
          unfold remaining1
          dsimp only
          rw [upd_ne _ _ hq]
  · have htr0 : ∀ p < P.n, s.trans p = [] := by
      intro p hp
      by_contra hne
      exact htr ⟨p, hp, hne⟩
    by_cases hsn : ∃ p < P.n, s.toSend p ≠ []
    · obtain ⟨p, hp, hne⟩ := hsn
      exact key _ (.flush p hp) fun s' hs' => by
        cases hs'
        exact (remaining_flush hI hp hne).ne
    have hsn0 : ∀ p < P.n, s.toSend p = [] := by
      intro p hp
      by_contra hne
      exact hsn ⟨p, hp, hne⟩
    by_cases hta : ∃ p < P.n, s.tasks p ≠ []
    · -- a task can run: no cell it needs is under way, so it finishes or requests something new
      obtain ⟨p, hp, hne⟩ := hta
      obtain ⟨a, l2, hl⟩ := List.exists_cons_of_ne_nil hne
      have hl' : s.tasks p = [] ++ a :: l2 := hl
      refine key _ (.work p hp [] a l2 hl') fun s' hs' => ?_
      rcases remaining_work hT hI hp hl' hs' with h1 | ⟨_, k, c, hc, hrq, hem⟩
      · exact h1.ne
      · have := (hI.pend p hp k c hc hrq hem).1
        unfold pendingKeys at this
        rw [htr0 p hp, hsn0 p hp] at this
        simp at this
    · have hta0 : ∀ p < P.n, s.tasks p = [] := by
        intro p hp
        by_contra hne
        exact hta ⟨p, hp, hne⟩
      by_cases hse : ∃ p < P.n, s.sent p = false
      · obtain ⟨p, hp, hs⟩ := hse
        refine key _ (.finish p hp (hta0 p hp) hs) fun s' hs' => ?_
        cases hs'
        apply hchg p hp
        · unfold remaining1
          dsimp only
          rw [upd_eq, hs]
          simp only [sentWeight]
          omega
        · intro q hq
          unfold remaining1
          dsimp only
          rw [upd_ne _ _ hq]
      · obtain ⟨p, hp, he⟩ := hleft
        have : ∃ q < P.n, s.got p q = false := by
          by_contra hcon
          apply he
          intro q hq
          by_contra hg
          exact hcon ⟨q, hq, by simpa using hg⟩
        obtain ⟨q, hq, hg⟩ := this
        have hs : s.sent q = true := by
          cases hs : s.sent q with
          | true => rfl
          | false => exact absurd ⟨q, hq, hs⟩ hse
        refine ⟨_, .done p q hp hq hs hg he, fun heq => ?_⟩
        have := congrArg (fun s : State τ ω => s.got p q) heq
        simp only [upd_eq, hg] at this
        exact absurd this (by decide)

/-- When all processes have left the traversal, no message, request or task is left. -/
theorem run_end (hT : IsTree P.nch G cells) (h0 : Start P G s0) (hok : ∀ p < P.n, ∀ a ∈ s0.tasks p, K.Ok p (s0.tbl p) a) (h : Run P s0 s) (hend : ∀ p < P.n, exited P.n s p) (p : Nat)
    (hp : p < P.n) : s.trans p = [] ∧ s.toSend p = [] ∧ s.tasks p = [] := by
  have hI := inv_run hT h0 hok h
  have ht : s.tasks p = [] := hI.sent p hp (hI.got p hp p hp (hend p hp p hp))
  refine ⟨?_, ?_, ht⟩
  · by_contra hne
    exact task_of_trans hT hI hp (Or.inl hne) ht
  · by_contra hne
    exact task_of_trans hT hI hp (Or.inr hne) ht

/-- When a process takes a node for complete, all its children in the global tree are in its table. -/
theorem run_complete (hT : IsTree P.nch G cells) (h0 : Start P G s0) (hok : ∀ p < P.n, ∀ a ∈ s0.tasks p, K.Ok p (s0.tbl p) a) (h : Run P s0 s) {p : Nat} (hp : p < P.n) {k : Key} {c : Cell}
    (hc : s.tbl p k = some c) (he : emptyNode c = false) (j : Nat) (hj : (G (j :: k)).isSome) : (s.tbl p (j :: k)).isSome := by
  have hI := inv_run hT h0 hok h
  obtain ⟨g, hg, hjg⟩ := (hT.child j k).1 hj
  obtain ⟨g', hg', e1, _⟩ := (hI.view p hp).good.sub k c hc
  rw [hg] at hg'; cases hg'
  have hce : c.ent = false := by
    cases hce : c.ent with
    | false => rfl
    | true =>
      have := (hT.leaf k g hg).1 (e1 ▸ hce)
      rw [this] at hjg
      simp at hjg
  exact ((hI.view p hp).good.link j k).2 ⟨c, hc, full_of_not_empty hT (hI.view p hp).good hc hg hce he ▸ hjg⟩

/-- After a traversal another one can start, and the processes own the same cells. -/
theorem run_again {τ' ω' : Type} {P' : Par τ' ω'} (hn : P'.n = P.n) (hT : IsTree P.nch G cells) (h0 : Start P G s0) (hok : ∀ p < P.n, ∀ a ∈ s0.tasks p, K.Ok p (s0.tbl p) a) (h : Run P s0 s)
    (hend : ∀ p < P.n, exited P.n s p) (tasks : Nat → List τ') : Start P' G (restart (ω' := ω') s tasks) ∧ ∀ p < P.n, ∀ k, Mine (restart (ω' := ω') s tasks) p k ↔ Mine s0 p k := by
  have hI := inv_run hT h0 hok h
  refine ⟨⟨?_, ?_, ?_, fun _ _ => rfl, fun _ _ => rfl, fun _ _ => rfl, fun _ _ => rfl, fun _ _ => rfl, fun _ _ _ _ => rfl⟩, ?_⟩
  · intro p hp
    exact (hI.view p (hn ▸ hp)).good
  · intro p hp k c hc
    rw [hn] at hp ⊢
    exact hI.own p hp k c hc
  · intro p hp k c hc
    rw [hn] at hp
    change s.tbl p k = some c at hc
    cases hrq : c.requested with
    | false => exact (hI.whole p hp k c hc hrq).imp_left fun h1 => ⟨h1, rfl⟩
    | true =>
      right
      have hem : emptyNode c = false := by
        cases hem : emptyNode c with
        | false => rfl
        | true =>
          obtain ⟨_, a, ha, _⟩ := hI.pend p hp k c hc hrq hem
          rw [(run_end hT h0 hok h hend p hp).2.2] at ha
          simp at ha
      obtain ⟨g, hg, e1, e2, _⟩ := (hI.view p hp).good.sub k c hc
      refine ⟨g, hg, ?_⟩
      cases hce : c.ent with
      | false => exact full_of_not_empty hT (hI.view p hp).good hc hg hce hem
      | true =>
        have := (hT.leaf k g hg).1 (e1 ▸ hce)
        rw [this] at e2 ⊢
        exact Finset.subset_empty.1 e2
  · intro p hp k
    constructor
    · rintro ⟨c, hc, ho⟩
      exact ((hI.view p hp).mine k c hc).1 ho
    · intro hm
      obtain ⟨c, g, hc, _⟩ := (hI.view p hp).full k hm
      exact ⟨c, hc, ((hI.view p hp).mine k c hc).2 hm⟩

/-- from every state that is reached the end can be reached. -/
theorem run_can_end (hT : IsTree P.nch G cells) (h0 : Start P G s0) (hok : ∀ p < P.n, ∀ a ∈ s0.tasks p, K.Ok p (s0.tbl p) a) (h : Run P s0 s) : ∃ s', Run P s s' ∧ ∀ p < P.n, exited P.n s' p := by
  have main : ∀ m (s : State τ ω), Run P s0 s → remaining P.n cells K.cost s ≤ m → ∃ s', Run P s s' ∧ ∀ p < P.n, exited P.n s' p := by
    intro m
    induction m with
    | zero =>
      intro s h hm
      by_cases hl : ∃ p < P.n, ¬ exited P.n s p
      · obtain ⟨s', hn, hne⟩ := run_progress hT h0 hok h hl
        rcases remaining_next hT (inv_run hT h0 hok h) hn with h1 | h1
        · exact absurd h1 hne
        · omega
      · exact ⟨s, .start, fun p hp => by by_contra he; exact hl ⟨p, hp, he⟩⟩
    | succ m ih =>
      intro s h hm
      by_cases hl : ∃ p < P.n, ¬ exited P.n s p
      · obtain ⟨s', hn, hne⟩ := run_progress hT h0 hok h hl
        rcases remaining_next hT (inv_run hT h0 hok h) hn with h1 | h1
        · exact absurd h1 hne
        · obtain ⟨s2, hr, he⟩ := ih s' (.next h hn) (by omega)
          refine ⟨s2, ?_, he⟩
          have : Run P s s' := .next .start hn
          clear he ih hm h1
          induction hr with
          | start => exact this
          | next _ hn' ih' => exact .next ih' hn'
      · exact ⟨s, .start, fun p hp => by by_contra he; exact hl ⟨p, hp, he⟩⟩
  exact main _ s h le_rfl

/-- a process does not leave too early: when one process has left, no request is waiting for an answer anywhere. -/
theorem run_served (hT : IsTree P.nch G cells) (h0 : Start P G s0) (hok : ∀ p < P.n, ∀ a ∈ s0.tasks p, K.Ok p (s0.tbl p) a) (h : Run P s0 s) {p : Nat} (hp : p < P.n) (he : exited P.n s p) (q : Nat) (hq : q < P.n) :
    s.trans q = [] := by
  have hI := inv_run hT h0 hok h
  by_contra hne
  exact task_of_trans hT hI hq (Or.inl hne) (hI.sent q hq (hI.got p hp q hq (he q hq)))

end

end FleCSPH.Ghosts
