import Verif.Model.Traversal
import Verif.Lemmas.Cofm2
/-! Traversals of a well-formed tree. -/
namespace FleCSPH.Traversal
open FleCSPH.HCell FleCSPH.BuildTree FleCSPH.Cofm FleCSPH.Geometry FleCSPH.Spec

variable {d : Nat} {α : Type}

/-- The daughters of a node share out its particles. -/
structure Split (T : Top d) (rk : Nat → Nat) (B : Nat → Finset Nat) (k : Nat) (ds : List Nat) : Prop where
  nodup : ds.Nodup
  some_ : ∀ e ∈ ds, ∃ c, T.tbl e = some c
  rank : ∀ e ∈ ds, rk e < rk k
  cover : ∀ j, j ∈ B k ↔ ∃ e ∈ ds, j ∈ B e
  disj : ∀ e ∈ ds, ∀ e' ∈ ds, e ≠ e' → ∀ j, j ∈ B e → j ∉ B e'

/-- A tree whose cell `k` stands for the particles `B k`: leaves point to one particle, nodes summarise theirs and, unless
their daughters are still missing, share them out among their daughters. -/
structure TreeWF (T : Top d) (rk : Nat → Nat) (B : Nat → Finset Nat) (body : Nat → Body d) (ref : Nat → Bool × Int) : Prop where
  root : ∃ c, T.tbl 1 = some c
  ne : ∀ k c, T.tbl k = some c → ∃ j, j ∈ B k
  cell : ∀ k c, T.tbl k = some c →
    (isNode c = some false ∧ ∃ j, B k = {j} ∧ entRef T c = ref j ∧ getEntity T c = some (body j)) ∨
    (isNode c = some true ∧ (∃ N, getNode T c = some N ∧ Summarises body (B k) N) ∧
      (isEmptyNode T.dim c = some true ∨
        (isEmptyNode T.dim c = some false ∧ ∃ ds, daughterKeys T.dim T.tbl k c = some ds ∧ Split T rk B k ds)))

/-- No daughters are missing. -/
def Complete (T : Top d) : Prop := ∀ k c, T.tbl k = some c → isEmptyNode T.dim c = some true → False

/-! ### The loop of `traversal` -/

theorem trav_mono (T : Top d) (func : Nat → Cell → Option (Bool × List α)) :
    ∀ (f g : Nat) (stk : List Nat) (acc r : List α), f ≤ g → traversal T func f stk acc = some r →
      traversal T func g stk acc = some r := by
  intro f
  induction f with
  | zero => intro g stk acc r _ h; simp [traversal] at h
  | succ f ih =>
    intro g stk acc r hg h
    obtain ⟨g, rfl⟩ : ∃ g', g = g' + 1 := ⟨g - 1, by omega⟩
    cases stk with
    | nil => simpa [traversal] using h
    | cons k stk =>
      rw [traversal] at h ⊢
      cases hc : T.tbl k with
      | none => simp [hc] at h
      | some c =>
        cases hf : func k c with
        | none => simp [hc, hf] at h
        | some bo =>
          obtain ⟨b, o⟩ := bo
          rw [hc] at h
          simp only [Option.bind_eq_bind, Option.bind_some, hf] at h ⊢
          cases b with
          | false =>
            simp only [Bool.false_eq_true, if_false] at h ⊢
            exact ih _ _ _ _ (by omega) h
          | true =>
            simp only [if_true] at h ⊢
            cases hd : daughterKeys T.dim T.tbl k c with
            | none => simp [hd] at h
            | some ds =>
              rw [hd] at h
              simp only [Option.bind_some] at h ⊢
              exact ih _ _ _ _ (by omega) h

/-- Running a list of cells whose runs are known. -/
theorem trav_list (T : Top d) (func : Nat → Cell → Option (Bool × List α)) (P : Nat → List α → Prop) (ks : List Nat)
    (h : ∀ k ∈ ks, ∃ cost l, P k l ∧ ∀ fuel stk acc, traversal T func (fuel + cost) (k :: stk) acc = traversal T func fuel stk (acc ++ l)) :
    ∃ cost ls, List.Forall₂ P ks ls ∧
      ∀ fuel stk acc, traversal T func (fuel + cost) (ks ++ stk) acc = traversal T func fuel stk (acc ++ ls.flatten) := by
  induction ks with
  | nil => exact ⟨0, [], List.Forall₂.nil, by intro fuel stk acc; simp⟩
  | cons k ks ih =>
    obtain ⟨c1, l, hP, h1⟩ := h k List.mem_cons_self
    obtain ⟨c2, ls, hPs, h2⟩ := ih fun k hk => h k (List.mem_cons_of_mem _ hk)
    refine ⟨c2 + c1, l :: ls, List.Forall₂.cons hP hPs, ?_⟩
    intro fuel stk acc
    rw [List.cons_append, ← Nat.add_assoc, h1, h2]
    simp

theorem trav_ind (T : Top d) (func : Nat → Cell → Option (Bool × List α)) (P : Nat → List α → Prop) (rk : Nat → Nat)
    (Ok : Nat → Prop)
    (step : ∀ k, Ok k → ∃ c b o, T.tbl k = some c ∧ func k c = some (b, o) ∧ (b = false → P k o) ∧
      (b = true → ∃ ds, daughterKeys T.dim T.tbl k c = some ds ∧ (∀ e ∈ ds, Ok e ∧ rk e < rk k) ∧
        ∀ ls, List.Forall₂ P ds.reverse ls → P k (o ++ ls.flatten))) :
    ∀ n k, rk k < n → Ok k → ∃ cost l, P k l ∧
      ∀ fuel stk acc, traversal T func (fuel + cost) (k :: stk) acc = traversal T func fuel stk (acc ++ l) := by
  intro n
  induction n with
  | zero => intro k hk; omega
  | succ n ih =>
    intro k hk hok
    obtain ⟨c, b, o, h1, h2, h3, h4⟩ := step k hok
    cases b with
    | false =>
      refine ⟨1, o, h3 rfl, ?_⟩
      intro fuel stk acc
      rw [traversal, h1]
      simp [h2]
    | true =>
      obtain ⟨ds, h5, h6, h7⟩ := h4 rfl
      obtain ⟨cost, ls, h8, h9⟩ := trav_list T func P ds.reverse (fun e he =>
        ih e (by have := (h6 e (List.mem_reverse.mp he)).2; omega) (h6 e (List.mem_reverse.mp he)).1)
      refine ⟨cost + 1, o ++ ls.flatten, h7 ls h8, ?_⟩
      intro fuel stk acc
      rw [← Nat.add_assoc, traversal, h1]
      simp [h2, h5, h9]

/-- Whole runs. -/
theorem trav_run (T : Top d) (func : Nat → Cell → Option (Bool × List α)) (P : Nat → List α → Prop) (rk : Nat → Nat)
    (Ok : Nat → Prop)
    (step : ∀ k, Ok k → ∃ c b o, T.tbl k = some c ∧ func k c = some (b, o) ∧ (b = false → P k o) ∧
      (b = true → ∃ ds, daughterKeys T.dim T.tbl k c = some ds ∧ (∀ e ∈ ds, Ok e ∧ rk e < rk k) ∧
        ∀ ls, List.Forall₂ P ds.reverse ls → P k (o ++ ls.flatten))) (k : Nat) (hk : Ok k) :
    ∃ fuel₀ l, P k l ∧ ∀ fuel, fuel₀ ≤ fuel → traversal T func fuel [k] [] = some l := by
  obtain ⟨cost, l, hP, h⟩ := trav_ind T func P rk Ok step _ k (Nat.lt_succ_self _) hk
  refine ⟨1 + cost, l, hP, ?_⟩
  intro fuel hf
  apply trav_mono T func (1 + cost) fuel _ _ _ hf
  rw [h, traversal]
  simp

/-- Outputs of daughters that list, without repetition, the wanted particles of each daughter, list those of the parent. -/
theorem collect {T : Top d} {rk : Nat → Nat} {B : Nat → Finset Nat} {k : Nat} {ds : List Nat} (hs : Split T rk B k ds)
    (ref : Nat → α) (S : Finset Nat) (hsub : B k ⊆ S) (hinj : ∀ i ∈ S, ∀ j ∈ S, ref i = ref j → i = j) (W : Nat → Prop) {ls : List (List α)}
    (h : List.Forall₂ (fun e l => l.Nodup ∧ ∀ a, a ∈ l ↔ ∃ j ∈ B e, W j ∧ a = ref j) ds.reverse ls) :
    ls.flatten.Nodup ∧ ∀ a, a ∈ ls.flatten ↔ ∃ j ∈ B k, W j ∧ a = ref j := by
  have key : ∀ es : List Nat, es.Nodup → (∀ e ∈ es, e ∈ ds) → ∀ ls : List (List α),
      List.Forall₂ (fun e l => l.Nodup ∧ ∀ a, a ∈ l ↔ ∃ j ∈ B e, W j ∧ a = ref j) es ls →
      ls.flatten.Nodup ∧ ∀ a, a ∈ ls.flatten ↔ ∃ e ∈ es, ∃ j ∈ B e, W j ∧ a = ref j := by
    intro es
    induction es with
    | nil => intro _ _ ls h; cases h; simp
    | cons e es ih =>
      intro hn hm ls h
      cases h with
      | cons h1 h2 =>
        obtain ⟨ih1, ih2⟩ := ih (List.nodup_cons.mp hn).2 (fun e he => hm e (List.mem_cons_of_mem _ he)) _ h2
        rw [List.flatten_cons]
        constructor
        · rw [List.nodup_append]
          refine ⟨h1.1, ih1, ?_⟩
          intro a ha b hb hab
          subst hab
          obtain ⟨j, hj, -, rfl⟩ := (h1.2 a).mp ha
          obtain ⟨e', he', j', hj', -, hjj⟩ := (ih2 _).mp hb
          have hsub' : ∀ e ∈ ds, ∀ j ∈ B e, j ∈ S := fun e he j hj => hsub ((hs.cover j).mpr ⟨e, he, hj⟩)
          have : j = j' := hinj j (hsub' _ (hm e List.mem_cons_self) _ hj) j' (hsub' _ (hm e' (List.mem_cons_of_mem _ he')) _ hj') hjj
          subst this
          have hne : e ≠ e' := by rintro rfl; exact (List.nodup_cons.mp hn).1 he'
          exact hs.disj e (hm e List.mem_cons_self) e' (hm e' (List.mem_cons_of_mem _ he')) hne j hj hj'
        · intro a
          rw [List.mem_append, h1.2, ih2]
          simp
  obtain ⟨h1, h2⟩ := key ds.reverse (List.nodup_reverse.mpr hs.nodup) (fun e he => List.mem_reverse.mp he) ls h
  refine ⟨h1, ?_⟩
  intro a
  rw [h2]
  constructor
  · rintro ⟨e, he, j, hj, hW, rfl⟩
    exact ⟨j, (hs.cover j).mpr ⟨e, List.mem_reverse.mp he, hj⟩, hW, rfl⟩
  · rintro ⟨j, hj, hW, rfl⟩
    obtain ⟨e, he, hje⟩ := (hs.cover j).mp hj
    exact ⟨e, List.mem_reverse.mpr he, j, hje, hW, rfl⟩

/-- A node that does not open has no wanted particle. -/
theorem radius_prune {body : Nat → Body d} {S : Finset Nat} {N : Node d} (hN : Summarises body S N) {center : Point d} {radius : ℝ}
    {j : Nat} (hr : 0 ≤ max radius (body j).h) (h : ¬ withinDistance2 N.coords center (max N.lap radius + N.radius)) (hj : j ∈ S) :
    ¬ distance center (body j).pos ≤ max radius (body j).h := by
  intro hd
  have h1 := hN.radius j hj
  have h2 := hN.lap j hj
  have h3 := distance_triangle N.coords (body j).pos center
  rw [distance_comm (body j).pos center] at h3
  have h4 := distance_nonneg N.coords (body j).pos
  apply h
  have h5 : max radius (body j).h ≤ max N.lap radius := max_le (le_max_right _ _) (le_trans (by linarith) (le_max_left _ _))
  rw [within_iff _ _ (add_nonneg (le_trans hr h5) (le_trans h4 h1))]
  linarith

variable {T : Top d} {rk : Nat → Nat} {B : Nat → Finset Nat} {body : Nat → Body d} {ref : Nat → Bool × Int}

open Classical in
theorem findInRadius_spec (hT : TreeWF T rk B body ref) (hc : Complete T) (center : Point d) (radius : ℝ)
    (hr : ∀ j ∈ B 1, 0 ≤ max radius (body j).h)
    (hinj : ∀ i ∈ B 1, ∀ j ∈ B 1, ref i = ref j → i = j) :
    ∃ fuel₀ l, (l.Nodup ∧ ∀ a, a ∈ l ↔ ∃ j ∈ B 1, distance center (body j).pos ≤ max radius (body j).h ∧ a = ref j) ∧
      ∀ fuel, fuel₀ ≤ fuel → findInRadius T center radius fuel = some l := by
  apply trav_run T (radiusFunc T center radius)
    (fun e l => l.Nodup ∧ ∀ a, a ∈ l ↔ ∃ j ∈ B e, distance center (body j).pos ≤ max radius (body j).h ∧ a = ref j) rk
    (fun k => (∃ c, T.tbl k = some c) ∧ B k ⊆ B 1)
  · rintro k ⟨⟨c, hk⟩, hsub⟩
    rcases hT.cell k c hk with ⟨h1, j, h2, h3, h4⟩ | ⟨h1, ⟨N, h2, h3⟩, h4⟩
    · refine ⟨c, false, if withinDistance2 center (body j).pos (max radius (body j).h) then [entRef T c] else [], hk, ?_, ?_, by simp⟩
      · rw [radiusFunc, h1]
        simp only [Option.bind_eq_bind, Option.bind_some, Bool.false_eq_true, if_false]
        rw [h4]; rfl
      · intro _
        rw [h2, h3]
        have hw := within_iff center (body j).pos (hr j (hsub (by rw [h2]; simp)))
        by_cases h : withinDistance2 center (body j).pos (max radius (body j).h)
        · rw [if_pos h]
          refine ⟨by simp, ?_⟩
          intro a
          simp only [List.mem_singleton, Finset.mem_singleton]
          constructor
          · intro ha; exact ⟨j, rfl, hw.mp h, ha⟩
          · rintro ⟨_, rfl, _, ha⟩; exact ha
        · rw [if_neg h]
          refine ⟨by simp, ?_⟩
          intro a
          simp only [List.not_mem_nil, Finset.mem_singleton, false_iff]
          rintro ⟨_, rfl, hd, _⟩
          exact h (hw.mpr hd)
    · rcases h4 with h4 | ⟨h4, ds, h5, h6⟩
      · exact (hc k c hk h4).elim
      · refine ⟨c, decide (withinDistance2 N.coords center (max N.lap radius + N.radius)), [], hk, ?_, ?_, ?_⟩
        · rw [radiusFunc, h1]
          simp only [Option.bind_eq_bind, Option.bind_some, if_true]
          rw [h2]
          simp
        · intro hb
          have hb := of_decide_eq_false hb
          refine ⟨by simp, ?_⟩
          intro a
          simp only [List.not_mem_nil, false_iff]
          rintro ⟨j, hj, hd, -⟩
          exact radius_prune h3 (hr j (hsub hj)) hb hj hd
        · intro _
          refine ⟨ds, h5, ?_, ?_⟩
          · intro e he
            refine ⟨⟨h6.some_ e he, ?_⟩, h6.rank e he⟩
            intro j hj
            exact hsub ((h6.cover j).mpr ⟨e, he, hj⟩)
          · intro ls hls
            rw [List.nil_append]
            exact collect h6 ref (B 1) hsub hinj _ hls
  · exact ⟨hT.root, Finset.Subset.refl _⟩

end FleCSPH.Traversal
