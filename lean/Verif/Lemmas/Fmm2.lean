import Verif.Lemmas.Fmm
import Verif.Spec.Fmm
/-! The calls of `traversal_fmm`. -/
namespace FleCSPH.Fmm
open FleCSPH.HCell FleCSPH.BuildTree FleCSPH.Cofm FleCSPH.Geometry FleCSPH.Traversal FleCSPH.Spec

variable {d : Nat} {T : Top d} {rk : Nat → Nat} {B : Nat → Finset Nat} {body : Nat → Body d} {ref : Nat → Bool × Int}

theorem desc_trans {k e f : Nat} (h1 : Desc T k e) (h2 : Desc T e f) : Desc T k f := by
  induction h2 with
  | self => exact h1
  | step _ hc hd hm ih => exact Desc.step ih hc hd hm

/-- Leaves have no daughters. -/
def LeafOk (T : Top d) : Prop := ∀ k c, T.tbl k = some c → isNode c = some false → daughterKeys T.dim T.tbl k c = some []

theorem desc_wf (hT : TreeWF T rk B body ref) (hc : Complete T) (hl : LeafOk T) {k x : Nat} (hk : ∃ c, T.tbl k = some c) (h : Desc T k x) :
    (∃ c, T.tbl x = some c) ∧ B x ⊆ B k ∧ rk x ≤ rk k := by
  induction h with
  | self => exact ⟨hk, Finset.Subset.refl _, le_refl _⟩
  | @step e f c ds _ he hd hm ih =>
    obtain ⟨-, i2, i3⟩ := ih
    rcases hT.cell e c he with ⟨hn, -⟩ | ⟨hn, -, hcase⟩
    · rw [hl e c he hn] at hd
      cases hd
      simp at hm
    · rcases hcase with hem | ⟨-, ds', hd', hs⟩
      · exact (hc e c he hem).elim
      · rw [hd] at hd'
        cases hd'
        refine ⟨hs.some_ f hm, ?_, by have := hs.rank f hm; omega⟩
        exact Finset.Subset.trans (fun j hj => (hs.cover j).mpr ⟨f, hm, hj⟩) i2

theorem desc_head {k x : Nat} (h : Desc T k x) : x = k ∨ ∃ c ds e, T.tbl k = some c ∧ daughterKeys T.dim T.tbl k c = some ds ∧ e ∈ ds ∧
    Desc T e x := by
  induction h with
  | self => exact Or.inl rfl
  | step _ hc hd hm ih =>
    rcases ih with rfl | ⟨c', ds', e', h1, h2, h3, h4⟩
    · exact Or.inr ⟨_, _, _, hc, hd, hm, Desc.self⟩
    · exact Or.inr ⟨c', ds', e', h1, h2, h3, Desc.step h4 hc hd hm⟩

/-- The affected nodes are found once each. -/
theorem affected_spec (hT : TreeWF T rk B body ref) (hc : Complete T) (hl : LeafOk T) (calls : List Call) :
    ∃ fuel₀ l, (l.Nodup ∧ ∀ x, x ∈ l ↔ Desc T 1 x ∧ (∃ c, T.tbl x = some c ∧ isNode c = some true) ∧ calls.any (Call.affects x) = true) ∧
      ∀ fuel, fuel₀ ≤ fuel → traversal T (affectedFunc calls) fuel [1] [] = some l := by
  apply trav_run T (affectedFunc calls) (fun k l => l.Nodup ∧ ∀ x, x ∈ l ↔ Desc T k x ∧ (∃ c, T.tbl x = some c ∧ isNode c = some true) ∧
    calls.any (Call.affects x) = true) rk (fun k => ∃ c, T.tbl k = some c)
  · rintro k ⟨c, hk⟩
    rcases hT.cell k c hk with ⟨hn, -⟩ | ⟨hn, -, hcase⟩
    · refine ⟨c, true, [], hk, by simp [affectedFunc, hn], by simp, fun _ => ⟨[], hl k c hk hn, by simp, ?_⟩⟩
      intro ls hls
      cases hls
      refine ⟨by simp, ?_⟩
      intro x
      constructor
      · intro h; simp at h
      · rintro ⟨h1, ⟨c', hc', hn'⟩, -⟩
        exfalso
        rcases desc_head h1 with rfl | ⟨c2, ds, e, g1, g2, g3, -⟩
        · rw [hk] at hc'; cases hc'; rw [hn] at hn'; cases hn'
        · rw [hk] at g1; cases g1
          rw [hl k c hk hn] at g2; cases g2; simp at g3
    · obtain ⟨ds, hd, hs⟩ : ∃ ds, daughterKeys T.dim T.tbl k c = some ds ∧ Split T rk B k ds := by
        rcases hcase with h | h
        · exact (hc k c hk h).elim
        · exact h.2
      refine ⟨c, true, if calls.any (Call.affects k) then [k] else [], hk, by simp [affectedFunc, hn], by simp, fun _ => ⟨ds, hd,
        fun e he => ⟨hs.some_ e he, hs.rank e he⟩, ?_⟩⟩
      intro ls hls
      have hdk : ∀ x, Desc T k x ↔ x = k ∨ ∃ e ∈ ds, Desc T e x := by
        intro x
        constructor
        · intro h
          rcases desc_head h with h | ⟨c2, ds', e, g1, g2, g3, g4⟩
          · exact Or.inl h
          · rw [hk] at g1; cases g1
            rw [hd] at g2; cases g2
            exact Or.inr ⟨e, g3, g4⟩
        · rintro (rfl | ⟨e, he, h⟩)
          · exact Desc.self
          · exact desc_trans (Desc.step Desc.self hk hd he) h
      -- the daughters
      have key : ∀ es : List Nat, es.Nodup → (∀ e ∈ es, e ∈ ds) → ∀ ls : List (List Nat),
          List.Forall₂ (fun e l => l.Nodup ∧ ∀ x, x ∈ l ↔ Desc T e x ∧ (∃ c, T.tbl x = some c ∧ isNode c = some true) ∧
            calls.any (Call.affects x) = true) es ls →
          ls.flatten.Nodup ∧ ∀ x, x ∈ ls.flatten ↔ (∃ e ∈ es, Desc T e x) ∧ (∃ c, T.tbl x = some c ∧ isNode c = some true) ∧
            calls.any (Call.affects x) = true := by
        intro es
        induction es with
        | nil => intro _ _ ls h; cases h; simp
        | cons e es ih =>
          intro hnd hm ls h
          cases h with
          | cons h1 h2 =>
            rename_i l ls
            obtain ⟨i1, i2⟩ := ih (List.nodup_cons.mp hnd).2 (fun e he => hm e (List.mem_cons_of_mem _ he)) _ h2
            rw [List.flatten_cons, List.nodup_append]
            refine ⟨⟨h1.1, i1, ?_⟩, ?_⟩
            · rintro x hx y hy rfl
              have hx' := ((h1.2 x).mp hx).1
              obtain ⟨e', he', hy'⟩ := ((i2 x).mp hy).1
              have w1 := desc_wf hT hc hl (hs.some_ e (hm e List.mem_cons_self)) hx'
              have w2 := desc_wf hT hc hl (hs.some_ e' (hm e' (List.mem_cons_of_mem _ he'))) hy'
              obtain ⟨cx, hcx⟩ := w1.1
              obtain ⟨j, hj⟩ := hT.ne x cx hcx
              exact hs.disj e (hm e List.mem_cons_self) e' (hm e' (List.mem_cons_of_mem _ he'))
                (by rintro rfl; exact (List.nodup_cons.mp hnd).1 he') j (w1.2.1 hj) (w2.2.1 hj)
            · intro x
              rw [List.mem_append, h1.2, i2]
              simp only [List.mem_cons, exists_eq_or_imp]
              constructor
              · rintro (⟨a, b⟩ | ⟨a, b⟩)
                · exact ⟨Or.inl a, b⟩
                · exact ⟨Or.inr a, b⟩
              · rintro ⟨a | a, b⟩
                · exact Or.inl ⟨a, b⟩
                · exact Or.inr ⟨a, b⟩
      obtain ⟨k1, k2⟩ := key ds.reverse (List.nodup_reverse.mpr hs.nodup) (fun e he => List.mem_reverse.mp he) ls hls
      have hknot : k ∉ ls.flatten := by
        intro h
        obtain ⟨⟨e, he, hde⟩, -⟩ := (k2 k).mp h
        have w := desc_wf hT hc hl (hs.some_ e (List.mem_reverse.mp he)) hde
        have := hs.rank e (List.mem_reverse.mp he)
        omega
      constructor
      · rw [List.nodup_append]
        refine ⟨by split <;> simp, k1, ?_⟩
        rintro x hx y hy rfl
        split at hx
        · rw [List.mem_singleton] at hx; subst hx; exact hknot hy
        · simp at hx
      · intro x
        rw [List.mem_append, k2, hdk]
        simp only [List.mem_reverse]
        by_cases hxk : x = k
        · subst hxk
          by_cases ha : calls.any (Call.affects x) = true
          · simp only [ha, if_true, List.mem_singleton]
            exact ⟨fun _ => ⟨Or.inl trivial, ⟨c, hk, hn⟩, trivial⟩, fun _ => Or.inl trivial⟩
          · simp [ha]
        · have : x ∉ (if calls.any (Call.affects k) = true then [k] else []) := by split <;> simp [hxk]
          simp only [this, false_or, hxk]
  · exact hT.root

/-- The structure of a whole run. -/
theorem traversalFmm_spec (hT : TreeWF T rk B body ref) (hc : Complete T) (hl : LeafOk T)
    (hinj : ∀ i ∈ B 1, ∀ j ∈ B 1, ref i = ref j → i = j) (hloc : ∀ j, (ref j).1 = false)
    (hpos : ∀ i ∈ B 1, ∀ j ∈ B 1, i ≠ j → (body i).pos ≠ (body j).pos)
    (htwo : ∀ k c, T.tbl k = some c → isNode c = some true → k = 1 ∨ ∃ i ∈ B k, ∃ j ∈ B k, i ≠ j) (mac : ℝ) :
    ∃ (fuel₀ : Nat) (calls : List Call) (keys : List Nat) (subs : List (List (Bool × Int))) (pairs : List (Nat × Nat)), (∀ fuel, fuel₀ ≤ fuel → traversalFmm T mac fuel =
        some (calls ++ (List.zipWith Call.c2p keys subs) ++ pairs.map fun p => .p2p (ref p.1) (ref p.2))) ∧
      (∀ c ∈ calls, CallOk T B body ref mac c) ∧
      (keys.Nodup ∧ ∀ x, x ∈ keys ↔ Desc T 1 x ∧ (∃ c, T.tbl x = some c ∧ isNode c = some true) ∧ calls.any (Call.affects x) = true) ∧
      List.Forall₂ (fun k l => l.Nodup ∧ ∀ a, a ∈ l ↔ ∃ j ∈ B k, a = ref j) keys subs ∧
      (∀ p ∈ pairs, p.1 ∈ B 1 ∧ p.2 ∈ B 1) ∧
      ∀ a ∈ B 1, ∀ b ∈ B 1, (calls.map (covCall B ref a b)).sum + (pairs.count (a, b)) = 1 := by
  have hroot : Valid T B (1, 1) := ⟨hT.root, hT.root, Desc.self, Finset.Subset.refl _, Finset.Subset.refl _, Or.inl rfl⟩
  obtain ⟨f1, r, h1, h2, h3, h4⟩ := loop_spec hT hc hinj hpos htwo mac _ [(1, 1)] [] []
    (by intro p hp; rw [List.mem_singleton] at hp; subst hp; exact ⟨hroot, Nat.lt_succ_self _⟩)
  obtain ⟨f2, keys, h5, h6⟩ := affected_spec hT hc hl r.calls
  -- the entities below each affected node
  have hdown : ∀ ks : List Nat, (∀ k ∈ ks, k ∈ keys) → ∃ f0 subs, List.Forall₂ (fun k l => l.Nodup ∧ ∀ a, a ∈ l ↔ ∃ j ∈ B k, a = ref j) ks subs ∧
      ∀ fuel, f0 ≤ fuel → ks.mapM (down T fuel) = some (List.zipWith Call.c2p ks subs) := by
    intro ks
    induction ks with
    | nil => intro _; exact ⟨0, [], List.Forall₂.nil, by intro fuel _; simp⟩
    | cons k ks ih =>
      intro hm
      obtain ⟨f0, subs, i1, i2⟩ := ih fun k hk => hm k (List.mem_cons_of_mem _ hk)
      obtain ⟨hdk, ⟨c, hk, -⟩, -⟩ := (h5.2 k).mp (hm k List.mem_cons_self)
      obtain ⟨-, hsub, -⟩ := desc_wf hT hc hl hT.root hdk
      obtain ⟨f, l, ⟨g1, g2⟩, g3⟩ := entsFunc_spec hT hinj ⟨c, hk⟩ hsub (fun e c he hem => (hc e c he hem).elim)
      refine ⟨max f f0, l :: subs, List.Forall₂.cons ⟨g1, ?_⟩ i1, ?_⟩
      · intro a; rw [g2]; simp only [hloc, true_and]
      · intro fuel hf
        rw [List.mapM_cons, down, g3 fuel (by omega), i2 fuel (by omega)]
        rfl
  obtain ⟨f3, subs, h7, h8⟩ := hdown keys fun k hk => hk
  -- the pairs
  have hdir : ∀ ps : List (Nat × Nat), (∀ p ∈ ps, Leaves T B ref p) → ∃ pairs : List (Nat × Nat), (∀ p ∈ pairs, p.1 ∈ B 1 ∧ p.2 ∈ B 1) ∧
      ps.mapM (direct T) = some (pairs.map fun p => Call.p2p (ref p.1) (ref p.2)) ∧
      ∀ a b, (ps.map (cov B a b)).sum = pairs.count (a, b) := by
    intro ps
    induction ps with
    | nil => intro _; exact ⟨[], by simp, by simp, by simp⟩
    | cons p ps ih =>
      intro hm
      obtain ⟨pairs, i1, i2, i3⟩ := ih fun p hp => hm p (List.mem_cons_of_mem _ hp)
      obtain ⟨c1, c2, i, j, g1, g2, g3, g4, g5, g6, g7, g8⟩ := hm p List.mem_cons_self
      refine ⟨(i, j) :: pairs, ?_, ?_, ?_⟩
      · intro q hq
        rcases List.mem_cons.mp hq with rfl | hq
        · exact ⟨g3, g4⟩
        · exact i1 q hq
      · rw [List.mapM_cons, direct, g1, g2, i2]
        simp [g7, g8]
      · intro a b
        rw [List.map_cons, List.sum_cons, i3, List.count_cons, cov, g5, g6]
        simp only [ind, Finset.mem_singleton]
        by_cases ha : a = i <;> by_cases hb : b = j
        · subst ha; subst hb; simp; ring
        · have : ((i, j) == (a, b)) = false := by simp; intro _ h; exact hb h.symm
          simp [hb, this]
        · have : ((i, j) == (a, b)) = false := by simp; intro h; exact absurd h.symm ha
          simp [ha, this]
        · have : ((i, j) == (a, b)) = false := by simp; intro h; exact absurd h.symm ha
          simp [ha, this]
  obtain ⟨pairs, h9, h10, h11⟩ := hdir r.p2p h2.p2p
  refine ⟨max f1 (max f2 f3), r.calls, keys, subs, pairs, ?_, h2.calls, h5, h7, h9, ?_⟩
  · intro fuel hf
    rw [traversalFmm, show Key.root = 1 from rfl, h1 fuel (by omega)]
    simp only [Option.bind_eq_bind, Option.bind_some, List.nil_append]
    rw [h6 fuel (by omega)]
    simp only [Option.bind_some]
    rw [h8 fuel (by omega)]
    simp only [Option.bind_some]
    rw [h10]
    rfl
  · intro a ha b hb
    have := h4 a ha b hb
    rw [tot, h3] at this
    rw [← h11, List.map_nil, List.sum_nil, Nat.add_zero] at *
    rw [this]
    simp [cov, ind, ha, hb]

end FleCSPH.Fmm
