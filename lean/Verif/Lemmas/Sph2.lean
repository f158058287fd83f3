import Verif.Lemmas.Sph
/-! The calls made by `traversal_sph`. -/
namespace FleCSPH.Traversal
open FleCSPH.HCell FleCSPH.BuildTree FleCSPH.Cofm FleCSPH.Geometry FleCSPH.Spec

variable {d : Nat} {T : Top d} {rk : Nat → Nat} {B : Nat → Finset Nat} {body : Nat → Body d} {ref : Nat → Bool × Int}

/-- The cells below `k` are all here. -/
def FullBelow (T : Top d) (B : Nat → Finset Nat) (k : Nat) : Prop :=
  ∀ e c, T.tbl e = some c → isEmptyNode T.dim c = some true → ∀ j ∈ B k, j ∉ B e

theorem entsFunc_spec (hT : TreeWF T rk B body ref) (hinj : ∀ i ∈ B 1, ∀ j ∈ B 1, ref i = ref j → i = j) {k : Nat}
    (hk : ∃ c, T.tbl k = some c) (hk1 : B k ⊆ B 1) (hfull : FullBelow T B k) :
    ∃ fuel₀ l, (l.Nodup ∧ ∀ a, a ∈ l ↔ ∃ j ∈ B k, (ref j).1 = false ∧ a = ref j) ∧
      ∀ fuel, fuel₀ ≤ fuel → traversal T (entsFunc T) fuel [k] [] = some l := by
  apply trav_run T (entsFunc T) (fun e l => l.Nodup ∧ ∀ a, a ∈ l ↔ ∃ j ∈ B e, (ref j).1 = false ∧ a = ref j) rk
    (fun e => (∃ c, T.tbl e = some c) ∧ B e ⊆ B k)
  · rintro e ⟨⟨c, he⟩, hsub⟩
    rcases hT.cell e c he with ⟨h1, j, h2, h3, h4⟩ | ⟨h1, ⟨N, h2, h3⟩, h4⟩
    · refine ⟨c, false, if isShared T.dim c then [] else [entRef T c], he, by simp [entsFunc, h1], ?_, by simp⟩
      intro _
      have hsh : isShared T.dim c = (ref j).1 := by rw [← h3]; rfl
      rw [h2, hsh, h3]
      cases hj : (ref j).1 with
      | true => simp [hj]
      | false => simp [hj]
    · rcases h4 with h4 | ⟨h4, ds, h5, h6⟩
      · exfalso
        obtain ⟨j, hj⟩ := hT.ne e c he
        exact hfull e c he h4 j (hsub hj) hj
      · refine ⟨c, true, [], he, by simp [entsFunc, h1], by simp, ?_⟩
        intro _
        refine ⟨ds, h5, ?_, ?_⟩
        · intro e' he'
          refine ⟨⟨h6.some_ e' he', ?_⟩, h6.rank e' he'⟩
          intro j hj
          exact hsub ((h6.cover j).mpr ⟨e', he', hj⟩)
        · intro ls hls
          rw [List.nil_append]
          exact collect h6 ref (B 1) (hsub.trans hk1) hinj _ hls
  · exact ⟨hk, Finset.Subset.refl _⟩

/-- What a treatment of the cell `k` that completes has done. -/
def CellDone (B : Nat → Finset Nat) (body : Nat → Body d) (ref : Nat → Bool × Int) (k : Nat)
    (calls : List ((Bool × Int) × List (Bool × Int))) : Prop :=
  (calls.map Prod.fst).Nodup ∧ (∀ a, a ∈ calls.map Prod.fst ↔ ∃ j ∈ B k, (ref j).1 = false ∧ a = ref j) ∧
  ∀ a nb, (a, nb) ∈ calls → ∃ i ∈ B k, a = ref i ∧ nb.Nodup ∧
    (∀ x ∈ nb, ∃ j ∈ B 1, x = ref j ∧ distance (body i).pos (body j).pos ≤ max (body i).h (body j).h) ∧
    (∀ j ∈ B 1, distance (body i).pos (body j).pos ≤ ((body i).h + (body j).h) / 2 → ref j ∈ nb)

theorem sphCell_spec (hT : TreeWF T rk B body ref) (hinj : ∀ i ∈ B 1, ∀ j ∈ B 1, ref i = ref j → i = j)
    (hder : ∀ j ∈ B 1, (ref j).1 = false → deref T (ref j) = some (body j))
    (hh : ∀ j ∈ B 1, 0 ≤ (body j).h) {tol : ℝ} (htol : 0 ≤ tol) {k : Nat} {c : Cell} (hk : T.tbl k = some c) (hk1 : B k ⊆ B 1)
    (hfull : FullBelow T B k) (hloc : isNode c = some false → isShared T.dim c = false) :
    ∃ fuel₀ r, (∀ fuel, fuel₀ ≤ fuel → sphCell T tol k fuel = some r) ∧
      (∀ calls, r = .inr calls → CellDone B body ref k calls) ∧
      (∀ ms, r = .inl ms → ms ≠ [] ∧ ∀ m ∈ ms, ∃ c, T.tbl m = some c ∧ isEmptyNode T.dim c = some true) := by
  -- the entities of the cell
  obtain ⟨f1, es, cn, hes1, hes2, hce, hcn⟩ : ∃ f1 es cn, es.Nodup ∧ (∀ a, a ∈ es ↔ ∃ j ∈ B k, (ref j).1 = false ∧ a = ref j) ∧
      (∀ fuel, f1 ≤ fuel → curEntities T k fuel = some (es, cn)) ∧ ∀ n, cn = some n → Summarises body (B k) n := by
    rcases hT.cell k c hk with ⟨h1, j, h2, h3, h4⟩ | ⟨h1, ⟨N, h2, h3⟩, h4⟩
    · refine ⟨0, [entRef T c], none, by simp, ?_, ?_, by simp⟩
      · have hsh : isShared T.dim c = (ref j).1 := by rw [← h3]; rfl
        rw [hloc h1] at hsh
        intro a
        rw [h3, h2]
        simp [← hsh]
      · intro fuel _
        rw [curEntities, hk]
        simp [h1]
    · obtain ⟨f0, l, ⟨h5, h6⟩, h7⟩ := entsFunc_spec hT hinj ⟨c, hk⟩ hk1 hfull
      refine ⟨f0, l, some N, h5, h6, ?_, ?_⟩
      · intro fuel hf
        rw [curEntities, hk]
        simp [h1, h7 fuel hf, h2]
      · intro n hn; cases hn; exact h3
  -- their data
  obtain ⟨cur, hcur1, hcur2, hcur3⟩ : ∃ cur, es.mapM (deref T) = some cur ∧ cur.length = es.length ∧
      ∀ (m : Nat) a b, es[m]? = some a → cur[m]? = some b → ∃ i ∈ B k, a = ref i ∧ b = body i := by
    have : ∀ l : List (Bool × Int), (∀ a ∈ l, ∃ j ∈ B k, (ref j).1 = false ∧ a = ref j) →
        ∃ cur, l.mapM (deref T) = some cur ∧ cur.length = l.length ∧
      ∀ (m : Nat) a b, l[m]? = some a → cur[m]? = some b → ∃ i ∈ B k, a = ref i ∧ b = body i := by
      intro l
      induction l with
      | nil => intro _; exact ⟨[], rfl, rfl, by simp⟩
      | cons a l ih =>
        intro hl
        obtain ⟨cur, h1, h2, h3⟩ := ih fun a ha => hl a (List.mem_cons_of_mem _ ha)
        obtain ⟨j, hj, hj1, rfl⟩ := hl a List.mem_cons_self
        refine ⟨body j :: cur, ?_, by simp [h2], ?_⟩
        · rw [List.mapM_cons, hder j (hk1 hj) hj1, h1]; rfl
        · intro m a b ha hb
          cases m with
          | zero =>
            simp at ha hb
            exact ⟨j, hj, ha.symm, hb.symm⟩
          | succ m => exact h3 m a b (by simpa using ha) (by simpa using hb)
    exact this es fun a ha => (hes2 a).mp ha
  have hcur4 : ∀ b ∈ cur, ∃ i ∈ B k, b = body i := by
    intro b hb
    obtain ⟨m, hm⟩ := List.mem_iff_getElem?.mp hb
    have hlt : m < es.length := by rw [← hcur2]; exact (List.getElem?_eq_some_iff.mp hm).1
    obtain ⟨i, hi, -, h⟩ := hcur3 m _ b (List.getElem?_eq_getElem hlt) hm
    exact ⟨i, hi, h⟩
  -- the search
  have hInv : Inv T B body ref cur [1] [] (cur.map fun _ => []) := by
    refine ⟨?_, ?_, by simp, by simp, by simp, ?_, ?_, ?_⟩
    · intro e he; rw [List.mem_singleton] at he; subst he; exact hT.root
    · intro e he; rw [List.mem_singleton] at he; subst he; exact Finset.Subset.refl _
    · intro k b l hb hl
      rw [List.getElem?_map, hb] at hl
      simp at hl
      subst hl; simp
    · intro k b l hb hl
      rw [List.getElem?_map, hb] at hl
      simp at hl
      subst hl; simp
    · intro k b l hb hl _ j hj _
      right; exact ⟨1, by simp, hj⟩
  obtain ⟨f2, r, hr1, hr2, hr3⟩ := search_spec hT hinj hh htol hk1 hcur4 hcn (rk 1 + 1) [1] _ hInv (by simp)
  have hrun : ∀ fuel, max f1 f2 ≤ fuel → sphCell T tol k fuel = some (match r with | .inl m => .inl m | .inr f => .inr (es.zip f)) := by
    intro fuel hf
    rw [sphCell, hce fuel (by omega)]
    simp only [Option.bind_eq_bind, Option.bind_some]
    rw [hcur1]
    simp only [Option.bind_some]
    rw [show Key.root = 1 from rfl, hr1 fuel (by omega)]
    cases r <;> rfl
  cases r with
  | inl m =>
    refine ⟨max f1 f2, .inl m, hrun, (by intro c h; cases h), ?_⟩
    intro ms h; cases h; exact hr3 _ rfl
  | inr f =>
    refine ⟨max f1 f2, .inr (es.zip f), hrun, ?_, (by intro c h; cases h)⟩
    intro calls hc
    cases hc
    have hI := hr2 f rfl
    have hlen : f.length = es.length := by rw [hI.len, hcur2]
    have hfst : (es.zip f).map Prod.fst = es := List.map_fst_zip (by omega)
    refine ⟨by rw [hfst]; exact hes1, by rw [hfst]; exact hes2, ?_⟩
    intro a nb hmem
    obtain ⟨m, hm⟩ := List.mem_iff_getElem?.mp hmem
    rw [List.getElem?_zip_eq_some] at hm
    obtain ⟨hm1, hm2⟩ := hm
    have hlt : m < cur.length := by rw [hcur2]; exact (List.getElem?_eq_some_iff.mp hm1).1
    obtain ⟨i, hi, rfl, hb⟩ := hcur3 m a _ hm1 (List.getElem?_eq_getElem hlt)
    have hcm : cur[m]? = some (body i) := by rw [List.getElem?_eq_getElem hlt, hb]
    refine ⟨i, hi, rfl, hI.nodup m _ nb hcm hm2, ?_, ?_⟩
    · intro x hx
      obtain ⟨j, hj, h1, h2, -⟩ := hI.sound m _ nb hcm hm2 x hx
      exact ⟨j, hj, h1, h2⟩
    · intro j hj hd
      rcases hI.complete m _ nb hcm hm2 rfl j hj hd with h | ⟨e, he, -⟩
      · exact h
      · simp at he

/-- The cells selected by `traversal_sph` on a complete tree share out the local particles. -/
theorem sphCells_spec (hT : TreeWF T rk B body ref) (hc : Complete T) (sent : Nat) :
    ∃ fuel₀ l, (l.Pairwise (Disj B) ∧ (∀ k ∈ l, (∃ c, T.tbl k = some c ∧ isShared T.dim c = false) ∧ B k ⊆ B 1) ∧
      ∀ j ∈ B 1, (ref j).1 = false → ∃ k ∈ l, j ∈ B k) ∧
      ∀ fuel, fuel₀ ≤ fuel → sphCells T sent fuel = some l := by
  apply trav_run T (cellsFunc T sent) (fun e l => l.Pairwise (Disj B) ∧
    (∀ k ∈ l, (∃ c, T.tbl k = some c ∧ isShared T.dim c = false) ∧ B k ⊆ B e) ∧ ∀ j ∈ B e, (ref j).1 = false → ∃ k ∈ l, j ∈ B k) rk
    (fun e => ∃ c, T.tbl e = some c)
  · rintro e ⟨c, he⟩
    rcases hT.cell e c he with ⟨h1, j, h2, h3, h4⟩ | ⟨h1, ⟨N, h2, h3⟩, h4⟩
    · refine ⟨c, false, if isShared T.dim c then [] else [e], he, by simp [cellsFunc, h1], ?_, by simp⟩
      intro _
      have hsh : isShared T.dim c = (ref j).1 := by rw [← h3]; rfl
      cases hs : isShared T.dim c with
      | true =>
        refine ⟨by simp, by simp, ?_⟩
        intro j' hj' hf
        rw [h2, Finset.mem_singleton] at hj'
        subst hj'
        rw [hs, hf] at hsh; cases hsh
      | false =>
        refine ⟨by simp, ?_, ?_⟩
        · intro k hk
          simp at hk
          subst hk
          exact ⟨⟨c, he, hs⟩, Finset.Subset.refl _⟩
        · intro j' hj' _; exact ⟨e, by simp, hj'⟩
    · rcases h4 with h4 | ⟨h4, ds, h5, h6⟩
      · exact (hc e c he h4).elim
      · refine ⟨c, isShared T.dim c || decide (N.sub > sent), if isShared T.dim c || decide (N.sub > sent) then [] else [e], he, ?_, ?_, ?_⟩
        · rw [cellsFunc, h1]
          cases hs : isShared T.dim c <;> by_cases hn : N.sub > sent <;> simp [h2, hn]
        · intro hb
          rw [hb]
          have hs : isShared T.dim c = false := by
            cases hs : isShared T.dim c with
            | true => rw [hs] at hb; simp at hb
            | false => rfl
          refine ⟨by simp, ?_, ?_⟩
          · intro k hk
            simp at hk
            subst hk
            exact ⟨⟨c, he, hs⟩, Finset.Subset.refl _⟩
          · intro j' hj' _; exact ⟨e, by simp, hj'⟩
        · intro hb
          rw [hb]
          refine ⟨ds, h5, fun e' he' => ⟨h6.some_ e' he', h6.rank e' he'⟩, ?_⟩
          intro ls hls
          simp only [if_true, List.nil_append]
          have key : ∀ (es : List Nat) (ls : List (List Nat)), es.Pairwise (Disj B) → (∀ e' ∈ es, e' ∈ ds) →
              List.Forall₂ (fun e l => l.Pairwise (Disj B) ∧
                (∀ k ∈ l, (∃ c, T.tbl k = some c ∧ isShared T.dim c = false) ∧ B k ⊆ B e) ∧
                ∀ j ∈ B e, (ref j).1 = false → ∃ k ∈ l, j ∈ B k) es ls →
              ls.flatten.Pairwise (Disj B) ∧
                (∀ k ∈ ls.flatten, (∃ c, T.tbl k = some c ∧ isShared T.dim c = false) ∧ ∃ e' ∈ es, B k ⊆ B e') ∧
                ∀ e' ∈ es, ∀ j ∈ B e', (ref j).1 = false → ∃ k ∈ ls.flatten, j ∈ B k := by
            intro es
            induction es with
            | nil => intro ls _ _ h; cases h; simp
            | cons e' es ih =>
              intro ls hp hm h
              cases h with
              | cons g1 g2 =>
                rename_i l0 ls0
                obtain ⟨i1, i2, i3⟩ := ih _ (List.pairwise_cons.mp hp).2 (fun e he => hm e (List.mem_cons_of_mem _ he)) g2
                rw [List.flatten_cons]
                refine ⟨?_, ?_, ?_⟩
                · rw [List.pairwise_append]
                  refine ⟨g1.1, i1, ?_⟩
                  intro a ha b hb j hja hjb
                  obtain ⟨-, e'', he'', hsub⟩ := i2 b hb
                  exact (List.pairwise_cons.mp hp).1 e'' he'' j ((g1.2.1 a ha).2 hja) (hsub hjb)
                · intro k hk
                  rcases List.mem_append.mp hk with hk | hk
                  · exact ⟨(g1.2.1 k hk).1, e', List.mem_cons_self, (g1.2.1 k hk).2⟩
                  · obtain ⟨a1, e'', he'', hsub⟩ := i2 k hk
                    exact ⟨a1, e'', List.mem_cons_of_mem _ he'', hsub⟩
                · intro e'' he'' j hj hf
                  rcases List.mem_cons.mp he'' with rfl | he''
                  · obtain ⟨k, hk, hjk⟩ := g1.2.2 j hj hf
                    exact ⟨k, List.mem_append_left _ hk, hjk⟩
                  · obtain ⟨k, hk, hjk⟩ := i3 e'' he'' j hj hf
                    exact ⟨k, List.mem_append_right _ hk, hjk⟩
          have hpr : ds.reverse.Pairwise (Disj B) := by
            rw [List.pairwise_reverse]
            exact (split_pairwise h6).imp fun h => h.symm
          obtain ⟨k1, k2, k3⟩ := key ds.reverse ls hpr (fun e he => List.mem_reverse.mp he) hls
          refine ⟨k1, ?_, ?_⟩
          · intro k hk
            obtain ⟨a1, e', he', hsub⟩ := k2 k hk
            exact ⟨a1, hsub.trans fun j hj => (h6.cover j).mpr ⟨e', List.mem_reverse.mp he', hj⟩⟩
          · intro j hj hf
            obtain ⟨e', he', hje⟩ := (h6.cover j).mp hj
            exact k3 e' (List.mem_reverse.mpr he') j hje hf
  · exact hT.root

/-- `traversal_sph` on a complete tree. -/
theorem traversalSph_spec (hT : TreeWF T rk B body ref) (hc : Complete T) (hinj : ∀ i ∈ B 1, ∀ j ∈ B 1, ref i = ref j → i = j)
    (hder : ∀ j ∈ B 1, (ref j).1 = false → deref T (ref j) = some (body j))
    (hh : ∀ j ∈ B 1, 0 ≤ (body j).h) {tol : ℝ} (htol : 0 ≤ tol) (sent : Nat) :
    ∃ fuel₀ calls, (∀ fuel, fuel₀ ≤ fuel → traversalSph T tol sent fuel = some calls) ∧ CellDone B body ref 1 calls := by
  obtain ⟨f1, cells, ⟨hc1, hc2, hc3⟩, hc4⟩ := sphCells_spec (ref := ref) hT hc sent
  have hcell : ∀ k ∈ cells, ∃ fuel₀ calls, (∀ fuel, fuel₀ ≤ fuel → sphCell T tol k fuel = some (.inr calls)) ∧ CellDone B body ref k calls := by
    intro k hk
    obtain ⟨⟨c, hkc, hsh⟩, hsub⟩ := hc2 k hk
    obtain ⟨f0, r, h1, h2, h3⟩ := sphCell_spec hT hinj hder hh htol hkc hsub (fun e c he hem => (hc e c he hem).elim) (fun _ => hsh)
    cases r with
    | inl m =>
      obtain ⟨h4, h5⟩ := h3 m rfl
      obtain ⟨x, hx⟩ := List.exists_mem_of_ne_nil m h4
      obtain ⟨c', h6, h7⟩ := h5 x hx
      exact (hc x c' h6 h7).elim
    | inr calls => exact ⟨f0, calls, h1, h2 calls rfl⟩
  have key : ∀ l : List Nat, (∀ k ∈ l, k ∈ cells) → l.Pairwise (Disj B) →
      ∃ f rs, (∀ fuel, f ≤ fuel → (l.mapM fun k => sphCellLocal T tol k fuel) = some rs) ∧
        (rs.flatten.map Prod.fst).Nodup ∧
        (∀ a, a ∈ rs.flatten.map Prod.fst ↔ ∃ k ∈ l, ∃ j ∈ B k, (ref j).1 = false ∧ a = ref j) ∧
        ∀ a nb, (a, nb) ∈ rs.flatten → ∃ i ∈ B 1, a = ref i ∧ nb.Nodup ∧
          (∀ x ∈ nb, ∃ j ∈ B 1, x = ref j ∧ distance (body i).pos (body j).pos ≤ max (body i).h (body j).h) ∧
          (∀ j ∈ B 1, distance (body i).pos (body j).pos ≤ ((body i).h + (body j).h) / 2 → ref j ∈ nb) := by
    intro l
    induction l with
    | nil => intro _ _; exact ⟨0, [], by intro fuel _; rfl, by simp, by simp, by simp⟩
    | cons k l ih =>
      intro hm hp
      obtain ⟨g1, rs, g2, g3, g4, g5⟩ := ih (fun k hk => hm k (List.mem_cons_of_mem _ hk)) (List.pairwise_cons.mp hp).2
      obtain ⟨f0, calls, h1, h2, h3, h4⟩ := hcell k (hm k List.mem_cons_self)
      have hsub := (hc2 k (hm k List.mem_cons_self)).2
      refine ⟨max f0 g1, calls :: rs, ?_, ?_, ?_, ?_⟩
      · intro fuel hf
        rw [List.mapM_cons, sphCellLocal, h1 fuel (by omega), g2 fuel (by omega)]
        rfl
      · rw [List.flatten_cons, List.map_append, List.nodup_append]
        refine ⟨h2, g3, ?_⟩
        intro a ha b hb hab
        subst hab
        obtain ⟨j, hj, -, rfl⟩ := (h3 a).mp ha
        obtain ⟨k', hk', j', hj', -, hjj⟩ := (g4 _).mp hb
        have := hinj j (hsub hj) j' ((hc2 k' (hm k' (List.mem_cons_of_mem _ hk'))).2 hj') hjj
        subst this
        exact (List.pairwise_cons.mp hp).1 k' hk' j hj hj'
      · intro a
        rw [List.flatten_cons, List.map_append, List.mem_append, h3, g4]
        simp
      · intro a nb hab
        rw [List.flatten_cons] at hab
        rcases List.mem_append.mp hab with h | h
        · obtain ⟨i, hi, rest⟩ := h4 a nb h
          exact ⟨i, hsub hi, rest⟩
        · exact g5 a nb h
  obtain ⟨f2, rs, k1, k2, k3, k4⟩ := key cells (fun k hk => hk) hc1
  refine ⟨max f1 f2, rs.flatten, ?_, k2, ?_, k4⟩
  · intro fuel hf
    rw [traversalSph, hc4 fuel (by omega)]
    simp only [Option.bind_eq_bind, Option.bind_some]
    rw [k1 fuel (by omega)]
    rfl
  · intro a
    rw [k3]
    constructor
    · rintro ⟨k, hk, j, hj, h⟩; exact ⟨j, (hc2 k hk).2 hj, h⟩
    · rintro ⟨j, hj, hf, rfl⟩
      obtain ⟨k, hk, hjk⟩ := hc3 j hj hf
      exact ⟨k, hk, j, hjk, hf, rfl⟩

end FleCSPH.Traversal
