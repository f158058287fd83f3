import Verif.Model.Fmm
import Verif.Lemmas.Sph2
/-! The pairs treated by `traversal_fmm`. -/
namespace FleCSPH.Fmm
open FleCSPH.HCell FleCSPH.BuildTree FleCSPH.Cofm FleCSPH.Geometry FleCSPH.Traversal FleCSPH.Spec

variable {d : Nat} {T : Top d} {rk : Nat → Nat} {B : Nat → Finset Nat} {body : Nat → Body d} {ref : Nat → Bool × Int}

def ind (S : Finset Nat) (a : Nat) : ℕ := if a ∈ S then 1 else 0

/-- How often a call made in the loop covers the pair of sink `a` and source `b`. -/
def covCall (B : Nat → Finset Nat) (ref : Nat → Bool × Int) (a b : Nat) : Call → ℕ
  | .c2c k1 k2 => ind (B k1) a * ind (B k2) b
  | .p2c k1 e2 => ind (B k1) a * (if e2 = ref b then 1 else 0)
  | .n2p e1 k2 => (if e1 = ref a then 1 else 0) * ind (B k2) b
  | .c2p _ _ => 0
  | .p2p _ _ => 0

def cov (B : Nat → Finset Nat) (a b : Nat) (p : Nat × Nat) : ℕ := ind (B p.1) a * ind (B p.2) b

theorem ind_split {k : Nat} {ds : List Nat} (hs : Split T rk B k ds) (a : Nat) : (ds.map fun e => ind (B e) a).sum = ind (B k) a := by
  have key : ∀ es : List Nat, es.Nodup → (∀ e ∈ es, e ∈ ds) →
      (es.map fun e => ind (B e) a).sum = if ∃ e ∈ es, a ∈ B e then 1 else 0 := by
    intro es
    induction es with
    | nil => intro _ _; simp
    | cons e es ih =>
      intro hn hm
      rw [List.map_cons, List.sum_cons, ih (List.nodup_cons.mp hn).2 (fun e he => hm e (List.mem_cons_of_mem _ he)), ind]
      by_cases h : a ∈ B e
      · have : ¬ ∃ e' ∈ es, a ∈ B e' := by
          rintro ⟨e', he', ha⟩
          exact hs.disj e (hm e List.mem_cons_self) e' (hm e' (List.mem_cons_of_mem _ he'))
            (by rintro rfl; exact (List.nodup_cons.mp hn).1 he') a h ha
        rw [if_pos h, if_neg this, if_pos ⟨e, List.mem_cons_self, h⟩]
      · rw [if_neg h]
        simp [h]
  rw [key ds hs.nodup (fun e he => he), ind]
  simp only [hs.cover a]

theorem selfPairs_sum (α β : Nat → ℕ) : ∀ ds : List Nat,
    ((selfPairs ds).map fun p => α p.1 * β p.2).sum = (ds.map α).sum * (ds.map β).sum := by
  intro ds
  induction ds with
  | nil => rfl
  | cons a l ih =>
    have h : ((l.flatMap fun b => [(a, b), (b, a)]).map fun p => α p.1 * β p.2).sum = α a * (l.map β).sum + (l.map α).sum * β a := by
      clear ih
      induction l with
      | nil => simp
      | cons b l ih =>
        rw [List.flatMap_cons, List.map_append, List.sum_append, ih]
        simp only [List.map_cons, List.map_nil, List.sum_cons, List.sum_nil]
        ring
    rw [selfPairs, List.map_cons, List.sum_cons, List.map_append, List.sum_append, h, ih]
    simp only [List.map_cons, List.sum_cons]
    ring

theorem mem_selfPairs {ds : List Nat} {p : Nat × Nat} (h : p ∈ selfPairs ds) : p.1 ∈ ds ∧ p.2 ∈ ds := by
  induction ds with
  | nil => simp [selfPairs] at h
  | cons a l ih =>
    rw [selfPairs, List.mem_cons, List.mem_append, List.mem_flatMap] at h
    rcases h with rfl | ⟨b, hb, h⟩ | h
    · simp
    · simp only [List.mem_cons, List.not_mem_nil, or_false] at h
      rcases h with rfl | rfl
      · exact ⟨List.mem_cons_self, List.mem_cons_of_mem _ hb⟩
      · exact ⟨List.mem_cons_of_mem _ hb, List.mem_cons_self⟩
    · exact ⟨List.mem_cons_of_mem _ (ih h).1, List.mem_cons_of_mem _ (ih h).2⟩

/-- Reached from the root by daughters. -/
inductive Desc (T : Top d) (k : Nat) : Nat → Prop
  | self : Desc T k k
  | step {e f : Nat} {c : Cell} {ds : List Nat} : Desc T k e → T.tbl e = some c → daughterKeys T.dim T.tbl e c = some ds → f ∈ ds →
      Desc T k f

/-- What is known of a pair in the queue. -/
structure Valid (T : Top d) (B : Nat → Finset Nat) (p : Nat × Nat) : Prop where
  fst : ∃ c, T.tbl p.1 = some c
  snd : ∃ c, T.tbl p.2 = some c
  d1 : Desc T 1 p.1
  sub1 : B p.1 ⊆ B 1
  sub2 : B p.2 ⊆ B 1
  sep : p.1 = p.2 ∨ ∀ j, j ∈ B p.1 → j ∉ B p.2

/-- What is known of a call made in the loop: cells only interact when the criterion holds. -/
def CallOk (T : Top d) (B : Nat → Finset Nat) (body : Nat → Body d) (ref : Nat → Bool × Int) (mac : ℝ) : Call → Prop
  | .c2c k1 k2 => Desc T 1 k1 ∧ B k1 ⊆ B 1 ∧ B k2 ⊆ B 1 ∧ (∀ j, j ∈ B k1 → j ∉ B k2) ∧
      (∃ c, T.tbl k1 = some c ∧ isNode c = some true) ∧
      ∃ N1 N2, nodeAt T k1 = some N1 ∧ Summarises body (B k1) N1 ∧ nodeAt T k2 = some N2 ∧ Summarises body (B k2) N2 ∧
        Geometry.mac N1.coords N1.radius N2.coords N2.radius mac
  | .p2c k1 e2 => Desc T 1 k1 ∧ B k1 ⊆ B 1 ∧ (∃ c, T.tbl k1 = some c ∧ isNode c = some true) ∧
      ∃ N1 j, nodeAt T k1 = some N1 ∧ Summarises body (B k1) N1 ∧ j ∈ B 1 ∧ j ∉ B k1 ∧ e2 = ref j ∧
        Geometry.mac N1.coords N1.radius (body j).pos 0 mac
  | .n2p e1 k2 => B k2 ⊆ B 1 ∧
      ∃ i N2, i ∈ B 1 ∧ i ∉ B k2 ∧ e1 = ref i ∧ nodeAt T k2 = some N2 ∧ Summarises body (B k2) N2 ∧
        Geometry.mac (body i).pos 0 N2.coords N2.radius mac
  | .c2p _ _ => False
  | .p2p _ _ => False

/-- A pair of the list `p2p`. -/
def Leaves (T : Top d) (B : Nat → Finset Nat) (ref : Nat → Bool × Int) (p : Nat × Nat) : Prop :=
  ∃ c1 c2 i j, T.tbl p.1 = some c1 ∧ T.tbl p.2 = some c2 ∧ i ∈ B 1 ∧ j ∈ B 1 ∧ B p.1 = {i} ∧ B p.2 = {j} ∧
    entRef T c1 = ref i ∧ entRef T c2 = ref j

theorem ne_empty_of_node (hc : Complete T) {k : Nat} {c : Cell} (hk : T.tbl k = some c) : isEmptyNode T.dim c ≠ some true :=
  fun h => hc k c hk h

theorem valid_daughter1 {k1 k2 e : Nat} (hv : Valid T B (k1, k2)) (hne : k1 ≠ k2) {c : Cell}
    (hc : T.tbl k1 = some c) {ds : List Nat} (hd : daughterKeys T.dim T.tbl k1 c = some ds) (hs : Split T rk B k1 ds) (he : e ∈ ds) :
    Valid T B (e, k2) := by
  have hsub : B e ⊆ B k1 := fun j hj => (hs.cover j).mpr ⟨e, he, hj⟩
  refine ⟨hs.some_ e he, hv.snd, Desc.step hv.d1 hc hd he, hsub.trans hv.sub1, hv.sub2, Or.inr ?_⟩
  intro j hj
  exact (hv.sep.resolve_left hne) j (hsub hj)

theorem valid_daughter2 {k1 k2 e : Nat} (hv : Valid T B (k1, k2)) (hne : k1 ≠ k2)
    {ds : List Nat} (hs : Split T rk B k2 ds) (he : e ∈ ds) : Valid T B (k1, e) := by
  have hsub : B e ⊆ B k2 := fun j hj => (hs.cover j).mpr ⟨e, he, hj⟩
  refine ⟨hv.fst, hs.some_ e he, hv.d1, hv.sub1, hsub.trans hv.sub2, Or.inr ?_⟩
  intro j hj hj'
  exact (hv.sep.resolve_left hne) j hj (hsub hj')

theorem valid_self {k : Nat} (hv : Valid T B (k, k)) {c : Cell}
    (hc : T.tbl k = some c) {ds : List Nat} (hd : daughterKeys T.dim T.tbl k c = some ds) (hs : Split T rk B k ds)
    {p : Nat × Nat} (hp : p ∈ selfPairs ds) : Valid T B p := by
  obtain ⟨h1, h2⟩ := mem_selfPairs hp
  have hsub : ∀ e ∈ ds, B e ⊆ B k := fun e he j hj => (hs.cover j).mpr ⟨e, he, hj⟩
  refine ⟨hs.some_ _ h1, hs.some_ _ h2, Desc.step hv.d1 hc hd h1, (hsub _ h1).trans hv.sub1, (hsub _ h2).trans hv.sub1, ?_⟩
  by_cases h : p.1 = p.2
  · exact Or.inl h
  · exact Or.inr fun j hj => hs.disj _ h1 _ h2 h j hj

def tot (B : Nat → Finset Nat) (ref : Nat → Bool × Int) (a b : Nat) (o : Out) : ℕ :=
  (o.calls.map (covCall B ref a b)).sum + (o.p2p.map (cov B a b)).sum + (o.next.map (cov B a b)).sum

/-- The result of treating some pairs. -/
structure Good (T : Top d) (rk : Nat → Nat) (B : Nat → Finset Nat) (body : Nat → Body d) (ref : Nat → Bool × Int) (mac : ℝ) (n : Nat)
    (o : Out) : Prop where
  calls : ∀ c ∈ o.calls, CallOk T B body ref mac c
  p2p : ∀ p ∈ o.p2p, Leaves T B ref p
  next : ∀ p ∈ o.next, Valid T B p ∧ rk p.1 + rk p.2 < n

theorem radius_nonneg {S : Finset Nat} {N : Node d} (hN : Summarises body S N) (h : ∃ j, j ∈ S) : 0 ≤ N.radius := by
  obtain ⟨j, hj⟩ := h
  exact le_trans (distance_nonneg _ _) (hN.radius j hj)

theorem distance_eq_zero {p q : Point d} : distance p q = 0 ↔ p = q := by
  rw [distance, Real.sqrt_eq_zero (Finset.sum_nonneg fun i _ => mul_self_nonneg _)]
  rw [Finset.sum_eq_zero_iff_of_nonneg fun i _ => mul_self_nonneg _]
  constructor
  · intro h
    funext i
    have := h i (Finset.mem_univ _)
    rw [mul_self_eq_zero] at this
    linarith
  · rintro rfl; simp

theorem pair_spec (hT : TreeWF T rk B body ref) (hc : Complete T) (hinj : ∀ i ∈ B 1, ∀ j ∈ B 1, ref i = ref j → i = j)
    (hpos : ∀ i ∈ B 1, ∀ j ∈ B 1, i ≠ j → (body i).pos ≠ (body j).pos)
    (htwo : ∀ k c, T.tbl k = some c → isNode c = some true → k = 1 ∨ ∃ i ∈ B k, ∃ j ∈ B k, i ≠ j) (mac : ℝ) {k1 k2 : Nat}
    (hv : Valid T B (k1, k2)) :
    ∃ o, pair T mac k1 k2 = some o ∧ Good T rk B body ref mac (rk k1 + rk k2) o ∧
      ∀ a ∈ B 1, ∀ b ∈ B 1, tot B ref a b o = cov B a b (k1, k2) := by
  obtain ⟨c1, hc1⟩ := hv.fst
  obtain ⟨c2, hc2⟩ := hv.snd
  dsimp only at hc1 hc2
  rw [pair, hc1, hc2]
  simp only [Option.bind_eq_bind, Option.bind_some]
  have hat : ∀ {k c N}, T.tbl k = some c → getNode T c = some N → nodeAt T k = some N := by
    intro k c N h1 h2; rw [nodeAt, h1]; exact h2
  rcases hT.cell k2 c2 hc2 with ⟨hn2, j, hB2, he2, hb2⟩ | ⟨hn2, ⟨N2, hN2, hs2⟩, hd2⟩
  · -- the second is an entity
    have hem2 : isEmptyNode T.dim c2 = some false := by rw [isEmptyNode, hn2]; simp
    have hj1 : j ∈ B 1 := hv.sub2 (by rw [hB2]; exact Finset.mem_singleton_self _)
    rcases hT.cell k1 c1 hc1 with ⟨hn1, i, hB1, he1, hb1⟩ | ⟨hn1, ⟨N1, hN1, hs1⟩, hd1⟩
    · have hi1 : i ∈ B 1 := hv.sub1 (by rw [hB1]; exact Finset.mem_singleton_self _)
      refine ⟨{ p2p := [(k1, k2)] }, by simp [hem2, hn1, hn2], ⟨by simp, ?_, by simp⟩, ?_⟩
      · intro p hp
        rw [List.mem_singleton] at hp
        subst hp
        exact ⟨c1, c2, i, j, hc1, hc2, hi1, hj1, hB1, hB2, he1, he2⟩
      · intro a _ b _; simp [tot]
    · -- node and entity
      have hk : k1 ≠ k2 := by
        rintro rfl
        rw [hc1] at hc2; cases hc2
        rw [hn1] at hn2; cases hn2
      have hd1' : ∃ ds, daughterKeys T.dim T.tbl k1 c1 = some ds ∧ Split T rk B k1 ds := by
        rcases hd1 with h | h
        · exact (hc k1 c1 hc1 h).elim
        · exact h.2
      obtain ⟨ds, hds, hsp⟩ := hd1'
      have hnj : j ∉ B k1 := fun h => (hv.sep.resolve_left hk) j h (by rw [hB2]; exact Finset.mem_singleton_self _)
      have hr0 : 0 < N1.radius := by
        rcases htwo k1 c1 hc1 hn1 with rfl | ⟨x, hx, y, hy, hxy⟩
        · exact absurd hj1 hnj
        · by_contra hle
          have hz : ∀ w ∈ B k1, N1.coords = (body w).pos := by
            intro w hw
            rw [← distance_eq_zero]
            exact le_antisymm (le_trans (hs1.radius w hw) (by linarith)) (distance_nonneg _ _)
          exact hpos x (hv.sub1 hx) y (hv.sub1 hy) hxy (by rw [← hz x hx, ← hz y hy])
      simp only [hem2, hn1, hn2, Option.bind_some, Bool.false_eq_true, if_false, Bool.not_true, Bool.false_and, if_neg hk]
      rw [different, place, if_pos rfl, hN1, place]
      simp only [Option.map_some, Option.bind_eq_bind, Option.bind_some, Bool.false_eq_true, if_false, hb2]
      by_cases hm : Geometry.mac N1.coords N1.radius (body j).pos 0 mac
      · rw [if_pos hm, accepted]
        refine ⟨_, rfl, ⟨?_, by simp, by simp⟩, ?_⟩
        · intro c hcm
          simp only [if_true, Bool.false_eq_true, if_false, List.mem_singleton] at hcm
          subst hcm
          exact ⟨hv.d1, hv.sub1, ⟨c1, hc1, hn1⟩, N1, j, hat hc1 hN1, hs1, hj1, hnj, he2, hm⟩
        · intro a _ b hb
          simp only [tot, if_true, Bool.false_eq_true, if_false, List.map_cons, List.map_nil, List.sum_cons, List.sum_nil, covCall,
            cov, he2, ind, hB2, Finset.mem_singleton]
          by_cases hjb : b = j
          · subst hjb; simp
          · have : ref j ≠ ref b := fun h => hjb (hinj j hj1 b hb h).symm
            simp [this, hjb]
      · rw [if_neg hm, splitPair, if_pos hr0, hds]
        refine ⟨_, rfl, ⟨by simp, by simp, ?_⟩, ?_⟩
        · intro p hp
          obtain ⟨e, he, rfl⟩ := List.mem_map.mp hp
          exact ⟨valid_daughter1 hv hk hc1 hds hsp he, by have := hsp.rank e he; dsimp only; omega⟩
        · intro a _ b _
          rw [tot, cov, ← ind_split hsp a]
          simp only [List.map_nil, List.sum_nil, Nat.zero_add, List.map_map]
          rw [← List.sum_map_mul_right]
          rfl
  · -- the second is a node
    have hd2' : isEmptyNode T.dim c2 = some false ∧ ∃ ds, daughterKeys T.dim T.tbl k2 c2 = some ds ∧ Split T rk B k2 ds := by
      rcases hd2 with h | h
      · exact (hc k2 c2 hc2 h).elim
      · exact h
    obtain ⟨hem2, ds2, hds2, hsp2⟩ := hd2'
    by_cases hk : k1 = k2
    · subst hk
      rw [hc1] at hc2
      cases hc2
      refine ⟨{ next := selfPairs ds2 }, by simp [hem2, hn2, hds2], ⟨by simp, by simp, ?_⟩, ?_⟩
      · intro p hp
        obtain ⟨h1, h2⟩ := mem_selfPairs hp
        exact ⟨valid_self hv hc1 hds2 hsp2 hp, Nat.add_lt_add (hsp2.rank _ h1) (hsp2.rank _ h2)⟩
      · intro a _ b _
        rw [tot]
        simp only [List.map_nil, List.sum_nil, Nat.zero_add]
        have := selfPairs_sum (fun e => ind (B e) a) (fun e => ind (B e) b) ds2
        rw [ind_split hsp2, ind_split hsp2] at this
        exact this
    · -- how the second is split
      have split2 : ∃ o, (daughterKeys T.dim T.tbl k2 c2).map (fun ds => ({ next := ds.map fun e => (k1, e) } : Out)) = some o ∧
          Good T rk B body ref mac (rk k1 + rk k2) o ∧ ∀ a ∈ B 1, ∀ b ∈ B 1, tot B ref a b o = cov B a b (k1, k2) := by
        rw [hds2]
        refine ⟨_, rfl, ⟨by simp, by simp, ?_⟩, ?_⟩
        · intro p hp
          obtain ⟨e, he, rfl⟩ := List.mem_map.mp hp
          exact ⟨valid_daughter2 hv hk hsp2 he, by have := hsp2.rank e he; dsimp only; omega⟩
        · intro a _ b _
          rw [tot, cov, ← ind_split hsp2 b]
          simp only [List.map_nil, List.sum_nil, Nat.zero_add, List.map_map]
          rw [← List.sum_map_mul_left]
          rfl
      rcases hT.cell k1 c1 hc1 with ⟨hn1, i, hB1, he1, hb1⟩ | ⟨hn1, ⟨N1, hN1, hs1⟩, hd1⟩
      · -- entity and node
        have hi1 : i ∈ B 1 := hv.sub1 (by rw [hB1]; exact Finset.mem_singleton_self _)
        have hni : i ∉ B k2 := (hv.sep.resolve_left hk) i (by rw [hB1]; exact Finset.mem_singleton_self _)
        have hr2 : ¬ (0 : ℝ) > N2.radius := not_lt.mpr (radius_nonneg hs2 (hT.ne k2 c2 hc2))
        simp only [hem2, hn1, hn2, Option.bind_some, Bool.false_eq_true, if_false, Bool.not_true, Bool.and_false, if_neg hk]
        rw [different, place, if_neg (by decide), hb1, place, if_pos rfl, hN2]
        simp only [Option.map_some, Option.bind_eq_bind, Option.bind_some]
        by_cases hm : Geometry.mac (body i).pos 0 N2.coords N2.radius mac
        · rw [if_pos hm, accepted]
          refine ⟨_, rfl, ⟨?_, by simp, by simp⟩, ?_⟩
          · intro c hcm
            simp only [Bool.false_eq_true, if_false, List.mem_singleton] at hcm
            subst hcm
            exact ⟨hv.sub2, i, N2, hi1, hni, he1, hat hc2 hN2, hs2, hm⟩
          · intro a ha b _
            simp only [tot, Bool.false_eq_true, if_false, List.map_cons, List.map_nil, List.sum_cons, List.sum_nil, covCall,
              cov, he1, ind, hB1, Finset.mem_singleton]
            by_cases hia : a = i
            · subst hia; simp
            · have : ref i ≠ ref a := fun h => hia (hinj i hi1 a ha h).symm
              simp [this, hia]
        · rw [if_neg hm, splitPair, if_neg hr2]
          exact split2
      · -- two nodes
        have hd1' : ∃ ds, daughterKeys T.dim T.tbl k1 c1 = some ds ∧ Split T rk B k1 ds := by
          rcases hd1 with h | h
          · exact (hc k1 c1 hc1 h).elim
          · exact h.2
        obtain ⟨ds, hds, hsp⟩ := hd1'
        simp only [hem2, hn1, hn2, Option.bind_some, Bool.false_eq_true, if_false, Bool.not_true, Bool.and_false, if_neg hk]
        rw [different, place, if_pos rfl, hN1, place, if_pos rfl, hN2]
        simp only [Option.map_some, Option.bind_eq_bind, Option.bind_some]
        by_cases hm : Geometry.mac N1.coords N1.radius N2.coords N2.radius mac
        · rw [if_pos hm, accepted]
          refine ⟨_, rfl, ⟨?_, by simp, by simp⟩, ?_⟩
          · intro c hcm
            simp only [if_true, List.mem_singleton] at hcm
            subst hcm
            exact ⟨hv.d1, hv.sub1, hv.sub2, hv.sep.resolve_left hk, ⟨c1, hc1, hn1⟩, N1, N2, hat hc1 hN1, hs1, hat hc2 hN2, hs2, hm⟩
          · intro a _ b _
            simp [tot, covCall, cov]
        · rw [if_neg hm, splitPair]
          by_cases hr : N1.radius > N2.radius
          · rw [if_pos hr, hds]
            refine ⟨_, rfl, ⟨by simp, by simp, ?_⟩, ?_⟩
            · intro p hp
              obtain ⟨e, he, rfl⟩ := List.mem_map.mp hp
              exact ⟨valid_daughter1 hv hk hc1 hds hsp he, by have := hsp.rank e he; dsimp only; omega⟩
            · intro a _ b _
              rw [tot, cov, ← ind_split hsp a]
              simp only [List.map_nil, List.sum_nil, Nat.zero_add, List.map_map]
              rw [← List.sum_map_mul_right]
              rfl
          · rw [if_neg hr]
            exact split2

/-- One pass. -/
theorem pass_spec (hT : TreeWF T rk B body ref) (hc : Complete T) (hinj : ∀ i ∈ B 1, ∀ j ∈ B 1, ref i = ref j → i = j)
    (hpos : ∀ i ∈ B 1, ∀ j ∈ B 1, i ≠ j → (body i).pos ≠ (body j).pos)
    (htwo : ∀ k c, T.tbl k = some c → isNode c = some true → k = 1 ∨ ∃ i ∈ B k, ∃ j ∈ B k, i ≠ j) (mac : ℝ) (n : Nat) :
    ∀ (q : List (Nat × Nat)) (o : Out), (∀ p ∈ q, Valid T B p ∧ rk p.1 + rk p.2 < n + 1) →
      ∃ r, pass T mac q o = some ⟨o.calls ++ r.calls, o.p2p ++ r.p2p, o.next ++ r.next⟩ ∧ Good T rk B body ref mac n r ∧
        ∀ a ∈ B 1, ∀ b ∈ B 1, tot B ref a b r = (q.map (cov B a b)).sum := by
  intro q
  induction q with
  | nil => intro o _; exact ⟨{}, by simp [pass], ⟨by simp, by simp, by simp⟩, by simp [tot]⟩
  | cons p q ih =>
    intro o hq
    obtain ⟨k1, k2⟩ := p
    obtain ⟨hv, hn⟩ := hq _ List.mem_cons_self
    obtain ⟨o1, h1, h2, h3⟩ := pair_spec hT hc hinj hpos htwo mac hv
    obtain ⟨r, h4, h5, h6⟩ := ih ⟨o.calls ++ o1.calls, o.p2p ++ o1.p2p, o.next ++ o1.next⟩ fun p hp => hq p (List.mem_cons_of_mem _ hp)
    refine ⟨⟨o1.calls ++ r.calls, o1.p2p ++ r.p2p, o1.next ++ r.next⟩, ?_, ⟨?_, ?_, ?_⟩, ?_⟩
    · rw [pass, h1]
      simp only [Option.bind_eq_bind, Option.bind_some, h4, List.append_assoc]
    · intro c hcm
      rcases List.mem_append.mp hcm with h | h
      · exact h2.calls c h
      · exact h5.calls c h
    · intro c hcm
      rcases List.mem_append.mp hcm with h | h
      · exact h2.p2p c h
      · exact h5.p2p c h
    · intro c hcm
      rcases List.mem_append.mp hcm with h | h
      · exact ⟨(h2.next c h).1, by have := (h2.next c h).2; dsimp only at hn; omega⟩
      · exact h5.next c h
    · intro a ha b hb
      rw [List.map_cons, List.sum_cons, ← h3 a ha b hb, ← h6 a ha b hb]
      simp only [tot, List.map_append, List.sum_append]
      ring

/-- The whole loop. -/
theorem loop_spec (hT : TreeWF T rk B body ref) (hc : Complete T) (hinj : ∀ i ∈ B 1, ∀ j ∈ B 1, ref i = ref j → i = j)
    (hpos : ∀ i ∈ B 1, ∀ j ∈ B 1, i ≠ j → (body i).pos ≠ (body j).pos)
    (htwo : ∀ k c, T.tbl k = some c → isNode c = some true → k = 1 ∨ ∃ i ∈ B k, ∃ j ∈ B k, i ≠ j) (mac : ℝ) :
    ∀ (n : Nat) (q : List (Nat × Nat)) (calls : List Call) (p2p : List (Nat × Nat)),
      (∀ p ∈ q, Valid T B p ∧ rk p.1 + rk p.2 < n) →
      ∃ fuel₀ r, (∀ fuel, fuel₀ ≤ fuel → loop T mac fuel q calls p2p = some (calls ++ r.calls, p2p ++ r.p2p)) ∧
        Good T rk B body ref mac 0 r ∧ r.next = [] ∧
        ∀ a ∈ B 1, ∀ b ∈ B 1, tot B ref a b r = (q.map (cov B a b)).sum := by
  intro n
  induction n with
  | zero =>
    intro q calls p2p hq
    have : q = [] := List.eq_nil_iff_forall_not_mem.mpr fun p hp => by have := (hq p hp).2; omega
    subst this
    refine ⟨1, {}, ?_, ⟨by simp, by simp, by simp⟩, rfl, by simp [tot]⟩
    intro fuel hf
    obtain ⟨f, rfl⟩ : ∃ f, fuel = f + 1 := ⟨fuel - 1, by omega⟩
    simp [loop]
  | succ n ih =>
    intro q calls p2p hq
    obtain ⟨r, h1, h2, h3⟩ := pass_spec hT hc hinj hpos htwo mac n q ⟨calls, p2p, []⟩ hq
    obtain ⟨f0, r', h4, h5, h6, h7⟩ := ih r.next (calls ++ r.calls) (p2p ++ r.p2p) h2.next
    by_cases hqe : q = []
    · subst hqe
      refine ⟨1, {}, ?_, ⟨by simp, by simp, by simp⟩, rfl, by simp [tot]⟩
      intro fuel hf
      obtain ⟨f, rfl⟩ : ∃ f, fuel = f + 1 := ⟨fuel - 1, by omega⟩
      simp [loop]
    refine ⟨f0 + 1, ⟨r.calls ++ r'.calls, r.p2p ++ r'.p2p, []⟩, ?_, ⟨?_, ?_, by simp⟩, rfl, ?_⟩
    · intro fuel hf
      obtain ⟨f, rfl⟩ : ∃ f, fuel = f + 1 := ⟨fuel - 1, by omega⟩
      rw [loop, if_neg hqe, h1]
      simp only [Option.bind_eq_bind, Option.bind_some, List.nil_append]
      rw [h4 f (by omega)]
      simp
    · intro c hcm
      rcases List.mem_append.mp hcm with h | h
      · exact h2.calls c h
      · exact h5.calls c h
    · intro c hcm
      rcases List.mem_append.mp hcm with h | h
      · exact h2.p2p c h
      · exact h5.p2p c h
    · intro a ha b hb
      rw [← h3 a ha b hb]
      have := h7 a ha b hb
      simp only [tot, h6, List.map_nil, List.sum_nil, Nat.add_zero] at this
      simp only [tot, List.map_append, List.sum_append, List.map_nil, List.sum_nil, Nat.add_zero, ← this]
      ring

end FleCSPH.Fmm
