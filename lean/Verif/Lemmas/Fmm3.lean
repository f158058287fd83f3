import Verif.Lemmas.Fmm2
import Verif.Lemmas.Single
/-! Counting the calls of `traversal_fmm` on a single process. -/
namespace FleCSPH.Fmm
open FleCSPH.HCell FleCSPH.BuildTree FleCSPH.Cofm FleCSPH.Geometry FleCSPH.Traversal FleCSPH.Spec FleCSPH.Tree

variable {d : Nat}

/-- On a canonical tree leaves have no daughters. -/
theorem canon_leafOk {D dim : Nat} {ks : List Nat} {t : Tbl} (hdim : 0 < dim) (hfull : ∀ x ∈ ks, FullKey D dim x)
    (hcan : Canon D dim (· ∈ ks) ks t) {k : Nat} {c : Cell} (hk : t k = some c) (he : c.entityIdx ≠ -1) :
    childKeys dim t k = [] := by
  rcases hcan.some_ k c hk with ⟨-, h⟩ | ⟨j, y, p, hj, hl, rfl, -, -⟩
  · exact absurd h he
  · rw [List.eq_nil_iff_forall_not_mem]
    intro e hm
    obtain ⟨b, hb, rfl, cell, hcell⟩ := mem_childKeys.mp hm
    have hy : y ∈ ks := List.mem_of_getElem? hj
    have hpos := A_pos (hfull y hy) (Nat.le_of_lt hl.1)
    -- a particle of the daughter is the particle of the leaf
    have key : ∀ x ∈ ks, ∀ q ≤ D, A dim q x = A dim p y * 2 ^ dim + b → x = y ∧ q + 1 = p := by
      intro x hx q hq hA
      obtain ⟨q', h1, h2, h3⟩ := H_parent hdim (hfull x hx) hpos hb ⟨q, hq, hA⟩
      have h4 := level_unique hdim (hfull x hx) (hfull y hy) h1 (Nat.le_of_lt hl.1) h3
      have h5 := level_unique hdim (hfull x hx) (hfull x hx) hq (by omega) (hA.trans h2.symm)
      refine ⟨hl.2.1 x hx ?_, by omega⟩
      rw [← h4]; rw [h3, h4]
    rcases hcan.some_ _ cell hcell with ⟨hN, -⟩ | ⟨j', y', p', hj', hl', hA', -, -⟩
    · rcases hN with h1 | ⟨u, v, hu, hv, huv, q, hq, h1, h2⟩
      · have : 2 ≤ 2 ^ dim := by
          calc 2 = 2 ^ 1 := rfl
            _ ≤ 2 ^ dim := Nat.pow_le_pow_right (by decide) hdim
        nlinarith
      · exact huv ((key u hu q hq h1).1.trans (key v hv q hq h2).1.symm)
    · obtain ⟨h1, h2⟩ := key y' (List.mem_of_getElem? hj') p' (Nat.le_of_lt hl'.1) hA'.symm
      subst h1
      have := leafAt_unique hl hl'
      omega

theorem sum_intoNode (B : Nat → Finset Nat) (a b : Nat) (keys : List Nat) (hnd : keys.Nodup) (c : Call)
    (hk : ∀ k1 k2, c = .c2c k1 k2 → k1 ∈ keys) (hk' : ∀ k1 e, c = .p2c k1 e → k1 ∈ keys) :
    (keys.map fun k => ind (B k) a * intoNode B b k c).sum =
      match c with
      | .c2c k1 k2 => ind (B k1) a * ind (B k2) b
      | .p2c k1 e => ind (B k1) a * (if e = (false, (b : Int)) then 1 else 0)
      | _ => 0 := by
  have pick : ∀ (k1 : Nat) (P : Prop) [Decidable P] (l : List Nat), l.Nodup → (l.map fun k => ind (B k) a * if k1 = k ∧ P then 1 else 0).sum =
      if k1 ∈ l then ind (B k1) a * (if P then 1 else 0) else 0 := by
    intro k1 P _ l
    induction l with
    | nil => intro _; simp
    | cons x l ih =>
      intro hn
      rw [List.map_cons, List.sum_cons, ih (List.nodup_cons.mp hn).2]
      by_cases hx : k1 = x
      · subst hx
        rw [if_neg (List.nodup_cons.mp hn).1]
        simp
      · simp [hx]
  cases c with
  | c2c k1 k2 =>
    simp only [intoNode]
    rw [pick k1 _ keys hnd, if_pos (hk k1 k2 rfl)]; rfl
  | p2c k1 e =>
    simp only [intoNode]
    rw [pick k1 _ keys hnd, if_pos (hk' k1 e rfl)]
  | n2p _ _ => simp [intoNode]
  | c2p _ _ => simp [intoNode]
  | p2p _ _ => simp [intoNode]

theorem sum_comm_list {α β : Type} (f : α → β → ℕ) (l : List α) (m : List β) :
    (l.map fun x => (m.map fun y => f x y).sum).sum = (m.map fun y => (l.map fun x => f x y).sum).sum := by
  induction l with
  | nil => simp
  | cons x l ih => rw [List.map_cons, List.sum_cons, ih, ← List.sum_map_add]; simp

/-- The count of a run with the structure shown by `traversalFmm_spec`. -/
theorem count_actions {B : Nat → Finset Nat} {calls : List Call} {keys : List Nat} {subs : List (List (Bool × Int))}
    {pairs : List (Nat × Nat)}
    (hcalls : ∀ c ∈ calls, (∀ k s, c ≠ .c2p k s) ∧ ∀ e e', c ≠ .p2p e e')
    (hnd : keys.Nodup) (hin : ∀ k, (∃ c ∈ calls, c.affects k = true) → k ∈ keys)
    (hsub : List.Forall₂ (fun k l => l.Nodup ∧ ∀ a, a ∈ l ↔ ∃ j ∈ B k, a = (false, (j : Int))) keys subs) (a b : Nat) :
    actions B (calls ++ (List.zipWith Call.c2p keys subs) ++ pairs.map fun p => .p2p (false, (p.1 : Int)) (false, (p.2 : Int))) a b =
      (calls.map (covCall B (fun j => (false, (j : Int))) a b)).sum + pairs.count (a, b) := by
  set all := calls ++ (List.zipWith Call.c2p keys subs) ++ pairs.map fun p => Call.p2p (false, (p.1 : Int)) (false, (p.2 : Int)) with hall
  have hinto : ∀ k, (all.map (intoNode B b k)).sum = (calls.map (intoNode B b k)).sum := by
    intro k
    rw [hall, List.map_append, List.map_append, List.sum_append, List.sum_append]
    have h1 : ((List.zipWith Call.c2p keys subs).map (intoNode B b k)).sum = 0 := by
      apply List.sum_eq_zero
      intro x hx
      obtain ⟨c, hc, rfl⟩ := List.mem_map.mp hx
      rw [List.zipWith_eq_zipWith_take_min] at hc
      obtain ⟨i, hi, rfl⟩ := List.mem_iff_getElem.mp hc
      rw [List.getElem_zipWith]; rfl
    have h2 : ((pairs.map fun p => Call.p2p (false, (p.1 : Int)) (false, (p.2 : Int))).map (intoNode B b k)).sum = 0 := by
      apply List.sum_eq_zero
      intro x hx
      rw [List.map_map] at hx
      obtain ⟨c, hc, rfl⟩ := List.mem_map.mp hx
      rfl
    omega
  have hdown : ∀ (ks : List Nat) (ss : List (List (Bool × Int))),
      List.Forall₂ (fun k l => l.Nodup ∧ ∀ a, a ∈ l ↔ ∃ j ∈ B k, a = (false, (j : Int))) ks ss →
      ((List.zipWith Call.c2p ks ss).map (actsOn B all a b)).sum = (ks.map fun k => ind (B k) a * (calls.map (intoNode B b k)).sum).sum := by
    intro ks ss h
    induction h with
    | nil => rfl
    | @cons k l ks ss h1 _ ih =>
      rw [List.zipWith_cons_cons, List.map_cons, List.sum_cons, ih, List.map_cons, List.sum_cons, actsOn, hinto]
      congr 2
      rw [h1.1.count, ind]
      have : ((false, (a : Int)) ∈ l) ↔ a ∈ B k := by
        rw [h1.2]
        constructor
        · rintro ⟨j, hj, he⟩
          have : a = j := by simpa using he
          rw [this]; exact hj
        · intro h; exact ⟨a, h, rfl⟩
      simp only [this]
  rw [actions, hall, List.map_append, List.map_append, List.sum_append, List.sum_append, ← hall, hdown keys subs hsub]
  -- exchange the sums
  have hex : (keys.map fun k => ind (B k) a * (calls.map (intoNode B b k)).sum).sum =
      (calls.map fun c => (keys.map fun k => ind (B k) a * intoNode B b k c).sum).sum := by
    rw [← sum_comm_list]
    congr 1
    apply List.map_congr_left
    intro k _
    rw [← List.sum_map_mul_left]
  rw [hex, ← List.sum_map_add]
  congr 1
  · congr 1
    apply List.map_congr_left
    intro c hc
    rw [sum_intoNode B a b keys hnd c]
    · cases c with
      | c2c k1 k2 => simp [actsOn, covCall]
      | p2c k1 e => simp [actsOn, covCall]
      | n2p e k2 =>
        simp only [actsOn, covCall, Nat.add_zero, ind]
        by_cases h1 : e = (false, (a : Int)) <;> simp [h1]
      | c2p k s => exact ((hcalls _ hc).1 k s rfl).elim
      | p2p e e' => exact ((hcalls _ hc).2 e e' rfl).elim
    · rintro k1 k2 rfl; exact hin k1 ⟨_, hc, by simp [Call.affects]⟩
    · rintro k1 e rfl; exact hin k1 ⟨_, hc, by simp [Call.affects]⟩
  · clear hinto hdown hall
    generalize all = all'
    induction pairs with
    | nil => rfl
    | cons p l ih =>
      rw [List.map_cons, List.map_cons, List.sum_cons, ih, List.count_cons, actsOn]
      have : (p == (a, b)) = true ↔ ((false, (p.1 : Int)) = (false, (a : Int)) ∧ (false, (p.2 : Int)) = (false, (b : Int))) := by
        obtain ⟨x, y⟩ := p
        simp
      by_cases h : (false, (p.1 : Int)) = (false, (a : Int)) ∧ (false, (p.2 : Int)) = (false, (b : Int))
      · rw [if_pos h, if_pos (this.mpr h)]; omega
      · rw [if_neg h, if_neg (fun hp => h (this.mp hp))]; omega

/-- Nodes other than the root hold at least two particles. -/
theorem canon_two {D dim : Nat} {ks : List Nat} {t : Tbl} (h8 : Canon D dim (· ∈ ks) ks t) {k : Nat} {c : Cell} (hk : t k = some c)
    (hn : isNode c = some true) : k = 1 ∨ ∃ i ∈ below D dim ks k, ∃ j ∈ below D dim ks k, i ≠ j := by
  have hcn : c.nodeIdx ≠ -1 := by
    rw [isNode] at hn
    split_ifs at hn with h
    simpa using hn
  rcases h8.some_ k c hk with ⟨hN, -⟩ | ⟨j, y, p, -, -, -, -, h⟩
  · rcases hN with h | ⟨x, y, hx, hy, hxy, p, hp, hpx, hpy⟩
    · exact Or.inl h
    · right
      obtain ⟨i, hi⟩ := List.mem_iff_getElem?.mp hx
      obtain ⟨j, hj⟩ := List.mem_iff_getElem?.mp hy
      refine ⟨i, mem_below.mpr ⟨x, hi, p, hp, hpx⟩, j, mem_below.mpr ⟨y, hj, p, hp, hpy⟩, ?_⟩
      rintro rfl
      rw [hi] at hj
      cases hj
      exact hxy rfl
  · exact absurd h hcn

/-- The structure of a run on the tree of a single process. -/
theorem single_fmm (big : ℝ) (D dim minKey maxKey : Nat) (hdim : 0 < dim) (hD : 0 < D) (ks : List Nat) (hne : ks ≠ [])
    (hfull : ∀ x ∈ ks, FullKey D dim x) (hsorted : ks.Pairwise (· < ·))
    (bodies : List (Body d)) (hlen : bodies.length = ks.length) (hmass : ∀ b ∈ bodies, 0 < b.mass)
    (hpos : bodies.Pairwise fun a b => a.pos ≠ b.pos) (mac : ℝ) :
    ∃ E s nodes, envOf D dim minKey maxKey [ks] 0 = some E ∧ buildTree E = some s ∧
      evalLog big bodies s.cofm [] = some nodes ∧
      ∃ T : Top d, T = ⟨dim, s.tbl, bodies, nodes, [], []⟩ ∧
      (∀ j, j ∈ below D dim ks 1 ↔ j < bodies.length) ∧
      TreeWF T (fun k => 2 ^ (D * dim + 1) - k) (below D dim ks) (bodyAt bodies) (fun j => (false, (j : Int))) ∧
      (∀ j < bodies.length, deref T (false, (j : Int)) = some (bodyAt bodies j)) ∧
      ∃ (fuel₀ : Nat) (calls : List Call) (keys : List Nat) (subs : List (List (Bool × Int))) (pairs : List (Nat × Nat)),
        (∀ fuel, fuel₀ ≤ fuel → traversalFmm T mac fuel = some (calls ++ (List.zipWith Call.c2p keys subs) ++
          pairs.map fun p => .p2p (false, (p.1 : Int)) (false, (p.2 : Int)))) ∧
        (∀ c ∈ calls, CallOk T (below D dim ks) (bodyAt bodies) (fun j => (false, (j : Int))) mac c) ∧
        (keys.Nodup ∧ (∀ k ∈ keys, below D dim ks k ⊆ below D dim ks 1 ∧ ∃ N, nodeAt T k = some N) ∧
          ∀ k, (∃ c ∈ calls, c.affects k = true) → k ∈ keys) ∧
        List.Forall₂ (fun k l => l.Nodup ∧ ∀ a, a ∈ l ↔ ∃ j ∈ below D dim ks k, a = (false, (j : Int))) keys subs ∧
        (∀ p ∈ pairs, p.1 < bodies.length ∧ p.2 < bodies.length) ∧
        ∀ a < bodies.length, ∀ b < bodies.length,
          (calls.map (covCall (below D dim ks) (fun j => (false, (j : Int))) a b)).sum + (pairs.count (a, b)) = 1 := by
  obtain ⟨E, s, nodes, h1, h2, h3, h4, h5, h6, h7, h8, -⟩ := single_wf big D dim minKey maxKey hdim hD ks hne hfull hsorted bodies hlen hmass
  refine ⟨E, s, nodes, h1, h2, h3, _, rfl, by rw [hlen]; exact h6, h4, ?_, ?_⟩
  · intro j hj
    have : bodies[j]? = some (bodyAt bodies j) := by
      rw [bodyAt, List.getD_eq_getElem?_getD, List.getElem?_eq_getElem hj]; rfl
    simpa [deref, at?] using this
  have hbody : ∀ j (h : j < bodies.length), bodyAt bodies j = bodies[j] := by
    intro j h
    rw [bodyAt, List.getD_eq_getElem?_getD, List.getElem?_eq_getElem h]; rfl
  have hl : LeafOk (⟨dim, s.tbl, bodies, nodes, [], []⟩ : Top d) := by
    intro k c hk hn
    have hce : c.entityIdx ≠ -1 := by
      rw [isNode] at hn
      split_ifs at hn with h
      simp at hn
      exact h.resolve_left (fun h => h hn)
    have := canon_leafOk hdim hfull h8 hk hce
    show daughterKeys dim s.tbl k c = some []
    rw [daughterKeys_eq h8.child hk, this]
  obtain ⟨f, calls, keys, subs, pairs, g1, g2, g3, g4, g5, g6⟩ := traversalFmm_spec h4 h5 hl (by intro i _ j _ h; simpa using h)
    (fun _ => rfl)
    (by
      intro i hi j hj hij
      have hi' : i < bodies.length := by rw [hlen]; exact (h6 i).mp hi
      have hj' : j < bodies.length := by rw [hlen]; exact (h6 j).mp hj
      rw [hbody i hi', hbody j hj']
      rw [List.pairwise_iff_getElem] at hpos
      rcases Nat.lt_or_gt_of_ne hij with h | h
      · exact hpos i j hi' hj' h
      · exact (hpos j i hj' hi' h).symm)
    (fun k c hk hn => canon_two h8 hk hn) mac
  refine ⟨f, calls, keys, subs, pairs, g1, g2, ⟨g3.1, ?_, ?_⟩, g4, ?_, ?_⟩
  · intro k hk
    obtain ⟨hd, ⟨c, hc, hn⟩, -⟩ := (g3.2 k).mp hk
    refine ⟨(desc_wf h4 h5 hl h4.root hd).2.1, ?_⟩
    rcases h4.cell k c hc with ⟨h, -⟩ | ⟨-, ⟨N, hN, -⟩, -⟩
    · rw [h] at hn; cases hn
    · exact ⟨N, by rw [nodeAt, hc]; exact hN⟩
  · rintro k ⟨c, hc, ha⟩
    rw [g3.2]
    have hok := g2 c hc
    have hany : calls.any (Call.affects k) = true := List.any_eq_true.mpr ⟨c, hc, ha⟩
    cases c with
    | c2c k1 k2 =>
      obtain ⟨w1, -, -, -, w2, -⟩ := hok
      simp only [Call.affects, beq_iff_eq] at ha
      subst ha
      exact ⟨w1, w2, hany⟩
    | p2c k1 e2 =>
      obtain ⟨w1, -, w2, -⟩ := hok
      simp only [Call.affects, beq_iff_eq] at ha
      subst ha
      exact ⟨w1, w2, hany⟩
    | n2p _ _ => simp [Call.affects] at ha
    | c2p _ _ => simp [Call.affects] at ha
    | p2p _ _ => simp [Call.affects] at ha
  · intro p hp
    obtain ⟨w1, w2⟩ := g5 p hp
    rw [hlen]
    exact ⟨(h6 _).mp w1, (h6 _).mp w2⟩
  · intro a ha b hb
    rw [hlen] at ha hb
    exact g6 a ((h6 a).mpr ha) b ((h6 b).mpr hb)

end FleCSPH.Fmm
