import Verif.Model.Program
import Verif.Props.C13seq
import Verif.Lemmas.Gravitated
/-! What the trees give to the passes and to gravity. -/
namespace FleCSPH.SphRun
open FleCSPH.Spec FleCSPH.Startup FleCSPH.Cofm FleCSPH.Tree FleCSPH.Ghosts FleCSPH.DistGravity

variable {d D dim m : Nat} {ranks : List (List Nat)} {body : Nat → Body d}

/-- A search after any traversals, with the groups the processes select and the data of the tables. -/
theorem search_served (I : Input D dim m ranks body) (hh : ∀ x ∈ ranks.flatten, 0 ≤ (body x).h) {big tol : ℝ} (htol : 0 ≤ tol) (sent : Nat) {s : List (ShareTable.Proc (Data d))}
    (hs : startup D dim (summarise big) (fun x => .inl (body x)) ranks = some s) {tbl : Nat → Table} {dat : Nat → DataTable d} (ha : After (2 ^ m) (2 ^ dim) (D + 2) s tbl dat) :
    (∃ groups : Nat → List Group, ∀ p < 2 ^ m, ∃ me, s[p]? = some me ∧ groupsOf (2 ^ dim) me.tbl sent (D + 1) = some (groups p)) ∧
    ∀ Val : List Nat → Data d, (∀ p < 2 ^ m, ∀ k v, dataOf s p k = some v → Val k = v) →
      ∀ groups : Nat → List Group, (∀ p < 2 ^ m, ∃ me, s[p]? = some me ∧ groupsOf (2 ^ dim) me.tbl sent (D + 1) = some (groups p)) →
        let Q := sph (2 ^ m) (2 ^ dim) (accepts tol Val) (D + 2)
        ∀ s', Run Q ⟨tbl, groups, fun _ => [], fun _ => [], fun _ => [], fun _ => [], fun _ => false, fun _ _ => false⟩ s' →
          (∀ r, Next Q s' r → r ≠ none) ∧ (∃ s'', Run Q s' s'' ∧ ∀ p < 2 ^ m, exited (2 ^ m) s'' p) ∧
          ((∀ p < 2 ^ m, exited (2 ^ m) s' p) → (∀ p < 2 ^ m, Served D dim ranks body (fun a b => (a.h + b.h) / 2) p (calls Val (s'.results p))) ∧
            ∃ dat' : Nat → DataTable d, (∀ p k v, dat' p k = some v → ∃ q < 2 ^ m, dataOf s q k = some v) ∧ ∀ p < 2 ^ m, ∀ k, (s'.tbl p k).isSome → (dat' p k).isSome) := by
  classical
  have P := I.parts
  obtain ⟨s1, -, gr, h1, -, h2, -⟩ := C13_distributed_partial (D := D) (dim := dim) P.hdim P.hD I.hm P.ne P.full P.sorted big body I.mass hh tol htol sent
  obtain rfl := Option.some.inj (h1.symm.trans hs)
  refine ⟨⟨gr, fun p hp => ?_⟩, fun Val hVal groups hgr s' h => ?_⟩
  · obtain ⟨me, e1, e2, -⟩ := h2 p hp
    exact ⟨me, e1, e2⟩
  have hdiv : ∀ p < 2 ^ m, Divided D dim ranks p (groups p) := by
    intro p hp
    obtain ⟨me, e1, e2, e3⟩ := h2 p hp
    obtain ⟨me', f1, f2⟩ := hgr p hp
    obtain rfl := Option.some.inj (f1.symm.trans e1)
    rw [Option.some.inj (f2.symm.trans e2)]
    exact e3
  obtain ⟨s2, hs2, -, -, -, hall, -⟩ := I.start big
  obtain rfl := Option.some.inj (hs2.symm.trans hs)
  have hT := global_tree P.hdim P.hD I.ne P.full
  have hf : ∀ k ∈ cellsOf D dim ranks.flatten, k.length + 2 ≤ D + 2 := fun k hk => Nat.add_le_add_right (global_depth P.hdim P.full k hk) 2
  have hcells : ∀ k, IsCell D dim (· ∈ ranks.flatten) k → k ∈ cellsOf D dim ranks.flatten := by
    intro k hk
    refine (hT.mem k).2 ?_
    unfold globalTree
    rw [if_pos hk]; rfl
  have hval : ∀ k, IsCell D dim (· ∈ ranks.flatten) k → Val k = valOf D dim (· ∈ ranks.flatten) (summarise big) (fun x => .inl (body x)) k := by
    intro k hk
    obtain ⟨p, hp, h3⟩ := hall k (hcells k hk)
    rw [hVal p hp k _ h3, valFor, if_pos (hcells k hk)]
  have hS := (I.after big hs ha).1 (sph (2 ^ m) (2 ^ dim) (accepts tol Val) (D + 2)) rfl ⟨tbl, groups, fun _ => [], fun _ => [], fun _ => [], fun _ => [], fun _ => false, fun _ _ => false⟩ ⟨rfl⟩
  refine ⟨fun r hr => C18_safe hT hf hS h hr, C18_can_end hT hf hS h, fun hend => ⟨fun p hp => ?_, ?_⟩⟩
  · obtain ⟨-, -, -, g2, g3⟩ := C18_end hT hf hS h hend p hp
    exact calls_served P I.mass hh htol I.ne hval (hdiv p hp) g2 g3
  · refine ⟨fun p k => if k ∈ cellsOf D dim ranks.flatten then some (valFor big D dim body ranks.flatten k) else none, ?_, ?_⟩
    · intro p k v hv
      dsimp only at hv
      split_ifs at hv with hk
      obtain rfl := Option.some.inj hv
      obtain ⟨q, hq, h1⟩ := hall k hk
      exact ⟨q, hq, h1⟩
    · intro p hp k hk
      have hg := (C18_again rfl hT hf hS h hend (P' := sph (2 ^ m) (2 ^ dim) (accepts tol Val) (D + 2)) (fun _ => [])).good p hp
      obtain ⟨c, hc⟩ := Option.isSome_iff_exists.1 hk
      obtain ⟨g, hg1, -⟩ := hg.sub k c hc
      dsimp only
      rw [if_pos ((hT.mem k).2 (by rw [hg1]; rfl))]
      rfl

end FleCSPH.SphRun

namespace FleCSPH.Program
open FleCSPH.Geometry FleCSPH.Sph FleCSPH.Driver FleCSPH.DistRun FleCSPH.Cofm FleCSPH.Key FleCSPH.Newtonian FleCSPH.Update FleCSPH.Spec

variable {i : Fin 3} {n m : Nat}

/-- Different particles have different identifiers. -/
def Distinct (v : Fin n → Particle (i + 1)) : Prop := ∀ a b, (v a).id = (v b).id → a = b

/-- The trees are those of the particles. -/
structure Good (g : Settings) (T : Trees i n m) (v : Fin n → Particle (i + 1)) : Prop where
  apart : Apart g v
  division : Division n (2 ^ m) T.vec
  sorted : ((List.finRange (2 ^ m)).flatMap T.vec).Pairwise fun a b => T.key a < T.key b
  key : ZKey (maxDepth g.bits (i + 1)) (fun a => bodyOf (v a)) T.key
  built : Startup.startup (maxDepth g.bits (i + 1)) (i + 1) (Startup.summarise g.big) (fun x => .inl (bodyAt (ents T.vec T.key v) x)) (ranksOf (ents T.vec T.key v)) = some T.built
  after : DistGravity.After (2 ^ m) (2 ^ (i.val + 1)) (maxDepth g.bits (i + 1) + 2) T.built T.tbl T.dat

theorem ents_congr {v v' : Fin n → Particle (i + 1)} (h : ∀ a, bodyOf (v' a) = bodyOf (v a) ∧ (v' a).id = (v a).id) (vec : Fin (2 ^ m) → List (Fin n)) (key : Fin n → Nat) : ents vec key v' = ents vec key v := by
  funext r
  exact List.map_congr_left fun a _ => by rw [(h a).1, (h a).2]

theorem Good.congr {g : Settings} {T : Trees i n m} {v v' : Fin n → Particle (i + 1)} (h : Good g T v) (hv : ∀ a, bodyOf (v' a) = bodyOf (v a) ∧ (v' a).id = (v a).id) : Good g T v' := by
  have e : (fun a => bodyOf (v' a)) = fun a => bodyOf (v a) := funext fun a => (hv a).1
  exact ⟨by unfold Apart; rw [e]; exact h.apart, h.division, h.sorted, by rw [e]; exact h.key, by rw [ents_congr hv]; exact h.built, h.after⟩

theorem home_mem {vec : Fin (2 ^ m) → List (Fin n)} (h : Division n (2 ^ m) vec) (a : Fin n) : homeOf vec a < 2 ^ m := by
  obtain ⟨r, hr⟩ := Update.Division.mem h a
  unfold homeOf
  cases hf : (List.finRange (2 ^ m)).find? fun r => decide (a ∈ vec r) with
  | none => exact Nat.pow_pos (by decide)
  | some q => exact q.2

section
variable {g : Settings} (hbits : i.val + 1 < g.bits) {v : Fin n → Particle (i + 1)} (hv : ∀ a, Sized (v a)) (hid : Distinct v)
include hbits hv hid

theorem good_update {T T' : Trees i n m} (hd : Division n (2 ^ m) T.vec) (hap : Apart g v) (h : Updated g v T T') : Good g T' v := by
  obtain ⟨sort, junk, fuel, hf, hu, h1, h2⟩ := h
  have hh : ∀ a, 0 < (bodyOf (v a)).h := fun a => (hv a).2
  obtain ⟨key, hk, -, hinj⟩ := C77_keys (Nat.succ_pos i.val) hbits hh
  obtain ⟨vec', ha, -, hs⟩ := C77_sorted (Nat.succ_pos i.val) hbits hh hap hk (id := fun a => (v a).id) hid T.key sort (Nat.pow_pos (by decide)) hd
  have hs := hs junk fuel hf
  unfold Update.update at hu
  have e0 : ents T.vec T.key v = fun r => (T.vec r).map fun a => ⟨bodyOf (v a), (v a).id, T.key a⟩ := rfl
  rw [e0, hs, Option.bind_some] at hu
  obtain ⟨s, hs1, hs2⟩ := Option.map_eq_some_iff.1 hu
  obtain ⟨e1, e2⟩ := Prod.mk.inj hs2
  have e3 : ∀ r, (vec' r).map (fun a => (⟨bodyOf (v a), (v a).id, key a⟩ : Ent (i + 1))) = (T'.vec r).map fun a => ⟨bodyOf (v a), (v a).id, T'.key a⟩ := fun r => congrFun e1 r
  have e4 : vec' = T'.vec := by
    funext r
    have := congrArg (List.map Ent.id) (e3 r)
    rw [List.map_map, List.map_map] at this
    exact List.map_injective_iff.2 (fun a b h => hid a b h) this
  have e5 : key = T'.key := by
    funext a
    obtain ⟨r, hr⟩ := Update.Division.mem ha.division a
    have h3 := e3 r
    rw [← e4] at h3
    exact congrArg Ent.key (List.map_inj_left.1 h3 a hr)
  subst e4 e5 e2
  refine ⟨hap, ha.division, ha.increasing, hk, hs1, ?_⟩
  rw [h1, h2]
  exact .built

omit hbits hv hid in
theorem good_again {T T' : Trees i n m} (hg : Good g T v) (h : Again g v T T') : Good g T' v := by
  obtain ⟨h1, h2, h3, h4, h5⟩ := h
  refine ⟨hg.apart, by rw [h1]; exact hg.division, by rw [h1, h2]; exact hg.sorted, by rw [h2]; exact hg.key, by rw [h1, h2]; exact h3, ?_⟩
  rw [h4, h5]
  exact .built

omit hv hid in
theorem Good.facts {T : Trees i n m} (hg : Good g T v) : T.key.Injective ∧ (∀ a, FullKey (maxDepth g.bits (i + 1)) (i + 1) (T.key a)) ∧ 0 < maxDepth g.bits (i + 1) ∧
    (∀ a, bodyAt (ents T.vec T.key v) (T.key a) = bodyOf (v a)) ∧ (∀ x, x ∈ (ranksOf (ents T.vec T.key v)).flatten ↔ x ∈ (List.finRange n).map T.key) ∧
    (ranksOf (ents T.vec T.key v)).length = 2 ^ m := by
  have hinj := zkey_inj (Nat.succ_pos i.val) hg.key hg.apart
  exact ⟨hinj, fun a => zkey_full hg.key a, Nat.div_pos (by omega) (Nat.succ_pos _), bodyAt_key hinj _ _ hg.division, mem_ranksOf hg.division, by rw [ranksOf, List.length_ofFn]⟩

omit hid in
theorem Good.input {T : Trees i n m} (hn : 2 ≤ n) (hg : Good g T v) :
    DistGravity.Input (maxDepth g.bits (i + 1)) (i + 1) m (ranksOf (ents T.vec T.key v)) (bodyAt (ents T.vec T.key v)) ∧ ∀ x ∈ (ranksOf (ents T.vec T.key v)).flatten, 0 ≤ (bodyAt (ents T.vec T.key v) x).h := by
  obtain ⟨hinj, hfull, hD, hb, hmem, hlen⟩ := hg.facts hbits
  have hlab : ∀ x ∈ (ranksOf (ents T.vec T.key v)).flatten, ∃ a, T.key a = x := fun x hx => by
    obtain ⟨a, -, h⟩ := List.mem_map.1 ((hmem x).1 hx)
    exact ⟨a, h⟩
  have hfl : (ranksOf (ents T.vec T.key v)).flatten = ((List.finRange (2 ^ m)).flatMap T.vec).map T.key := ranks_flatten T.key (fun a => bodyOf (v a)) (fun a => (v a).id) T.vec
  refine ⟨⟨⟨Nat.succ_pos _, hD, ?_, ?_, ?_⟩, hlen, ?_, ?_, ?_⟩, ?_⟩
  · intro l hl
    rw [ranksOf, List.mem_ofFn'] at hl
    obtain ⟨r, rfl⟩ := hl
    simpa [ents] using hg.division.nonempty r
  · intro x hx
    obtain ⟨a, rfl⟩ := hlab x hx
    exact hfull a
  · rw [hfl, List.pairwise_map]
    exact hg.sorted
  · intro x hx
    obtain ⟨a, rfl⟩ := hlab x hx
    rw [hb]
    exact (hv a).1
  · intro x hx y hy hxy h
    obtain ⟨a, rfl⟩ := hlab x hx
    obtain ⟨b, rfl⟩ := hlab y hy
    rw [hb, hb] at h
    obtain ⟨c, hc, -⟩ := hg.key a
    refine hxy (congrArg T.key (hg.apart a b c hc fun j => ?_))
    have := congrFun h j
    rw [← this]
    exact hc j
  · rw [hfl, List.length_map, hg.division.all.length_eq, List.length_finRange]
    exact hn
  · intro x hx
    obtain ⟨a, rfl⟩ := hlab x hx
    rw [hb]
    exact (hv a).2.le

omit hbits hv hid in
/-- The lists are determined by the calls. -/
theorem callsFor_unique {P D d : Nat} (hD : 0 < D) (hd : 0 < d) {key : Fin n → Nat} (hinj : key.Injective) (hfull : ∀ a, FullKey D d (key a)) {vec : Fin P → List (Fin n)} (hdiv : Division n P vec)
    {calls : Fin P → List (List Nat × List (List Nat))} {nbs nbs' : Fin n → List (Fin n)} (h : ∀ p, CallsFor D d key nbs (vec p) (calls p)) (h' : ∀ p, CallsFor D d key nbs' (vec p) (calls p)) : nbs = nbs' := by
  have hX : ∀ x ∈ (List.finRange n).map key, FullKey D d x := by
    intro x hx
    obtain ⟨a, -, rfl⟩ := List.mem_map.1 hx
    exact hfull a
  have hmem : ∀ a, key a ∈ (List.finRange n).map key := fun a => List.mem_map_of_mem (List.mem_finRange a)
  have leaf : ∀ {a b e}, LeafOf D d ((List.finRange n).map key) (key a) e → LeafOf D d ((List.finRange n).map key) (key b) e → a = b := by
    intro a b e ha hb
    exact hinj (DistGravity.leafAt_inj hD hX (hmem a) (hmem b) (((DistGravity.leafOf_iff hd hD hX (hmem a)).1 ha).trans ((DistGravity.leafOf_iff hd hD hX (hmem b)).1 hb).symm))
  have lists : ∀ {l : List (List Nat)} {l1 l2 : List (Fin n)}, List.Forall₂ (fun f b => LeafOf D d ((List.finRange n).map key) (key b) f) l l1 →
      List.Forall₂ (fun f b => LeafOf D d ((List.finRange n).map key) (key b) f) l l2 → l1 = l2 := by
    intro l l1 l2 h1
    induction h1 generalizing l2 with
    | nil => intro h2; cases h2; rfl
    | cons h _ ih =>
      intro h2
      cases h2 with
      | cons h3 h4 => rw [leaf h h3, ih h4]
  funext a
  obtain ⟨p, hp⟩ := Update.Division.mem hdiv a
  obtain ⟨order, o1, o2⟩ := h p
  obtain ⟨order', o1', o2'⟩ := h' p
  -- the call for `a`
  have find : ∀ {cs : List (List Nat × List (List Nat))} {order : List (Fin n)} {nbs : Fin n → List (Fin n)},
      List.Forall₂ (fun call a => LeafOf D d ((List.finRange n).map key) (key a) call.1 ∧ List.Forall₂ (fun f b => LeafOf D d ((List.finRange n).map key) (key b) f) call.2 (nbs a)) cs order →
      (a ∈ order → ∃ call ∈ cs, LeafOf D d ((List.finRange n).map key) (key a) call.1) ∧
      ∀ call ∈ cs, LeafOf D d ((List.finRange n).map key) (key a) call.1 → List.Forall₂ (fun f b => LeafOf D d ((List.finRange n).map key) (key b) f) call.2 (nbs a) := by
    intro cs order nbs h
    induction h with
    | nil => exact ⟨fun h => (List.not_mem_nil h).elim, fun _ h => (List.not_mem_nil h).elim⟩
    | @cons c b cs order h _ ih =>
      constructor
      · intro ha
        rcases List.mem_cons.1 ha with rfl | ha
        · exact ⟨c, List.mem_cons_self, h.1⟩
        · obtain ⟨c', h1, h2⟩ := ih.1 ha
          exact ⟨c', List.mem_cons_of_mem _ h1, h2⟩
      · intro c' hc' hl
        rcases List.mem_cons.1 hc' with rfl | hc'
        · obtain rfl := leaf h.1 hl
          exact h.2
        · exact ih.2 c' hc' hl
  obtain ⟨call, c1, c2⟩ := (find o2).1 (o1.mem_iff.2 hp)
  exact lists ((find o2).2 call c1 c2) ((find o2').2 call c1 c2)

omit hid in
/-- The lists a search delivers, and the trees after it. -/
theorem good_search {T T' : Trees i n m} (hn : 2 ≤ n) (htol : 0 ≤ g.tol) (hg : Good g T v) {nbs : Fin n → List (Fin n)} (h : Searched g T T' nbs) : NearLists v nbs ∧ Good g T' v := by
  obtain ⟨Val, groups, st, h1, h2, h3, h4, h5, e1, e2, e3, e4, h6, h7⟩ := h
  obtain ⟨I, hh⟩ := hg.input hbits hv hn
  obtain ⟨hinj, hfull, hD, -, -, -⟩ := hg.facts hbits
  obtain ⟨-, key⟩ := SphRun.search_served I hh htol g.group hg.built hg.after
  obtain ⟨-, -, k⟩ := key Val h1 groups h2 st h3
  obtain ⟨k1, -⟩ := k h4
  obtain ⟨nbs0, n1, n2⟩ := calls_for hD (Nat.succ_pos i.val) hinj hfull (body := fun a => bodyOf (v a)) (id := fun a => (v a).id) hg.division (fun p => SphRun.calls Val (st.results p)) fun p => k1 p p.2
  obtain rfl := callsFor_unique hD (Nat.succ_pos i.val) hinj hfull hg.division n2 h5
  refine ⟨⟨n1.nodup, fun a b hab => n1.complete a b hab⟩, hg.apart, by rw [e1]; exact hg.division, by rw [e1, e2]; exact hg.sorted, by rw [e2]; exact hg.key, by rw [e1, e2, e3]; exact hg.built, ?_⟩
  rw [e3, e4]
  exact .sph _ _ st _ hg.after rfl h3 h4 h6 h7

omit hid in
/-- A search can be made. -/
theorem search_exists {T : Trees i n m} (hn : 2 ≤ n) (htol : 0 ≤ g.tol) (hg : Good g T v) : ∃ T' nbs, Searched g T T' nbs := by
  classical
  obtain ⟨I, hh⟩ := hg.input hbits hv hn
  obtain ⟨hinj, hfull, hD, -, -, -⟩ := hg.facts hbits
  obtain ⟨⟨groups, h2⟩, key⟩ := SphRun.search_served I hh htol g.group hg.built hg.after
  obtain ⟨s0, hs0, -, -, hdinv, -, -⟩ := I.start g.big
  obtain rfl := Option.some.inj (hs0.symm.trans hg.built)
  obtain ⟨Val, hVal⟩ : ∃ Val : List Nat → Startup.Data (i + 1), ∀ p < 2 ^ m, ∀ k v, DistGravity.dataOf T.built p k = some v → Val k = v :=
    ⟨_, fun p _ k v h => (hdinv.dat p k v h).symm⟩
  obtain ⟨-, ⟨st, r, e⟩, -⟩ := key Val hVal groups h2 _ .start
  obtain ⟨-, -, k⟩ := key Val hVal groups h2 st r
  obtain ⟨k1, dat', d1, d2⟩ := k e
  obtain ⟨nbs0, n1, n2⟩ := calls_for hD (Nat.succ_pos i.val) hinj hfull (body := fun a => bodyOf (v a)) (id := fun a => (v a).id) hg.division (fun p => SphRun.calls Val (st.results p)) fun p => k1 p p.2
  exact ⟨⟨T.vec, T.key, T.built, st.tbl, dat'⟩, nbs0, Val, groups, st, hVal, h2, r, e, n2, rfl, rfl, rfl, rfl, d1, d2⟩

omit hbits hv hid in
/-- The trees can be built again. -/
theorem again_exists {T : Trees i n m} (hg : Good g T v) : ∃ T', Again g v T T' :=
  ⟨⟨T.vec, T.key, T.built, Startup.ghostTables T.built, DistGravity.dataOf T.built⟩, rfl, rfl, hg.built, rfl, rfl⟩

/-- `update_iteration` can be carried out. -/
theorem update_exists {T : Trees i n m} (hd : Division n (2 ^ m) T.vec) (hap : Apart g v) : ∃ T', Updated g v T T' := by
  have hh : ∀ a, 0 < (bodyOf (v a)).h := fun a => (hv a).2
  obtain ⟨key, hk, -, -⟩ := C77_keys (Nat.succ_pos i.val) hbits hh
  obtain ⟨vec', out, s, -, -, -, h2, h3, -⟩ := C77_neighbours_partial (Nat.succ_pos i.val) hbits hh hap hk (id := fun a => (v a).id) hid T.key exSort (fun a => (hv a).1) g.big 0 le_rfl 1 hd
    (fun _ _ => ⟨bodyOf (v ⟨0, Update.Division.pos hd (Nat.pow_pos (by decide))⟩), 0, 0⟩) (fuel := n) le_rfl
  refine ⟨⟨vec', key, s, Startup.ghostTables s, DistGravity.dataOf s⟩, exSort, fun _ _ => ⟨bodyOf (v ⟨0, Update.Division.pos hd (Nat.pow_pos (by decide))⟩), 0, 0⟩, n, le_rfl, ?_, rfl, rfl⟩
  have : out = ents vec' key v := funext h2
  rw [← this]
  exact h3

/-- On sorted particles `update_iteration` changes nothing. -/
theorem Good.updated {T : Trees i n m} (hg : Good g T v) (sort : Psort.StdSort) (junk : Nat → Fin (2 ^ m) → Ent (i + 1)) :
    update g.bits sort junk n g.big (ents T.vec T.key v) = some (ents T.vec T.key v, T.built) := by
  have hh : ∀ a, 0 < (bodyOf (v a)).h := fun a => (hv a).2
  obtain ⟨vec', -, hu, hs⟩ := C77_sorted (Nat.succ_pos i.val) hbits hh hg.apart hg.key (id := fun a => (v a).id) hid T.key sort (Nat.pow_pos (by decide)) hg.division
  obtain rfl := hu T.vec ⟨hg.division, fun _ => rfl, hg.sorted⟩
  unfold Update.update
  have e0 : ents T.vec T.key v = fun r => (T.vec r).map fun a => ⟨bodyOf (v a), (v a).id, T.key a⟩ := rfl
  have hs := hs junk n le_rfl
  rw [← e0] at hs
  rw [hs, Option.bind_some, hg.built]
  rfl

/-- Gravity on the trees is gravity of the particles. -/
theorem good_pulled {T T' : Trees i n m} (hg : Good g T v) {v' : Fin n → Particle (i + 1)} (h : Pulled g T T' v v') : Gravitated g.toGravity m v v' ∧ Good g T' v := by
  obtain ⟨S, ids, h1, h2, h3, h4, e1, e2, e3, e4, e5⟩ := h
  have e0 : Fin n := ⟨0, Update.Division.pos hg.division (Nat.pow_pos (by decide))⟩
  have hl : ∀ x e, LeafOf (maxDepth g.bits (i + 1)) (i + 1) (ranksOf (ents T.vec T.key v)).flatten x e ↔ LeafOf (maxDepth g.bits (i + 1)) (i + 1) ((List.finRange n).map T.key) x e :=
    leafOf_congr fun x => mem_ranksOf hg.division x
  constructor
  · refine ⟨exSort, T.vec, T.key, fun _ _ => ⟨bodyOf (v e0), 0, 0⟩, n, ents T.vec T.key v, T.built, T.tbl, T.dat, S, ids, hg.division, le_rfl, hg.updated hbits hv hid _ _, ?_, hg.after, h2, h3, fun p => ?_⟩
    · intro p x hx e he
      obtain ⟨a, ha, rfl⟩ := List.mem_map.1 hx
      exact h1 a e ((hl _ _).1 he)
    · obtain ⟨F, f1, f2⟩ := h4 p
      refine ⟨F, f1, fun a x hx hxa e he => ?_⟩
      obtain ⟨b, hb, rfl⟩ := List.mem_map.1 hx
      obtain rfl := hid b a hxa
      exact f2 b hb e ((hl _ _).1 he)
  · refine ⟨hg.apart, by rw [e1]; exact hg.division, by rw [e1, e2]; exact hg.sorted, by rw [e2]; exact hg.key, by rw [e1, e2, e3]; exact hg.built, ?_⟩
    rw [e3, e4, e5]
    exact .fmm g.angle S hg.after h2 h3

/-- Gravity can be computed on the trees. -/
theorem pulled_exists {T : Trees i n m} (hn : 2 ≤ n) (hg : Good g T v) : ∃ T' v', Pulled g T T' v v' := by
  obtain ⟨hinj, hfull, hD, -, -, -⟩ := hg.facts hbits
  have hh : ∀ a, 0 < (bodyOf (v a)).h := fun a => (hv a).2
  have e0 : Fin n := ⟨0, by omega⟩
  obtain ⟨pot, acc, hG⟩ := C77_gravity_partial (Nat.succ_pos i.val) hbits hh hg.apart hg.key (fun a => (hv a).1) g.big hn g.angle g.const
  obtain ⟨vec', out, s, g1, g2, g3, g4⟩ := hG exSort (fun a => (v a).id) (fun a b h => hid a b h) T.key m T.vec hg.division (fun _ _ => ⟨bodyOf (v e0), 0, 0⟩) n le_rfl
  have e1 : (fun r => (T.vec r).map fun a => (⟨bodyOf (v a), (v a).id, T.key a⟩ : Ent (i + 1))) = ents T.vec T.key v := rfl
  rw [e1, hg.updated hbits hv hid] at g3
  obtain ⟨e2, e3⟩ := Prod.mk.inj (Option.some.inj g3)
  have e4 : vec' = T.vec := by
    funext r
    have h1 := (congrFun e2 r).trans (g2 r)
    have := congrArg (List.map Ent.id) h1
    unfold ents at this
    rw [List.map_map, List.map_map] at this
    exact (List.map_injective_iff.2 (fun a b h => hid a b h) this).symm
  subst e4 e3
  obtain ⟨ids, hids⟩ := leaf_ids hD (Nat.succ_pos i.val) hinj hfull fun a => (v a).id
  obtain ⟨-, ⟨S, t1, t2⟩, -⟩ := g4 ids hids T.tbl T.dat hg.after _ .start
  obtain ⟨-, -, g5⟩ := g4 ids hids T.tbl T.dat hg.after S t1
  refine ⟨⟨T.vec, T.key, T.built, S.run.tbl, S.dat⟩, fun a => { v a with gpot := pot a, gacc := acc a }, S, ids, hids, t1, t2, fun p => ?_, rfl, rfl, rfl, rfl, rfl⟩
  obtain ⟨F, f1, f2⟩ := g5 t2 p
  refine ⟨F, f1, fun a ha e he => ?_⟩
  obtain ⟨k1, k2, -⟩ := f2 a ha e he
  rw [k1, k2]

end

end FleCSPH.Program
