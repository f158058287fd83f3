import Verif.Lemmas.SphRun
import Verif.Spec.Served
import Verif.Props.C17tables
/-!
C13 on several processes: from the particle keys to the neighbour lists given to the user's function, for every order of messages.

Missing for the full property: neighbours further away than the mean of the smoothing lengths (`C13_violated`), and numbers of processes which are not a power of two (Props/C17.lean).
-/
namespace FleCSPH.SphRun
open FleCSPH.Spec FleCSPH.Tree FleCSPH.Ghosts FleCSPH.Startup FleCSPH.Cofm FleCSPH.Geometry FleCSPH.Traversal

variable {d D dim : Nat} {ranks : List (List Nat)}

/-- The groups of all processes: each holds particles of its process below its cell, and every particle of the process is in exactly one group. -/
def Divided (D dim : Nat) (ranks : List (List Nat)) (p : Nat) (gs : List Group) : Prop :=
  (∀ a ∈ gs, IsCell D dim (· ∈ ranks.flatten) a.cell ∧ ∀ e ∈ a.ents, a.cell <:+ e) ∧ (gs.flatMap Group.ents).Nodup ∧ ∀ e, e ∈ gs.flatMap Group.ents ↔ Digits dim e ∧ HasLeaf D dim ranks p e

theorem hasLeaf_iff (P : Parts D dim ranks) {p : Nat} {e : List Nat} :
    IsEnt (globalTree D dim (· ∈ ranks.flatten)) e ∧ holder D dim ranks e = p ↔ Digits dim e ∧ HasLeaf D dim ranks p e := by
  rw [isEnt_iff P.hdim P.fullX]
  constructor
  · rintro ⟨⟨h1, x, hx, hl⟩, ho⟩
    obtain ⟨r, ks, hr, hxk⟩ := mem_ranks.mp hx
    have := P.holder_eq h1 hr hxk hl
    rw [ho] at this
    subst this
    exact ⟨h1, ks, x, hr, hxk, (leaf_path P.hdim P.fullX h1 hx).mpr hl⟩
  · rintro ⟨h1, ks, x, hr, hxk, hl⟩
    have hx : x ∈ ranks.flatten := mem_ranks.mpr ⟨p, ks, hr, hxk⟩
    have hl' := (leaf_path P.hdim P.fullX h1 hx).mp hl
    exact ⟨⟨h1, x, hx, hl'⟩, P.holder_eq h1 hr hxk hl'⟩

theorem dist_eq (a b : Body d) : distance a.pos b.pos = √(∑ i, (a.pos i - b.pos i) ^ 2) := by
  rw [distance]; simp only [sq]

section
variable {big tol : ℝ} {body : Nat → Body d} (P : Parts D dim ranks) (hmass : ∀ x ∈ ranks.flatten, 0 < (body x).mass) (hh : ∀ x ∈ ranks.flatten, 0 ≤ (body x).h) (htol : 0 ≤ tol)
include P hmass hh htol

open Classical in
/-- The lists of one group. -/
theorem group_served (hne : ranks.flatten ≠ []) {Val : List Nat → Data d} (hVal : ∀ k, IsCell D dim (· ∈ ranks.flatten) k → Val k = valOf D dim (· ∈ ranks.flatten) (summarise big) (fun x => .inl (body x)) k)
    {a : Group} (hcell : IsCell D dim (· ∈ ranks.flatten) a.cell) (hbelow : ∀ e ∈ a.ents, a.cell <:+ e) {found : List (List Nat)}
    (hf : ∀ k, k ∈ found ↔ Digits dim k ∧ (∃ x ∈ ranks.flatten, LeafCell D dim (· ∈ ranks.flatten) x (number dim k)) ∧ Open (accepts tol Val a) k)
    {e : List Nat} (he : e ∈ a.ents) (hde : Digits dim e) {x : Nat} (hx : x ∈ ranks.flatten) (hl : LeafCell D dim (· ∈ ranks.flatten) x (number dim e)) :
    (∀ f ∈ neighbours Val a e found, Digits dim f ∧ ∃ y ∈ ranks.flatten, LeafCell D dim (· ∈ ranks.flatten) y (number dim f) ∧ Neighbours (body x) (body y)) ∧
    ∀ f y, y ∈ ranks.flatten → Digits dim f → LeafCell D dim (· ∈ ranks.flatten) y (number dim f) → distance (body x).pos (body y).pos ≤ ((body x).h + (body y).h) / 2 →
      f ∈ neighbours Val a e found := by
  have hTD := treeData (D := D) P.hdim P.fullX (summarise (d := d) big) (fun x => .inl (body x))
  have hleaf : ∀ k x, Digits dim k → x ∈ ranks.flatten → LeafCell D dim (· ∈ ranks.flatten) x (number dim k) → Val k = .inl (body x) := by
    intro k x hk hx hl
    rw [hVal k ⟨hk, Or.inr ⟨x, hx, hl⟩⟩]
    exact hTD.leaf k x hk hx hl
  have hbe : bodyOf (Val e) = some (body x) := by rw [hleaf e x hde hx hl]; rfl
  have hsum : ∀ k, Digits dim k → InnerP D dim (· ∈ ranks.flatten) k → ∃ N, Val k = .inr (some N) ∧ Summarises body (inside D dim ranks.flatten k) N := by
    intro k hk hi
    obtain ⟨N, n1, n2, -⟩ := summary big P.hdim P.hD hne P.full body hmass D k (by omega) hk hi
    exact ⟨N, by rw [hVal k ⟨hk, Or.inl ((inner_path P.hdim P.fullX hk).mpr hi)⟩]; exact n1, n2⟩
  have hlp := (leaf_path P.hdim P.fullX hde hx).mp hl
  -- the cell of the group, if it is a node, holds `x`
  have hcur : ∀ n, nodeOf (Val a.cell) = some n → Summarises body (inside D dim ranks.flatten a.cell) n ∧ x ∈ inside D dim ranks.flatten a.cell := by
    intro n hn
    have hdc := hcell.1
    rcases hcell.2 with hi | ⟨z, hz, hlz⟩
    · obtain ⟨N, h1, h2⟩ := hsum _ hdc ((inner_path P.hdim P.fullX hdc).mp hi)
      rw [h1] at hn
      cases hn
      exact ⟨h2, mem_inside.mpr ⟨hx, (hbelow e he).trans hlp.2.1⟩⟩
    · rw [hleaf _ z hdc hz hlz] at hn
      cases hn
  constructor
  · intro f hfm
    unfold neighbours at hfm
    rw [List.mem_filter, decide_eq_true_eq] at hfm
    obtain ⟨hff, b, g, hb, hg, -, hw⟩ := hfm
    obtain ⟨hdf, ⟨y, hy, hly⟩, -⟩ := (hf f).mp hff
    refine ⟨hdf, y, hy, hly, ?_⟩
    rw [hbe] at hb; cases hb
    rw [hleaf f y hdf hy hly] at hg
    cases hg
    rw [Neighbours, ← dist_eq]
    exact (within_iff _ _ (le_max_of_le_left (hh x hx))).mp hw
  · intro f y hy hdf hly hd
    have hlyp := (leaf_path P.hdim P.fullX hdf hy).mp hly
    have hmax : distance (body x).pos (body y).pos ≤ max (body x).h (body y).h := by
      have h1 := le_max_left (body x).h (body y).h
      have h2 := le_max_right (body x).h (body y).h
      linarith
    unfold neighbours
    rw [List.mem_filter, decide_eq_true_eq]
    refine ⟨(hf f).mpr ⟨hdf, ⟨y, hy, hly⟩, ?_⟩, body x, body y, hbe, by rw [hleaf f y hdf hy hly]; rfl, ?_, (within_iff _ _ (le_max_of_le_left (hh x hx))).mpr hmax⟩
    · intro k hk hkf
      have hi : InnerP D dim (· ∈ ranks.flatten) k := by
        refine hlyp.2.2.2.up ?_
        cases f with
        | nil => exact absurd rfl hlyp.1
        | cons j f =>
          rcases List.suffix_cons_iff.mp hk with h1 | h1
          · exact absurd h1 hkf
          · exact h1
      obtain ⟨N, h1, h2⟩ := hsum k (digits_suffix hdf hk) hi
      have hyk : y ∈ inside D dim ranks.flatten k := mem_inside.mpr ⟨hy, hk.trans hlyp.2.1⟩
      unfold accepts
      rw [decide_eq_true_eq]
      refine ⟨N, by rw [h1]; rfl, fun n hn => ?_, e, he, body x, hbe, sphere_box_near h2 hyk htol (hh x hx) (hh y hy) hd⟩
      obtain ⟨h3, h4⟩ := hcur n hn
      exact box_box_near h2 h3 hyk h4 hd
    · intro n hn
      obtain ⟨h3, h4⟩ := hcur n hn
      exact leaf_near h3 h4 (hh y hy) hmax

/-- The calls of a process after a traversal of its groups. -/
theorem calls_served (hne : ranks.flatten ≠ []) {Val : List Nat → Data d} (hVal : ∀ k, IsCell D dim (· ∈ ranks.flatten) k → Val k = valOf D dim (· ∈ ranks.flatten) (summarise big) (fun x => .inl (body x)) k)
    {p : Nat} {gs : List Group} (hdiv : Divided D dim ranks p gs) {results : List (Group × List (List Nat))} (hperm : (results.map Prod.fst).Perm gs)
    (hres : ∀ r ∈ results, Reached (globalTree D dim (· ∈ ranks.flatten)) (accepts tol Val r.1) r.2) :
    Served D dim ranks body (fun a b => (a.h + b.h) / 2) p (calls Val results) := by
  have hfst : (calls Val results).map Prod.fst = (results.map Prod.fst).flatMap Group.ents := by
    unfold calls
    rw [List.map_flatMap, List.flatMap_map]
    congr 1
    funext r
    rw [List.map_map]
    exact List.map_id _
  have hp2 := hperm.flatMap_right Group.ents
  have hfound : ∀ r ∈ results, ∀ k, k ∈ r.2 ↔ Digits dim k ∧ (∃ x ∈ ranks.flatten, LeafCell D dim (· ∈ ranks.flatten) x (number dim k)) ∧ Open (accepts tol Val r.1) k := by
    intro r hr k
    rw [(hres r hr).2 k, ← and_assoc]
    refine and_congr_left fun _ => ?_
    show IsEnt _ _ ↔ _
    rw [isEnt_iff P.hdim P.fullX]
    exact and_congr_right fun hd => exists_congr fun x => and_congr_right fun hx => (leaf_path P.hdim P.fullX hd hx).symm
  have hcall : ∀ e nb, (e, nb) ∈ calls Val results → ∃ r ∈ results, e ∈ r.1.ents ∧ nb = neighbours Val r.1 e r.2 ∧ Digits dim e := by
    intro e nb h
    unfold calls at h
    obtain ⟨r, hr, h⟩ := List.mem_flatMap.mp h
    obtain ⟨e', he', h⟩ := List.mem_map.mp h
    cases h
    refine ⟨r, hr, he', rfl, ?_⟩
    exact ((hdiv.2.2 e).mp (List.mem_flatMap.mpr ⟨r.1, hperm.mem_iff.mp (List.mem_map_of_mem hr), he'⟩)).1
  refine ⟨?_, ?_, ?_, ?_, ?_⟩
  · rw [hfst]
    exact hp2.nodup_iff.mpr hdiv.2.1
  · intro e
    rw [hfst, hp2.mem_iff]
    exact hdiv.2.2 e
  · intro e nb h
    obtain ⟨r, hr, -, rfl, -⟩ := hcall e nb h
    exact (hres r hr).1.filter _
  · intro e nb x h hx hl
    obtain ⟨r, hr, he, rfl, hde⟩ := hcall e nb h
    have hc := hdiv.1 r.1 (hperm.mem_iff.mp (List.mem_map_of_mem hr))
    exact (group_served P hmass hh htol hne hVal hc.1 hc.2 (hfound r hr) he hde hx hl).1
  · intro e nb x h hx hl
    obtain ⟨r, hr, he, rfl, hde⟩ := hcall e nb h
    have hc := hdiv.1 r.1 (hperm.mem_iff.mp (List.mem_map_of_mem hr))
    intro f y hy hdf hly hd
    exact (group_served P hmass hh htol hne hVal hc.1 hc.2 (hfound r hr) he hde hx hl).2 f y hy hdf hly (by rw [dist_eq]; exact hd)

end

section
variable {m : Nat} (hdim : 0 < dim) (hD : 0 < D) (hm : ranks.length = 2 ^ m) (hne : ∀ l ∈ ranks, l ≠ []) (hfull : ∀ x ∈ ranks.flatten, FullKey D dim x)
  (hsorted : ranks.flatten.Pairwise (· < ·)) (big : ℝ) (body : Nat → Body d) (hmass : ∀ x ∈ ranks.flatten, 0 < (body x).mass) (hh : ∀ x ∈ ranks.flatten, 0 ≤ (body x).h)
  (tol : ℝ) (htol : 0 ≤ tol) (sent : Nat)
include hdim hD hm hne hfull hsorted hmass hh htol

/-- C13 on `2^m` processes, from the keys to the calls, for every order of messages. `build_tree` succeeds on all processes; in its tables every process selects groups that hold each of its particles
once; and the traversal for these groups does no undefined step, requests no key twice, can always be ended, makes a bounded number of steps, and once it has ended every process has called the user's
function exactly once for each of its particles, with a list without repetition of neighbours from all processes, holding at least those within the mean of the smoothing lengths. After the end any
number of traversals with groups divided in the same way can follow (last part). -/
theorem C13_distributed_partial : ∃ s Val groups, startup D dim (summarise big) (fun x => .inl (body x)) ranks = some s ∧ TreeData D dim (· ∈ ranks.flatten) (summarise big) (fun x => .inl (body x)) Val ∧
    (∀ p < 2 ^ m, ∃ me, s[p]? = some me ∧ groupsOf (2 ^ dim) me.tbl sent (D + 1) = some (groups p) ∧ Divided D dim ranks p (groups p)) ∧
    let Q := sph (2 ^ m) (2 ^ dim) (accepts tol Val) (D + 2)
    (∃ b, ∀ i s', RunN Q (begin_ s groups) i s' → i ≤ b) ∧
    ∀ s', Run Q (begin_ s groups) s' → (∀ r, Next Q s' r → r ≠ none) ∧ (∀ p < 2 ^ m, (s'.asked p).Nodup) ∧ (∃ s'', Run Q s' s'' ∧ ∀ p < 2 ^ m, exited (2 ^ m) s'' p) ∧
      ((∃ p < 2 ^ m, ¬ exited (2 ^ m) s' p) → ∃ s'', Next Q s' (some s'') ∧ s'' ≠ s') ∧
      ((∀ p < 2 ^ m, exited (2 ^ m) s' p) → (∀ p < 2 ^ m, Served D dim ranks body (fun a b => (a.h + b.h) / 2) p (calls Val (s'.results p))) ∧
        ∀ groups' : Nat → List Group, (∀ p < 2 ^ m, Divided D dim ranks p (groups' p)) →
          ∀ s'', Run Q (restart s' groups') s'' → (∀ r, Next Q s'' r → r ≠ none) ∧ (∃ s3, Run Q s'' s3 ∧ ∀ p < 2 ^ m, exited (2 ^ m) s3 p) ∧
            ((∀ p < 2 ^ m, exited (2 ^ m) s'' p) → ∀ p < 2 ^ m, Served D dim ranks body (fun a b => (a.h + b.h) / 2) p (calls Val (s''.results p)))) := by
  have P : Parts D dim ranks := ⟨hdim, hD, hne, hfull, hsorted⟩
  obtain ⟨s, h1, h2, h3⟩ := P.startup hm (summarise (d := d) big) (fun x => .inl (body x))
  have hr0 : ranks[0]? = some (ranks[0]'(by rw [hm]; exact Nat.pow_pos (by decide))) := List.getElem?_eq_getElem _
  have hfl := P.flatten_ne hr0
  have hT := global_tree hdim hD hfl hfull
  have hown : ∀ r < 2 ^ m, ∃ e, IsEnt (globalTree D dim (· ∈ ranks.flatten)) e ∧ holder D dim ranks e = r := fun r hr => P.hasOwn (by omega)
  have hlt : ∀ e, IsEnt (globalTree D dim (· ∈ ranks.flatten)) e → holder D dim ranks e < 2 ^ m := fun e he => by rw [← hm]; exact P.holder_lt he
  obtain ⟨Val, hVal⟩ : ∃ Val, Val = valOf D dim (· ∈ ranks.flatten) (summarise (d := d) big) (fun x => .inl (body x)) := ⟨_, rfl⟩
  rw [← hVal] at h3
  have hnode : ∀ k g, globalTree D dim (· ∈ ranks.flatten) k = some g → g.ent = false → ∃ n, nodeOf (Val k) = some n := by
    intro k g hg he
    obtain ⟨hd, hin, -⟩ := global_some hdim P.fullX hg
    obtain ⟨N, n1, -⟩ := summary big hdim hD hfl hfull body hmass D k (by omega) hd (hin he)
    exact ⟨N, by rw [hVal, n1]; rfl⟩
  -- the groups
  have hgroups : ∀ p < 2 ^ m, ∃ me gs, s[p]? = some me ∧ groupsOf (2 ^ dim) me.tbl sent (D + 1) = some gs ∧ Divided D dim ranks p gs := by
    intro p hp
    obtain ⟨me, h4, h5⟩ := h3 p hp
    have hgood : Good (globalTree D dim (· ∈ ranks.flatten)) (seen me.tbl) := by
      have hS := start_of (P := sph (2 ^ m) (2 ^ dim) (fun (_ : Unit) _ => true) (D + 2)) hT hown hlt h3 rfl (fun _ => [])
      have := hS.good p hp
      have e : ghostTables s p = seen me.tbl := by
        funext k
        rw [ghostTables, h4]
      rw [← e]
      exact this
    obtain ⟨gs, g1, g2⟩ := groups_spec hT h5 hgood hnode sent (D + 1) fun x hx => Nat.lt_succ_of_le (global_depth hdim hfull x hx)
    refine ⟨me, gs, h4, g1, fun a ha => ⟨?_, g2.below a ha⟩, g2.nodup, fun e => by rw [g2.mem e, hasLeaf_iff P]⟩
    have := g2.cell a ha
    unfold globalTree at this
    split_ifs at this with hc
    · exact hc
    · simp at this
  obtain ⟨groups, hg⟩ : ∃ groups : Nat → List Group, ∀ p < 2 ^ m, ∃ me, s[p]? = some me ∧ groupsOf (2 ^ dim) me.tbl sent (D + 1) = some (groups p) ∧ Divided D dim ranks p (groups p) := by
    classical
    refine ⟨fun p => if hp : p < 2 ^ m then (hgroups p hp).choose_spec.choose else [], fun p hp => ?_⟩
    dsimp only
    rw [dif_pos hp]
    exact ⟨_, (hgroups p hp).choose_spec.choose_spec⟩
  refine ⟨s, Val, groups, h1, by rw [hVal]; exact treeData hdim P.fullX _ _, hg, ?_⟩
  have hf : ∀ k ∈ cellsOf D dim ranks.flatten, k.length + 2 ≤ D + 2 := fun k hk => Nat.add_le_add_right (global_depth hdim hfull k hk) 2
  have hS : Start (sph (2 ^ m) (2 ^ dim) (accepts tol Val) (D + 2)) _ (begin_ s groups) := start_of hT hown hlt h3 rfl groups
  have hserved : ∀ {s0 s' : State Group (Group × List Key)}, Start (sph (2 ^ m) (2 ^ dim) (accepts tol Val) (D + 2)) (globalTree D dim (· ∈ ranks.flatten)) s0 →
      Run (sph (2 ^ m) (2 ^ dim) (accepts tol Val) (D + 2)) s0 s' → (∀ p < 2 ^ m, Divided D dim ranks p (s0.tasks p)) → (∀ p < 2 ^ m, exited (2 ^ m) s' p) →
      ∀ p < 2 ^ m, Served D dim ranks body (fun a b => (a.h + b.h) / 2) p (calls Val (s'.results p)) := by
    intro s0 s' hs0 hrun hdiv hend p hp
    obtain ⟨-, -, -, g2, g3⟩ := C18_end hT hf hs0 hrun hend p hp
    exact calls_served P hmass hh htol hfl (fun k _ => congrFun hVal k) (hdiv p hp) g2 g3
  refine ⟨⟨_, fun i s' h => C18_bounded hT hf hS h⟩, fun s' h => ⟨fun r hr => C18_safe hT hf hS h hr, fun p hp => C18_once hT hf hS h hp, C18_can_end hT hf hS h, C18_progress hT hf hS h, ?_⟩⟩
  intro hend
  refine ⟨hserved hS h (fun p hp => (hg p hp).choose_spec.2.2) hend, fun groups' hg' s'' h' => ?_⟩
  have hS' : Start (sph (2 ^ m) (2 ^ dim) (accepts tol Val) (D + 2)) _ (restart s' groups') := C18_again rfl hT hf hS h hend groups'
  exact ⟨fun r hr => C18_safe hT hf hS' h' hr, C18_can_end hT hf hS' h', hserved hS' h' hg'⟩

end

/-- With a uniform smoothing length the lists of `C13_distributed_partial` are exactly the neighbours among the particles of all processes: the property in full for `2^m` processes. -/
theorem C13_distributed_uniform {body : Nat → Body d} (h : ℝ) (hu : ∀ x ∈ ranks.flatten, (body x).h = h) {p : Nat} {cs : List (List Nat × List (List Nat))}
    (hs : Served D dim ranks body (fun a b => (a.h + b.h) / 2) p cs) : Served D dim ranks body (fun a b => max a.h b.h) p cs := by
  refine ⟨hs.once, hs.all, hs.nodup, hs.sound, fun e nb x hc hx hl f y hy hdf hly hd => hs.complete e nb x hc hx hl f y hy hdf hly ?_⟩
  rw [hu x hx, hu y hy, max_self] at hd
  rw [hu x hx, hu y hy]
  linarith

/-! ### A case: the particles of `exRanks` on two processes; the second and the third are neighbours held by different processes. -/

/-- Mass and smoothing length one, positions on a square of side three. -/
noncomputable def exBody : Nat → Body 2
  | 0b1000000 => ⟨![0, 0], 1, 1⟩
  | 0b1110100 => ⟨![2, 2], 1, 1⟩
  | 0b1110111 => ⟨![2, 5 / 2], 1, 1⟩
  | _ => ⟨![3, 3], 1, 1⟩

example : (∀ x ∈ exRanks.flatten, 0 < (exBody x).mass ∧ 0 ≤ (exBody x).h) ∧ (0b1110100 ∈ exRanks[0]!) ∧ (0b1110111 ∈ exRanks[1]!) ∧
    √(∑ i, ((exBody 0b1110100).pos i - (exBody 0b1110111).pos i) ^ 2) ≤ ((exBody 0b1110100).h + (exBody 0b1110111).h) / 2 := by
  refine ⟨?_, by decide, by decide, ?_⟩
  · intro x hx
    simp [exRanks] at hx
    rcases hx with rfl | rfl | rfl | rfl <;> norm_num [exBody]
  · simp only [Fin.sum_univ_two]
    rw [Real.sqrt_le_left (by norm_num [exBody])]
    norm_num [exBody]

end FleCSPH.SphRun
