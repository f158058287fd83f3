import Verif.Lemmas.RoundingKey
import Verif.Spec.ServedRounded
import Verif.Props.C13dist
import Verif.Props.C02
import Mathlib.Data.Int.Log
import Mathlib.Algebra.Order.Round
/-!
C80: the neighbour search in floating-point arithmetic.

`Rounding` (Model/Rounding.lean) is the usual model: the result of every operation has a relative error of at most `u`, 2^-53 for `double`. Missing for the full property: overflow and underflow, and
what is missing in C13 (neighbours further away than the mean of the smoothing lengths, numbers of processes which are not a power of two).
-/
namespace FleCSPH.Rounded
open FleCSPH.Spec FleCSPH.Tree FleCSPH.Ghosts FleCSPH.Startup FleCSPH.Cofm FleCSPH.Geometry FleCSPH.Traversal FleCSPH.Key
open FleCSPH.SphRun (Group Divided hasLeaf_iff dist_eq groupsOf groups_spec seen)

variable {d D dim : Nat} {ranks : List (List Nat)} {R : Rounding}

/-- Two particles at this distance or less must be listed: the mean of the smoothing lengths less `100 D u X`, where `X` bounds coordinates and smoothing lengths and `D` the depth of the tree. -/
noncomputable def lower (R : Rounding) (D : Nat) (X : ℝ) (a b : Body d) : ℝ := (a.h + b.h) / 2 - 100 * D * R.u * X

/-- Particles further apart than this must not be listed. -/
noncomputable def upper (R : Rounding) (a b : Body d) : ℝ := max a.h b.h / (1 - R.u) ^ 4

section
variable {big tol X : ℝ} {body : Nat → Body d} (P : Parts D dim ranks) (hmass : ∀ x ∈ ranks.flatten, 0 < (body x).mass) (hb : ∀ x ∈ ranks.flatten, Bounded X (body x)) (htol : 0 ≤ tol)
  (hd3 : d ≤ 3) (hdim3 : dim ≤ 3) (huD : 68 * D * R.u ≤ 1)
include P hmass hb htol hd3 hdim3 huD

omit htol in
private theorem val_node (hne : ranks.flatten ≠ []) {k : List Nat} (hk : Digits dim k) (hi : InnerP D dim (· ∈ ranks.flatten) k) :
    ∃ N, valOf D dim (· ∈ ranks.flatten) (summarise R big) (fun x => .inl (body x)) k = .inr (some N) ∧ Sums R X body D (inside D dim ranks.flatten k) N := by
  have hX : 0 ≤ X := by
    obtain ⟨x, hx⟩ := List.exists_mem_of_ne_nil _ hne
    exact (hb x hx).1.trans (hb x hx).2.1
  exact sums ((small P.hD huD).trans_lt (by norm_num)) hd3 hdim3 big P.hdim P.hD hne P.full body hX (fun x hx => ⟨hmass x hx, (hb x hx).1, (hb x hx).2.2⟩) hk hi

open Classical in
/-- The lists of one group. -/
private theorem group_served (hne : ranks.flatten ≠ []) {Val : List Nat → Data d} (hVal : ∀ k, IsCell D dim (· ∈ ranks.flatten) k → Val k = valOf D dim (· ∈ ranks.flatten) (summarise R big) (fun x => .inl (body x)) k)
    {a : Group} (hcell : IsCell D dim (· ∈ ranks.flatten) a.cell) (hbelow : ∀ e ∈ a.ents, a.cell <:+ e) {found : List (List Nat)}
    (hf : ∀ k, k ∈ found ↔ Digits dim k ∧ (∃ x ∈ ranks.flatten, LeafCell D dim (· ∈ ranks.flatten) x (number dim k)) ∧ Open (accepts R tol Val a) k)
    {e : List Nat} (he : e ∈ a.ents) (hde : Digits dim e) {x : Nat} (hx : x ∈ ranks.flatten) (hl : LeafCell D dim (· ∈ ranks.flatten) x (number dim e)) :
    (∀ f ∈ neighbours R Val a e found, Digits dim f ∧ ∃ y ∈ ranks.flatten, LeafCell D dim (· ∈ ranks.flatten) y (number dim f) ∧ Geometry.distance (body x).pos (body y).pos ≤ upper R (body x) (body y)) ∧
    ∀ f y, y ∈ ranks.flatten → Digits dim f → LeafCell D dim (· ∈ ranks.flatten) y (number dim f) → Geometry.distance (body x).pos (body y).pos ≤ lower R D X (body x) (body y) →
      f ∈ neighbours R Val a e found := by
  have hu1 : R.u < 1 := (small P.hD huD).trans_lt (by norm_num)
  have hTD := treeData (D := D) P.hdim P.fullX (summarise (d := d) R big) (fun x => .inl (body x))
  have hleaf : ∀ k x, Digits dim k → x ∈ ranks.flatten → LeafCell D dim (· ∈ ranks.flatten) x (number dim k) → Val k = .inl (body x) := by
    intro k x hk hx hl
    rw [hVal k ⟨hk, Or.inr ⟨x, hx, hl⟩⟩]
    exact hTD.leaf k x hk hx hl
  have hbe : bodyOf (Val e) = some (body x) := by rw [hleaf e x hde hx hl]; rfl
  have hsum : ∀ k, Digits dim k → InnerP D dim (· ∈ ranks.flatten) k → ∃ N, Val k = .inr (some N) ∧ Sums R X body D (inside D dim ranks.flatten k) N := by
    intro k hk hi
    obtain ⟨N, n1, n2⟩ := val_node (big := big) P hmass hb hd3 hdim3 huD hne hk hi
    exact ⟨N, by rw [hVal k ⟨hk, Or.inl ((inner_path P.hdim P.fullX hk).mpr hi)⟩]; exact n1, n2⟩
  have hlp := (leaf_path P.hdim P.fullX hde hx).mp hl
  have hcur : ∀ n, nodeOf (Val a.cell) = some n → Sums R X body D (inside D dim ranks.flatten a.cell) n ∧ x ∈ inside D dim ranks.flatten a.cell := by
    intro n hn
    have hdc := hcell.1
    rcases hcell.2 with hi | ⟨z, hz, hlz⟩
    · obtain ⟨N, h1, h2⟩ := hsum _ hdc ((inner_path P.hdim P.fullX hdc).mp hi)
      rw [h1] at hn
      cases hn
      exact ⟨h2, mem_inside.mpr ⟨hx, (hbelow e he).trans hlp.2.1⟩⟩
    · rw [hleaf _ z hdc hz hlz] at hn
      cases hn
  constructor
  · intro f hfm
    unfold neighbours at hfm
    rw [List.mem_filter, decide_eq_true_eq] at hfm
    obtain ⟨hff, b, g, hbb, hg, -, hw⟩ := hfm
    obtain ⟨hdf, ⟨y, hy, hly⟩, -⟩ := (hf f).mp hff
    refine ⟨hdf, y, hy, hly, ?_⟩
    rw [hbe] at hbb; cases hbb
    rw [hleaf f y hdf hy hly] at hg
    cases hg
    rw [upper, le_div_iff₀ (pow_pos (by linarith) 4), mul_comm]
    exact of_within hu1 hd3 (le_max_of_le_left (hb x hx).1) hw
  · intro f y hy hdf hly hd
    unfold lower at hd
    have hlyp := (leaf_path P.hdim P.fullX hdf hy).mp hly
    unfold neighbours
    rw [List.mem_filter, decide_eq_true_eq]
    refine ⟨(hf f).mpr ⟨hdf, ⟨y, hy, hly⟩, ?_⟩, body x, body y, hbe, by rw [hleaf f y hdf hy hly]; rfl, ?_, pair_near P.hD huD hd3 (hb x hx) (hb y hy) hd⟩
    · intro k hk hkf
      have hi : InnerP D dim (· ∈ ranks.flatten) k := by
        refine hlyp.2.2.2.up ?_
        cases f with
        | nil => exact absurd rfl hlyp.1
        | cons j f =>
          rcases List.suffix_cons_iff.mp hk with h1 | h1
          · exact absurd h1 hkf
          · exact h1
      obtain ⟨N, h1, h2⟩ := hsum k (digits_suffix hdf hk) hi
      have hyk : y ∈ inside D dim ranks.flatten k := mem_inside.mpr ⟨hy, hk.trans hlyp.2.1⟩
      unfold accepts
      rw [decide_eq_true_eq]
      refine ⟨N, by rw [h1]; rfl, fun n hn => ?_, e, he, body x, hbe, sphere_box_near P.hD huD hd3 (hb x hx) (hb y hy) hd htol h2 hyk⟩
      obtain ⟨h3, h4⟩ := hcur n hn
      exact box_box_near P.hD huD (hb x hx) (hb y hy) hd h2 h3 hyk h4
    · intro n hn
      obtain ⟨h3, h4⟩ := hcur n hn
      exact leaf_near P.hD huD hd3 (hb x hx) (hb y hy) hd h3 h4

private theorem calls_served (hne : ranks.flatten ≠ []) {Val : List Nat → Data d} (hVal : ∀ k, IsCell D dim (· ∈ ranks.flatten) k → Val k = valOf D dim (· ∈ ranks.flatten) (summarise R big) (fun x => .inl (body x)) k)
    {p : Nat} {gs : List Group} (hdiv : Divided D dim ranks p gs) {results : List (Group × List (List Nat))} (hperm : (results.map Prod.fst).Perm gs)
    (hres : ∀ r ∈ results, Reached (globalTree D dim (· ∈ ranks.flatten)) (accepts R tol Val r.1) r.2) :
    ServedBetween D dim ranks body (lower R D X) (upper R) p (calls R Val results) := by
  have hfst : (calls R Val results).map Prod.fst = (results.map Prod.fst).flatMap Group.ents := by
    unfold calls
    rw [List.map_flatMap, List.flatMap_map]
    congr 1
    funext r
    rw [List.map_map]
    exact List.map_id _
  have hp2 := hperm.flatMap_right Group.ents
  have hfound : ∀ r ∈ results, ∀ k, k ∈ r.2 ↔ Digits dim k ∧ (∃ x ∈ ranks.flatten, LeafCell D dim (· ∈ ranks.flatten) x (number dim k)) ∧ Open (accepts R tol Val r.1) k := by
    intro r hr k
    rw [(hres r hr).2 k, ← and_assoc]
    refine and_congr_left fun _ => ?_
    show IsEnt _ _ ↔ _
    rw [isEnt_iff P.hdim P.fullX]
    exact and_congr_right fun hd => exists_congr fun x => and_congr_right fun hx => (leaf_path P.hdim P.fullX hd hx).symm
  have hcall : ∀ e nb, (e, nb) ∈ calls R Val results → ∃ r ∈ results, e ∈ r.1.ents ∧ nb = neighbours R Val r.1 e r.2 ∧ Digits dim e := by
    intro e nb h
    unfold calls at h
    obtain ⟨r, hr, h⟩ := List.mem_flatMap.mp h
    obtain ⟨e', he', h⟩ := List.mem_map.mp h
    cases h
    refine ⟨r, hr, he', rfl, ?_⟩
    exact ((hdiv.2.2 e).mp (List.mem_flatMap.mpr ⟨r.1, hperm.mem_iff.mp (List.mem_map_of_mem hr), he'⟩)).1
  have hg := fun e nb h => hcall e nb h
  refine ⟨?_, ?_, ?_, ?_, ?_⟩
  · rw [hfst]
    exact hp2.nodup_iff.mpr hdiv.2.1
  · intro e
    rw [hfst, hp2.mem_iff]
    exact hdiv.2.2 e
  · intro e nb h
    obtain ⟨r, hr, -, rfl, -⟩ := hcall e nb h
    exact (hres r hr).1.filter _
  · intro e nb x h hx hl f hf
    obtain ⟨r, hr, he, rfl, hde⟩ := hcall e nb h
    have hc := hdiv.1 r.1 (hperm.mem_iff.mp (List.mem_map_of_mem hr))
    obtain ⟨h1, y, h2, h3, h4⟩ := (group_served P hmass hb htol hd3 hdim3 huD hne hVal hc.1 hc.2 (hfound r hr) he hde hx hl).1 f hf
    exact ⟨h1, y, h2, h3, by rwa [dist_eq] at h4⟩
  · intro e nb x h hx hl
    obtain ⟨r, hr, he, rfl, hde⟩ := hcall e nb h
    have hc := hdiv.1 r.1 (hperm.mem_iff.mp (List.mem_map_of_mem hr))
    intro f y hy hdf hly hd
    exact (group_served P hmass hb htol hd3 hdim3 huD hne hVal hc.1 hc.2 (hfound r hr) he hde hx hl).2 f y hy hdf hly (by rw [dist_eq]; exact hd)

end

section
variable {m : Nat} (hdim : 0 < dim) (hdim3 : dim ≤ 3) (hd3 : d ≤ 3) (hD : 0 < D) (hm : ranks.length = 2 ^ m) (hne : ∀ l ∈ ranks, l ≠ []) (hfull : ∀ x ∈ ranks.flatten, FullKey D dim x)
  (hsorted : ranks.flatten.Pairwise (· < ·)) (huD : 68 * D * R.u ≤ 1) (big X : ℝ) (body : Nat → Body d) (hmass : ∀ x ∈ ranks.flatten, 0 < (body x).mass) (hb : ∀ x ∈ ranks.flatten, Bounded X (body x))
  (tol : ℝ) (htol : 0 ≤ tol) (sent : Nat)
include hdim hdim3 hd3 hD hm hne hfull hsorted huD hmass hb htol

/-- The neighbour search on `2^m` processes with every operation rounded, from the keys to the calls, for every order of messages. `build_tree` succeeds on all processes, also with the rounded
summaries; the search never does an undefined step, can always be ended, and once it has ended every process has called the user's function exactly once for each of its particles, with a list without
repetition of particles of all processes which holds every particle within `lower` and none beyond `upper`. -/
theorem C80_search_partial : ∃ s Val groups, startup D dim (summarise R big) (fun x => .inl (body x)) ranks = some s ∧ TreeData D dim (· ∈ ranks.flatten) (summarise R big) (fun x => .inl (body x)) Val ∧
    (∀ p < 2 ^ m, ∃ me, s[p]? = some me ∧ groupsOf (2 ^ dim) me.tbl sent (D + 1) = some (groups p) ∧ Divided D dim ranks p (groups p)) ∧
    let Q := sph (2 ^ m) (2 ^ dim) (accepts R tol Val) (D + 2)
    (∃ b, ∀ i s', RunN Q (begin_ s groups) i s' → i ≤ b) ∧
    ∀ s', Run Q (begin_ s groups) s' → (∀ r, Next Q s' r → r ≠ none) ∧ (∃ s'', Run Q s' s'' ∧ ∀ p < 2 ^ m, exited (2 ^ m) s'' p) ∧
      ((∀ p < 2 ^ m, exited (2 ^ m) s' p) → ∀ p < 2 ^ m, ServedBetween D dim ranks body (lower R D X) (upper R) p (calls R Val (s'.results p))) := by
  have P : Parts D dim ranks := ⟨hdim, hD, hne, hfull, hsorted⟩
  obtain ⟨s, h1, h2, h3⟩ := P.startup hm (summarise (d := d) R big) (fun x => .inl (body x))
  have hr0 : ranks[0]? = some (ranks[0]'(by rw [hm]; exact Nat.pow_pos (by decide))) := List.getElem?_eq_getElem _
  have hfl := P.flatten_ne hr0
  have hT := global_tree hdim hD hfl hfull
  have hown : ∀ r < 2 ^ m, ∃ e, IsEnt (globalTree D dim (· ∈ ranks.flatten)) e ∧ holder D dim ranks e = r := fun r hr => P.hasOwn (by omega)
  have hlt : ∀ e, IsEnt (globalTree D dim (· ∈ ranks.flatten)) e → holder D dim ranks e < 2 ^ m := fun e he => by rw [← hm]; exact P.holder_lt he
  obtain ⟨Val, hVal⟩ : ∃ Val, Val = valOf D dim (· ∈ ranks.flatten) (summarise (d := d) R big) (fun x => .inl (body x)) := ⟨_, rfl⟩
  rw [← hVal] at h3
  have hnode : ∀ k g, globalTree D dim (· ∈ ranks.flatten) k = some g → g.ent = false → ∃ n, nodeOf (Val k) = some n := by
    intro k g hg he
    obtain ⟨hd, hin, -⟩ := global_some hdim P.fullX hg
    obtain ⟨N, n1, -⟩ := val_node (big := big) P hmass hb hd3 hdim3 huD hfl hd (hin he)
    exact ⟨N, by rw [hVal, n1]; rfl⟩
  have hgroups : ∀ p < 2 ^ m, ∃ me gs, s[p]? = some me ∧ groupsOf (2 ^ dim) me.tbl sent (D + 1) = some gs ∧ Divided D dim ranks p gs := by
    intro p hp
    obtain ⟨me, h4, h5⟩ := h3 p hp
    have hgood : Good (globalTree D dim (· ∈ ranks.flatten)) (seen me.tbl) := by
      have hS := start_of (P := sph (2 ^ m) (2 ^ dim) (fun (_ : Unit) _ => true) (D + 2)) hT hown hlt h3 rfl (fun _ => [])
      have := hS.good p hp
      have e : ghostTables s p = seen me.tbl := by
        funext k
        rw [ghostTables, h4]
      rw [← e]
      exact this
    obtain ⟨gs, g1, g2⟩ := groups_spec hT h5 hgood hnode sent (D + 1) fun x hx => Nat.lt_succ_of_le (global_depth hdim hfull x hx)
    refine ⟨me, gs, h4, g1, fun a ha => ⟨?_, g2.below a ha⟩, g2.nodup, fun e => by rw [g2.mem e, hasLeaf_iff P]⟩
    have := g2.cell a ha
    unfold globalTree at this
    split_ifs at this with hc
    · exact hc
    · simp at this
  obtain ⟨groups, hg⟩ : ∃ groups : Nat → List Group, ∀ p < 2 ^ m, ∃ me, s[p]? = some me ∧ groupsOf (2 ^ dim) me.tbl sent (D + 1) = some (groups p) ∧ Divided D dim ranks p (groups p) := by
    classical
    refine ⟨fun p => if hp : p < 2 ^ m then (hgroups p hp).choose_spec.choose else [], fun p hp => ?_⟩
    dsimp only
    rw [dif_pos hp]
    exact ⟨_, (hgroups p hp).choose_spec.choose_spec⟩
  refine ⟨s, Val, groups, h1, by rw [hVal]; exact treeData hdim P.fullX _ _, hg, ?_⟩
  have hf : ∀ k ∈ cellsOf D dim ranks.flatten, k.length + 2 ≤ D + 2 := fun k hk => Nat.add_le_add_right (global_depth hdim hfull k hk) 2
  have hS : Start (sph (2 ^ m) (2 ^ dim) (accepts R tol Val) (D + 2)) _ (begin_ s groups) := start_of hT hown hlt h3 rfl groups
  refine ⟨⟨_, fun i s' h => C18_bounded hT hf hS h⟩, fun s' h => ⟨fun r hr => C18_safe hT hf hS h hr, C18_can_end hT hf hS h, fun hend p hp => ?_⟩⟩
  obtain ⟨-, -, -, g2, g3⟩ := C18_end hT hf hS h hend p hp
  exact calls_served P hmass hb htol hd3 hdim3 huD hfl (fun k _ => congrFun hVal k) (hg p hp).choose_spec.2.2 g2 g3

end

/-- With one smoothing length `h` for all particles the lists of `C80_search_partial` are right for every pair whose distance differs from `h` by more than `100 D u X`. -/
theorem C80_uniform {X h : ℝ} (hD : 0 < D) (huD : 68 * D * R.u ≤ 1) {body : Nat → Body d} (hu : ∀ x ∈ ranks.flatten, (body x).h = h) (hX : 0 ≤ h ∧ h ≤ X) {p : Nat} {cs : List (List Nat × List (List Nat))}
    (hs : ServedBetween D dim ranks body (lower R D X) (upper R) p cs) {e f : List Nat} {nb : List (List Nat)} {x y : Nat} (hc : (e, nb) ∈ cs) (hx : x ∈ ranks.flatten) (hy : y ∈ ranks.flatten)
    (hex : LeafCell D dim (· ∈ ranks.flatten) x (number dim e)) (hdf : Digits dim f) (hfy : LeafCell D dim (· ∈ ranks.flatten) y (number dim f)) (hfull : ∀ z ∈ ranks.flatten, FullKey D dim z) (hdim : 0 < dim)
    (hfar : 100 * D * R.u * X < |√(∑ i, ((body x).pos i - (body y).pos i) ^ 2) - h|) : f ∈ nb ↔ √(∑ i, ((body x).pos i - (body y).pos i) ^ 2) ≤ h := by
  have hu0 := R.nonneg
  have hu68 := small hD huD
  have hD1 : (1 : ℝ) ≤ D := by exact_mod_cast hD
  have hX0 := hX.1.trans hX.2
  have s0 : 0 ≤ R.u * X := mul_nonneg hu0 hX0
  have s1 : R.u * X ≤ D * R.u * X := by rw [mul_assoc]; exact le_mul_of_one_le_left s0 hD1
  constructor
  · intro hf
    obtain ⟨-, z, hz, hlz, hd⟩ := hs.sound e nb x hc hx hex f hf
    have hzy : z = y := by
      have h1 := (leaf_path hdim hfull hdf hz).mp hlz
      have h2 := (leaf_path hdim hfull hdf hy).mp hfy
      exact h2.2.2.1 z hz h1.2.1
    rw [hzy] at hd
    by_contra hn
    rw [not_le] at hn
    rw [abs_of_pos (by linarith)] at hfar
    rw [upper, hu x hx, hu y hy, max_self, le_div_iff₀ (pow_pos (by linarith) 4)] at hd
    have hv := bernoulli (R := R) (by linarith) 4
    push_cast at hv
    have h3 := mul_le_mul_of_nonneg_left hv (Real.sqrt_nonneg (∑ i, ((body x).pos i - (body y).pos i) ^ 2))
    have h4 : (1 - 4 * R.u) * (h + 100 * D * R.u * X) ≤ (1 - 4 * R.u) * √(∑ i, ((body x).pos i - (body y).pos i) ^ 2) := mul_le_mul_of_nonneg_left (by linarith) (by linarith)
    have h5 : R.u * h ≤ R.u * X := mul_le_mul_of_nonneg_left hX.2 hu0
    have h6 : R.u * (D * R.u * X) ≤ 1 / 68 * (D * R.u * X) := mul_le_mul_of_nonneg_right hu68 (by linarith)
    have h7 : √(∑ i, ((body x).pos i - (body y).pos i) ^ 2) ≤ h + 100 * D * R.u * X := by nlinarith
    linarith
  · intro hle
    rw [abs_of_nonpos (by linarith)] at hfar
    refine hs.complete e nb x hc hx hex f y hy hdf hfy ?_
    rw [lower, hu x hx, hu y hy]
    linarith

/-- The key of a point of the box is always defined, is a full key, and is the path to a grid cell; when the roundoff is small against the cells, the point lies in this cell or in the next one along each axis. -/
theorem C80_key (bits dim : Nat) (hb : 0 < bits) (hdim : 0 < dim) (hu : R.u ≤ 1 / 16) (lo hi p : Nat → ℝ) (hp : InBox dim lo hi p) :
    ∃ c : Nat → Nat, (∀ j < dim, c j < 2 ^ maxDepth bits dim) ∧ encode R bits dim lo hi p = some (pathKey dim (zPath dim (maxDepth bits dim) c)) ∧
      FullKey (maxDepth bits dim) dim (pathKey dim (zPath dim (maxDepth bits dim) c)) ∧
      (8 * R.u * 2 ^ maxDepth bits dim ≤ 1 → ∀ j < dim, lo j + (hi j - lo j) * (c j - 1) / 2 ^ maxDepth bits dim ≤ p j ∧ p j ≤ lo j + (hi j - lo j) * (c j + 2) / 2 ^ maxDepth bits dim) := by
  have h := fun j (hj : j < dim) => cellCoord_spec (R := R) hb hdim hu (hp j hj).1 (hp j hj).2.1 (hp j hj).2.2
  refine ⟨fun j => (cellCoord R bits dim (lo j) (hi j) (p j)).getD 0, ?_, ?_, ?_, ?_⟩
  · intro j hj
    obtain ⟨c, h1, h2, -⟩ := h j hj
    simpa only [h1, Option.getD_some] using h2
  · rw [encode, if_pos fun j hj => by obtain ⟨c, h1, -⟩ := h j hj; rw [h1]; rfl, interleave_full hb hdim]
  · have := pathKey_bounds (zPath_isPath dim (maxDepth bits dim) fun j => (cellCoord R bits dim (lo j) (hi j) (p j)).getD 0)
    rw [zPath_length] at this
    rw [FullKey, Nat.div_eq_iff (Nat.pow_pos (by decide))]
    have h2 := Nat.pow_pos (n := maxDepth bits dim * dim) (show 0 < 2 by decide)
    omega
  · intro h8 j hj
    obtain ⟨c, h1, -, h3⟩ := h j hj
    simpa only [h1, Option.getD_some] using h3 h8

/-- Points of the box more than three cells apart along an axis have different keys. -/
theorem C80_key_distinct (bits dim : Nat) (hb : 0 < bits) (hdim : 0 < dim) (hu : 8 * R.u * 2 ^ maxDepth bits dim ≤ 1) (hu' : R.u ≤ 1 / 16) (lo hi p q : Nat → ℝ) (hp : InBox dim lo hi p) (hq : InBox dim lo hi q)
    {j : Nat} (hj : j < dim) (hfar : 3 * (hi j - lo j) / 2 ^ maxDepth bits dim < |p j - q j|) : encode R bits dim lo hi p ≠ encode R bits dim lo hi q := by
  obtain ⟨a, a1, a2, -, a4⟩ := C80_key bits dim hb hdim hu' lo hi p hp
  obtain ⟨b, b1, b2, -, b4⟩ := C80_key bits dim hb hdim hu' lo hi q hq
  intro he
  rw [a2, b2] at he
  have h1 := pathKey_inj hdim (zPath_isPath _ _ _) (zPath_isPath _ _ _) (Option.some.inj he)
  have h2 := zPath_inj a1 b1 h1 j hj
  obtain ⟨a5, a6⟩ := a4 hu j hj
  obtain ⟨b5, b6⟩ := b4 hu j hj
  rw [← h2] at b5 b6
  have hP : (0 : ℝ) < 2 ^ maxDepth bits dim := by positivity
  have e : (hi j - lo j) * (a j + 2) / 2 ^ maxDepth bits dim = (hi j - lo j) * (a j - 1) / 2 ^ maxDepth bits dim + 3 * (hi j - lo j) / 2 ^ maxDepth bits dim := by
    rw [← add_div]; congr 1; ring
  rw [e] at a6 b6
  have : |p j - q j| ≤ 3 * (hi j - lo j) / 2 ^ maxDepth bits dim := by
    rw [abs_le]; constructor <;> linarith
  linarith

/-! ### Rounding to nearest is such a rounding -/

/-- `x` rounded to a number with `p` binary digits. -/
noncomputable def toNearest (p : Nat) (x : ℝ) : ℝ := round (x * 2 ^ ((p : ℤ) - 1 - Int.log 2 |x|)) * 2 ^ (Int.log 2 |x| + 1 - p)

/-- The arithmetic of `double` has `p = 53`. -/
noncomputable def nearest (p : Nat) : Rounding where
  fl := toNearest p
  u := 2 ^ (-p : ℤ)
  nonneg := by positivity
  err := by
    intro x
    unfold toNearest
    obtain ⟨e, he⟩ : ∃ e, e = Int.log 2 |x| := ⟨_, rfl⟩
    rw [← he]
    rcases eq_or_ne x 0 with rfl | hx
    · simp
    have h1 : (2 : ℝ) ^ e ≤ |x| := by
      rw [he]
      have := Int.zpow_log_le_self (b := 2) (by norm_num) (abs_pos.mpr hx)
      exact_mod_cast this
    have h2 : (2 : ℝ) ^ ((p : ℤ) - 1 - e) * 2 ^ (e + 1 - (p : ℤ)) = 1 := by
      rw [← zpow_add₀ (by norm_num)]
      rw [show (p : ℤ) - 1 - e + (e + 1 - p) = 0 by ring, zpow_zero]
    have h3 : (0 : ℝ) < 2 ^ (e + 1 - (p : ℤ)) := by positivity
    have h4 := abs_sub_round (x * 2 ^ ((p : ℤ) - 1 - e))
    calc |(round (x * 2 ^ ((p : ℤ) - 1 - e)) : ℝ) * 2 ^ (e + 1 - (p : ℤ)) - x| = |x * 2 ^ ((p : ℤ) - 1 - e) - round (x * 2 ^ ((p : ℤ) - 1 - e))| * 2 ^ (e + 1 - (p : ℤ)) := by
          rw [← abs_of_pos h3, ← abs_mul, abs_of_pos h3, sub_mul, mul_assoc, h2, mul_one, abs_sub_comm]
      _ ≤ 1 / 2 * 2 ^ (e + 1 - (p : ℤ)) := mul_le_mul_of_nonneg_right h4 h3.le
      _ = 2 ^ (-p : ℤ) * 2 ^ e := by
        rw [show e + 1 - (p : ℤ) = 1 + (-p + e) by ring, zpow_add₀ (by norm_num), zpow_add₀ (by norm_num), zpow_one]
        ring
      _ ≤ 2 ^ (-p : ℤ) * |x| := mul_le_mul_of_nonneg_left h1 (by positivity)

/-- It is not the identity: five needs three digits. -/
example : (nearest 2).fl 5 = 6 := by
  have hl : Int.log 2 |(5 : ℝ)| = 2 := by
    rw [abs_of_pos (by norm_num), show (5 : ℝ) = ((5 : ℕ) : ℝ) by norm_num, Int.log_natCast]
    rfl
  show toNearest 2 5 = 6
  unfold toNearest
  rw [hl, show (5 : ℝ) * 2 ^ (((2 : ℕ) : ℤ) - 1 - 2) = 5 / 2 by norm_num, round_eq, show (5 / 2 : ℝ) + 1 / 2 = 3 by norm_num]
  norm_num

/-! ### A case: the particles of `exRanks` in `double` -/

example : 68 * ((3 : Nat) : ℝ) * (nearest 53).u ≤ 1 ∧ (∀ x ∈ exRanks.flatten, 0 < (SphRun.exBody x).mass) ∧ (∀ x ∈ exRanks.flatten, Bounded 3 (SphRun.exBody x)) ∧
    √(∑ i, ((SphRun.exBody 0b1110100).pos i - (SphRun.exBody 0b1110111).pos i) ^ 2) ≤ lower (nearest 53) 3 3 (SphRun.exBody 0b1110100) (SphRun.exBody 0b1110111) := by
  have hu : (nearest 53).u = 2 ^ (-53 : ℤ) := rfl
  refine ⟨by rw [hu]; norm_num, ?_, ?_, ?_⟩
  · intro x hx
    simp [exRanks] at hx
    rcases hx with rfl | rfl | rfl | rfl <;> norm_num [SphRun.exBody]
  · intro x hx
    simp [exRanks] at hx
    rcases hx with rfl | rfl | rfl | rfl <;> refine ⟨by norm_num [SphRun.exBody], by norm_num [SphRun.exBody], fun i => ?_⟩ <;> fin_cases i <;> norm_num [SphRun.exBody, abs_le]
  · rw [lower, hu]
    simp only [Fin.sum_univ_two]
    rw [Real.sqrt_le_left (by norm_num [SphRun.exBody])]
    norm_num [SphRun.exBody]

/-- The keys of `C80_key` in three dimensions with 64 bits. -/
example : (nearest 53).u ≤ 1 / 16 ∧ 8 * (nearest 53).u * 2 ^ maxDepth 64 3 ≤ 1 ∧ InBox 3 (fun _ => (0 : ℝ)) (fun _ => 1) (fun _ => 1 / 3) := by
  have hu : (nearest 53).u = 2 ^ (-53 : ℤ) := rfl
  have hm : maxDepth 64 3 = 21 := rfl
  refine ⟨by rw [hu]; norm_num, by rw [hu, hm]; norm_num, fun j _ => by norm_num⟩

end FleCSPH.Rounded
