import Verif.Lemmas.DistBuilt2
/-!
Self-gravity on several processes: C69 (momentum) and C76 (error bound against Newton's law, independence of the number of processes, of the division of the particles and of the order of messages).

From the keys and the particles of `2^m` processes: `startup` is `build_tree`, `After` any number of other traversals on the same tree (neighbour
searches, gravity), `DRun` any interleaving of the processes and messages in `traversal_fmm`, where each process reads only the data it has, and `gravity` the potential and acceleration a process computes from the calls it made.

Missing: rounding; a number of processes that is not a power of two (Props/C17.lean); a single particle; two particles at the same place, for which the code divides by zero.
-/
namespace FleCSPH.DistGravity
open FleCSPH.Spec FleCSPH.Tree FleCSPH.Ghosts FleCSPH.Startup FleCSPH.Cofm FleCSPH.Geometry
open FleCSPH.Fmm (distance_eq_zero grav shift eucL norm_euc_sub expand_err)

section
variable {D dim d : Nat} (hdim : 0 < dim) (hD : 0 < D)

theorem leafOf_iff {dim D : Nat} (hdim : 0 < dim) (hD : 0 < D) {all : List Nat} (hfull : ∀ x ∈ all, FullKey D dim x) {x : Nat} (hx : x ∈ all) {e : Key} : LeafOf D dim all x e ↔ leafAt D dim all x = e := by
  constructor
  · rintro ⟨h1, h2⟩
    exact leafAt_eq hD hfull hx ((leaf_path (X := (· ∈ all)) hdim hfull h1 hx).1 h2)
  · rintro rfl
    have hl := leafAt_spec hD hfull hx
    have hd : Digits dim (leafAt D dim all x) := digits_suffix (path_digits _ _) hl.2.1
    exact ⟨hd, (leaf_path (X := (· ∈ all)) hdim hfull hd hx).2 hl⟩

theorem err_sum {E : Type*} [NormedAddCommGroup E] [NormedSpace ℝ E] (L : ℝ × Point d →ₗ[ℝ] E) (S : Finset Nat) (w bound : Nat → ℝ) (u g : Nat → ℝ × Point d) (hw : ∀ y ∈ S, 0 ≤ w y)
    (h : ∀ y ∈ S, ‖L (u y) - L (g y)‖ ≤ bound y) : ‖L (∑ y ∈ S, w y • u y) - ∑ y ∈ S, w y • L (g y)‖ ≤ ∑ y ∈ S, w y * bound y := by
  rw [map_sum, ← Finset.sum_sub_distrib]
  refine norm_sum_le_of_le _ fun y hy => ?_
  rw [map_smul, ← smul_sub, norm_smul, Real.norm_of_nonneg (hw y hy)]
  exact mul_le_mul_of_nonneg_left (h y hy) (hw y hy)

include hdim hD

section
variable {m : Nat} {ranks : List (List Nat)} (hm : ranks.length = 2 ^ m) (hne : ∀ l ∈ ranks, l ≠ []) (hfull : ∀ x ∈ ranks.flatten, FullKey D dim x) (hsorted : ranks.flatten.Pairwise (· < ·))
  (htwo : 2 ≤ ranks.flatten.length) (body : Nat → Body d) (hmass : ∀ x ∈ ranks.flatten, 0 < (body x).mass) (hpos : ∀ x ∈ ranks.flatten, ∀ y ∈ ranks.flatten, x ≠ y → (body x).pos ≠ (body y).pos)
  (ids : Key → Int) (hids : ∀ x ∈ ranks.flatten, ∀ y ∈ ranks.flatten, ∀ e f, LeafOf D dim ranks.flatten x e → LeafOf D dim ranks.flatten y f → ids e = ids f → x = y)
include hm hne hfull hsorted htwo hmass hpos hids

/-- C15 on `2^m` processes: whatever the order of messages no step is undefined, the end can always be reached, and at the end the field every process has computed for each of its particles differs from
Newton's law for the particles of all processes by a fraction of the sum of the magnitudes that vanishes with the acceptance angle. -/
theorem C76_error_bound_partial (big angle G : ℝ) : ∃ s, startup D dim (summarise big) (fun x => .inl (body x)) ranks = some s ∧
    ∀ tbl dat, After (2 ^ m) (2 ^ dim) (D + 2) s tbl dat → ∀ S, DRun (2 ^ m) (2 ^ dim) angle (begin_ (2 ^ m) s tbl dat) S →
      (∀ r, Next (par (2 ^ m) (2 ^ dim) angle S.dat) S.run r → r ≠ none) ∧ (∃ S', DRun (2 ^ m) (2 ^ dim) angle S S' ∧ ∀ p < 2 ^ m, exited (2 ^ m) S'.run p) ∧
      ((∀ p < 2 ^ m, exited (2 ^ m) S.run p) → ∀ p ks, ranks[p]? = some ks → ∃ F, gravity (2 ^ dim) p (S.run.tbl p) (S.dat p) G ids (D + 1) (S.run.results p) = some F ∧
        ∀ x ∈ ks, ∀ e, LeafOf D dim ranks.flatten x e → ∀ t, t = max angle 0 →
          distance (F.acc e) (accelerationOf G body ranks.flatten x) ≤
            (4 * t + 5 * t ^ 2 + 2 * t ^ 3) * ∑ y ∈ ranks.flatten.toFinset.erase x, |G| * (body y).mass / distance (body x).pos (body y).pos ^ 2 ∧
          |F.pot e - potentialOf G body ranks.flatten x| ≤
            (2 * t + t ^ 2) * ∑ y ∈ ranks.flatten.toFinset.erase x, |G| * (body y).mass / distance (body x).pos (body y).pos) := by
  have I : Input D dim m ranks body := ⟨⟨hdim, hD, hne, hfull, hsorted⟩, hm, hmass, hpos, htwo⟩
  obtain ⟨s, hs, -⟩ := I.start big
  refine ⟨s, hs, fun tbl dat ha S hS => ?_⟩
  obtain ⟨h1, h2, h3⟩ := I.field big hs angle G ids (fun x hx y hy h => hids x hx y hy _ _ ((leafOf_iff hdim hD hfull hx).2 rfl) ((leafOf_iff hdim hD hfull hy).2 rfl) h) ha hS
  refine ⟨h1, h2, fun hend p ks hks => ?_⟩
  have hp : p < 2 ^ m := by
    have := (List.getElem?_eq_some_iff.1 hks).1
    omega
  obtain ⟨F, f1, f2⟩ := h3 hend p hp
  refine ⟨F, f1, fun x hx e he t ht => ?_⟩
  have hxX : x ∈ ranks.flatten := mem_ranks.mpr ⟨p, ks, hks, hx⟩
  obtain rfl := (leafOf_iff hdim hD hfull hxX).1 he
  obtain ⟨u, u1, u2⟩ := f2 ks hks x hx
  have hY : ∀ y ∈ ranks.flatten.toFinset.erase x, y ∈ ranks.flatten ∧ x ≠ y := fun y hy => ⟨List.mem_toFinset.1 (Finset.mem_of_mem_erase hy), (Finset.ne_of_mem_erase hy).symm⟩
  constructor
  · have h := err_sum (eucL.comp (LinearMap.snd ℝ ℝ (Point d))) (ranks.flatten.toFinset.erase x) (fun y => (body y).mass)
      (fun y => |G| * ((4 * t + 5 * t ^ 2 + 2 * t ^ 3) / distance (body x).pos (body y).pos ^ 2)) u (fun y => grav G (body x).pos (body y).pos 1) (fun y hy => (hmass y (hY y hy).1).le)
      (fun y hy => (I.err big hxX (hY y hy).1 (hY y hy).2 (u2 y hy) ht).1)
    rw [← u1] at h
    have e1 : ∑ y ∈ ranks.flatten.toFinset.erase x, (body y).mass • (eucL.comp (LinearMap.snd ℝ ℝ (Point d))) (grav G (body x).pos (body y).pos 1) = euc (accelerationOf G body ranks.flatten x) := by
      have : accelerationOf G body ranks.flatten x = ∑ y ∈ ranks.flatten.toFinset.erase x, (body y).mass • (grav G (body x).pos (body y).pos 1).2 := by
        funext i
        rw [Finset.sum_apply, accelerationOf]
        apply Finset.sum_congr rfl
        intro y _
        simp only [grav, Pi.smul_apply, smul_eq_mul]
        ring
      rw [this]
      show _ = eucL _
      rw [map_sum]
      apply Finset.sum_congr rfl
      intro y _
      rw [map_smul]; rfl
    rw [e1] at h
    rw [← norm_euc_sub]
    refine le_trans h (le_of_eq ?_)
    rw [Finset.mul_sum]
    apply Finset.sum_congr rfl
    intro y _
    ring
  · have h := err_sum (LinearMap.fst ℝ ℝ (Point d)) (ranks.flatten.toFinset.erase x) (fun y => (body y).mass)
      (fun y => |G| * ((2 * t + t ^ 2) / distance (body x).pos (body y).pos)) u (fun y => grav G (body x).pos (body y).pos 1) (fun y hy => (hmass y (hY y hy).1).le)
      (fun y hy => (I.err big hxX (hY y hy).1 (hY y hy).2 (u2 y hy) ht).2)
    rw [← u1] at h
    have e1 : ∑ y ∈ ranks.flatten.toFinset.erase x, (body y).mass • (LinearMap.fst ℝ ℝ (Point d)) (grav G (body x).pos (body y).pos 1) = potentialOf G body ranks.flatten x := by
      rw [potentialOf]
      apply Finset.sum_congr rfl
      intro y _
      simp only [grav, smul_eq_mul, LinearMap.fst_apply]
      ring
    rw [e1] at h
    refine le_trans h (le_of_eq ?_)
    rw [Finset.mul_sum]
    apply Finset.sum_congr rfl
    intro y _
    ring

/-- C69 on `2^m` processes: at the end the gravitational forces on the particles of all processes add up to zero, unless two nodes of the tree have the same radius. -/
theorem C69_distributed_partial (big angle G : ℝ) : ∃ s, startup D dim (summarise big) (fun x => .inl (body x)) ranks = some s ∧
    ((∀ p q k1 k2 N1 N2, dataOf s p k1 = some (.inr (some N1)) → dataOf s q k2 = some (.inr (some N2)) → k1 ≠ k2 → N1.radius ≠ N2.radius) →
      ∀ tbl dat, After (2 ^ m) (2 ^ dim) (D + 2) s tbl dat → ∀ S, DRun (2 ^ m) (2 ^ dim) angle (begin_ (2 ^ m) s tbl dat) S → (∀ p < 2 ^ m, exited (2 ^ m) S.run p) →
        ∃ F : Nat → Field d, (∀ p < 2 ^ m, gravity (2 ^ dim) p (S.run.tbl p) (S.dat p) G ids (D + 1) (S.run.results p) = some (F p)) ∧
          ∀ acc : Nat → Point d, (∀ p ks, ranks[p]? = some ks → ∀ x ∈ ks, ∀ e, LeafOf D dim ranks.flatten x e → acc x = (F p).acc e) →
            ∀ i, ∑ x ∈ ranks.flatten.toFinset, (body x).mass * acc x i = 0) := by
  have I : Input D dim m ranks body := ⟨⟨hdim, hD, hne, hfull, hsorted⟩, hm, hmass, hpos, htwo⟩
  obtain ⟨s, hs, -, -, -, hall, -⟩ := I.start big
  refine ⟨s, hs, fun hties tbl dat ha S hS hend => ?_⟩
  obtain ⟨-, -, h3⟩ := I.field big hs angle G ids (fun x hx y hy h => hids x hx y hy _ _ ((leafOf_iff hdim hD hfull hx).2 rfl) ((leafOf_iff hdim hD hfull hy).2 rfl) h) ha hS
  haveI : Nonempty (Field d) := ⟨⟨0, 0, 0, 0⟩⟩
  choose! F f1 f2 using h3 hend
  refine ⟨F, f1, fun acc hacc i => ?_⟩
  have hties' : ∀ k1 k2 N1 N2, valFor big D dim body ranks.flatten k1 = .inr (some N1) → valFor big D dim body ranks.flatten k2 = .inr (some N2) → k1 ≠ k2 → N1.radius ≠ N2.radius := by
    intro k1 k2 N1 N2 n1 n2 hk
    have hc : ∀ {k : Key} {N : Node d}, valFor big D dim body ranks.flatten k = .inr (some N) → k ∈ cellsOf D dim ranks.flatten := by
      intro k N hN
      by_contra h
      rw [valFor, if_neg h] at hN
      cases hN
    obtain ⟨p, -, hp⟩ := hall k1 (hc n1)
    obtain ⟨q, -, hq⟩ := hall k2 (hc n2)
    exact hties p q k1 k2 N1 N2 (by rw [hp, n1]) (by rw [hq, n2]) hk
  -- all contributions
  have hex : ∀ x ∈ ranks.flatten, ∃ u : Nat → ℝ × Point d, acc x = ∑ y ∈ ranks.flatten.toFinset.erase x, (body y).mass • (u y).2 ∧
      ∀ y ∈ ranks.flatten.toFinset.erase x, Contribution D dim (valFor big D dim body ranks.flatten) angle G ranks.flatten x y (u y) := by
    intro x hx
    obtain ⟨p, ks, hks, hxk⟩ := mem_ranks.mp hx
    have hp : p < 2 ^ m := by
      have := (List.getElem?_eq_some_iff.1 hks).1
      omega
    obtain ⟨u, u1, u2⟩ := f2 p hp ks hks x hxk
    refine ⟨u, ?_, u2⟩
    rw [hacc p ks hks x hxk _ ((leafOf_iff hdim hD hfull hx).2 rfl)]
    have := congrArg Prod.snd u1
    rw [Prod.snd_sum] at this
    exact this
  choose! u u1 u2 using hex
  have hsum : ∑ x ∈ ranks.flatten.toFinset, (body x).mass * acc x i =
      ∑ x ∈ ranks.flatten.toFinset, ∑ y ∈ ranks.flatten.toFinset, if x = y then 0 else (body x).mass * (body y).mass * (u x y).2 i := by
    apply Finset.sum_congr rfl
    intro x hx
    rw [u1 x (List.mem_toFinset.1 hx), Finset.sum_apply, Finset.mul_sum, ← Finset.sum_erase (a := x) (f := fun y => if x = y then 0 else (body x).mass * (body y).mass * (u x y).2 i) _ (if_pos rfl)]
    apply Finset.sum_congr rfl
    intro y hy
    rw [if_neg (Finset.ne_of_mem_erase hy).symm, Pi.smul_apply, smul_eq_mul, mul_assoc]
  have hanti : ∀ X : ℝ, X = -X → X = 0 := fun X h => by linarith
  rw [hsum]
  apply hanti
  conv_rhs => rw [Finset.sum_comm]
  rw [← Finset.sum_neg_distrib]
  apply Finset.sum_congr rfl
  intro x hx
  rw [← Finset.sum_neg_distrib]
  apply Finset.sum_congr rfl
  intro y hy
  by_cases hxy : x = y
  · rw [if_pos hxy, if_pos hxy.symm, neg_zero]
  · rw [if_neg hxy, if_neg (Ne.symm hxy)]
    have hx' := List.mem_toFinset.1 hx
    have hy' := List.mem_toFinset.1 hy
    rw [I.opposite big hties' hx' hy' (u2 x hx' y (Finset.mem_erase.2 ⟨Ne.symm hxy, hy⟩)) (u2 y hy' x (Finset.mem_erase.2 ⟨hxy, hx⟩)) i]
    ring

end

/-- C76: the particles alone determine the field. For the particles `all` there are a potential and an acceleration of each of them such that every number of processes (a power of two), every division
of the particles into consecutive non-empty parts and every order of messages leads to this potential and this acceleration. -/
theorem C76_independent_partial {all : List Nat} (hfull : ∀ x ∈ all, FullKey D dim x) (hsorted : all.Pairwise (· < ·)) (htwo : 2 ≤ all.length) (body : Nat → Body d) (hmass : ∀ x ∈ all, 0 < (body x).mass)
    (hpos : ∀ x ∈ all, ∀ y ∈ all, x ≠ y → (body x).pos ≠ (body y).pos) (big angle G : ℝ) :
    ∃ (pot : Nat → ℝ) (acc : Nat → Point d), ∀ ids : Key → Int, (∀ x ∈ all, ∀ y ∈ all, ∀ e f, LeafOf D dim all x e → LeafOf D dim all y f → ids e = ids f → x = y) → ∀ m ranks, ranks.length = 2 ^ m → (∀ l ∈ ranks, l ≠ []) → ranks.flatten = all →
      ∃ s, startup D dim (summarise big) (fun x => .inl (body x)) ranks = some s ∧
        ∀ tbl dat, After (2 ^ m) (2 ^ dim) (D + 2) s tbl dat → ∀ S, DRun (2 ^ m) (2 ^ dim) angle (begin_ (2 ^ m) s tbl dat) S → (∀ p < 2 ^ m, exited (2 ^ m) S.run p) →
          ∀ p ks, ranks[p]? = some ks → ∃ F, gravity (2 ^ dim) p (S.run.tbl p) (S.dat p) G ids (D + 1) (S.run.results p) = some F ∧
            ∀ x ∈ ks, ∀ e, LeafOf D dim all x e → F.pot e = pot x ∧ F.acc e = acc x := by
  classical
  obtain ⟨w, hw⟩ : ∃ w : Nat → Nat → ℝ × Point d, ∀ x y, w x y = if h : ∃ u, Contribution D dim (valFor big D dim body all) angle G all x y u then h.choose else 0 := ⟨_, fun _ _ => rfl⟩
  refine ⟨fun x => (∑ y ∈ all.toFinset.erase x, (body y).mass • w x y).1, fun x => (∑ y ∈ all.toFinset.erase x, (body y).mass • w x y).2, fun ids hids m ranks hm hne hall => ?_⟩
  subst hall
  have I : Input D dim m ranks body := ⟨⟨hdim, hD, hne, hfull, hsorted⟩, hm, hmass, hpos, htwo⟩
  obtain ⟨s, hs, -⟩ := I.start big
  refine ⟨s, hs, fun tbl dat ha S hS hend p ks hks => ?_⟩
  obtain ⟨-, -, h3⟩ := I.field big hs angle G ids (fun x hx y hy h => hids x hx y hy _ _ ((leafOf_iff hdim hD hfull hx).2 rfl) ((leafOf_iff hdim hD hfull hy).2 rfl) h) ha hS
  have hp : p < 2 ^ m := by
    have := (List.getElem?_eq_some_iff.1 hks).1
    omega
  obtain ⟨F, f1, f2⟩ := h3 hend p hp
  refine ⟨F, f1, fun x hx e he => ?_⟩
  have hxX : x ∈ ranks.flatten := mem_ranks.mpr ⟨p, ks, hks, hx⟩
  obtain rfl := (leafOf_iff hdim hD hfull hxX).1 he
  obtain ⟨u, u1, u2⟩ := f2 ks hks x hx
  have hsame : fld F (leafAt D dim ranks.flatten x) = ∑ y ∈ ranks.flatten.toFinset.erase x, (body y).mass • w x y := by
    rw [u1]
    apply Finset.sum_congr rfl
    intro y hy
    have hex : ∃ u, Contribution D dim (valFor big D dim body ranks.flatten) angle G ranks.flatten x y u := ⟨_, u2 y hy⟩
    rw [hw, dif_pos hex, contribution_unique (u2 y hy) hex.choose_spec]
  exact ⟨congrArg Prod.fst hsame, congrArg Prod.snd hsame⟩

end

/-! ### A case: four particles on a line, keys in two dimensions; on one, two or four processes. -/

noncomputable def exBody (x : Nat) : Body 2 := ⟨fun _ => (x : ℝ), 1, 1⟩

theorem ex_pos (x y : Nat) (h : x ≠ y) : (exBody x).pos ≠ (exBody y).pos := by
  intro he
  have := congrFun he 0
  simp only [exBody] at this
  exact h (by exact_mod_cast this)

/-- Identifiers of the particles: the numbers of their leaves are different. -/
theorem ex_ids {D dim : Nat} (hdim : 0 < dim) (hD : 0 < D) {all : List Nat} (hfull : ∀ x ∈ all, FullKey D dim x) :
    ∀ x ∈ all, ∀ y ∈ all, ∀ e f, LeafOf D dim all x e → LeafOf D dim all y f → (number dim e : Int) = number dim f → x = y := by
  intro x hx y hy e f he hf h
  have hef : e = f := number_inj hdim he.1 hf.1 (by exact_mod_cast h)
  subst hef
  exact leafAt_inj hD hfull hx hy (((leafOf_iff hdim hD hfull hx).1 he).trans ((leafOf_iff hdim hD hfull hy).1 hf).symm)

theorem ex_full : ∀ x ∈ exRanks.flatten, FullKey 3 2 x := by decide

/-- On two processes, with an acceptance angle of one half, the end is reached and there is an acceleration for each particle of each process. -/
example : ∃ s, startup 3 2 (summarise 1000) (fun x => .inl (exBody x)) exRanks = some s ∧ ∃ S, DRun (2 ^ 1) (2 ^ 2) (1 / 2) (begin_ (2 ^ 1) s (ghostTables s) (dataOf s)) S ∧ ∀ p < 2, ∃ F,
    gravity (2 ^ 2) p (S.run.tbl p) (S.dat p) 1 (fun e => (number 2 e : Int)) (3 + 1) (S.run.results p) = some F := by
  obtain ⟨s, hs, h⟩ := C76_error_bound_partial (D := 3) (dim := 2) (m := 1) (by decide) (by decide) (ranks := exRanks) (by decide) (by decide) ex_full (by decide) (by decide) exBody
    (fun _ _ => by norm_num [exBody]) (fun x _ y _ h => ex_pos x y h) (fun e => (number 2 e : Int)) (ex_ids (by decide) (by decide) ex_full) 1000 (1 / 2) 1
  obtain ⟨-, ⟨S, h1, h2⟩, -⟩ := h _ _ .built _ .start
  obtain ⟨-, -, h3⟩ := h _ _ .built S h1
  refine ⟨s, hs, S, h1, fun p hp => ?_⟩
  have : p = 0 ∨ p = 1 := by omega
  rcases this with rfl | rfl
  · obtain ⟨F, hF, -⟩ := h3 h2 0 _ rfl
    exact ⟨F, hF⟩
  · obtain ⟨F, hF, -⟩ := h3 h2 1 _ rfl
    exact ⟨F, hF⟩

/-- The same particles on one, two and four processes: the divisions meet the hypotheses of `C76_independent_partial`. -/
example : ([exRanks.flatten].length = 2 ^ 0 ∧ (∀ l ∈ [exRanks.flatten], l ≠ []) ∧ [exRanks.flatten].flatten = exRanks.flatten) ∧ (exRanks.length = 2 ^ 1 ∧ ∀ l ∈ exRanks, l ≠ []) ∧
    ((exRanks.flatten.map fun x => [x]).length = 2 ^ 2 ∧ (∀ l ∈ exRanks.flatten.map fun x => [x], l ≠ []) ∧ (exRanks.flatten.map fun x => [x]).flatten = exRanks.flatten) := by decide

end FleCSPH.DistGravity
