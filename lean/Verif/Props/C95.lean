import Verif.Lemmas.RoundedUpdate
import Verif.Props.C77
import Verif.Props.C82
import Verif.Props.C94
import Verif.Lemmas.TiesToEven
/-!
C95: an iteration in floating-point arithmetic, from the positions of the particles to neighbour lists, densities and the gravitational field. `update` is `update_iteration` with every operation rounded.

Missing: what is missing in C77 except rounding; overflow and underflow; that the computed field does not depend on the number of processes, which holds in exact arithmetic (C77) and fails bit by bit here.
-/
namespace FleCSPH.RoundedUpdate
open FleCSPH.Spec FleCSPH.Cofm FleCSPH.Psort FleCSPH.Startup FleCSPH.Geometry FleCSPH.Key
open FleCSPH.Update (Ent discOf axis itemOf bodyAt ranksOf entOf mapM_map Division.pos Division.mem bodyAt_key mem_ranksOf ranksOf_get ranks_flatten leafOf_congr exSort exBody ex_h ex_division)
open FleCSPH.Rounded (Rounding Bounded lower upper nearest)
open FleCSPH.Distribute (Disc)

/-- The range of the particles: on any number of processes and for any division of the particles it is the same box, it holds every particle in its interior and is at most twice as wide as the exact box along each axis. -/
theorem C95_range {d n : Nat} {R : Rounding} {body : Fin n → Body d} (hres : Resolved R.u body) (hn : 0 < n) : ∃ range : Fin d → ℝ × ℝ,
    (∀ (P : Nat) (vec : Fin P → List (Fin n)), 0 < P → Division n P vec → computeRange R (List.ofFn fun r => (vec r).map fun a => ⟨(body a).pos, (body a).h⟩) = some range) ∧
    (∀ a j, (range j).1 < (body a).pos j ∧ (body a).pos j < (range j).2) ∧ ∀ j, (range j).2 - (range j).1 ≤ 2 * (boxHigh body j - boxLow body j) := by
  refine ⟨fun j => (boxLowR R body j, boxHighR R body j), fun P vec hP hvec => ?_, fun a j => box_bounds hres a j, fun j => box_size hres ⟨0, hn⟩ j⟩
  have := range_eq hP hres hvec (fun _ => 0) (fun _ => 0)
  simp only [List.map_map] at this
  exact this

section Main
variable {d n : Nat} {bits : Nat} {R : Rounding} (hd : 0 < d) (hbits : d < bits) {body : Fin n → Body d} (hres : Resolved R.u body)

include hd hbits hres in
/-- The keys exist, are determined by the particles alone, and have full depth. In a grid that is coarse compared with the precision a key is the path to the grid cell of the particle or to one next to it, and particles
more than six cell widths apart along an axis have different keys. -/
theorem C95_keys (hu : R.u ≤ 1 / 16) : ∃ key : Fin n → Nat, KeysOf R bits body key ∧ (∀ key', KeysOf R bits body key' → key' = key) ∧ (∀ a, FullKey (maxDepth bits d) d (key a)) ∧
    (8 * R.u * 2 ^ maxDepth bits d ≤ 1 →
      (∃ range : Fin d → ℝ × ℝ, (∀ (P : Nat) (vec : Fin P → List (Fin n)), 0 < P → Division n P vec → computeRange R (List.ofFn fun r => (vec r).map fun a => ⟨(body a).pos, (body a).h⟩) = some range) ∧
        ∀ a, ∃ c : Nat → Nat, key a = pathKey d (zPath d (maxDepth bits d) c) ∧
          ∀ j : Fin d, (range j).1 + ((range j).2 - (range j).1) * ((c j : ℝ) - 1) / 2 ^ maxDepth bits d ≤ (body a).pos j ∧
            (body a).pos j ≤ (range j).1 + ((range j).2 - (range j).1) * ((c j : ℝ) + 2) / 2 ^ maxDepth bits d) ∧
      ((∀ a b, a ≠ b → ∃ j, 6 * (boxHigh body j - boxLow body j) / 2 ^ maxDepth bits d < |(body a).pos j - (body b).pos j|) → key.Injective)) := by
  have hb : 0 < bits := by omega
  have hex := fun a => Rounded.C80_key bits d hb hd hu _ _ _ (inBox hres a)
  choose c c1 c2 c3 c4 using hex
  refine ⟨fun a => pathKey d (zPath d (maxDepth bits d) (c a)), c2, fun key' h => ?_, c3, fun h8 => ⟨⟨fun j => (boxLowR R body j, boxHighR R body j), fun P vec hP hvec => ?_, fun a => ⟨c a, rfl, fun j => ?_⟩⟩, fun hfar a b hab => ?_⟩⟩
  · funext a
    exact Option.some.inj ((h a).symm.trans (c2 a))
  · have := range_eq hP hres hvec (fun _ => 0) (fun _ => 0)
    simp only [List.map_map] at this
    exact this
  · have := c4 a h8 j j.2
    simpa only [axis, dif_pos j.2] using this
  · by_contra hne
    obtain ⟨j, hj⟩ := hfar a b hne
    refine Rounded.C80_key_distinct bits d hb hd h8 hu (axis (boxLowR R body)) (axis (boxHighR R body)) (axis (body a).pos) (axis (body b).pos) (inBox hres a) (inBox hres b) j.2 ?_ ?_
    · simp only [axis, dif_pos j.2]
      refine lt_of_le_of_lt ?_ hj
      have := box_size hres a j
      have hP : (0 : ℝ) < 2 ^ maxDepth bits d := by positivity
      rw [div_le_div_iff_of_pos_right hP]
      linarith
    · rw [c2 a, c2 b]
      exact congrArg some hab

variable {key : Fin n → Nat} (hkey : KeysOf R bits body key) (hinj : key.Injective) {id : Fin n → Nat} (hid : id.Injective) (old : Fin n → Nat) (S : StdSort)

include hd hres hkey hinj hid in
/-- On any number of processes and for any division of the particles, range, keys and sort succeed: no particle is lost or doubled or changed, every process has as many as before, and the keys increase
from process to process. -/
theorem C95_sorted {P : Nat} (hP : 0 < P) {vec : Fin P → List (Fin n)} (hvec : Division n P vec) (junk : Nat → Fin P → Ent d) {fuel : Nat} (hf : n ≤ fuel) :
    ∃ vec', Arranged n P vec key vec' ∧ arrange R bits S junk fuel (fun r => (vec r).map fun a => ⟨body a, id a, old a⟩) = some fun r => (vec' r).map fun a => ⟨body a, id a, key a⟩ :=
  arrange_eq hd hP hres hkey hinj hid old hvec S junk hf

/-- What the trees are built from. -/
private theorem ready (hfull : ∀ a, FullKey (maxDepth bits d) d (key a)) (hinj : key.Injective) {m : Nat} {vec vec' : Fin (2 ^ m) → List (Fin n)} (h1 : Arranged n (2 ^ m) vec key vec') (body : Fin n → Body d) (id : Fin n → Nat)
    {out : Fin (2 ^ m) → List (Ent d)} (hout : out = fun r => (vec' r).map (entOf body id key)) :
    (ranksOf out).length = 2 ^ m ∧ (∀ l ∈ ranksOf out, l ≠ []) ∧ (∀ x ∈ (ranksOf out).flatten, FullKey (maxDepth bits d) d x) ∧ (ranksOf out).flatten.Pairwise (· < ·) ∧
    (∀ x, x ∈ (ranksOf out).flatten ↔ x ∈ (List.finRange n).map key) ∧ (∀ a, bodyAt out (key a) = body a) ∧ (∀ x ∈ (ranksOf out).flatten, ∃ a, key a = x) ∧ (ranksOf out).flatten.length = n ∧
    (ranksOf out).flatten.Perm ((List.finRange n).map key) := by
  have hmem : ∀ x, x ∈ (ranksOf out).flatten ↔ x ∈ (List.finRange n).map key := fun x => by rw [hout]; exact mem_ranksOf h1.division x
  have hlab : ∀ x ∈ (ranksOf out).flatten, ∃ a, key a = x := fun x hx => by
    obtain ⟨a, -, h⟩ := List.mem_map.1 ((hmem x).1 hx)
    exact ⟨a, h⟩
  have hperm : (ranksOf out).flatten.Perm ((List.finRange n).map key) := by
    rw [hout, ranks_flatten]
    exact h1.division.all.map key
  refine ⟨by rw [ranksOf, List.length_ofFn], ?_, ?_, ?_, hmem, fun a => by rw [hout]; exact bodyAt_key hinj body id h1.division a, hlab, ?_, hperm⟩
  · intro l hl
    rw [ranksOf, List.mem_ofFn'] at hl
    obtain ⟨r, rfl⟩ := hl
    rw [hout]
    simpa using h1.division.nonempty r
  · intro x hx
    obtain ⟨a, rfl⟩ := hlab x hx
    exact hfull a
  · rw [hout, ranks_flatten, List.pairwise_map]
    exact h1.increasing
  · rw [hperm.length_eq]; simp

variable (hmass : ∀ a, 0 < (body a).mass) (hd3 : d ≤ 3) (big : ℝ)

section
open FleCSPH.Ghosts FleCSPH.SphRun
variable {X : ℝ} (hb : ∀ a, Bounded X (body a)) (huD : 68 * maxDepth bits d * R.u ≤ 1) (tol : ℝ) (htol : 0 ≤ tol) (sent : Nat) {m : Nat} {vec : Fin (2 ^ m) → List (Fin n)} (hvec : Division n (2 ^ m) vec)
  (junk : Nat → Fin (2 ^ m) → Ent d) {fuel : Nat} (hfuel : n ≤ fuel)

include hd hbits hres hkey hinj hid hmass hd3 hb huD htol hvec hfuel in
private theorem search : ∃ vec' out s Val groups, Arranged n (2 ^ m) vec key vec' ∧ (∀ r, out r = (vec' r).map (entOf body id key)) ∧
      update R bits S junk fuel big (fun r => (vec r).map fun a => ⟨body a, id a, old a⟩) = some (out, s) ∧
      TreeData (maxDepth bits d) d (· ∈ (ranksOf out).flatten) (Rounded.summarise R big) (fun x => .inl (bodyAt out x)) Val ∧
      (∀ p < 2 ^ m, ∃ me, s[p]? = some me ∧ groupsOf (2 ^ d) me.tbl sent (maxDepth bits d + 1) = some (groups p)) ∧
      let Q := sph (2 ^ m) (2 ^ d) (Rounded.accepts R tol Val) (maxDepth bits d + 2)
      ∀ s', Ghosts.Run Q (begin_ s groups) s' → (∀ r, Next Q s' r → r ≠ none) ∧ (∃ s'', Ghosts.Run Q s' s'' ∧ ∀ p < 2 ^ m, exited (2 ^ m) s'' p) ∧
        ((∀ p < 2 ^ m, exited (2 ^ m) s' p) → ∀ p : Fin (2 ^ m),
          ServedBetween (maxDepth bits d) d (ranksOf fun r => (vec' r).map (entOf body id key)) (bodyAt fun r => (vec' r).map (entOf body id key)) (lower R (maxDepth bits d) X) (upper R) p (Rounded.calls R Val (s'.results p))) := by
  have hP : 0 < 2 ^ m := Nat.pow_pos (by decide)
  have hD : 0 < maxDepth bits d := Nat.div_pos (by omega) hd
  have hux : R.u ≤ 1 / 16 := by
    have : (1 : ℝ) ≤ maxDepth bits d := by exact_mod_cast hD
    have := R.nonneg
    nlinarith
  have hfull := keysOf_full (by omega) hd hux hres hkey
  obtain ⟨vec', h1, h2⟩ := arrange_eq hd hP hres hkey hinj hid old hvec S junk hfuel
  obtain ⟨out, hout⟩ : ∃ out : Fin (2 ^ m) → List (Ent d), out = fun r => (vec' r).map (entOf body id key) := ⟨_, rfl⟩
  obtain ⟨r1, r2, r3, r4, -, r6, r7, -, -⟩ := ready hfull hinj h1 body id hout
  obtain ⟨s, Val, groups, g1, g2, g3, -, g4⟩ := Rounded.C80_search_partial (R := R) hd hd3 hd3 hD r1 r2 r3 r4 huD big X (bodyAt out) (by intro x hx; obtain ⟨a, rfl⟩ := r7 x hx; rw [r6]; exact hmass a)
    (by intro x hx; obtain ⟨a, rfl⟩ := r7 x hx; rw [r6]; exact hb a) tol htol sent
  refine ⟨vec', out, s, Val, groups, h1, fun r => by rw [hout], ?_, g2, fun p hp => ?_, ?_⟩
  · unfold update
    have : arrange R bits S junk fuel (fun r => (vec r).map fun a => ⟨body a, id a, old a⟩) = some out := by rw [hout]; exact h2
    rw [this, Option.bind_some, g1]; rfl
  · obtain ⟨me, e1, e2, -⟩ := g3 p hp
    exact ⟨me, e1, e2⟩
  · intro Q s' hrun
    obtain ⟨k1, k3, k5⟩ := g4 s' hrun
    refine ⟨k1, k3, fun hend p => ?_⟩
    have := k5 hend p p.2
    rw [hout] at this
    exact this

include hd hbits hres hkey hinj hid hmass hd3 hb huD htol hvec hfuel in
/-- From the positions to the neighbour lists on `2^m` processes with every operation rounded: `update` succeeds with the particles sorted as in `C95_sorted`; then, for every order of messages, the traversal does no
undefined step and can always be ended, and when it has ended the user's function was called once for every particle, on the process which has it, with lists that hold every particle closer than the mean of the
smoothing lengths by at least `100 D u X`, on whatever process it is, and none further away than the larger one divided by `(1-u)^4`; `D` is the depth of the keys and `X` a bound of the coordinates. -/
theorem C95_neighbours_partial :
    ∃ vec' out s Val groups, Arranged n (2 ^ m) vec key vec' ∧ (∀ r, out r = (vec' r).map fun a => ⟨body a, id a, key a⟩) ∧
      update R bits S junk fuel big (fun r => (vec r).map fun a => ⟨body a, id a, old a⟩) = some (out, s) ∧
      TreeData (maxDepth bits d) d (· ∈ (ranksOf out).flatten) (Rounded.summarise R big) (fun x => .inl (bodyAt out x)) Val ∧
      (∀ p < 2 ^ m, ∃ me, s[p]? = some me ∧ groupsOf (2 ^ d) me.tbl sent (maxDepth bits d + 1) = some (groups p)) ∧
      let Q := sph (2 ^ m) (2 ^ d) (Rounded.accepts R tol Val) (maxDepth bits d + 2)
      ∀ s', Ghosts.Run Q (begin_ s groups) s' → (∀ r, Next Q s' r → r ≠ none) ∧ (∃ s'', Ghosts.Run Q s' s'' ∧ ∀ p < 2 ^ m, exited (2 ^ m) s'' p) ∧
        ((∀ p < 2 ^ m, exited (2 ^ m) s' p) → ∃ nbs, ListsBetween (fun a b => (a.h + b.h) / 2 - 100 * maxDepth bits d * R.u * X) (fun a b => max a.h b.h / (1 - R.u) ^ 4) body nbs ∧
          ∀ p : Fin (2 ^ m), CallsFor (maxDepth bits d) d key nbs (vec' p) (Rounded.calls R Val (s'.results p))) := by
  have hD : 0 < maxDepth bits d := Nat.div_pos (by omega) hd
  have hux : R.u ≤ 1 / 16 := by
    have : (1 : ℝ) ≤ maxDepth bits d := by exact_mod_cast hD
    have := R.nonneg
    nlinarith
  obtain ⟨vec', out, s, Val, groups, h1, h2, h3, h4, h5, h6⟩ := search hd hbits hres hkey hinj hid old S hmass hd3 big hb huD tol htol sent hvec junk hfuel
  refine ⟨vec', out, s, Val, groups, h1, h2, h3, h4, h5, fun s' hrun => ?_⟩
  obtain ⟨k1, k2, k3⟩ := h6 s' hrun
  exact ⟨k1, k2, fun hend => calls_between hD hd hinj (keysOf_full (by omega) hd hux hres hkey) h1.division _ (k3 hend)⟩

end

section
open FleCSPH.Ghosts FleCSPH.Fmm

include hd hbits hres hkey hinj hmass hd3 in
/-- From the positions to the gravitational field on `2^m` processes with every operation rounded: for every division of the particles and every order of messages `update` succeeds, the traversal does no undefined step
and can always be ended, and when it has ended the process of each particle computes, without a division by zero, a field that differs from Newton's law for all particles by the error of C77 for an angle `t` a little
above the given one, plus `2 (n+17D+54) u (1+t)^2` times the sum of the magnitudes. -/
theorem C95_gravity_partial (hn : 2 ≤ n) (hu : (n + 17 * maxDepth bits d + 54 : ℕ) * R.u ≤ 1) (angle G : ℝ) {id : Fin n → Nat} (hid : id.Injective) {m : Nat} {vec : Fin (2 ^ m) → List (Fin n)} (hvec : Division n (2 ^ m) vec)
    (junk : Nat → Fin (2 ^ m) → Ent d) {fuel : Nat} (hfuel : n ≤ fuel) (ids : Key → Int) (hids : ∀ a e, LeafOf (maxDepth bits d) d ((List.finRange n).map key) (key a) e → ids e = id a) :
    ∃ vec' out s Val, Arranged n (2 ^ m) vec key vec' ∧ (∀ r, out r = (vec' r).map fun a => ⟨body a, id a, key a⟩) ∧
      update R bits S junk fuel big (fun r => (vec r).map fun a => ⟨body a, id a, old a⟩) = some (out, s) ∧
      TreeData (maxDepth bits d) d (· ∈ (ranksOf out).flatten) (Rounded.summarise R big) (fun x => .inl (bodyAt out x)) Val ∧
      let Q := fmm (2 ^ m) (2 ^ d) (Rounded.macOf R Val angle) (Rounded.biggerOf Val)
      ∀ s', Ghosts.Run Q (Startup.begin_ s fun _ => [([], [])]) s' → (∀ r, Next Q s' r → r ≠ none) ∧ (∃ s'', Ghosts.Run Q s' s'' ∧ ∀ p < 2 ^ m, exited (2 ^ m) s'' p) ∧
        ((∀ p < 2 ^ m, exited (2 ^ m) s' p) → ∀ p : Fin (2 ^ m), ∀ dat : DistGravity.DataTable d, (∀ k v, dat k = some v → v = Val k) → (∀ k, (s'.tbl p k).isSome → (dat k).isSome) →
          ∃ F, Rounded.gravity R (2 ^ d) p (s'.tbl p) dat G ids (maxDepth bits d + 1) (s'.results p) = some F ∧
            ∀ a ∈ vec' p, ∀ e, LeafOf (maxDepth bits d) d ((List.finRange n).map key) (key a) e → ∀ t, 0 ≤ t → angle ≤ t * (1 - (9 * maxDepth bits d + 9 : ℕ) * R.u) →
              distance (F.acc e) (accelerationAt G body a) ≤ (4 * t + 5 * t ^ 2 + 2 * t ^ 3 + 2 * (n + 17 * maxDepth bits d + 54 : ℕ) * R.u * (1 + t) ^ 2) *
                ∑ b ∈ Finset.univ.erase a, |G| * (body b).mass / distance (body a).pos (body b).pos ^ 2 ∧
              |F.pot e - potentialAt G body a| ≤ (2 * t + t ^ 2 + 2 * (n + 17 * maxDepth bits d + 54 : ℕ) * R.u * (1 + t) ^ 2) *
                ∑ b ∈ Finset.univ.erase a, |G| * (body b).mass / distance (body a).pos (body b).pos) := by
  classical
  have hP : 0 < 2 ^ m := Nat.pow_pos (by decide)
  have hD : 0 < maxDepth bits d := Nat.div_pos (by omega) hd
  have hu0 := R.nonneg
  have hux : R.u ≤ 1 / 16 := by
    have : ((54 : ℕ) : ℝ) ≤ (n + 17 * maxDepth bits d + 54 : ℕ) := by exact_mod_cast (by omega)
    have := mul_le_mul_of_nonneg_right this hu0
    push_cast at this hu
    linarith
  have hfull := keysOf_full (by omega) hd hux hres hkey
  obtain ⟨vec', h1, h2⟩ := arrange_eq hd hP hres hkey hinj hid old hvec S junk hfuel
  obtain ⟨out, hout⟩ : ∃ out : Fin (2 ^ m) → List (Ent d), out = fun r => (vec' r).map (entOf body id key) := ⟨_, rfl⟩
  obtain ⟨r1, r2, r3, r4, r5, r6, r7, r8, -⟩ := ready hfull hinj h1 body id hout
  have hlc : ∀ x e, LeafOf (maxDepth bits d) d (ranksOf out).flatten x e ↔ LeafOf (maxDepth bits d) d ((List.finRange n).map key) x e := leafOf_congr r5
  obtain ⟨s, Val, g1, g2, g3⟩ := Rounded.C94_error_bound_partial (R := R) hd hd3 hd3 hD r1 r2 r3 r4 (by rw [r8]; exact hn) (by rw [r8]; exact hu) (bodyAt out)
    (by intro x hx; obtain ⟨a, rfl⟩ := r7 x hx; rw [r6]; exact hmass a) (by intro x hx; obtain ⟨a, rfl⟩ := r7 x hx; rw [r6]; exact ((hres a).1).le)
    (by
      intro x hx y hy hxy
      obtain ⟨a, rfl⟩ := r7 x hx
      obtain ⟨b, rfl⟩ := r7 y hy
      rw [r6, r6]
      intro he
      have e1 := hkey a
      rw [he, hkey b] at e1
      exact hxy (Option.some.inj e1).symm)
    ids (by
      intro x hx y hy e f he hf hef
      obtain ⟨a, rfl⟩ := r7 x hx
      obtain ⟨b, rfl⟩ := r7 y hy
      rw [hids a e ((hlc _ _).1 he), hids b f ((hlc _ _).1 hf)] at hef
      exact congrArg key (hid (by exact_mod_cast hef))) big angle G
  refine ⟨vec', out, s, Val, h1, fun r => by rw [hout]; rfl, ?_, g2, ?_⟩
  · unfold update
    have : arrange R bits S junk fuel (fun r => (vec r).map fun a => ⟨body a, id a, old a⟩) = some out := by rw [hout]; exact h2
    rw [this, Option.bind_some, g1]; rfl
  intro Q s' hrun
  obtain ⟨k1, k2, k3⟩ := g3 s' hrun
  refine ⟨k1, k2, fun hend p dat hdat hhere => ?_⟩
  have hget : (ranksOf out)[p.val]? = some ((vec' p).map key) := by rw [hout]; exact ranksOf_get p
  obtain ⟨F, f1, f2⟩ := k3 hend p _ hget dat hdat hhere
  refine ⟨F, f1, fun a ha e he t ht hat => ?_⟩
  obtain ⟨b1, b2⟩ := f2 (key a) (List.mem_map_of_mem ha) e ((hlc _ _).2 he) t ht hat
  have hset : (ranksOf out).flatten.toFinset.erase (key a) = (Finset.univ.erase a).image key := by
    have : (ranksOf out).flatten.toFinset = Finset.univ.image key := by ext x; rw [List.mem_toFinset, r5]; simp
    rw [this, Finset.image_erase hinj]
  have hsum : ∀ f : Nat → ℝ, ∑ y ∈ (ranksOf out).flatten.toFinset.erase (key a), f y = ∑ b ∈ Finset.univ.erase a, f (key b) := by
    intro f
    rw [hset, Finset.sum_image fun x _ y _ h => hinj h]
  have hacc : accelerationOf G (bodyAt out) (ranksOf out).flatten (key a) = accelerationAt G body a := by
    funext i
    simp only [accelerationOf, accelerationAt]
    rw [hsum]
    exact Finset.sum_congr rfl fun b _ => by rw [r6, r6]
  have hpt : potentialOf G (bodyAt out) (ranksOf out).flatten (key a) = potentialAt G body a := by
    simp only [potentialOf, potentialAt]
    rw [hsum]
    exact Finset.sum_congr rfl fun b _ => by rw [r6, r6]
  rw [hacc, hsum, r8] at b1
  rw [hpt, hsum, r8] at b2
  simp only [r6] at b1 b2
  exact ⟨b1, b2⟩

end

end Main


private theorem zip_eq {α β γ : Type} {Q : α → β → Prop} {T : α → γ → Prop} (g : γ → β) (h : ∀ f y b, Q f y → T f b → y = g b) {l : List α} {ys : List β} {bs : List γ} (h1 : List.Forall₂ Q l ys) (h2 : List.Forall₂ T l bs) :
    ys = bs.map g := by
  induction h1 generalizing bs with
  | nil => cases h2; rfl
  | cons hq _ ih =>
    cases h2 with
    | cons ht h2 => rw [List.map_cons, h _ _ _ hq ht, ih h2]

private theorem forall₂_right {α β : Type} {Q : α → β → Prop} {l : List α} {l' : List β} (h : List.Forall₂ Q l l') {b : β} (hb : b ∈ l') : ∃ a ∈ l, Q a b := by
  induction h with
  | nil => simp at hb
  | cons hq _ ih =>
    rcases List.mem_cons.1 hb with rfl | hb
    · exact ⟨_, List.mem_cons_self, hq⟩
    · obtain ⟨a, h1, h2⟩ := ih hb
      exact ⟨a, List.mem_cons_of_mem _ h1, h2⟩

section
open FleCSPH.Ghosts FleCSPH.SphRun FleCSPH.Kernels
open FleCSPH.Rounded (loss)

/-- From the positions to the densities on `2^m` processes with every operation rounded: with the lists of `C95_neighbours_partial`, the density of every particle is computed without failed assertion, is positive, and
differs from the exact sum over all particles of all processes by at most `(2 l + 2 loss + 552 + 2500 D X / h0) u` times what the density were if all particles nearby were in one place; `l` is the length of the list,
`D` the depth of the keys, `X` a bound of the coordinates and `h0` the least smoothing length. -/
theorem C95_density_partial {i : Fin 3} {n bits : Nat} {R : Rounding} (hbits : (i : ℕ) + 1 < bits) {body : Fin n → Body (i + 1)} (hres : Resolved R.u body) {key : Fin n → Nat} (hkey : KeysOf R bits body key)
    (hinj : key.Injective) {id : Fin n → Nat} (hid : id.Injective) (old : Fin n → Nat) (S : StdSort) (hmass : ∀ a, 0 < (body a).mass) (big : ℝ) {X : ℝ} (hb : ∀ a, Bounded X (body a))
    (huD : 68 * maxDepth bits (i + 1) * R.u ≤ 1) {κ : Kernel} (hκ : Poly κ) (huN : 2 * (loss κ + 1 + n) * R.u ≤ 1) {h0 : ℝ} (hh : ∀ a, h0 ≤ (body a).h) (hh0 : 100 * maxDepth bits (i + 1) * R.u * X ≤ h0) (hpos : 0 < h0)
    (tol : ℝ) (htol : 0 ≤ tol) (sent : Nat) {m : Nat} {vec : Fin (2 ^ m) → List (Fin n)} (hvec : Division n (2 ^ m) vec) (junk : Nat → Fin (2 ^ m) → Ent (i + 1)) {fuel : Nat} (hfuel : n ≤ fuel) :
    ∃ vec' out s Val groups, Arranged n (2 ^ m) vec key vec' ∧ (∀ r, out r = (vec' r).map fun a => ⟨body a, id a, key a⟩) ∧
      update R bits S junk fuel big (fun r => (vec r).map fun a => ⟨body a, id a, old a⟩) = some (out, s) ∧
      TreeData (maxDepth bits (i + 1)) (i + 1) (· ∈ (ranksOf out).flatten) (Rounded.summarise R big) (fun x => .inl (bodyAt out x)) Val ∧
      (∀ p < 2 ^ m, ∃ me, s[p]? = some me ∧ groupsOf (2 ^ ((i : ℕ) + 1)) me.tbl sent (maxDepth bits (i + 1) + 1) = some (groups p)) ∧
      let Q := sph (2 ^ m) (2 ^ ((i : ℕ) + 1)) (Rounded.accepts R tol Val) (maxDepth bits (i + 1) + 2)
      ∀ s', Ghosts.Run Q (begin_ s groups) s' → (∀ r, Next Q s' r → r ≠ none) ∧ (∃ s'', Ghosts.Run Q s' s'' ∧ ∀ p < 2 ^ m, exited (2 ^ m) s'' p) ∧
        ((∀ p < 2 ^ m, exited (2 ^ m) s' p) → ∃ nbs, ListsBetween (fun a b => (a.h + b.h) / 2 - 100 * maxDepth bits (i + 1) * R.u * X) (fun a b => max a.h b.h / (1 - R.u) ^ 4) body nbs ∧
          (∀ p : Fin (2 ^ m), CallsFor (maxDepth bits (i + 1)) (i + 1) key nbs (vec' p) (Rounded.calls R Val (s'.results p))) ∧
          ∀ a, ∃ ρ, Rounded.computeDensity R κ (body a) ((nbs a).map body) = some ρ ∧ 0 < ρ ∧
            |ρ - density (Kernels.kernel κ i) (body a) ((List.finRange n).map body)| ≤
              (2 * (nbs a).length + 2 * loss κ + 552 + 2500 * maxDepth bits (i + 1) * X / h0) * R.u * peak (Kernels.kernel κ i) (body a) (nearby (fun a b => max a.h b.h / (1 - R.u) ^ 4) body a)) := by
  classical
  have hd : 0 < (i : ℕ) + 1 := by omega
  have hd3 : (i : ℕ) + 1 ≤ 3 := by omega
  have hD : 0 < maxDepth bits (i + 1) := Nat.div_pos (by omega) hd
  have hux : R.u ≤ 1 / 16 := by
    have : (1 : ℝ) ≤ maxDepth bits (i + 1) := by exact_mod_cast hD
    have := R.nonneg
    nlinarith
  have hfull := keysOf_full (by omega) hd hux hres hkey
  obtain ⟨vec', out, s, Val, groups, h1, h2, h3, h4, h5, h6⟩ := search hd hbits hres hkey hinj hid old S hmass hd3 big hb huD tol htol sent hvec junk hfuel
  have hout := funext h2
  refine ⟨vec', out, s, Val, groups, h1, h2, h3, h4, h5, fun s' hrun => ?_⟩
  obtain ⟨k1, k2, k3⟩ := h6 s' hrun
  refine ⟨k1, k2, fun hend => ?_⟩
  obtain ⟨nbs, n1, n2⟩ := calls_between hD hd hinj hfull h1.division _ (k3 hend)
  refine ⟨nbs, n1, n2, fun a => ?_⟩
  obtain ⟨r1, r2, r3, r4, r5, r6, r7, r8, r9⟩ := ready hfull hinj h1 body id hout
  have hx : ∀ a, key a ∈ (ranksOf out).flatten := fun a => (r5 _).2 (List.mem_map_of_mem (List.mem_finRange a))
  have hlc : ∀ x e, LeafOf (maxDepth bits (i + 1)) (i + 1) (ranksOf out).flatten x e ↔ LeafOf (maxDepth bits (i + 1)) (i + 1) ((List.finRange n).map key) x e := leafOf_congr r5
  obtain ⟨p, hp⟩ := Division.mem h1.division a
  obtain ⟨order, o1, o2⟩ := n2 p
  obtain ⟨⟨e, nb⟩, hc, hle, hnb⟩ := forall₂_right o2 (o1.mem_iff.2 hp)
  have hs := k3 hend p
  rw [← hout] at hs
  obtain ⟨ys, ρ, y1, y2, y3, y4⟩ := Rounded.served_density hκ hd hD r3 r4 huD (by rw [r8]; exact huN) (by intro x hx; obtain ⟨a, rfl⟩ := r7 x hx; rw [r6]; exact hmass a)
    (by intro x hx; obtain ⟨a, rfl⟩ := r7 x hx; rw [r6]; exact hb a) (by intro x hx; obtain ⟨a, rfl⟩ := r7 x hx; rw [r6]; exact hh a) hh0 hpos hs hc (hx a) ((hlc _ _).2 hle).2
  have hys : ys = (nbs a).map key := by
    refine zip_eq key ?_ y1 hnb
    rintro f y b ⟨q1, q2⟩ q3
    obtain ⟨q4, q5⟩ := (hlc _ _).2 q3
    have u1 := (Tree.leaf_path hd r3 q4 q1).1 q2
    have u2 := (Tree.leaf_path hd r3 q4 (hx b)).1 q5
    exact u2.2.2.1 y q1 u1.2.1
  have hmap : ∀ l : List (Fin n), (l.map key).map (bodyAt out) = l.map body := by
    intro l
    rw [List.map_map]
    exact List.map_congr_left fun a _ => r6 a
  have hlen : nb.length = (nbs a).length := hnb.length_eq
  rw [hys, hmap, r6] at y2
  refine ⟨ρ, y2, y3, ?_⟩
  have e1 : density (Kernels.kernel κ i) (body a) ((ranksOf out).flatten.map (bodyAt out)) = density (Kernels.kernel κ i) (body a) ((List.finRange n).map body) := by
    rw [← hmap]
    exact ((r9.map (bodyAt out)).map _).sum_eq
  have e2 : peak (Kernels.kernel κ i) (body a) (Rounded.near R (bodyAt out) (ranksOf out).flatten (key a)) =
      peak (Kernels.kernel κ i) (body a) (nearby (fun a b => max a.h b.h / (1 - R.u) ^ 4) body a) := by
    unfold Rounded.near nearby peak
    refine ((((r9.filter _).map (bodyAt out)).map _).sum_eq).trans ?_
    rw [List.filter_map, hmap]
    simp only [Function.comp_def, r6]
  rw [r6, e1, e2, hlen] at y4
  exact y4

end

/-! ### Too far from the origin -/

private theorem flat_range {d : Nat} {R : Rounding} (j : Fin d) (y : ℝ) : ∀ procs : List (List (Disc d)), procs ≠ [] → (∀ l ∈ procs, l ≠ [] ∧ ∀ b ∈ l, b.pos j = y ∧ R.fl (y - b.radius) = y ∧ R.fl (y + b.radius) = y) →
    ∃ range, computeRange R procs = some range ∧ range j = (y, y) := by
  have hfold : ∀ l : List (Disc d), (∀ b ∈ l, b.pos j = y ∧ R.fl (y - b.radius) = y ∧ R.fl (y + b.radius) = y) → l.foldl (extend R j) (y, y) = (y, y) := by
    intro l
    induction l with
    | nil => intro _; rfl
    | cons b l ih =>
      intro h
      obtain ⟨h1, h2, h3⟩ := h b List.mem_cons_self
      have : extend R j (y, y) b = (y, y) := by
        unfold extend
        simp only [h1, h2, h3]
        simp
      rw [List.foldl_cons, this]
      exact ih fun b hb => h b (List.mem_cons_of_mem _ hb)
  have hloc : ∀ l : List (Disc d), l ≠ [] → (∀ b ∈ l, b.pos j = y ∧ R.fl (y - b.radius) = y ∧ R.fl (y + b.radius) = y) → ∃ r, localRange R l = some r ∧ r j = (y, y) := by
    intro l hl h
    unfold localRange
    rw [List.getLast?_eq_getLast_of_ne_nil hl]
    refine ⟨_, rfl, ?_⟩
    show l.foldl (extend R j) (_, _) = (y, y)
    rw [(h _ (List.getLast_mem hl)).1]
    exact hfold l h
  intro procs hne h
  have hrs : ∀ procs : List (List (Disc d)), (∀ l ∈ procs, l ≠ [] ∧ ∀ b ∈ l, b.pos j = y ∧ R.fl (y - b.radius) = y ∧ R.fl (y + b.radius) = y) →
      ∃ rs, procs.mapM (localRange R (d := d)) = some rs ∧ rs.length = procs.length ∧ ∀ r ∈ rs, r j = (y, y) := by
    intro procs
    induction procs with
    | nil => intro _; exact ⟨[], rfl, rfl, by simp⟩
    | cons l procs ih =>
      intro h
      obtain ⟨rs, h1, h2, h3⟩ := ih fun l hl => h l (List.mem_cons_of_mem _ hl)
      obtain ⟨g1, g2⟩ := h l List.mem_cons_self
      obtain ⟨r, h4, h5⟩ := hloc l g1 g2
      refine ⟨r :: rs, by rw [List.mapM_cons, h4, h1]; rfl, by simp [h2], ?_⟩
      intro q hq
      rcases List.mem_cons.1 hq with rfl | hq
      · exact h5
      · exact h3 q hq
  obtain ⟨rs, h1, h2, h3⟩ := hrs procs h
  cases rs with
  | nil => exact absurd (List.length_eq_zero_iff.1 h2.symm) hne
  | cons r rs =>
    refine ⟨_, by unfold computeRange; rw [h1], ?_⟩
    have hr := h3 r List.mem_cons_self
    have hmin : ∀ l : List (Fin d → ℝ × ℝ), (∀ q ∈ l, q j = (y, y)) → l.foldl (fun (m : ℝ) q => m ⊓ (q j).1) y = y ∧ l.foldl (fun (m : ℝ) q => m ⊔ (q j).2) y = y := by
      intro l
      induction l with
      | nil => intro _; exact ⟨rfl, rfl⟩
      | cons q l ih =>
        intro h
        obtain ⟨i1, i2⟩ := ih fun q hq => h q (List.mem_cons_of_mem _ hq)
        rw [List.foldl_cons, List.foldl_cons, h q List.mem_cons_self, min_self, max_self]
        exact ⟨i1, i2⟩
    obtain ⟨i1, i2⟩ := hmin rs fun q hq => h3 q (List.mem_cons_of_mem _ hq)
    refine Prod.ext ?_ ?_
    · simp only [hr]; exact i1
    · simp only [hr]; exact i2

/-- Without `Resolved` the iteration fails: when the smoothing lengths are lost in the rounding and all particles have the same coordinate along an axis, the range has no width there and the keys divide by zero. -/
theorem C95_unresolved_violated {d n : Nat} {bits : Nat} {R : Rounding} {body : Fin n → Body d} (j : Fin d) (y : ℝ) (hy : ∀ a, (body a).pos j = y) (hlost : ∀ a, R.fl (y - (body a).h) = y ∧ R.fl (y + (body a).h) = y)
    {P : Nat} (hP : 0 < P) {vec : Fin P → List (Fin n)} (hvec : Division n P vec) (id old : Fin n → Nat) (S : StdSort) (junk : Nat → Fin P → Ent d) (fuel : Nat) (big : ℝ) :
    update R bits S junk fuel big (fun r => (vec r).map fun a => ⟨body a, id a, old a⟩) = none := by
  obtain ⟨range, h1, h2⟩ := flat_range (R := R) j y (List.ofFn fun r => ((vec r).map fun a => (⟨body a, id a, old a⟩ : Ent d)).map discOf)
    (by intro h0; have := congrArg List.length h0; simp at this; omega)
    (by
      intro l hl
      rw [List.mem_ofFn'] at hl
      obtain ⟨r, rfl⟩ := hl
      refine ⟨by simpa using hvec.nonempty r, fun b hb => ?_⟩
      obtain ⟨e, he, rfl⟩ := List.mem_map.1 hb
      obtain ⟨a, -, rfl⟩ := List.mem_map.1 he
      exact ⟨hy a, hlost a⟩)
  have h0 : R.fl 0 = 0 := by
    have := R.err 0
    rw [abs_zero, mul_zero, sub_zero] at this
    exact abs_eq_zero.1 (le_antisymm this (abs_nonneg _))
  have henc : ∀ p, Rounded.encode R bits d (axis fun j => (range j).1) (axis fun j => (range j).2) p = none := by
    intro p
    unfold Rounded.encode
    rw [if_neg]
    intro h
    have := h j j.2
    unfold Rounded.cellCoord at this
    simp only [axis, dif_pos j.2] at this
    rw [h2] at this
    simp [h0] at this
  have hkeys : computeKeys R bits range (fun r => (vec r).map fun a => (⟨body a, id a, old a⟩ : Ent d)) = none := by
    unfold computeKeys
    rw [if_neg]
    intro h
    have := h ⟨0, hP⟩
    dsimp only at this
    obtain ⟨a, l, hl⟩ := List.exists_cons_of_ne_nil (hvec.nonempty ⟨0, hP⟩)
    rw [hl, List.map_cons, List.mapM_cons, setKey, henc] at this
    simp at this
  unfold update arrange
  rw [h1, Option.bind_some]
  split_ifs
  · rfl
  · rw [hkeys]; rfl

/-! ### Cases -/

theorem ex_resolved : Resolved (nearest 53).u exBody := by
  have hu : (nearest 53).u = 2 ^ (-53 : ℤ) := rfl
  intro a
  refine ⟨(ex_h a).1, fun j => ?_⟩
  rw [hu]
  fin_cases a <;> fin_cases j <;> norm_num [exBody, abs_of_nonneg]

theorem ex_key : ∃ key, KeysOf (nearest 53) 64 exBody key ∧ key.Injective := by
  have hu : (nearest 53).u = 2 ^ (-53 : ℤ) := rfl
  have h31 : (2 : ℝ) ^ maxDepth 64 2 = 2147483648 := by norm_num [maxDepth]
  obtain ⟨key, h1, -, -, h2⟩ := C95_keys (bits := 64) (by decide) (by decide) ex_resolved (by rw [hu]; norm_num)
  refine ⟨key, h1, (h2 (by rw [hu, h31]; norm_num)).2 fun a b hab => ⟨1, ?_⟩⟩
  have h1 : boxHigh exBody 1 ≤ 4 := ciSup_le fun a => by fin_cases a <;> norm_num [exBody]
  have h2 : -1 ≤ boxLow exBody 1 := le_ciInf fun a => by fin_cases a <;> norm_num [exBody]
  have h3 : 6 * (boxHigh exBody 1 - boxLow exBody 1) / 2 ^ maxDepth 64 2 < 1 / 4 := by
    rw [h31, div_lt_iff₀ (by norm_num)]
    linarith
  refine lt_of_lt_of_le h3 ?_
  fin_cases a <;> fin_cases b <;> first | exact absurd rfl hab | (norm_num [exBody, abs_of_nonneg, abs_of_neg])

/-- Three particles in the plane in `double` on two processes: the iteration succeeds, the search can be run to its end, and every particle then has a density. -/
example : ∃ out s, update (nearest 53) 64 exSort (fun _ _ => ⟨exBody 0, 0, 0⟩) 3 1000 (fun r => (![[2, 0], [1]] r : List (Fin 3)).map fun a => ⟨exBody a, a, 0⟩) = some (out, s) ∧
    ∃ nbs : Fin 3 → List (Fin 3), ListsBetween (fun a b => (a.h + b.h) / 2 - 100 * maxDepth 64 2 * (nearest 53).u * 3) (fun a b => (a.h ⊔ b.h) / (1 - (nearest 53).u) ^ 4) exBody nbs ∧
      ∀ a, ∃ ρ, Rounded.computeDensity (nearest 53) .wendlandC4 (i := 1) (exBody a) ((nbs a).map exBody) = some ρ ∧ 0 < ρ := by
  have hu : (nearest 53).u = 2 ^ (-53 : ℤ) := rfl
  have h31 : maxDepth 64 2 = 31 := by decide
  obtain ⟨key, hk, hinj⟩ := ex_key
  obtain ⟨vec', out, s, Val, groups, -, -, h1, -, -, h2⟩ := C95_density_partial (i := 1) (bits := 64) (by decide) ex_resolved hk hinj (id := fun a => a) (fun a b h => Fin.ext h) (fun _ => 0) exSort (fun a => (ex_h a).2) 1000 (X := 3)
    (by intro a; refine ⟨(ex_h a).1.le, ?_, fun j => ?_⟩ <;> fin_cases a <;> (try fin_cases j) <;> norm_num [exBody, abs_of_nonneg])
    (by change 68 * ((maxDepth 64 2 : ℕ) : ℝ) * _ ≤ _; rw [h31, hu]; norm_num) .wendlandC4 (by rw [hu]; norm_num [Rounded.loss]) (h0 := 1) (by intro a; fin_cases a <;> norm_num [exBody])
    (by change 100 * ((maxDepth 64 2 : ℕ) : ℝ) * _ * _ ≤ _; rw [h31, hu]; norm_num) one_pos 0 le_rfl 8 (m := 1) ex_division (fun _ _ => ⟨exBody 0, 0, 0⟩) (fuel := 3) le_rfl
  obtain ⟨-, ⟨s'', r1, r2⟩, -⟩ := h2 _ .start
  obtain ⟨nbs, n1, -, n3⟩ := (h2 s'' r1).2.2 r2
  refine ⟨out, s, h1, nbs, n1, fun a => ?_⟩
  obtain ⟨ρ, q1, q2, -⟩ := n3 a
  exact ⟨ρ, q1, q2⟩

/-- The particles 0, 1 and 2 meet the hypotheses of the theorem on gravity. -/
example (G : ℝ) (ids : Ghosts.Key → Int) (key : Fin 3 → Nat) (hk : KeysOf (nearest 53) 64 exBody key) (hinj : key.Injective)
    (hids : ∀ a e, LeafOf (maxDepth 64 2) 2 ((List.finRange 3).map key) (key a) e → ids e = ((a : Nat) : Int)) :
    ∃ out s, update (nearest 53) 64 exSort (fun _ _ => ⟨exBody 0, 0, 0⟩) 3 1000 (fun r => (![[2, 0], [1]] r : List (Fin 3)).map fun a => ⟨exBody a, a, 0⟩) = some (out, s) := by
  have hu : (nearest 53).u = 2 ^ (-53 : ℤ) := rfl
  have h31 : maxDepth 64 2 = 31 := by decide
  obtain ⟨vec', out, s, Val, -, -, h1, -⟩ := C95_gravity_partial (bits := 64) (by decide) (by decide) ex_resolved hk hinj (fun _ => 0) exSort (fun a => (ex_h a).2) (by decide) 1000 (by decide) (by rw [h31, hu]; norm_num) (1 / 2) G
    (id := fun a => a) (fun a b h => Fin.ext h) (m := 1) ex_division (fun _ _ => ⟨exBody 0, 0, 0⟩) (fuel := 3) le_rfl ids hids
  exact ⟨out, s, h1⟩

/-- Two particles at height `2^55` with smoothing length 1, in `double`: the iteration is undefined. -/
example (junk : Nat → Fin 1 → Ent 2) : update (Rounded.tiesToEven 53) 64 exSort junk 2 1000 (fun _ => [⟨⟨![0, 2 ^ 55], 1, 1⟩, 0, 0⟩, ⟨⟨![1, 2 ^ 55], 1, 1⟩, 1, 0⟩]) = none := by
  have h := C95_unresolved_violated (R := Rounded.tiesToEven 53) (bits := 64) (n := 2) (body := fun a => ⟨![(a : ℝ), 2 ^ 55], 1, 1⟩) 1 (2 ^ 55) (fun a => rfl) (fun a => ⟨?_, ?_⟩) (P := 1) (by decide) (vec := fun _ => [0, 1])
    ⟨by decide, by decide⟩ (fun a => a) (fun _ => 0) exSort junk 2 1000
  · simpa using h
  · refine Rounded.fl_absorb (L := 54) (m := 2 ^ 53) ?_ ?_ ?_ ?_ <;> norm_num [abs_of_pos]
  · refine Rounded.fl_absorb (L := 55) (m := 2 ^ 52) ?_ ?_ ?_ ?_ <;> norm_num [abs_of_pos]

end FleCSPH.RoundedUpdate
