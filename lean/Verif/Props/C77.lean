import Verif.Lemmas.Update
/-!
C77: an iteration from the positions of the particles to the neighbour lists and the gravitational field. `update` is `update_iteration` (range, keys, distributed sort, trees), after which the traversals run.
The particles are `0 ... n-1` and may be divided in any way among the processes before.

Missing: rounding (Props/C95.lean), periodic boundaries (Props/C75.lean), numbers of processes which are no power of two (Props/C17.lean), two particles in the same cell of the finest grid, where `build_tree` is undefined
(`C10_duplicate_violated`).
-/
namespace FleCSPH.Update
open FleCSPH.Spec FleCSPH.Cofm FleCSPH.Psort FleCSPH.Startup FleCSPH.Geometry FleCSPH.Key

section Main
variable {d n : Nat} {bits : Nat} (hd : 0 < d) (hbits : d < bits) {body : Fin n → Body d} (hh : ∀ a, 0 < (body a).h)
include hd hbits hh

/-- The keys are determined by the particles alone, and differ if no two particles are in the same cell. -/
theorem C77_keys : ∃ key : Fin n → Nat, ZKey (maxDepth bits d) body key ∧ (∀ key', ZKey (maxDepth bits d) body key' → key' = key) ∧ (Separate (maxDepth bits d) body → key.Injective) := by
  obtain ⟨key, h1, -⟩ := encode_key (bits := bits) (by omega) hd hh
  exact ⟨key, h1, fun key' h' => zkey_unique (by omega) hd hh h' h1, fun hs => zkey_inj hd h1 hs⟩

variable (hsep : Separate (maxDepth bits d) body) {key : Fin n → Nat} (hkey : ZKey (maxDepth bits d) body key) {id : Fin n → Nat} (hid : id.Injective) (old : Fin n → Nat) (S : StdSort)
include hsep hkey hid

/-- On any number of processes and for any division of the particles, range, keys and sort succeed: no particle is lost or doubled or changed, every process has as many as before, and the keys increase
from process to process. The result does not depend on `std::sort` and on what is read from empty parts. -/
theorem C77_sorted {P : Nat} (hP : 0 < P) {vec : Fin P → List (Fin n)} (hvec : Division n P vec) :
    ∃ vec', Arranged n P vec key vec' ∧ (∀ vec'', Arranged n P vec key vec'' → vec'' = vec') ∧ ∀ (junk : Nat → Fin P → Ent d) (fuel : Nat), n ≤ fuel →
      arrange bits S junk fuel (fun r => (vec r).map fun a => ⟨body a, id a, old a⟩) = some fun r => (vec' r).map fun a => ⟨body a, id a, key a⟩ := by
  have key' := fun (junk : Nat → Fin P → Ent d) (fuel : Nat) (hf : n ≤ fuel) => arrange_eq (by omega) hd hP hh hsep hkey hid old hvec S junk hf
  have huniq : ∀ v w, Arranged n P vec key v → Arranged n P vec key w → v = w := by
    intro v w hv hw
    have hperm : ((List.finRange P).flatMap v).Perm ((List.finRange P).flatMap w) := hv.division.all.trans hw.division.all.symm
    have heq : (List.finRange P).flatMap v = (List.finRange P).flatMap w :=
      hperm.eq_of_pairwise (le := fun a b => key a < key b) (fun a b _ _ h h' => absurd h (by omega)) hv.increasing hw.increasing
    have hsz : ∀ r, (v r).length = (w r).length := fun r => (hv.sizes r).trans (hw.sizes r).symm
    have : ∀ l : List (Fin P), l.flatMap v = l.flatMap w → ∀ r ∈ l, v r = w r := by
      intro l
      induction l with
      | nil => simp
      | cons a l ih =>
        intro h r hr
        rw [List.flatMap_cons, List.flatMap_cons] at h
        obtain ⟨h1, h2⟩ := List.append_inj h (hsz a)
        rcases List.mem_cons.1 hr with rfl | hr
        · exact h1
        · exact ih h2 r hr
    exact funext fun r => this _ heq r (List.mem_finRange r)
  obtain ⟨a0⟩ : Nonempty (Fin n) := ⟨⟨0, Division.pos hvec hP⟩⟩
  obtain ⟨vec', h1, -⟩ := key' (fun _ _ => ⟨body a0, 0, 0⟩) n le_rfl
  refine ⟨vec', h1, fun v hv => huniq _ _ hv h1, fun junk fuel hf => ?_⟩
  obtain ⟨v, h2, h3⟩ := key' junk fuel hf
  rw [huniq _ _ h2 h1] at h3
  exact h3

variable (hmass : ∀ a, 0 < (body a).mass) (big : ℝ)
include hmass

section
open FleCSPH.Ghosts FleCSPH.SphRun

/-- From the positions to the neighbour lists on `2^m` processes: `update` succeeds with the particles sorted as in `C77_sorted`; then, for every order of messages, the traversal does no undefined step and can
always be ended, and when it has ended the user's function was called once for every particle, on the process which has it, with lists which hold all particles not further away than the mean of the
smoothing lengths, on whatever process they are. -/
theorem C77_neighbours_partial (tol : ℝ) (htol : 0 ≤ tol) (sent : Nat) {m : Nat} {vec : Fin (2 ^ m) → List (Fin n)} (hvec : Division n (2 ^ m) vec) (junk : Nat → Fin (2 ^ m) → Ent d) {fuel : Nat} (hfuel : n ≤ fuel) :
    ∃ vec' out s Val groups, Arranged n (2 ^ m) vec key vec' ∧ (∀ r, out r = (vec' r).map fun a => ⟨body a, id a, key a⟩) ∧
      update bits S junk fuel big (fun r => (vec r).map fun a => ⟨body a, id a, old a⟩) = some (out, s) ∧
      TreeData (maxDepth bits d) d (· ∈ (ranksOf out).flatten) (summarise big) (fun x => .inl (bodyAt out x)) Val ∧
      (∀ p < 2 ^ m, ∃ me, s[p]? = some me ∧ groupsOf (2 ^ d) me.tbl sent (maxDepth bits d + 1) = some (groups p)) ∧
      let Q := sph (2 ^ m) (2 ^ d) (accepts tol Val) (maxDepth bits d + 2)
      ∀ s', Run Q (begin_ s groups) s' → (∀ r, Next Q s' r → r ≠ none) ∧ (∃ s'', Run Q s' s'' ∧ ∀ p < 2 ^ m, exited (2 ^ m) s'' p) ∧
        ((∀ p < 2 ^ m, exited (2 ^ m) s' p) → ∃ nbs, GoodLists body nbs ∧ ∀ p : Fin (2 ^ m), CallsFor (maxDepth bits d) d key nbs (vec' p) (calls Val (s'.results p))) := by
  have hP : 0 < 2 ^ m := Nat.pow_pos (by decide)
  have hD : 0 < maxDepth bits d := Nat.div_pos (by omega) hd
  have hinj := zkey_inj hd hkey hsep
  obtain ⟨vec', h1, h2⟩ := arrange_eq (by omega) hd hP hh hsep hkey hid old hvec S junk hfuel
  obtain ⟨out, hout⟩ : ∃ out : Fin (2 ^ m) → List (Ent d), out = fun r => (vec' r).map (entOf body id key) := ⟨_, rfl⟩
  have hmem : ∀ x, x ∈ (ranksOf out).flatten ↔ x ∈ (List.finRange n).map key := fun x => by rw [hout]; exact mem_ranksOf h1.division x
  have hb : ∀ a, bodyAt out (key a) = body a := fun a => by rw [hout]; exact bodyAt_key hinj body id h1.division a
  have hlab : ∀ x ∈ (ranksOf out).flatten, ∃ a, key a = x := fun x hx => by
    obtain ⟨a, -, h⟩ := List.mem_map.1 ((hmem x).1 hx)
    exact ⟨a, h⟩
  obtain ⟨s, Val, groups, g1, g2, g3, -, g4⟩ := C13_distributed_partial (D := maxDepth bits d) (dim := d) (ranks := ranksOf out) hd hD (by rw [ranksOf, List.length_ofFn])
    (by
      intro l hl
      rw [ranksOf, List.mem_ofFn'] at hl
      obtain ⟨r, rfl⟩ := hl
      rw [hout]
      simpa using h1.division.nonempty r)
    (by
      intro x hx
      obtain ⟨a, rfl⟩ := hlab x hx
      exact zkey_full hkey a)
    (by
      rw [hout, ranks_flatten, List.pairwise_map]
      exact h1.increasing)
    big (bodyAt out) (by intro x hx; obtain ⟨a, rfl⟩ := hlab x hx; rw [hb]; exact hmass a) (by intro x hx; obtain ⟨a, rfl⟩ := hlab x hx; rw [hb]; exact (hh a).le) tol htol sent
  refine ⟨vec', out, s, Val, groups, h1, fun r => by rw [hout]; rfl, ?_, g2, fun p hp => ?_, ?_⟩
  · unfold update
    have : arrange bits S junk fuel (fun r => (vec r).map fun a => ⟨body a, id a, old a⟩) = some out := by rw [hout]; exact h2
    rw [this, Option.bind_some, g1]; rfl
  · obtain ⟨me, e1, e2, -⟩ := g3 p hp
    exact ⟨me, e1, e2⟩
  · intro Q s' hrun
    obtain ⟨k1, -, k3, -, k5⟩ := g4 s' hrun
    refine ⟨k1, k3, fun hend => ?_⟩
    refine calls_for hD hd hinj (fun a => zkey_full hkey a) (id := id) h1.division (fun p => calls Val (s'.results p)) fun p => ?_
    have := (k5 hend).1 p p.2
    rw [hout] at this
    exact this

end

section
open FleCSPH.Ghosts FleCSPH.DistGravity

omit hid in
/-- From the positions to the gravitational field: the particles alone determine a potential and an acceleration for each of them; on every number `2^m` of processes, for every division of the particles and every
order of messages, `update` succeeds, and after any number of other traversals (`After`) this one does no undefined step and can always be ended, and when it has ended the process of each particle has computed
these values. They differ from Newton's law by the stated fraction of the sum of the magnitudes, which vanishes with the acceptance angle. -/
theorem C77_gravity_partial (hn : 2 ≤ n) (angle G : ℝ) :
    ∃ (pot : Fin n → ℝ) (acc : Fin n → Point d), ∀ (S : StdSort) (id : Fin n → Nat), id.Injective → ∀ (old : Fin n → Nat) (m : Nat) (vec : Fin (2 ^ m) → List (Fin n)), Division n (2 ^ m) vec →
      ∀ (junk : Nat → Fin (2 ^ m) → Ent d) (fuel : Nat), n ≤ fuel →
      ∃ vec' out s, Arranged n (2 ^ m) vec key vec' ∧ (∀ r, out r = (vec' r).map fun a => ⟨body a, id a, key a⟩) ∧
        update bits S junk fuel big (fun r => (vec r).map fun a => ⟨body a, id a, old a⟩) = some (out, s) ∧
        ∀ ids : Key → Int, (∀ a e, LeafOf (maxDepth bits d) d ((List.finRange n).map key) (key a) e → ids e = id a) →
        ∀ tbl dat, After (2 ^ m) (2 ^ d) (maxDepth bits d + 2) s tbl dat → ∀ T, DRun (2 ^ m) (2 ^ d) angle (DistGravity.begin_ (2 ^ m) s tbl dat) T →
          (∀ r, Next (par (2 ^ m) (2 ^ d) angle T.dat) T.run r → r ≠ none) ∧ (∃ T', DRun (2 ^ m) (2 ^ d) angle T T' ∧ ∀ p < 2 ^ m, exited (2 ^ m) T'.run p) ∧
          ((∀ p < 2 ^ m, exited (2 ^ m) T.run p) → ∀ p : Fin (2 ^ m), ∃ F, gravity (2 ^ d) p (T.run.tbl p) (T.dat p) G ids (maxDepth bits d + 1) (T.run.results p) = some F ∧
            ∀ a ∈ vec' p, ∀ e, LeafOf (maxDepth bits d) d ((List.finRange n).map key) (key a) e → F.pot e = pot a ∧ F.acc e = acc a ∧ ∀ t, t = max angle 0 →
              distance (F.acc e) (accelerationAt G body a) ≤ (4 * t + 5 * t ^ 2 + 2 * t ^ 3) * ∑ b ∈ Finset.univ.erase a, |G| * (body b).mass / distance (body a).pos (body b).pos ^ 2 ∧
              |F.pot e - potentialAt G body a| ≤ (2 * t + t ^ 2) * ∑ b ∈ Finset.univ.erase a, |G| * (body b).mass / distance (body a).pos (body b).pos) := by
  classical
  have hD : 0 < maxDepth bits d := Nat.div_pos (by omega) hd
  have hinj := zkey_inj hd hkey hsep
  have hn0 : 0 < n := by omega
  have hpos : ∀ a b, a ≠ b → (body a).pos ≠ (body b).pos := by
    intro a b hab h
    obtain ⟨c, hc, -⟩ := hkey a
    exact hab (hsep a b c hc fun j => by rw [← h]; exact hc j)
  -- all keys in order, and the particle of a key
  obtain ⟨all, hall⟩ : ∃ all, all = (Finset.univ.image key).sort (· ≤ ·) := ⟨_, rfl⟩
  have hmem : ∀ x, x ∈ all ↔ x ∈ (List.finRange n).map key := by intro x; rw [hall]; simp
  have hsorted : all.Pairwise (· < ·) := by
    rw [hall]
    exact (Finset.sortedLT_sort _).pairwise
  have hlab : ∀ x ∈ all, ∃ a, key a = x := fun x hx => by
    obtain ⟨a, -, h⟩ := List.mem_map.1 ((hmem x).1 hx)
    exact ⟨a, h⟩
  have hka : ∀ a, key a ∈ all := fun a => (hmem _).2 (List.mem_map_of_mem (List.mem_finRange a))
  have hlen : 2 ≤ all.length := by rw [hall, Finset.length_sort, Finset.card_image_of_injective _ hinj, Finset.card_univ, Fintype.card_fin]; exact hn
  obtain ⟨B, hB⟩ : ∃ B : Nat → Body d, B = fun x => if h : ∃ a, key a = x then body h.choose else ⟨0, 0, 0⟩ := ⟨_, rfl⟩
  have hBk : ∀ a, B (key a) = body a := by
    intro a
    have hex : ∃ b, key b = key a := ⟨a, rfl⟩
    rw [hB]
    simp only [dif_pos hex]
    rw [hinj hex.choose_spec]
  have hfull : ∀ x ∈ all, FullKey (maxDepth bits d) d x := by intro x hx; obtain ⟨a, rfl⟩ := hlab x hx; exact zkey_full hkey a
  have hBm : ∀ x ∈ all, 0 < (B x).mass := by intro x hx; obtain ⟨a, rfl⟩ := hlab x hx; rw [hBk]; exact hmass a
  have hBp : ∀ x ∈ all, ∀ y ∈ all, x ≠ y → (B x).pos ≠ (B y).pos := by
    intro x hx y hy hxy
    obtain ⟨a, rfl⟩ := hlab x hx
    obtain ⟨b, rfl⟩ := hlab y hy
    rw [hBk, hBk]
    exact hpos a b fun h => hxy (by rw [h])
  have hlc : ∀ x e, LeafOf (maxDepth bits d) d all x e ↔ LeafOf (maxDepth bits d) d ((List.finRange n).map key) x e := leafOf_congr hmem
  -- sums
  have hset : ∀ a, all.toFinset.erase (key a) = (Finset.univ.erase a).image key := by
    intro a
    have : all.toFinset = Finset.univ.image key := by ext x; rw [List.mem_toFinset, hmem]; simp
    rw [this, Finset.image_erase hinj]
  have hsum : ∀ {M : Type} [AddCommMonoid M] (a : Fin n) (f : Nat → M), ∑ y ∈ all.toFinset.erase (key a), f y = ∑ b ∈ Finset.univ.erase a, f (key b) := by
    intro M _ a f
    rw [hset, Finset.sum_image fun x _ y _ h => hinj h]
  have hids : ∀ id : Fin n → Nat, id.Injective → ∀ ids : Key → Int, (∀ a e, LeafOf (maxDepth bits d) d ((List.finRange n).map key) (key a) e → ids e = id a) →
      ∀ x ∈ all, ∀ y ∈ all, ∀ e f, LeafOf (maxDepth bits d) d all x e → LeafOf (maxDepth bits d) d all y f → ids e = ids f → x = y := by
    intro id hid ids hids x hx y hy e f he hf hef
    obtain ⟨a, rfl⟩ := hlab x hx
    obtain ⟨b, rfl⟩ := hlab y hy
    rw [hids a e ((hlc _ _).1 he), hids b f ((hlc _ _).1 hf)] at hef
    exact congrArg key (hid (by exact_mod_cast hef))
  obtain ⟨pot, acc, hind⟩ := C76_independent_partial hd hD hfull hsorted hlen B hBm hBp big angle G
  refine ⟨fun a => pot (key a), fun a => acc (key a), fun S id hid old m vec hvec junk fuel hfuel => ?_⟩
  obtain ⟨vec', h1, h2⟩ := arrange_eq (by omega) hd (Nat.pow_pos (by decide)) hh hsep hkey hid old hvec S junk hfuel
  obtain ⟨out, hout⟩ : ∃ out : Fin (2 ^ m) → List (Ent d), out = fun r => (vec' r).map (entOf body id key) := ⟨_, rfl⟩
  have hBo : bodyAt out = B := by
    funext x
    by_cases hx : ∃ a, key a = x
    · obtain ⟨a, rfl⟩ := hx
      rw [hBk, hout]
      exact bodyAt_key hinj body id h1.division a
    · rw [hB]
      simp only [dif_neg hx]
      unfold bodyAt
      rw [List.find?_eq_none.2]
      intro e he hc
      rw [hout, ← List.map_flatMap] at he
      obtain ⟨a, -, rfl⟩ := List.mem_map.1 he
      exact hx ⟨a, by simpa [entOf] using hc⟩
  have hfl : (ranksOf out).flatten = all := by
    have hs1 : (ranksOf out).flatten.Pairwise (· < ·) := by
      rw [hout, ranks_flatten, List.pairwise_map]
      exact h1.increasing
    refine List.Perm.eq_of_pairwise (le := (· < ·)) (fun a b _ _ h h' => absurd h (by omega)) hs1 hsorted ?_
    refine (List.perm_ext_iff_of_nodup (hs1.imp fun h => h.ne) (hsorted.imp fun h => h.ne)).2 fun x => ?_
    rw [hmem, hout]
    exact mem_ranksOf h1.division x
  have hln : (ranksOf out).length = 2 ^ m := by rw [ranksOf, List.length_ofFn]
  have hne : ∀ l ∈ ranksOf out, l ≠ [] := by
    intro l hl
    rw [ranksOf, List.mem_ofFn'] at hl
    obtain ⟨r, rfl⟩ := hl
    rw [hout]
    simpa using h1.division.nonempty r
  have harr : arrange bits S junk fuel (fun r => (vec r).map fun a => ⟨body a, id a, old a⟩) = some out := by rw [hout]; exact h2
  have hget : ∀ p : Fin (2 ^ m), (ranksOf out)[p.val]? = some ((vec' p).map key) := fun p => by rw [hout]; exact ranksOf_get p
  obtain ⟨s, hs⟩ : ∃ s, startup (maxDepth bits d) d (summarise big) (fun x => .inl (B x)) (ranksOf out) = some s := by
    obtain ⟨s, h, -⟩ := Parts.startup (D := maxDepth bits d) (dim := d) ⟨hd, hD, hne, by rw [hfl]; exact hfull, by rw [hfl]; exact hsorted⟩ hln (summarise (d := d) big) (fun x => .inl (B x))
    exact ⟨s, h⟩
  refine ⟨vec', out, s, h1, fun r => by rw [hout]; rfl, ?_, fun ids hi tbl dat ha T hT => ?_⟩
  · unfold update
    rw [harr, Option.bind_some, hBo, hs]; rfl
  · obtain ⟨s1, hs1, herr⟩ := C76_error_bound_partial hd hD hln hne (by rw [hfl]; exact hfull) (by rw [hfl]; exact hsorted) (by rw [hfl]; exact hlen) B (by rw [hfl]; exact hBm) (by rw [hfl]; exact hBp) ids
      (by rw [hfl]; exact hids id hid ids hi) big angle G
    obtain ⟨s2, hs2, hin⟩ := hind ids (hids id hid ids hi) m (ranksOf out) hln hne hfl
    obtain rfl := Option.some.inj (hs1.symm.trans hs)
    obtain rfl := Option.some.inj (hs2.symm.trans hs)
    obtain ⟨k1, k2, k3⟩ := herr tbl dat ha T hT
    refine ⟨k1, k2, fun hend p => ?_⟩
    obtain ⟨F, f1, f2⟩ := k3 hend p _ (hget p)
    obtain ⟨F', f1', f3⟩ := hin tbl dat ha T hT hend p _ (hget p)
    obtain rfl := Option.some.inj (f1'.symm.trans f1)
    rw [hfl] at f2
    refine ⟨F', f1', fun a ha e he => ?_⟩
    have hka' : key a ∈ (vec' p).map key := List.mem_map_of_mem ha
    obtain ⟨e1, e2⟩ := f3 (key a) hka' e ((hlc _ _).2 he)
    refine ⟨e1, e2, fun t ht => ?_⟩
    obtain ⟨b1, b2⟩ := f2 (key a) hka' e ((hlc _ _).2 he) t ht
    have hacc : accelerationOf G B all (key a) = accelerationAt G body a := by
      funext i
      simp only [accelerationOf, accelerationAt]
      rw [hsum]
      exact Finset.sum_congr rfl fun b _ => by rw [hBk, hBk]
    have hpt : potentialOf G B all (key a) = potentialAt G body a := by
      simp only [potentialOf, potentialAt]
      rw [hsum]
      exact Finset.sum_congr rfl fun b _ => by rw [hBk, hBk]
    rw [hacc, hsum] at b1
    rw [hpt, hsum] at b2
    simp only [hBk] at b1 b2
    exact ⟨b1, b2⟩

end

end Main

/-- Particles which are further apart than the width of a cell along one axis are in different cells: `2^-21` of the box in three dimensions with 64-bit keys. -/
theorem C77_separate {d n D : Nat} {body : Fin n → Body d} (hh : ∀ a, 0 < (body a).h) (h : ∀ a b, a ≠ b → ∃ j, (boxHigh body j - boxLow body j) / 2 ^ D < |(body a).pos j - (body b).pos j|) : Separate D body := by
  intro a b c ha hb
  by_contra hab
  obtain ⟨j, hj⟩ := h a b hab
  have hn : (0 : ℝ) < 2 ^ D := by positivity
  have hbox := box_bounds hh a j
  have key : ∀ x, InGridCell D body c x → boxLow body j + (boxHigh body j - boxLow body j) * c j / 2 ^ D ≤ (body x).pos j ∧
      (body x).pos j ≤ boxLow body j + (boxHigh body j - boxLow body j) * c j / 2 ^ D + (boxHigh body j - boxLow body j) / 2 ^ D := by
    intro x hx
    obtain ⟨-, h2, h3⟩ := hx j
    push_cast at h2 h3
    refine ⟨h2, ?_⟩
    have e : boxLow body j + (boxHigh body j - boxLow body j) * (c j + 1) / 2 ^ D = boxLow body j + (boxHigh body j - boxLow body j) * c j / 2 ^ D + (boxHigh body j - boxLow body j) / 2 ^ D := by ring
    rcases h3 with h3 | ⟨h3, h4⟩
    · rw [← e]; exact h3.le
    · rw [← e, h4]
      have : ((c j : ℝ) + 1) = 2 ^ D := by exact_mod_cast h3
      rw [this, mul_div_assoc, div_self hn.ne']
      linarith
  have h1 := key a ha
  have h2 := key b hb
  rw [lt_abs] at hj
  rcases hj with hj | hj <;> linarith

/-! ### A case: three particles in the plane, two of them neighbours, divided among two processes; 64-bit keys. -/

/-- An implementation of `std::sort`. -/
def exSort : StdSort where
  run lt l := l.mergeSort fun a b => !lt b a
  perm lt l := List.mergeSort_perm l _
  sorted lt l hw := by
    have := List.pairwise_mergeSort (le := fun a b => !lt b a) (fun a b c h1 h2 => by
      simp only [Bool.not_eq_true'] at *
      exact hw.incomp _ _ _ h2 h1) (fun a b => by
      cases h : lt b a with
      | false => rfl
      | true =>
        cases h' : lt a b with
        | false => rfl
        | true => exact absurd (hw.trans _ _ _ h h') (by rw [hw.irrefl]; decide)) l
    exact this.imp fun h => by simpa using h

noncomputable def exBody : Fin 3 → Body 2 := ![⟨![0, 0], 1, 1⟩, ⟨![3, 2], 1, 1⟩, ⟨![3, 5 / 2], 2, 1⟩]

theorem ex_h (a : Fin 3) : 0 < (exBody a).h ∧ 0 < (exBody a).mass := by fin_cases a <;> simp [exBody]

theorem ex_separate : Separate (maxDepth 64 2) exBody := by
  refine C77_separate (fun a => (ex_h a).1) fun a b hab => ⟨1, ?_⟩
  have h1 : boxHigh exBody 1 ≤ 4 := ciSup_le fun a => by fin_cases a <;> norm_num [exBody]
  have h2 : -1 ≤ boxLow exBody 1 := le_ciInf fun a => by fin_cases a <;> norm_num [exBody]
  have h3 : (boxHigh exBody 1 - boxLow exBody 1) / 2 ^ maxDepth 64 2 < 1 / 4 := by
    have : (2 : ℝ) ^ maxDepth 64 2 = 2147483648 := by norm_num [maxDepth]
    rw [this, div_lt_iff₀ (by norm_num)]
    linarith
  refine lt_of_lt_of_le h3 ?_
  fin_cases a <;> fin_cases b <;> first | exact absurd rfl hab | (norm_num [exBody, abs_of_nonneg, abs_of_neg])

theorem ex_division : Division 3 (2 ^ 1) ![[2, 0], [1]] := ⟨by decide, by decide⟩

/-- On two processes the iteration ends with a field for each particle which obeys the bound for an angle of one half, and in the traversal for the neighbours the calls are as they should. -/
example : (∃ s, ∃ out : Fin (2 ^ 1) → List (Ent 2), update 64 exSort (fun _ _ => ⟨exBody 0, 0, 0⟩) 3 1000 (fun r => (![[2, 0], [1]] r : List (Fin 3)).map fun a => ⟨exBody a, a, 0⟩) = some (out, s)) ∧
    √(∑ j, ((exBody 1).pos j - (exBody 2).pos j) ^ 2) ≤ ((exBody 1).h + (exBody 2).h) / 2 := by
  obtain ⟨key, hk, -, -⟩ := C77_keys (bits := 64) (by decide) (by decide) fun a => (ex_h a).1
  obtain ⟨vec', out, s, -, -, -, -, h, -⟩ := C77_neighbours_partial (bits := 64) (by decide) (by decide) (fun a => (ex_h a).1) ex_separate hk (id := fun a => a) (fun a b h => Fin.ext h) (fun _ => 0) exSort (fun a => (ex_h a).2)
    1000 0 le_rfl 8 (m := 1) ex_division (fun _ _ => ⟨exBody 0, 0, 0⟩) (fuel := 3) le_rfl
  refine ⟨⟨s, out, h⟩, ?_⟩
  have e1 : exBody 1 = ⟨![3, 2], 1, 1⟩ := rfl
  have e2 : exBody 2 = ⟨![3, 5 / 2], 2, 1⟩ := rfl
  rw [e1, e2, Real.sqrt_le_left (by norm_num)]
  norm_num [Fin.sum_univ_two]

/-- The computation of gravity of these particles on the two processes runs to its end, and both processes have a field. -/
example : ∃ out s T, update 64 exSort (fun _ _ => ⟨exBody 0, 0, 0⟩) 3 1000 (fun r => (![[2, 0], [1]] r : List (Fin 3)).map fun a => ⟨exBody a, a, 0⟩) = some (out, s) ∧
    DistGravity.DRun (2 ^ 1) (2 ^ 2) (1 / 2) (DistGravity.begin_ (2 ^ 1) s (ghostTables s) (DistGravity.dataOf s)) T ∧ (∀ p < 2 ^ 1, Ghosts.exited (2 ^ 1) T.run p) ∧
    ∀ ids : Ghosts.Key → Int, (∀ key, ZKey (maxDepth 64 2) exBody key → ∀ a e, LeafOf (maxDepth 64 2) 2 ((List.finRange 3).map key) (key a) e → ids e = a) →
      ∀ p : Fin (2 ^ 1), ∃ F, DistGravity.gravity (2 ^ 2) p (T.run.tbl p) (T.dat p) 1 ids (maxDepth 64 2 + 1) (T.run.results p) = some F := by
  obtain ⟨key, hk, -, -⟩ := C77_keys (bits := 64) (by decide) (by decide) fun a => (ex_h a).1
  obtain ⟨pot, acc, h⟩ := C77_gravity_partial (bits := 64) (by decide) (by decide) (fun a => (ex_h a).1) ex_separate hk (fun a => (ex_h a).2) 1000 (by decide) (1 / 2) 1
  obtain ⟨vec', out, s, -, -, h1, h2⟩ := h exSort (fun a => a) (fun a b h => Fin.ext h) (fun _ => 0) 1 ![[2, 0], [1]] ex_division (fun _ _ => ⟨exBody 0, 0, 0⟩) 3 le_rfl
  obtain ⟨e0, he0⟩ : ∃ ids : Ghosts.Key → Int, ∀ a e, LeafOf (maxDepth 64 2) 2 ((List.finRange 3).map key) (key a) e → ids e = ((a : Nat) : Int) :=
    leaf_ids (by decide) (by decide) (zkey_inj (by decide) hk ex_separate) (fun a => zkey_full hk a) fun a => a
  obtain ⟨-, ⟨T, h3, h4⟩, -⟩ := h2 e0 he0 _ _ .built _ .start
  refine ⟨out, s, T, h1, h3, h4, fun ids hi p => ?_⟩
  obtain ⟨-, -, h5⟩ := h2 ids (fun a e he => hi key hk a e he) _ _ .built T h3
  obtain ⟨F, h6, -⟩ := h5 h4 p
  exact ⟨F, h6⟩

end FleCSPH.Update
