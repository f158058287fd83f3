import Verif.Lemmas.RoundedGravity4
import Verif.Props.C76
import Verif.Props.C84
/-!
C94: self-gravity in floating-point arithmetic, from the keys to the accelerations, on `2^m` processes and for every order of messages.

Every operation on `double` is rounded: the masses, centres and radii of the nodes (`Rounded.summarise`), the acceptance criterion, the interactions, the sums and the expansion to the particles. The
error against Newton's law is the one of C76 plus a multiple of the unit roundoff and of the number of particles.

Missing: overflow and underflow; a number of processes that is not a power of two; other traversals before this one (C76 has them in exact arithmetic).
-/
namespace FleCSPH.Rounded
open FleCSPH.Spec FleCSPH.Tree FleCSPH.Ghosts FleCSPH.Startup FleCSPH.Cofm FleCSPH.Geometry FleCSPH.DistGravity
open FleCSPH.Fmm (distance_eq_zero grav shift eucL norm_euc_sub expand_err)

/-- One interaction of two particles, or of a particle and a node: it is defined whenever the positions differ, and the potential and every component of the acceleration have a relative error of at most
`(1+u)^50-1` against Newton's law. -/
theorem C94_pair {d : Nat} (hd : d ≤ 3) {R : Rounding} (hu : 46 * R.u ≤ 1) (G : ℝ) {m : ℝ} (hm : 0 ≤ m) {x y : Point d} (hxy : x ≠ y) :
    ∃ g h, gravitationP2P R G x y m = some g ∧ gravitationFc R G x y m = some h ∧ ∀ r, (r = g ∨ r = h) →
      |r.1 - -G * m / Geometry.distance x y| ≤ ((1 + R.u) ^ 50 - 1) * |-G * m / Geometry.distance x y| ∧
      ∀ i, |r.2 i - -G * m * (x i - y i) / Geometry.distance x y ^ 3| ≤ ((1 + R.u) ^ 50 - 1) * |-G * m * (x i - y i) / Geometry.distance x y ^ 3| := by
  have hE : Err R 0 m m m := (Err.refl (R := R) m).congr rfl (abs_of_nonneg hm)
  obtain ⟨g, g1, g2⟩ := p2p_err hd hu G hxy hE
  obtain ⟨h, h1, h2⟩ := fc_err hd hu G hxy hE
  have h0 := distance_nonneg x y
  have e1 : |-G * m / Geometry.distance x y| = |G| * m / Geometry.distance x y := by rw [abs_div, abs_mul, abs_neg, abs_of_nonneg hm, abs_of_nonneg h0]
  have e2 : ∀ i, |-G * m * (x i - y i) / Geometry.distance x y ^ 3| = |G| * m * |x i - y i| / (Geometry.distance x y * Geometry.distance x y * Geometry.distance x y) := fun i => by
    rw [abs_div, abs_mul, abs_mul, abs_neg, abs_of_nonneg hm, abs_of_nonneg (pow_nonneg h0 3), pow_three']
  have key : ∀ r, ErrV R (0 + 50) (grav G x y m) r (gravS G x y m) → |r.1 - -G * m / Geometry.distance x y| ≤ ((1 + R.u) ^ 50 - 1) * |-G * m / Geometry.distance x y| ∧
      ∀ i, |r.2 i - -G * m * (x i - y i) / Geometry.distance x y ^ 3| ≤ ((1 + R.u) ^ 50 - 1) * |-G * m * (x i - y i) / Geometry.distance x y ^ 3| := by
    intro r hr
    refine ⟨?_, fun i => ?_⟩
    · rw [e1]
      exact hr.1.2
    · rw [e2, pow_three']
      exact (hr.2 i).2
  exact ⟨g, h, g1, h1, fun r hr => by rcases hr with rfl | rfl; exacts [key _ g2, key _ h2]⟩

/-- The forces of Newton's law on the particles add up to zero. -/
theorem newton_momentum {d : Nat} (G : ℝ) (body : Nat → Body d) (all : List Nat) (i : Fin d) : ∑ x ∈ all.toFinset, (body x).mass * accelerationOf G body all x i = 0 := by
  have hsum : ∑ x ∈ all.toFinset, (body x).mass * accelerationOf G body all x i =
      ∑ x ∈ all.toFinset, ∑ y ∈ all.toFinset, if x = y then (0 : ℝ) else (body x).mass * (-G * (body y).mass * ((body x).pos i - (body y).pos i) / Geometry.distance (body x).pos (body y).pos ^ 3) := by
    refine Finset.sum_congr rfl fun x hx => ?_
    rw [accelerationOf, Finset.mul_sum, ← Finset.sum_erase (a := x) (f := fun y => if x = y then (0 : ℝ) else _) _ (if_pos rfl)]
    exact Finset.sum_congr rfl fun y hy => by rw [if_neg (Finset.ne_of_mem_erase hy).symm]
  have hanti : ∀ X : ℝ, X = -X → X = 0 := fun X h => by linarith
  rw [hsum]
  apply hanti
  conv_rhs => rw [Finset.sum_comm]
  rw [← Finset.sum_neg_distrib]
  refine Finset.sum_congr rfl fun x _ => ?_
  rw [← Finset.sum_neg_distrib]
  refine Finset.sum_congr rfl fun y _ => ?_
  by_cases hxy : x = y
  · rw [if_pos hxy, if_pos hxy.symm, neg_zero]
  · rw [if_neg hxy, if_neg (Ne.symm hxy), distance_comm (body y).pos]
    ring

/-- Momentum: accelerations with the error bound of `C94_error_bound_partial` change the total momentum by at most the same fraction of the sum of the magnitudes of all forces. -/
theorem C94_momentum {d : Nat} (G c : ℝ) (body : Nat → Body d) {all : List Nat} (hmass : ∀ x ∈ all, 0 < (body x).mass) (acc : Nat → Point d)
    (hacc : ∀ x ∈ all, Geometry.distance (acc x) (accelerationOf G body all x) ≤ c * ∑ y ∈ all.toFinset.erase x, |G| * (body y).mass / Geometry.distance (body x).pos (body y).pos ^ 2) (i : Fin d) :
    |∑ x ∈ all.toFinset, (body x).mass * acc x i| ≤ c * ∑ x ∈ all.toFinset, ∑ y ∈ all.toFinset.erase x, |G| * (body x).mass * (body y).mass / Geometry.distance (body x).pos (body y).pos ^ 2 := by
  have h : ∑ x ∈ all.toFinset, (body x).mass * acc x i = ∑ x ∈ all.toFinset, (body x).mass * (acc x i - accelerationOf G body all x i) := by
    rw [← sub_zero (∑ x ∈ all.toFinset, (body x).mass * acc x i), ← newton_momentum G body all i, ← Finset.sum_sub_distrib]
    exact Finset.sum_congr rfl fun x _ => by ring
  rw [h, Finset.mul_sum]
  refine (Finset.abs_sum_le_sum_abs _ _).trans (Finset.sum_le_sum fun x hx => ?_)
  have hx' := List.mem_toFinset.1 hx
  have h1 : |acc x i - accelerationOf G body all x i| ≤ Geometry.distance (acc x) (accelerationOf G body all x) := by
    rw [← norm_euc_sub]
    exact PiLp.norm_apply_le (euc (acc x) - euc (accelerationOf G body all x)) i
  rw [abs_mul, abs_of_pos (hmass x hx')]
  refine (mul_le_mul_of_nonneg_left (h1.trans (hacc x hx')) (hmass x hx').le).trans (le_of_eq ?_)
  rw [mul_left_comm, Finset.mul_sum]
  congr 1
  exact Finset.sum_congr rfl fun y _ => by ring

section
variable {D dim d m : Nat} {R : Rounding} (hdim : 0 < dim) (hdim3 : dim ≤ 3) (hd3 : d ≤ 3) (hD : 0 < D) {ranks : List (List Nat)} (hm : ranks.length = 2 ^ m) (hne : ∀ l ∈ ranks, l ≠ [])
  (hfull : ∀ x ∈ ranks.flatten, FullKey D dim x) (hsorted : ranks.flatten.Pairwise (· < ·)) (htwo : 2 ≤ ranks.flatten.length) (hu : (ranks.flatten.length + 17 * D + 54 : ℕ) * R.u ≤ 1) (body : Nat → Body d)
  (hmass : ∀ x ∈ ranks.flatten, 0 < (body x).mass) (hh : ∀ x ∈ ranks.flatten, 0 ≤ (body x).h) (hpos : ∀ x ∈ ranks.flatten, ∀ y ∈ ranks.flatten, x ≠ y → (body x).pos ≠ (body y).pos)
  (ids : Key → Int) (hids : ∀ x ∈ ranks.flatten, ∀ y ∈ ranks.flatten, ∀ e f, LeafOf D dim ranks.flatten x e → LeafOf D dim ranks.flatten y f → ids e = ids f → x = y)
include hdim hdim3 hd3 hD hm hne hfull hsorted htwo hu hmass hh hpos hids

/-- Gravity on `2^m` processes with every operation rounded, from the keys to the accelerations, for every order of messages. `build_tree` succeeds; no step is undefined, the end can always be reached,
and at the end every process with the data of the cells in its table computes a field, without a division by zero, that differs from Newton's law for the particles of all processes by the error of C76
for an angle `t` a little above the given one, plus `2 (n+17D+54) u (1+t)^2` times the sum of the magnitudes, for `n` particles and keys of depth `D`. -/
theorem C94_error_bound_partial (big angle G : ℝ) : ∃ s Val, startup D dim (summarise R big) (fun x => .inl (body x)) ranks = some s ∧
    TreeData D dim (· ∈ ranks.flatten) (summarise R big) (fun x => .inl (body x)) Val ∧
    let Q := fmm (2 ^ m) (2 ^ dim) (macOf R Val angle) (biggerOf Val)
    ∀ s', Ghosts.Run Q (Startup.begin_ s fun _ => [([], [])]) s' → (∀ r, Next Q s' r → r ≠ none) ∧ (∃ s'', Ghosts.Run Q s' s'' ∧ ∀ p < 2 ^ m, exited (2 ^ m) s'' p) ∧
      ((∀ p < 2 ^ m, exited (2 ^ m) s' p) → ∀ p ks, ranks[p]? = some ks → ∀ dat : DataTable d, (∀ k v, dat k = some v → v = Val k) → (∀ k, (s'.tbl p k).isSome → (dat k).isSome) →
        ∃ F, gravity R (2 ^ dim) p (s'.tbl p) dat G ids (D + 1) (s'.results p) = some F ∧
          ∀ x ∈ ks, ∀ e, LeafOf D dim ranks.flatten x e → ∀ t, 0 ≤ t → angle ≤ t * (1 - (9 * D + 9 : ℕ) * R.u) →
            Geometry.distance (F.acc e) (accelerationOf G body ranks.flatten x) ≤
              (4 * t + 5 * t ^ 2 + 2 * t ^ 3 + 2 * (ranks.flatten.length + 17 * D + 54 : ℕ) * R.u * (1 + t) ^ 2) *
                ∑ y ∈ ranks.flatten.toFinset.erase x, |G| * (body y).mass / Geometry.distance (body x).pos (body y).pos ^ 2 ∧
            |F.pot e - potentialOf G body ranks.flatten x| ≤
              (2 * t + t ^ 2 + 2 * (ranks.flatten.length + 17 * D + 54 : ℕ) * R.u * (1 + t) ^ 2) *
                ∑ y ∈ ranks.flatten.toFinset.erase x, |G| * (body y).mass / Geometry.distance (body x).pos (body y).pos) := by
  have P : Parts D dim ranks := ⟨hdim, hD, hne, hfull, hsorted⟩
  have hn0 : (2 : ℝ) ≤ ranks.flatten.length := by exact_mod_cast htwo
  have hu0 := R.nonneg
  have hu46 : 46 * R.u ≤ 1 := by
    refine le_trans (mul_le_mul_of_nonneg_right ?_ hu0) hu
    push_cast
    linarith [(Nat.cast_nonneg D : (0 : ℝ) ≤ D)]
  have hnil : ranks.flatten ≠ [] := by
    intro h
    rw [h] at htwo
    simp at htwo
  obtain ⟨s, h1, h2, h3⟩ := P.startup hm (summarise (d := d) R big) (fun x => .inl (body x))
  have hT := global_tree hdim hD hnil hfull
  have hown : ∀ r < 2 ^ m, ∃ e, IsEnt (globalTree D dim (· ∈ ranks.flatten)) e ∧ holder D dim ranks e = r := fun r hr => P.hasOwn (by omega)
  have hlt : ∀ e, IsEnt (globalTree D dim (· ∈ ranks.flatten)) e → holder D dim ranks e < 2 ^ m := fun e he => by rw [← hm]; exact P.holder_lt he
  have hG := geoR_built hdim hD hnil hfull hd3 hdim3 (by linarith) big body hmass hh hpos (by
    refine ⟨ranks.flatten[0], List.getElem_mem _, ranks.flatten[1], List.getElem_mem _, ?_⟩
    have := List.pairwise_iff_getElem.1 hsorted 0 1 (by omega) (by omega) (by decide)
    omega)
  obtain ⟨Val, hVal⟩ : ∃ Val, Val = valFor R big D dim body ranks.flatten := ⟨_, rfl⟩
  rw [← hVal] at hG
  refine ⟨s, Val, h1, by rw [hVal]; exact valFor_tree hdim hD hnil hfull big body, ?_⟩
  intro Q s' hr
  have h0 : Start Q (globalTree D dim (· ∈ ranks.flatten)) (Startup.begin_ s fun _ => [([], [])]) := start_of hT hown hlt h3 rfl _
  have hq : ∀ p < 2 ^ m, (Startup.begin_ (τ := Key × Key) (ω := Ghosts.Call) s fun _ => [([], [])]).tasks p = [([], [])] := fun _ _ => rfl
  have hmine : ∀ p < 2 ^ m, Mine (Startup.begin_ (τ := Key × Key) (ω := Ghosts.Call) s fun _ => [([], [])]) p [] := mine_root hT hown h3 _
  refine ⟨fun r hn => C18_fmm_safe hT h0 hq hmine hr hn, C18_fmm_can_end hT h0 hq hmine hr, ?_⟩
  intro hend p ks hks dat hdat hhere
  have hp : p < 2 ^ m := by
    have := (List.getElem?_eq_some_iff.1 hks).1
    omega
  have hI := inv_run hT h0 (fmm_ok hT h0 hq hmine) hr
  have hist := hI.hist p hp
  have hcalls := hist_calls hist (by
    intro x hx a ha
    rw [hq p hp, List.mem_singleton] at hx
    subst hx
    rw [List.suffix_nil.1 ha]
    exact hmine p hp)
  have hreach := hist_reach hist (by
    intro x hx
    rw [hq p hp, List.mem_singleton] at hx
    subst hx
    exact .refl)
  have hbelow : ∀ k ∈ cellsOf D dim ranks.flatten, ∃ f ∈ leaves (globalTree D dim (· ∈ ranks.flatten)) (cellsOf D dim ranks.flatten), k <:+ f := by
    intro k hk
    have hsome := (hT.mem k).1 hk
    obtain ⟨x, hx, hkx⟩ : ∃ x ∈ ranks.flatten, k <:+ path dim D x := by
      rcases ((global_isSome (X := (· ∈ ranks.flatten)) hdim P.fullX).1 hsome).2 with (rfl | ⟨x, y, hx, hy, hxy, h1, h2⟩) | ⟨x, hx, hl⟩
      · obtain ⟨x, hx⟩ := List.exists_mem_of_ne_nil _ hnil
        exact ⟨x, hx, List.nil_suffix⟩
      · exact ⟨x, hx, h1⟩
      · exact ⟨x, hx, hl.2.1⟩
    exact ⟨_, (mem_leaves_built hdim hD hnil hfull).2 ⟨x, hx, rfl⟩, (suffix_leafAt hdim hD hnil hfull hk hx).2 hkx⟩
  obtain ⟨F, f1, f2⟩ := gravity_bound hG hd3 hu46 (hI.view p hp) (fuel := D + 1) (fun k hk => Nat.lt_succ_of_le (global_depth hdim hfull k hk)) hdat hhere G angle ids (by
    intro e he f hf hef
    obtain ⟨x, hx, rfl⟩ := (mem_leaves_built hdim hD hnil hfull).1 he
    obtain ⟨y, hy, rfl⟩ := (mem_leaves_built hdim hD hnil hfull).1 hf
    rw [hids x hx y hy _ _ ((leafOf_iff hdim hD hfull hx).2 rfl) ((leafOf_iff hdim hD hfull hy).2 rfl) hef]) hcalls.2 (run_sources (fun _ => rfl) hr p) hreach.2 (by
    intro e he f hf ho
    obtain ⟨ge, hge, hee⟩ := (mem_leaves hT).1 he
    obtain ⟨gf, hgf, hfe⟩ := (mem_leaves hT).1 hf
    have := hist_count hT (hG.sizes angle) hist hge hee hgf hfe ho
    rw [(C18_fmm_end hT h0 hq hmine hr hend p hp).2.2, hq p hp, List.countP_nil, Nat.zero_add] at this
    rw [this]
    simp [covT]) hbelow
  refine ⟨F, f1, fun x hx e he t ht hat => ?_⟩
  have hxX : x ∈ ranks.flatten := mem_ranks.mpr ⟨p, ks, hks, hx⟩
  obtain rfl := (leafOf_iff hdim hD hfull hxX).1 he
  have hmine' : ∀ a, a <:+ leafAt D dim ranks.flatten x → Mine (Startup.begin_ (τ := Key × Key) (ω := Ghosts.Call) s fun _ => [([], [])]) p a := by
    have hl := leafAt_spec hD hfull hxX
    have hd : Digits dim (leafAt D dim ranks.flatten x) := digits_suffix (path_digits _ _) hl.2.1
    exact (owns_ent hT h3 _ hp ((isEnt_iff hdim P.fullX).mpr ⟨hd, x, hxX, hl⟩) (P.holder_eq hd hks hx hl)).2
  have hcard : (leaves (globalTree D dim (· ∈ ranks.flatten)) (cellsOf D dim ranks.flatten)).card ≤ ranks.flatten.length := by
    rw [leaves_built hdim hD hnil hfull]
    exact Finset.card_image_le.trans (List.toFinset_card_le _)
  obtain ⟨b1, b2⟩ := f2 _ ((mem_leaves_built hdim hD hnil hfull).2 ⟨x, hxX, rfl⟩) hmine' (ranks.flatten.length + 17 * D + 54) (by omega) t ht hat
  have hg := growth_le (R := R) (ranks.flatten.length + 17 * D + 54) hu
  have hval : ∀ y ∈ ranks.flatten, Val (leafAt D dim ranks.flatten y) = .inl (body y) := fun y hy => by rw [hVal]; exact valFor_leaf hdim hD hnil hfull big body hy
  have hsum : ∀ {V : Type} [AddCommMonoid V] (φ : ℝ → Point d → V), ∑ f ∈ (leaves (globalTree D dim (· ∈ ranks.flatten)) (cellsOf D dim ranks.flatten)).erase (leafAt D dim ranks.flatten x), φ (wgt (Val f)) (cen (Val f)) =
      ∑ y ∈ ranks.flatten.toFinset.erase x, φ (body y).mass (body y).pos := by
    intro V _ φ
    rw [sum_others hdim hD hnil hfull (fun f => φ (wgt (Val f)) (cen (Val f))) hxX]
    refine Finset.sum_congr rfl fun y hy => ?_
    rw [hval y (List.mem_toFinset.1 (Finset.mem_of_mem_erase hy))]
    rfl
  rw [hval x hxX] at b1 b2
  rw [hsum (fun w q => w • (grav G (cen (.inl (body x))) q 1).2), hsum (fun w q => |G| * w / Geometry.distance (cen (.inl (body x))) q ^ 2)] at b1
  rw [hsum (fun w q => w * (grav G (cen (.inl (body x))) q 1).1), hsum (fun w q => |G| * w / Geometry.distance (cen (.inl (body x))) q)] at b2
  have hY : ∀ y ∈ ranks.flatten.toFinset.erase x, 0 ≤ (body y).mass := fun y hy => (hmass y (List.mem_toFinset.1 (Finset.mem_of_mem_erase hy))).le
  have hc : ((1 + R.u) ^ (ranks.flatten.length + 17 * D + 54) - 1) * (1 + t) ^ 2 ≤ 2 * (ranks.flatten.length + 17 * D + 54 : ℕ) * R.u * (1 + t) ^ 2 := mul_le_mul_of_nonneg_right hg (sq_nonneg _)
  constructor
  · have e1 : accelerationOf G body ranks.flatten x = ∑ y ∈ ranks.flatten.toFinset.erase x, (body y).mass • (grav G (body x).pos (body y).pos 1).2 := by
      funext i
      rw [Finset.sum_apply, accelerationOf]
      apply Finset.sum_congr rfl
      intro y _
      simp only [grav, Pi.smul_apply, smul_eq_mul]
      ring
    rw [e1]
    refine b1.trans (mul_le_mul_of_nonneg_right (by linarith) (Finset.sum_nonneg fun y hy => ?_))
    exact div_nonneg (mul_nonneg (abs_nonneg _) (hY y hy)) (sq_nonneg _)
  · have e1 : potentialOf G body ranks.flatten x = ∑ y ∈ ranks.flatten.toFinset.erase x, (body y).mass * (grav G (body x).pos (body y).pos 1).1 := by
      rw [potentialOf]
      apply Finset.sum_congr rfl
      intro y _
      simp only [grav]
      ring
    rw [e1]
    refine b2.trans (mul_le_mul_of_nonneg_right (by linarith) (Finset.sum_nonneg fun y hy => ?_))
    exact div_nonneg (mul_nonneg (abs_nonneg _) (hY y hy)) (distance_nonneg _ _)

end

/-! ### A case: the four particles of C76 on two processes, in double precision. -/

/-- With an acceptance angle of one half the end is reached, and the accelerations are within the bound for an angle of 3/5. -/
example : ∃ s, ∃ Val : Key → Data 2, ∃ s', startup 3 2 (summarise (tiesToEven 53) 1000) (fun x => .inl (exBody x)) exRanks = some s ∧
    TreeData 3 2 (· ∈ exRanks.flatten) (summarise (tiesToEven 53) 1000) (fun x => .inl (exBody x)) Val ∧
    Ghosts.Run (fmm (2 ^ 1) (2 ^ 2) (macOf (tiesToEven 53) Val (1 / 2)) (biggerOf Val)) (Startup.begin_ s fun _ => [([], [])]) s' ∧ ∀ p < 2,
      ∃ F, gravity (tiesToEven 53) (2 ^ 2) p (s'.tbl p) (fun k => some (Val k)) 1 (fun e => (number 2 e : Int)) (3 + 1) (s'.results p) = some F := by
  have hu : (tiesToEven 53).u = 2 ^ (-53 : ℤ) := rfl
  have hlen : exRanks.flatten.length = 4 := by decide
  obtain ⟨s, Val, hs, hV, h⟩ := C94_error_bound_partial (D := 3) (dim := 2) (m := 1) (R := tiesToEven 53) (by decide) (by decide) (by decide) (by decide) (ranks := exRanks) (by decide) (by decide) ex_full (by decide)
    (by decide) (by rw [hlen, hu]; norm_num) exBody (fun _ _ => by norm_num [exBody]) (fun _ _ => by norm_num [exBody]) (fun x _ y _ h => ex_pos x y h) (fun e => (number 2 e : Int)) (ex_ids (by decide) (by decide) ex_full) 1000 (1 / 2) 1
  obtain ⟨-, ⟨s', h1, h2⟩, -⟩ := h _ .start
  obtain ⟨-, -, h3⟩ := h s' h1
  refine ⟨s, Val, s', hs, hV, h1, fun p hp => ?_⟩
  have : p = 0 ∨ p = 1 := by omega
  rcases this with rfl | rfl
  · obtain ⟨F, hF, -⟩ := h3 h2 0 _ rfl (fun k => some (Val k)) (fun k v hv => (Option.some.inj hv).symm) (fun _ _ => rfl)
    exact ⟨F, hF⟩
  · obtain ⟨F, hF, -⟩ := h3 h2 1 _ rfl (fun k => some (Val k)) (fun k v hv => (Option.some.inj hv).symm) (fun _ _ => rfl)
    exact ⟨F, hF⟩

/-- The angle 3/5 covers the acceptance angle one half, and the part of the bound that comes from rounding is below `10^-13`. -/
example : (1 / 2 : ℝ) ≤ 3 / 5 * (1 - (9 * 3 + 9 : ℕ) * (tiesToEven 53).u) ∧ 2 * (exRanks.flatten.length + 17 * 3 + 54 : ℕ) * (tiesToEven 53).u * (1 + 3 / 5) ^ 2 ≤ (10 : ℝ)⁻¹ ^ 13 := by
  have hu : (tiesToEven 53).u = 2 ^ (-53 : ℤ) := rfl
  have hlen : exRanks.flatten.length = 4 := by decide
  rw [hlen, hu]
  norm_num

end FleCSPH.Rounded
