import Verif.Lemmas.RoundedDensity2
import Verif.Spec.Density
import Verif.Props.C80
/-!
C82: the density in floating-point arithmetic.

Every operation of `compute_density` and of the kernels is rounded (Model/RoundedDensity.lean), for the two splines and the three Wendland kernels. Missing for the full property: the Gaussian kernels and the sinc
kernel; overflow and underflow; what is missing in C80.
-/
namespace FleCSPH.Rounded
open FleCSPH.Spec FleCSPH.Tree FleCSPH.Ghosts FleCSPH.Startup FleCSPH.Cofm FleCSPH.Geometry FleCSPH.Traversal FleCSPH.Kernels
open FleCSPH.SphRun (Group Divided dist_eq groupsOf)

variable {R : Rounding}

private theorem density_exact (κ : Kernel) {i : Fin 3} (a : Body (i + 1)) (nbs : List (Body (i + 1))) : density (Kernels.kernel κ i) a nbs = exact κ a nbs := by
  unfold density exact
  simp only [dist_eq]

private theorem peak_central (κ : Kernel) {i : Fin 3} (a : Body (i + 1)) (nbs : List (Body (i + 1))) : peak (Kernels.kernel κ i) a nbs = central κ a nbs := rfl

private theorem compute_some {κ : Kernel} {i : Fin 3} {a : Body (i + 1)} {nbs : List (Body (i + 1))} {ρ : ℝ} (h : computeDensity R κ a nbs = some ρ) : ρ = rounded R κ a nbs := by
  unfold computeDensity at h
  dsimp only at h
  split_ifs at h
  exact (Option.some.inj h).symm

section
variable {κ : Kernel} (hκ : Poly κ) {i : Fin 3} {a : Body (i + 1)} {nbs : List (Body (i + 1))} (hu : (2 * (loss κ + 1 + nbs.length)) * R.u ≤ 1) (ha : 0 < a.h) (hb : ∀ b ∈ nbs, 0 < b.h ∧ 0 ≤ b.mass)
include hκ hu ha hb

/-- The assertions hold for a particle which is in its own list. -/
theorem C82_positive (hmem : a ∈ nbs) (hma : 0 < a.mass) : ∃ ρ, computeDensity R κ a nbs = some ρ ∧ 0 < ρ := by
  have := rounded_pos hκ hu ha hb hmem hma
  exact ⟨rounded R κ a nbs, if_pos ⟨List.length_pos_of_mem hmem, this⟩, this⟩

/-- The computed density is, up to `loss κ + 1 + n` roundings, the exact density for distances which are right up to 11 roundings. -/
theorem C82_backward {ρ : ℝ} (h : computeDensity R κ a nbs = some ρ) :
    ∃ r : Body (i + 1) → ℝ, (∀ b ∈ nbs, Near R 11 √(∑ j, (a.pos j - b.pos j) ^ 2) (r b)) ∧ Near R (loss κ + 1 + nbs.length) (nbs.map fun b => b.mass * Kernels.kernel κ i (r b) ((a.h + b.h) / 2)).sum ρ := by
  rw [compute_some h]
  refine ⟨moved R κ a, fun b hbm => ?_, (nn_rounded hκ hu ha hb).2.2⟩
  rw [← dist_eq]
  exact (nn_moved hκ (loss_of_length hu) ha (hb b hbm).1).2.2

/-- The error of the computed density, for neighbours in any order. -/
theorem C82_density {ρ : ℝ} (h : computeDensity R κ a nbs = some ρ) :
    |ρ - density (Kernels.kernel κ i) a nbs| ≤ (2 * nbs.length + 2 * loss κ + 552) * R.u * peak (Kernels.kernel κ i) a nbs := by
  rw [compute_some h, density_exact]
  exact rounded_error hκ hu ha hb

end

private theorem perm_density (W : ℝ → ℝ → ℝ) {d : Nat} (a : Body d) {l l' : List (Body d)} (h : l.Perm l') : density W a l = density W a l' := (h.map _).sum_eq

private theorem density_append (W : ℝ → ℝ → ℝ) {d : Nat} (a : Body d) (l l' : List (Body d)) : density W a (l ++ l') = density W a l + density W a l' := by
  unfold density
  rw [List.map_append, List.sum_append]

private theorem perm_peak (W : ℝ → ℝ → ℝ) {d : Nat} (a : Body d) {l l' : List (Body d)} (h : l.Perm l') : peak W a l = peak W a l' := (h.map _).sum_eq

private theorem peak_append (W : ℝ → ℝ → ℝ) {d : Nat} (a : Body d) (l l' : List (Body d)) : peak W a (l ++ l') = peak W a l + peak W a l' := by
  unfold peak
  rw [List.map_append, List.sum_append]

/-- The particles not further from `a` than their smoothing lengths allow. -/
noncomputable def near (R : Rounding) {d : Nat} (body : Nat → Body d) (xs : List Nat) (x : Nat) : List (Body d) :=
  open Classical in (xs.filter fun y => decide (√(∑ j, ((body x).pos j - (body y).pos j) ^ 2) ≤ max (body x).h (body y).h / (1 - R.u) ^ 4)).map body

section
variable {i : Fin 3} {D dim m : Nat} {ranks : List (List Nat)} {κ : Kernel} (hκ : Poly κ) (hdim : 0 < dim) (hdim3 : dim ≤ 3) (hD : 0 < D) (hne : ∀ l ∈ ranks, l ≠ []) (hfull : ∀ x ∈ ranks.flatten, FullKey D dim x)
  (hsorted : ranks.flatten.Pairwise (· < ·)) (huD : 68 * D * R.u ≤ 1) (huN : 2 * (loss κ + 1 + ranks.flatten.length) * R.u ≤ 1) {X h0 : ℝ} {body : Nat → Body (i + 1)}
  (hmass : ∀ x ∈ ranks.flatten, 0 < (body x).mass) (hb : ∀ x ∈ ranks.flatten, Bounded X (body x)) (hh : ∀ x ∈ ranks.flatten, h0 ≤ (body x).h) (hh0 : 100 * D * R.u * X ≤ h0) (hpos : 0 < h0)
include hκ hdim hfull hsorted huD huN hmass hb hh hh0 hpos hD

/-- The density of a particle from a list of the distributed search. -/
theorem served_density {p : Nat} {cs : List (List Nat × List (List Nat))} (hs : ServedBetween D dim ranks body (lower R D X) (upper R) p cs) {e : List Nat} {nb : List (List Nat)} {x : Nat}
    (hc : (e, nb) ∈ cs) (hx : x ∈ ranks.flatten) (hex : LeafCell D dim (· ∈ ranks.flatten) x (number dim e)) :
    ∃ ys ρ, List.Forall₂ (fun f y => y ∈ ranks.flatten ∧ LeafCell D dim (· ∈ ranks.flatten) y (number dim f)) nb ys ∧ computeDensity R κ (body x) (ys.map body) = some ρ ∧ 0 < ρ ∧
      |ρ - density (Kernels.kernel κ i) (body x) (ranks.flatten.map body)| ≤
        (2 * nb.length + 2 * loss κ + 552 + 2500 * D * X / h0) * R.u * peak (Kernels.kernel κ i) (body x) (near R body ranks.flatten x) := by
  classical
  have hsound := hs.sound e nb x hc hx hex
  have hcomplete := hs.complete e nb x hc hx hex
  have hnd := hs.nodup e nb hc
  have hux := small hD huD
  have hu0 := R.nonneg
  -- the particles of the list
  have hys : ∃ ys : List Nat, List.Forall₂ (fun f y => Digits dim f ∧ y ∈ ranks.flatten ∧ LeafCell D dim (· ∈ ranks.flatten) y (number dim f) ∧
      √(∑ j, ((body x).pos j - (body y).pos j) ^ 2) ≤ upper R (body x) (body y)) nb ys := by
    clear hc hnd hcomplete
    induction nb with
    | nil => exact ⟨[], .nil⟩
    | cons f nb ih =>
      obtain ⟨ys, hys⟩ := ih fun f hf => hsound f (List.mem_cons_of_mem _ hf)
      obtain ⟨h1, y, h2, h3, h4⟩ := hsound f List.mem_cons_self
      exact ⟨y :: ys, .cons ⟨h1, h2, h3, h4⟩ hys⟩
  obtain ⟨ys, hys⟩ := hys
  have hlen := hys.length_eq
  have hmem : ∀ y ∈ ys, y ∈ ranks.flatten ∧ √(∑ j, ((body x).pos j - (body y).pos j) ^ 2) ≤ upper R (body x) (body y) := by
    intro y hy
    obtain ⟨n, hn, rfl⟩ := List.mem_iff_getElem.mp hy
    have := List.forall₂_iff_get.mp hys
    have h1 := this.2 n (by omega) hn
    exact ⟨h1.2.1, h1.2.2.2⟩
  have hin : ∀ f y, f ∈ nb → y ∈ ranks.flatten → Digits dim f → LeafCell D dim (· ∈ ranks.flatten) y (number dim f) → y ∈ ys := by
    intro f y hf hy hd hl
    obtain ⟨n, hn, rfl⟩ := List.mem_iff_getElem.mp hf
    have h1 := (List.forall₂_iff_get.mp hys).2 n hn (by omega)
    have h2 := (leaf_path hdim hfull h1.1 h1.2.1).mp h1.2.2.1
    have h3 := (leaf_path hdim hfull hd hy).mp hl
    have : ys.get ⟨n, by omega⟩ = y := h3.2.2.1 _ h1.2.1 h2.2.1
    rw [← this]
    exact List.get_mem _ _
  have hynd : ys.Nodup := by
    rw [List.nodup_iff_injective_get]
    intro a b hab
    have ha := (List.forall₂_iff_get.mp hys).2 a (by omega) a.2
    have hb := (List.forall₂_iff_get.mp hys).2 b (by omega) b.2
    have hab' : ys.get ⟨a, a.2⟩ = ys.get ⟨b, b.2⟩ := hab
    rw [hab'] at ha
    have h1 := number_inj hdim ha.1 hb.1 (leafCell_unique ha.2.2.1 hb.2.2.1)
    have h2 := List.nodup_iff_injective_get.mp hnd h1
    exact Fin.ext (by simpa using congrArg Fin.val h2)
  have hfnd : ranks.flatten.Nodup := hsorted.imp fun h => h.ne
  -- the particle itself
  have hself : x ∈ ys := by
    obtain ⟨f, hf1, hf2⟩ := exists_leafP (X := (· ∈ ranks.flatten)) hD hfull hx D [] (by simp) (Or.inl rfl) List.nil_suffix
    have hdf : Digits dim f := digits_suffix (path_digits _ _) hf1.2.1
    have hl := (leaf_path hdim hfull hdf hx).mpr hf1
    refine hin f x (hcomplete f x hx hdf hl ?_) hx hdf hl
    have e0 : √(∑ j, ((body x).pos j - (body x).pos j) ^ 2) = 0 := by simp
    rw [e0, lower]
    have := hh x hx
    linarith
  have hyb : ∀ b ∈ ys.map body, 0 < b.h ∧ 0 ≤ b.mass := by
    intro b hb'
    obtain ⟨y, hy, rfl⟩ := List.mem_map.mp hb'
    exact ⟨hpos.trans_le (hh y (hmem y hy).1), (hmass y (hmem y hy).1).le⟩
  have hsub : ys.Subperm ranks.flatten := hynd.subperm fun y hy => (hmem y hy).1
  have huL : 2 * (loss κ + 1 + (ys.map body).length) * R.u ≤ 1 := by
    refine le_trans (mul_le_mul_of_nonneg_right ?_ hu0) huN
    have : ((ys.map body).length : ℝ) ≤ ranks.flatten.length := by rw [List.length_map]; exact_mod_cast hsub.length_le
    linarith
  have hxh := hpos.trans_le (hh x hx)
  obtain ⟨ρ, h1, h2⟩ := C82_positive hκ huL hxh hyb (List.mem_map_of_mem hself) (hmass x hx)
  have h3 := C82_density hκ huL hxh hyb h1
  refine ⟨ys, ρ, hys.imp fun f y h => ⟨h.2.1, h.2.2.1⟩, h1, h2, ?_⟩
  -- the particles which are not in the list
  obtain ⟨W, hW⟩ : ∃ W, W = Kernels.kernel κ i := ⟨_, rfl⟩
  rw [← hW] at h3 ⊢
  obtain ⟨zs, hzs⟩ : ∃ zs, zs = ranks.flatten.filter fun y => decide (y ∉ ys) := ⟨_, rfl⟩
  have hperm : (ys ++ zs).Perm ranks.flatten := by
    refine (List.perm_ext_iff_of_nodup ?_ hfnd).mpr fun y => ?_
    · rw [List.nodup_append]
      refine ⟨hynd, hzs ▸ hfnd.filter _, fun a ha b hb hab => ?_⟩
      rw [hzs, List.mem_filter, decide_eq_true_eq] at hb
      exact hb.2 (hab ▸ ha)
    · rw [List.mem_append, hzs, List.mem_filter, decide_eq_true_eq]
      constructor
      · rintro (h | h)
        · exact (hmem y h).1
        · exact h.1
      · intro h
        by_cases hy : y ∈ ys
        · exact Or.inl hy
        · exact Or.inr ⟨h, hy⟩
  obtain ⟨ws, hws⟩ : ∃ ws, ws = zs.filter fun y => decide (√(∑ j, ((body x).pos j - (body y).pos j) ^ 2) ≤ max (body x).h (body y).h / (1 - R.u) ^ 4) := ⟨_, rfl⟩
  have hnear : (near R body ranks.flatten x).Perm (ys.map body ++ ws.map body) := by
    unfold near
    rw [← List.map_append]
    refine ((hperm.symm.filter _).trans ?_).map body
    rw [List.filter_append, hws]
    refine List.Perm.append_right _ (List.Perm.of_eq ?_)
    rw [List.filter_eq_self]
    intro y hy
    exact decide_eq_true (hmem y hy).2
  have hXX : 0 ≤ X := (hb x hx).1.trans (hb x hx).2.1
  have hD0 : (0 : ℝ) ≤ D := Nat.cast_nonneg D
  have hmiss : ∀ y ∈ zs, 0 ≤ W √(∑ j, ((body x).pos j - (body y).pos j) ^ 2) (((body x).h + (body y).h) / 2) ∧
      W √(∑ j, ((body x).pos j - (body y).pos j) ^ 2) (((body x).h + (body y).h) / 2) ≤ 2500 * D * X / h0 * R.u * W 0 (((body x).h + (body y).h) / 2) ∧
      (¬ √(∑ j, ((body x).pos j - (body y).pos j) ^ 2) ≤ max (body x).h (body y).h / (1 - R.u) ^ 4 → W √(∑ j, ((body x).pos j - (body y).pos j) ^ 2) (((body x).h + (body y).h) / 2) = 0) := by
    intro y hy
    rw [hzs, List.mem_filter, decide_eq_true_eq] at hy
    obtain ⟨hyf, hyn⟩ := hy
    have hyh := hh y hyf
    have hxh' := hh x hx
    have hm : 0 < ((body x).h + (body y).h) / 2 := by linarith
    have hr := Real.sqrt_nonneg (∑ j, ((body x).pos j - (body y).pos j) ^ 2)
    obtain ⟨r, hrd⟩ : ∃ r, r = √(∑ j, ((body x).pos j - (body y).pos j) ^ 2) := ⟨_, rfl⟩
    have hlow : lower R D X (body x) (body y) < r := by
      by_contra hc'
      rw [not_lt, hrd] at hc'
      obtain ⟨f, hf1, -⟩ := exists_leafP (X := (· ∈ ranks.flatten)) hD hfull hyf D [] (by simp) (Or.inl rfl) List.nil_suffix
      have hdf : Digits dim f := digits_suffix (path_digits _ _) hf1.2.1
      have hl := (leaf_path hdim hfull hdf hyf).mpr hf1
      exact hyn (hin f y (hcomplete f y hyf hdf hl hc') hyf hdf hl)
    rw [← hrd] at hr ⊢
    have hW0 : 0 < W 0 (((body x).h + (body y).h) / 2) := hW ▸ kernel_zero_pos hκ i hm
    refine ⟨hW ▸ kernel_nonneg hκ i hr hm, ?_, fun hfar => ?_⟩
    · rcases le_or_gt (((body x).h + (body y).h) / 2) r with hge | hlt
      · have : W r (((body x).h + (body y).h) / 2) = 0 := hW ▸ kernel_beyond hκ i hm hge
        rw [this]
        exact mul_nonneg (mul_nonneg (div_nonneg (by positivity) hpos.le) hu0) hW0.le
      · have hl := kernel_lipschitz hκ i hr hm.le hm
        rw [kernel_beyond hκ i hm le_rfl, sub_zero, ← hW] at hl
        refine (le_abs_self _).trans (hl.trans (mul_le_mul_of_nonneg_right ?_ hW0.le))
        unfold lower at hlow
        have h5 : |r - ((body x).h + (body y).h) / 2| ≤ 100 * D * R.u * X := by rw [abs_le]; constructor <;> [linarith; nlinarith]
        have h6 : |r - ((body x).h + (body y).h) / 2| / (((body x).h + (body y).h) / 2) ≤ 100 * D * R.u * X / h0 := div_le_div₀ (by positivity) h5 hpos (by linarith)
        calc 25 * (|r - ((body x).h + (body y).h) / 2| / (((body x).h + (body y).h) / 2)) ≤ 25 * (100 * D * R.u * X / h0) := by linarith
          _ = 2500 * D * X / h0 * R.u := by ring
    · have hv : 0 < (1 - R.u) ^ 4 := pow_pos (by linarith) 4
      have hv1 := pow_le_one' (R := R) (by linarith) 4
      have hmx : ((body x).h + (body y).h) / 2 ≤ max (body x).h (body y).h := by
        have := le_max_left (body x).h (body y).h; have := le_max_right (body x).h (body y).h; linarith
      have : max (body x).h (body y).h ≤ max (body x).h (body y).h / (1 - R.u) ^ 4 := le_div_self (hxh.le.trans (le_max_left _ _)) hv hv1
      exact hW ▸ kernel_beyond hκ i hm (by linarith)
  have hmz : ∀ y ∈ zs, 0 ≤ (body y).mass := fun y hy => (hmass y (List.mem_filter.mp (hzs ▸ hy)).1).le
  have h4 : 0 ≤ density W (body x) (zs.map body) ∧ density W (body x) (zs.map body) ≤ 2500 * D * X / h0 * R.u * peak W (body x) (ws.map body) := by
    rw [hws]
    clear hperm hzs hnear hws
    induction zs with
    | nil => simp [density, peak]
    | cons y zs ih =>
      obtain ⟨i1, i2⟩ := ih (fun y hy => hmiss y (List.mem_cons_of_mem _ hy)) (fun y hy => hmz y (List.mem_cons_of_mem _ hy))
      obtain ⟨j1, j2, j3⟩ := hmiss y List.mem_cons_self
      have j4 := hmz y List.mem_cons_self
      unfold density at i1 i2 ⊢
      unfold peak at i2 ⊢
      rw [List.filter_cons]
      simp only [List.map_cons, List.sum_cons]
      refine ⟨add_nonneg (mul_nonneg j4 j1) i1, ?_⟩
      split_ifs with hc'
      · simp only [List.map_cons, List.sum_cons]
        rw [mul_add]
        refine add_le_add ?_ i2
        have := mul_le_mul_of_nonneg_left j2 j4
        linarith
      · rw [j3 (by simpa using hc'), mul_zero, zero_add]
        exact i2
  have h5 : density W (body x) (ranks.flatten.map body) = density W (body x) (ys.map body) + density W (body x) (zs.map body) := by
    rw [← density_append, ← List.map_append]
    exact perm_density W _ ((hperm.map body).symm)
  have h6 : peak W (body x) (near R body ranks.flatten x) = peak W (body x) (ys.map body) + peak W (body x) (ws.map body) := by
    rw [← peak_append]
    exact perm_peak W _ hnear
  have hp : ∀ l : List Nat, (∀ y ∈ l, y ∈ ranks.flatten) → 0 ≤ peak W (body x) (l.map body) := by
    intro l hl
    unfold peak
    refine List.sum_nonneg fun z hz => ?_
    rw [List.map_map] at hz
    obtain ⟨y, hy, rfl⟩ := List.mem_map.mp hz
    have hyf := hl y hy
    exact mul_nonneg (hmass y hyf).le (hW ▸ (kernel_zero_pos hκ i (by linarith [hh y hyf, hh x hx])).le)
  have p1 := hp ys fun y hy => (hmem y hy).1
  have p2 := hp ws fun y hy => by rw [hws] at hy; rw [hzs] at hy; exact (List.mem_filter.mp (List.mem_filter.mp hy).1).1
  rw [List.length_map, ← hlen] at h3
  rw [h5, h6]
  have hc1 : 0 ≤ (2 * (nb.length : ℝ) + 2 * loss κ + 552) * R.u := by positivity
  have hc2 : 0 ≤ 2500 * D * X / h0 * R.u := mul_nonneg (div_nonneg (by positivity) hpos.le) hu0
  obtain ⟨a1, a2⟩ := abs_le.mp h3
  have q1 := mul_nonneg hc1 p2
  have q2 := mul_nonneg hc2 p1
  have e : (2 * (nb.length : ℝ) + 2 * loss κ + 552 + 2500 * D * X / h0) * R.u * (peak W (body x) (ys.map body) + peak W (body x) (ws.map body)) =
      (2 * (nb.length : ℝ) + 2 * loss κ + 552) * R.u * peak W (body x) (ys.map body) + (2 * (nb.length : ℝ) + 2 * loss κ + 552) * R.u * peak W (body x) (ws.map body) +
      2500 * D * X / h0 * R.u * peak W (body x) (ys.map body) + 2500 * D * X / h0 * R.u * peak W (body x) (ws.map body) := by ring
  rw [e, abs_le]
  constructor <;> linarith [h4.1, h4.2]

include hne hdim3 in
/-- From the keys to the densities, on `2^m` processes with every operation rounded: however messages are ordered, once the search has ended the density of every particle is computed without failed assertion, is
positive, and differs from the exact sum over all particles of all processes by at most `(2 n + 2 loss + 552 + 2500 D X / h0) u` times what the density were if all particles nearby were in one place; `n` is the
length of the list, `D` the depth of the tree, `X` a bound of the coordinates and `h0` the least smoothing length. -/
theorem C82_search_partial (hm : ranks.length = 2 ^ m) (big tol : ℝ) (htol : 0 ≤ tol) (sent : Nat) :
    ∃ s Val groups, startup D dim (summarise R big) (fun x => .inl (body x)) ranks = some s ∧ TreeData D dim (· ∈ ranks.flatten) (summarise R big) (fun x => .inl (body x)) Val ∧
    (∀ p < 2 ^ m, ∃ me, s[p]? = some me ∧ groupsOf (2 ^ dim) me.tbl sent (D + 1) = some (groups p)) ∧
    let Q := sph (2 ^ m) (2 ^ dim) (accepts R tol Val) (D + 2)
    ∀ s', Run Q (begin_ s groups) s' → (∃ s'', Run Q s' s'' ∧ ∀ p < 2 ^ m, exited (2 ^ m) s'' p) ∧
      ((∀ p < 2 ^ m, exited (2 ^ m) s' p) → ∀ p < 2 ^ m, ∀ x ∈ ranks.flatten, ∀ e nb, (e, nb) ∈ calls R Val (s'.results p) → LeafCell D dim (· ∈ ranks.flatten) x (number dim e) →
        ∃ ys ρ, List.Forall₂ (fun f y => y ∈ ranks.flatten ∧ LeafCell D dim (· ∈ ranks.flatten) y (number dim f)) nb ys ∧ computeDensity R κ (body x) (ys.map body) = some ρ ∧ 0 < ρ ∧
          |ρ - density (Kernels.kernel κ i) (body x) (ranks.flatten.map body)| ≤
            (2 * nb.length + 2 * loss κ + 552 + 2500 * D * X / h0) * R.u * peak (Kernels.kernel κ i) (body x) (near R body ranks.flatten x)) := by
  obtain ⟨s, Val, groups, h1, h2, h3, -, h4⟩ := C80_search_partial hdim hdim3 (by omega : (i : ℕ) + 1 ≤ 3) hD hm hne hfull hsorted huD big X body hmass hb tol htol sent
  refine ⟨s, Val, groups, h1, h2, fun p hp => ?_, fun s' hr => ?_⟩
  · obtain ⟨me, g1, g2, -⟩ := h3 p hp
    exact ⟨me, g1, g2⟩
  · obtain ⟨-, g1, g2⟩ := h4 s' hr
    exact ⟨g1, fun hend p hp x hx e nb hc hl => served_density hκ hdim hD hfull hsorted huD huN hmass hb hh hh0 hpos (g2 hend p hp) hc hx hl⟩

end

/-! ### Cases -/

/-- The default kernel in three dimensions and `double`: up to 10^15 neighbours are allowed. -/
example : 2 * ((loss .wendlandC4 : ℝ) + 1 + ((10 ^ 15 : Nat) : ℝ)) * (nearest 53).u ≤ 1 := by
  have hu : (nearest 53).u = 2 ^ (-53 : ℤ) := rfl
  rw [hu]
  norm_num [loss]

/-- The particles of `exRanks` in `double`. -/
example : Poly .wendlandC4 ∧ 68 * ((3 : Nat) : ℝ) * (nearest 53).u ≤ 1 ∧ 2 * (loss .wendlandC4 + 1 + exRanks.flatten.length) * (nearest 53).u ≤ 1 ∧ (∀ x ∈ exRanks.flatten, 1 ≤ (SphRun.exBody x).h) ∧
    100 * ((3 : Nat) : ℝ) * (nearest 53).u * 3 ≤ 1 := by
  have hu : (nearest 53).u = 2 ^ (-53 : ℤ) := rfl
  refine ⟨.wendlandC4, by rw [hu]; norm_num, by rw [hu]; norm_num [loss, exRanks], ?_, by rw [hu]; norm_num⟩
  intro x hx
  simp [exRanks] at hx
  rcases hx with rfl | rfl | rfl | rfl <;> norm_num [SphRun.exBody]

/-- A particle alone: the density is computed. -/
example : ∃ ρ, computeDensity (nearest 53) .wendlandC4 (i := 2) ⟨fun _ => 0, 1, 1⟩ [⟨fun _ => 0, 1, 1⟩] = some ρ ∧ 0 < ρ := by
  have hu : (nearest 53).u = 2 ^ (-53 : ℤ) := rfl
  refine C82_positive .wendlandC4 ?_ one_pos ?_ (List.mem_singleton.mpr rfl) one_pos
  · rw [hu]; norm_num [loss]
  · intro b hb
    rw [List.mem_singleton.mp hb]
    exact ⟨one_pos, zero_le_one⟩

end FleCSPH.Rounded
