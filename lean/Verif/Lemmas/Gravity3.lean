import Verif.Lemmas.Gravity2
/-! Error of the field computed by the calls of `traversal_fmm`. -/
namespace FleCSPH.Fmm
open FleCSPH.HCell FleCSPH.BuildTree FleCSPH.Cofm FleCSPH.Geometry FleCSPH.Traversal FleCSPH.Spec FleCSPH.Tree

variable {d : Nat} {T : Top d} {rk : Nat → Nat} {B : Nat → Finset Nat} {body : Nat → Body d} {ref : Nat → Bool × Int}

/-- `euc` as a linear map. -/
noncomputable def eucL : Point d →ₗ[ℝ] EuclideanSpace ℝ (Fin d) where
  toFun := euc
  map_add' _ _ := rfl
  map_smul' _ _ := rfl

theorem euc_sub (x y : Point d) : euc (x - y) = euc x - euc y := rfl

theorem norm_euc_sub (x y : Point d) : ‖euc x - euc y‖ = distance x y := by rw [distance_euc, dist_eq_norm]

theorem grav_snd (gc : ℝ) (x y : Point d) : euc (grav gc x y 1).2 = (-gc) • ((‖euc x - euc y‖ ^ 3)⁻¹ • (euc x - euc y)) := by
  rw [norm_euc_sub]
  ext i
  show -gc * 1 * (x i - y i) / (distance x y * distance x y * distance x y) = -gc * ((distance x y ^ 3)⁻¹ * (x i - y i))
  rw [div_eq_mul_inv]
  ring_nf

theorem inner_euc (x y : Point d) : inner ℝ (euc x) (euc y) = ∑ i, x i * y i := by
  rw [PiLp.inner_apply]
  apply Finset.sum_congr rfl
  intro i _
  show inner ℝ (x i) (y i) = _
  rw [real_inner_eq_re_inner, RCLike.inner_apply]
  simp [mul_comm]

theorem shift_grav_fst (gc : ℝ) (r x y : Point d) :
    (shift r (grav gc x y 1)).1 = gc * (-‖euc x - euc y‖⁻¹ + inner ℝ (euc r) ((‖euc x - euc y‖ ^ 3)⁻¹ • (euc x - euc y))) := by
  rw [shift]
  dsimp only
  rw [← inner_euc, grav_snd, inner_smul_right, grav, norm_euc_sub]
  dsimp only
  rw [mul_one, div_eq_mul_inv]
  ring

theorem expand_err (gc : ℝ) {θ : ℝ} (hθ : 0 ≤ θ) {x y c1 c2 : Point d} (hxy : x ≠ y) (hc : c1 ≠ c2)
    (h : distance c1 x + distance c2 y ≤ θ * distance c1 c2) :
    ‖euc (shift (x - c1) (grav gc c1 c2 1)).2 - euc (grav gc x y 1).2‖ ≤ |gc| * ((4 * θ + 5 * θ ^ 2 + 2 * θ ^ 3) / distance x y ^ 2) ∧
    |(shift (x - c1) (grav gc c1 c2 1)).1 - (grav gc x y 1).1| ≤ |gc| * ((2 * θ + θ ^ 2) / distance x y) := by
  have hu : euc x - euc y ≠ 0 := by
    rw [← norm_ne_zero_iff, norm_euc_sub]; exact fun h => hxy (distance_eq_zero.mp h)
  have hv : euc c1 - euc c2 ≠ 0 := by
    rw [← norm_ne_zero_iff, norm_euc_sub]; exact fun h => hc (distance_eq_zero.mp h)
  have hr : ‖euc (x - c1)‖ ≤ θ * ‖euc c1 - euc c2‖ := by
    rw [euc_sub, norm_euc_sub, norm_euc_sub, distance_comm]
    linarith [distance_nonneg c2 y]
  have huv : ‖(euc x - euc y) - (euc c1 - euc c2)‖ ≤ θ * ‖euc c1 - euc c2‖ := by
    have e : (euc x - euc y) - (euc c1 - euc c2) = (euc c2 - euc y) - (euc c1 - euc x) := by abel
    rw [e, norm_euc_sub c1 c2]
    refine le_trans (norm_sub_le _ _) ?_
    rw [norm_euc_sub, norm_euc_sub]; linarith
  constructor
  · have hs : (shift (x - c1) (grav gc c1 c2 1)).2 = (grav gc c1 c2 1).2 := rfl
    rw [hs, grav_snd, grav_snd, ← smul_sub, norm_smul, norm_neg, Real.norm_eq_abs, norm_sub_rev]
    have := Newton.kernel_err hu hv hθ huv
    rw [norm_euc_sub x y] at this
    rw [norm_euc_sub x y]
    exact mul_le_mul_of_nonneg_left this (abs_nonneg _)
  · have hg : (grav gc x y 1).1 = gc * (-‖euc x - euc y‖⁻¹) := by
      rw [grav, norm_euc_sub]; dsimp only; rw [div_eq_mul_inv]; ring
    rw [shift_grav_fst, hg, ← mul_sub, abs_mul, abs_sub_comm]
    have := Newton.potential_err hu hv hθ huv hr
    rw [norm_euc_sub x y] at this
    rw [norm_euc_sub x y]
    exact mul_le_mul_of_nonneg_left this (abs_nonneg _)

/-- The error of one call for one pair. -/
theorem unit_err (hderef : ∀ j ∈ B 1, deref T (ref j) = some (body j)) (hT : TreeWF T rk B body ref)
    (hinj : ∀ i ∈ B 1, ∀ j ∈ B 1, ref i = ref j → i = j)
    (gc : ℝ) {θ : ℝ} (hθ : 0 ≤ θ) {c : Call} (hc : CallOk T B body ref θ c) {a b : Nat} (ha : a ∈ B 1) (hb : b ∈ B 1)
    (hab : (body a).pos ≠ (body b).pos) (hcov : covCall B ref a b c ≠ 0) :
    ‖euc (unit T gc (body a).pos c).2 - euc (grav gc (body a).pos (body b).pos 1).2‖ ≤
      |gc| * ((4 * θ + 5 * θ ^ 2 + 2 * θ ^ 3) / distance (body a).pos (body b).pos ^ 2) ∧
    |(unit T gc (body a).pos c).1 - (grav gc (body a).pos (body b).pos 1).1| ≤
      |gc| * ((2 * θ + θ ^ 2) / distance (body a).pos (body b).pos) := by
  have hind : ∀ {S : Finset Nat} {j : Nat}, ind S j ≠ 0 → j ∈ S := by
    intro S j h
    by_contra hn
    exact h (by simp [ind, hn])
  cases c with
  | c2c k1 k2 =>
    obtain ⟨-, -, -, -, -, N1, N2, h1, s1, h2, s2, hm⟩ := hc
    have hd := mac_ne (radius_nonneg s1 (node_ne hT h1)) (radius_nonneg s2 (node_ne hT h2)) hm
    rw [covCall, mul_ne_zero_iff] at hcov
    have r1 := s1.radius a (hind hcov.1)
    have r2 := s2.radius b (hind hcov.2)
    simp only [unit, ncoords, h1, h2, Option.elim_some]
    refine expand_err gc hθ hab (fun h => hd (distance_eq_zero.mpr h)) ?_
    rw [Geometry.mac] at hm; linarith
  | p2c k1 e2 =>
    obtain ⟨-, -, -, N1, j, h1, s1, hj, -, rfl, hm⟩ := hc
    have hd := mac_ne (radius_nonneg s1 (node_ne hT h1)) (le_refl 0) hm
    rw [covCall, mul_ne_zero_iff] at hcov
    have r1 := s1.radius a (hind hcov.1)
    have hjb : j = b := by
      by_contra hn
      exact hcov.2 (if_neg (fun h => hn (hinj j hj b hb h)))
    subst hjb
    simp only [unit, ncoords, dpos, h1, hderef j hj, Option.elim_some]
    refine expand_err gc hθ hab (fun h => hd (distance_eq_zero.mpr h)) ?_
    rw [Geometry.mac] at hm
    rw [distance_self]; linarith
  | n2p e1 k2 =>
    obtain ⟨-, i, N2, hi, -, rfl, h2, s2, hm⟩ := hc
    have hd := mac_ne (le_refl 0) (radius_nonneg s2 (node_ne hT h2)) hm
    rw [covCall, mul_ne_zero_iff] at hcov
    have r2 := s2.radius b (hind hcov.2)
    have hia : i = a := by
      by_contra hn
      exact hcov.1 (if_neg (fun h => hn (hinj i hi a ha h)))
    subst hia
    simp only [unit, ncoords, dpos, h2, hderef i hi, Option.elim_some]
    have := expand_err (x := (body i).pos) (y := (body b).pos) (c1 := (body i).pos) (c2 := N2.coords) gc hθ hab (fun h => hd (distance_eq_zero.mpr h)) (by
      rw [Geometry.mac] at hm
      rw [distance_self]; linarith)
    have hs : shift ((body i).pos - (body i).pos) (grav gc (body i).pos N2.coords 1) = grav gc (body i).pos N2.coords 1 := by
      rw [sub_self, shift]; simp
    rw [hs] at this
    exact this
  | c2p _ _ => exact hc.elim
  | p2p _ _ => exact hc.elim

theorem cov_self {θ : ℝ} {c : Call} (hc : CallOk T B body ref θ c) (hinj : ∀ i ∈ B 1, ∀ j ∈ B 1, ref i = ref j → i = j) {a : Nat} (ha : a ∈ B 1) :
    covCall B ref a a c = 0 := by
  cases c with
  | c2c k1 k2 =>
    obtain ⟨-, -, -, h, -⟩ := hc
    rw [covCall]
    by_cases h1 : a ∈ B k1
    · simp [ind, h a h1]
    · simp [ind, h1]
  | p2c k1 e2 =>
    obtain ⟨-, -, -, N1, j, -, -, hj, hn, rfl, -⟩ := hc
    rw [covCall]
    by_cases h1 : ref j = ref a
    · rw [hinj j hj a ha h1] at hn
      simp [ind, hn]
    · simp [h1]
  | n2p e1 k2 =>
    obtain ⟨-, i, N2, hi, hn, rfl, -⟩ := hc
    rw [covCall]
    by_cases h1 : ref i = ref a
    · rw [hinj i hi a ha h1] at hn
      simp [ind, hn]
    · simp [h1]
  | c2p _ _ => rfl
  | p2p _ _ => rfl

/-- From the errors of the calls to the error of the sum. -/
theorem err_generic {E : Type*} [NormedAddCommGroup E] [NormedSpace ℝ E] (L : ℝ × Point d →ₗ[ℝ] E) (gc : ℝ)
    {calls : List Call} {pairs : List (Nat × Nat)} {a : Nat} (bound : Nat → ℝ)
    (hmass : ∀ b ∈ B 1, 0 ≤ (body b).mass) (ha : a ∈ B 1)
    (hself : ∀ c ∈ calls, covCall B ref a a c = 0)
    (hone : ∀ b ∈ B 1, (calls.map (covCall B ref a b)).sum + pairs.count (a, b) = 1)
    (hbound0 : ∀ b ∈ B 1, 0 ≤ bound b)
    (herr : ∀ c ∈ calls, ∀ b ∈ B 1, b ≠ a → covCall B ref a b c ≠ 0 →
      ‖L (unit T gc (body a).pos c) - L (grav gc (body a).pos (body b).pos 1)‖ ≤ bound b) :
    ‖L (∑ b ∈ B 1, (body b).mass •
        ((calls.map fun c => (covCall B ref a b c : ℝ) • unit T gc (body a).pos c).sum +
          if b = a then 0 else (pairs.count (a, b) : ℝ) • grav gc (body a).pos (body b).pos 1)) -
      ∑ b ∈ (B 1).erase a, (body b).mass • L (grav gc (body a).pos (body b).pos 1)‖ ≤ ∑ b ∈ (B 1).erase a, (body b).mass * bound b := by
  have hlist : ∀ (b : Nat) (l : List Call), L ((l.map fun c => (covCall B ref a b c : ℝ) • unit T gc (body a).pos c).sum) =
      (l.map fun c => (covCall B ref a b c : ℝ) • L (unit T gc (body a).pos c)).sum := by
    intro b l
    induction l with
    | nil => simp
    | cons c l ih => rw [List.map_cons, List.sum_cons, map_add, map_smul, ih]; simp
  have hz : (calls.map fun c => (covCall B ref a a c : ℝ) • unit T gc (body a).pos c).sum = 0 := by
    apply List.sum_eq_zero
    intro y hy
    obtain ⟨c, hc, rfl⟩ := List.mem_map.mp hy
    rw [hself c hc]; simp
  rw [← Finset.add_sum_erase _ _ ha, hz, if_pos rfl, add_zero, smul_zero, zero_add, map_sum, ← Finset.sum_sub_distrib]
  refine le_trans (norm_sum_le _ _) (Finset.sum_le_sum ?_)
  intro b hb
  obtain ⟨hba, hb1⟩ := Finset.mem_erase.mp hb
  rw [if_neg hba, map_smul, ← smul_sub, norm_smul, Real.norm_of_nonneg (hmass b hb1)]
  refine mul_le_mul_of_nonneg_left ?_ (hmass b hb1)
  rw [map_add, map_smul, hlist]
  set g := L (grav gc (body a).pos (body b).pos 1) with hg
  have hsum : ∀ l : List Call, (l.map fun c => (covCall B ref a b c : ℝ) • L (unit T gc (body a).pos c)).sum -
      ((l.map (covCall B ref a b)).sum : ℕ) • g = (l.map fun c => (covCall B ref a b c : ℝ) • (L (unit T gc (body a).pos c) - g)).sum := by
    intro l
    induction l with
    | nil => simp
    | cons c l ih =>
      rw [List.map_cons, List.sum_cons, List.map_cons, List.sum_cons, List.map_cons, List.sum_cons, ← ih, add_smul, smul_sub,
        Nat.cast_smul_eq_nsmul, Nat.cast_smul_eq_nsmul]
      abel
  have h1 : (calls.map fun c => (covCall B ref a b c : ℝ) • L (unit T gc (body a).pos c)).sum + (pairs.count (a, b) : ℝ) • g - g =
      (calls.map fun c => (covCall B ref a b c : ℝ) • (L (unit T gc (body a).pos c) - g)).sum := by
    rw [← hsum, Nat.cast_smul_eq_nsmul]
    have : ((calls.map (covCall B ref a b)).sum + pairs.count (a, b)) • g = g := by rw [hone b hb1, one_smul]
    rw [add_smul] at this
    generalize (calls.map fun c => (covCall B ref a b c : ℝ) • L (unit T gc (body a).pos c)).sum = w
    calc w + pairs.count (a, b) • g - g = w + pairs.count (a, b) • g - ((calls.map (covCall B ref a b)).sum • g + pairs.count (a, b) • g) := by rw [this]
      _ = w - (calls.map (covCall B ref a b)).sum • g := by abel
  rw [h1]
  have h2 : ∀ l : List Call, (∀ c ∈ l, c ∈ calls) →
      ‖(l.map fun c => (covCall B ref a b c : ℝ) • (L (unit T gc (body a).pos c) - g)).sum‖ ≤ ((l.map (covCall B ref a b)).sum : ℕ) * bound b := by
    intro l
    induction l with
    | nil => intro _; simp
    | cons c l ih =>
      intro hl
      rw [List.map_cons, List.sum_cons, List.map_cons, List.sum_cons]
      refine le_trans (norm_add_le _ _) ?_
      rw [Nat.cast_add, add_mul]
      refine add_le_add ?_ (ih (fun c hc => hl c (List.mem_cons_of_mem _ hc)))
      rw [norm_smul, Real.norm_of_nonneg (by positivity)]
      by_cases h0 : covCall B ref a b c = 0
      · rw [h0]; simp
      · exact mul_le_mul_of_nonneg_left (herr c (hl c (List.mem_cons_self ..)) b hb1 hba h0) (by positivity)
  refine le_trans (h2 calls (fun _ h => h)) ?_
  have : (calls.map (covCall B ref a b)).sum ≤ 1 := by have := hone b hb1; omega
  have : (((calls.map (covCall B ref a b)).sum : ℕ) : ℝ) ≤ 1 := by exact_mod_cast this
  nlinarith [hbound0 b hb1]

theorem CallOk_mono {d : Nat} {T : Top d} {B : Nat → Finset Nat} {body : Nat → Body d} {ref : Nat → Bool × Int} {θ θ' : ℝ} (h : θ ≤ θ')
    {c : Call} (hc : CallOk T B body ref θ c) : CallOk T B body ref θ' c := by
  have hm : ∀ {x y : Point d} {r1 r2 : ℝ}, Geometry.mac x r1 y r2 θ → Geometry.mac x r1 y r2 θ' := by
    intro x y r1 r2 hm
    exact lt_of_lt_of_le hm (mul_le_mul_of_nonneg_right h (distance_nonneg _ _))
  cases c with
  | c2c k1 k2 =>
    obtain ⟨w1, w2, w3, w4, w5, N1, N2, h1, s1, h2, s2, hmac⟩ := hc
    exact ⟨w1, w2, w3, w4, w5, N1, N2, h1, s1, h2, s2, hm hmac⟩
  | p2c k1 e2 =>
    obtain ⟨w1, w2, w3, N1, j, h1, s1, hj, hn, he, hmac⟩ := hc
    exact ⟨w1, w2, w3, N1, j, h1, s1, hj, hn, he, hm hmac⟩
  | n2p e1 k2 =>
    obtain ⟨w1, i, N2, hi, hn, he, h2, s2, hmac⟩ := hc
    exact ⟨w1, i, N2, hi, hn, he, h2, s2, hm hmac⟩
  | c2p _ _ => exact hc
  | p2p _ _ => exact hc

theorem sum_fin_erase {d : Nat} {M : Type} [AddCommMonoid M] (bodies : List (Body d)) (S : Finset Nat) (hS : ∀ j, j ∈ S ↔ j < bodies.length)
    (a : Fin bodies.length) (f : Nat → M) : ∑ b ∈ S.erase a, f b = ∑ b ∈ Finset.univ.erase a, f (b : Nat) := by
  symm
  apply Finset.sum_bij (fun (b : Fin bodies.length) _ => (b : Nat))
  · intro b hb
    rw [Finset.mem_erase] at hb ⊢
    exact ⟨fun h => hb.1 (Fin.ext h), (hS _).mpr b.2⟩
  · intro b _ b' _ h; exact Fin.ext h
  · intro b hb
    rw [Finset.mem_erase] at hb
    exact ⟨⟨b, (hS b).mp hb.2⟩, Finset.mem_erase.mpr ⟨fun h => hb.1 (congrArg Fin.val h), Finset.mem_univ _⟩, rfl⟩
  · intro b _; rfl

end FleCSPH.Fmm
