import Verif.Lemmas.Fmm3
import Verif.Lemmas.Newton
/-! The field computed by the calls of `traversal_fmm`. -/
namespace FleCSPH.Fmm
open FleCSPH.HCell FleCSPH.BuildTree FleCSPH.Cofm FleCSPH.Geometry FleCSPH.Traversal FleCSPH.Spec FleCSPH.Tree

variable {d : Nat} {T : Top d} {rk : Nat → Nat} {B : Nat → Finset Nat} {body : Nat → Body d} {ref : Nat → Bool × Int}

/-- Potential and acceleration. -/
noncomputable def grav (gc : ℝ) (x y : Point d) (m : ℝ) : ℝ × Point d :=
  (-gc * m / distance x y, fun i => -gc * m * (x i - y i) / (distance x y * distance x y * distance x y))

theorem gravitation_eq {gc : ℝ} {x y : Point d} {m : ℝ} (h : distance x y ≠ 0) : gravitation gc x y m = some (grav gc x y m) := by
  rw [gravitation, if_neg h]; rfl

theorem grav_smul (gc : ℝ) (x y : Point d) (m : ℝ) : grav gc x y m = m • grav gc x y 1 := by
  apply Prod.ext
  · simp only [grav, Prod.smul_fst, smul_eq_mul]; ring
  · funext i; simp only [grav, Prod.smul_snd, Pi.smul_apply, smul_eq_mul]; ring

/-- The expansion about a centre, at displacement `r`. -/
noncomputable def shift (r : Point d) (g : ℝ × Point d) : ℝ × Point d := (g.1 - ∑ i, r i * g.2 i, g.2)

theorem shift_add (r : Point d) (g h : ℝ × Point d) : shift r (g + h) = shift r g + shift r h := by
  apply Prod.ext
  · simp only [shift, Prod.fst_add, Prod.snd_add, Pi.add_apply, mul_add, Finset.sum_add_distrib]; ring
  · rfl

theorem shift_zero (r : Point d) : shift r 0 = 0 := by
  apply Prod.ext
  · simp [shift]
  · rfl

theorem shift_smul (r : Point d) (m : ℝ) (g : ℝ × Point d) : shift r (m • g) = m • shift r g := by
  apply Prod.ext
  · simp only [shift, Prod.smul_fst, Prod.smul_snd, Pi.smul_apply, smul_eq_mul, mul_sub, Finset.mul_sum]
    congr 1; apply Finset.sum_congr rfl; intro i _; ring
  · rfl

theorem shift_sum (r : Point d) {α : Type} (f : α → ℝ × Point d) (l : List α) : shift r (l.map f).sum = (l.map fun c => shift r (f c)).sum := by
  induction l with
  | nil => exact shift_zero r
  | cons c l ih => rw [List.map_cons, List.sum_cons, shift_add, ih]; rfl

noncomputable def coef (F : Field d) (k : Nat) : ℝ × Point d := (F.pc k, F.fc k)
noncomputable def fld (F : Field d) (e : Bool × Int) : ℝ × Point d := (F.pot e, F.acc e)

theorem coef_addCoeff (k k' : Nat) (g : ℝ × Point d) (F : Field d) :
    coef (addCoeff k g F) k' = coef F k' + if k = k' then g else 0 := by
  apply Prod.ext
  · by_cases h : k' = k
    · subst h; simp [coef, addCoeff]
    · simp [coef, addCoeff, h, Ne.symm h]
  · by_cases h : k' = k
    · subst h; simp [coef, addCoeff]
    · simp [coef, addCoeff, h, Ne.symm h]

theorem fld_addTo (e e' : Bool × Int) (g : ℝ × Point d) (F : Field d) :
    fld (addTo e g F) e' = fld F e' + if e = e' then g else 0 := by
  apply Prod.ext
  · by_cases h : e' = e
    · subst h; simp [fld, addTo]
    · simp [fld, addTo, h, Ne.symm h]
  · by_cases h : e' = e
    · subst h; simp [fld, addTo]
    · simp [fld, addTo, h, Ne.symm h]

noncomputable def ncoords (T : Top d) (k : Nat) : Point d := (nodeAt T k).elim 0 (·.coords)
noncomputable def nmass (T : Top d) (k : Nat) : ℝ := (nodeAt T k).elim 0 (·.mass)
noncomputable def dpos (T : Top d) (e : Bool × Int) : Point d := (deref T e).elim 0 (·.pos)
noncomputable def dmass (T : Top d) (e : Bool × Int) : ℝ := (deref T e).elim 0 (·.mass)

/-- What a call of the loop adds. -/
noncomputable def val (T : Top d) (gc : ℝ) : Call → ℝ × Point d
  | .c2c k1 k2 => grav gc (ncoords T k1) (ncoords T k2) (nmass T k2)
  | .p2c k1 e => grav gc (ncoords T k1) (dpos T e) (dmass T e)
  | .n2p e k => grav gc (dpos T e) (ncoords T k) (nmass T k)
  | _ => 0

def hits (e : Bool × Int) : Call → Bool
  | .n2p e1 _ => e1 == e
  | _ => false

theorem node_ne (hT : TreeWF T rk B body ref) {k : Nat} {N : Node d} (h : nodeAt T k = some N) : ∃ j, j ∈ B k := by
  rw [nodeAt] at h
  obtain ⟨c, hc, -⟩ := Option.bind_eq_some_iff.mp h
  exact hT.ne k c hc

theorem mac_ne {x y : Point d} {r1 r2 θ : ℝ} (h1 : 0 ≤ r1) (h2 : 0 ≤ r2) (h : Geometry.mac x r1 y r2 θ) : distance x y ≠ 0 := by
  intro h0
  rw [Geometry.mac, h0] at h
  linarith

theorem apply_loop (hT : TreeWF T rk B body ref) (hderef : ∀ j ∈ B 1, deref T (ref j) = some (body j)) (gc mac : ℝ)
    (ids : Bool × Int → Int) (F : Field d) {c : Call} (hc : CallOk T B body ref mac c) :
    ∃ F', apply T gc ids F c = some F' ∧ (∀ k, coef F' k = coef F k + if c.affects k then val T gc c else 0) ∧
      ∀ e, fld F' e = fld F e + if hits e c then val T gc c else 0 := by
  cases c with
  | c2c k1 k2 =>
    obtain ⟨-, -, -, -, -, N1, N2, h1, s1, h2, s2, hm⟩ := hc
    have hd := mac_ne (radius_nonneg s1 (node_ne hT h1)) (radius_nonneg s2 (node_ne hT h2)) hm
    refine ⟨addCoeff k1 (grav gc N1.coords N2.coords N2.mass) F, ?_, ?_, ?_⟩
    · simp [apply, h1, h2, gravitation_eq hd]
    · intro k
      rw [coef_addCoeff]
      simp only [Call.affects, val, ncoords, nmass, h1, h2, Option.elim_some, beq_iff_eq]
    · intro e
      simp only [hits, Bool.false_eq_true, if_false, add_zero]; rfl
  | p2c k1 e2 =>
    obtain ⟨-, -, -, N1, j, h1, s1, hj, -, rfl, hm⟩ := hc
    have hd := mac_ne (radius_nonneg s1 (node_ne hT h1)) (le_refl 0) hm
    refine ⟨addCoeff k1 (grav gc N1.coords (body j).pos (body j).mass) F, ?_, ?_, ?_⟩
    · simp [apply, h1, hderef j hj, gravitation_eq hd]
    · intro k
      rw [coef_addCoeff]
      simp only [Call.affects, val, ncoords, dpos, dmass, h1, hderef j hj, Option.elim_some, beq_iff_eq]
    · intro e
      simp only [hits, Bool.false_eq_true, if_false, add_zero]; rfl
  | n2p e1 k2 =>
    obtain ⟨-, i, N2, hi, -, rfl, h2, s2, hm⟩ := hc
    have hd := mac_ne (le_refl 0) (radius_nonneg s2 (node_ne hT h2)) hm
    refine ⟨addTo (ref i) (grav gc (body i).pos N2.coords N2.mass) F, ?_, ?_, ?_⟩
    · simp [apply, h2, hderef i hi, gravitation_eq hd]
    · intro k
      simp only [Call.affects, Bool.false_eq_true, if_false, add_zero]; rfl
    · intro e
      rw [fld_addTo]
      simp only [hits, val, ncoords, nmass, dpos, h2, hderef i hi, Option.elim_some, beq_iff_eq]
  | c2p _ _ => exact hc.elim
  | p2p _ _ => exact hc.elim

theorem applyAll_append (T : Top d) (gc : ℝ) (ids : Bool × Int → Int) (l m : List Call) (F : Field d) :
    applyAll T gc ids (l ++ m) F = (applyAll T gc ids l F).bind (applyAll T gc ids m) := by
  induction l generalizing F with
  | nil => rfl
  | cons c l ih =>
    rw [List.cons_append, applyAll, applyAll]
    simp only [Option.bind_eq_bind]
    cases apply T gc ids F c with
    | none => rfl
    | some F' => simp only [Option.bind_some]; exact ih F'

theorem applyAll_loop (hT : TreeWF T rk B body ref) (hderef : ∀ j ∈ B 1, deref T (ref j) = some (body j)) (gc mac : ℝ)
    (ids : Bool × Int → Int) (l : List Call) (hl : ∀ c ∈ l, CallOk T B body ref mac c) (F : Field d) :
    ∃ F', applyAll T gc ids l F = some F' ∧
      (∀ k, coef F' k = coef F k + (l.map fun c => if c.affects k then val T gc c else 0).sum) ∧
      ∀ e, fld F' e = fld F e + (l.map fun c => if hits e c then val T gc c else 0).sum := by
  induction l generalizing F with
  | nil => exact ⟨F, rfl, by simp, by simp⟩
  | cons c l ih =>
    obtain ⟨F1, h1, h2, h3⟩ := apply_loop hT hderef gc mac ids F (hl c (List.mem_cons_self ..))
    obtain ⟨F2, g1, g2, g3⟩ := ih (fun c hc => hl c (List.mem_cons_of_mem _ hc)) F1
    refine ⟨F2, ?_, ?_, ?_⟩
    · rw [applyAll, h1]; exact g1
    · intro k; rw [g2, h2, List.map_cons, List.sum_cons, add_assoc]
    · intro k; rw [g3, h3, List.map_cons, List.sum_cons, add_assoc]

/-- The expansion of one node is added to its particles. -/
theorem c2pAll_spec (k : Nat) (n : Node d) : ∀ (l : List (Bool × Int)) (F : Field d), l.Nodup → (∀ e ∈ l, ∃ b, deref T e = some b) →
    ∃ F', c2pAll T k n l F = some F' ∧ (∀ k, coef F' k = coef F k) ∧
      ∀ e, fld F' e = fld F e + if e ∈ l then shift (dpos T e - n.coords) (coef F k) else 0 := by
  intro l
  induction l with
  | nil => intro F _ _; exact ⟨F, rfl, fun _ => rfl, by simp⟩
  | cons e l ih =>
    intro F hn hb
    obtain ⟨b, hb'⟩ := hb e (List.mem_cons_self ..)
    set F1 := addTo e (F.pc k - ∑ i, (b.pos i - n.coords i) * F.fc k i, F.fc k) F with hF1
    have hc1 : ∀ k', coef F1 k' = coef F k' := fun _ => rfl
    obtain ⟨F2, h1, h2, h3⟩ := ih F1 (List.nodup_cons.mp hn).2 (fun e he => hb e (List.mem_cons_of_mem _ he))
    refine ⟨F2, ?_, fun k' => by rw [h2, hc1], ?_⟩
    · rw [c2pAll, c2pOne, hb']; exact h1
    · intro e'
      rw [h3, hF1, fld_addTo, ← hF1, hc1, add_assoc]
      congr 1
      by_cases he : e = e'
      · subst he
        rw [if_pos rfl, if_neg (List.nodup_cons.mp hn).1, if_pos (List.mem_cons_self ..), add_zero]
        rw [shift, dpos, hb']; rfl
      · rw [if_neg he, zero_add]
        have : e' ∈ e :: l ↔ e' ∈ l := by simp [Ne.symm he]
        simp only [this]

theorem applyAll_down (hderef : ∀ j ∈ B 1, deref T (ref j) = some (body j)) (gc : ℝ) (ids : Bool × Int → Int)
    {keys : List Nat} {subs : List (List (Bool × Int))}
    (hsub : List.Forall₂ (fun k l => l.Nodup ∧ ∀ a, a ∈ l ↔ ∃ j ∈ B k, a = ref j) keys subs)
    (hkeys : ∀ k ∈ keys, B k ⊆ B 1 ∧ ∃ N, nodeAt T k = some N) (F : Field d) :
    ∃ F', applyAll T gc ids (List.zipWith Call.c2p keys subs) F = some F' ∧ (∀ k, coef F' k = coef F k) ∧
      ∀ e, fld F' e = fld F e + (keys.map fun k => if ∃ j ∈ B k, e = ref j then shift (dpos T e - ncoords T k) (coef F k) else 0).sum := by
  induction hsub generalizing F with
  | nil => exact ⟨F, rfl, fun _ => rfl, by simp⟩
  | @cons k l ks ss h1 _ ih =>
    obtain ⟨hsub, N, hN⟩ := hkeys k (List.mem_cons_self ..)
    obtain ⟨F1, g1, g2, g3⟩ := c2pAll_spec (T := T) k N l F h1.1 (by
      intro e he
      obtain ⟨j, hj, rfl⟩ := (h1.2 e).mp he
      exact ⟨_, hderef j (hsub hj)⟩)
    obtain ⟨F2, i1, i2, i3⟩ := ih (fun k hk => hkeys k (List.mem_cons_of_mem _ hk)) F1
    refine ⟨F2, ?_, fun k' => by rw [i2, g2], ?_⟩
    · rw [List.zipWith_cons_cons, applyAll, apply, hN]
      simp only [Option.bind_eq_bind, Option.bind_some, g1]; exact i1
    · intro e
      rw [i3, g3, List.map_cons, List.sum_cons, add_assoc]
      congr 1
      simp only [h1.2, g2, ncoords, hN, Option.elim_some]

theorem applyAll_direct (hderef : ∀ j ∈ B 1, deref T (ref j) = some (body j)) (gc : ℝ) (ids : Bool × Int → Int)
    (hids : ∀ i ∈ B 1, ∀ j ∈ B 1, ids (ref i) = ids (ref j) → i = j)
    (hinj : ∀ i ∈ B 1, ∀ j ∈ B 1, ref i = ref j → i = j)
    (hpos : ∀ i ∈ B 1, ∀ j ∈ B 1, i ≠ j → (body i).pos ≠ (body j).pos)
    (pairs : List (Nat × Nat)) (hp : ∀ p ∈ pairs, p.1 ∈ B 1 ∧ p.2 ∈ B 1) (F : Field d) :
    ∃ F', applyAll T gc ids (pairs.map fun p => .p2p (ref p.1) (ref p.2)) F = some F' ∧
      ∀ a ∈ B 1, fld F' (ref a) = fld F (ref a) +
        (pairs.map fun p => if p.1 = a ∧ p.2 ≠ a then grav gc (body a).pos (body p.2).pos (body p.2).mass else 0).sum := by
  induction pairs generalizing F with
  | nil => exact ⟨F, rfl, by simp⟩
  | cons p l ih =>
    obtain ⟨h1, h2⟩ := hp p (List.mem_cons_self ..)
    by_cases he : p.2 = p.1
    · obtain ⟨F', g1, g2⟩ := ih (fun p hp' => hp p (List.mem_cons_of_mem _ hp')) F
      refine ⟨F', ?_, ?_⟩
      · rw [List.map_cons, applyAll, apply, if_pos (by rw [he])]; exact g1
      · intro a ha
        rw [g2 a ha, List.map_cons, List.sum_cons, if_neg (by rintro ⟨h, h'⟩; exact h' (he.trans h)), zero_add]
    · have hd : distance (body p.1).pos (body p.2).pos ≠ 0 := fun h => hpos _ h1 _ h2 (Ne.symm he) (distance_eq_zero.mp h)
      obtain ⟨F', g1, g2⟩ := ih (fun p hp' => hp p (List.mem_cons_of_mem _ hp'))
        (addTo (ref p.1) (grav gc (body p.1).pos (body p.2).pos (body p.2).mass) F)
      refine ⟨F', ?_, ?_⟩
      · rw [List.map_cons, applyAll, apply, if_neg (fun h => he (hids _ h2 _ h1 h))]
        simp only [hderef _ h1, hderef _ h2, Option.bind_eq_bind, Option.bind_some, gravitation_eq hd]
        exact g1
      · intro a ha
        rw [g2 a ha, fld_addTo, List.map_cons, List.sum_cons, add_assoc]
        congr 2
        by_cases hpa : p.1 = a
        · subst hpa
          rw [if_pos rfl, if_pos ⟨rfl, he⟩]
        · rw [if_neg (fun h => hpa (hinj _ h1 _ ha h)), if_neg (fun h => hpa h.1)]

end FleCSPH.Fmm
