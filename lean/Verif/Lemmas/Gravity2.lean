import Verif.Lemmas.Gravity
import Verif.Spec.Gravity
/-! The field computed by the calls of `traversal_fmm`, compared to Newton's law. -/
namespace FleCSPH.Fmm
open FleCSPH.HCell FleCSPH.BuildTree FleCSPH.Cofm FleCSPH.Geometry FleCSPH.Traversal FleCSPH.Spec FleCSPH.Tree

variable {d : Nat} {T : Top d} {rk : Nat → Nat} {B : Nat → Finset Nat} {body : Nat → Body d} {ref : Nat → Bool × Int}

/-- What a call adds to particle `a` per unit of mass of the source. -/
noncomputable def unit (T : Top d) (gc : ℝ) (x : Point d) : Call → ℝ × Point d
  | .c2c k1 k2 => shift (x - ncoords T k1) (grav gc (ncoords T k1) (ncoords T k2) 1)
  | .p2c k1 e => shift (x - ncoords T k1) (grav gc (ncoords T k1) (dpos T e) 1)
  | .n2p e k => grav gc (dpos T e) (ncoords T k) 1
  | _ => 0

theorem sum_comm_vec {V : Type} [AddCommMonoid V] {α β : Type} (f : α → β → V) (l : List α) (m : List β) :
    (l.map fun x => (m.map fun y => f x y).sum).sum = (m.map fun y => (l.map fun x => f x y).sum).sum := by
  induction l with
  | nil => simp
  | cons x l ih => rw [List.map_cons, List.sum_cons, ih, ← List.sum_map_add]; simp

theorem pick_key {V : Type} [AddCommMonoid V] (keys : List Nat) (hnd : keys.Nodup) (k1 : Nat) (hk : k1 ∈ keys) (f : Nat → V) :
    (keys.map fun k => if k1 = k then f k else 0).sum = f k1 := by
  induction keys with
  | nil => simp at hk
  | cons x l ih =>
    rw [List.map_cons, List.sum_cons]
    by_cases hx : k1 = x
    · subst hx
      rw [if_pos rfl]
      have : (l.map fun k => if k1 = k then f k else 0).sum = 0 := by
        apply List.sum_eq_zero
        intro y hy
        obtain ⟨k, hk, rfl⟩ := List.mem_map.mp hy
        rw [if_neg (by rintro rfl; exact (List.nodup_cons.mp hnd).1 hk)]
      rw [this, add_zero]
    · rw [if_neg hx, zero_add]
      exact ih (List.nodup_cons.mp hnd).2 ((List.mem_cons.mp hk).resolve_left hx)

theorem mass_sum {S R : Finset Nat} {N : Node d} (h : Summarises body S N) (hs : S ⊆ R) :
    N.mass = ∑ b ∈ R, (ind S b : ℝ) * (body b).mass := by
  rw [h.mass, ← Finset.sum_subset hs]
  · apply Finset.sum_congr rfl
    intro b hb
    simp [ind, hb]
  · intro b _ hb
    simp [ind, hb]

/-- The acceleration and potential of particle `a` is a sum over its sources. -/
theorem field_sum (hT : TreeWF T rk B body ref) (hderef : ∀ j ∈ B 1, deref T (ref j) = some (body j)) (gc mac : ℝ)
    (ids : Bool × Int → Int) (hids : ∀ i ∈ B 1, ∀ j ∈ B 1, ids (ref i) = ids (ref j) → i = j)
    (hinj : ∀ i ∈ B 1, ∀ j ∈ B 1, ref i = ref j → i = j)
    (hpos : ∀ i ∈ B 1, ∀ j ∈ B 1, i ≠ j → (body i).pos ≠ (body j).pos)
    {calls : List Call} {keys : List Nat} {subs : List (List (Bool × Int))} {pairs : List (Nat × Nat)}
    (hcalls : ∀ c ∈ calls, CallOk T B body ref mac c)
    (hnd : keys.Nodup) (hkeys : ∀ k ∈ keys, B k ⊆ B 1 ∧ ∃ N, nodeAt T k = some N)
    (hin : ∀ k, (∃ c ∈ calls, c.affects k = true) → k ∈ keys)
    (hsub : List.Forall₂ (fun k l => l.Nodup ∧ ∀ a, a ∈ l ↔ ∃ j ∈ B k, a = ref j) keys subs)
    (hp : ∀ p ∈ pairs, p.1 ∈ B 1 ∧ p.2 ∈ B 1) :
    ∃ F, applyAll T gc ids (calls ++ (List.zipWith Call.c2p keys subs) ++ pairs.map fun p => .p2p (ref p.1) (ref p.2)) ⟨0, 0, 0, 0⟩ = some F ∧
      ∀ a ∈ B 1, fld F (ref a) = ∑ b ∈ B 1, (body b).mass •
        ((calls.map fun c => (covCall B ref a b c : ℝ) • unit T gc (body a).pos c).sum +
          if b = a then 0 else (pairs.count (a, b) : ℝ) • grav gc (body a).pos (body b).pos 1) := by
  obtain ⟨F1, e1, c1, f1⟩ := applyAll_loop hT hderef gc mac ids calls hcalls (⟨0, 0, 0, 0⟩ : Field d)
  obtain ⟨F2, e2, c2, f2⟩ := applyAll_down hderef gc ids hsub hkeys F1
  obtain ⟨F3, e3, f3⟩ := applyAll_direct hderef gc ids hids hinj hpos pairs hp F2
  refine ⟨F3, ?_, ?_⟩
  · rw [applyAll_append, applyAll_append, e1]
    simp only [Option.bind_some, e2]
    exact e3
  intro a ha
  have hz : fld (⟨0, 0, 0, 0⟩ : Field d) (ref a) = 0 := rfl
  have hz' : ∀ k, coef (⟨0, 0, 0, 0⟩ : Field d) k = 0 := fun k => rfl
  have hmem : ∀ k ∈ keys, (∃ j ∈ B k, ref a = ref j) ↔ a ∈ B k := by
    intro k hk
    constructor
    · rintro ⟨j, hj, h⟩
      rw [hinj a ha j ((hkeys k hk).1 hj) h]; exact hj
    · intro h; exact ⟨a, h, rfl⟩
  have hda : dpos T (ref a) = (body a).pos := by rw [dpos, hderef a ha]; rfl
  rw [f3 a ha, f2, f1, hz, zero_add]
  -- the expansions, call by call
  have hdown : (keys.map fun k => if ∃ j ∈ B k, ref a = ref j then shift (dpos T (ref a) - ncoords T k) (coef F1 k) else 0).sum =
      (calls.map fun c => (keys.map fun k => if a ∈ B k then if c.affects k then shift ((body a).pos - ncoords T k) (val T gc c) else 0 else 0).sum).sum := by
    rw [← sum_comm_vec]
    congr 1
    apply List.map_congr_left
    intro k hk
    simp only [hmem k hk]
    by_cases h : a ∈ B k
    · simp only [if_pos h]
      rw [c1, hz', zero_add, shift_sum, hda]
      congr 1
      apply List.map_congr_left
      intro c _
      split
      · rfl
      · exact shift_zero _
    · simp only [if_neg h]
      simp
  rw [hdown, ← List.sum_map_add]
  -- each call
  have hcall : ∀ c ∈ calls, ((if hits (ref a) c then val T gc c else 0) +
      (keys.map fun k => if a ∈ B k then if c.affects k then shift ((body a).pos - ncoords T k) (val T gc c) else 0 else 0).sum) =
      ∑ b ∈ B 1, (body b).mass • ((covCall B ref a b c : ℝ) • unit T gc (body a).pos c) := by
    intro c hc
    have hok := hcalls c hc
    have hswap : ∀ k1, (keys.map fun k => if a ∈ B k then if k1 = k then shift ((body a).pos - ncoords T k) (val T gc c) else 0 else 0).sum =
        (keys.map fun k => if k1 = k then (if a ∈ B k then shift ((body a).pos - ncoords T k) (val T gc c) else 0) else 0).sum := by
      intro k1
      congr 1
      apply List.map_congr_left
      intro k _
      by_cases h1 : a ∈ B k <;> by_cases h2 : k1 = k <;> simp [h1, h2]
    cases c with
    | c2c k1 k2 =>
      have hk1 := hin k1 ⟨_, hc, by simp [Call.affects]⟩
      obtain ⟨-, -, hs2, -, -, N1, N2, h1, s1, h2, s2, hm⟩ := hok
      simp only [hits, Bool.false_eq_true, if_false, zero_add, Call.affects, beq_iff_eq]
      rw [hswap, pick_key keys hnd k1 hk1 (fun k => if a ∈ B k then shift ((body a).pos - ncoords T k) (val T gc (.c2c k1 k2)) else 0)]
      have hm2 : nmass T k2 = ∑ b ∈ B 1, (ind (B k2) b : ℝ) * (body b).mass := by
        rw [← mass_sum s2 hs2, nmass, h2]; rfl
      simp only [covCall, unit, val]
      rw [grav_smul, shift_smul, hm2, Finset.sum_smul]
      by_cases h : a ∈ B k1
      · rw [if_pos h]
        apply Finset.sum_congr rfl
        intro b _
        rw [smul_smul]
        congr 1
        simp [ind, h, mul_comm]
      · rw [if_neg h]
        symm
        apply Finset.sum_eq_zero
        intro b _
        simp [ind, h]
    | p2c k1 e2 =>
      have hk1 := hin k1 ⟨_, hc, by simp [Call.affects]⟩
      obtain ⟨-, -, -, N1, j, h1, s1, hj, -, rfl, hm⟩ := hok
      simp only [hits, Bool.false_eq_true, if_false, zero_add, Call.affects, beq_iff_eq]
      rw [hswap, pick_key keys hnd k1 hk1 (fun k => if a ∈ B k then shift ((body a).pos - ncoords T k) (val T gc (.p2c k1 (ref j))) else 0)]
      have hm2 : dmass T (ref j) = (body j).mass := by rw [dmass, hderef j hj]; rfl
      simp only [covCall, unit, val]
      rw [grav_smul, shift_smul, hm2, Finset.sum_eq_single j]
      · by_cases h : a ∈ B k1 <;> simp [ind, h]
      · intro b hb hbj
        rw [if_neg (fun h => hbj (hinj j hj b hb h).symm)]
        simp
      · intro h; exact absurd hj h
    | n2p e1 k2 =>
      obtain ⟨hs2, i, N2, hi, -, rfl, h2, s2, hm⟩ := hok
      have hzero : (keys.map fun k => if a ∈ B k then if (Call.n2p (ref i) k2).affects k then shift ((body a).pos - ncoords T k) (val T gc (.n2p (ref i) k2)) else 0 else 0).sum = 0 := by
        apply List.sum_eq_zero
        intro y hy
        obtain ⟨k, hk, rfl⟩ := List.mem_map.mp hy
        simp [Call.affects]
      rw [hzero, add_zero]
      have hm2 : nmass T k2 = ∑ b ∈ B 1, (ind (B k2) b : ℝ) * (body b).mass := by
        rw [← mass_sum s2 hs2, nmass, h2]; rfl
      simp only [covCall, unit, val, hits, beq_iff_eq]
      by_cases h : ref i = ref a
      · simp only [if_pos h]
        rw [grav_smul, hm2, Finset.sum_smul]
        apply Finset.sum_congr rfl
        intro b _
        rw [smul_smul]
        congr 1
        push_cast
        ring
      · simp [h]
    | c2p _ _ => exact hok.elim
    | p2p _ _ => exact hok.elim
  rw [List.map_congr_left hcall]
  have hex : ∀ l : List Call, (l.map fun c => ∑ b ∈ B 1, (body b).mass • ((covCall B ref a b c : ℝ) • unit T gc (body a).pos c)).sum =
      ∑ b ∈ B 1, (body b).mass • (l.map fun c => (covCall B ref a b c : ℝ) • unit T gc (body a).pos c).sum := by
    intro l
    induction l with
    | nil => simp
    | cons c l ih =>
      rw [List.map_cons, List.sum_cons, ih, ← Finset.sum_add_distrib]
      apply Finset.sum_congr rfl
      intro b _
      rw [List.map_cons, List.sum_cons, smul_add]
  have hpairs : ∀ l : List (Nat × Nat), (∀ p ∈ l, p.1 ∈ B 1 ∧ p.2 ∈ B 1) →
      (l.map fun p => if p.1 = a ∧ p.2 ≠ a then grav gc (body a).pos (body p.2).pos (body p.2).mass else 0).sum =
      ∑ b ∈ B 1, (body b).mass • (if b = a then 0 else (l.count (a, b) : ℝ) • grav gc (body a).pos (body b).pos 1) := by
    intro l
    induction l with
    | nil => intro _; simp
    | cons p l ih =>
      intro hl
      rw [List.map_cons, List.sum_cons, ih (fun p hp => hl p (List.mem_cons_of_mem _ hp))]
      have : ∀ b ∈ B 1, (body b).mass • (if b = a then 0 else (((p :: l).count (a, b) : ℕ) : ℝ) • grav gc (body a).pos (body b).pos 1) =
          (if b = p.2 then (if p.1 = a ∧ p.2 ≠ a then grav gc (body a).pos (body p.2).pos (body p.2).mass else 0) else 0) +
          (body b).mass • (if b = a then 0 else (l.count (a, b) : ℝ) • grav gc (body a).pos (body b).pos 1) := by
        intro b _
        rw [List.count_cons]
        obtain ⟨x, y⟩ := p
        by_cases hb : b = a
        · subst hb
          by_cases hy : b = y
          · subst hy; simp
          · simp [hy]
        · by_cases hy : b = y
          · subst hy
            by_cases hx : x = a
            · subst hx
              rw [grav_smul gc _ _ (body b).mass]
              simp only [beq_self_eq_true, if_true, hb, if_false, ne_eq, not_false_eq_true, and_self]
              push_cast
              rw [add_smul, one_smul, smul_add, add_comm]
            · simp [hb, hx]
          · have : ((x, y) == (a, b)) = false := by simp [Ne.symm hy]
            simp [hb, hy, Ne.symm hy]
      rw [Finset.sum_congr rfl this, Finset.sum_add_distrib]
      congr 1
      rw [Finset.sum_ite_eq' , if_pos (hl p (List.mem_cons_self ..)).2]
  rw [hex, hpairs pairs hp, ← Finset.sum_add_distrib]
  apply Finset.sum_congr rfl
  intro b _
  rw [smul_add]

end FleCSPH.Fmm
