import Verif.Lemmas.Newtonian
import Verif.Props.C77
/-! The effect of gravity on the particles is determined by their positions, masses and smoothing lengths. -/
namespace FleCSPH.Newtonian
open FleCSPH.Geometry FleCSPH.Sph FleCSPH.Driver FleCSPH.Spec FleCSPH.Cofm FleCSPH.Key FleCSPH.Update

variable {i : Fin 3} {n : Nat}

/-- A division among `P` processes: one particle each, the rest on the last one. -/
theorem exists_division {P : Nat} (hP : 0 < P) (hn : P ≤ n) : ∃ vec, Division n P vec := by
  refine ⟨fun r => (List.finRange n).filter fun a => decide (Nat.min a.val (P - 1) = r.val), ?_, fun r => ?_⟩
  · refine (List.perm_ext_iff_of_nodup ?_ (List.nodup_finRange n)).2 fun a => ?_
    · rw [List.nodup_flatMap]
      refine ⟨fun r _ => (List.nodup_finRange n).filter _, ?_⟩
      refine List.Pairwise.imp_of_mem ?_ (List.nodup_finRange P)
      intro r q _ _ hrq a ha hb
      simp only [List.mem_filter, decide_eq_true_eq] at ha hb
      exact hrq (Fin.ext (ha.2.symm.trans hb.2))
    · simp only [List.mem_flatMap, List.mem_finRange, true_and, List.mem_filter, decide_eq_true_eq, iff_true]
      exact ⟨⟨Nat.min a.val (P - 1), lt_of_le_of_lt (Nat.min_le_right _ _) (by omega)⟩, rfl⟩
  · refine List.ne_nil_of_mem (a := ⟨r.val, lt_of_lt_of_le r.2 hn⟩) ?_
    simp only [List.mem_filter, List.mem_finRange, true_and, decide_eq_true_eq]
    exact Nat.min_eq_left (by have := r.2; omega)

/-- The error bound of the multipole method for one particle. -/
def Close (angle G : ℝ) (body : Fin n → Body (i + 1)) (a : Fin n) (pot : ℝ) (acc : Point (i + 1)) : Prop :=
  ∀ t, t = max angle 0 → distance acc (accelerationAt G body a) ≤ (4 * t + 5 * t ^ 2 + 2 * t ^ 3) * ∑ b ∈ Finset.univ.erase a, |G| * (body b).mass / distance (body a).pos (body b).pos ^ 2 ∧
    |pot - potentialAt G body a| ≤ (2 * t + t ^ 2) * ∑ b ∈ Finset.univ.erase a, |G| * (body b).mass / distance (body a).pos (body b).pos

theorem gravitated_spec (g : Gravity) (hbits : i.val + 1 < g.bits) (hn : 2 ≤ n) (body : Fin n → Body (i + 1)) (hm : ∀ a, 0 < (body a).mass) (hh : ∀ a, 0 < (body a).h)
    (hsep : Separate (maxDepth g.bits (i + 1)) body) : ∃ (pot : Fin n → ℝ) (acc : Fin n → Point (i + 1)), (∀ a, Close g.angle g.const body a (pot a) (acc a)) ∧
      ∀ v : Fin n → Particle (i + 1), (∀ a, bodyOf (v a) = body a) → (∀ a b, (v a).id = (v b).id → a = b) → ∀ m,
        (2 ^ m ≤ n → Gravitated g m v fun a => { v a with gpot := pot a, gacc := acc a }) ∧ ∀ v', Gravitated g m v v' → ∀ a, v' a = { v a with gpot := pot a, gacc := acc a } := by
  obtain ⟨key, hkey, -, -⟩ := C77_keys (Nat.succ_pos i.val) hbits hh
  have hD : 0 < maxDepth g.bits (i + 1) := Nat.div_pos (by omega) (Nat.succ_pos _)
  have hinj := zkey_inj (Nat.succ_pos i.val) hkey hsep
  obtain ⟨pot, acc, hG⟩ := C77_gravity_partial (Nat.succ_pos i.val) hbits hh hsep hkey hm g.big hn g.angle g.const
  -- the division of the particles on one process, for the bound
  have leaf : ∀ a, ∃ e, LeafOf (maxDepth g.bits (i + 1)) (i + 1) ((List.finRange n).map key) (key a) e := by
    intro a
    refine ⟨_, (DistGravity.leafOf_iff (Nat.succ_pos _) hD (fun x hx => ?_) (List.mem_map_of_mem (List.mem_finRange a))).2 rfl⟩
    obtain ⟨b, -, rfl⟩ := List.mem_map.1 hx
    exact zkey_full hkey b
  have hbody : ∀ {v : Fin n → Particle (i + 1)} (old : Fin n → Nat) {P : Nat} (vec : Fin P → List (Fin n)), (∀ a, bodyOf (v a) = body a) →
      (fun r => (vec r).map fun a => (⟨bodyOf (v a), (v a).id, old a⟩ : Ent (i + 1))) = fun r => (vec r).map fun a => ⟨body a, (v a).id, old a⟩ := by
    intro v old P vec hv
    funext r
    exact List.map_congr_left fun a _ => by rw [hv]
  have hall : ∀ {v : Fin n → Particle (i + 1)} {P : Nat} {vec' : Fin P → List (Fin n)} {out : Fin P → List (Ent (i + 1))}, Division n P vec' →
      (∀ r, out r = (vec' r).map fun a => ⟨body a, (v a).id, key a⟩) → ∀ x e,
        LeafOf (maxDepth g.bits (i + 1)) (i + 1) (ranksOf out).flatten x e ↔ LeafOf (maxDepth g.bits (i + 1)) (i + 1) ((List.finRange n).map key) x e := by
    intro v P vec' out hdiv hout x e
    refine leafOf_congr (fun y => ?_) x e
    have : out = fun r => (vec' r).map (entOf body (fun a => (v a).id) key) := funext hout
    rw [this]
    exact mem_ranksOf hdiv y
  -- what a computation of gravity gives
  have uniq : ∀ v : Fin n → Particle (i + 1), (∀ a, bodyOf (v a) = body a) → (∀ a b, (v a).id = (v b).id → a = b) → ∀ m v', Gravitated g m v v' → ∀ a, v' a = { v a with gpot := pot a, gacc := acc a } := by
    rintro v hv hid m v' ⟨sort, vec, old, junk, fuel, out, s, tbl, dat, T, ids, h1, h2, h3, h4, h5, h6, h7, h8⟩ a
    obtain ⟨vec', out', s', g1, g2, g3, g4⟩ := hG sort (fun a => (v a).id) (fun a b h => hid a b h) old m vec h1 junk fuel h2
    rw [hbody old vec hv, g3] at h3
    obtain ⟨rfl, rfl⟩ := Prod.mk.inj (Option.some.inj h3)
    have hl := hall (v := v) g1.division g2
    obtain ⟨p, hp⟩ := Update.Division.mem g1.division a
    have hx : (⟨body a, (v a).id, key a⟩ : Ent (i + 1)) ∈ out' p := by rw [g2]; exact List.mem_map_of_mem hp
    obtain ⟨-, -, g5⟩ := g4 ids (fun b e he => by
      obtain ⟨q, hq⟩ := Update.Division.mem g1.division b
      exact h4 q ⟨body b, (v b).id, key b⟩ (by rw [g2]; exact List.mem_map_of_mem hq) e ((hl _ _).2 he)) tbl dat h5 T h6
    obtain ⟨F, f1, f2⟩ := g5 h7 p
    obtain ⟨F', f1', f3⟩ := h8 p
    obtain rfl := Option.some.inj (f1'.symm.trans f1)
    obtain ⟨e, he⟩ := leaf a
    obtain ⟨k1, k2, -⟩ := f2 a hp e he
    rw [f3 a _ hx rfl e ((hl _ _).2 he), k1, k2]
  -- it can be done
  have exist : ∀ v : Fin n → Particle (i + 1), (∀ a, bodyOf (v a) = body a) → (∀ a b, (v a).id = (v b).id → a = b) → ∀ m, 2 ^ m ≤ n →
      (∀ a, Close g.angle g.const body a (pot a) (acc a)) ∧ Gravitated g m v fun a => { v a with gpot := pot a, gacc := acc a } := by
    intro v hv hid m hm
    obtain ⟨vec, hvec⟩ := exists_division (Nat.pow_pos (by decide)) hm
    have e0 : Ent (i + 1) := ⟨body ⟨0, by omega⟩, 0, 0⟩
    obtain ⟨vec', out, s, g1, g2, g3, g4⟩ := hG exSort (fun a => (v a).id) (fun a b h => hid a b h) (fun _ => 0) m vec hvec (fun _ _ => e0) n le_rfl
    have hl := hall (v := v) g1.division g2
    obtain ⟨ids, hids⟩ := leaf_ids hD (Nat.succ_pos i.val) hinj (fun a => zkey_full hkey a) fun a => (v a).id
    obtain ⟨-, ⟨T, t1, t2⟩, -⟩ := g4 ids hids _ _ .built _ .start
    obtain ⟨-, -, g5⟩ := g4 ids hids _ _ .built T t1
    have g6 := g5 t2
    constructor
    · intro a t ht
      obtain ⟨p, hp⟩ := Update.Division.mem g1.division a
      obtain ⟨F, -, f2⟩ := g6 p
      obtain ⟨e, he⟩ := leaf a
      obtain ⟨k1, k2, k3⟩ := f2 a hp e he
      rw [← k1, ← k2]
      exact k3 t ht
    · refine ⟨exSort, vec, fun _ => 0, fun _ _ => e0, n, out, s, _, _, T, ids, hvec, le_rfl, ?_, ?_, .built, t1, t2, fun p => ?_⟩
      · rw [hbody _ vec hv]; exact g3
      · intro p x hx e he
        rw [g2] at hx
        obtain ⟨a, -, rfl⟩ := List.mem_map.1 hx
        exact hids a e ((hl _ _).1 he)
      · obtain ⟨F, f1, f2⟩ := g6 p
        refine ⟨F, f1, fun a x hx hxa e he => ?_⟩
        rw [g2] at hx
        obtain ⟨b, hb, rfl⟩ := List.mem_map.1 hx
        obtain rfl := hid b a hxa
        obtain ⟨k1, k2, -⟩ := f2 b hb e ((hl _ _).1 he)
        rw [k1, k2]
  refine ⟨pot, acc, ?_, fun v hv hid m => ⟨fun hm => (exist v hv hid m hm).2, uniq v hv hid m⟩⟩
  -- particles with these bodies and different identifiers
  obtain ⟨v0⟩ : Nonempty (Particle (i + 1)) := ⟨⟨0, 0, 0, 0, 0, 0, 0, 0, 0, 0, 0, 0, 0, 0, 0, 0, 0, 0, 0, 0, 0, 0, 0⟩⟩
  exact (exist (fun a => { v0 with pos := (body a).pos, mass := (body a).mass, h := (body a).h, id := a.val }) (fun a => rfl) (fun a b h => Fin.ext h) 0 (by omega)).1

end FleCSPH.Newtonian
