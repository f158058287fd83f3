import Verif.Model.TreeDriver
import Verif.Spec.TreeDriver
import Verif.Lemmas.Program
/-! For C89: the program which times the neighbour search. -/
namespace FleCSPH.TreeDriver
open FleCSPH.Geometry FleCSPH.Sph FleCSPH.Driver FleCSPH.DistRun FleCSPH.Cofm FleCSPH.Key FleCSPH.Newtonian FleCSPH.Update FleCSPH.Spec FleCSPH.Program

variable {i : Fin 3} {n m : Nat}

section
variable {g : Settings} (hbits : i.val + 1 < g.bits) {v : Fin n → Particle (i + 1)} (hv : ∀ a, Sized (v a)) (hid : Distinct v)
include hbits hv hid

/-- How `update_iteration` divides the particles. -/
theorem arranged {T T' : Trees i n m} (hd : Division n (2 ^ m) T.vec) (hap : Apart g v) (h : Updated g v T T') : Arranged n (2 ^ m) T.vec T'.key T'.vec := by
  have hg := good_update hbits hv hid hd hap h
  obtain ⟨sort, junk, fuel, hf, hu, h1, h2⟩ := h
  have hh : ∀ a, 0 < (bodyOf (v a)).h := fun a => (hv a).2
  obtain ⟨vec', ha, -, hs⟩ := C77_sorted (Nat.succ_pos i.val) hbits hh hap hg.key (id := fun a => (v a).id) hid T.key sort (Nat.pow_pos (by decide)) hd
  have hs := hs junk fuel hf
  unfold Update.update at hu
  have e0 : ents T.vec T.key v = fun r => (T.vec r).map fun a => ⟨bodyOf (v a), (v a).id, T.key a⟩ := rfl
  rw [e0, hs, Option.bind_some] at hu
  obtain ⟨s, hs1, hs2⟩ := Option.map_eq_some_iff.1 hu
  obtain ⟨e1, -⟩ := Prod.mk.inj hs2
  have e3 : ∀ r, (vec' r).map (fun a => (⟨bodyOf (v a), (v a).id, T'.key a⟩ : Ent (i + 1))) = (T'.vec r).map fun a => ⟨bodyOf (v a), (v a).id, T'.key a⟩ := fun r => congrFun e1 r
  have e4 : vec' = T'.vec := by
    funext r
    have := congrArg (List.map Ent.id) (e3 r)
    rw [List.map_map, List.map_map] at this
    exact List.map_injective_iff.2 (fun a b h => hid a b h) this
  exact e4 ▸ ha

omit hid in
/-- The lists a search delivers hold all near particles and no far ones. -/
theorem good_lists {T T' : Trees i n m} (hn : 2 ≤ n) (htol : 0 ≤ g.tol) (hg : Good g T v) {nbs : Fin n → List (Fin n)} (h : Searched g T T' nbs) : GoodLists (fun a => bodyOf (v a)) nbs := by
  obtain ⟨Val, groups, st, h1, h2, h3, h4, h5, e1, e2, e3, e4, h6, h7⟩ := h
  obtain ⟨I, hh⟩ := hg.input hbits hv hn
  obtain ⟨hinj, hfull, hD, -, -, -⟩ := hg.facts hbits
  obtain ⟨-, key⟩ := SphRun.search_served I hh htol g.group hg.built hg.after
  obtain ⟨-, -, k⟩ := key Val h1 groups h2 st h3
  obtain ⟨k1, -⟩ := k h4
  obtain ⟨nbs0, n1, n2⟩ := calls_for hD (Nat.succ_pos i.val) hinj hfull (body := fun a => bodyOf (v a)) (id := fun a => (v a).id) hg.division (fun p => SphRun.calls Val (st.results p)) fun p => k1 p p.2
  obtain rfl := callsFor_unique hD (Nat.succ_pos i.val) hinj hfull hg.division n2 h5
  exact n1

end

theorem found_iff (f : Fin n → Prop) [DecidablePred f] : ∀ (l : List (Fin n)) (x : Bool), l.foldl (fun found b => if f b then true else found) x = true ↔ x = true ∨ ∃ b ∈ l, f b := by
  intro l
  induction l with
  | nil => intro x; simp
  | cons b l ih =>
    intro x
    rw [List.foldl_cons, ih]
    by_cases hb : f b
    · simp [hb]
    · simp [hb]

theorem tally_eq {v : Fin n → Particle (i + 1)} {nbs : Fin n → List (Fin n)} (hself : ∀ a, a ∈ nbs a) (hlen : ∀ a, (nbs a).length ≤ n) :
    ∀ (order : List (Fin n)) (t : Nat), t + order.length * n < 2 ^ 64 → order.foldlM (count v nbs) t = some (t + (order.map fun a => (nbs a).length).sum) := by
  intro order
  induction order with
  | nil => intro t _; simp
  | cons a l ih =>
    intro t ht
    have hc : count v nbs t a = some (t + (nbs a).length) := by
      unfold count
      rw [if_pos ((found_iff (fun b => (v a).id = (v b).id) (nbs a) false).2 (Or.inr ⟨a, hself a, rfl⟩))]
      rw [Nat.mod_eq_of_lt]
      have := hlen a
      rw [List.length_cons, Nat.add_mul] at ht
      omega
    rw [List.foldlM_cons, hc]
    have h1 : (t + (nbs a).length) + l.length * n < 2 ^ 64 := by
      have := hlen a
      rw [List.length_cons, Nat.add_mul] at ht
      omega
    change l.foldlM (count v nbs) (t + (nbs a).length) = _
    rw [ih _ h1, List.map_cons, List.sum_cons, Nat.add_assoc]

end FleCSPH.TreeDriver
