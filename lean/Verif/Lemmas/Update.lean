import Verif.Model.Update
import Verif.Spec.Iteration
import Verif.Props.C02
import Verif.Props.C19
import Verif.Props.C52
import Verif.Props.C13dist
import Verif.Props.C76
/-! `update_iteration` up to the trees: the particles are sorted along the curve. -/
namespace FleCSPH.Update
open FleCSPH.Spec FleCSPH.Cofm FleCSPH.Distribute FleCSPH.Psort FleCSPH.Startup

variable {d n P : Nat}

/-- The particle as it lies in the vector of its process. -/
def entOf (body : Fin n → Body d) (id key : Fin n → Nat) (a : Fin n) : Ent d := ⟨body a, id a, key a⟩

theorem Division.pos {vec : Fin P → List (Fin n)} (h : Division n P vec) (hP : 0 < P) : 0 < n := by
  obtain ⟨a, l, -⟩ := List.exists_cons_of_ne_nil (h.nonempty ⟨0, hP⟩)
  exact a.pos

theorem Division.mem {vec : Fin P → List (Fin n)} (h : Division n P vec) (a : Fin n) : ∃ r, a ∈ vec r := by
  have : a ∈ (List.finRange P).flatMap vec := h.all.mem_iff.2 (List.mem_finRange a)
  simpa using this

/-- The range is the smallest box. -/
theorem range_eq (hP : 0 < P) {body : Fin n → Body d} (hh : ∀ a, 0 < (body a).h) {vec : Fin P → List (Fin n)} (h : Division n P vec) (id old : Fin n → Nat) :
    computeRange (List.ofFn fun r => ((vec r).map (entOf body id old)).map discOf) = some fun j => (boxLow body j, boxHigh body j) := by
  have hmem : ∀ l, l ∈ (List.ofFn fun r => ((vec r).map (entOf body id old)).map discOf) ↔ ∃ r, l = (vec r).map fun a => (⟨(body a).pos, (body a).h⟩ : Disc d) := by
    intro l
    rw [List.mem_ofFn']
    simp only [Set.mem_range, List.map_map]
    exact ⟨fun ⟨r, hr⟩ => ⟨r, hr.symm⟩, fun ⟨r, hr⟩ => ⟨r, hr.symm⟩⟩
  obtain ⟨range, hr, hs⟩ := C52_range_partial (List.ofFn fun r => ((vec r).map (entOf body id old)).map discOf)
    (by intro h0; have := congrArg List.length h0; simp at this; omega)
    (by intro l hl; obtain ⟨r, rfl⟩ := (hmem l).1 hl; simpa using h.nonempty r)
    (by
      intro l hl b hb
      obtain ⟨r, rfl⟩ := (hmem l).1 hl
      obtain ⟨a, -, rfl⟩ := List.mem_map.1 hb
      exact (hh a).le)
  rw [hr]
  congr 1
  funext j
  obtain ⟨h1, ⟨l2, hl2, b2, hb2, h2⟩, l3, hl3, b3, hb3, h3⟩ := hs j
  obtain ⟨r2, rfl⟩ := (hmem l2).1 hl2
  obtain ⟨a2, -, rfl⟩ := List.mem_map.1 hb2
  obtain ⟨r3, rfl⟩ := (hmem l3).1 hl3
  obtain ⟨a3, -, rfl⟩ := List.mem_map.1 hb3
  have hall : ∀ a, (range j).1 ≤ (body a).pos j - (body a).h ∧ (body a).pos j + (body a).h ≤ (range j).2 := by
    intro a
    obtain ⟨r, hr⟩ := Division.mem h a
    exact h1 _ ((hmem _).2 ⟨r, rfl⟩) _ (List.mem_map.2 ⟨a, hr, rfl⟩)
  haveI : Nonempty (Fin n) := ⟨a2⟩
  refine Prod.ext ?_ ?_
  · exact le_antisymm (le_ciInf fun a => (hall a).1) (h2 ▸ ciInf_le (Set.finite_range _).bddBelow a2)
  · exact le_antisymm (h3 ▸ le_ciSup (f := fun a => (body a).pos j + (body a).h) (Set.finite_range _).bddAbove a3) (ciSup_le fun a => (hall a).2)

theorem box_bounds {body : Fin n → Body d} (hh : ∀ a, 0 < (body a).h) (a : Fin n) (j : Fin d) : boxLow body j < (body a).pos j ∧ (body a).pos j < boxHigh body j := by
  have h1 : boxLow body j ≤ (body a).pos j - (body a).h := ciInf_le (Set.finite_range _).bddBelow a
  have h2 : (body a).pos j + (body a).h ≤ boxHigh body j := le_ciSup (f := fun a => (body a).pos j + (body a).h) (Set.finite_range _).bddAbove a
  have := hh a
  constructor <;> linarith

theorem inBox {body : Fin n → Body d} (hh : ∀ a, 0 < (body a).h) (a : Fin n) : InBox d (axis (boxLow body)) (axis (boxHigh body)) (axis (body a).pos) := by
  intro j hj
  obtain ⟨h1, h2⟩ := box_bounds hh a ⟨j, hj⟩
  simp only [axis, dif_pos hj]
  exact ⟨by linarith, h1.le, h2.le⟩

theorem gridCell_iff {D : Nat} {body : Fin n → Body d} {a : Fin n} {c : Nat → Nat} :
    (∀ j < d, InCell (axis (boxLow body) j) (axis (boxHigh body) j) (2 ^ D) (c j) (axis (body a).pos j)) ↔ InGridCell D body (fun j => c j) a := by
  constructor
  · intro h j
    have := h j j.2
    simpa only [axis, dif_pos j.2] using this
  · intro h j hj
    have := h ⟨j, hj⟩
    simpa only [axis, dif_pos hj] using this

/-- The keys: those of the code are those of the specification, and they exist. -/
theorem encode_key {bits : Nat} (hb : 0 < bits) (hd : 0 < d) {body : Fin n → Body d} (hh : ∀ a, 0 < (body a).h) :
    ∃ key, ZKey (Key.maxDepth bits d) body key ∧ ∀ a, Morton.encode bits d (axis (boxLow body)) (axis (boxHigh body)) (axis (body a).pos) = some (key a) := by
  have h1 : ∀ a, ∃ k, (∃ c, InGridCell (Key.maxDepth bits d) body c a ∧ k = pathKey d (zPath d (Key.maxDepth bits d) fun j => if h : j < d then c ⟨j, h⟩ else 0)) ∧
      Morton.encode bits d (axis (boxLow body)) (axis (boxHigh body)) (axis (body a).pos) = some k := by
    intro a
    obtain ⟨⟨c, hc⟩, h2⟩ := C02_encode bits d hb hd _ _ _ (inBox hh a)
    refine ⟨_, ⟨fun j => c j, gridCell_iff.1 hc, rfl⟩, ?_⟩
    rw [h2 (fun j => if h : j < d then c j else 0)]
    intro j hj
    simp only [dif_pos hj]
    exact hc j hj
  choose key hk he using h1
  exact ⟨key, hk, he⟩

theorem zkey_full {D : Nat} {body : Fin n → Body d} {key : Fin n → Nat} (h : ZKey D body key) (a : Fin n) : FullKey D d (key a) := by
  obtain ⟨c, -, hk⟩ := h a
  have := pathKey_bounds (zPath_isPath d D fun j => if h : j < d then c ⟨j, h⟩ else 0)
  rw [zPath_length] at this
  rw [hk, FullKey, Nat.div_eq_iff (Nat.pow_pos (by decide))]
  have h2 := Nat.pow_pos (n := D * d) (show 0 < 2 by decide)
  omega

theorem zkey_inj {D : Nat} (hd : 0 < d) {body : Fin n → Body d} {key : Fin n → Nat} (h : ZKey D body key) (hs : Separate D body) : key.Injective := by
  intro a b hab
  obtain ⟨c, hc, hk⟩ := h a
  obtain ⟨e, he, hk'⟩ := h b
  rw [hk, hk'] at hab
  have h3 := pathKey_inj hd (zPath_isPath _ _ _) (zPath_isPath _ _ _) hab
  have h4 := zPath_inj (fun j hj => by simp only [dif_pos hj]; exact (hc ⟨j, hj⟩).1) (fun j hj => by simp only [dif_pos hj]; exact (he ⟨j, hj⟩).1) h3
  have : c = e := by
    funext j
    have := h4 j j.2
    simpa only [dif_pos j.2] using this
  subst this
  exact hs a b c hc he

theorem zkey_encode {bits : Nat} (hb : 0 < bits) (hd : 0 < d) {body : Fin n → Body d} (hh : ∀ a, 0 < (body a).h) {key : Fin n → Nat} (hk : ZKey (Key.maxDepth bits d) body key) (a : Fin n) :
    Morton.encode bits d (axis (boxLow body)) (axis (boxHigh body)) (axis (body a).pos) = some (key a) := by
  obtain ⟨c, hc, h1⟩ := hk a
  rw [h1]
  refine (C02_encode bits d hb hd _ _ _ (inBox hh a)).2 _ (gridCell_iff.2 ?_)
  intro j
  have := hc j
  simpa only [dif_pos j.2] using this

theorem zkey_unique {bits : Nat} (hb : 0 < bits) (hd : 0 < d) {body : Fin n → Body d} (hh : ∀ a, 0 < (body a).h) {key key' : Fin n → Nat} (h : ZKey (Key.maxDepth bits d) body key)
    (h' : ZKey (Key.maxDepth bits d) body key') : key = key' := by
  funext a
  exact Option.some.inj ((zkey_encode hb hd hh h a).symm.trans (zkey_encode hb hd hh h' a))

theorem mapM_map {α β γ : Type} (f : β → Option γ) (g : α → β) (h : α → γ) (hf : ∀ a, f (g a) = some (h a)) (l : List α) : (l.map g).mapM f = some (l.map h) := by
  induction l with
  | nil => rfl
  | cons a l ih => rw [List.map_cons, List.mapM_cons, hf, ih]; rfl

theorem computeKeys_eq {bits : Nat} (hb : 0 < bits) (hd : 0 < d) {body : Fin n → Body d} (hh : ∀ a, 0 < (body a).h) {key : Fin n → Nat} (hk : ZKey (Key.maxDepth bits d) body key) (id old : Fin n → Nat)
    (vec : Fin P → List (Fin n)) :
    computeKeys bits (fun j => (boxLow body j, boxHigh body j)) (fun r => (vec r).map (entOf body id old)) = some fun r => (vec r).map (entOf body id key) := by
  have h1 : ∀ r, ((vec r).map (entOf body id old)).mapM (setKey bits fun j => (boxLow body j, boxHigh body j)) = some ((vec r).map (entOf body id key)) := by
    intro r
    refine mapM_map _ _ _ (fun a => ?_) _
    unfold setKey
    have := zkey_encode hb hd hh hk a
    simp only [entOf]
    rw [this]
    rfl
  unfold computeKeys
  rw [if_pos fun r => by rw [h1 r]; rfl]
  congr 1
  funext r
  rw [h1 r]; rfl

theorem arrange_eq {bits : Nat} (hb : 0 < bits) (hd : 0 < d) (hP : 0 < P) {body : Fin n → Body d} (hh : ∀ a, 0 < (body a).h) (hs : Separate (Key.maxDepth bits d) body) {key : Fin n → Nat}
    (hk : ZKey (Key.maxDepth bits d) body key) {id : Fin n → Nat} (hid : id.Injective) (old : Fin n → Nat) {vec : Fin P → List (Fin n)} (h : Division n P vec) (S : StdSort) (junk : Nat → Fin P → Ent d)
    {fuel : Nat} (hf : n ≤ fuel) : ∃ vec', Arranged n P vec key vec' ∧ arrange bits S junk fuel (fun r => (vec r).map (entOf body id old)) = some fun r => (vec' r).map (entOf body id key) := by
  classical
  have hn := Division.pos h hP
  have hinj : (entOf body id key).Injective := fun a b hab => hid (by have := congrArg Ent.id hab; exact this)
  have hlen : ∑ r, (vec r).length = n := by
    have := h.all.length_eq
    rw [List.length_flatMap, List.length_finRange] at this
    rw [← List.sum_ofFn, List.ofFn_eq_map]
    exact this
  obtain ⟨out, h1, h2, h3, h4, -⟩ := C19_particles_partial itemOf P S junk (fun r => (vec r).map (entOf body id key)) ⟨⟨0, hP⟩, by simpa using h.nonempty _⟩
    (fun r r' h0 _ => absurd h0 (by simpa using h.nonempty r)) fuel (by simpa [hlen] using hf)
  have hev : everything (fun r => (vec r).map (entOf body id key)) = ((List.finRange P).flatMap vec).map (entOf body id key) := by
    rw [everything, List.map_flatMap]
  rw [hev] at h3
  obtain ⟨lab, hlab⟩ : ∃ lab : Ent d → Fin n, ∀ a, lab (entOf body id key a) = a := ⟨fun e => if h : ∃ a, entOf body id key a = e then h.choose else ⟨0, hn⟩, fun a => by
    have : ∃ b, entOf body id key b = entOf body id key a := ⟨a, rfl⟩
    simp only [dif_pos this]
    exact hinj this.choose_spec⟩
  have hmem : ∀ r, ∀ e ∈ out r, entOf body id key (lab e) = e := by
    intro r e he
    have : e ∈ everything out := by rw [everything]; exact List.mem_flatMap.2 ⟨r, List.mem_finRange r, he⟩
    obtain ⟨a, -, rfl⟩ := List.mem_map.1 (h3.mem_iff.1 this)
    rw [hlab]
  have hout : ∀ r, out r = ((out r).map lab).map (entOf body id key) := by
    intro r
    rw [List.map_map]
    conv_lhs => rw [← List.map_id (out r)]
    exact List.map_congr_left fun e he => (hmem r e he).symm
  have hall : ((List.finRange P).flatMap fun r => (out r).map lab).Perm ((List.finRange P).flatMap vec) := by
    have := h3.map lab
    rw [List.map_map, show lab ∘ entOf body id key = _root_.id from funext hlab, List.map_id, everything, List.map_flatMap] at this
    exact this
  refine ⟨fun r => (out r).map lab, ⟨⟨hall.trans h.all, fun r h0 => ?_⟩, fun r => by rw [List.length_map, h2, List.length_map], ?_⟩, ?_⟩
  · have := h2 r
    rw [List.map_eq_nil_iff.1 h0, List.length_nil, List.length_map] at this
    exact h.nonempty r (List.length_eq_zero_iff.1 this.symm)
  · have h5 : ((List.finRange P).flatMap fun r => (out r).map lab).Pairwise fun a b => key a ≤ key b := by
      have : everything out = ((List.finRange P).flatMap fun r => (out r).map lab).map (entOf body id key) := by
        rw [everything, List.map_flatMap]
        exact List.flatMap_congr fun r _ => hout r
      rw [this, List.pairwise_map] at h4
      exact h4
    have h6 : ((List.finRange P).flatMap fun r => (out r).map lab).Nodup := (hall.trans h.all).nodup_iff.2 (List.nodup_finRange n)
    exact (List.pairwise_and_iff.2 ⟨h5, h6⟩).imp fun {a b} hab => lt_of_le_of_ne hab.1 fun hc => hab.2 (zkey_inj hd hk hs hc)
  · unfold arrange
    rw [range_eq hP hh h id old, Option.bind_some, if_neg, computeKeys_eq hb hd hh hk, Option.bind_some, h1]
    · congr 1
      funext r
      exact hout r
    · intro hc
      have := box_bounds hh ⟨0, hn⟩ ⟨0, hd⟩
      have := hc ⟨0, hd⟩
      dsimp only at this
      linarith

theorem ranks_flatten (key : Fin n → Nat) (body : Fin n → Body d) (id : Fin n → Nat) (vec : Fin P → List (Fin n)) :
    (ranksOf fun r => (vec r).map (entOf body id key)).flatten = ((List.finRange P).flatMap vec).map key := by
  rw [ranksOf, List.ofFn_eq_map, ← List.flatMap_def, List.map_flatMap]
  refine List.flatMap_congr fun r _ => ?_
  rw [List.map_map]; rfl

theorem bodyAt_key {key : Fin n → Nat} (hkey : key.Injective) (body : Fin n → Body d) (id : Fin n → Nat) {vec : Fin P → List (Fin n)} (h : Division n P vec) (a : Fin n) :
    bodyAt (fun r => (vec r).map (entOf body id key)) (key a) = body a := by
  unfold bodyAt
  rw [← List.map_flatMap]
  have hex : (((List.finRange P).flatMap vec).map (entOf body id key)).find? (fun e => e.key == key a) = some (entOf body id key a) := by
    rw [List.find?_map]
    have : ((List.finRange P).flatMap vec).find? ((fun e => e.key == key a) ∘ entOf body id key) = some a := by
      have hm : a ∈ (List.finRange P).flatMap vec := h.all.mem_iff.2 (List.mem_finRange a)
      cases hf : ((List.finRange P).flatMap vec).find? ((fun e => e.key == key a) ∘ entOf body id key) with
      | none =>
        have := List.find?_eq_none.1 hf a hm
        simp [entOf] at this
      | some b =>
        have := List.find?_some hf
        simp only [Function.comp, entOf, beq_iff_eq] at this
        rw [hkey this]
    rw [this]; rfl
  rw [hex]; rfl

theorem leafOf_congr {D dim : Nat} {l l' : List Nat} (h : ∀ x, x ∈ l ↔ x ∈ l') (x : Nat) (e : List Nat) : LeafOf D dim l x e ↔ LeafOf D dim l' x e := by
  have : (fun y => y ∈ l) = fun y => y ∈ l' := funext fun y => propext (h y)
  rw [LeafOf, LeafOf, this]

theorem mem_ranksOf {key : Fin n → Nat} {body : Fin n → Body d} {id : Fin n → Nat} {vec : Fin P → List (Fin n)} (h : Division n P vec) (x : Nat) :
    x ∈ (ranksOf fun r => (vec r).map (entOf body id key)).flatten ↔ x ∈ (List.finRange n).map key := by
  rw [ranks_flatten]
  exact (h.all.map key).mem_iff

theorem ranksOf_get {key : Fin n → Nat} {body : Fin n → Body d} {id : Fin n → Nat} {vec : Fin P → List (Fin n)} (p : Fin P) :
    (ranksOf fun r => (vec r).map (entOf body id key))[p.val]? = some ((vec p).map key) := by
  rw [ranksOf, List.getElem?_eq_getElem (by simp)]
  simp only [List.getElem_ofFn, List.map_map]
  rfl

/-- Identifiers for the leaves: those of the particles. -/
theorem leaf_ids {D : Nat} (hD : 0 < D) (hd : 0 < d) {key : Fin n → Nat} (hinj : key.Injective) (hfull : ∀ a, FullKey D d (key a)) (id : Fin n → Nat) :
    ∃ ids : Ghosts.Key → Int, ∀ a e, LeafOf D d ((List.finRange n).map key) (key a) e → ids e = ((id a : Nat) : Int) := by
  classical
  obtain ⟨all, hall⟩ : ∃ all, all = (List.finRange n).map key := ⟨_, rfl⟩
  have hX : ∀ x ∈ all, FullKey D d x := by
    intro x hx
    rw [hall] at hx
    obtain ⟨a, -, rfl⟩ := List.mem_map.1 hx
    exact hfull a
  have hmem : ∀ a, key a ∈ all := fun a => by rw [hall]; exact List.mem_map_of_mem (List.mem_finRange a)
  rw [← hall]
  refine ⟨fun e => if h : ∃ a, LeafOf D d all (key a) e then ((id h.choose : Nat) : Int) else 0, fun a e he => ?_⟩
  have hex : ∃ a, LeafOf D d all (key a) e := ⟨a, he⟩
  simp only [dif_pos hex]
  have : key hex.choose = key a := DistGravity.leafAt_inj hD hX (hmem _) (hmem _)
    (((DistGravity.leafOf_iff hd hD hX (hmem _)).1 hex.choose_spec).trans ((DistGravity.leafOf_iff hd hD hX (hmem _)).1 he).symm)
  rw [hinj this]

/-- The calls of the traversal, in terms of the particles. -/
theorem calls_for {D : Nat} (hD : 0 < D) (hd : 0 < d) {body : Fin n → Body d} {key : Fin n → Nat} (hinj : key.Injective) (hfull : ∀ a, FullKey D d (key a)) {id : Fin n → Nat} {vec : Fin P → List (Fin n)}
    (h : Division n P vec) (calls : Fin P → List (List Nat × List (List Nat)))
    (hs : ∀ p : Fin P, Served D d (ranksOf fun r => (vec r).map (entOf body id key)) (bodyAt fun r => (vec r).map (entOf body id key)) (fun a b => (a.h + b.h) / 2) p (calls p)) :
    ∃ nbs, GoodLists body nbs ∧ ∀ p, CallsFor D d key nbs (vec p) (calls p) := by
  classical
  obtain ⟨ranks, hranks⟩ : ∃ ranks, ranks = ranksOf fun r => (vec r).map (entOf body id key) := ⟨_, rfl⟩
  have hb : ∀ a, bodyAt (fun r => (vec r).map (entOf body id key)) (key a) = body a := bodyAt_key hinj body id h
  have hmem : ∀ x, x ∈ ranks.flatten ↔ x ∈ (List.finRange n).map key := fun x => by rw [hranks]; exact mem_ranksOf h x
  have hget : ∀ p : Fin P, ranks[p.val]? = some ((vec p).map key) := fun p => by rw [hranks]; exact ranksOf_get p
  rw [← hranks] at hs
  have hx : ∀ a, key a ∈ ranks.flatten := fun a => (hmem _).2 (List.mem_map_of_mem (List.mem_finRange a))
  have hfl : ∀ x ∈ ranks.flatten, FullKey D d x := by
    intro x hx
    obtain ⟨a, -, rfl⟩ := List.mem_map.1 ((hmem x).1 hx)
    exact hfull a
  -- the leaf of a particle and the particle of a leaf
  obtain ⟨leaf, hleaf⟩ : ∃ leaf : Fin n → List Nat, ∀ a e, LeafOf D d ranks.flatten (key a) e ↔ leaf a = e := ⟨fun a => DistGravity.leafAt D d ranks.flatten (key a), fun a e => DistGravity.leafOf_iff hd hD hfl (hx a)⟩
  have hli : leaf.Injective := by
    intro a b hab
    have h1 := ((hleaf a (leaf a)).2 rfl)
    have h2 := ((hleaf b (leaf a)).2 hab.symm)
    have e1 := (DistGravity.leafOf_iff hd hD hfl (hx a)).1 h1
    have e2 := (DistGravity.leafOf_iff hd hD hfl (hx b)).1 h2
    exact hinj (DistGravity.leafAt_inj hD hfl (hx a) (hx b) (e1.trans e2.symm))
  have hall : ∀ x e, LeafOf D d ranks.flatten x e ↔ LeafOf D d ((List.finRange n).map key) x e := leafOf_congr hmem
  by_cases hn : n = 0
  · subst hn
    refine ⟨fun a => a.elim0, ⟨fun a => a.elim0, fun a => a.elim0, fun a => a.elim0⟩, fun p => ?_⟩
    exact absurd (List.eq_nil_iff_forall_not_mem.2 fun a => a.elim0) (h.nonempty p)
  obtain ⟨who, hwho⟩ : ∃ who : List Nat → Fin n, ∀ a, who (leaf a) = a := ⟨fun e => if h : ∃ a, leaf a = e then h.choose else ⟨0, Nat.pos_of_ne_zero hn⟩, fun a => by
    have hex : ∃ b, leaf b = leaf a := ⟨a, rfl⟩
    simp only [dif_pos hex]
    exact hli hex.choose_spec⟩
  -- the calls of a process
  have hcall : ∀ p e nb, (e, nb) ∈ calls p → ∃ a ∈ vec p, leaf a = e := by
    intro p e nb hc
    obtain ⟨hdig, ks, x, h1, h2, h3⟩ := ((hs p).all e).1 (List.mem_map_of_mem hc)
    rw [hget p] at h1
    obtain rfl := Option.some.inj h1
    obtain ⟨a, ha, rfl⟩ := List.mem_map.1 h2
    exact ⟨a, ha, (hleaf a e).1 ⟨hdig, h3⟩⟩
  have hex : ∀ a, ∃ p nb, a ∈ vec p ∧ (leaf a, nb) ∈ calls p := by
    intro a
    obtain ⟨p, hp⟩ := Division.mem h a
    have h1 := (hleaf a (leaf a)).2 rfl
    obtain ⟨⟨e, nb⟩, h2, h3⟩ := List.mem_map.1 (((hs p).all (leaf a)).2 ⟨h1.1, _, key a, hget p, List.mem_map_of_mem hp, h1.2⟩)
    dsimp only at h3
    subst h3
    exact ⟨p, nb, hp, h2⟩
  choose pr nb hpr hnb using hex
  have hone : ∀ a p, a ∈ vec p → p = pr a := by
    intro a p ha
    by_contra hne
    have hnd : ((List.finRange P).flatMap vec).Nodup := h.all.nodup_iff.2 (List.nodup_finRange n)
    rw [List.nodup_flatMap] at hnd
    haveI : Std.Symm (Function.onFun List.Disjoint vec) := ⟨fun x y h => List.Disjoint.symm h⟩
    exact (hnd.2.forall (List.mem_finRange p) (List.mem_finRange (pr a)) hne) ha (hpr a)
  have hlists : ∀ a, ∀ f ∈ nb a, leaf (who f) = f ∧ Neighbours (body a) (body (who f)) := by
    intro a f hf
    have h1 := (hleaf a (leaf a)).2 rfl
    obtain ⟨h2, y, hy, h3, h4⟩ := (hs (pr a)).sound _ _ _ (hnb a) (hx a) h1.2 f hf
    obtain ⟨b, -, rfl⟩ := List.mem_map.1 ((hmem y).1 hy)
    have h5 := (hleaf b f).1 ⟨h2, h3⟩
    rw [← h5, hwho]
    rw [hb, hb] at h4
    exact ⟨rfl, h4⟩
  refine ⟨fun a => (nb a).map who, ⟨fun a => ?_, fun a b hab => ?_, fun a b hab => ?_⟩, fun p => ?_⟩
  · refine ((hs (pr a)).nodup _ _ (hnb a)).map_on fun x hx y hy hxy => ?_
    rw [← (hlists a x hx).1, ← (hlists a y hy).1, hxy]
  · obtain ⟨f, hf, rfl⟩ := List.mem_map.1 hab
    exact (hlists a f hf).2
  · have h1 := (hleaf a (leaf a)).2 rfl
    have h2 := (hleaf b (leaf b)).2 rfl
    refine List.mem_map.2 ⟨leaf b, (hs (pr a)).complete _ _ _ (hnb a) (hx a) h1.2 _ _ (hx b) h2.1 h2.2 ?_, hwho b⟩
    rw [hb, hb]
    exact hab
  · refine ⟨(calls p).map fun c => who c.1, ?_, ?_⟩
    · have hnd : ((calls p).map fun c => who c.1).Nodup := by
        rw [show (fun c : List Nat × List (List Nat) => who c.1) = who ∘ Prod.fst from rfl, ← List.map_map]
        refine (hs p).once.map_on fun x hx y hy hxy => ?_
        obtain ⟨⟨e, l⟩, h1, rfl⟩ := List.mem_map.1 hx
        obtain ⟨⟨e', l'⟩, h1', rfl⟩ := List.mem_map.1 hy
        obtain ⟨a, -, h2⟩ := hcall p _ _ h1
        obtain ⟨a', -, h2'⟩ := hcall p _ _ h1'
        dsimp only at hxy ⊢
        rw [← h2, ← h2', hwho, hwho] at hxy
        rw [← h2, ← h2', hxy]
      have hnv : (vec p).Nodup := by
        have hnd : ((List.finRange P).flatMap vec).Nodup := h.all.nodup_iff.2 (List.nodup_finRange n)
        rw [List.nodup_flatMap] at hnd
        exact hnd.1 p (List.mem_finRange p)
      refine (List.perm_ext_iff_of_nodup hnd hnv).2 fun a => ⟨fun ha => ?_, fun ha => ?_⟩
      · obtain ⟨⟨e, l⟩, h1, rfl⟩ := List.mem_map.1 ha
        obtain ⟨a, h2, rfl⟩ := hcall p _ _ h1
        rw [hwho]; exact h2
      · have := hone a p ha
        subst this
        exact List.mem_map.2 ⟨_, hnb a, hwho a⟩
    · rw [List.forall₂_map_right_iff, List.forall₂_same]
      rintro ⟨e, l⟩ hc
      obtain ⟨a, ha, rfl⟩ := hcall p _ _ hc
      have hpa := hone a p ha
      subst hpa
      have hl : l = nb a := congrArg Prod.snd (List.inj_on_of_nodup_map (hs (pr a)).once hc (hnb a) rfl)
      subst hl
      dsimp only
      rw [hwho]
      refine ⟨(hall _ _).1 ((hleaf a _).2 rfl), ?_⟩
      rw [List.forall₂_map_right_iff, List.forall₂_same]
      exact fun f hf => (hall _ _).1 ((hleaf _ f).2 (hlists a f hf).1)

end FleCSPH.Update
