import Verif.Lemmas.DistSim
import Verif.Props.C17tables
import Verif.Spec.GravityAll
/-! The data of the tree that is built from the keys, and what follows for the field. -/
namespace FleCSPH.DistGravity
open FleCSPH.Spec FleCSPH.Tree FleCSPH.Ghosts FleCSPH.Startup FleCSPH.Cofm FleCSPH.Geometry
open FleCSPH.Fmm (distance_eq_zero grav shift eucL norm_euc_sub expand_err)

variable {D dim d : Nat}

open Classical in
/-- The data of the cells of the tree. -/
noncomputable def valFor (big : ℝ) (D dim : Nat) (body : Nat → Body d) (l : List Nat) (k : Key) : Data d :=
  if k ∈ cellsOf D dim l then valOf D dim (· ∈ l) (summarise big) (fun x => .inl (body x)) k else .inr none

section
variable (hdim : 0 < dim) (hD : 0 < D) {l : List Nat} (hl : l ≠ []) (hX : ∀ y ∈ l, FullKey D dim y)
include hdim hX

open Classical in
/-- The leaf of a particle. -/
noncomputable def leafAt (D dim : Nat) (l : List Nat) (x : Nat) : Key := if h : ∃ e, LeafP D dim (· ∈ l) x e then h.choose else []

include hD in
omit hdim in
theorem leafAt_spec {x : Nat} (hx : x ∈ l) : LeafP D dim (· ∈ l) x (leafAt D dim l x) := by
  have h : ∃ e, LeafP D dim (· ∈ l) x e := by
    obtain ⟨e, he, -⟩ := exists_leafP (X := (· ∈ l)) hD hX hx D [] (by simp) (Or.inl rfl) List.nil_suffix
    exact ⟨e, he⟩
  rw [leafAt, dif_pos h]
  exact h.choose_spec

include hD in
omit hdim in
theorem leafAt_eq {x : Nat} (hx : x ∈ l) {e : Key} (h : LeafP D dim (· ∈ l) x e) : leafAt D dim l x = e :=
  leafP_unique (X := (· ∈ l)) hx (leafAt_spec hD hX hx) h

include hD in
omit hdim in
theorem leafAt_inj {x y : Nat} (hx : x ∈ l) (hy : y ∈ l) (h : leafAt D dim l x = leafAt D dim l y) : x = y := by
  have h1 := leafAt_spec hD hX hx
  have h2 := leafAt_spec hD hX hy
  rw [h] at h1
  exact h2.2.2.1 x hx h1.2.1

include hD hl

theorem mem_leaves_built {e : Key} : e ∈ leaves (globalTree D dim (· ∈ l)) (cellsOf D dim l) ↔ ∃ x ∈ l, leafAt D dim l x = e := by
  rw [mem_leaves (global_tree hdim hD hl hX)]
  show IsEnt _ _ ↔ _
  rw [isEnt_iff (X := (· ∈ l)) hdim hX]
  constructor
  · rintro ⟨-, x, hx, he⟩
    exact ⟨x, hx, leafAt_eq hD hX hx he⟩
  · rintro ⟨x, hx, rfl⟩
    have := leafAt_spec hD hX hx
    exact ⟨digits_suffix (path_digits _ _) this.2.1, x, hx, this⟩

theorem leaves_built : leaves (globalTree D dim (· ∈ l)) (cellsOf D dim l) = l.toFinset.image (leafAt D dim l) := by
  ext e
  rw [mem_leaves_built hdim hD hl hX, Finset.mem_image]
  simp only [List.mem_toFinset]

theorem val_leaf (big : ℝ) (body : Nat → Body d) {x : Nat} (hx : x ∈ l) : valFor big D dim body l (leafAt D dim l x) = .inl (body x) := by
  have hc : leafAt D dim l x ∈ cellsOf D dim l := by
    have := (mem_leaves_built hdim hD hl hX).2 ⟨x, hx, rfl⟩
    exact Finset.mem_of_mem_filter _ this
  rw [valFor, if_pos hc]
  exact valOf_leaf (X := (· ∈ l)) _ _ hx (leafAt_spec hD hX hx)

/-- The leaf of a particle is below a cell if the particle is in the cell. -/
theorem suffix_leafAt {k : Key} (hk : k ∈ cellsOf D dim l) {x : Nat} (hx : x ∈ l) : k <:+ leafAt D dim l x ↔ k <:+ path dim D x := by
  have hs := leafAt_spec hD hX hx
  constructor
  · intro h
    exact h.trans hs.2.1
  · intro h
    rcases List.suffix_or_suffix_of_suffix h hs.2.1 with h1 | h1
    · exact h1
    · have hT := global_tree hdim hD hl hX
      obtain ⟨g, hg, he⟩ := (mem_leaves hT).1 ((mem_leaves_built hdim hD hl hX).2 ⟨x, hx, rfl⟩)
      rw [leaf_suffix hT hg he h1 ((hT.mem k).1 hk)]

theorem sum_leaves {M : Type} [AddCommMonoid M] (f : Key → M) {k : Key} (hk : k ∈ cellsOf D dim l) :
    ∑ e ∈ leaves (globalTree D dim (· ∈ l)) (cellsOf D dim l) with k <:+ e, f e = ∑ x ∈ inside D dim l k, f (leafAt D dim l x) := by
  classical
  rw [leaves_built hdim hD hl hX, Finset.filter_image, Finset.sum_image]
  · apply Finset.sum_congr
    · ext x
      rw [Finset.mem_filter, List.mem_toFinset, mem_inside]
      exact and_congr_right fun hx => suffix_leafAt hdim hD hl hX hk hx
    · intros; rfl
  · intro x hx y hy h
    rw [Finset.mem_coe, Finset.mem_filter, List.mem_toFinset] at hx hy
    exact leafAt_inj hD hX hx.1 hy.1 h

theorem sum_others {M : Type} [AddCommMonoid M] (f : Key → M) {x : Nat} (hx : x ∈ l) :
    ∑ e ∈ (leaves (globalTree D dim (· ∈ l)) (cellsOf D dim l)).erase (leafAt D dim l x), f e = ∑ y ∈ l.toFinset.erase x, f (leafAt D dim l y) := by
  classical
  have e1 : (leaves (globalTree D dim (· ∈ l)) (cellsOf D dim l)).erase (leafAt D dim l x) = (l.toFinset.erase x).image (leafAt D dim l) := by
    ext e
    rw [Finset.mem_erase, mem_leaves_built hdim hD hl hX, Finset.mem_image]
    constructor
    · rintro ⟨h1, y, hy, rfl⟩
      refine ⟨y, Finset.mem_erase.2 ⟨?_, List.mem_toFinset.2 hy⟩, rfl⟩
      rintro rfl
      exact h1 rfl
    · rintro ⟨y, hy, rfl⟩
      rw [Finset.mem_erase, List.mem_toFinset] at hy
      exact ⟨fun h => hy.1 (leafAt_inj hD hX hy.2 hx h), y, hy.2, rfl⟩
  rw [e1, Finset.sum_image]
  intro a ha b hb h
  rw [Finset.mem_coe, Finset.mem_erase, List.mem_toFinset] at ha hb
  exact leafAt_inj hD hX ha.2 hb.2 h

theorem geo_built (big : ℝ) (body : Nat → Body d) (hmass : ∀ x ∈ l, 0 < (body x).mass) (hpos : ∀ x ∈ l, ∀ y ∈ l, x ≠ y → (body x).pos ≠ (body y).pos) (htwo : ∃ x ∈ l, ∃ y ∈ l, x ≠ y) :
    Geo (2 ^ dim) (globalTree D dim (· ∈ l)) (cellsOf D dim l) (valFor big D dim body l) := by
  have hT := global_tree hdim hD hl hX
  have hleafv : ∀ k g, globalTree D dim (· ∈ l) k = some g → g.ent = true → ∃ x ∈ l, leafAt D dim l x = k := by
    intro k g hg he
    exact (mem_leaves_built hdim hD hl hX).1 ((mem_leaves hT).2 ⟨g, hg, he⟩)
  have hnodev : ∀ k g, globalTree D dim (· ∈ l) k = some g → g.ent = false → ∃ N, valFor big D dim body l k = .inr (some N) ∧ Summarises body (inside D dim l k) N ∧ 0 < N.radius := by
    intro k g hg he
    have hk : k ∈ cellsOf D dim l := (hT.mem k).2 (by rw [hg]; rfl)
    obtain ⟨hd, hin, -⟩ := global_some (X := (· ∈ l)) hdim hX hg
    obtain ⟨N, n1, n2, n3, -⟩ := summary big hdim hD hl hX body hmass D k (by omega) hd (hin he)
    refine ⟨N, by rw [valFor, if_pos hk, n1], n2, ?_⟩
    have h2 : ∃ x y, x ∈ inside D dim l k ∧ y ∈ inside D dim l k ∧ x ≠ y := by
      rcases hin he with rfl | ⟨x, y, hx, hy, hxy, h1, h2⟩
      · obtain ⟨x, hx, y, hy, hxy⟩ := htwo
        exact ⟨x, y, mem_inside.2 ⟨hx, List.nil_suffix⟩, mem_inside.2 ⟨hy, List.nil_suffix⟩, hxy⟩
      · exact ⟨x, y, mem_inside.2 ⟨hx, h1⟩, mem_inside.2 ⟨hy, h2⟩, hxy⟩
    obtain ⟨x, y, hx, hy, hxy⟩ := h2
    rcases n3.lt_or_eq with h | h
    · exact h
    · exfalso
      have hz : ∀ w ∈ inside D dim l k, N.coords = (body w).pos := by
        intro w hw
        have := n2.radius w hw
        have h0 : 0 ≤ distance N.coords (body w).pos := Real.sqrt_nonneg _
        exact distance_eq_zero.mp (le_antisymm (by linarith) h0)
      exact hpos x (mem_inside.1 hx).1 y (mem_inside.1 hy).1 hxy ((hz x hx).symm.trans (hz y hy))
  constructor
  · exact hT
  · intro k hk
    rw [valFor, if_neg hk]
  · intro k g hg he
    obtain ⟨x, hx, rfl⟩ := hleafv k g hg he
    exact ⟨body x, val_leaf hdim hD hl hX big body hx⟩
  · intro k g hg he
    obtain ⟨N, h1, -⟩ := hnodev k g hg he
    exact ⟨N, h1⟩
  · intro k g hg he
    obtain ⟨N, h1, -, h2⟩ := hnodev k g hg he
    rw [h1]
    exact h2
  · intro k hk
    rw [sum_leaves hdim hD hl hX (fun f => wgt (valFor big D dim body l f)) hk]
    have e1 : ∑ x ∈ inside D dim l k, wgt (valFor big D dim body l (leafAt D dim l x)) = ∑ x ∈ inside D dim l k, (body x).mass := by
      apply Finset.sum_congr rfl
      intro x hx
      rw [val_leaf hdim hD hl hX big body (mem_inside.1 hx).1]
      rfl
    rw [e1]
    obtain ⟨g, hg⟩ := Option.isSome_iff_exists.1 ((hT.mem k).1 hk)
    cases he : g.ent with
    | false =>
      obtain ⟨N, h1, h2, -⟩ := hnodev k g hg he
      rw [h1]
      exact h2.mass
    | true =>
      obtain ⟨x, hx, rfl⟩ := hleafv k g hg he
      rw [val_leaf hdim hD hl hX big body hx]
      have hs := leafAt_spec hD hX hx
      have : inside D dim l (leafAt D dim l x) = {x} := by
        ext y
        rw [mem_inside, Finset.mem_singleton]
        constructor
        · rintro ⟨h1, h2⟩
          exact hs.2.2.1 y h1 h2
        · rintro rfl
          exact ⟨hx, hs.2.1⟩
      rw [this, Finset.sum_singleton]
      rfl
  · intro k f hk hf hkf
    obtain ⟨x, hx, rfl⟩ := (mem_leaves_built hdim hD hl hX).1 hf
    have hs := (suffix_leafAt hdim hD hl hX hk hx).1 hkf
    obtain ⟨g, hg⟩ := Option.isSome_iff_exists.1 ((hT.mem k).1 hk)
    rw [val_leaf hdim hD hl hX big body hx]
    cases he : g.ent with
    | false =>
      obtain ⟨N, h1, h2, -⟩ := hnodev k g hg he
      rw [h1]
      exact h2.radius x (mem_inside.2 ⟨hx, hs⟩)
    | true =>
      obtain ⟨y, hy, rfl⟩ := hleafv k g hg he
      have hys := leafAt_spec hD hX hy
      obtain rfl := hys.2.2.1 x hx hs
      rw [val_leaf hdim hD hl hX big body hx]
      exact le_of_eq (distance_eq_zero.2 rfl)
  · intro f hf
    obtain ⟨x, hx, rfl⟩ := (mem_leaves_built hdim hD hl hX).1 hf
    rw [val_leaf hdim hD hl hX big body hx]
    exact hmass x hx
  · intro e he f hf hef
    obtain ⟨x, hx, rfl⟩ := (mem_leaves_built hdim hD hl hX).1 he
    obtain ⟨y, hy, rfl⟩ := (mem_leaves_built hdim hD hl hX).1 hf
    rw [val_leaf hdim hD hl hX big body hx, val_leaf hdim hD hl hX big body hy]
    exact hpos x hx y hy (fun h => hef (by rw [h]))

end

/-- What acts between two leaves is close to Newton's law. -/
theorem unit_err {nch : Nat} {G : Key → Option GCell} {cells : Finset Key} {Val : Key → Data d} (h : Geo nch G cells Val) (gc angle : ℝ) {e f : Key} (he : e ∈ leaves G cells) (hf : f ∈ leaves G cells) (hef : e ≠ f)
    {x : Key × Key} (hx : Acts G (macOf Val angle) (biggerOf Val) e f x) (hc : x.1 ∈ cells ∧ x.2 ∈ cells) {t : ℝ} (ht : t = max angle 0) :
    ‖euc (unit Val gc e x).2 - euc (grav gc (cen (Val e)) (cen (Val f)) 1).2‖ ≤ |gc| * ((4 * t + 5 * t ^ 2 + 2 * t ^ 3) / distance (cen (Val e)) (cen (Val f)) ^ 2) ∧
    |(unit Val gc e x).1 - (grav gc (cen (Val e)) (cen (Val f)) 1).1| ≤ |gc| * ((2 * t + t ^ 2) / distance (cen (Val e)) (cen (Val f))) := by
  have ht0 : 0 ≤ t := by rw [ht]; exact le_max_right _ _
  have hne := h.apart e he f hf hef
  obtain ⟨x1, x2⟩ := x
  obtain ⟨-, hfin, hs1, hs2⟩ := hx
  simp only at hs1 hs2 hc
  obtain ⟨ge, hge, hee⟩ := (mem_leaves h.tree).1 he
  obtain ⟨gf, hgf, hfe⟩ := (mem_leaves h.tree).1 hf
  rcases hfin with ⟨⟨a, ha1, ha2⟩, ⟨b, hb1, hb2⟩⟩ | ⟨-, hm⟩
  · obtain rfl := leaf_suffix h.tree ha1 ha2 hs1 (by rw [hge]; rfl)
    obtain rfl := leaf_suffix h.tree hb1 hb2 hs2 (by rw [hgf]; rfl)
    unfold unit
    simp only
    rw [shift_self, sub_self, sub_self, norm_zero, abs_zero]
    have hd : 0 ≤ distance (cen (Val x1)) (cen (Val x2)) := Real.sqrt_nonneg _
    constructor <;> positivity
  · have hm := macOf_true.1 hm
    simp only at hm
    have hd := mac_ne (h.rad_nonneg hc.1) (h.rad_nonneg hc.2) hm
    refine expand_err gc ht0 hne (fun h => hd (distance_eq_zero.2 h)) ?_
    have r1 := h.inside x1 e hc.1 he hs1
    have r2 := h.inside x2 f hc.2 hf hs2
    have hd0 : 0 ≤ distance (cen (Val x1)) (cen (Val x2)) := Real.sqrt_nonneg _
    rw [mac] at hm
    have : angle * distance (cen (Val x1)) (cen (Val x2)) ≤ t * distance (cen (Val x1)) (cen (Val x2)) := mul_le_mul_of_nonneg_right (by rw [ht]; exact le_max_left _ _) hd0
    linarith

end FleCSPH.DistGravity
