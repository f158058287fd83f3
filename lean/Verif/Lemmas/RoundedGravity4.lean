import Verif.Lemmas.RoundedGravity3
import Verif.Lemmas.DistBuilt2
/-! Lemmas for C94: the field at a leaf against Newton's law, and the tree built with rounded summaries. -/
namespace FleCSPH.Rounded
open FleCSPH.Geometry FleCSPH.Cofm FleCSPH.Startup FleCSPH.Ghosts FleCSPH.DistGravity FleCSPH.Tree FleCSPH.Spec
open FleCSPH.Fmm (grav shift distance_eq_zero shift_smul grav_smul norm_euc_sub expand_err eucL)

variable {d nch E P : Nat} {R : Rounding} {G : Key → Option GCell} {cells : Finset Key} {Val : Key → Data d} {M : Key → ℝ}

theorem err_norm {N : Nat} {x y m : ℝ × Point d} (h : ErrV R N x y m) : ‖euc y.2 - euc x.2‖ ≤ ((1 + R.u) ^ N - 1) * ‖euc m.2‖ := by
  have h0 : 0 ≤ (1 + R.u) ^ N - 1 := by linarith [growth (R := R) N]
  have h1 : ‖euc (y.2 - x.2)‖ ≤ ‖euc (((1 + R.u) ^ N - 1) • m.2)‖ := norm_euc_mono fun i => (h.2 i).2
  have h2 : euc (((1 + R.u) ^ N - 1) • m.2) = ((1 + R.u) ^ N - 1) • euc m.2 := rfl
  rw [h2, norm_smul, Real.norm_eq_abs, abs_of_nonneg h0] at h1
  exact h1

/-- From the errors of a sum and of its terms to the error of the field. -/
theorem sum_bound {ι : Type} (S : Finset ι) (w r : ι → ℝ) (hw : ∀ f ∈ S, 0 ≤ w f) (u s g : ι → ℝ × Point d) {N : Nat} {c1 c2 c3 k : ℝ} {F : ℝ × Point d}
    (hF : ErrV R N (∑ f ∈ S, w f • u f) F (∑ f ∈ S, w f • s f))
    (h1 : ∀ f ∈ S, ‖euc (u f).2 - euc (g f).2‖ ≤ k * (c1 / r f ^ 2) ∧ |(u f).1 - (g f).1| ≤ k * (c2 / r f))
    (h2 : ∀ f ∈ S, ‖euc (s f).2‖ ≤ k * (c3 / r f ^ 2) ∧ (s f).1 ≤ k * (c3 / r f)) :
    Geometry.distance F.2 (∑ f ∈ S, w f • (g f).2) ≤ (c1 + ((1 + R.u) ^ N - 1) * c3) * ∑ f ∈ S, k * w f / r f ^ 2 ∧
      |F.1 - ∑ f ∈ S, w f * (g f).1| ≤ (c2 + ((1 + R.u) ^ N - 1) * c3) * ∑ f ∈ S, k * w f / r f := by
  have h0 : 0 ≤ (1 + R.u) ^ N - 1 := by linarith [growth (R := R) N]
  constructor
  · have a1 := err_norm hF
    have a2 : ‖euc (∑ f ∈ S, w f • s f).2‖ ≤ ∑ f ∈ S, w f * (k * (c3 / r f ^ 2)) := by
      have e : euc (∑ f ∈ S, w f • s f).2 = ∑ f ∈ S, w f • euc (s f).2 := by
        have : euc (∑ f ∈ S, w f • s f).2 = (eucL.comp (LinearMap.snd ℝ ℝ (Point d))) (∑ f ∈ S, w f • s f) := rfl
        rw [this, map_sum]
        exact Finset.sum_congr rfl fun f _ => by rw [map_smul]; rfl
      rw [e]
      refine norm_sum_le_of_le _ fun f hf => ?_
      rw [norm_smul, Real.norm_of_nonneg (hw f hf)]
      exact mul_le_mul_of_nonneg_left (h2 f hf).1 (hw f hf)
    have a3 : ‖euc (∑ f ∈ S, w f • u f).2 - euc (∑ f ∈ S, w f • (g f).2)‖ ≤ ∑ f ∈ S, w f * (k * (c1 / r f ^ 2)) := by
      have e : euc (∑ f ∈ S, w f • u f).2 - euc (∑ f ∈ S, w f • (g f).2) = ∑ f ∈ S, w f • (euc (u f).2 - euc (g f).2) := by
        have e1 : euc (∑ f ∈ S, w f • u f).2 = (eucL.comp (LinearMap.snd ℝ ℝ (Point d))) (∑ f ∈ S, w f • u f) := rfl
        have e2 : euc (∑ f ∈ S, w f • (g f).2) = eucL (∑ f ∈ S, w f • (g f).2) := rfl
        rw [e1, e2, map_sum, map_sum, ← Finset.sum_sub_distrib]
        exact Finset.sum_congr rfl fun f _ => by rw [map_smul, map_smul, smul_sub]; rfl
      rw [e]
      refine norm_sum_le_of_le _ fun f hf => ?_
      rw [norm_smul, Real.norm_of_nonneg (hw f hf)]
      exact mul_le_mul_of_nonneg_left (h1 f hf).1 (hw f hf)
    rw [← norm_euc_sub]
    have a4 := norm_sub_le_norm_sub_add_norm_sub (euc F.2) (euc (∑ f ∈ S, w f • u f).2) (euc (∑ f ∈ S, w f • (g f).2))
    have a5 := mul_le_mul_of_nonneg_left a2 h0
    have e1 : ∀ c : ℝ, ∑ f ∈ S, w f * (k * (c / r f ^ 2)) = c * ∑ f ∈ S, k * w f / r f ^ 2 := fun c => by
      rw [Finset.mul_sum]
      exact Finset.sum_congr rfl fun f _ => by ring
    rw [e1] at a3 a5
    rw [add_mul, mul_assoc]
    linarith
  · have a1 := hF.1.2
    have a2 : (∑ f ∈ S, w f • s f).1 ≤ ∑ f ∈ S, w f * (k * (c3 / r f)) := by
      rw [Prod.fst_sum]
      exact Finset.sum_le_sum fun f hf => mul_le_mul_of_nonneg_left (h2 f hf).2 (hw f hf)
    have a3 : |(∑ f ∈ S, w f • u f).1 - ∑ f ∈ S, w f * (g f).1| ≤ ∑ f ∈ S, w f * (k * (c2 / r f)) := by
      rw [Prod.fst_sum, ← Finset.sum_sub_distrib]
      refine (Finset.abs_sum_le_sum_abs _ _).trans (Finset.sum_le_sum fun f hf => ?_)
      rw [Prod.smul_fst, smul_eq_mul, ← mul_sub, abs_mul, abs_of_nonneg (hw f hf)]
      exact mul_le_mul_of_nonneg_left (h1 f hf).2 (hw f hf)
    have a4 := abs_sub_le F.1 (∑ f ∈ S, w f • u f).1 (∑ f ∈ S, w f * (g f).1)
    have a5 := mul_le_mul_of_nonneg_left a2 h0
    have e1 : ∀ c : ℝ, ∑ f ∈ S, w f * (k * (c / r f)) = c * ∑ f ∈ S, k * w f / r f := fun c => by
      rw [Finset.mul_sum]
      exact Finset.sum_congr rfl fun f _ => by ring
    rw [e1] at a3 a5
    rw [add_mul, mul_assoc]
    linarith

/-- The field of a process at a leaf of its own against Newton's law. -/
theorem gravity_bound (h : GeoR R nch G cells Val M E P) (hd : d ≤ 3) (hu : 46 * R.u ≤ 1) {p fuel : Nat} {O : Key → Prop} {t : Table} (hv : View G O p t) (hfu : ∀ k ∈ cells, k.length < fuel) {dat : DataTable d}
    (hdat : ∀ k v, dat k = some v → v = Val k) (hhere : ∀ k, (t k).isSome → (dat k).isSome) (gc angle : ℝ) (ids : Key → Int)
    (hids : ∀ e ∈ leaves G cells, ∀ f ∈ leaves G cells, ids e = ids f → e = f) {calls : List Ghosts.Call} (hg : ∀ c ∈ calls, GoodCall G (macOf R Val angle) O c)
    (hsrc : ∀ c ∈ calls, (t c.source).isSome) {bigger : Key → Key → Bool} (hreach : ∀ c ∈ calls, Reach G (macOf R Val angle) bigger (c.sink, c.source) ∧ Final2 G (macOf R Val angle) (c.sink, c.source))
    (hcount : ∀ e ∈ leaves G cells, ∀ f ∈ leaves G cells, (∀ a, a <:+ e → O a) → calls.countP (covC e f) = 1) (hbelow : ∀ k ∈ cells, ∃ f ∈ leaves G cells, k <:+ f) :
    ∃ F, gravity R nch p t dat gc ids fuel calls = some F ∧ ∀ e ∈ leaves G cells, (∀ a, a <:+ e → O a) → ∀ N, E + 55 + fuel + (leaves G cells).card ≤ N + 2 → ∀ θ, 0 ≤ θ → angle ≤ θ * (1 - (P + 9 : ℕ) * R.u) →
      Geometry.distance (F.acc e) (∑ f ∈ (leaves G cells).erase e, wgt (Val f) • (grav gc (cen (Val e)) (cen (Val f)) 1).2) ≤
          (4 * θ + 5 * θ ^ 2 + 2 * θ ^ 3 + ((1 + R.u) ^ N - 1) * (1 + θ) ^ 2) * ∑ f ∈ (leaves G cells).erase e, |gc| * wgt (Val f) / Geometry.distance (cen (Val e)) (cen (Val f)) ^ 2 ∧
        |F.pot e - ∑ f ∈ (leaves G cells).erase e, wgt (Val f) * (grav gc (cen (Val e)) (cen (Val f)) 1).1| ≤
          (2 * θ + θ ^ 2 + ((1 + R.u) ^ N - 1) * (1 + θ) ^ 2) * ∑ f ∈ (leaves G cells).erase e, |gc| * wgt (Val f) / Geometry.distance (cen (Val e)) (cen (Val f)) := by
  obtain ⟨F, hF, herr⟩ := gravity_err h hd hu hv hfu hdat hhere gc angle ids hids hg hsrc
  refine ⟨F, hF, fun e he hch N hN θ hθ hat => ?_⟩
  have hcell : ∀ c ∈ calls, c.sink ∈ cells ∧ c.source ∈ cells := by
    intro c hc
    have hmem : ∀ {k}, (t k).isSome → k ∈ cells := by
      intro k hk
      obtain ⟨cc, hcc⟩ := Option.isSome_iff_exists.1 hk
      obtain ⟨g, hgg, _⟩ := hv.good.sub _ cc hcc
      exact (h.tree.mem _).2 (by rw [hgg]; rfl)
    obtain ⟨cc, g, hcc, _⟩ := hv.full c.sink ((hg c hc).chain _ List.suffix_rfl)
    exact ⟨hmem (by rw [hcc]; rfl), hmem (hsrc c hc)⟩
  obtain ⟨x, x1, x2⟩ := calls_leaves (V := ℝ × Point d) h.tree (fun c hc => h.mass c.source (hcell c hc).2) hreach he (fun f hf => hcount e he f hf hch)
  have herr := herr e he hch
  simp only [valR_unit, valS_unit] at herr
  rw [x2 (unit Val gc e), x2 (unitS Val gc e)] at herr
  have hcnt := count_acting (fun c hc => (hreach c hc).1) (fun c hc => hbelow _ (hcell c hc).2) (fun f hf => hcount e he f hf hch)
  rw [Finset.card_erase_of_mem he] at hcnt
  have hlen := hfu e (Finset.mem_of_mem_filter _ he)
  have hcard : 0 < (leaves G cells).card := Finset.card_pos.2 ⟨e, he⟩
  have herr := herr.mono (show _ ≤ N by omega)
  have hab := fun f (hf : f ∈ (leaves G cells).erase e) => acts_bound h hd (by linarith [R.nonneg]) gc angle he (Finset.mem_of_mem_erase hf) (Finset.ne_of_mem_erase hf).symm (x1 f hf).1 (by
    obtain ⟨c, hc, hx⟩ := (x1 f hf).2
    rw [hx]
    exact hcell c hc) hθ hat
  exact sum_bound _ (fun f => wgt (Val f)) (fun f => Geometry.distance (cen (Val e)) (cen (Val f))) (fun f hf => (h.pos f (Finset.mem_of_mem_erase hf)).le) _ _ (fun f => grav gc (cen (Val e)) (cen (Val f)) 1) herr
    (fun f hf => (hab f hf).1) (fun f hf => (hab f hf).2)

/-! ### The tree that is built from the keys -/

variable {D dim : Nat}

open Classical in
/-- The data of the cells of the tree, with rounding. -/
noncomputable def valFor (R : Rounding) (big : ℝ) (D dim : Nat) (body : Nat → Body d) (l : List Nat) (k : Key) : Data d :=
  if k ∈ cellsOf D dim l then valOf D dim (· ∈ l) (summarise R big) (fun x => .inl (body x)) k else .inr none

section
variable (hdim : 0 < dim) (hD : 0 < D) {l : List Nat} (hl : l ≠ []) (hX : ∀ y ∈ l, FullKey D dim y)
include hdim hX hD hl

theorem valFor_leaf (big : ℝ) (body : Nat → Body d) {x : Nat} (hx : x ∈ l) : valFor R big D dim body l (leafAt D dim l x) = .inl (body x) := by
  have hc : leafAt D dim l x ∈ cellsOf D dim l := by
    have := (mem_leaves_built hdim hD hl hX).2 ⟨x, hx, rfl⟩
    exact Finset.mem_of_mem_filter _ this
  rw [valFor, if_pos hc]
  exact valOf_leaf (X := (· ∈ l)) _ _ hx (leafAt_spec hD hX hx)

theorem valFor_tree (big : ℝ) (body : Nat → Body d) : TreeData D dim (· ∈ l) (summarise R big) (fun x => .inl (body x)) (valFor R big D dim body l) := by
  classical
  have hT := global_tree hdim hD hl hX
  have h := treeData (X := (· ∈ l)) hdim hX (summarise (d := d) R big) (fun x => .inl (body x))
  have hmem : ∀ {k}, Digits dim k → (InnerP D dim (· ∈ l) k ∨ ∃ x, x ∈ l ∧ LeafP D dim (· ∈ l) x k) → k ∈ cellsOf D dim l := fun hk hh => (hT.mem _).2 ((global_isSome hdim hX).2 ⟨hk, hh⟩)
  constructor
  · intro k x hk hx hl
    rw [valFor, if_pos (hmem hk (Or.inr ⟨x, hx, (leaf_path hdim hX hk hx).1 hl⟩))]
    exact h.leaf k x hk hx hl
  · intro k hk hi
    rw [valFor, if_pos (hmem hk (Or.inl ((inner_path hdim hX hk).1 hi))), h.inner k hk hi]
    have hd : ∀ j ∈ List.range (2 ^ dim), Digits dim (j :: k) := by
      intro j hj i hi
      rcases List.mem_cons.mp hi with rfl | hi
      · exact List.mem_range.mp hj
      · exact hk i hi
    congr 1
    · apply List.map_congr_left
      intro j hj
      obtain ⟨j1, j2⟩ := List.mem_filter.1 hj
      obtain ⟨x, hx, hlx⟩ := @of_decide_eq_true _ (Classical.propDecidable _) j2
      rw [valFor, if_pos (hmem (hd j j1) (Or.inr ⟨x, hx, (leaf_path hdim hX (hd j j1) hx).1 hlx⟩))]
    · apply List.map_congr_left
      intro j hj
      obtain ⟨j1, j2⟩ := List.mem_filter.1 hj
      have j2 := @of_decide_eq_true _ (Classical.propDecidable _) j2
      rw [valFor, if_pos (hmem (hd j j1) (Or.inl ((inner_path hdim hX (hd j j1)).1 j2)))]

theorem geoR_built (hd : d ≤ 3) (hdim3 : dim ≤ 3) (hu : R.u < 1) (big : ℝ) (body : Nat → Body d) (hmass : ∀ x ∈ l, 0 < (body x).mass) (hh : ∀ x ∈ l, 0 ≤ (body x).h)
    (hpos : ∀ x ∈ l, ∀ y ∈ l, x ≠ y → (body x).pos ≠ (body y).pos) (htwo : ∃ x ∈ l, ∃ y ∈ l, x ≠ y) :
    GeoR R (2 ^ dim) (globalTree D dim (· ∈ l)) (cellsOf D dim l) (valFor R big D dim body l) (fun k => ∑ x ∈ inside D dim l k, (body x).mass) (16 * D) (9 * D) := by
  have hT := global_tree hdim hD hl hX
  obtain ⟨Z, hZ0, hZ⟩ : ∃ Z : ℝ, 0 ≤ Z ∧ ∀ x ∈ l, ∀ i, |(body x).pos i| ≤ Z := by
    refine ⟨∑ x ∈ l.toFinset, ∑ i, |(body x).pos i|, Finset.sum_nonneg fun _ _ => Finset.sum_nonneg fun _ _ => abs_nonneg _, fun x hx i => ?_⟩
    refine le_trans (Finset.single_le_sum (f := fun i => |(body x).pos i|) (fun _ _ => abs_nonneg _) (Finset.mem_univ i)) ?_
    exact Finset.single_le_sum (f := fun x => ∑ i, |(body x).pos i|) (fun _ _ => Finset.sum_nonneg fun _ _ => abs_nonneg _) (List.mem_toFinset.2 hx)
  have hleafv : ∀ k g, globalTree D dim (· ∈ l) k = some g → g.ent = true → ∃ x ∈ l, leafAt D dim l x = k := by
    intro k g hg he
    exact (mem_leaves_built hdim hD hl hX).1 ((mem_leaves hT).2 ⟨g, hg, he⟩)
  have hnodev : ∀ k g, globalTree D dim (· ∈ l) k = some g → g.ent = false → ∃ N, valFor R big D dim body l k = .inr (some N) ∧ Sums R Z body D (inside D dim l k) N ∧
      Centred R body D (inside D dim l k) N ∧ 0 < N.radius := by
    intro k g hg he
    have hk : k ∈ cellsOf D dim l := (hT.mem k).2 (by rw [hg]; rfl)
    obtain ⟨hd', hin, -⟩ := global_some (X := (· ∈ l)) hdim hX hg
    obtain ⟨N, n1, n2⟩ := sums hu hd hdim3 big hdim hD hl hX body hZ0 (fun x hx => ⟨hmass x hx, hh x hx, hZ x hx⟩) hd' (hin he)
    obtain ⟨N', m1, m2⟩ := centred hu hdim3 big hdim hD hl hX body hmass hd' (hin he)
    rw [n1] at m1
    cases m1
    refine ⟨N, by rw [valFor, if_pos hk, n1], n2, m2, ?_⟩
    have h2 : ∃ x y, x ∈ inside D dim l k ∧ y ∈ inside D dim l k ∧ x ≠ y := by
      rcases hin he with rfl | ⟨x, y, hx, hy, hxy, h1, h2⟩
      · obtain ⟨x, hx, y, hy, hxy⟩ := htwo
        exact ⟨x, y, mem_inside.2 ⟨hx, List.nil_suffix⟩, mem_inside.2 ⟨hy, List.nil_suffix⟩, hxy⟩
      · exact ⟨x, y, mem_inside.2 ⟨hx, h1⟩, mem_inside.2 ⟨hy, h2⟩, hxy⟩
    obtain ⟨x, y, hx, hy, hxy⟩ := h2
    rcases n2.pos.lt_or_eq with h | h
    · exact h
    · exfalso
      have hp := pow_pos (show 0 < 1 - R.u by linarith) (9 * D)
      have hz : ∀ w ∈ inside D dim l k, N.coords = (body w).pos := by
        intro w hw
        have := n2.radius w hw
        have h0 := distance_nonneg N.coords (body w).pos
        refine distance_eq_zero.mp (le_antisymm ?_ h0)
        rw [← h] at this
        by_contra hn
        have := mul_pos hp (not_le.1 hn)
        linarith
      exact hpos x (mem_inside.1 hx).1 y (mem_inside.1 hy).1 hxy ((hz x hx).symm.trans (hz y hy))
  have hone : ∀ {x}, x ∈ l → inside D dim l (leafAt D dim l x) = {x} := by
    intro x hx
    have hs := leafAt_spec hD hX hx
    ext y
    rw [mem_inside, Finset.mem_singleton]
    constructor
    · rintro ⟨h1, h2⟩
      exact hs.2.2.1 y h1 h2
    · rintro rfl
      exact ⟨hx, hs.2.1⟩
  constructor
  · exact hT
  · intro k g hg he
    obtain ⟨x, hx, rfl⟩ := hleafv k g hg he
    exact ⟨body x, valFor_leaf hdim hD hl hX big body hx⟩
  · intro k g hg he
    obtain ⟨N, h1, -⟩ := hnodev k g hg he
    exact ⟨N, h1⟩
  · intro k hk
    rw [valFor, if_neg hk]
  · intro k g hg he
    obtain ⟨N, h1, -, -, h2⟩ := hnodev k g hg he
    rw [h1]
    exact h2
  · intro k hk
    rw [sum_leaves hdim hD hl hX (fun f => wgt (valFor R big D dim body l f)) hk]
    apply Finset.sum_congr rfl
    intro x hx
    rw [valFor_leaf hdim hD hl hX big body (mem_inside.1 hx).1]
    rfl
  · intro k hk
    obtain ⟨g, hg⟩ := Option.isSome_iff_exists.1 ((hT.mem k).1 hk)
    cases he : g.ent with
    | false =>
      obtain ⟨N, h1, -, h2, -⟩ := hnodev k g hg he
      rw [h1]
      exact h2.mass
    | true =>
      obtain ⟨x, hx, rfl⟩ := hleafv k g hg he
      rw [valFor_leaf hdim hD hl hX big body hx]
      simp only [hone hx, Finset.sum_singleton]
      exact ((Err.refl (R := R) (body x).mass).mono (Nat.zero_le _)).congr rfl (abs_of_pos (hmass x hx))
  · intro k f hk hf hkf
    obtain ⟨x, hx, rfl⟩ := (mem_leaves_built hdim hD hl hX).1 hf
    have hs := (suffix_leafAt hdim hD hl hX hk hx).1 hkf
    obtain ⟨g, hg⟩ := Option.isSome_iff_exists.1 ((hT.mem k).1 hk)
    rw [valFor_leaf hdim hD hl hX big body hx]
    cases he : g.ent with
    | false =>
      obtain ⟨N, h1, h2, -⟩ := hnodev k g hg he
      rw [h1]
      exact h2.radius x (mem_inside.2 ⟨hx, hs⟩)
    | true =>
      obtain ⟨y, hy, rfl⟩ := hleafv k g hg he
      have hys := leafAt_spec hD hX hy
      obtain rfl := hys.2.2.1 x hx hs
      rw [valFor_leaf hdim hD hl hX big body hx]
      rw [distance_eq_zero.2 rfl, mul_zero]
      exact le_rfl
  · intro f hf
    obtain ⟨x, hx, rfl⟩ := (mem_leaves_built hdim hD hl hX).1 hf
    rw [valFor_leaf hdim hD hl hX big body hx]
    exact hmass x hx
  · intro e he f hf hef
    obtain ⟨x, hx, rfl⟩ := (mem_leaves_built hdim hD hl hX).1 he
    obtain ⟨y, hy, rfl⟩ := (mem_leaves_built hdim hD hl hX).1 hf
    rw [valFor_leaf hdim hD hl hX big body hx, valFor_leaf hdim hD hl hX big body hy]
    exact hpos x hx y hy (fun h => hef (by rw [h]))

end

end FleCSPH.Rounded
