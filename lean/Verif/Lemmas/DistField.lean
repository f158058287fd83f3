import Verif.Model.Sequence
import Verif.Lemmas.FmmReach
import Verif.Lemmas.Gravity3
/-! The field computed by `gravity` as a sum over the leaves of the tree. -/
namespace FleCSPH.DistGravity
open FleCSPH.Ghosts FleCSPH.Startup FleCSPH.Cofm FleCSPH.Geometry

open FleCSPH.Fmm (distance_eq_zero grav shift gravitation_eq grav_smul shift_add shift_zero shift_smul shift_sum eucL euc_sub norm_euc_sub expand_err)

variable {d : Nat}

noncomputable def cen : Data d → Point d
  | .inl b => b.pos
  | .inr n => n.elim 0 (·.coords)

noncomputable def wgt : Data d → ℝ
  | .inl b => b.mass
  | .inr n => n.elim 0 (·.mass)

noncomputable def rad : Data d → ℝ
  | .inl _ => 0
  | .inr n => n.elim 0 (·.radius)

open Classical in
/-- The leaves of the tree. -/
noncomputable def leaves (G : Key → Option GCell) (cells : Finset Key) : Finset Key := cells.filter fun k => (G k).map GCell.ent = some true

/-- What the data of the cells of the tree satisfies. -/
structure Geo (nch : Nat) (G : Key → Option GCell) (cells : Finset Key) (Val : Key → Data d) : Prop where
  tree : IsTree nch G cells
  out : ∀ k, k ∉ cells → Val k = .inr none
  leaf : ∀ k g, G k = some g → g.ent = true → ∃ b, Val k = .inl b
  node : ∀ k g, G k = some g → g.ent = false → ∃ N, Val k = .inr (some N)
  radius : ∀ k g, G k = some g → g.ent = false → 0 < rad (Val k)
  mass : ∀ k, k ∈ cells → wgt (Val k) = ∑ f ∈ leaves G cells with k <:+ f, wgt (Val f)
  inside : ∀ k f, k ∈ cells → f ∈ leaves G cells → k <:+ f → distance (cen (Val k)) (cen (Val f)) ≤ rad (Val k)
  pos : ∀ f ∈ leaves G cells, 0 < wgt (Val f)
  apart : ∀ e ∈ leaves G cells, ∀ f ∈ leaves G cells, e ≠ f → cen (Val e) ≠ cen (Val f)

theorem mem_leaves {nch : Nat} {G : Key → Option GCell} {cells : Finset Key} (hT : IsTree nch G cells) {k : Key} : k ∈ leaves G cells ↔ ∃ g, G k = some g ∧ g.ent = true := by
  unfold leaves
  rw [Finset.mem_filter, hT.mem]
  constructor
  · rintro ⟨_, h⟩
    simpa using h
  · rintro ⟨g, h1, h2⟩
    simp [h1, h2]

variable {nch : Nat} {G : Key → Option GCell} {cells : Finset Key} {Val : Key → Data d}

theorem Geo.rad_nonneg (h : Geo nch G cells Val) {k : Key} (hk : k ∈ cells) : 0 ≤ rad (Val k) := by
  obtain ⟨g, hg⟩ := Option.isSome_iff_exists.1 ((h.tree.mem k).1 hk)
  cases he : g.ent with
  | false => exact (h.radius k g hg he).le
  | true =>
    obtain ⟨b, hb⟩ := h.leaf k g hg he
    rw [hb]
    exact le_refl _

theorem Geo.rad_leaf (h : Geo nch G cells Val) {k : Key} {g : GCell} (hg : G k = some g) (he : g.ent = true) : rad (Val k) = 0 := by
  obtain ⟨b, hb⟩ := h.leaf k g hg he
  rw [hb]
  rfl

open Classical in
/-- The criterion for two cells of the tree. -/
noncomputable def macOf (Val : Key → Data d) (angle : ℝ) (k1 k2 : Key) : Bool := decide (mac (cen (Val k1)) (rad (Val k1)) (cen (Val k2)) (rad (Val k2)) angle)

open Classical in
noncomputable def biggerOf (Val : Key → Data d) (k1 k2 : Key) : Bool := decide (rad (Val k1) > rad (Val k2))

theorem macOf_true {Val : Key → Data d} {angle : ℝ} {k1 k2 : Key} : macOf Val angle k1 k2 = true ↔ mac (cen (Val k1)) (rad (Val k1)) (cen (Val k2)) (rad (Val k2)) angle := by
  classical
  unfold macOf
  exact decide_eq_true_iff

theorem biggerOf_true {Val : Key → Data d} {k1 k2 : Key} : biggerOf Val k1 k2 = true ↔ rad (Val k2) < rad (Val k1) := by
  classical
  unfold biggerOf
  exact decide_eq_true_iff

theorem macOf_comm (Val : Key → Data d) (angle : ℝ) (k1 k2 : Key) : macOf Val angle k1 k2 = macOf Val angle k2 k1 := by
  unfold macOf mac
  rw [distance_comm, add_comm]

theorem Geo.sizes (h : Geo nch G cells Val) (angle : ℝ) : Sizes G (macOf Val angle) (biggerOf Val) where
  first := by
    intro k1 k2 g1 h1 he _
    by_cases h2 : k2 ∈ cells
    · unfold biggerOf
      rw [h.rad_leaf h1 he]
      simpa using h.rad_nonneg h2
    · unfold biggerOf
      rw [h.rad_leaf h1 he, h.out k2 h2]
      simp [rad]
  second := by
    intro k1 k2 g1 g2 h1 h2 he1 he2 _
    unfold biggerOf
    rw [h.rad_leaf h2 he2]
    simpa using h.radius k1 g1 h1 he1


/-! ### The phases of the computation -/

noncomputable def coef (F : Field d) (k : Key) : ℝ × Point d := (F.pc k, F.fc k)
noncomputable def fld (F : Field d) (e : Key) : ℝ × Point d := (F.pot e, F.acc e)

theorem coef_addCoeff (k k' : Key) (g : ℝ × Point d) (F : Field d) : coef (addCoeff k g F) k' = coef F k' + if k = k' then g else 0 := by
  by_cases h : k' = k
  · subst h; apply Prod.ext <;> simp [coef, addCoeff]
  · apply Prod.ext <;> simp [coef, addCoeff, h, Ne.symm h]

theorem fld_addTo (e e' : Key) (g : ℝ × Point d) (F : Field d) : fld (addTo e g F) e' = fld F e' + if e = e' then g else 0 := by
  by_cases h : e' = e
  · subst h; apply Prod.ext <;> simp [fld, addTo]
  · apply Prod.ext <;> simp [fld, addTo, h, Ne.symm h]

/-- The field of the source of a call at the centre of its sink. -/
noncomputable def val (Val : Key → Data d) (gc : ℝ) (k1 k2 : Key) : ℝ × Point d := grav gc (cen (Val k1)) (cen (Val k2)) (wgt (Val k2))

theorem mac_ne {x y : Point d} {r1 r2 θ : ℝ} (h1 : 0 ≤ r1) (h2 : 0 ≤ r2) (h : mac x r1 y r2 θ) : distance x y ≠ 0 := by
  intro h0
  rw [mac, h0] at h
  linarith

/-- Whether a call adds to an entity at once. -/
def isEnt (G : Key → Option GCell) (k : Key) : Bool := decide ((G k).map GCell.ent = some true)

theorem far_spec (h : Geo nch G cells Val) {dat : DataTable d} (hdat : ∀ k v, dat k = some v → v = Val k) (gc angle : ℝ) {k1 k2 : Key} (h1 : (dat k1).isSome) (h2 : (dat k2).isSome) {g1 g2 : GCell}
    (hg1 : G k1 = some g1) (hg2 : G k2 = some g2) (he : ¬ (g1.ent = true ∧ g2.ent = true)) (hm : macOf Val angle k1 k2 = true) (F : Field d) :
    ∃ F', far dat gc F k1 k2 = some F' ∧ (∀ k, coef F' k = coef F k + if k1 = k ∧ isEnt G k1 = false then val Val gc k1 k2 else 0) ∧
      ∀ e, fld F' e = fld F e + if k1 = e ∧ isEnt G k1 = true then val Val gc k1 k2 else 0 := by
  obtain ⟨v1, e1⟩ := Option.isSome_iff_exists.1 h1
  obtain ⟨v2, e2⟩ := Option.isSome_iff_exists.1 h2
  obtain rfl := hdat _ _ e1
  obtain rfl := hdat _ _ e2
  have c1 : k1 ∈ cells := (h.tree.mem _).2 (by rw [hg1]; rfl)
  have c2 : k2 ∈ cells := (h.tree.mem _).2 (by rw [hg2]; rfl)
  have hd : distance (cen (Val k1)) (cen (Val k2)) ≠ 0 := mac_ne (h.rad_nonneg c1) (h.rad_nonneg c2) (macOf_true.1 hm)
  cases hk1 : g1.ent with
  | false =>
    have hi : isEnt G k1 = false := by simp [isEnt, hg1, hk1]
    obtain ⟨N1, hN1⟩ := h.node k1 g1 hg1 hk1
    refine ⟨addCoeff k1 (val Val gc k1 k2) F, ?_, fun k => by rw [coef_addCoeff]; simp [hi], fun e => by rw [hi]; simp; rfl⟩
    unfold far val
    rw [e1, e2, hN1]
    rw [hN1] at hd
    cases hk2 : g2.ent with
    | false =>
      obtain ⟨N2, hN2⟩ := h.node k2 g2 hg2 hk2
      rw [hN2] at hd ⊢
      simp only [cen, wgt, Option.elim_some] at hd ⊢
      rw [gravitation_eq hd]
      rfl
    | true =>
      obtain ⟨b, hb⟩ := h.leaf k2 g2 hg2 hk2
      rw [hb] at hd ⊢
      simp only [cen, wgt, Option.elim_some] at hd ⊢
      rw [gravitation_eq hd]
      rfl
  | true =>
    have hi : isEnt G k1 = true := by simp [isEnt, hg1, hk1]
    obtain ⟨b, hb⟩ := h.leaf k1 g1 hg1 hk1
    have hk2 : g2.ent = false := by
      cases hk2 : g2.ent with
      | false => rfl
      | true => exact absurd ⟨hk1, hk2⟩ he
    obtain ⟨N2, hN2⟩ := h.node k2 g2 hg2 hk2
    refine ⟨addTo k1 (val Val gc k1 k2) F, ?_, fun k => by rw [hi]; simp; rfl, fun e => by rw [fld_addTo]; simp [hi]⟩
    unfold far val
    rw [e1, e2, hb, hN2]
    rw [hb, hN2] at hd
    simp only [cen, wgt, Option.elim_some] at hd ⊢
    rw [gravitation_eq hd]
    rfl

/-- What is known of the calls of one process: both cells are in its table, and they are far enough apart or both entities. -/
structure CallsOk (G : Key → Option GCell) (Val : Key → Data d) (angle : ℝ) (dat : DataTable d) (calls : List Ghosts.Call) : Prop where
  here : ∀ c ∈ calls, (dat c.sink).isSome ∧ (dat c.source).isSome
  kind : ∀ c ∈ calls, ∃ g1 g2, G c.sink = some g1 ∧ G c.source = some g2
  far : ∀ c ∈ calls, c.isFar = true → macOf Val angle c.sink c.source = true ∧ ∀ g1 g2, G c.sink = some g1 → G c.source = some g2 → ¬ (g1.ent = true ∧ g2.ent = true)
  near : ∀ c ∈ calls, c.isFar = false → ∀ g1 g2, G c.sink = some g1 → G c.source = some g2 → g1.ent = true ∧ g2.ent = true

theorem CallsOk.tail {angle : ℝ} {dat : DataTable d} {c : Ghosts.Call} {l : List Ghosts.Call} (h : CallsOk G Val angle dat (c :: l)) : CallsOk G Val angle dat l :=
  ⟨fun c hc => h.here c (List.mem_cons_of_mem _ hc), fun c hc => h.kind c (List.mem_cons_of_mem _ hc), fun c hc => h.far c (List.mem_cons_of_mem _ hc), fun c hc => h.near c (List.mem_cons_of_mem _ hc)⟩

theorem fars_spec (h : Geo nch G cells Val) {dat : DataTable d} (hdat : ∀ k v, dat k = some v → v = Val k) (gc angle : ℝ) (calls : List Ghosts.Call) (hc : CallsOk G Val angle dat calls) (F : Field d) :
    ∃ F', fars dat gc calls F = some F' ∧
      (∀ k, coef F' k = coef F k + (calls.map fun c => if c.isFar = true ∧ c.sink = k ∧ isEnt G c.sink = false then val Val gc c.sink c.source else 0).sum) ∧
      ∀ e, fld F' e = fld F e + (calls.map fun c => if c.isFar = true ∧ c.sink = e ∧ isEnt G c.sink = true then val Val gc c.sink c.source else 0).sum := by
  induction calls generalizing F with
  | nil => exact ⟨F, rfl, by simp, by simp⟩
  | cons c l ih =>
    cases c with
    | far k1 k2 =>
      obtain ⟨g1, g2, hg1, hg2⟩ := hc.kind _ (List.mem_cons_self ..)
      obtain ⟨hm, he⟩ := hc.far _ (List.mem_cons_self ..) rfl
      obtain ⟨F1, a1, a2, a3⟩ := far_spec (k1 := k1) (k2 := k2) h hdat gc angle (hc.here _ (List.mem_cons_self ..)).1 (hc.here _ (List.mem_cons_self ..)).2 hg1 hg2 (he g1 g2 hg1 hg2) hm F
      obtain ⟨F2, b1, b2, b3⟩ := ih hc.tail F1
      refine ⟨F2, by rw [fars, a1]; exact b1, fun k => ?_, fun e => ?_⟩
      · rw [b2, a2, List.map_cons, List.sum_cons, add_assoc]
        congr 2
        by_cases hq : k1 = k ∧ isEnt G k1 = false
        · rw [if_pos hq, if_pos ⟨rfl, hq⟩]; rfl
        · rw [if_neg hq, if_neg (fun hh => hq hh.2)]
      · rw [b3, a3, List.map_cons, List.sum_cons, add_assoc]
        congr 2
        by_cases hq : k1 = e ∧ isEnt G k1 = true
        · rw [if_pos hq, if_pos ⟨rfl, hq⟩]; rfl
        · rw [if_neg hq, if_neg (fun hh => hq hh.2)]
    | near k1 k2 =>
      obtain ⟨F2, b1, b2, b3⟩ := ih hc.tail F
      refine ⟨F2, by rw [fars]; exact b1, fun k => ?_, fun e => ?_⟩
      · rw [b2, List.map_cons, List.sum_cons]
        simp [Call.isFar]
      · rw [b3, List.map_cons, List.sum_cons]
        simp [Call.isFar]

theorem nears_spec (h : Geo nch G cells Val) {dat : DataTable d} (hdat : ∀ k v, dat k = some v → v = Val k) (gc angle : ℝ) (ids : Key → Int)
    (hids : ∀ e ∈ leaves G cells, ∀ f ∈ leaves G cells, ids e = ids f → e = f) (calls : List Ghosts.Call) (hc : CallsOk G Val angle dat calls) (F : Field d) :
    ∃ F', nears dat gc ids calls F = some F' ∧
      ∀ e, fld F' e = fld F e + (calls.map fun c => if c.isFar = false ∧ c.sink = e ∧ c.source ≠ c.sink then val Val gc c.sink c.source else 0).sum := by
  induction calls generalizing F with
  | nil => exact ⟨F, rfl, by simp⟩
  | cons c l ih =>
    cases c with
    | far k1 k2 =>
      obtain ⟨F2, b1, b3⟩ := ih hc.tail F
      refine ⟨F2, by rw [nears]; exact b1, fun e => ?_⟩
      rw [b3, List.map_cons, List.sum_cons]
      simp [Call.isFar]
    | near k1 k2 =>
      obtain ⟨g1, g2, hg1, hg2⟩ := hc.kind _ (List.mem_cons_self ..)
      obtain ⟨he1, he2⟩ := hc.near _ (List.mem_cons_self ..) rfl g1 g2 hg1 hg2
      obtain ⟨h1, h2⟩ := hc.here _ (List.mem_cons_self ..)
      simp only [Call.sink, Call.source] at hg1 hg2 h1 h2
      have l1 := (mem_leaves h.tree).2 ⟨g1, hg1, he1⟩
      have l2 := (mem_leaves h.tree).2 ⟨g2, hg2, he2⟩
      by_cases hk : k2 = k1
      · obtain ⟨F2, b1, b3⟩ := ih hc.tail F
        refine ⟨F2, by rw [nears, near, if_pos (by rw [hk])]; exact b1, fun e => ?_⟩
        rw [b3, List.map_cons, List.sum_cons]
        simp [Call.sink, Call.source, hk]
      · have hd : distance (cen (Val k1)) (cen (Val k2)) ≠ 0 := fun h0 => h.apart k1 l1 k2 l2 (Ne.symm hk) (distance_eq_zero.mp h0)
        obtain ⟨F2, b1, b3⟩ := ih hc.tail (addTo k1 (val Val gc k1 k2) F)
        refine ⟨F2, ?_, fun e => ?_⟩
        · have : near dat gc ids F k1 k2 = some (addTo k1 (val Val gc k1 k2) F) := by
            obtain ⟨v1, e1⟩ := Option.isSome_iff_exists.1 h1
            obtain ⟨v2, e2⟩ := Option.isSome_iff_exists.1 h2
            obtain rfl := hdat _ _ e1
            obtain rfl := hdat _ _ e2
            obtain ⟨a, ha⟩ := h.leaf k1 g1 hg1 he1
            obtain ⟨b, hb⟩ := h.leaf k2 g2 hg2 he2
            unfold near val
            rw [if_neg (fun hi => hk (hids k2 l2 k1 l1 hi)), e1, e2, ha, hb]
            rw [ha, hb] at hd
            simp only [cen, wgt] at hd ⊢
            rw [gravitation_eq hd]
            rfl
          rw [nears, this]
          exact b1
        · rw [b3, fld_addTo, List.map_cons, List.sum_cons, add_assoc]
          simp [Call.isFar, Call.sink, Call.source, hk]

theorem c2p_spec (h : Geo nch G cells Val) {dat : DataTable d} (hdat : ∀ k v, dat k = some v → v = Val k) {k : Key} {g : GCell} (hg : G k = some g) (he : g.ent = false) (hk : (dat k).isSome) :
    ∀ (l : List Key) (F : Field d), l.Nodup → (∀ e ∈ l, (dat e).isSome ∧ ∃ g, G e = some g ∧ g.ent = true) →
      ∃ F', c2p dat k l F = some F' ∧ (∀ k', coef F' k' = coef F k') ∧ ∀ e, fld F' e = fld F e + if e ∈ l then shift (cen (Val e) - cen (Val k)) (coef F k) else 0 := by
  intro l
  induction l with
  | nil => intro F _ _; exact ⟨F, rfl, fun _ => rfl, by simp⟩
  | cons e l ih =>
    intro F hn hl
    obtain ⟨hde, ge, hge, hee⟩ := hl e (List.mem_cons_self ..)
    obtain ⟨v1, e1⟩ := Option.isSome_iff_exists.1 hk
    obtain ⟨v2, e2⟩ := Option.isSome_iff_exists.1 hde
    obtain rfl := hdat _ _ e1
    obtain rfl := hdat _ _ e2
    obtain ⟨N, hN⟩ := h.node k g hg he
    obtain ⟨b, hb⟩ := h.leaf e ge hge hee
    obtain ⟨F1, hF1⟩ : ∃ F1, F1 = addTo e (F.pc k - ∑ i, (b.pos i - N.coords i) * F.fc k i, F.fc k) F := ⟨_, rfl⟩
    have hc1 : ∀ k', coef F1 k' = coef F k' := fun _ => by rw [hF1]; rfl
    obtain ⟨F2, h1, h2, h3⟩ := ih F1 (List.nodup_cons.mp hn).2 (fun e he => hl e (List.mem_cons_of_mem _ he))
    refine ⟨F2, ?_, fun k' => by rw [h2, hc1], ?_⟩
    · rw [c2p, e1, e2, hN, hb]
      simp only
      rw [← hF1]
      exact h1
    · intro e'
      rw [h3, hc1]
      rw [hF1, fld_addTo, add_assoc]
      congr 1
      by_cases hee' : e = e'
      · subst hee'
        rw [if_pos rfl, if_neg (List.nodup_cons.mp hn).1, if_pos (List.mem_cons_self ..), add_zero]
        rw [hb, hN]
        rfl
      · rw [if_neg hee', zero_add]
        have : e' ∈ e :: l ↔ e' ∈ l := by simp [Ne.symm hee']
        simp only [this]

theorem downs_spec (h : Geo nch G cells Val) {p fuel : Nat} {t : Table} {dat : DataTable d} (hdat : ∀ k v, dat k = some v → v = Val k) {S : Key → Key → Prop} [∀ k, DecidablePred (S k)] :
    ∀ (ks : List Key) (F : Field d), (∀ k ∈ ks, (dat k).isSome ∧ ∃ g, G k = some g ∧ g.ent = false) →
      (∀ k ∈ ks, ∃ l, subEnts nch p t fuel k = some l ∧ l.Nodup ∧ (∀ e, e ∈ l ↔ S k e) ∧ ∀ e ∈ l, (dat e).isSome ∧ ∃ g, G e = some g ∧ g.ent = true) →
      ∃ F', downs nch p t dat fuel ks F = some F' ∧ (∀ k, coef F' k = coef F k) ∧
        ∀ e, fld F' e = fld F e + (ks.map fun k => if S k e then shift (cen (Val e) - cen (Val k)) (coef F k) else 0).sum := by
  intro ks
  induction ks with
  | nil => intro F _ _; exact ⟨F, rfl, fun _ => rfl, by simp⟩
  | cons k ks ih =>
    intro F hk hs
    obtain ⟨hdk, g, hg, he⟩ := hk k (List.mem_cons_self ..)
    obtain ⟨l, l1, l2, l3, l4⟩ := hs k (List.mem_cons_self ..)
    obtain ⟨F1, a1, a2, a3⟩ := c2p_spec h hdat hg he hdk l F l2 l4
    obtain ⟨F2, b1, b2, b3⟩ := ih F1 (fun k' hk' => hk k' (List.mem_cons_of_mem _ hk')) (fun k' hk' => hs k' (List.mem_cons_of_mem _ hk'))
    refine ⟨F2, ?_, fun k' => by rw [b2, a2], fun e => ?_⟩
    · rw [downs, l1, Option.bind_some, a1]
      exact b1
    · rw [b3, a3, List.map_cons, List.sum_cons, add_assoc]
      simp only [l3, a2]

end FleCSPH.DistGravity
