import Verif.Model.RoundedGravity
import Verif.Lemmas.RoundedAccuracy
import Verif.Lemmas.DistField2
/-! Lemmas for C94: rounding errors of the functions of include/physics/fmm.h and of the sums over the calls. -/
namespace FleCSPH.Rounded
open FleCSPH.Geometry FleCSPH.Cofm FleCSPH.Startup FleCSPH.Ghosts FleCSPH.DistGravity
open FleCSPH.Fmm (grav shift distance_eq_zero)

variable {d : Nat} {R : Rounding}

/-- Errors of a potential and of all components of an acceleration. -/
def ErrV (R : Rounding) (k : Nat) (x y m : ℝ × Point d) : Prop := Err R k x.1 y.1 m.1 ∧ ∀ i, Err R k (x.2 i) (y.2 i) (m.2 i)

theorem ErrV.mono {a b : Nat} (hab : a ≤ b) {x y m : ℝ × Point d} (h : ErrV R a x y m) : ErrV R b x y m := ⟨h.1.mono hab, fun i => (h.2 i).mono hab⟩

theorem ErrV.zero (k : Nat) : ErrV R k (0 : ℝ × Point d) 0 0 :=
  ⟨((Err.refl (0 : ℝ)).mono (Nat.zero_le k)).congr rfl abs_zero, fun _ => ((Err.refl (0 : ℝ)).mono (Nat.zero_le k)).congr rfl abs_zero⟩

/-- The sizes of potential and acceleration of a point mass. -/
noncomputable def gravS (gc : ℝ) (x y : Point d) (m : ℝ) : ℝ × Point d :=
  (|gc| * m / Geometry.distance x y, fun i => |gc| * m * |x i - y i| / (Geometry.distance x y * Geometry.distance x y * Geometry.distance x y))

section
variable (hd : d ≤ 3) (hu : 46 * R.u ≤ 1)
include hd hu

theorem pair_parts {x y : Point d} (hxy : x ≠ y) : distance R x y ≠ 0 ∧ R.fl (R.fl (distance R x y * distance R x y) * distance R x y) ≠ 0 ∧
    Err R 14 (Geometry.distance x y)⁻¹ (distance R x y)⁻¹ (Geometry.distance x y)⁻¹ ∧
    Err R 46 (Geometry.distance x y * Geometry.distance x y * Geometry.distance x y)⁻¹ (R.fl (R.fl (distance R x y * distance R x y) * distance R x y))⁻¹
      (Geometry.distance x y * Geometry.distance x y * Geometry.distance x y)⁻¹ := by
  have h0 := R.nonneg
  have hu1 : R.u < 1 := by linarith
  have hpos : 0 < Geometry.distance x y := lt_of_le_of_ne (distance_nonneg x y) fun h => hxy (distance_eq_zero.mp h.symm)
  obtain ⟨n1, n2⟩ := near_distance hu1.le hd x y
  have N : NN R 7 (Geometry.distance x y) (distance R x y) := ⟨hpos.le, n1, n2⟩
  have N3 : NN R 23 (Geometry.distance x y * Geometry.distance x y * Geometry.distance x y) _ := (((N.mul hu1.le N).fl hu1.le).mul hu1.le N).fl hu1.le
  obtain ⟨p1, q1⟩ := N.inv hu1 hpos
  obtain ⟨p3, q3⟩ := N3.inv hu1 (mul_pos (mul_pos hpos hpos) hpos)
  exact ⟨p1.ne', p3.ne', q1.to_err (by push_cast; linarith) hu1.le, q3.to_err (by push_cast; linarith) hu1.le⟩

theorem fc_err (gc : ℝ) {x y : Point d} (hxy : x ≠ y) {a : Nat} {M m : ℝ} (hm : Err R a M m M) : ∃ g, gravitationFc R gc x y m = some g ∧ ErrV R (a + 50) (grav gc x y M) g (gravS gc x y M) := by
  obtain ⟨h1, h2, h3, h4⟩ := pair_parts hd hu hxy
  have A : Err R (a + 1) (-gc * M) (R.fl (-gc * m)) (|gc| * M) := (((Err.refl (R := R) (-gc)).mul hm).fl.mono (by omega)).congr rfl (by rw [abs_neg])
  refine ⟨_, by unfold gravitationFc; rw [if_neg (not_or.2 ⟨h1, h2⟩)], ?_, fun i => ?_⟩
  · have := ((A.mul h3).fl).mono (show a + 1 + 14 + 1 ≤ a + 50 by omega)
    simp only [← div_eq_mul_inv] at this
    exact this
  · have r : Err R 1 (x i - y i) (R.fl (x i - y i)) |x i - y i| := (Err.refl _).fl
    have := ((A.mul r).fl.mul h4).fl
    simp only [← div_eq_mul_inv] at this
    exact this.mono (by omega)

theorem p2p_err (gc : ℝ) {x y : Point d} (hxy : x ≠ y) {a : Nat} {M m : ℝ} (hm : Err R a M m M) : ∃ g, gravitationP2P R gc x y m = some g ∧ ErrV R (a + 50) (grav gc x y M) g (gravS gc x y M) := by
  obtain ⟨h1, h2, h3, h4⟩ := pair_parts hd hu hxy
  have A : Err R (a + 1) (-gc * M) (R.fl (-gc * m)) (|gc| * M) := (((Err.refl (R := R) (-gc)).mul hm).fl.mono (by omega)).congr rfl (by rw [abs_neg])
  refine ⟨_, by unfold gravitationP2P; rw [if_neg (not_or.2 ⟨h1, h2⟩)], ?_, fun i => ?_⟩
  · have := ((A.mul h3).fl).mono (show a + 1 + 14 + 1 ≤ a + 50 by omega)
    simp only [← div_eq_mul_inv] at this
    exact this
  · have r : Err R 1 (x i - y i) (R.fl (x i - y i)) |x i - y i| := (Err.refl _).fl
    have := (((A.mul h4).fl).mul r).fl
    refine (this.mono (show a + 1 + 46 + 1 + 1 + 1 ≤ a + 50 by omega)).congr ?_ ?_
    · show _ = -gc * M * (x i - y i) / _
      rw [div_eq_mul_inv]; ring
    · show _ = |gc| * M * |x i - y i| / _
      rw [div_eq_mul_inv]; ring

end

/-! ### The data of a tree whose summaries are rounded -/

/-- What the data of the cells satisfies: `M` are the exact sums of the masses, `E` roundings are in the masses and `P` in the radii. -/
structure GeoR (R : Rounding) (nch : Nat) (G : Key → Option GCell) (cells : Finset Key) (Val : Key → Data d) (M : Key → ℝ) (E P : Nat) : Prop where
  tree : IsTree nch G cells
  leaf : ∀ k g, G k = some g → g.ent = true → ∃ b, Val k = .inl b
  node : ∀ k g, G k = some g → g.ent = false → ∃ N, Val k = .inr (some N)
  out : ∀ k, k ∉ cells → Val k = .inr none
  radius : ∀ k g, G k = some g → g.ent = false → 0 < rad (Val k)
  mass : ∀ k, k ∈ cells → M k = ∑ f ∈ leaves G cells with k <:+ f, wgt (Val f)
  massErr : ∀ k, k ∈ cells → Err R E (M k) (wgt (Val k)) (M k)
  inside : ∀ k f, k ∈ cells → f ∈ leaves G cells → k <:+ f → (1 - R.u) ^ P * Geometry.distance (cen (Val k)) (cen (Val f)) ≤ rad (Val k)
  pos : ∀ f ∈ leaves G cells, 0 < wgt (Val f)
  apart : ∀ e ∈ leaves G cells, ∀ f ∈ leaves G cells, e ≠ f → cen (Val e) ≠ cen (Val f)

variable {nch E P : Nat} {G : Key → Option GCell} {cells : Finset Key} {Val : Key → Data d} {M : Key → ℝ}

theorem GeoR.rad_nonneg (h : GeoR R nch G cells Val M E P) {k : Key} (hk : k ∈ cells) : 0 ≤ rad (Val k) := by
  obtain ⟨g, hg⟩ := Option.isSome_iff_exists.1 ((h.tree.mem k).1 hk)
  cases he : g.ent with
  | false => exact (h.radius k g hg he).le
  | true =>
    obtain ⟨b, hb⟩ := h.leaf k g hg he
    rw [hb]
    exact le_refl _

theorem GeoR.place (h : GeoR R nch G cells Val M E P) {k : Key} (hk : k ∈ cells) : DistGravity.place (Val k) = some (cen (Val k), rad (Val k)) := by
  obtain ⟨g, hg⟩ := Option.isSome_iff_exists.1 ((h.tree.mem k).1 hk)
  cases he : g.ent with
  | false => obtain ⟨N, hN⟩ := h.node k g hg he; rw [hN]; rfl
  | true => obtain ⟨b, hb⟩ := h.leaf k g hg he; rw [hb]; rfl

theorem GeoR.macOf_iff (h : GeoR R nch G cells Val M E P) {angle : ℝ} {k1 k2 : Key} (h1 : k1 ∈ cells) (h2 : k2 ∈ cells) :
    macOf R Val angle k1 k2 = true ↔ mac R (cen (Val k1)) (rad (Val k1)) (cen (Val k2)) (rad (Val k2)) angle := by
  classical
  unfold macOf
  rw [decide_eq_true_iff, h.place h1, h.place h2]
  constructor
  · rintro ⟨a, b, ha, hb, hm⟩
    cases ha; cases hb; exact hm
  · exact fun hm => ⟨_, _, rfl, rfl, hm⟩

theorem GeoR.sizes (h : GeoR R nch G cells Val M E P) (angle : ℝ) : Sizes G (macOf R Val angle) (biggerOf Val) where
  first := by
    classical
    intro k1 k2 g1 h1 he _
    unfold biggerOf
    rw [decide_eq_false_iff_not]
    rintro ⟨a, b, ha, hb, hlt⟩
    obtain ⟨B, hB⟩ := h.leaf k1 g1 h1 he
    rw [hB] at ha
    cases ha
    by_cases h2 : k2 ∈ cells
    · rw [h.place h2] at hb
      cases hb
      have := h.rad_nonneg h2
      simp only at hlt
      linarith
    · rw [h.out k2 h2] at hb
      simp [DistGravity.place] at hb
  second := by
    classical
    intro k1 k2 g1 g2 h1 h2 he1 he2 _
    unfold biggerOf
    rw [decide_eq_true_iff, h.place ((h.tree.mem _).2 (by rw [h1]; rfl)), h.place ((h.tree.mem _).2 (by rw [h2]; rfl))]
    refine ⟨_, _, rfl, rfl, ?_⟩
    obtain ⟨B, hB⟩ := h.leaf k2 g2 h2 he2
    rw [hB]
    exact h.radius k1 g1 h1 he1

/-- Cells the criterion accepts have different centres. -/
theorem mac_ne (hd : d ≤ 3) (hu : R.u < 1) {x y : Point d} {r1 r2 θ : ℝ} (h1 : 0 ≤ r1) (h2 : 0 ≤ r2) (h : mac R x r1 y r2 θ) : x ≠ y := by
  rintro rfl
  have e0 : R.fl 0 = 0 := by simpa using R.err 0
  have : distance R x x = 0 := by
    obtain ⟨n1, -, n2⟩ := near_distance hu.le hd x x
    rw [distance_eq_zero.2 rfl] at n2
    have := pow_pos (show 0 < 1 - R.u by linarith) 7
    nlinarith
  rw [mac, this, mul_zero, e0] at h
  exact absurd h (not_lt.2 (fl_nonneg hu.le (by linarith)))

/-- The field of the source of a call at the centre of its sink with the exact mass, and its size. -/
noncomputable def valR (Val : Key → Data d) (M : Key → ℝ) (gc : ℝ) (k1 k2 : Key) : ℝ × Point d := grav gc (cen (Val k1)) (cen (Val k2)) (M k2)
noncomputable def valS (Val : Key → Data d) (M : Key → ℝ) (gc : ℝ) (k1 k2 : Key) : ℝ × Point d := gravS gc (cen (Val k1)) (cen (Val k2)) (M k2)

theorem coef_add (k k' : Key) (g : ℝ × Point d) (F : Field d) {a b : Nat} (hb : b ≤ a) {v s w z : ℝ × Point d} (h : ErrV R a v (coef F k') s) (hg : ErrV R b w g z) :
    ErrV R (a + if k = k' then 1 else 0) (v + if k = k' then w else 0) (coef (addCoeff R k g F) k') (s + if k = k' then z else 0) := by
  by_cases hk : k = k'
  · subst hk
    simp only [if_true]
    refine ⟨?_, fun i => ?_⟩
    · have := (h.1.add le_rfl hb hg.1).fl
      simpa [coef, addCoeff] using this
    · have := ((h.2 i).add le_rfl hb (hg.2 i)).fl
      simpa [coef, addCoeff] using this
  · simp only [if_neg hk, add_zero]
    simpa [coef, addCoeff, Ne.symm hk] using h

theorem fld_add (k k' : Key) (g : ℝ × Point d) (F : Field d) {a b : Nat} (hb : k = k' → b ≤ a) {v s w z : ℝ × Point d} (h : ErrV R a v (fld F k') s) (hg : k = k' → ErrV R b w g z) :
    ErrV R (a + if k = k' then 1 else 0) (v + if k = k' then w else 0) (fld (addTo R k g F) k') (s + if k = k' then z else 0) := by
  by_cases hk : k = k'
  · have hg1 := hg hk
    have hb1 := hb hk
    clear hg hb
    subst hk
    simp only [if_true]
    refine ⟨?_, fun i => ?_⟩
    · have := (h.1.add le_rfl hb1 hg1.1).fl
      simpa [fld, addTo] using this
    · have := ((h.2 i).add le_rfl hb1 (hg1.2 i)).fl
      simpa [fld, addTo] using this
  · simp only [if_neg hk, add_zero]
    simpa [fld, addTo, Ne.symm hk] using h

/-- What is known of the calls of one process: both cells are in its table, and they are far enough apart or both entities. -/
structure CallsOk (R : Rounding) (G : Key → Option GCell) (Val : Key → Data d) (angle : ℝ) (dat : DataTable d) (calls : List Ghosts.Call) : Prop where
  here : ∀ c ∈ calls, (dat c.sink).isSome ∧ (dat c.source).isSome
  kind : ∀ c ∈ calls, ∃ g1 g2, G c.sink = some g1 ∧ G c.source = some g2
  far : ∀ c ∈ calls, c.isFar = true → macOf R Val angle c.sink c.source = true ∧ ∀ g1 g2, G c.sink = some g1 → G c.source = some g2 → ¬ (g1.ent = true ∧ g2.ent = true)
  near : ∀ c ∈ calls, c.isFar = false → ∀ g1 g2, G c.sink = some g1 → G c.source = some g2 → g1.ent = true ∧ g2.ent = true

theorem CallsOk.tail {angle : ℝ} {dat : DataTable d} {c : Ghosts.Call} {l : List Ghosts.Call} (h : CallsOk R G Val angle dat (c :: l)) : CallsOk R G Val angle dat l :=
  ⟨fun c hc => h.here c (List.mem_cons_of_mem _ hc), fun c hc => h.kind c (List.mem_cons_of_mem _ hc), fun c hc => h.far c (List.mem_cons_of_mem _ hc), fun c hc => h.near c (List.mem_cons_of_mem _ hc)⟩

section
variable (h : GeoR R nch G cells Val M E P) (hd : d ≤ 3) (hu : 46 * R.u ≤ 1) {dat : DataTable d} (hdat : ∀ k v, dat k = some v → v = Val k) (gc angle : ℝ)
include h hd hu hdat

theorem far_step {k1 k2 : Key} (h1 : (dat k1).isSome) (h2 : (dat k2).isSome) {g1 g2 : GCell}
    (hg1 : G k1 = some g1) (hg2 : G k2 = some g2) (he : ¬ (g1.ent = true ∧ g2.ent = true)) (hm : macOf R Val angle k1 k2 = true) (F : Field d) :
    ∃ g, ErrV R (E + 50) (valR Val M gc k1 k2) g (valS Val M gc k1 k2) ∧ far R dat gc F k1 k2 = some (if isEnt G k1 = true then addTo R k1 g F else addCoeff R k1 g F) := by
  obtain ⟨v1, e1⟩ := Option.isSome_iff_exists.1 h1
  obtain ⟨v2, e2⟩ := Option.isSome_iff_exists.1 h2
  obtain rfl := hdat _ _ e1
  obtain rfl := hdat _ _ e2
  have c1 : k1 ∈ cells := (h.tree.mem _).2 (by rw [hg1]; rfl)
  have c2 : k2 ∈ cells := (h.tree.mem _).2 (by rw [hg2]; rfl)
  have hne : cen (Val k1) ≠ cen (Val k2) := mac_ne hd (by linarith [R.nonneg]) (h.rad_nonneg c1) (h.rad_nonneg c2) ((h.macOf_iff c1 c2).1 hm)
  obtain ⟨g, q1, q2⟩ := fc_err hd hu gc hne (h.massErr k2 c2)
  refine ⟨g, q2, ?_⟩
  cases hk1 : g1.ent with
  | false =>
    have hi : isEnt G k1 = false := by simp [isEnt, hg1, hk1]
    obtain ⟨N1, hN1⟩ := h.node k1 g1 hg1 hk1
    unfold far
    rw [e1, e2, hi]
    rw [hN1] at q1 ⊢
    cases hk2 : g2.ent with
    | false =>
      obtain ⟨N2, hN2⟩ := h.node k2 g2 hg2 hk2
      rw [hN2] at q1 ⊢
      simp only [cen, wgt, Option.elim_some] at q1 ⊢
      rw [q1]; rfl
    | true =>
      obtain ⟨b, hb⟩ := h.leaf k2 g2 hg2 hk2
      rw [hb] at q1 ⊢
      simp only [cen, wgt, Option.elim_some] at q1 ⊢
      rw [q1]; rfl
  | true =>
    have hi : isEnt G k1 = true := by simp [isEnt, hg1, hk1]
    obtain ⟨b, hb⟩ := h.leaf k1 g1 hg1 hk1
    have hk2 : g2.ent = false := by
      cases hk2 : g2.ent with
      | false => rfl
      | true => exact absurd ⟨hk1, hk2⟩ he
    obtain ⟨N2, hN2⟩ := h.node k2 g2 hg2 hk2
    unfold far
    rw [e1, e2, hi]
    rw [hb, hN2] at q1 ⊢
    simp only [cen, wgt, Option.elim_some] at q1 ⊢
    rw [q1]; rfl

/-- Whether a call adds to the coefficients of `k`, or to `e` at once. -/
def toCoef (G : Key → Option GCell) (k : Key) (c : Ghosts.Call) : Bool := decide (c.isFar = true ∧ c.sink = k ∧ isEnt G c.sink = false)
def toEnt (G : Key → Option GCell) (e : Key) (c : Ghosts.Call) : Bool := decide (c.isFar = true ∧ c.sink = e ∧ isEnt G c.sink = true)
def toNear (e : Key) (c : Ghosts.Call) : Bool := decide (c.isFar = false ∧ c.sink = e ∧ c.source ≠ c.sink)

/-- The sum over the calls for which `q` holds. -/
noncomputable def total {V : Type} [AddCommMonoid V] (q : Ghosts.Call → Bool) (f : Ghosts.Call → V) (calls : List Ghosts.Call) : V := (calls.map fun c => if q c = true then f c else 0).sum

omit h hd hu hdat in
theorem total_cons {V : Type} [AddCommMonoid V] (q : Ghosts.Call → Bool) (f : Ghosts.Call → V) (c : Ghosts.Call) (l : List Ghosts.Call) :
    total q f (c :: l) = (if q c = true then f c else 0) + total q f l := by
  unfold total; rw [List.map_cons, List.sum_cons]

theorem fars_err (calls : List Ghosts.Call) (hc : CallsOk R G Val angle dat calls) (F : Field d) (a b : Key → Nat) (v s w z : Key → ℝ × Point d)
    (ha : ∀ k, E + 50 ≤ a k ∧ E + 50 ≤ b k) (hF : ∀ k, ErrV R (a k) (v k) (coef F k) (s k)) (hF' : ∀ e, ErrV R (b e) (w e) (fld F e) (z e)) :
    ∃ F', fars R dat gc calls F = some F' ∧
      (∀ k, ErrV R (a k + calls.countP (toCoef G k)) (v k + total (toCoef G k) (fun c => valR Val M gc c.sink c.source) calls) (coef F' k)
        (s k + total (toCoef G k) (fun c => valS Val M gc c.sink c.source) calls)) ∧
      ∀ e, ErrV R (b e + calls.countP (toEnt G e)) (w e + total (toEnt G e) (fun c => valR Val M gc c.sink c.source) calls) (fld F' e)
        (z e + total (toEnt G e) (fun c => valS Val M gc c.sink c.source) calls) := by
  induction calls generalizing F a b v s w z with
  | nil => exact ⟨F, rfl, by simpa [total] using hF, by simpa [total] using hF'⟩
  | cons c l ih =>
    cases c with
    | near k1 k2 =>
      obtain ⟨F2, b1, b2, b3⟩ := ih hc.tail F a b v s w z ha hF hF'
      refine ⟨F2, by rw [fars]; exact b1, fun k => ?_, fun e => ?_⟩
      · have : toCoef G k (.near k1 k2) = false := by simp [toCoef, Call.isFar]
        simpa [total_cons, List.countP_cons, this] using b2 k
      · have : toEnt G e (.near k1 k2) = false := by simp [toEnt, Call.isFar]
        simpa [total_cons, List.countP_cons, this] using b3 e
    | far k1 k2 =>
      obtain ⟨g1, g2, hg1, hg2⟩ := hc.kind _ (List.mem_cons_self ..)
      obtain ⟨hm, he⟩ := hc.far _ (List.mem_cons_self ..) rfl
      obtain ⟨g, q1, q2⟩ := far_step (k1 := k1) (k2 := k2) h hd hu hdat gc angle (hc.here _ (List.mem_cons_self ..)).1 (hc.here _ (List.mem_cons_self ..)).2 hg1 hg2 (he g1 g2 hg1 hg2) hm F
      cases hi : isEnt G k1 with
      | true =>
        have t1 : ∀ k, toCoef G k (.far k1 k2) = false := fun k => by simp [toCoef, Call.sink, hi]
        have t2 : ∀ e, toEnt G e (.far k1 k2) = decide (k1 = e) := fun e => by simp [toEnt, Call.isFar, Call.sink, hi]
        rw [hi, if_pos rfl] at q2
        obtain ⟨F2, b1, b2, b3⟩ := ih hc.tail (addTo R k1 g F) a (fun e => b e + if k1 = e then 1 else 0) v s
          (fun e => w e + if k1 = e then valR Val M gc k1 k2 else 0) (fun e => z e + if k1 = e then valS Val M gc k1 k2 else 0)
          (fun k => ⟨(ha k).1, (ha k).2.trans (Nat.le_add_right _ _)⟩) hF (fun e => fld_add k1 e g F (fun _ => (ha e).2) (hF' e) (fun _ => q1))
        refine ⟨F2, by rw [fars, q2]; exact b1, fun k => ?_, fun e => ?_⟩
        · simpa [total_cons, List.countP_cons, t1] using b2 k
        · have := b3 e
          rw [total_cons, total_cons, List.countP_cons, t2]
          simp only [decide_eq_true_eq, Call.sink, Call.source]
          simp only [← add_assoc]
          rw [add_right_comm]
          exact this
      | false =>
        have t1 : ∀ k, toCoef G k (.far k1 k2) = decide (k1 = k) := fun k => by simp [toCoef, Call.isFar, Call.sink, hi]
        have t2 : ∀ e, toEnt G e (.far k1 k2) = false := fun e => by simp [toEnt, Call.sink, hi]
        rw [hi, if_neg (by decide)] at q2
        obtain ⟨F2, b1, b2, b3⟩ := ih hc.tail (addCoeff R k1 g F) (fun e => a e + if k1 = e then 1 else 0) b
          (fun e => v e + if k1 = e then valR Val M gc k1 k2 else 0) (fun e => s e + if k1 = e then valS Val M gc k1 k2 else 0) w z
          (fun k => ⟨(ha k).1.trans (Nat.le_add_right _ _), (ha k).2⟩) (fun e => coef_add k1 e g F (ha e).1 (hF e) q1) hF'
        refine ⟨F2, by rw [fars, q2]; exact b1, fun k => ?_, fun e => ?_⟩
        · have := b2 k
          rw [total_cons, total_cons, List.countP_cons, t1]
          simp only [decide_eq_true_eq, Call.sink, Call.source]
          simp only [← add_assoc]
          rw [add_right_comm]
          exact this
        · simpa [total_cons, List.countP_cons, t2] using b3 e

theorem nears_err (ids : Key → Int) (hids : ∀ e ∈ leaves G cells, ∀ f ∈ leaves G cells, ids e = ids f → e = f) (calls : List Ghosts.Call) (hc : CallsOk R G Val angle dat calls) (F : Field d)
    (b : Key → Nat) (w z : Key → ℝ × Point d) (ha : ∀ k, E + 50 ≤ b k) (hF' : ∀ e, ErrV R (b e) (w e) (fld F e) (z e)) :
    ∃ F', nears R dat gc ids calls F = some F' ∧
      ∀ e, ErrV R (b e + calls.countP (toNear e)) (w e + total (toNear e) (fun c => valR Val M gc c.sink c.source) calls) (fld F' e)
        (z e + total (toNear e) (fun c => valS Val M gc c.sink c.source) calls) := by
  induction calls generalizing F b w z with
  | nil => exact ⟨F, rfl, by simpa [total] using hF'⟩
  | cons c l ih =>
    cases c with
    | far k1 k2 =>
      obtain ⟨F2, b1, b3⟩ := ih hc.tail F b w z ha hF'
      refine ⟨F2, by rw [nears]; exact b1, fun e => ?_⟩
      have : toNear e (.far k1 k2) = false := by simp [toNear, Call.isFar]
      simpa [total_cons, List.countP_cons, this] using b3 e
    | near k1 k2 =>
      obtain ⟨g1, g2, hg1, hg2⟩ := hc.kind _ (List.mem_cons_self ..)
      obtain ⟨he1, he2⟩ := hc.near _ (List.mem_cons_self ..) rfl g1 g2 hg1 hg2
      obtain ⟨h1, h2⟩ := hc.here _ (List.mem_cons_self ..)
      simp only [Call.sink, Call.source] at hg1 hg2 h1 h2
      have l1 := (mem_leaves h.tree).2 ⟨g1, hg1, he1⟩
      have l2 := (mem_leaves h.tree).2 ⟨g2, hg2, he2⟩
      by_cases hk : k2 = k1
      · obtain ⟨F2, b1, b3⟩ := ih hc.tail F b w z ha hF'
        refine ⟨F2, by rw [nears, nearPair, if_pos (by rw [hk])]; exact b1, fun e => ?_⟩
        have : toNear e (.near k1 k2) = false := by simp [toNear, Call.sink, Call.source, hk]
        simpa [total_cons, List.countP_cons, this] using b3 e
      · have c2 : k2 ∈ cells := (h.tree.mem _).2 (by rw [hg2]; rfl)
        obtain ⟨g, q1, q2⟩ := p2p_err hd hu gc (h.apart k1 l1 k2 l2 (Ne.symm hk)) (h.massErr k2 c2)
        have t2 : ∀ e, toNear e (.near k1 k2) = decide (k1 = e) := fun e => by simp [toNear, Call.isFar, Call.sink, Call.source, hk]
        obtain ⟨F2, b1, b3⟩ := ih hc.tail (addTo R k1 g F) (fun e => b e + if k1 = e then 1 else 0)
          (fun e => w e + if k1 = e then valR Val M gc k1 k2 else 0) (fun e => z e + if k1 = e then valS Val M gc k1 k2 else 0)
          (fun k => (ha k).trans (Nat.le_add_right _ _)) (fun e => fld_add k1 e g F (fun _ => ha e) (hF' e) (fun _ => q2))
        refine ⟨F2, ?_, fun e => ?_⟩
        · have : nearPair R dat gc ids F k1 k2 = some (addTo R k1 g F) := by
            obtain ⟨v1, e1⟩ := Option.isSome_iff_exists.1 h1
            obtain ⟨v2, e2⟩ := Option.isSome_iff_exists.1 h2
            obtain rfl := hdat _ _ e1
            obtain rfl := hdat _ _ e2
            obtain ⟨a, ha⟩ := h.leaf k1 g1 hg1 he1
            obtain ⟨b, hb⟩ := h.leaf k2 g2 hg2 he2
            unfold nearPair
            rw [if_neg (fun hi => hk (hids k2 l2 k1 l1 hi)), e1, e2]
            rw [ha, hb] at q1 ⊢
            simp only [cen, wgt] at q1 ⊢
            rw [q1]
            rfl
          rw [nears, this]
          exact b1
        · have := b3 e
          rw [total_cons, total_cons, List.countP_cons, t2]
          simp only [decide_eq_true_eq, Call.sink, Call.source]
          simp only [← add_assoc]
          rw [add_right_comm]
          exact this

end

/-! ### Down to the entities -/

/-- The size of a potential at a distance `r` from the centre. -/
noncomputable def shiftS (r : Point d) (g : ℝ × Point d) : ℝ × Point d := (g.1 + ∑ i, |r i| * g.2 i, g.2)

theorem expand_err' {x c : Point d} {a : Nat} {v s : ℝ × Point d} {pc : ℝ} {fc : Point d} (h : ErrV R a v (pc, fc) s) :
    ErrV R (a + 2 + d) (shift (x - c) v) (expand R x c pc fc, fc) (shiftS (x - c) s) := by
  refine ⟨?_, fun i => (h.2 i).mono (by omega)⟩
  have ht : ∀ i ∈ List.finRange d, Err R (a + 2) (-(x i - c i) * v.2 i) (R.fl (-R.fl (x i - c i) * fc i)) (|x i - c i| * s.2 i) := by
    intro i _
    have r : Err R 1 (x i - c i) (R.fl (x i - c i)) |x i - c i| := (Err.refl _).fl
    exact ((r.neg.mul (h.2 i)).fl).mono (by omega)
  have := err_foldl_mem _ _ _ (a + 2) (List.finRange d) ht (h.1.mono (show a ≤ a + 2 by omega)) le_rfl
  rw [List.length_finRange, ← List.ofFn_eq_map, ← List.ofFn_eq_map, List.sum_ofFn, List.sum_ofFn] at this
  refine this.congr ?_ ?_
  · simp only [shift, Pi.sub_apply, neg_mul, Finset.sum_neg_distrib, sub_eq_add_neg]
  · simp only [shiftS, Pi.sub_apply]

theorem c2p_err (h : GeoR R nch G cells Val M E P) {dat : DataTable d} (hdat : ∀ k v, dat k = some v → v = Val k) {k : Key} {g : GCell} (hg : G k = some g) (he : g.ent = false) (hk : (dat k).isSome)
    (a : Nat) (v s : ℝ × Point d) :
    ∀ (l : List Key) (F : Field d) (b : Key → Nat) (w z : Key → ℝ × Point d), l.Nodup → (∀ e ∈ l, (dat e).isSome ∧ ∃ g, G e = some g ∧ g.ent = true) →
      ErrV R a v (coef F k) s → (∀ e ∈ l, a + 2 + d ≤ b e) → (∀ e, ErrV R (b e) (w e) (fld F e) (z e)) →
      ∃ F', c2p R dat k l F = some F' ∧ (∀ k', coef F' k' = coef F k') ∧
        ∀ e, ErrV R (b e + if e ∈ l then 1 else 0) (w e + if e ∈ l then shift (cen (Val e) - cen (Val k)) v else 0) (fld F' e) (z e + if e ∈ l then shiftS (cen (Val e) - cen (Val k)) s else 0) := by
  intro l
  induction l with
  | nil => intro F b w z _ _ _ _ hF; exact ⟨F, rfl, fun _ => rfl, by simpa using hF⟩
  | cons e l ih =>
    intro F b w z hn hl hco hb hF
    obtain ⟨hde, ge, hge, hee⟩ := hl e (List.mem_cons_self ..)
    obtain ⟨v1, e1⟩ := Option.isSome_iff_exists.1 hk
    obtain ⟨v2, e2⟩ := Option.isSome_iff_exists.1 hde
    obtain rfl := hdat _ _ e1
    obtain rfl := hdat _ _ e2
    obtain ⟨N, hN⟩ := h.node k g hg he
    obtain ⟨B, hB⟩ := h.leaf e ge hge hee
    obtain ⟨F1, hF1⟩ : ∃ F1, F1 = addTo R e (expand R B.pos N.coords (F.pc k) (F.fc k), F.fc k) F := ⟨_, rfl⟩
    have hc1 : ∀ k', coef F1 k' = coef F k' := fun _ => by rw [hF1]; rfl
    have hex := expand_err' (x := B.pos) (c := N.coords) hco
    have hcen : B.pos - N.coords = cen (Val e) - cen (Val k) := by rw [hB, hN]; rfl
    rw [hcen] at hex
    obtain ⟨F2, h1, h2, h3⟩ := ih F1 (fun e' => b e' + if e = e' then 1 else 0) (fun e' => w e' + if e = e' then shift (cen (Val e) - cen (Val k)) v else 0)
      (fun e' => z e' + if e = e' then shiftS (cen (Val e) - cen (Val k)) s else 0) (List.nodup_cons.mp hn).2 (fun e he => hl e (List.mem_cons_of_mem _ he)) (by rw [hc1]; exact hco)
      (fun e' he' => (hb e' (List.mem_cons_of_mem _ he')).trans (Nat.le_add_right _ _))
      (fun e' => by rw [hF1]; exact fld_add e e' _ F (fun hee' => by subst hee'; exact hb e (List.mem_cons_self ..)) (hF e') (fun _ => hex))
    refine ⟨F2, ?_, fun k' => by rw [h2, hc1], fun e' => ?_⟩
    · rw [c2p, e1, e2, hN, hB]
      simp only
      rw [← hF1]
      exact h1
    · have := h3 e'
      by_cases hee' : e = e'
      · subst hee'
        simpa [(List.nodup_cons.mp hn).1] using this
      · simpa [hee', Ne.symm hee'] using this

end FleCSPH.Rounded
