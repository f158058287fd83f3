import Verif.Lemmas.DistField
/-! The field on a leaf of one process: one contribution for each call above it, then one for each leaf. -/
namespace FleCSPH.DistGravity
open FleCSPH.Ghosts FleCSPH.Startup FleCSPH.Cofm FleCSPH.Geometry
open FleCSPH.Fmm (distance_eq_zero grav shift gravitation_eq grav_smul shift_add shift_zero shift_smul shift_sum eucL euc_sub norm_euc_sub expand_err sum_comm_vec)

variable {d nch : Nat} {G : Key → Option GCell} {cells : Finset Key} {Val : Key → Data d}

theorem pick {V α : Type} [AddCommMonoid V] [DecidableEq α] (keys : List α) (hnd : keys.Nodup) (k1 : α) (hk : k1 ∈ keys) (f : α → V) :
    (keys.map fun k => if k1 = k then f k else 0).sum = f k1 := by
  induction keys with
  | nil => simp at hk
  | cons x l ih =>
    rw [List.map_cons, List.sum_cons]
    by_cases hx : k1 = x
    · subst hx
      rw [if_pos rfl]
      have : (l.map fun k => if k1 = k then f k else 0).sum = 0 := by
        apply List.sum_eq_zero
        intro y hy
        obtain ⟨k, hk, rfl⟩ := List.mem_map.mp hy
        rw [if_neg (by rintro rfl; exact (List.nodup_cons.mp hnd).1 hk)]
      rw [this, add_zero]
    · rw [if_neg hx, zero_add]
      exact ih (List.nodup_cons.mp hnd).2 ((List.mem_cons.mp hk).resolve_left hx)

theorem shift_self (x y : Point d) (gc m : ℝ) : shift (x - x) (grav gc x y m) = grav gc x y m := by
  rw [sub_self, shift]; simp

/-- An entity above an entity is this entity. -/
theorem leaf_suffix (hT : IsTree nch G cells) {k e : Key} {g : GCell} (hg : G k = some g) (he : g.ent = true) (hs : k <:+ e) (hge : (G e).isSome) : k = e := by
  by_contra hne
  obtain ⟨i, -, h2⟩ := step_down hT hge hs hne
  have := h2 g hg
  rw [(hT.leaf k g hg).1 he] at this
  simp at this

theorem gravity_calls (h : Geo nch G cells Val) {p fuel : Nat} {O : Key → Prop} {t : Table} (hv : View G O p t) (hfu : ∀ k ∈ cells, k.length < fuel) {dat : DataTable d}
    (hdat : ∀ k v, dat k = some v → v = Val k) (hhere : ∀ k, (t k).isSome → (dat k).isSome) (gc angle : ℝ) (ids : Key → Int)
    (hids : ∀ e ∈ leaves G cells, ∀ f ∈ leaves G cells, ids e = ids f → e = f) {calls : List Ghosts.Call} (hg : ∀ c ∈ calls, GoodCall G (macOf Val angle) O c)
    (hsrc : ∀ c ∈ calls, (t c.source).isSome) :
    ∃ F, gravity nch p t dat gc ids fuel calls = some F ∧ ∀ e ∈ leaves G cells, (∀ a, a <:+ e → O a) →
      fld F e = (calls.map fun c => if c.sink <:+ e ∧ c.source ≠ c.sink then shift (cen (Val e) - cen (Val c.sink)) (val Val gc c.sink c.source) else 0).sum := by
  classical
  have hown : ∀ {k}, (t k).map Cell.owner = some p ↔ O k := by
    intro k
    constructor
    · intro h
      cases hk : t k with
      | none => rw [hk] at h; simp at h
      | some c => rw [hk] at h; exact (hv.mine k c hk).1 (by simpa using h)
    · intro h
      obtain ⟨c, g, hc, _⟩ := hv.full k h
      rw [hc]
      simpa using (hv.mine k c hc).2 h
  have hsome : ∀ {k}, O k → (t k).isSome := by
    intro k hk
    obtain ⟨c, g, hc, _⟩ := hv.full k hk
    rw [hc]; rfl
  have hG : ∀ {k}, (t k).isSome → ∃ c g, t k = some c ∧ G k = some g ∧ c.ent = g.ent := by
    intro k hk
    obtain ⟨c, hc⟩ := Option.isSome_iff_exists.1 hk
    obtain ⟨g, hg, e, _⟩ := hv.good.sub k c hc
    exact ⟨c, g, hc, hg, e⟩
  have hsink : ∀ c ∈ calls, (t c.sink).isSome := fun c hc => hsome ((hg c hc).chain _ List.suffix_rfl)
  have hok : CallsOk G Val angle dat calls := by
    constructor
    · exact fun c hc => ⟨hhere _ (hsink c hc), hhere _ (hsrc c hc)⟩
    · intro c hc
      obtain ⟨_, g1, _, h1, _⟩ := hG (hsink c hc)
      obtain ⟨_, g2, _, h2, _⟩ := hG (hsrc c hc)
      exact ⟨g1, g2, h1, h2⟩
    · intro c hc hf
      obtain ⟨h1, _, g1, g2, e1, e2, h3⟩ := (hg c hc).far hf
      refine ⟨h1, fun g1' g2' e1' e2' => ?_⟩
      rw [e1] at e1'; cases e1'
      rw [e2] at e2'; cases e2'
      exact h3
    · intro c hc hf g1 g2 e1 e2
      obtain ⟨⟨a, ha1, ha2⟩, ⟨b, hb1, hb2⟩⟩ := (hg c hc).near hf
      rw [e1] at ha1; cases ha1
      rw [e2] at hb1; cases hb1
      exact ⟨ha2, hb2⟩
  obtain ⟨F1, a1, a2, a3⟩ := fars_spec h hdat gc angle calls hok ⟨0, 0, 0, 0⟩
  obtain ⟨c0, hc0, _⟩ := hv.good.root
  obtain ⟨ks, k1, k2, k3⟩ := affectedNodes_spec h.tree hv.good p (isAffected t calls) fuel [] (by rw [hc0]; rfl) (fun x hx _ => by simpa using hfu x hx)
  have hks : ∀ k ∈ ks, (t k).isSome ∧ ∃ g, G k = some g ∧ g.ent = false := by
    intro k hk
    have h1 := ((k3 k).1 hk).2.2.1
    cases htk : t k with
    | none => rw [htk] at h1; simp at h1
    | some c =>
      rw [htk] at h1
      obtain ⟨g, hg, e, _⟩ := hv.good.sub k c htk
      exact ⟨rfl, g, hg, by rw [← e]; simpa using h1⟩
  obtain ⟨F2, b1, -, b3⟩ := downs_spec (nch := nch) (p := p) (fuel := fuel) (t := t) (S := fun k e => k <:+ e ∧ ∃ c, t e = some c ∧ c.ent = true ∧ c.owner = p) h hdat ks F1
    (fun k hk => ⟨hhere _ (hks k hk).1, (hks k hk).2⟩) (by
      intro k hk
      obtain ⟨l, l1, l2, l3⟩ := subEnts_spec h.tree hv.good p fuel k (hks k hk).1 fun x hx _ => by have := hfu x hx; omega
      refine ⟨l, l1, l2, l3, fun e he => ?_⟩
      obtain ⟨_, c, hc, hce, _⟩ := (l3 e).1 he
      obtain ⟨g, hg, e', _⟩ := hv.good.sub e c hc
      exact ⟨hhere _ (by rw [hc]; rfl), g, hg, by rw [← e']; exact hce⟩)
  obtain ⟨F3, d1, d3⟩ := nears_spec h hdat gc angle ids hids calls hok F2
  refine ⟨F3, ?_, ?_⟩
  · rw [gravity, a1, Option.bind_some, k1, Option.bind_some, b1]
    exact d1
  intro e he hch
  obtain ⟨ge, hge, hee⟩ := (mem_leaves h.tree).1 he
  have hS : ∀ k, (k <:+ e ∧ ∃ c, t e = some c ∧ c.ent = true ∧ c.owner = p) ↔ k <:+ e := by
    intro k
    refine and_iff_left ?_
    obtain ⟨c, g, hc, hg, _⟩ := hv.full e (hch e List.suffix_rfl)
    obtain ⟨g', hg', e', _⟩ := hv.good.sub e c hc
    rw [hge] at hg'; cases hg'
    exact ⟨c, hc, by rw [e']; exact hee, (hv.mine e c hc).2 (hch e List.suffix_rfl)⟩
  have hz : fld (⟨0, 0, 0, 0⟩ : Field d) e = 0 := rfl
  have hz' : ∀ k, coef (⟨0, 0, 0, 0⟩ : Field d) k = 0 := fun _ => rfl
  rw [d3, b3, a3, hz, zero_add]
  have hdown : (ks.map fun k => if (k <:+ e ∧ ∃ c, t e = some c ∧ c.ent = true ∧ c.owner = p) then shift (cen (Val e) - cen (Val k)) (coef F1 k) else 0).sum =
      (calls.map fun c => (ks.map fun k => if c.sink = k then (if k <:+ e ∧ c.isFar = true ∧ isEnt G c.sink = false then shift (cen (Val e) - cen (Val k)) (val Val gc c.sink c.source) else 0) else 0).sum).sum := by
    rw [← sum_comm_vec]
    congr 1
    apply List.map_congr_left
    intro k hk
    simp only [hS]
    by_cases hke : k <:+ e
    · rw [if_pos hke, a2, hz', zero_add, shift_sum]
      congr 1
      apply List.map_congr_left
      intro c _
      by_cases h1 : c.sink = k
      · rw [if_pos h1]
        by_cases h2 : c.isFar = true ∧ isEnt G c.sink = false
        · rw [if_pos ⟨h2.1, h1, h2.2⟩, if_pos ⟨hke, h2⟩]
        · rw [if_neg (fun hh => h2 ⟨hh.1, hh.2.2⟩), if_neg (fun hh => h2 hh.2)]
          exact shift_zero _
      · rw [if_neg h1, if_neg (fun hh => h1 hh.2.1)]
        exact shift_zero _
    · rw [if_neg hke]
      symm
      apply List.sum_eq_zero
      intro y hy
      obtain ⟨c, _, rfl⟩ := List.mem_map.1 hy
      simp [hke]
  rw [hdown, ← List.sum_map_add, ← List.sum_map_add]
  congr 1
  apply List.map_congr_left
  intro c hc
  have hgc := hg c hc
  obtain ⟨c1, g1, ht1, hg1, he1⟩ := hG (hsink c hc)
  cases hk1 : g1.ent with
  | true =>
    have hi : isEnt G c.sink = true := by simp [isEnt, hg1, hk1]
    have hzero : (ks.map fun k => if c.sink = k then (if k <:+ e ∧ c.isFar = true ∧ isEnt G c.sink = false then shift (cen (Val e) - cen (Val k)) (val Val gc c.sink c.source) else 0) else 0).sum = 0 := by
      apply List.sum_eq_zero
      intro y hy
      obtain ⟨k, _, rfl⟩ := List.mem_map.1 hy
      simp [hi]
    rw [hzero, add_zero]
    have hiff : c.sink <:+ e ↔ c.sink = e := ⟨fun hs => leaf_suffix h.tree hg1 hk1 hs (by rw [hge]; rfl), fun hs => by rw [hs]⟩
    by_cases hse : c.sink = e
    · have hsh : shift (cen (Val e) - cen (Val c.sink)) (val Val gc c.sink c.source) = val Val gc c.sink c.source := by
        rw [hse]
        exact shift_self _ _ _ _
      cases hf : c.isFar with
      | true =>
        rw [if_pos ⟨rfl, hse, hi⟩, if_neg (by simp), add_zero, if_pos ⟨hiff.2 hse, fun hh => (hgc.far hf).2.1 hh.symm⟩, hsh]
      | false =>
        rw [if_neg (by simp), zero_add]
        by_cases hss : c.source = c.sink
        · rw [if_neg (by simp [hss]), if_neg (by simp [hss])]
        · rw [if_pos ⟨rfl, hse, hss⟩, if_pos ⟨hiff.2 hse, hss⟩, hsh]
    · rw [if_neg (fun hh => hse hh.2.1), if_neg (fun hh => hse hh.2.1), if_neg (fun hh => hse (hiff.1 hh.1)), add_zero]
  | false =>
    have hi : isEnt G c.sink = false := by simp [isEnt, hg1, hk1]
    have hf : c.isFar = true := by
      cases hf : c.isFar with
      | true => rfl
      | false =>
        obtain ⟨⟨g, hgs, hge⟩, _⟩ := hgc.near hf
        rw [hg1] at hgs; cases hgs
        rw [hk1] at hge; cases hge
    have hin : c.sink ∈ ks := by
      refine (k3 _).2 ⟨List.nil_suffix, fun a _ ha => hown.2 (hgc.chain a ha), by rw [ht1]; simp [he1, hk1], ?_⟩
      unfold isAffected
      rw [ht1]
      simp only [Option.map_some, he1, hk1, decide_true, Bool.true_and, List.any_eq_true]
      exact ⟨c, hc, by simp [hf]⟩
    rw [if_neg (by simp [hi]), zero_add, if_neg (by simp [hf]), add_zero,
      pick ks k2 c.sink hin (fun k => if k <:+ e ∧ c.isFar = true ∧ isEnt G c.sink = false then shift (cen (Val e) - cen (Val k)) (val Val gc c.sink c.source) else 0)]
    by_cases hs : c.sink <:+ e
    · rw [if_pos ⟨hs, hf, hi⟩, if_pos ⟨hs, fun hh => (hgc.far hf).2.1 hh.symm⟩]
    · rw [if_neg (fun hh => hs hh.1), if_neg (fun hh => hs hh.1)]

/-- What a call adds per unit of mass of its source. -/
noncomputable def unit (Val : Key → Data d) (gc : ℝ) (e : Key) (x : Key × Key) : ℝ × Point d := shift (cen (Val e) - cen (Val x.1)) (grav gc (cen (Val x.1)) (cen (Val x.2)) 1)

theorem sum_one_call {V α : Type} [AddCommMonoid V] (l : List α) (q : α → Bool) (f : α → V) (v : V) (h1 : l.countP q = 1) (h : ∀ c ∈ l, q c = true → f c = v) :
    (l.map fun c => if q c = true then f c else 0).sum = v := by
  induction l with
  | nil => simp at h1
  | cons c l ih =>
    rw [List.map_cons, List.sum_cons]
    by_cases hc : q c = true
    · rw [List.countP_cons_of_pos hc] at h1
      have h0 : l.countP q = 0 := by omega
      rw [List.countP_eq_zero] at h0
      rw [if_pos hc, h c (List.mem_cons_self ..) hc]
      have : (l.map fun c => if q c = true then f c else 0).sum = 0 := by
        apply List.sum_eq_zero
        intro y hy
        obtain ⟨c', hc', rfl⟩ := List.mem_map.1 hy
        rw [if_neg (h0 c' hc')]
      rw [this, add_zero]
    · rw [List.countP_cons_of_neg hc] at h1
      rw [if_neg hc, zero_add]
      exact ih h1 (fun c' hc' => h c' (List.mem_cons_of_mem _ hc'))

/-- The pair of cells that acts between two leaves. -/
def Acts (G : Key → Option GCell) (mac bigger : Key → Key → Bool) (e f : Key) (x : Key × Key) : Prop := Reach G mac bigger x ∧ Final2 G mac x ∧ x.1 <:+ e ∧ x.2 <:+ f

/-- The field at a leaf as a sum over all other leaves: `u f` is the contribution of a unit mass at the leaf `f`, which is the one of the pair of cells that acts between the leaves. -/
theorem gravity_leaves (h : Geo nch G cells Val) {p fuel : Nat} {O : Key → Prop} {t : Table} (hv : View G O p t) (hfu : ∀ k ∈ cells, k.length < fuel) {dat : DataTable d}
    (hdat : ∀ k v, dat k = some v → v = Val k) (hhere : ∀ k, (t k).isSome → (dat k).isSome) (gc angle : ℝ) (ids : Key → Int)
    (hids : ∀ e ∈ leaves G cells, ∀ f ∈ leaves G cells, ids e = ids f → e = f) {calls : List Ghosts.Call} (hg : ∀ c ∈ calls, GoodCall G (macOf Val angle) O c)
    (hsrc : ∀ c ∈ calls, (t c.source).isSome) (hreach : ∀ c ∈ calls, Reach G (macOf Val angle) (biggerOf Val) (c.sink, c.source) ∧ Final2 G (macOf Val angle) (c.sink, c.source))
    (hcount : ∀ e ∈ leaves G cells, ∀ f ∈ leaves G cells, (∀ a, a <:+ e → O a) → calls.countP (covC e f) = 1) :
    ∃ F, gravity nch p t dat gc ids fuel calls = some F ∧ ∀ e ∈ leaves G cells, (∀ a, a <:+ e → O a) →
      ∃ u : Key → ℝ × Point d, fld F e = ∑ f ∈ (leaves G cells).erase e, wgt (Val f) • u f ∧
        ∀ f ∈ (leaves G cells).erase e, ∃ x, Acts G (macOf Val angle) (biggerOf Val) e f x ∧ u f = unit Val gc e x := by
  classical
  obtain ⟨F, hF, hfld⟩ := gravity_calls h hv hfu hdat hhere gc angle ids hids hg hsrc
  refine ⟨F, hF, fun e he hch => ?_⟩
  have hex : ∀ f ∈ leaves G cells, ∃ c ∈ calls, covC e f c = true := by
    intro f hf
    have h1 := hcount e he f hf hch
    exact List.countP_pos_iff.1 (by omega)
  obtain ⟨u, hu⟩ : ∃ u : Key → ℝ × Point d, ∀ f, u f = if hf : f ∈ leaves G cells then unit Val gc e ((hex f hf).choose.sink, (hex f hf).choose.source) else 0 := ⟨_, fun _ => rfl⟩
  have huc : ∀ f ∈ leaves G cells, ∀ c ∈ calls, covC e f c = true → u f = unit Val gc e (c.sink, c.source) := by
    intro f hf c hc hcov
    rw [hu, dif_pos hf]
    obtain ⟨hc', hcov'⟩ := (hex f hf).choose_spec
    have := reach_unique (hreach _ hc').1 (hreach c hc).1 (hreach _ hc').2 (hreach c hc).2 (covT_iff.1 hcov') (covT_iff.1 hcov)
    rw [this]
  have hmemc : ∀ c ∈ calls, c.source ∈ cells := by
    intro c hc
    obtain ⟨cc, hcc⟩ := Option.isSome_iff_exists.1 (hsrc c hc)
    obtain ⟨g, hgg, _⟩ := hv.good.sub _ cc hcc
    exact (h.tree.mem _).2 (by rw [hgg]; rfl)
  refine ⟨u, ?_, ?_⟩
  · rw [hfld e he hch]
    -- each call is a sum over the leaves of its source
    have hcall : ∀ c ∈ calls, (if c.sink <:+ e ∧ c.source ≠ c.sink then shift (cen (Val e) - cen (Val c.sink)) (val Val gc c.sink c.source) else 0) =
        ∑ f ∈ (leaves G cells).erase e, wgt (Val f) • (if covC e f c = true then unit Val gc e (c.sink, c.source) else 0) := by
      intro c hc
      by_cases hs : c.sink <:+ e
      · by_cases hss : c.source = c.sink
        · rw [if_neg (by simp [hss])]
          symm
          apply Finset.sum_eq_zero
          intro f hf
          rw [if_neg, smul_zero]
          intro hcov
          have h2 := (covT_iff.1 hcov).2
          -- an entity paired with itself
          obtain ⟨_, hfin⟩ := hreach c hc
          rw [Finset.mem_erase] at hf
          rcases hfin with ⟨⟨g, hg1, hg2⟩, _⟩ | ⟨hne, _⟩
          · obtain ⟨ge, hge, _⟩ := (mem_leaves h.tree).1 he
            obtain ⟨gf, hgf, _⟩ := (mem_leaves h.tree).1 hf.2
            have e1 := leaf_suffix h.tree hg1 hg2 hs (by rw [hge]; rfl)
            simp only [hss] at h2
            have e2 := leaf_suffix h.tree hg1 hg2 h2 (by rw [hgf]; rfl)
            exact hf.1 (e2.symm.trans e1)
          · exact hne hss.symm
        · rw [if_pos ⟨hs, hss⟩]
          have hnot : ¬ c.source <:+ e := by
            rcases reach_apart (hreach c hc).1 with hh | hh
            · exact absurd hh.symm hss
            · exact fun h2 => hh e ⟨hs, h2⟩
          have hval : val Val gc c.sink c.source = wgt (Val c.source) • grav gc (cen (Val c.sink)) (cen (Val c.source)) 1 := grav_smul _ _ _ _
          rw [hval, shift_smul, h.mass _ (hmemc c hc), Finset.sum_smul, Finset.sum_filter]
          rw [← Finset.sum_erase (a := e) (f := fun a => if c.source <:+ a then wgt (Val a) • shift (cen (Val e) - cen (Val c.sink)) (grav gc (cen (Val c.sink)) (cen (Val c.source)) 1) else 0) (leaves G cells) (if_neg hnot)]
          · apply Finset.sum_congr rfl
            intro f _
            by_cases hf : c.source <:+ f
            · rw [if_pos hf, if_pos (show covC e f c = true from covT_iff.2 ⟨hs, hf⟩)]
              rfl
            · rw [if_neg hf, if_neg (fun hh : covC e f c = true => hf (covT_iff.1 hh).2), smul_zero]
      · rw [if_neg (fun hh => hs hh.1)]
        symm
        apply Finset.sum_eq_zero
        intro f _
        rw [if_neg (fun hh : covC e f c = true => hs (covT_iff.1 hh).1), smul_zero]
    rw [List.map_congr_left hcall]
    have hswap : ∀ l : List Ghosts.Call, (l.map fun c => ∑ f ∈ (leaves G cells).erase e, wgt (Val f) • (if covC e f c = true then unit Val gc e (c.sink, c.source) else 0)).sum =
        ∑ f ∈ (leaves G cells).erase e, wgt (Val f) • (l.map fun c => if covC e f c = true then unit Val gc e (c.sink, c.source) else 0).sum := by
      intro l
      induction l with
      | nil => simp
      | cons c l ih =>
        rw [List.map_cons, List.sum_cons, ih, ← Finset.sum_add_distrib]
        apply Finset.sum_congr rfl
        intro f _
        rw [List.map_cons, List.sum_cons, smul_add]
    rw [hswap]
    apply Finset.sum_congr rfl
    intro f hf
    have hf' := Finset.mem_of_mem_erase hf
    rw [sum_one_call calls (covC e f) (fun c => unit Val gc e (c.sink, c.source)) (u f) (hcount e he f hf' hch) (fun c hc hcov => (huc f hf' c hc hcov).symm)]
  · intro f hf
    have hf' := Finset.mem_of_mem_erase hf
    obtain ⟨c, hc, hcov⟩ := hex f hf'
    exact ⟨(c.sink, c.source), ⟨(hreach c hc).1, (hreach c hc).2, (covT_iff.1 hcov).1, (covT_iff.1 hcov).2⟩, huc f hf' c hc hcov⟩

end FleCSPH.DistGravity
