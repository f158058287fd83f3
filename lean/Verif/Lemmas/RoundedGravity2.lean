import Verif.Lemmas.RoundedGravity
/-! Lemmas for C94: the rounded field at a leaf against the sum over the calls, and this sum as a sum over the other leaves. -/
namespace FleCSPH.Rounded
open FleCSPH.Geometry FleCSPH.Cofm FleCSPH.Startup FleCSPH.Ghosts FleCSPH.DistGravity
open FleCSPH.Fmm (grav shift distance_eq_zero shift_add shift_zero sum_comm_vec)

variable {d nch E P : Nat} {R : Rounding} {G : Key → Option GCell} {cells : Finset Key} {Val : Key → Data d} {M : Key → ℝ}

theorem downs_err (h : GeoR R nch G cells Val M E P) {p fuel : Nat} {t : Table} {dat : DataTable d} (hdat : ∀ k v, dat k = some v → v = Val k) {S : Key → Key → Prop} [∀ k, DecidablePred (S k)]
    (a : Key → Nat) (v s : Key → ℝ × Point d) :
    ∀ (ks : List Key) (F : Field d) (b : Key → Nat) (w z : Key → ℝ × Point d), (∀ k ∈ ks, (dat k).isSome ∧ ∃ g, G k = some g ∧ g.ent = false) →
      (∀ k ∈ ks, ∃ l, subEnts nch p t fuel k = some l ∧ l.Nodup ∧ (∀ e, e ∈ l ↔ S k e) ∧ ∀ e ∈ l, (dat e).isSome ∧ ∃ g, G e = some g ∧ g.ent = true) →
      (∀ k, ErrV R (a k) (v k) (coef F k) (s k)) → (∀ k ∈ ks, ∀ e, S k e → a k + 2 + d ≤ b e) → (∀ e, ErrV R (b e) (w e) (fld F e) (z e)) →
      ∃ F', downs R nch p t dat fuel ks F = some F' ∧
        ∀ e, ErrV R (b e + ks.countP (fun k => decide (S k e))) (w e + (ks.map fun k => if S k e then shift (cen (Val e) - cen (Val k)) (v k) else 0).sum) (fld F' e)
          (z e + (ks.map fun k => if S k e then shiftS (cen (Val e) - cen (Val k)) (s k) else 0).sum) := by
  intro ks
  induction ks with
  | nil => intro F b w z _ _ _ _ hF; exact ⟨F, rfl, by simpa using hF⟩
  | cons k ks ih =>
    intro F b w z hk hs hco hb hF
    obtain ⟨hdk, g, hg, he⟩ := hk k (List.mem_cons_self ..)
    obtain ⟨l, l1, l2, l3, l4⟩ := hs k (List.mem_cons_self ..)
    obtain ⟨F1, a1, a2, a3⟩ := c2p_err h hdat hg he hdk (a k) (v k) (s k) l F b w z l2 l4 (hco k) (fun e he => hb k (List.mem_cons_self ..) e ((l3 e).1 he)) hF
    obtain ⟨F2, b1, b3⟩ := ih F1 _ _ _ (fun k' hk' => hk k' (List.mem_cons_of_mem _ hk')) (fun k' hk' => hs k' (List.mem_cons_of_mem _ hk')) (fun k' => by rw [a2]; exact hco k')
      (fun k' hk' e he => (hb k' (List.mem_cons_of_mem _ hk') e he).trans (Nat.le_add_right _ _)) a3
    refine ⟨F2, ?_, fun e => ?_⟩
    · rw [downs, l1, Option.bind_some, a1]
      exact b1
    · have := b3 e
      simp only [l3] at this
      rw [List.countP_cons, List.map_cons, List.sum_cons, List.map_cons, List.sum_cons]
      simp only [decide_eq_true_eq, ← add_assoc]
      rw [add_right_comm]
      exact this

/-- The three parts of a field at a leaf as one sum over the calls above it. -/
theorem combine {V : Type} [AddCommMonoid V] (hT : IsTree nch G cells) {ks : List Key} (hks : ks.Nodup) {calls : List Ghosts.Call} {e : Key} (he : e ∈ leaves G cells)
    (hsink : ∀ c ∈ calls, ∃ g, G c.sink = some g) (hnear : ∀ c ∈ calls, c.isFar = false → isEnt G c.sink = true) (hfar : ∀ c ∈ calls, c.isFar = true → c.source ≠ c.sink)
    (hin : ∀ c ∈ calls, c.isFar = true → isEnt G c.sink = false → c.sink ∈ ks) (val : Ghosts.Call → V) (sh : Key → V →+ V) (hself : ∀ c ∈ calls, c.sink = e → sh e (val c) = val c) :
    total (toEnt G e) val calls + (ks.map fun k => if k <:+ e then sh k (total (toCoef G k) val calls) else 0).sum + total (toNear e) val calls =
      (calls.map fun c => if c.sink <:+ e ∧ c.source ≠ c.sink then sh c.sink (val c) else 0).sum := by
  obtain ⟨ge, hge, hee⟩ := (mem_leaves hT).1 he
  have hdown : (ks.map fun k => if k <:+ e then sh k (total (toCoef G k) val calls) else 0).sum =
      (calls.map fun c => (ks.map fun k => if c.sink = k then (if k <:+ e ∧ c.isFar = true ∧ isEnt G c.sink = false then sh k (val c) else 0) else 0).sum).sum := by
    rw [← sum_comm_vec]
    congr 1
    apply List.map_congr_left
    intro k hk
    by_cases hke : k <:+ e
    · rw [if_pos hke, total, map_list_sum, List.map_map]
      congr 1
      apply List.map_congr_left
      intro c _
      simp only [Function.comp_apply, toCoef, decide_eq_true_eq]
      by_cases h1 : c.sink = k
      · rw [if_pos h1]
        by_cases h2 : c.isFar = true ∧ isEnt G c.sink = false
        · rw [if_pos ⟨h2.1, h1, h2.2⟩, if_pos ⟨hke, h2⟩]
        · rw [if_neg (fun hh => h2 ⟨hh.1, hh.2.2⟩), if_neg (fun hh => h2 hh.2)]
          exact map_zero _
      · rw [if_neg h1, if_neg (fun hh => h1 hh.2.1)]
        exact map_zero _
    · rw [if_neg hke]
      symm
      apply List.sum_eq_zero
      intro y hy
      obtain ⟨c, _, rfl⟩ := List.mem_map.1 hy
      simp [hke]
  rw [hdown, total, total, ← List.sum_map_add, ← List.sum_map_add]
  congr 1
  apply List.map_congr_left
  intro c hc
  simp only [toEnt, toNear, decide_eq_true_eq]
  obtain ⟨g1, hg1⟩ := hsink c hc
  cases hk1 : g1.ent with
  | true =>
    have hi : isEnt G c.sink = true := by simp [isEnt, hg1, hk1]
    have hzero : (ks.map fun k => if c.sink = k then (if k <:+ e ∧ c.isFar = true ∧ isEnt G c.sink = false then sh k (val c) else 0) else 0).sum = 0 := by
      apply List.sum_eq_zero
      intro y hy
      obtain ⟨k, _, rfl⟩ := List.mem_map.1 hy
      simp [hi]
    rw [hzero, add_zero]
    have hiff : c.sink <:+ e ↔ c.sink = e := ⟨fun hs => leaf_suffix hT hg1 hk1 hs (by rw [hge]; rfl), fun hs => by rw [hs]⟩
    by_cases hse : c.sink = e
    · have hsh : sh c.sink (val c) = val c := by
        have := hself c hc hse
        rwa [hse]
      cases hf : c.isFar with
      | true =>
        rw [if_pos ⟨rfl, hse, hi⟩, if_neg (by simp), add_zero, if_pos ⟨hiff.2 hse, hfar c hc hf⟩, hsh]
      | false =>
        rw [if_neg (by simp), zero_add]
        by_cases hss : c.source = c.sink
        · rw [if_neg (by simp [hss]), if_neg (by simp [hss])]
        · rw [if_pos ⟨rfl, hse, hss⟩, if_pos ⟨hiff.2 hse, hss⟩, hsh]
    · rw [if_neg (fun hh => hse hh.2.1), if_neg (fun hh => hse hh.2.1), if_neg (fun hh => hse (hiff.1 hh.1)), add_zero]
  | false =>
    have hi : isEnt G c.sink = false := by simp [isEnt, hg1, hk1]
    have hf : c.isFar = true := by
      cases hf : c.isFar with
      | true => rfl
      | false => rw [hnear c hc hf] at hi; cases hi
    rw [if_neg (by simp [hi]), zero_add, if_neg (by simp [hf]), add_zero,
      pick ks hks c.sink (hin c hc hf hi) (fun k => if k <:+ e ∧ c.isFar = true ∧ isEnt G c.sink = false then sh k (val c) else 0)]
    by_cases hs : c.sink <:+ e
    · rw [if_pos ⟨hs, hf, hi⟩, if_pos ⟨hs, hfar c hc hf⟩]
    · rw [if_neg (fun hh => hs hh.1), if_neg (fun hh => hs hh.1)]

noncomputable def shiftHom (r : Point d) : (ℝ × Point d) →+ (ℝ × Point d) := ⟨⟨shift r, shift_zero r⟩, shift_add r⟩

noncomputable def shiftSHom (r : Point d) : (ℝ × Point d) →+ (ℝ × Point d) where
  toFun := shiftS r
  map_zero' := by simp [shiftS]
  map_add' g h := by
    apply Prod.ext
    · simp only [shiftS, Prod.fst_add, Prod.snd_add, Pi.add_apply, mul_add, Finset.sum_add_distrib]; ring
    · rfl

/-- The calls that act on a leaf. -/
def acting (e : Key) (c : Ghosts.Call) : Bool := decide (c.sink <:+ e ∧ c.source ≠ c.sink)

theorem gravity_err (h : GeoR R nch G cells Val M E P) (hd : d ≤ 3) (hu : 46 * R.u ≤ 1) {p fuel : Nat} {O : Key → Prop} {t : Table} (hv : View G O p t) (hfu : ∀ k ∈ cells, k.length < fuel) {dat : DataTable d}
    (hdat : ∀ k v, dat k = some v → v = Val k) (hhere : ∀ k, (t k).isSome → (dat k).isSome) (gc angle : ℝ) (ids : Key → Int)
    (hids : ∀ e ∈ leaves G cells, ∀ f ∈ leaves G cells, ids e = ids f → e = f) {calls : List Ghosts.Call} (hg : ∀ c ∈ calls, GoodCall G (macOf R Val angle) O c)
    (hsrc : ∀ c ∈ calls, (t c.source).isSome) :
    ∃ F, gravity R nch p t dat gc ids fuel calls = some F ∧ ∀ e ∈ leaves G cells, (∀ a, a <:+ e → O a) →
      ErrV R (E + 52 + d + e.length + calls.countP (acting e)) (calls.map fun c => if c.sink <:+ e ∧ c.source ≠ c.sink then shift (cen (Val e) - cen (Val c.sink)) (valR Val M gc c.sink c.source) else 0).sum
        (fld F e) (calls.map fun c => if c.sink <:+ e ∧ c.source ≠ c.sink then shiftS (cen (Val e) - cen (Val c.sink)) (valS Val M gc c.sink c.source) else 0).sum := by
  classical
  have hown : ∀ {k}, (t k).map Cell.owner = some p ↔ O k := by
    intro k
    constructor
    · intro h
      cases hk : t k with
      | none => rw [hk] at h; simp at h
      | some c => rw [hk] at h; exact (hv.mine k c hk).1 (by simpa using h)
    · intro h
      obtain ⟨c, g, hc, _⟩ := hv.full k h
      rw [hc]
      simpa using (hv.mine k c hc).2 h
  have hsome : ∀ {k}, O k → (t k).isSome := by
    intro k hk
    obtain ⟨c, g, hc, _⟩ := hv.full k hk
    rw [hc]; rfl
  have hG : ∀ {k}, (t k).isSome → ∃ c g, t k = some c ∧ G k = some g ∧ c.ent = g.ent := by
    intro k hk
    obtain ⟨c, hc⟩ := Option.isSome_iff_exists.1 hk
    obtain ⟨g, hg, e, _⟩ := hv.good.sub k c hc
    exact ⟨c, g, hc, hg, e⟩
  have hsink : ∀ c ∈ calls, (t c.sink).isSome := fun c hc => hsome ((hg c hc).chain _ List.suffix_rfl)
  have hok : CallsOk R G Val angle dat calls := by
    constructor
    · exact fun c hc => ⟨hhere _ (hsink c hc), hhere _ (hsrc c hc)⟩
    · intro c hc
      obtain ⟨_, g1, _, h1, _⟩ := hG (hsink c hc)
      obtain ⟨_, g2, _, h2, _⟩ := hG (hsrc c hc)
      exact ⟨g1, g2, h1, h2⟩
    · intro c hc hf
      obtain ⟨h1, _, g1, g2, e1, e2, h3⟩ := (hg c hc).far hf
      refine ⟨h1, fun g1' g2' e1' e2' => ?_⟩
      rw [e1] at e1'; cases e1'
      rw [e2] at e2'; cases e2'
      exact h3
    · intro c hc hf g1 g2 e1 e2
      obtain ⟨⟨a, ha1, ha2⟩, ⟨b, hb1, hb2⟩⟩ := (hg c hc).near hf
      rw [e1] at ha1; cases ha1
      rw [e2] at hb1; cases hb1
      exact ⟨ha2, hb2⟩
  -- calls with a far sink above `e`
  obtain ⟨A, hA⟩ : ∃ A : Key → Nat, ∀ e, A e = E + 50 + calls.countP (fun c => decide (c.isFar = true ∧ c.sink <:+ e)) := ⟨_, fun _ => rfl⟩
  obtain ⟨F1, a1, a2, a3⟩ := fars_err h hd hu hdat gc angle calls hok ⟨0, 0, 0, 0⟩ (fun _ => E + 50) (fun _ => E + 50) 0 0 0 0 (fun _ => ⟨le_rfl, le_rfl⟩) (fun _ => ErrV.zero _) (fun _ => ErrV.zero _)
  simp only [Pi.zero_apply, zero_add] at a2 a3
  obtain ⟨c0, hc0, _⟩ := hv.good.root
  obtain ⟨ks, k1, k2, k3⟩ := affectedNodes_spec h.tree hv.good p (isAffected t calls) fuel [] (by rw [hc0]; rfl) (fun x hx _ => by simpa using hfu x hx)
  have hks : ∀ k ∈ ks, (t k).isSome ∧ ∃ g, G k = some g ∧ g.ent = false := by
    intro k hk
    have h1 := ((k3 k).1 hk).2.2.1
    cases htk : t k with
    | none => rw [htk] at h1; simp at h1
    | some c =>
      rw [htk] at h1
      obtain ⟨g, hg, e, _⟩ := hv.good.sub k c htk
      exact ⟨rfl, g, hg, by rw [← e]; simpa using h1⟩
  have hcA : ∀ k e, k <:+ e → E + 50 + calls.countP (toCoef G k) ≤ A e := by
    intro k e hke
    rw [hA]
    refine Nat.add_le_add_left (List.countP_mono_left fun c _ hc => ?_) _
    simp only [toCoef, decide_eq_true_eq] at hc ⊢
    exact ⟨hc.1, by rw [hc.2.1]; exact hke⟩
  have hcE : ∀ e, E + 50 + calls.countP (toEnt G e) ≤ A e := by
    intro e
    rw [hA]
    refine Nat.add_le_add_left (List.countP_mono_left fun c _ hc => ?_) _
    simp only [toEnt, decide_eq_true_eq] at hc ⊢
    exact ⟨hc.1, by rw [hc.2.1]⟩
  obtain ⟨F2, b1, b3⟩ := downs_err (nch := nch) (p := p) (fuel := fuel) (t := t) (S := fun k e => k <:+ e ∧ ∃ c, t e = some c ∧ c.ent = true ∧ c.owner = p) h hdat _ _ _ ks F1 (fun e => A e + 2 + d) _ _
    (fun k hk => ⟨hhere _ (hks k hk).1, (hks k hk).2⟩) (by
      intro k hk
      obtain ⟨l, l1, l2, l3⟩ := subEnts_spec h.tree hv.good p fuel k (hks k hk).1 fun x hx _ => by have := hfu x hx; omega
      refine ⟨l, l1, l2, l3, fun e he => ?_⟩
      obtain ⟨_, c, hc, hce, _⟩ := (l3 e).1 he
      obtain ⟨g, hg, e', _⟩ := hv.good.sub e c hc
      exact ⟨hhere _ (by rw [hc]; rfl), g, hg, by rw [← e']; exact hce⟩) a2 (fun k _ e hke => by have := hcA k e hke.1; omega)
    (fun e => (a3 e).mono (by have := hcE e; omega))
  obtain ⟨F3, d1, d3⟩ := nears_err h hd hu hdat gc angle ids hids calls hok F2 _ _ _ (fun e => by simp only [hA]; omega) b3
  refine ⟨F3, ?_, ?_⟩
  · rw [gravity, a1, Option.bind_some, k1, Option.bind_some, b1]
    exact d1
  intro e he hch
  obtain ⟨ge, hge, hee⟩ := (mem_leaves h.tree).1 he
  have hS : ∀ k, (k <:+ e ∧ ∃ c, t e = some c ∧ c.ent = true ∧ c.owner = p) ↔ k <:+ e := by
    intro k
    refine and_iff_left ?_
    obtain ⟨c, g, hc, hg, _⟩ := hv.full e (hch e List.suffix_rfl)
    obtain ⟨g', hg', e', _⟩ := hv.good.sub e c hc
    rw [hge] at hg'; cases hg'
    exact ⟨c, hc, by rw [e']; exact hee, (hv.mine e c hc).2 (hch e List.suffix_rfl)⟩
  have hfin := d3 e
  simp only [hS] at hfin
  have hnear : ∀ c ∈ calls, c.isFar = false → isEnt G c.sink = true := by
    intro c hc hf
    obtain ⟨⟨g, hgs, hge⟩, _⟩ := (hg c hc).near hf
    simp [isEnt, hgs, hge]
  have hfar : ∀ c ∈ calls, c.isFar = true → c.source ≠ c.sink := fun c hc hf hh => ((hg c hc).far hf).2.1 hh.symm
  have hin : ∀ c ∈ calls, c.isFar = true → isEnt G c.sink = false → c.sink ∈ ks := by
    intro c hc hf hi
    obtain ⟨c1, g1, ht1, hg1, he1⟩ := hG (hsink c hc)
    have hk1 : g1.ent = false := by
      cases hk1 : g1.ent with
      | false => rfl
      | true => simp [isEnt, hg1, hk1] at hi
    refine (k3 _).2 ⟨List.nil_suffix, fun a _ ha => hown.2 ((hg c hc).chain a ha), by rw [ht1]; simp [he1, hk1], ?_⟩
    unfold isAffected
    rw [ht1]
    simp only [Option.map_some, he1, hk1, decide_true, Bool.true_and, List.any_eq_true]
    exact ⟨c, hc, by simp [hf]⟩
  have hsinkG : ∀ c ∈ calls, ∃ g, G c.sink = some g := fun c hc => by
    obtain ⟨_, g, _, hg, _⟩ := hG (hsink c hc)
    exact ⟨g, hg⟩
  have s1 := combine h.tree k2 he hsinkG hnear hfar hin (fun c => valR Val M gc c.sink c.source) (fun k => shiftHom (cen (Val e) - cen (Val k))) (fun c _ hc => by
    show shift _ (valR Val M gc c.sink c.source) = _
    rw [← hc]
    exact shift_self _ _ _ _)
  have s2 := combine h.tree k2 he hsinkG hnear hfar hin (fun c => valS Val M gc c.sink c.source) (fun k => shiftSHom (cen (Val e) - cen (Val k))) (fun c _ hc => by
    show shiftS _ (valS Val M gc c.sink c.source) = _
    rw [← hc, sub_self]
    simp [shiftS])
  have e1 := s1.symm
  have e2 := s2.symm
  simp only [shiftHom, shiftSHom, AddMonoidHom.coe_mk, ZeroHom.coe_mk] at e1 e2
  rw [e1, e2]
  refine hfin.mono ?_
  have n1 : ∀ q : Key → Bool, (∀ k, q k = true ↔ k <:+ e) → ks.countP q ≤ e.length := by
    intro q hq
    rw [List.countP_eq_length_filter]
    have hnd : ((ks.filter q).map List.length).Nodup := by
      refine List.Nodup.map_on (fun x hx y hy hxy => ?_) (k2.filter _)
      have hx := (List.mem_filter.1 hx).2
      have hy := (List.mem_filter.1 hy).2
      rw [hq] at hx hy
      exact List.suffix_of_suffix_length_le hx hy hxy.le |>.eq_of_length hxy
    have hsub : ((ks.filter q).map List.length) ⊆ List.range e.length := by
      intro n hn
      obtain ⟨k, hk, rfl⟩ := List.mem_map.1 hn
      obtain ⟨hk1, hk2⟩ := List.mem_filter.1 hk
      rw [hq] at hk2
      rw [List.mem_range]
      refine lt_of_le_of_ne hk2.length_le fun hl => ?_
      have := hk2.eq_of_length hl
      obtain ⟨-, g, g1, g2⟩ := hks k hk1
      rw [this, hge] at g1
      cases g1
      rw [hee] at g2; cases g2
    have := (hnd.subperm hsub).length_le
    rwa [List.length_map, List.length_range] at this
  have n2 : ∀ l : List Ghosts.Call, (∀ c ∈ l, c ∈ calls) → l.countP (fun c => decide (c.isFar = true ∧ c.sink <:+ e)) + l.countP (toNear e) ≤ l.countP (acting e) := by
    intro l
    induction l with
    | nil => intro _; simp
    | cons c l ih =>
      intro hl
      have h1 := ih fun c hc => hl c (List.mem_cons_of_mem _ hc)
      have h2 := hfar c (hl c (List.mem_cons_self ..))
      rw [List.countP_cons, List.countP_cons, List.countP_cons]
      have : (if decide (c.isFar = true ∧ c.sink <:+ e) = true then 1 else 0) + (if toNear e c = true then 1 else 0) ≤ if acting e c = true then 1 else 0 := by
        simp only [toNear, acting, decide_eq_true_eq]
        cases hf : c.isFar with
        | true =>
          by_cases hs : c.sink <:+ e
          · simp [hs, h2 hf]
          · simp [hs]
        | false =>
          by_cases hs : c.sink = e ∧ c.source ≠ c.sink
          · rw [if_neg (by simp), if_pos ⟨rfl, hs⟩, if_pos ⟨by rw [hs.1], hs.2⟩]
          · rw [if_neg (by simp), if_neg (fun hh => hs hh.2)]
            exact Nat.zero_le _
      omega
  have n2 := n2 calls fun _ hc => hc
  have := hA e
  refine le_trans (Nat.add_le_add_right (Nat.add_le_add_left (n1 _ fun k => decide_eq_true_iff) _) _) ?_
  omega

/-- A sum over the calls that act on a leaf as a sum over the other leaves: the pair of cells that acts between two leaves is counted once. -/
theorem calls_leaves {V : Type} [AddCommGroup V] [Module ℝ V] (hT : IsTree nch G cells) {mac bigger : Key → Key → Bool} {calls : List Ghosts.Call} {w : Key → ℝ}
    (hmass : ∀ c ∈ calls, M c.source = ∑ f ∈ leaves G cells with c.source <:+ f, w f)
    (hreach : ∀ c ∈ calls, Reach G mac bigger (c.sink, c.source) ∧ Final2 G mac (c.sink, c.source)) {e : Key} (he : e ∈ leaves G cells)
    (hcount : ∀ f ∈ leaves G cells, calls.countP (covC e f) = 1) :
    ∃ x : Key → Key × Key, (∀ f ∈ (leaves G cells).erase e, Acts G mac bigger e f (x f) ∧ ∃ c ∈ calls, x f = (c.sink, c.source)) ∧
      ∀ g : Key × Key → V, (calls.map fun c => if c.sink <:+ e ∧ c.source ≠ c.sink then M c.source • g (c.sink, c.source) else 0).sum = ∑ f ∈ (leaves G cells).erase e, w f • g (x f) := by
  classical
  have hex : ∀ f ∈ leaves G cells, ∃ c ∈ calls, covC e f c = true := by
    intro f hf
    have h1 := hcount f hf
    exact List.countP_pos_iff.1 (by omega)
  obtain ⟨x, hx⟩ : ∃ x : Key → Key × Key, ∀ f, x f = if hf : f ∈ leaves G cells then ((hex f hf).choose.sink, (hex f hf).choose.source) else ([], []) := ⟨_, fun _ => rfl⟩
  have hxc : ∀ f ∈ leaves G cells, ∀ c ∈ calls, covC e f c = true → x f = (c.sink, c.source) := by
    intro f hf c hc hcov
    rw [hx, dif_pos hf]
    obtain ⟨hc', hcov'⟩ := (hex f hf).choose_spec
    exact reach_unique (hreach _ hc').1 (hreach c hc).1 (hreach _ hc').2 (hreach c hc).2 (covT_iff.1 hcov') (covT_iff.1 hcov)
  refine ⟨x, ?_, ?_⟩
  · intro f hf
    have hf' := Finset.mem_of_mem_erase hf
    obtain ⟨c, hc, hcov⟩ := hex f hf'
    rw [hxc f hf' c hc hcov]
    exact ⟨⟨(hreach c hc).1, (hreach c hc).2, (covT_iff.1 hcov).1, (covT_iff.1 hcov).2⟩, c, hc, rfl⟩
  intro g
  have hcall : ∀ c ∈ calls, (if c.sink <:+ e ∧ c.source ≠ c.sink then M c.source • g (c.sink, c.source) else 0) =
      ∑ f ∈ (leaves G cells).erase e, w f • (if covC e f c = true then g (c.sink, c.source) else 0) := by
    intro c hc
    by_cases hs : c.sink <:+ e
    · by_cases hss : c.source = c.sink
      · rw [if_neg (by simp [hss])]
        symm
        apply Finset.sum_eq_zero
        intro f hf
        rw [if_neg, smul_zero]
        intro hcov
        have h2 := (covT_iff.1 hcov).2
        obtain ⟨_, hfin⟩ := hreach c hc
        rw [Finset.mem_erase] at hf
        rcases hfin with ⟨⟨g, hg1, hg2⟩, _⟩ | ⟨hne, _⟩
        · obtain ⟨ge, hge, _⟩ := (mem_leaves hT).1 he
          obtain ⟨gf, hgf, _⟩ := (mem_leaves hT).1 hf.2
          have e1 := leaf_suffix hT hg1 hg2 hs (by rw [hge]; rfl)
          simp only [hss] at h2
          have e2 := leaf_suffix hT hg1 hg2 h2 (by rw [hgf]; rfl)
          exact hf.1 (e2.symm.trans e1)
        · exact hne hss.symm
      · rw [if_pos ⟨hs, hss⟩]
        have hnot : ¬ c.source <:+ e := by
          rcases reach_apart (hreach c hc).1 with hh | hh
          · exact absurd hh.symm hss
          · exact fun h2 => hh e ⟨hs, h2⟩
        rw [hmass c hc, Finset.sum_smul, Finset.sum_filter,
          ← Finset.sum_erase (a := e) (f := fun a => if c.source <:+ a then w a • g (c.sink, c.source) else 0) (leaves G cells) (if_neg hnot)]
        apply Finset.sum_congr rfl
        intro f _
        by_cases hf : c.source <:+ f
        · rw [if_pos hf, if_pos (show covC e f c = true from covT_iff.2 ⟨hs, hf⟩)]
        · rw [if_neg hf, if_neg (fun hh : covC e f c = true => hf (covT_iff.1 hh).2), smul_zero]
    · rw [if_neg (fun hh => hs hh.1)]
      symm
      apply Finset.sum_eq_zero
      intro f _
      rw [if_neg (fun hh : covC e f c = true => hs (covT_iff.1 hh).1), smul_zero]
  rw [List.map_congr_left hcall]
  have hswap : ∀ l : List Ghosts.Call, (l.map fun c => ∑ f ∈ (leaves G cells).erase e, w f • (if covC e f c = true then g (c.sink, c.source) else 0)).sum =
      ∑ f ∈ (leaves G cells).erase e, w f • (l.map fun c => if covC e f c = true then g (c.sink, c.source) else 0).sum := by
    intro l
    induction l with
    | nil => simp
    | cons c l ih =>
      rw [List.map_cons, List.sum_cons, ih, ← Finset.sum_add_distrib]
      apply Finset.sum_congr rfl
      intro f _
      rw [List.map_cons, List.sum_cons, smul_add]
  rw [hswap]
  apply Finset.sum_congr rfl
  intro f hf
  have hf' := Finset.mem_of_mem_erase hf
  rw [sum_one_call calls (covC e f) (fun c => g (c.sink, c.source)) (g (x f)) (hcount f hf') (fun c hc hcov => by rw [hxc f hf' c hc hcov])]

/-- The calls that act on a leaf are not more than the other leaves. -/
theorem count_acting {mac bigger : Key → Key → Bool} {calls : List Ghosts.Call} (hreach : ∀ c ∈ calls, Reach G mac bigger (c.sink, c.source)) 
    (hbelow : ∀ c ∈ calls, ∃ f ∈ leaves G cells, c.source <:+ f) {e : Key} (hcount : ∀ f ∈ leaves G cells, calls.countP (covC e f) = 1) :
    calls.countP (acting e) ≤ ((leaves G cells).erase e).card := by
  have hl : ∀ l : List Ghosts.Call, (∀ c ∈ l, c ∈ calls) → l.countP (acting e) ≤ ∑ f ∈ (leaves G cells).erase e, l.countP (covC e f) := by
    intro l
    induction l with
    | nil => intro _; simp
    | cons c l ih =>
      intro hl
      have h1 := ih fun c hc => hl c (List.mem_cons_of_mem _ hc)
      simp only [List.countP_cons, Finset.sum_add_distrib]
      refine Nat.add_le_add h1 ?_
      split_ifs with ha
      · simp only [acting, decide_eq_true_eq] at ha
        obtain ⟨f, hf, hcf⟩ := hbelow c (hl c (List.mem_cons_self ..))
        have hfe : f ≠ e := by
          rintro rfl
          rcases reach_apart (hreach c (hl c (List.mem_cons_self ..))) with hh | hh
          · exact ha.2 hh.symm
          · exact hh f ⟨ha.1, hcf⟩
        have := Finset.single_le_sum (f := fun f => if covC e f c = true then 1 else 0) (fun _ _ => Nat.zero_le _) (Finset.mem_erase.2 ⟨hfe, hf⟩)
        rw [if_pos (show covC e f c = true from covT_iff.2 ⟨ha.1, hcf⟩)] at this
        exact this
      · exact Nat.zero_le _
  refine (hl calls fun _ hc => hc).trans (le_of_eq ?_)
  rw [Finset.sum_congr rfl fun f hf => hcount f (Finset.mem_of_mem_erase hf)]
  simp

end FleCSPH.Rounded
