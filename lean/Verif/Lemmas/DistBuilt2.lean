import Verif.Lemmas.DistBuilt
/-! From the keys to the field. -/
namespace FleCSPH.DistGravity
open FleCSPH.Spec FleCSPH.Tree FleCSPH.Ghosts FleCSPH.Startup FleCSPH.Cofm FleCSPH.Geometry
open FleCSPH.Fmm (distance_eq_zero grav shift eucL norm_euc_sub expand_err)

variable {D dim d m : Nat}

theorem suffix_mem {nch : Nat} {G : Key → Option GCell} {cells : Finset Key} (hT : IsTree nch G cells) : ∀ {e k : Key}, e ∈ cells → k <:+ e → k ∈ cells := by
  intro e
  induction e with
  | nil => intro k he hk; rw [List.suffix_nil.1 hk]; exact he
  | cons j e ih =>
    intro k he hk
    rcases List.suffix_cons_iff.1 hk with rfl | h
    · exact he
    · refine ih ?_ h
      obtain ⟨g, hg, -⟩ := (hT.child j e).1 ((hT.mem _).1 he)
      exact (hT.mem _).2 (by rw [hg]; rfl)

/-- A state in which a traversal starts with given tables. -/
structure Fresh {τ ω : Type} (tbl : Nat → Table) (s : State τ ω) : Prop where
  eq : s = { tbl := tbl, tasks := s.tasks, results := fun _ => [], toSend := fun _ => [], trans := fun _ => [], asked := fun _ => [], sent := fun _ => false, got := fun _ _ => false }

/-- What the particles of all processes satisfy. -/
structure Input (D dim m : Nat) (ranks : List (List Nat)) (body : Nat → Body d) : Prop where
  parts : Parts D dim ranks
  hm : ranks.length = 2 ^ m
  mass : ∀ x ∈ ranks.flatten, 0 < (body x).mass
  pos : ∀ x ∈ ranks.flatten, ∀ y ∈ ranks.flatten, x ≠ y → (body x).pos ≠ (body y).pos
  two : 2 ≤ ranks.flatten.length

section
variable {ranks : List (List Nat)} {body : Nat → Body d} (I : Input D dim m ranks body)
include I

theorem Input.ne : ranks.flatten ≠ [] := by
  intro h
  have := I.two
  rw [h] at this
  simp at this

theorem Input.geo (big : ℝ) : Geo (2 ^ dim) (globalTree D dim (· ∈ ranks.flatten)) (cellsOf D dim ranks.flatten) (valFor big D dim body ranks.flatten) := by
  refine geo_built I.parts.hdim I.parts.hD I.ne I.parts.full big body I.mass I.pos ?_
  have h2 := I.two
  refine ⟨ranks.flatten[0], List.getElem_mem _, ranks.flatten[1], List.getElem_mem _, ?_⟩
  have := List.pairwise_iff_getElem.1 I.parts.sorted 0 1 (by omega) (by omega) (by decide)
  omega

/-- The state in which the first traversal begins. -/
theorem Input.start (big : ℝ) : ∃ s, startup D dim (summarise big) (fun x => .inl (body x)) ranks = some s ∧
    (∀ {τ ω : Type} (Q : Par τ ω), Q.n = 2 ^ m → ∀ tasks, Start Q (globalTree D dim (· ∈ ranks.flatten)) (Startup.begin_ (τ := τ) (ω := ω) s tasks)) ∧
    (∀ p < 2 ^ m, Mine (begin_ (2 ^ m) s (ghostTables s) (dataOf s)).run p []) ∧ DInv (2 ^ m) (cellsOf D dim ranks.flatten) (valFor big D dim body ranks.flatten) (begin_ (2 ^ m) s (ghostTables s) (dataOf s)) ∧
    (∀ k ∈ cellsOf D dim ranks.flatten, ∃ p < 2 ^ m, dataOf s p k = some (valFor big D dim body ranks.flatten k)) ∧
    (∀ p ks, ranks[p]? = some ks → ∀ x ∈ ks, ∀ a, a <:+ leafAt D dim ranks.flatten x → Mine (begin_ (2 ^ m) s (ghostTables s) (dataOf s)).run p a) := by
  have P := I.parts
  have hm := I.hm
  obtain ⟨s, h1, h2, h3⟩ := P.startup hm (summarise (d := d) big) (fun x => .inl (body x))
  have hT := global_tree P.hdim P.hD I.ne P.full
  have hown : ∀ r < 2 ^ m, ∃ e, IsEnt (globalTree D dim (· ∈ ranks.flatten)) e ∧ holder D dim ranks e = r := fun r hr => P.hasOwn (by omega)
  have hlt : ∀ e, IsEnt (globalTree D dim (· ∈ ranks.flatten)) e → holder D dim ranks e < 2 ^ m := fun e he => by rw [← hm]; exact P.holder_lt he
  have hdat : ∀ p k v, dataOf s p k = some v → v = valFor big D dim body ranks.flatten k := by
    intro p k v hv
    by_cases hp : p < 2 ^ m
    · obtain ⟨me, h4, h5⟩ := h3 p hp
      rw [dataOf, h4, Option.bind_some, Option.bind_eq_some_iff] at hv
      obtain ⟨c, hc, hcd⟩ := hv
      rw [h5.data k c hc] at hcd
      obtain ⟨g, hg, -⟩ := h5.kind k c hc
      rw [valFor, if_pos ((hT.mem k).2 (by rw [hg]; rfl))]
      exact (Option.some.inj hcd).symm
    · rw [dataOf, List.getElem?_eq_none (by omega)] at hv
      cases hv
  have hall : ∀ k ∈ cellsOf D dim ranks.flatten, ∃ p < 2 ^ m, dataOf s p k = some (valFor big D dim body ranks.flatten k) := by
    intro k hk
    have hsome := (hT.mem k).1 hk
    obtain ⟨x, hx, hkx⟩ : ∃ x ∈ ranks.flatten, k <:+ path dim D x := by
      rcases ((global_isSome (X := (· ∈ ranks.flatten)) P.hdim P.fullX).1 hsome).2 with (rfl | ⟨x, y, hx, hy, hxy, h1, h2⟩) | ⟨x, hx, hl⟩
      · obtain ⟨x, hx⟩ := List.exists_mem_of_ne_nil _ I.ne
        exact ⟨x, hx, List.nil_suffix⟩
      · exact ⟨x, hx, h1⟩
      · exact ⟨x, hx, hl.2.1⟩
    have hs := (suffix_leafAt P.hdim P.hD I.ne P.full hk hx).2 hkx
    have he : IsEnt (globalTree D dim (· ∈ ranks.flatten)) (leafAt D dim ranks.flatten x) := (mem_leaves hT).1 ((mem_leaves_built P.hdim P.hD I.ne P.full).2 ⟨x, hx, rfl⟩)
    refine ⟨holder D dim ranks (leafAt D dim ranks.flatten x), hlt _ he, ?_⟩
    obtain ⟨me, h4, h5⟩ := h3 _ (hlt _ he)
    obtain ⟨c, hc⟩ := Option.isSome_iff_exists.1 ((h5.mem k).2 ⟨hsome, Or.inl ⟨_, he, hs, rfl⟩⟩)
    rw [dataOf, h4, Option.bind_some, hc, Option.bind_some, h5.data k c hc, valFor, if_pos hk]
  refine ⟨s, h1, fun Q hQ tasks => start_of hT hown hlt h3 hQ tasks, mine_root hT hown h3 _, ⟨hdat, ?_, ?_, ?_⟩, hall, ?_⟩
  · rintro ⟨k, v⟩ ⟨q, -, hq⟩
    exact hdat q k v hq
  · intro p hp k hk
    obtain ⟨c, hc⟩ := Option.isSome_iff_exists.1 hk
    obtain ⟨me, c', h4, h5, h6, rfl⟩ := ghost_some h3 hp hc
    show (dataOf s p k).isSome
    rw [dataOf, h4, Option.bind_some, h6, Option.bind_some, h5.data k c' h6]
    rfl
  · intro k hk
    exact hall k hk
  · intro p ks hks x hx a ha
    have hxX : x ∈ ranks.flatten := mem_ranks.mpr ⟨p, ks, hks, hx⟩
    have hl := leafAt_spec P.hD P.full hxX
    have hd : Digits dim (leafAt D dim ranks.flatten x) := digits_suffix (path_digits _ _) hl.2.1
    have hp : p < 2 ^ m := by
      have := (List.getElem?_eq_some_iff.1 hks).1
      omega
    exact (owns_ent hT h3 _ hp ((isEnt_iff P.hdim P.fullX).mpr ⟨hd, x, hxX, hl⟩) (P.holder_eq hd hks hx hl)).2 a ha

/-- The state in which a traversal begins after any number of others. -/
theorem Input.after (big : ℝ) {s : List (ShareTable.Proc (Data d))} (hs : startup D dim (summarise big) (fun x => .inl (body x)) ranks = some s) {tbl : Nat → Table} {dat : Nat → DataTable d}
    (h : After (2 ^ m) (2 ^ dim) (D + 2) s tbl dat) :
    (∀ {τ ω : Type} (Q : Par τ ω), Q.n = 2 ^ m → ∀ st : State τ ω, Fresh tbl st → Start Q (globalTree D dim (· ∈ ranks.flatten)) st) ∧
    (∀ p < 2 ^ m, ∀ k, Mine (begin_ (2 ^ m) s tbl dat).run p k ↔ Mine (begin_ (2 ^ m) s (ghostTables s) (dataOf s)).run p k) ∧
    DInv (2 ^ m) (cellsOf D dim ranks.flatten) (valFor big D dim body ranks.flatten) (begin_ (2 ^ m) s tbl dat) := by
  have P := I.parts
  obtain ⟨s', h1, h2, h3, h4, -, -⟩ := I.start big
  rw [hs] at h1
  obtain rfl := Option.some.inj h1
  have hG := I.geo big
  have hf : ∀ k ∈ cellsOf D dim ranks.flatten, k.length + 2 ≤ D + 2 := fun k hk => Nat.add_le_add_right (global_depth P.hdim P.full k hk) 2
  induction h with
  | built =>
    refine ⟨fun {τ ω} Q hQ st hst => ?_, fun _ _ _ => Iff.rfl, h4⟩
    rw [hst.eq]
    exact h2 Q hQ st.tasks
  | @sph tbl dat τ accept s0 s1 dat' _ h0 hr hend hcop here ih =>
    obtain ⟨i1, i2, i3⟩ := ih
    have hS := i1 (sph (2 ^ m) (2 ^ dim) accept (D + 2)) rfl s0 ⟨h0⟩
    have hag := fun {τ' ω' : Type} (Q : Par τ' ω') (hQ : Q.n = 2 ^ m) (tasks : Nat → List τ') => run_again (K := sphTasks (2 ^ m) accept _ hG.tree hf) (P' := Q) (ω' := ω') hQ hG.tree hS (fun _ _ _ _ => trivial) hr hend tasks
    refine ⟨fun {τ' ω'} Q hQ st hst => ?_, fun p hp k => ?_, ⟨?_, i3.heard, here, i3.all⟩⟩
    · rw [hst.eq]
      exact (hag Q hQ st.tasks).1
    · rw [← i2 p hp k]
      have := (hag (fmm (2 ^ m) (2 ^ dim) (fun _ _ => true) (fun _ _ => true)) rfl (fun _ => [([], [])])).2 p hp k
      rw [h0] at this
      exact this
    · intro p k v hv
      obtain ⟨q, -, hq⟩ := hcop p k v hv
      exact h4.dat q k v hq
  | @fmm tbl dat angle T _ hr hend ih =>
    obtain ⟨i1, i2, i3⟩ := ih
    have hS := i1 (fmm (2 ^ m) (2 ^ dim) (macOf (valFor big D dim body ranks.flatten) angle) (biggerOf (valFor big D dim body ranks.flatten))) rfl (begin_ (2 ^ m) s tbl dat).run ⟨rfl⟩
    have hm := fun p (hp : p < 2 ^ m) => (i2 p hp []).2 (h3 p hp)
    obtain ⟨hrun, hD'⟩ := drun_run hG hS (fun _ _ => rfl) hm i3 hr
    have hag := fun {τ' ω' : Type} (Q : Par τ' ω') (hQ : Q.n = 2 ^ m) (tasks : Nat → List τ') => C18_fmm_again (P' := Q) (ω' := ω') hQ hG.tree hS (fun _ _ => rfl) hm hrun hend tasks
    refine ⟨fun {τ' ω'} Q hQ st hst => ?_, fun p hp k => ?_, ⟨hD'.dat, i3.heard, hD'.here, i3.all⟩⟩
    · rw [hst.eq]
      exact (hag Q hQ st.tasks).1
    · rw [← i2 p hp k]
      exact (hag (fmm (2 ^ m) (2 ^ dim) (fun _ _ => true) (fun _ _ => true)) rfl (fun _ => [([], [])])).2 p hp k

/-- The contribution of a unit mass at `y` to the field at `x`, given by the pair of cells that acts between them. -/
def Contribution (D dim : Nat) (Val : Key → Data d) (angle gc : ℝ) (all : List Nat) (x y : Nat) (u : ℝ × Point d) : Prop :=
  ∃ c, Acts (globalTree D dim (· ∈ all)) (macOf Val angle) (biggerOf Val) (leafAt D dim all x) (leafAt D dim all y) c ∧ u = unit Val gc (leafAt D dim all x) c

omit I in
theorem contribution_unique {Val : Key → Data d} {angle gc : ℝ} {all : List Nat} {x y : Nat} {u u' : ℝ × Point d} (h : Contribution D dim Val angle gc all x y u) (h' : Contribution D dim Val angle gc all x y u') :
    u = u' := by
  obtain ⟨c, h1, rfl⟩ := h
  obtain ⟨c', h2, rfl⟩ := h'
  rw [reach_unique h1.1 h2.1 h1.2.1 h2.2.1 h1.2.2 h2.2.2]

theorem Input.field (big : ℝ) {s : List (ShareTable.Proc (Data d))} (hs : startup D dim (summarise big) (fun x => .inl (body x)) ranks = some s) (angle gc : ℝ) (ids : Key → Int)
    (hids : ∀ x ∈ ranks.flatten, ∀ y ∈ ranks.flatten, ids (leafAt D dim ranks.flatten x) = ids (leafAt D dim ranks.flatten y) → x = y) {tbl : Nat → Table} {dat : Nat → DataTable d}
    (ha : After (2 ^ m) (2 ^ dim) (D + 2) s tbl dat) {S : DState d} (h : DRun (2 ^ m) (2 ^ dim) angle (begin_ (2 ^ m) s tbl dat) S) :
    (∀ r, Next (par (2 ^ m) (2 ^ dim) angle S.dat) S.run r → r ≠ none) ∧ (∃ S', DRun (2 ^ m) (2 ^ dim) angle S S' ∧ ∀ p < 2 ^ m, exited (2 ^ m) S'.run p) ∧
    ((∀ p < 2 ^ m, exited (2 ^ m) S.run p) → ∀ p < 2 ^ m, ∃ F, gravity (2 ^ dim) p (S.run.tbl p) (S.dat p) gc ids (D + 1) (S.run.results p) = some F ∧
      ∀ ks, ranks[p]? = some ks → ∀ x ∈ ks, ∃ u : Nat → ℝ × Point d, fld F (leafAt D dim ranks.flatten x) = ∑ y ∈ ranks.flatten.toFinset.erase x, (body y).mass • u y ∧
        ∀ y ∈ ranks.flatten.toFinset.erase x, Contribution D dim (valFor big D dim body ranks.flatten) angle gc ranks.flatten x y (u y)) := by
  have P := I.parts
  obtain ⟨s', h1, -, h3', -, -, h5'⟩ := I.start big
  rw [hs] at h1
  obtain rfl := Option.some.inj h1
  obtain ⟨h2, hmine, h4⟩ := I.after big hs ha
  have h3 := fun p (hp : p < 2 ^ m) => (hmine p hp []).2 (h3' p hp)
  have h5 : ∀ p ks, ranks[p]? = some ks → ∀ x ∈ ks, ∀ a, a <:+ leafAt D dim ranks.flatten x → Mine (begin_ (2 ^ m) s tbl dat).run p a := by
    intro p ks hks x hx a hax
    have hp : p < 2 ^ m := by
      have := (List.getElem?_eq_some_iff.1 hks).1
      have := I.hm
      omega
    exact (hmine p hp a).2 (h5' p ks hks x hx a hax)
  have hG := I.geo big
  have h2' := h2 (fmm (2 ^ m) (2 ^ dim) (macOf (valFor big D dim body ranks.flatten) angle) (biggerOf (valFor big D dim body ranks.flatten))) rfl (begin_ (2 ^ m) s tbl dat).run ⟨rfl⟩
  have hq : ∀ p < 2 ^ m, (begin_ (2 ^ m) s tbl dat).run.tasks p = [([], [])] := fun _ _ => rfl
  obtain ⟨hr, hDS⟩ := drun_run hG h2' hq h3 h4 h
  refine ⟨fun r hn => C18_fmm_safe hG.tree h2' hq h3 hr ((next_iff hG h2' hq h3 hDS hr).1 hn), ?_, ?_⟩
  · obtain ⟨r, hr1, hr2⟩ := C18_fmm_can_end hG.tree h2' hq h3 hr
    obtain ⟨S', e1, rfl, -⟩ := run_drun hG h2' hq h3 hDS hr hr1
    exact ⟨S', e1, hr2⟩
  · intro hend p hp
    obtain ⟨F, f1, f2⟩ := drun_field hG h2' hq h3 (fuel := D + 1) (fun k hk => Nat.lt_succ_of_le (global_depth P.hdim P.full k hk)) (fun _ => rfl) h4 gc ids (by
      intro e he f hf hef
      obtain ⟨x, hx, rfl⟩ := (mem_leaves_built P.hdim P.hD I.ne P.full).1 he
      obtain ⟨y, hy, rfl⟩ := (mem_leaves_built P.hdim P.hD I.ne P.full).1 hf
      rw [hids x hx y hy hef]) h hend hp
    refine ⟨F, f1, fun ks hks x hx => ?_⟩
    have hxX : x ∈ ranks.flatten := mem_ranks.mpr ⟨p, ks, hks, hx⟩
    obtain ⟨u, u1, u2⟩ := f2 _ ((mem_leaves_built P.hdim P.hD I.ne P.full).2 ⟨x, hxX, rfl⟩) (h5 p ks hks x hx)
    refine ⟨fun y => u (leafAt D dim ranks.flatten y), ?_, ?_⟩
    · rw [u1, sum_others P.hdim P.hD I.ne P.full (fun f => wgt (valFor big D dim body ranks.flatten f) • u f) hxX]
      apply Finset.sum_congr rfl
      intro y hy
      rw [val_leaf P.hdim P.hD I.ne P.full big body (List.mem_toFinset.1 (Finset.mem_of_mem_erase hy))]
      rfl
    · intro y hy
      rw [Finset.mem_erase, List.mem_toFinset] at hy
      obtain ⟨c, c1, c2⟩ := u2 (leafAt D dim ranks.flatten y) (Finset.mem_erase.2 ⟨fun h => hy.1 (leafAt_inj P.hD P.full hy.2 hxX h), (mem_leaves_built P.hdim P.hD I.ne P.full).2 ⟨y, hy.2, rfl⟩⟩)
      exact ⟨c, c1, c2⟩

theorem Input.cells {Val : Key → Data d} {angle : ℝ} {x y : Nat} (hx : x ∈ ranks.flatten) (hy : y ∈ ranks.flatten) {c : Key × Key}
    (h : Acts (globalTree D dim (· ∈ ranks.flatten)) (macOf Val angle) (biggerOf Val) (leafAt D dim ranks.flatten x) (leafAt D dim ranks.flatten y) c) :
    c.1 ∈ cellsOf D dim ranks.flatten ∧ c.2 ∈ cellsOf D dim ranks.flatten := by
  have P := I.parts
  have hT := global_tree P.hdim P.hD I.ne P.full
  have hl : ∀ x ∈ ranks.flatten, leafAt D dim ranks.flatten x ∈ cellsOf D dim ranks.flatten := fun x hx => Finset.mem_of_mem_filter _ ((mem_leaves_built P.hdim P.hD I.ne P.full).2 ⟨x, hx, rfl⟩)
  exact ⟨suffix_mem hT (hl x hx) h.2.2.1, suffix_mem hT (hl y hy) h.2.2.2⟩

theorem Input.err (big : ℝ) {angle gc : ℝ} {x y : Nat} (hx : x ∈ ranks.flatten) (hy : y ∈ ranks.flatten) (hxy : x ≠ y) {u : ℝ × Point d}
    (h : Contribution D dim (valFor big D dim body ranks.flatten) angle gc ranks.flatten x y u) {t : ℝ} (ht : t = max angle 0) :
    ‖euc u.2 - euc (grav gc (body x).pos (body y).pos 1).2‖ ≤ |gc| * ((4 * t + 5 * t ^ 2 + 2 * t ^ 3) / distance (body x).pos (body y).pos ^ 2) ∧
    |u.1 - (grav gc (body x).pos (body y).pos 1).1| ≤ |gc| * ((2 * t + t ^ 2) / distance (body x).pos (body y).pos) := by
  have P := I.parts
  obtain ⟨c, h1, rfl⟩ := h
  have := unit_err (I.geo big) gc angle ((mem_leaves_built P.hdim P.hD I.ne P.full).2 ⟨x, hx, rfl⟩) ((mem_leaves_built P.hdim P.hD I.ne P.full).2 ⟨y, hy, rfl⟩)
    (fun h => hxy (leafAt_inj P.hD P.full hx hy h)) h1 (I.cells hx hy h1) ht
  rw [val_leaf P.hdim P.hD I.ne P.full big body hx, val_leaf P.hdim P.hD I.ne P.full big body hy] at this
  exact this

/-- The contributions of two particles to each other are opposite if no two nodes have the same radius. -/
theorem Input.opposite (big : ℝ) {angle gc : ℝ} (hties : ∀ k1 k2 N1 N2, valFor big D dim body ranks.flatten k1 = .inr (some N1) → valFor big D dim body ranks.flatten k2 = .inr (some N2) → k1 ≠ k2 → N1.radius ≠ N2.radius)
    {x y : Nat} (hx : x ∈ ranks.flatten) (hy : y ∈ ranks.flatten) {u v : ℝ × Point d} (hu : Contribution D dim (valFor big D dim body ranks.flatten) angle gc ranks.flatten x y u)
    (hv : Contribution D dim (valFor big D dim body ranks.flatten) angle gc ranks.flatten y x v) : ∀ i, u.2 i = -v.2 i := by
  have hG := I.geo big
  obtain ⟨c, c1, rfl⟩ := hu
  obtain ⟨c', c2, rfl⟩ := hv
  have hcells : ∀ {z : Key × Key}, Reach (globalTree D dim (· ∈ ranks.flatten)) (macOf (valFor big D dim body ranks.flatten) angle) (biggerOf (valFor big D dim body ranks.flatten)) z →
      (globalTree D dim (· ∈ ranks.flatten) z.1).isSome ∧ (globalTree D dim (· ∈ ranks.flatten) z.2).isSome := by
    intro z hz
    induction hz with
    | refl =>
      obtain ⟨g, hg, -⟩ := hG.tree.root
      exact ⟨by rw [hg]; rfl, by rw [hg]; rfl⟩
    | tail _ hc ih =>
      cases hc with
      | self hf h hi hj => exact ⟨(hG.tree.child _ _).2 ⟨_, h, hi⟩, (hG.tree.child _ _).2 ⟨_, h, hj⟩⟩
      | first hf hne hb h hi => exact ⟨(hG.tree.child _ _).2 ⟨_, h, hi⟩, ih.2⟩
      | second hf hne hb h hi => exact ⟨ih.1, (hG.tree.child _ _).2 ⟨_, h, hi⟩⟩
  have hb : ∀ z, Reach (globalTree D dim (· ∈ ranks.flatten)) (macOf (valFor big D dim body ranks.flatten) angle) (biggerOf (valFor big D dim body ranks.flatten)) z →
      ¬ Final2 (globalTree D dim (· ∈ ranks.flatten)) (macOf (valFor big D dim body ranks.flatten) angle) z → z.1 ≠ z.2 →
      biggerOf (valFor big D dim body ranks.flatten) z.1 z.2 = !biggerOf (valFor big D dim body ranks.flatten) z.2 z.1 := by
    intro z hz hf hne
    obtain ⟨z1, z2⟩ := hcells hz
    obtain ⟨g1, hg1⟩ := Option.isSome_iff_exists.1 z1
    obtain ⟨g2, hg2⟩ := Option.isSome_iff_exists.1 z2
    have hrad : rad (valFor big D dim body ranks.flatten z.1) ≠ rad (valFor big D dim body ranks.flatten z.2) := by
      cases e1 : g1.ent with
      | true =>
        cases e2 : g2.ent with
        | true => exact absurd (Or.inl ⟨⟨g1, hg1, e1⟩, ⟨g2, hg2, e2⟩⟩) hf
        | false =>
          rw [hG.rad_leaf hg1 e1]
          exact (hG.radius _ _ hg2 e2).ne
      | false =>
        cases e2 : g2.ent with
        | true =>
          rw [hG.rad_leaf hg2 e2]
          exact (hG.radius _ _ hg1 e1).ne'
        | false =>
          obtain ⟨N1, n1⟩ := hG.node _ _ hg1 e1
          obtain ⟨N2, n2⟩ := hG.node _ _ hg2 e2
          have := hties _ _ _ _ n1 n2 hne
          rw [n1, n2]
          exact this
    cases hb1 : biggerOf (valFor big D dim body ranks.flatten) z.1 z.2 with
    | true =>
      have := biggerOf_true.1 hb1
      cases hb2 : biggerOf (valFor big D dim body ranks.flatten) z.2 z.1 with
      | true => exact absurd (biggerOf_true.1 hb2) (by linarith)
      | false => rfl
    | false =>
      cases hb2 : biggerOf (valFor big D dim body ranks.flatten) z.2 z.1 with
      | true => rfl
      | false =>
        have h1 : ¬ rad (valFor big D dim body ranks.flatten z.2) < rad (valFor big D dim body ranks.flatten z.1) := fun h => by rw [biggerOf_true.2 h] at hb1; cases hb1
        have h2 : ¬ rad (valFor big D dim body ranks.flatten z.1) < rad (valFor big D dim body ranks.flatten z.2) := fun h => by rw [biggerOf_true.2 h] at hb2; cases hb2
        exact absurd (le_antisymm (not_lt.1 h1) (not_lt.1 h2)) hrad
  have hsw := reach_swap (macOf_comm _ _) hb c1.1
  have hfs := final_swap (macOf_comm _ _) c1.2.1
  obtain rfl := reach_unique hsw c2.1 hfs c2.2.1 ⟨c1.2.2.2, c1.2.2.1⟩ c2.2.2
  intro i
  simp only [unit, shift, grav, Prod.swap]
  rw [distance_comm (cen (valFor big D dim body ranks.flatten c.2))]
  ring

end

end FleCSPH.DistGravity
