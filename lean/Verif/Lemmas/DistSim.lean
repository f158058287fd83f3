import Verif.Lemmas.DistField2
import Verif.Props.C18fmm
/-! The machine with data makes the same steps as the one that reads the global tree. -/
namespace FleCSPH.Ghosts

theorem set_isSome {t : Table} {k : Key} {c : Cell} {a : Key} (h : (t a).isSome) : ((t.set k c) a).isSome := by
  unfold Table.set
  split_ifs
  · rfl
  · exact h

theorem recvNode_grows {t t' : Table} {x : NodeItem} (h : recvNode t x = some t') {a : Key} (ha : (t a).isSome) : (t' a).isSome := by
  unfold recvNode at h
  split at h
  · cases h
  · split at h
    · cases h
    · split at h
      · cases h; exact set_isSome (set_isSome ha)
      · split_ifs at h
        cases h; exact set_isSome (set_isSome ha)

theorem recvEnt_grows {t t' : Table} {x : EntItem} (h : recvEnt t x = some t') {a : Key} (ha : (t a).isSome) : (t' a).isSome := by
  unfold recvEnt at h
  split at h
  · cases h
  · split at h
    · cases h
    · split at h
      · cases h; exact set_isSome (set_isSome ha)
      · cases h; exact set_isSome (set_isSome ha)

theorem recvNodes_grows : ∀ (l : List NodeItem) {t t' : Table}, recvNodes t l = some t' → ∀ {a : Key}, (t a).isSome → (t' a).isSome
  | [], t, t', h, a, ha => by cases h; exact ha
  | x :: l, t, t', h, a, ha => by
    rw [recvNodes, Option.bind_eq_some_iff] at h
    obtain ⟨t1, h1, h2⟩ := h
    exact recvNodes_grows l h2 (recvNode_grows h1 ha)

theorem recvEnts_grows : ∀ (l : List EntItem) {t t' : Table}, recvEnts t l = some t' → ∀ {a : Key}, (t a).isSome → (t' a).isSome
  | [], t, t', h, a, ha => by cases h; exact ha
  | x :: l, t, t', h, a, ha => by
    rw [recvEnts, Option.bind_eq_some_iff] at h
    obtain ⟨t1, h1, h2⟩ := h
    exact recvEnts_grows l h2 (recvEnt_grows h1 ha)

/-- Tables only grow. -/
theorem upd_grows {tbl : Nat → Table} {p : Nat} {t : Table} (h : ∀ a, (tbl p a).isSome → (t a).isSome) {q : Nat} {a : Key} (ha : (tbl q a).isSome) : (upd tbl p t q a).isSome := by
  by_cases hq : q = p
  · subst hq; rw [upd_eq]; exact h a ha
  · rw [upd_ne _ _ hq]; exact ha

theorem fmmStep_source {nch : Nat} {mac bigger : Key → Key → Bool} {p : Nat} {t : Table} {x : Key × Key} {next : List (Key × Key)} {out : List Call} (h : fmmStep nch mac bigger p t x = some (.done next out)) :
    ∀ c ∈ out, (t c.source).isSome := by
  unfold fmmStep at h
  split at h
  · rename_i c1 c2 h1 h2
    have hx : (t x.2).isSome := by rw [h2]; rfl
    split_ifs at h
    · cases h
    · cases h; intro c hc; rw [List.mem_singleton] at hc; subst hc; exact hx
    · rw [Option.map_eq_some_iff] at h
      obtain ⟨ds, _, h⟩ := h
      cases h; simp
    · cases h; intro c hc; rw [List.mem_singleton] at hc; subst hc; exact hx
    · rw [Option.map_eq_some_iff] at h
      obtain ⟨ds, _, h⟩ := h
      cases h; simp
    · rw [Option.map_eq_some_iff] at h
      obtain ⟨ds, _, h⟩ := h
      cases h; simp
  · cases h

/-- The sources of the calls are in the table. -/
theorem run_sources {n nch : Nat} {mac bigger : Key → Key → Bool} {s0 s : State (Key × Key) Call} (h0 : ∀ p, s0.results p = []) (h : Run (fmm n nch mac bigger) s0 s) :
    ∀ p, ∀ c ∈ s.results p, (s.tbl p c.source).isSome := by
  induction h with
  | start => intro p c hc; rw [h0 p] at hc; simp at hc
  | @next s s' _ hn ih =>
    generalize hr : some s' = r at hn
    cases hn with
    | work p hp l1 a l2 hl =>
      unfold work at hr
      split at hr
      · cases hr
      · rename_i next out hst
        cases hr
        intro q c hc
        simp only at hc ⊢
        by_cases hq : q = p
        · subst hq
          rw [upd_eq, List.mem_append] at hc
          rcases hc with hc | hc
          · exact ih q c hc
          · exact fmmStep_source hst c hc
        · rw [upd_ne _ _ hq] at hc
          exact ih q c hc
      · cases hr
        intro q c hc
        exact upd_grows (fun a ha => by rw [mark_isSome]; exact ha) (ih q c hc)
    | flush p hp => cases hr; exact ih
    | serve p hp l1 x l2 hl hx he =>
      unfold serve at hr
      split at hr
      · cases hr
      · cases hr; exact ih
    | takeNodes p hp l1 x l2 ns es hl hx he =>
      unfold takeNodes at hr
      split at hr
      · cases hr
      · rename_i t ht
        cases hr
        intro q c hc
        exact upd_grows (fun a ha => recvNodes_grows _ ht ha) (ih q c hc)
    | takeEnts p hp l1 x l2 es hl hx he =>
      unfold takeEnts at hr
      split at hr
      · cases hr
      · rename_i t ht
        cases hr
        intro q c hc
        exact upd_grows (fun a ha => recvEnts_grows _ ht ha) (ih q c hc)
    | finish p hp ht hs => cases hr; exact ih
    | done p q hp hq hs hg he => cases hr; exact ih

end FleCSPH.Ghosts

namespace FleCSPH.DistGravity
open FleCSPH.Ghosts FleCSPH.Startup FleCSPH.Cofm FleCSPH.Geometry

variable {d n nch : Nat} {G : Key → Option GCell} {cells : Finset Key} {Val : Key → Data d}

/-- All data is the data of the tree. -/
structure DInv (n : Nat) (cells : Finset Key) (Val : Key → Data d) (s : DState d) : Prop where
  dat : ∀ p k v, s.dat p k = some v → v = Val k
  heard : ∀ x ∈ s.heard, x.2 = Val x.1
  here : ∀ p < n, ∀ k, (s.run.tbl p k).isSome → (s.dat p k).isSome
  all : ∀ k ∈ cells, (k, Val k) ∈ s.heard

theorem dinv_next {angle : ℝ} {s s' : DState d} (h : DInv n cells Val s) (hn : DNext n nch angle s s') : DInv n cells Val s' where
  dat p k v hv := by
    rcases hn.fresh p k v hv with h1 | h1
    · exact h.dat p k v h1
    · exact h.heard _ h1
  heard x hx := by
    rcases hn.sent x hx with h1 | ⟨q, _, h1⟩
    · exact h.heard x h1
    · exact h.dat q _ _ h1
  here := hn.here
  all k hk := hn.keep (h.all k hk)

theorem Geo.place (h : Geo nch G cells Val) {k : Key} (hk : (G k).isSome) : place (Val k) = some (cen (Val k), rad (Val k)) := by
  obtain ⟨g, hg⟩ := Option.isSome_iff_exists.1 hk
  cases he : g.ent with
  | true =>
    obtain ⟨b, hb⟩ := h.leaf k g hg he
    rw [hb]; rfl
  | false =>
    obtain ⟨N, hN⟩ := h.node k g hg he
    rw [hN]; rfl

theorem step_eq (h : Geo nch G cells Val) (angle : ℝ) {dat : Nat → DataTable d} (hdat : ∀ p k v, dat p k = some v → v = Val k) {p : Nat} {t : Table} {x : Key × Key} (h1 : (dat p x.1).isSome)
    (h2 : (dat p x.2).isSome) (g1 : (G x.1).isSome) (g2 : (G x.2).isSome) : step nch angle dat p t x = fmmStep nch (macOf Val angle) (biggerOf Val) p t x := by
  obtain ⟨v1, e1⟩ := Option.isSome_iff_exists.1 h1
  obtain ⟨v2, e2⟩ := Option.isSome_iff_exists.1 h2
  obtain rfl := hdat _ _ _ e1
  obtain rfl := hdat _ _ _ e2
  unfold step
  rw [e1, e2, Option.bind_some, Option.bind_some, h.place g1, h.place g2]
  rfl

section
variable (hG : Geo nch G cells Val) {angle : ℝ} {s0 : DState d} (h0 : Start (fmm n nch (macOf Val angle) (biggerOf Val)) G s0.run) (hq : ∀ p < n, s0.run.tasks p = [([], [])])
  (hm : ∀ p < n, Mine s0.run p [])
include hG h0 hq hm

theorem step_run {s : DState d} (hD : DInv n cells Val s) (hr : Run (fmm n nch (macOf Val angle) (biggerOf Val)) s0.run s.run) {p : Nat} (hp : p < n) {a : Key × Key} (ha : a ∈ s.run.tasks p) :
    step nch angle s.dat p (s.run.tbl p) a = fmmStep nch (macOf Val angle) (biggerOf Val) p (s.run.tbl p) a := by
  have hI := inv_run hG.tree h0 (fmm_ok hG.tree h0 hq hm) hr
  obtain ⟨h1, h2⟩ := hI.ok p hp a ha
  obtain ⟨c, g, hc, hg, _⟩ := (hI.view p hp).full _ h1
  obtain ⟨c2, hc2⟩ := Option.isSome_iff_exists.1 h2
  obtain ⟨g2, hg2, _⟩ := (hI.view p hp).good.sub _ _ hc2
  exact step_eq hG angle hD.dat (hD.here p hp _ (by rw [hc]; rfl)) (hD.here p hp _ h2) (by rw [hg]; rfl) (by rw [hg2]; rfl)

theorem next_iff {s : DState d} (hD : DInv n cells Val s) (hr : Run (fmm n nch (macOf Val angle) (biggerOf Val)) s0.run s.run) {r : Option (State (Key × Key) Ghosts.Call)} :
    Next (par n nch angle s.dat) s.run r ↔ Next (fmm n nch (macOf Val angle) (biggerOf Val)) s.run r := by
  have hw : ∀ p < n, ∀ l1 a l2, s.run.tasks p = l1 ++ a :: l2 → work (par n nch angle s.dat) s.run p l1 a l2 = work (fmm n nch (macOf Val angle) (biggerOf Val)) s.run p l1 a l2 := by
    intro p hp l1 a l2 hl
    have := step_run hG h0 hq hm hD hr hp (a := a) (by rw [hl]; simp)
    unfold work
    have e : (par n nch angle s.dat).step p (s.run.tbl p) a = (fmm n nch (macOf Val angle) (biggerOf Val)).step p (s.run.tbl p) a := this
    rw [e]
  constructor
  · intro hn
    cases hn with
    | work p hp l1 a l2 hl => rw [hw p hp l1 a l2 hl]; exact Next.work (P := fmm n nch (macOf Val angle) (biggerOf Val)) p hp l1 a l2 hl
    | flush p hp => exact Next.flush (P := fmm n nch (macOf Val angle) (biggerOf Val)) p hp
    | serve p hp l1 x l2 hl hx he => exact Next.serve (P := fmm n nch (macOf Val angle) (biggerOf Val)) p hp l1 x l2 hl hx he
    | takeNodes p hp l1 x l2 ns es hl hx he => exact Next.takeNodes (P := fmm n nch (macOf Val angle) (biggerOf Val)) p hp l1 x l2 ns es hl hx he
    | takeEnts p hp l1 x l2 es hl hx he => exact Next.takeEnts (P := fmm n nch (macOf Val angle) (biggerOf Val)) p hp l1 x l2 es hl hx he
    | finish p hp ht hs => exact Next.finish (P := fmm n nch (macOf Val angle) (biggerOf Val)) p hp ht hs
    | done p q hp hq' hs hg he => exact Next.done (P := fmm n nch (macOf Val angle) (biggerOf Val)) p q hp hq' hs hg he
  · intro hn
    cases hn with
    | work p hp l1 a l2 hl => rw [← hw p hp l1 a l2 hl]; exact Next.work (P := par n nch angle s.dat) p hp l1 a l2 hl
    | flush p hp => exact Next.flush (P := par n nch angle s.dat) p hp
    | serve p hp l1 x l2 hl hx he => exact Next.serve (P := par n nch angle s.dat) p hp l1 x l2 hl hx he
    | takeNodes p hp l1 x l2 ns es hl hx he => exact Next.takeNodes (P := par n nch angle s.dat) p hp l1 x l2 ns es hl hx he
    | takeEnts p hp l1 x l2 es hl hx he => exact Next.takeEnts (P := par n nch angle s.dat) p hp l1 x l2 es hl hx he
    | finish p hp ht hs => exact Next.finish (P := par n nch angle s.dat) p hp ht hs
    | done p q hp hq' hs hg he => exact Next.done (P := par n nch angle s.dat) p q hp hq' hs hg he

/-- A run with data is a run. -/
theorem drun_run (hD : DInv n cells Val s0) {s : DState d} (h : DRun n nch angle s0 s) : Run (fmm n nch (macOf Val angle) (biggerOf Val)) s0.run s.run ∧ DInv n cells Val s := by
  induction h with
  | start => exact ⟨.start, hD⟩
  | next _ hn ih => exact ⟨.next ih.1 ((next_iff hG h0 hq hm ih.2 ih.1).1 hn.next), dinv_next ih.2 hn⟩

/-- Every run can be made with data. -/
theorem run_drun {s : DState d} (hD : DInv n cells Val s) (hr : Run (fmm n nch (macOf Val angle) (biggerOf Val)) s0.run s.run) {r : State (Key × Key) Ghosts.Call}
    (h : Run (fmm n nch (macOf Val angle) (biggerOf Val)) s.run r) : ∃ s', DRun n nch angle s s' ∧ s'.run = r ∧ DInv n cells Val s' ∧ Run (fmm n nch (macOf Val angle) (biggerOf Val)) s0.run r := by
  classical
  induction h with
  | start => exact ⟨s, .start, rfl, hD, hr⟩
  | @next r1 r2 _ hn ih =>
    obtain ⟨s1, h1, rfl, h3, h4⟩ := ih
    have hr2 : Run (fmm n nch (macOf Val angle) (biggerOf Val)) s0.run r2 := .next h4 hn
    have hI := inv_run hG.tree h0 (fmm_ok hG.tree h0 hq hm) hr2
    obtain ⟨s2, hs2⟩ : ∃ s2 : DState d, s2 = { run := r2, dat := fun p k => if p < n ∧ (r2.tbl p k).isSome then some (Val k) else s1.dat p k, heard := s1.heard } := ⟨_, rfl⟩
    have hn2 : DNext n nch angle s1 s2 := by
      constructor
      · rw [hs2]
        exact (next_iff hG h0 hq hm h3 h4).2 hn
      · intro p k v hv
        rw [hs2] at hv
        simp only at hv
        split_ifs at hv with hc
        · cases hv
          obtain ⟨c, hc'⟩ := Option.isSome_iff_exists.1 hc.2
          obtain ⟨g, hg, _⟩ := (hI.view p hc.1).good.sub _ _ hc'
          exact Or.inr (h3.all k ((hG.tree.mem k).2 (by rw [hg]; rfl)))
        · exact Or.inl hv
      · intro p hp k hk
        rw [hs2] at hk ⊢
        simp only at hk ⊢
        rw [if_pos ⟨hp, hk⟩]
        rfl
      · intro x hx
        rw [hs2] at hx
        exact Or.inl hx
      · rw [hs2]
    exact ⟨s2, .next h1 hn2, by rw [hs2], dinv_next h3 hn2, hr2⟩

/-- The field at the end. -/
theorem drun_field {fuel : Nat} (hfu : ∀ k ∈ cells, k.length < fuel) (hres : ∀ p, s0.run.results p = []) (hD : DInv n cells Val s0) (gc : ℝ) (ids : Key → Int)
    (hids : ∀ e ∈ leaves G cells, ∀ f ∈ leaves G cells, ids e = ids f → e = f) {s : DState d} (h : DRun n nch angle s0 s) (hend : ∀ p < n, exited n s.run p) {p : Nat} (hp : p < n) :
    ∃ F, gravity nch p (s.run.tbl p) (s.dat p) gc ids fuel (s.run.results p) = some F ∧ ∀ e ∈ leaves G cells, (∀ a, a <:+ e → Mine s0.run p a) →
      ∃ u : Key → ℝ × Point d, fld F e = ∑ f ∈ (leaves G cells).erase e, wgt (Val f) • u f ∧
        ∀ f ∈ (leaves G cells).erase e, ∃ x, Acts G (macOf Val angle) (biggerOf Val) e f x ∧ u f = unit Val gc e x := by
  obtain ⟨hr, hDs⟩ := drun_run hG h0 hq hm hD h
  have hI := inv_run hG.tree h0 (fmm_ok hG.tree h0 hq hm) hr
  have hist := hI.hist p hp
  have hcalls := hist_calls hist (by
    intro x hx a ha
    rw [hq p hp, List.mem_singleton] at hx
    subst hx
    rw [List.suffix_nil.1 ha]
    exact hm p hp)
  have hreach := hist_reach hist (by
    intro x hx
    rw [hq p hp, List.mem_singleton] at hx
    subst hx
    exact .refl)
  refine gravity_leaves hG (hI.view p hp) hfu (hDs.dat p) (hDs.here p hp) gc angle ids hids hcalls.2 (run_sources hres hr p) hreach.2 ?_
  intro e he f hf ho
  obtain ⟨ge, hge, hee⟩ := (mem_leaves hG.tree).1 he
  obtain ⟨gf, hgf, hfe⟩ := (mem_leaves hG.tree).1 hf
  have := hist_count hG.tree (hG.sizes angle) hist hge hee hgf hfe ho
  rw [(C18_fmm_end hG.tree h0 hq hm hr hend p hp).2.2, hq p hp, List.countP_nil, Nat.zero_add] at this
  rw [this]
  simp [covT]

end

end FleCSPH.DistGravity
