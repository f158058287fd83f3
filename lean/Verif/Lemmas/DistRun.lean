import Verif.Model.DistRun
import Verif.Lemmas.Driver
/-! Executions on several processes: a pass which reads through a view the copies agree with gives every particle the value of the function on the state at its beginning. -/
namespace FleCSPH.DistRun
open FleCSPH.Geometry FleCSPH.Sph FleCSPH.Driver FleCSPH.Spec

variable {P : Type} {n : Nat}

/-- The copies and the replies under way agree with the particles as far as `v` shows. -/
structure Consistent {V : Type} (v : P → V) (d : DState P n) : Prop where
  copy : ∀ p b x, d.copy p b = some x → v x = v (d.val b)
  flight : ∀ p b x, (p, b, x) ∈ d.flight → v x = v (d.val b)

/-- `f` reads from the neighbours only what `v` shows and does not write it; `er` forgets the part of the result which is not covered. -/
structure Reads {V Q : Type} (er : P → Q) (v : P → V) (f : P → List P → Option P) : Prop where
  read : ∀ a l l', l.map v = l'.map v → (f a l).map er = (f a l').map er
  keep : ∀ a l x, f a l = some x → v x = v a

theorem map_isSome {Q : Type} {er : P → Q} {o o' : Option P} (h : o.map er = o'.map er) : o = none ↔ o' = none := by
  cases o <;> cases o' <;> simp_all

theorem mapM_see {home : Fin n → Nat} {V : Type} {v : P → V} {d : DState P n} (hc : Consistent v d) {p : Nat} : ∀ {l : List (Fin n)} {m : List P}, l.mapM (d.see home p) = some m →
    m.map v = l.map fun b => v (d.val b) := by
  intro l
  induction l with
  | nil =>
    intro m h
    simp only [List.mapM_nil, Option.pure_def, Option.some.injEq] at h
    subst h; rfl
  | cons b l ih =>
    intro m h
    rw [List.mapM_cons] at h
    simp only [Option.bind_eq_bind, Option.pure_def] at h
    obtain ⟨x, h1, h⟩ := Option.bind_eq_some_iff.mp h
    obtain ⟨m', h2, h⟩ := Option.bind_eq_some_iff.mp h
    obtain rfl := Option.some.inj h
    rw [List.map_cons, List.map_cons, ih h2]
    congr 1
    unfold DState.see at h1
    split_ifs at h1
    · obtain rfl := Option.some.inj h1; rfl
    · exact hc.copy p b x h1

theorem Consistent.send {V : Type} {v : P → V} {d : DState P n} (h : Consistent v d) (p : Nat) (b : Fin n) : Consistent v (d.send p b) := by
  refine ⟨h.copy, fun q c x hx => ?_⟩
  rcases List.mem_cons.mp hx with hx | hx
  · cases hx; rfl
  · exact h.flight q c x hx

theorem Consistent.recv {V : Type} {v : P → V} {d : DState P n} (h : Consistent v d) {before after : List (Nat × Fin n × P)} {p : Nat} {b : Fin n} {x : P}
    (hf : d.flight = before ++ (p, b, x) :: after) : Consistent v (d.recv p b x (before ++ after)) := by
  refine ⟨fun q c y hy => ?_, fun q c y hy => h.flight q c y ?_⟩
  · simp only [DState.recv] at hy
    split_ifs at hy with hc
    · obtain rfl := Option.some.inj hy
      obtain ⟨rfl, rfl⟩ := hc
      exact h.flight q c x (by rw [hf]; simp)
    · exact h.copy q c y hy
  · rw [hf]
    simp only [DState.recv, List.mem_append] at hy
    simp only [List.mem_append, List.mem_cons]
    tauto

theorem Consistent.put {V : Type} {v : P → V} {d : DState P n} (h : Consistent v d) {a : Fin n} {x : P} (hx : v x = v (d.val a)) : Consistent v (d.put a x) := by
  have e : ∀ b, v ((d.put a x).val b) = v (d.val b) := by
    intro b
    simp only [DState.put]
    by_cases hb : b = a
    · subst hb; rw [Function.update_self, hx]
    · rw [Function.update_of_ne hb]
  exact ⟨fun q c y hy => by rw [e]; exact h.copy q c y hy, fun q c y hy => by rw [e]; exact h.flight q c y hy⟩

/-- What a pass gives, whatever the processes, the order of visits and the messages. -/
theorem dpass_result {V Q : Type} {er : P → Q} {v : P → V} {f : P → List P → Option P} (hf : Reads er v f) {home : Fin n → Nat} {nbs : Fin n → List (Fin n)} (s : Fin n → P)
    {todo : List (Fin n)} {d : DState P n} {r : Option (DState P n)} (h : DPass home f nbs todo d r) (hn : todo.Nodup) (hc : Consistent v d)
    (hv : ∀ a, v (d.val a) = v (s a)) (hs : ∀ a ∈ todo, d.val a = s a) :
    (∀ d', r = some d' → d'.flight = [] ∧ Consistent v d' ∧ (∀ a ∈ todo, (f (s a) ((nbs a).map s)).map er = some (er (d'.val a))) ∧ ∀ a, a ∉ todo → d'.val a = d.val a) ∧
    (r = none → ∃ a, f (s a) ((nbs a).map s) = none) := by
  have hcall : ∀ {d : DState P n} {a : Fin n} {l : List P}, Consistent v d → (∀ a, v (d.val a) = v (s a)) → d.val a = s a → (nbs a).mapM (d.see home (home a)) = some l →
      (f (d.val a) l).map er = (f (s a) ((nbs a).map s)).map er := by
    intro d a l hc hv ha hl
    rw [ha]
    refine hf.read _ _ _ ?_
    rw [mapM_see hc hl, List.map_map]
    exact List.map_congr_left fun b _ => hv b
  induction h with
  | done hfl =>
    refine ⟨fun d' h => ?_, fun h => by cases h⟩
    obtain rfl := Option.some.inj h
    exact ⟨hfl, hc, by simp, fun _ _ => rfl⟩
  | send p b _ _ ih => exact ih hn (hc.send p b) hv hs
  | recv before after p b x hfl _ ih => exact ih hn (hc.recv hfl) hv hs
  | @visit d r before after a l x hl hx _ ih =>
    have hn' : (before ++ after).Nodup := hn.sublist (List.Sublist.append_left (List.sublist_cons_self _ _) _)
    have ha : a ∉ before ++ after := by
      rw [List.nodup_append] at hn
      have h2 := List.nodup_cons.mp hn.2.1
      intro h
      rcases List.mem_append.mp h with h | h
      · exact hn.2.2 a h a List.mem_cons_self rfl
      · exact h2.1 h
    have hmem : ∀ b, b ∈ before ++ a :: after ↔ b = a ∨ b ∈ before ++ after := by
      intro b; simp only [List.mem_append, List.mem_cons]; tauto
    have hva := hs a ((hmem a).mpr (Or.inl rfl))
    have hr := hcall hc hv hva hl
    rw [hx] at hr
    have hkx := hf.keep _ _ _ hx
    have ih := ih hn' (hc.put hkx) ?_ ?_
    · refine ⟨fun d' h => ?_, ih.2⟩
      obtain ⟨i1, i2, i3, i4⟩ := ih.1 d' h
      refine ⟨i1, i2, fun b hb => ?_, fun b hb => ?_⟩
      · rcases (hmem b).mp hb with rfl | hb
        · rw [i4 b ha, ← hr]
          simp only [DState.put, Function.update_self, Option.map_some]
        · exact i3 b hb
      · rw [hmem, not_or] at hb
        rw [i4 b hb.2]
        exact Function.update_of_ne hb.1 _ _
    · intro b
      by_cases hb : b = a
      · subst hb
        simp only [DState.put, Function.update_self]
        rw [hkx, hv]
      · simp only [DState.put]
        rw [Function.update_of_ne hb]; exact hv b
    · intro b hb
      have : b ≠ a := fun h => ha (h ▸ hb)
      simp only [DState.put]
      rw [Function.update_of_ne this]
      exact hs b ((hmem b).mpr (Or.inr hb))
  | @fail d before after a l hl hx =>
    refine ⟨fun d' h => absurd h (by simp), fun _ => ⟨a, ?_⟩⟩
    have := hcall hc hv (hs a (by simp)) hl
    exact (map_isSome this).mp hx

/-- A pass leaves alone what its function does not write. -/
theorem dpass_keep {V : Type} {v : P → V} {f : P → List P → Option P} (hk : ∀ a l x, f a l = some x → v x = v a) {home : Fin n → Nat} {nbs : Fin n → List (Fin n)}
    {todo : List (Fin n)} {d : DState P n} {r : Option (DState P n)} (h : DPass home f nbs todo d r) (hc : Consistent v d) : ∀ d', r = some d' → Consistent v d' ∧ ∀ a, v (d'.val a) = v (d.val a) := by
  induction h with
  | done hfl => intro d' h; obtain rfl := Option.some.inj h; exact ⟨hc, fun _ => rfl⟩
  | send p b _ _ ih => exact ih (hc.send p b)
  | recv before after p b x hfl _ ih => exact ih (hc.recv hfl)
  | @visit d r before after a l x hl hx _ ih =>
    intro d' h
    obtain ⟨h1, h2⟩ := ih (hc.put (hk _ _ _ hx)) d' h
    refine ⟨h1, fun b => (h2 b).trans ?_⟩
    by_cases hb : b = a
    · subst hb
      simp only [DState.put, Function.update_self]
      exact hk _ _ _ hx
    · simp only [DState.put]; rw [Function.update_of_ne hb]
  | fail => intro d' h; cases h

/-- After a pass a property which the function establishes holds for all visited particles. -/
theorem dpass_inv {I I' : P → Prop} {f : P → List P → Option P} (hk : ∀ a l x, I a → f a l = some x → I' x) {home : Fin n → Nat} {nbs : Fin n → List (Fin n)}
    {todo : List (Fin n)} {d : DState P n} {r : Option (DState P n)} (h : DPass home f nbs todo d r) (hn : todo.Nodup) (h0 : ∀ a ∈ todo, I (d.val a)) (h1 : ∀ a, a ∉ todo → I' (d.val a)) :
    ∀ d', r = some d' → ∀ a, I' (d'.val a) := by
  induction h with
  | done hfl => intro d' h; obtain rfl := Option.some.inj h; exact fun a => h1 a (by simp)
  | send p b _ _ ih => exact ih hn h0 h1
  | recv before after p b x hfl _ ih => exact ih hn h0 h1
  | @visit d r before after a l x hl hx _ ih =>
    have hmem : ∀ b, b ∈ before ++ a :: after ↔ b = a ∨ b ∈ before ++ after := by
      intro b; simp only [List.mem_append, List.mem_cons]; tauto
    have ha : a ∉ before ++ after := by
      rw [List.nodup_append] at hn
      have h2 := List.nodup_cons.mp hn.2.1
      intro h
      rcases List.mem_append.mp h with h | h
      · exact hn.2.2 a h a List.mem_cons_self rfl
      · exact h2.1 h
    refine ih (hn.sublist (List.Sublist.append_left (List.sublist_cons_self _ _) _)) (fun b hb => ?_) (fun b hb => ?_)
    · have : b ≠ a := fun h => ha (h ▸ hb)
      simp only [DState.put]; rw [Function.update_of_ne this]
      exact h0 b ((hmem b).mpr (Or.inr hb))
    · by_cases hba : b = a
      · subst hba
        simp only [DState.put, Function.update_self]
        exact hk _ _ _ (h0 b ((hmem b).mpr (Or.inl rfl))) hx
      · simp only [DState.put]; rw [Function.update_of_ne hba]
        exact h1 b fun h => by rcases (hmem b).mp h with h | h; exacts [hba h, hb h]
  | fail => intro d' h; cases h

theorem dpass_flight {f : P → List P → Option P} {home : Fin n → Nat} {nbs : Fin n → List (Fin n)} {todo : List (Fin n)} {d : DState P n} {r : Option (DState P n)} (h : DPass home f nbs todo d r) :
    ∀ d', r = some d' → d'.flight = [] := by
  induction h with
  | done hfl => intro d' h; obtain rfl := Option.some.inj h; exact hfl
  | send _ _ _ _ ih => exact ih
  | recv _ _ _ _ _ _ _ ih => exact ih
  | visit _ _ _ _ _ _ _ _ ih => exact ih
  | fail => intro d' h; cases h

/-! ### Programs -/

/-- The calls read only what was not written since the tree was built: `V` are the views the copies agree with, `I` what holds for every particle before the calls, `J` what holds after them; `Pre` is what the
search for neighbours needs. -/
def Disciplined (er : P → P) (near : (Fin n → P) → (Fin n → List (Fin n)) → Prop) (Pre J : P → Prop) : List (Op P) → ((P → P) → Prop) → (P → Prop) → Prop
  | [], _, I => ∀ a, I a → J a
  | .all f :: ops, V, I => (∀ a, (f (er a)).map er = (f a).map er) ∧ ∃ I' : P → Prop, (∀ a x, I a → f a = some x → I' x) ∧
      Disciplined er near Pre J ops (fun v => V v ∧ ∀ a x, f a = some x → v x = v a) I'
  | .pass _ f :: ops, V, I => (∃ v, V v ∧ Reads er v f ∧ ∀ a, v (er a) = v a) ∧ (∀ a l, (f (er a) l).map er = (f a l).map er) ∧ (∀ a, I a → Pre a) ∧
      (∀ (s : Fin n → P) nbs nbs', (∀ a, Pre (s a)) → near s nbs → near s nbs' → ∀ a, (f (s a) ((nbs a).map s)).map er = (f (s a) ((nbs' a).map s)).map er) ∧
      ∃ I' : P → Prop, (∀ a l x, I a → f a l = some x → I' x) ∧ Disciplined er near Pre J ops (fun v => V v ∧ ∀ a l x, f a l = some x → v x = v a) I'
  | .reset :: ops, _, I => Disciplined er near Pre J ops (fun _ => True) I
  | .update :: ops, _, I => Disciplined er near Pre J ops (fun _ => True) I
  | .mean g set :: ops, V, I => (∀ a, g (er a) = g a) ∧ (∀ x a, er (set x (er a)) = er (set x a)) ∧ (∀ a, I a → 0 < g a) ∧ ∃ I' : P → Prop, (∀ x a, 0 < x → I a → I' (set x a)) ∧
      Disciplined er near Pre J ops (fun v => V v ∧ ∀ x a, v (set x a) = v a) I'

theorem Disciplined.mono {er : P → P} {near : (Fin n → P) → (Fin n → List (Fin n)) → Prop} {Pre J : P → Prop} : ∀ {ops : List (Op P)} {V V' : (P → P) → Prop} {I : P → Prop}, (∀ v, V v → V' v) →
    Disciplined er near Pre J ops V I → Disciplined er near Pre J ops V' I := by
  intro ops
  induction ops with
  | nil => intro V V' I _ h; exact h
  | cons o ops ih =>
    intro V V' I hV h
    cases o with
    | all f => exact ⟨h.1, h.2.choose, h.2.choose_spec.1, ih (fun v hv => ⟨hV v hv.1, hv.2⟩) h.2.choose_spec.2⟩
    | pass k f =>
      obtain ⟨⟨v, h1, h2⟩, h3, h4, h5, I', h6, h7⟩ := h
      exact ⟨⟨v, hV v h1, h2⟩, h3, h4, h5, I', h6, ih (fun v hv => ⟨hV v hv.1, hv.2⟩) h7⟩
    | reset => exact h
    | update => exact h
    | mean g set =>
      obtain ⟨h1, h2, h3, I', h4, h5⟩ := h
      exact ⟨h1, h2, h3, I', h4, ih (fun v hv => ⟨hV v hv.1, hv.2⟩) h5⟩

theorem mean_pos {procs : Nat} {home : Fin n → Nat} (hh : ∀ a, home a < procs) {g : Fin n → ℝ} (hg : ∀ b, 0 < g b) (a : Fin n) :
    0 < 1 / (n : ℝ) * ∑ p ∈ Finset.range procs, ∑ b with home b = p, g b := by
  rw [Finset.sum_fiberwise_of_maps_to (fun b _ => Finset.mem_range.mpr (hh b)) g]
  have hn : 0 < n := a.pos
  have : (0 : ℝ) < ∑ b, g b := Finset.sum_pos (fun b _ => hg b) ⟨a, Finset.mem_univ _⟩
  positivity

/-- What holds after a disciplined program. -/
theorem exec_post {er : P → P} {near : (Fin n → P) → (Fin n → List (Fin n)) → Prop} {Pre J : P → Prop} {procs : Nat} {ops : List (Op P)} {home : Fin n → Nat} {d : DState P n}
    {r : Option ((Fin n → Nat) × DState P n)} (h : DExec near procs ops home d r) : ∀ {V : (P → P) → Prop} {I : P → Prop}, Disciplined er near Pre J ops V I → (∀ a, I (d.val a)) → d.flight = [] →
      ∀ x, r = some x → (∀ a, J (x.2.val a)) ∧ x.2.flight = [] := by
  induction h with
  | nil => intro V I hD hI hf x h; obtain rfl := Option.some.inj h; exact ⟨fun a => hD _ (hI a), hf⟩
  | all v hv _ ih =>
    rintro V I ⟨-, I', h1, h2⟩ hI hf x h
    exact ih h2 (fun a => h1 _ _ (hI a) (hv a)) hf x h
  | allFail => intro V I hD hI hf x h; cases h
  | @pass k f ops home d d1 r nbs order hn ho hall hp _ ih =>
    rintro V I ⟨-, -, -, -, I', h1, h2⟩ hI hf x h
    refine ih h2 (dpass_inv h1 hp ho (fun a _ => hI a) (fun a ha => absurd (hall a) ha) d1 rfl) (dpass_flight hp d1 rfl) x h
  | passFail => intro V I hD hI hf x h; cases h
  | reset hb _ ih => intro V I hD hI hf x h; exact ih hD (fun a => by rw [hb.val]; exact hI a) hb.flight x h
  | update _ hb _ ih => intro V I hD hI hf x h; exact ih hD (fun a => by rw [hb.val]; exact hI a) hb.flight x h
  | @mean g set ops home d r hh _ ih =>
    rintro V I ⟨-, -, h0, I', h1, h2⟩ hI hf x h
    exact ih h2 (fun a => h1 _ _ (mean_pos hh (fun b => h0 _ (hI b)) a) (hI a)) hf x h

theorem sum_homes {procs : Nat} {home : Fin n → Nat} (hh : ∀ a, home a < procs) (g : Fin n → ℝ) : ∑ p ∈ Finset.range procs, ∑ b with home b = p, g b = ∑ b, g b :=
  Finset.sum_fiberwise_of_maps_to (fun b _ => Finset.mem_range.mpr (hh b)) g

theorem Rebuilt.consistent {V : Type} {d d' : DState P n} (h : Rebuilt d d') (v : P → V) : Consistent v d' := by
  refine ⟨fun p b x hx => by rw [h.copy p b x hx, h.val], fun p b x hx => ?_⟩
  rw [h.flight] at hx; simp at hx

/-- Two executions of a disciplined program, with any numbers of processes, homes, neighbour lists, visiting orders and messages, end with the same particles (up to what `er` forgets), or both end with a
failed assertion. -/
theorem exec_agree {er : P → P} {near : (Fin n → P) → (Fin n → List (Fin n)) → Prop} {Pre J : P → Prop} (hnear : ∀ s s' nbs, (∀ a, er (s a) = er (s' a)) → near s nbs → near s' nbs)
    {procs procs' : Nat} {ops : List (Op P)} {home : Fin n → Nat} {d : DState P n} {r : Option ((Fin n → Nat) × DState P n)} (h : DExec near procs ops home d r) :
    ∀ {V : (P → P) → Prop} {I : P → Prop} {d' : DState P n} {home' : Fin n → Nat} {r' : Option ((Fin n → Nat) × DState P n)}, Disciplined er near Pre J ops V I →
      (∀ v, V v → Consistent v d) → (∀ v, V v → Consistent v d') → (∀ a, I (d.val a)) → (∀ a, I (d'.val a)) → (∀ a, er (d.val a) = er (d'.val a)) →
      DExec near procs' ops home' d' r' → (r.map fun x a => er (x.2.val a)) = r'.map fun x a => er (x.2.val a) := by
  induction h with
  | nil =>
    intro V I d' home' r' _ _ _ _ _ he h'
    cases h'
    exact congrArg some (funext he)
  | @all f ops home d r w hw _ ih =>
    rintro V I d' home' r' ⟨hf, I', hI, hD⟩ c1 c2 i1 i2 he h'
    have hcomm : ∀ a, (f (d.val a)).map er = (f (d'.val a)).map er := fun a => by rw [← hf, he a, hf]
    have kc : ∀ {d : DState P n} {u : Fin n → P}, (∀ v, V v → Consistent v d) → (∀ a, f (d.val a) = some (u a)) → ∀ v, (V v ∧ ∀ a x, f a = some x → v x = v a) → Consistent v { d with val := u } := by
      intro d u hc hu v hv
      have := hc v hv.1
      exact ⟨fun p b x hx => (this.copy p b x hx).trans (hv.2 _ _ (hu b)).symm, fun p b x hx => (this.flight p b x hx).trans (hv.2 _ _ (hu b)).symm⟩
    cases h' with
    | all w' hw' h' =>
      refine ih hD (kc c1 hw) (kc c2 hw') (fun a => hI _ _ (i1 a) (hw a)) (fun a => hI _ _ (i2 a) (hw' a)) (fun a => ?_) h'
      have := hcomm a
      rw [hw, hw'] at this
      exact Option.some.inj this
    | allFail a ha =>
      have := hcomm a
      rw [hw, ha] at this
      cases this
  | @allFail f ops home d a ha =>
    rintro V I d' home' r' ⟨hf, I', hI, hD⟩ c1 c2 i1 i2 he h'
    have hcomm : (f (d.val a)).map er = (f (d'.val a)).map er := by rw [← hf, he a, hf]
    cases h' with
    | all w' hw' h' =>
      rw [ha, hw'] at hcomm
      cases hcomm
    | allFail a ha => rfl
  | @pass k f ops home d d1 r nbs order hn ho hall hp _ ih =>
    rintro V I d' home' r' ⟨⟨v, hv, hr, hve⟩, hf, hpre, hl, I', hI, hD⟩ c1 c2 i1 i2 he h'
    have hres := (dpass_result hr d.val hp ho (c1 v hv) (fun _ => rfl) (fun _ _ => rfl)).1 d1 rfl
    have key : ∀ nbs', near d'.val nbs' → ∀ a, (f (d.val a) ((nbs a).map d.val)).map er = (f (d'.val a) ((nbs' a).map d'.val)).map er := by
      intro nbs' hn' a
      rw [hl d.val nbs nbs' (fun a => hpre _ (i1 a)) hn (hnear _ _ _ (fun a => (he a).symm) hn') a, ← hf, he a, hf]
      refine hr.read _ _ _ ?_
      rw [List.map_map, List.map_map]
      exact List.map_congr_left fun b _ => by simp only [Function.comp]; rw [← hve, he b, hve]
    cases h' with
    | @pass _ _ _ _ _ d2 _ nbs' order' hn' ho' hall' hp' h' =>
      have hres' := (dpass_result hr d'.val hp' ho' (c2 v hv) (fun _ => rfl) (fun _ _ => rfl)).1 d2 rfl
      refine ih hD (fun u hu => (dpass_keep hu.2 hp (c1 u hu.1) d1 rfl).1) (fun u hu => (dpass_keep hu.2 hp' (c2 u hu.1) d2 rfl).1)
        (dpass_inv hI hp ho (fun a _ => i1 a) (fun a ha => absurd (hall a) ha) d1 rfl) (dpass_inv hI hp' ho' (fun a _ => i2 a) (fun a ha => absurd (hall' a) ha) d2 rfl) (fun a => ?_) h'
      have e1 := hres.2.2.1 a (hall a)
      have e2 := hres'.2.2.1 a (hall' a)
      rw [key nbs' hn' a, e2] at e1
      exact (Option.some.inj e1).symm
    | passFail nbs' order' hn' ho' hall' hp' =>
      obtain ⟨a, ha⟩ := (dpass_result hr d'.val hp' ho' (c2 v hv) (fun _ => rfl) (fun _ _ => rfl)).2 rfl
      have e1 := hres.2.2.1 a (hall a)
      rw [key nbs' hn' a, ha] at e1
      cases e1
  | @passFail k f ops home d nbs order hn ho hall hp =>
    rintro V I d' home' r' ⟨⟨v, hv, hr, hve⟩, hf, hpre, hl, I', hI, hD⟩ c1 c2 i1 i2 he h'
    obtain ⟨a, ha⟩ := (dpass_result hr d.val hp ho (c1 v hv) (fun _ => rfl) (fun _ _ => rfl)).2 rfl
    have key : ∀ nbs', near d'.val nbs' → ∀ a, (f (d.val a) ((nbs a).map d.val)).map er = (f (d'.val a) ((nbs' a).map d'.val)).map er := by
      intro nbs' hn' a
      rw [hl d.val nbs nbs' (fun a => hpre _ (i1 a)) hn (hnear _ _ _ (fun a => (he a).symm) hn') a, ← hf, he a, hf]
      refine hr.read _ _ _ ?_
      rw [List.map_map, List.map_map]
      exact List.map_congr_left fun b _ => by simp only [Function.comp]; rw [← hve, he b, hve]
    cases h' with
    | @pass _ _ _ _ _ d2 _ nbs' order' hn' ho' hall' hp' h' =>
      have hres' := (dpass_result hr d'.val hp' ho' (c2 v hv) (fun _ => rfl) (fun _ _ => rfl)).1 d2 rfl
      have e2 := hres'.2.2.1 a (hall' a)
      rw [← key nbs' hn' a, ha] at e2
      cases e2
    | passFail => rfl
  | @reset ops home d d1 r hb _ ih =>
    intro V I d' home' r' hD c1 c2 i1 i2 he h'
    cases h' with
    | @reset _ _ _ d2 _ hb' h' =>
      exact ih hD (fun v _ => hb.consistent v) (fun v _ => hb'.consistent v) (fun a => by rw [hb.val]; exact i1 a) (fun a => by rw [hb'.val]; exact i2 a) (fun a => by rw [hb.val, hb'.val]; exact he a) h'
  | @update ops home home1 d d1 r hh hb _ ih =>
    intro V I d' home' r' hD c1 c2 i1 i2 he h'
    cases h' with
    | @update _ _ home2 _ d2 _ hh' hb' h' =>
      exact ih hD (fun v _ => hb.consistent v) (fun v _ => hb'.consistent v) (fun a => by rw [hb.val]; exact i1 a) (fun a => by rw [hb'.val]; exact i2 a) (fun a => by rw [hb.val, hb'.val]; exact he a) h'
  | @mean g set ops home d r hh _ ih =>
    rintro V I d' home' r' ⟨hg, hset, hpos, I', hI, hD⟩ c1 c2 i1 i2 he h'
    cases h' with
    | mean hh' h' =>
      have p1 := fun a => mean_pos hh (fun b => hpos _ (i1 b)) a
      rw [sum_homes hh'] at h'
      rw [sum_homes hh] at ih p1
      have e : ∑ b, g (d'.val b) = ∑ b, g (d.val b) := Finset.sum_congr rfl fun b _ => by rw [← hg, ← he b, hg]
      rw [e] at h'
      have kc : ∀ {d : DState P n} (x : ℝ), (∀ v, V v → Consistent v d) → ∀ v, (V v ∧ ∀ x a, v (set x a) = v a) → Consistent v { d with val := fun a => set x (d.val a) } := by
        intro d x hc v hv
        have := hc v hv.1
        exact ⟨fun p b y hy => (this.copy p b y hy).trans (hv.2 _ _).symm, fun p b y hy => (this.flight p b y hy).trans (hv.2 _ _).symm⟩
      refine ih hD (kc _ c1) (kc _ c2) (fun a => hI _ _ (p1 a) (i1 a)) (fun a => hI _ _ (p1 a) (i2 a)) (fun a => ?_) h'
      show er (set _ (d.val a)) = er (set _ (d'.val a))
      rw [← hset, he a, hset]

/-! ### Executions exist -/

/-- The tree is built again and every process gets a copy of everything. -/
def fresh (d : DState P n) : DState P n := ⟨d.val, fun _ b => some (d.val b), []⟩

theorem fresh_rebuilt (d : DState P n) : Rebuilt d (fresh d) := ⟨rfl, fun _ _ _ h => (Option.some.inj h).symm, rfl⟩


/-- Every process has a copy of every particle. -/
def Full (d : DState P n) : Prop := ∀ p b, (d.copy p b).isSome

theorem see_some {home : Fin n → Nat} {d : DState P n} (h : Full d) (p : Nat) (l : List (Fin n)) : ∃ m, l.mapM (d.see home p) = some m := by
  induction l with
  | nil => exact ⟨[], rfl⟩
  | cons b l ih =>
    obtain ⟨m, hm⟩ := ih
    obtain ⟨x, hx⟩ : ∃ x, d.see home p b = some x := by
      unfold DState.see
      split_ifs
      · exact ⟨_, rfl⟩
      · exact Option.isSome_iff_exists.mp (h p b)
    exact ⟨x :: m, by rw [List.mapM_cons, hx, hm]; rfl⟩

theorem dpass_exists (home : Fin n → Nat) (f : P → List P → Option P) (nbs : Fin n → List (Fin n)) : ∀ (todo : List (Fin n)) (d : DState P n), Full d → d.flight = [] →
    DPass home f nbs todo d none ∨ ∃ d', DPass home f nbs todo d (some d') ∧ Full d' := by
  intro todo
  induction todo with
  | nil => intro d hd hf; exact Or.inr ⟨d, .done hf, hd⟩
  | cons a todo ih =>
    intro d hd hf
    obtain ⟨l, hl⟩ := see_some (home := home) hd (home a) (nbs a)
    rcases hx : f (d.val a) l with _ | x
    · exact Or.inl (.fail [] todo a l hl hx)
    · rcases ih (d.put a x) hd hf with h | ⟨d', h, h'⟩
      · exact Or.inl (.visit [] todo a l x hl hx h)
      · exact Or.inr ⟨d', .visit [] todo a l x hl hx h, h'⟩

/-- A program can be executed with any homes, if the search delivers lists for every state it is used on. -/
theorem exec_exists {er : P → P} {near : (Fin n → P) → (Fin n → List (Fin n)) → Prop} {Pre J : P → Prop} (hsearch : ∀ s, (∀ a, Pre (s a)) → ∃ nbs, near s nbs) {procs : Nat} {home : Fin n → Nat}
    (hh : ∀ a, home a < procs) : ∀ {ops : List (Op P)} {V : (P → P) → Prop} {I : P → Prop} {d : DState P n}, Disciplined er near Pre J ops V I → (∀ a, I (d.val a)) → Full d → d.flight = [] →
      ∃ r, DExec near procs ops home d r ∧ ∀ x, r = some x → x.1 = home ∧ Full x.2 := by
  intro ops
  induction ops with
  | nil => intro V I d _ _ hF _; exact ⟨_, .nil, fun x h => by obtain rfl := Option.some.inj h; exact ⟨rfl, hF⟩⟩
  | cons o ops ih =>
    intro V I d hD hI hF hfl
    cases o with
    | all f =>
      obtain ⟨-, I', h1, h2⟩ := hD
      by_cases hs : ∃ a, f (d.val a) = none
      · obtain ⟨a, ha⟩ := hs
        exact ⟨none, .allFail a ha, fun x h => by cases h⟩
      · push Not at hs
        have hs' : ∀ a, ∃ x, f (d.val a) = some x := fun a => Option.ne_none_iff_exists'.mp (hs a)
        choose v hv using hs'
        obtain ⟨r, hr, hx⟩ := ih (d := { d with val := v }) h2 (fun a => h1 _ _ (hI a) (hv a)) hF hfl
        exact ⟨r, .all v hv hr, hx⟩
    | pass k f =>
      obtain ⟨-, -, h0, -, I', h1, h2⟩ := hD
      obtain ⟨nbs, hn⟩ := hsearch d.val fun a => h0 _ (hI a)
      rcases dpass_exists home f nbs (List.finRange n) d hF hfl with h | ⟨d', h, hF'⟩
      · exact ⟨none, .passFail nbs _ hn (List.nodup_finRange n) (List.mem_finRange) h, fun x h => by cases h⟩
      · obtain ⟨r, hr, hx⟩ := ih (d := d') h2 (dpass_inv h1 h (List.nodup_finRange n) (fun a _ => hI a) (fun a ha => absurd (List.mem_finRange a) ha) d' rfl) hF' (dpass_flight h d' rfl)
        exact ⟨r, .pass nbs _ hn (List.nodup_finRange n) (List.mem_finRange) h hr, hx⟩
    | reset =>
      obtain ⟨r, hr, hx⟩ := ih (d := fresh d) hD hI (fun _ _ => rfl) rfl
      exact ⟨r, .reset (fresh_rebuilt d) hr, hx⟩
    | update =>
      obtain ⟨r, hr, hx⟩ := ih (d := fresh d) hD hI (fun _ _ => rfl) rfl
      exact ⟨r, .update hh (fresh_rebuilt d) hr, hx⟩
    | mean g set =>
      obtain ⟨-, -, h0, I', h1, h2⟩ := hD
      obtain ⟨r, hr, hx⟩ := ih (d := { d with val := fun a => set (1 / (n : ℝ) * ∑ p ∈ Finset.range procs, ∑ b with home b = p, g (d.val b)) (d.val a) }) h2
        (fun a => h1 _ _ (mean_pos hh (fun b => h0 _ (hI b)) a) (hI a)) hF hfl
      exact ⟨r, .mean hh hr, hx⟩

/-! ### One process -/

/-- The calls on one process, with the lists and orders of a schedule. -/
noncomputable def exec1 {i : Fin 3} (w : Schedule i n) : List (Op (Particle (i + 1))) → (Fin n → Particle (i + 1)) → Option (Fin n → Particle (i + 1))
  | [], s => some s
  | .all f :: ops, s => (applyAllM f s).bind (exec1 w ops)
  | .pass k f :: ops, s => (sphPassM w k f s).bind (exec1 w ops)
  | .reset :: ops, s => exec1 w ops s
  | .update :: ops, s => exec1 w ops s
  | .mean g set :: ops, s => exec1 w ops fun a => set (1 / (n : ℝ) * ∑ b, g (s b)) (s a)

theorem mapM_home (d : DState P n) (l : List (Fin n)) : l.mapM (d.see (fun _ => 0) 0) = some (l.map d.val) := by
  induction l with
  | nil => rfl
  | cons b l ih => rw [List.mapM_cons, ih]; rfl

theorem passM_dpass (f : P → List P → Option P) (nbs : Fin n → List (Fin n)) : ∀ (order : List (Fin n)) (d : DState P n), d.flight = [] →
    DPass (fun _ => 0) f nbs order d ((passM f nbs order d.val).map fun s => { d with val := s }) := by
  intro order
  induction order with
  | nil => intro d h; exact .done h
  | cons a l ih =>
    intro d h
    rw [passM_cons]
    rcases hx : f (d.val a) ((nbs a).map d.val) with _ | x
    · exact .fail [] l a _ (mapM_home d _) hx
    · exact .visit [] l a _ x (mapM_home d _) hx (ih (d.put a x) h)

theorem exec1_exec {i : Fin 3} {er : Particle (i + 1) → Particle (i + 1)} {near : (Fin n → Particle (i + 1)) → (Fin n → List (Fin n)) → Prop} {Pre J : Particle (i + 1) → Prop} (w : Schedule i n)
    (hw : ∀ s, (∀ a, Pre (s a)) → near s (w.search s)) (ho : ∀ k, VisitsAll (w.order k)) : ∀ {ops : List (Op (Particle (i + 1)))} {V : (Particle (i + 1) → Particle (i + 1)) → Prop}
    {I : Particle (i + 1) → Prop} {d : DState (Particle (i + 1)) n}, Disciplined er near Pre J ops V I → (∀ a, I (d.val a)) → d.flight = [] →
      ∃ r, DExec near 1 ops (fun _ => 0) d r ∧ (r.map fun x => x.2.val) = exec1 w ops d.val ∧ ∀ x, r = some x → x.1 = fun _ => 0 := by
  intro ops
  induction ops with
  | nil => intro V I d _ _ _; exact ⟨_, .nil, rfl, fun x h => by obtain rfl := Option.some.inj h; rfl⟩
  | cons o ops ih =>
    intro V I d hD hI hfl
    cases o with
    | all f =>
      obtain ⟨-, I', h1, h2⟩ := hD
      rw [exec1]
      rcases hs : applyAllM f d.val with _ | v
      · obtain ⟨a, ha⟩ : ∃ a, f (d.val a) = none := by
          by_contra hc
          push Not at hc
          have : ∀ a, ∃ x, f (d.val a) = some x := fun a => Option.ne_none_iff_exists'.mp (hc a)
          choose v hv using this
          rw [(applyAllM_iff f d.val v).mpr hv] at hs
          cases hs
        exact ⟨none, .allFail a ha, rfl, fun x h => by cases h⟩
      · have hv := (applyAllM_iff f d.val v).mp hs
        obtain ⟨r, hr, hx, hy⟩ := ih (d := { d with val := v }) h2 (fun a => h1 _ _ (hI a) (hv a)) hfl
        exact ⟨r, .all v hv hr, hx, hy⟩
    | pass k f =>
      obtain ⟨-, -, h0, -, I', h1, h2⟩ := hD
      have hn := hw d.val fun a => h0 _ (hI a)
      have hp := passM_dpass f (w.search d.val) (w.order k) d hfl
      rw [exec1, sphPassM]
      rcases hs : passM f (w.search d.val) (w.order k) d.val with _ | v
      · rw [hs] at hp
        exact ⟨none, .passFail _ _ hn (ho k).nodup (ho k).all hp, rfl, fun x h => by cases h⟩
      · rw [hs] at hp
        obtain ⟨r, hr, hx, hy⟩ := ih (d := { d with val := v }) h2 (dpass_inv h1 hp (ho k).nodup (fun a _ => hI a) (fun a ha => absurd ((ho k).all a) ha) _ rfl) hfl
        exact ⟨r, .pass _ _ hn (ho k).nodup (ho k).all hp hr, hx, hy⟩
    | reset =>
      obtain ⟨r, hr, hx, hy⟩ := ih (d := fresh d) hD hI rfl
      exact ⟨r, .reset (fresh_rebuilt d) hr, hx, hy⟩
    | update =>
      obtain ⟨r, hr, hx, hy⟩ := ih (d := fresh d) hD hI rfl
      exact ⟨r, .update (fun _ => Nat.one_pos) (fresh_rebuilt d) hr, hx, hy⟩
    | mean g set =>
      obtain ⟨-, -, h0, I', h1, h2⟩ := hD
      have hp := fun a => mean_pos (procs := 1) (home := fun _ => 0) (fun _ => Nat.one_pos) (fun b => h0 _ (hI b)) a
      have e := sum_homes (procs := 1) (home := fun _ => 0) (fun _ => Nat.one_pos) fun b => g (d.val b)
      rw [e] at hp
      obtain ⟨r, hr, hx, hy⟩ := ih (d := { d with val := fun a => set (1 / (n : ℝ) * ∑ b, g (d.val b)) (d.val a) }) h2 (fun a => h1 _ _ (hp a) (hI a)) hfl
      refine ⟨r, .mean (fun _ => Nat.one_pos) ?_, hx, hy⟩
      rw [e]; exact hr

end FleCSPH.DistRun
