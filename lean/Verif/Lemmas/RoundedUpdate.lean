import Verif.Model.RoundedUpdate
import Verif.Spec.RoundedIteration
import Verif.Spec.ServedRounded
import Verif.Lemmas.Update
import Verif.Props.C80
/-! `update_iteration` with rounding, up to the trees. -/
namespace FleCSPH.RoundedUpdate
open FleCSPH.Spec FleCSPH.Cofm FleCSPH.Psort FleCSPH.Startup
open FleCSPH.Update (Ent discOf axis itemOf bodyAt ranksOf entOf mapM_map Division.pos Division.mem bodyAt_key mem_ranksOf ranksOf_get leafOf_congr)
open FleCSPH.Rounded (Rounding)
open FleCSPH.Distribute (Disc less)

variable {d n P : Nat} {R : Rounding}

/-! ### The range -/

private theorem fold_extend (j : Fin d) (l : List (Disc d)) (r : ℝ × ℝ) :
    (l.foldl (extend R j) r).1 ≤ r.1 ∧ r.2 ≤ (l.foldl (extend R j) r).2 ∧
    (∀ b ∈ l, (l.foldl (extend R j) r).1 ≤ R.fl (b.pos j - b.radius) ∧ R.fl (b.pos j + b.radius) ≤ (l.foldl (extend R j) r).2) ∧
    ((l.foldl (extend R j) r).1 = r.1 ∨ ∃ b ∈ l, (l.foldl (extend R j) r).1 = R.fl (b.pos j - b.radius)) ∧
    ((l.foldl (extend R j) r).2 = r.2 ∨ ∃ b ∈ l, (l.foldl (extend R j) r).2 = R.fl (b.pos j + b.radius)) := by
  induction l generalizing r with
  | nil => exact ⟨le_rfl, le_rfl, by simp, Or.inl rfl, Or.inl rfl⟩
  | cons b l ih =>
    obtain ⟨h1, h2, h3, h4, h5⟩ := ih (extend R j r b)
    simp only [List.foldl_cons]
    have e1 : (extend R j r b).1 ≤ r.1 ∧ (extend R j r b).1 ≤ R.fl (b.pos j - b.radius) ∧ ((extend R j r b).1 = r.1 ∨ (extend R j r b).1 = R.fl (b.pos j - b.radius)) := by
      unfold extend
      simp only
      split_ifs with h
      · exact ⟨h.le, le_rfl, Or.inr rfl⟩
      · exact ⟨le_rfl, not_lt.mp h, Or.inl rfl⟩
    have e2 : r.2 ≤ (extend R j r b).2 ∧ R.fl (b.pos j + b.radius) ≤ (extend R j r b).2 ∧ ((extend R j r b).2 = r.2 ∨ (extend R j r b).2 = R.fl (b.pos j + b.radius)) := by
      unfold extend
      simp only
      split_ifs with h
      · exact ⟨(gt_iff_lt.mp h).le, le_rfl, Or.inr rfl⟩
      · exact ⟨le_rfl, not_lt.mp h, Or.inl rfl⟩
    refine ⟨h1.trans e1.1, e2.1.trans h2, ?_, ?_, ?_⟩
    · intro c hc
      rcases List.mem_cons.mp hc with rfl | hc
      · exact ⟨h1.trans e1.2.1, e2.2.1.trans h2⟩
      · exact h3 c hc
    · rcases h4 with h4 | ⟨c, hc, h4⟩
      · rcases e1.2.2 with e | e
        · left; rw [h4, e]
        · right; exact ⟨b, List.mem_cons_self, by rw [h4, e]⟩
      · right; exact ⟨c, List.mem_cons_of_mem _ hc, h4⟩
    · rcases h5 with h5 | ⟨c, hc, h5⟩
      · rcases e2.2.2 with e | e
        · left; rw [h5, e]
        · right; exact ⟨b, List.mem_cons_self, by rw [h5, e]⟩
      · right; exact ⟨c, List.mem_cons_of_mem _ hc, h5⟩

private theorem local_spec (l : List (Disc d)) (r : Fin d → ℝ × ℝ) (h : localRange R l = some r) (hr : ∀ b ∈ l, ∀ j, R.fl (b.pos j - b.radius) ≤ b.pos j ∧ b.pos j ≤ R.fl (b.pos j + b.radius)) (j : Fin d) :
    (∀ b ∈ l, (r j).1 ≤ R.fl (b.pos j - b.radius) ∧ R.fl (b.pos j + b.radius) ≤ (r j).2) ∧
    (∃ b ∈ l, (r j).1 = R.fl (b.pos j - b.radius)) ∧ (∃ b ∈ l, (r j).2 = R.fl (b.pos j + b.radius)) := by
  unfold localRange at h
  cases hl : l.getLast? with
  | none => rw [hl] at h; simp at h
  | some c =>
    rw [hl] at h
    obtain rfl := (Option.some.inj h).symm
    have hc : c ∈ l := List.mem_of_getLast? hl
    obtain ⟨h1, h2, h3, h4, h5⟩ := fold_extend (R := R) j l (c.pos j, c.pos j)
    have hcc := h3 c hc
    have hrc := hr c hc j
    refine ⟨h3, ?_, ?_⟩
    · rcases h4 with h4 | h4
      · refine ⟨c, hc, ?_⟩
        simp only at h4 ⊢
        linarith [hcc.1, hrc.1]
      · exact h4
    · rcases h5 with h5 | h5
      · refine ⟨c, hc, ?_⟩
        simp only at h5 ⊢
        linarith [hcc.2, hrc.2]
      · exact h5

private theorem fold_min (f : (Fin d → ℝ × ℝ) → ℝ) (l : List (Fin d → ℝ × ℝ)) (m : ℝ) :
    l.foldl (fun m q => min m (f q)) m ≤ m ∧ (∀ q ∈ l, l.foldl (fun m q => min m (f q)) m ≤ f q) ∧
    (l.foldl (fun m q => min m (f q)) m = m ∨ ∃ q ∈ l, l.foldl (fun m q => min m (f q)) m = f q) := by
  induction l generalizing m with
  | nil => exact ⟨le_rfl, by simp, Or.inl rfl⟩
  | cons a l ih =>
    obtain ⟨h1, h2, h3⟩ := ih (min m (f a))
    simp only [List.foldl_cons]
    refine ⟨h1.trans (min_le_left _ _), ?_, ?_⟩
    · intro q hq
      rcases List.mem_cons.mp hq with rfl | hq
      · exact h1.trans (min_le_right _ _)
      · exact h2 q hq
    · rcases h3 with h3 | ⟨q, hq, h3⟩
      · rcases min_choice m (f a) with e | e
        · left; rw [h3, e]
        · right; exact ⟨a, List.mem_cons_self, by rw [h3, e]⟩
      · right; exact ⟨q, List.mem_cons_of_mem _ hq, h3⟩

private theorem fold_max (f : (Fin d → ℝ × ℝ) → ℝ) (l : List (Fin d → ℝ × ℝ)) (m : ℝ) :
    m ≤ l.foldl (fun m q => max m (f q)) m ∧ (∀ q ∈ l, f q ≤ l.foldl (fun m q => max m (f q)) m) ∧
    (l.foldl (fun m q => max m (f q)) m = m ∨ ∃ q ∈ l, l.foldl (fun m q => max m (f q)) m = f q) := by
  induction l generalizing m with
  | nil => exact ⟨le_rfl, by simp, Or.inl rfl⟩
  | cons a l ih =>
    obtain ⟨h1, h2, h3⟩ := ih (max m (f a))
    simp only [List.foldl_cons]
    refine ⟨(le_max_left _ _).trans h1, ?_, ?_⟩
    · intro q hq
      rcases List.mem_cons.mp hq with rfl | hq
      · exact (le_max_right _ _).trans h1
      · exact h2 q hq
    · rcases h3 with h3 | ⟨q, hq, h3⟩
      · rcases max_choice m (f a) with e | e
        · left; rw [h3, e]
        · right; exact ⟨a, List.mem_cons_self, by rw [h3, e]⟩
      · right; exact ⟨q, List.mem_cons_of_mem _ hq, h3⟩

private theorem mapM_mem {α β : Type} (f : α → Option β) : ∀ (l : List α) (r : List β), l.mapM f = some r →
    (∀ x ∈ l, ∃ y ∈ r, f x = some y) ∧ ∀ y ∈ r, ∃ x ∈ l, f x = some y := by
  intro l
  induction l with
  | nil => intro r h; simp at h; subst h; simp
  | cons a l ih =>
    intro r h
    rw [List.mapM_cons] at h
    simp only [Option.bind_eq_bind, Option.pure_def] at h
    obtain ⟨y, h1, h⟩ := Option.bind_eq_some_iff.mp h
    obtain ⟨ys, h2, h⟩ := Option.bind_eq_some_iff.mp h
    obtain rfl := Option.some.inj h
    obtain ⟨i1, i2⟩ := ih ys h2
    constructor
    · intro x hx
      rcases List.mem_cons.mp hx with rfl | hx
      · exact ⟨y, List.mem_cons_self, h1⟩
      · obtain ⟨z, hz, e⟩ := i1 x hx
        exact ⟨z, List.mem_cons_of_mem _ hz, e⟩
    · intro z hz
      rcases List.mem_cons.mp hz with rfl | hz
      · exact ⟨a, List.mem_cons_self, h1⟩
      · obtain ⟨x, hx, e⟩ := i2 z hz
        exact ⟨x, List.mem_cons_of_mem _ hx, e⟩

/-- If every process holds at least one particle and rounding does not move the faces across the centres, the range is defined, contains every particle of every process
with its radius, and is the smallest such box: every face is touched by a particle. -/
theorem range_spec (procs : List (List (Disc d))) (hp : procs ≠ []) (hne : ∀ l ∈ procs, l ≠ []) (hr : ∀ l ∈ procs, ∀ b ∈ l, ∀ j, R.fl (b.pos j - b.radius) ≤ b.pos j ∧ b.pos j ≤ R.fl (b.pos j + b.radius)) :
    ∃ range, computeRange R procs = some range ∧ ∀ j,
      (∀ l ∈ procs, ∀ b ∈ l, (range j).1 ≤ R.fl (b.pos j - b.radius) ∧ R.fl (b.pos j + b.radius) ≤ (range j).2) ∧
      (∃ l ∈ procs, ∃ b ∈ l, (range j).1 = R.fl (b.pos j - b.radius)) ∧ ∃ l ∈ procs, ∃ b ∈ l, (range j).2 = R.fl (b.pos j + b.radius) := by
  obtain ⟨rs, hrs⟩ : ∃ rs, procs.mapM (localRange R (d := d)) = some rs := by
    clear hp hr
    induction procs with
    | nil => exact ⟨[], rfl⟩
    | cons l procs ih =>
      obtain ⟨rs, hrs⟩ := ih fun l hl => hne l (List.mem_cons_of_mem _ hl)
      have hl := hne l List.mem_cons_self
      have h1 : ∃ r, localRange R l = some r := by
        unfold localRange
        rw [List.getLast?_eq_getLast_of_ne_nil hl]
        exact ⟨_, rfl⟩
      obtain ⟨r, h1⟩ := h1
      exact ⟨r :: rs, by rw [List.mapM_cons, h1, hrs]; rfl⟩
  obtain ⟨m1, m2⟩ := mapM_mem _ _ _ hrs
  cases rs with
  | nil =>
    obtain ⟨l, hl⟩ := List.exists_mem_of_ne_nil _ hp
    obtain ⟨y, hy, _⟩ := m1 l hl
    simp at hy
  | cons r rs =>
    refine ⟨_, by unfold computeRange; rw [hrs], fun j => ?_⟩
    obtain ⟨a1, a2, a3⟩ := fold_min (fun q => (q j).1) rs (r j).1
    obtain ⟨b1, b2, b3⟩ := fold_max (fun q => (q j).2) rs (r j).2
    simp only
    have all1 : ∀ q ∈ r :: rs, rs.foldl (fun m q => min m (q j).1) (r j).1 ≤ (q j).1 ∧ (q j).2 ≤ rs.foldl (fun m q => max m (q j).2) (r j).2 := by
      intro q hq
      rcases List.mem_cons.mp hq with rfl | hq
      · exact ⟨a1, b1⟩
      · exact ⟨a2 q hq, b2 q hq⟩
    refine ⟨?_, ?_, ?_⟩
    · intro l hl b hb
      obtain ⟨q, hq, e⟩ := m1 l hl
      have := (local_spec l q e (hr l hl) j).1 b hb
      have h2 := all1 q hq
      exact ⟨h2.1.trans this.1, this.2.trans h2.2⟩
    · obtain ⟨q, hq, e⟩ : ∃ q ∈ r :: rs, rs.foldl (fun m q => min m (q j).1) (r j).1 = (q j).1 := by
        rcases a3 with e | ⟨q, hq, e⟩
        · exact ⟨r, List.mem_cons_self, e⟩
        · exact ⟨q, List.mem_cons_of_mem _ hq, e⟩
      obtain ⟨l, hl, e2⟩ := m2 q hq
      obtain ⟨b, hb, e3⟩ := (local_spec l q e2 (hr l hl) j).2.1
      exact ⟨l, hl, b, hb, e.trans e3⟩
    · obtain ⟨q, hq, e⟩ : ∃ q ∈ r :: rs, rs.foldl (fun m q => max m (q j).2) (r j).2 = (q j).2 := by
        rcases b3 with e | ⟨q, hq, e⟩
        · exact ⟨r, List.mem_cons_self, e⟩
        · exact ⟨q, List.mem_cons_of_mem _ hq, e⟩
      obtain ⟨l, hl, e2⟩ := m2 q hq
      obtain ⟨b, hb, e3⟩ := (local_spec l q e2 (hr l hl) j).2.2
      exact ⟨l, hl, b, hb, e.trans e3⟩

/-- The corners of the range. -/
noncomputable def boxLowR (R : Rounding) (body : Fin n → Body d) (j : Fin d) : ℝ := ⨅ a, R.fl ((body a).pos j - (body a).h)
noncomputable def boxHighR (R : Rounding) (body : Fin n → Body d) (j : Fin d) : ℝ := ⨆ a, R.fl ((body a).pos j + (body a).h)

/-- A face of the box of a particle is on its side of the centre, and not further away than two smoothing lengths. -/
theorem resolved_face {body : Fin n → Body d} (hres : Resolved R.u body) (a : Fin n) (j : Fin d) :
    ((body a).pos j - 2 * (body a).h < R.fl ((body a).pos j - (body a).h) ∧ R.fl ((body a).pos j - (body a).h) < (body a).pos j) ∧
    ((body a).pos j < R.fl ((body a).pos j + (body a).h) ∧ R.fl ((body a).pos j + (body a).h) < (body a).pos j + 2 * (body a).h) := by
  have h0 := (hres a).2 j
  have hu := R.nonneg
  have hh := (hres a).1
  have e1 := R.err ((body a).pos j - (body a).h)
  have e2 := R.err ((body a).pos j + (body a).h)
  have t1 : |(body a).pos j - (body a).h| ≤ |(body a).pos j| + (body a).h := by
    refine (abs_sub _ _).trans ?_
    rw [abs_of_pos hh]
  have t2 : |(body a).pos j + (body a).h| ≤ |(body a).pos j| + (body a).h := by
    refine (abs_add_le _ _).trans ?_
    rw [abs_of_pos hh]
  have f1 := mul_le_mul_of_nonneg_left t1 hu
  have f2 := mul_le_mul_of_nonneg_left t2 hu
  obtain ⟨g1, g2⟩ := abs_le.1 e1
  obtain ⟨g3, g4⟩ := abs_le.1 e2
  refine ⟨⟨?_, ?_⟩, ?_, ?_⟩ <;> linarith

theorem low_le (body : Fin n → Body d) (a : Fin n) (j : Fin d) : boxLowR R body j ≤ R.fl ((body a).pos j - (body a).h) := ciInf_le (Set.finite_range _).bddBelow a

theorem le_high (body : Fin n → Body d) (a : Fin n) (j : Fin d) : R.fl ((body a).pos j + (body a).h) ≤ boxHighR R body j :=
  le_ciSup (f := fun a => R.fl ((body a).pos j + (body a).h)) (Set.finite_range _).bddAbove a

/-- The range of the particles does not depend on their division among the processes. -/
theorem range_eq (hP : 0 < P) {body : Fin n → Body d} (hres : Resolved R.u body) {vec : Fin P → List (Fin n)} (h : Division n P vec) (id old : Fin n → Nat) :
    computeRange R (List.ofFn fun r => ((vec r).map (entOf body id old)).map discOf) = some fun j => (boxLowR R body j, boxHighR R body j) := by
  have hmem : ∀ l, l ∈ (List.ofFn fun r => ((vec r).map (entOf body id old)).map discOf) ↔ ∃ r, l = (vec r).map fun a => (⟨(body a).pos, (body a).h⟩ : Disc d) := by
    intro l
    rw [List.mem_ofFn']
    simp only [Set.mem_range, List.map_map]
    exact ⟨fun ⟨r, hr⟩ => ⟨r, hr.symm⟩, fun ⟨r, hr⟩ => ⟨r, hr.symm⟩⟩
  obtain ⟨range, hr, hs⟩ := range_spec (R := R) (List.ofFn fun r => ((vec r).map (entOf body id old)).map discOf)
    (by intro h0; have := congrArg List.length h0; simp at this; omega)
    (by intro l hl; obtain ⟨r, rfl⟩ := (hmem l).1 hl; simpa using h.nonempty r)
    (by
      intro l hl b hb
      obtain ⟨r, rfl⟩ := (hmem l).1 hl
      obtain ⟨a, -, rfl⟩ := List.mem_map.1 hb
      intro j
      obtain ⟨⟨-, h1⟩, h2, -⟩ := resolved_face hres a j
      exact ⟨h1.le, h2.le⟩)
  rw [hr]
  congr 1
  funext j
  obtain ⟨h1, ⟨l2, hl2, b2, hb2, h2⟩, l3, hl3, b3, hb3, h3⟩ := hs j
  obtain ⟨r2, rfl⟩ := (hmem l2).1 hl2
  obtain ⟨a2, -, rfl⟩ := List.mem_map.1 hb2
  obtain ⟨r3, rfl⟩ := (hmem l3).1 hl3
  obtain ⟨a3, -, rfl⟩ := List.mem_map.1 hb3
  have hall : ∀ a, (range j).1 ≤ R.fl ((body a).pos j - (body a).h) ∧ R.fl ((body a).pos j + (body a).h) ≤ (range j).2 := by
    intro a
    obtain ⟨r, hr⟩ := Division.mem h a
    exact h1 _ ((hmem _).2 ⟨r, rfl⟩) _ (List.mem_map.2 ⟨a, hr, rfl⟩)
  haveI : Nonempty (Fin n) := ⟨a2⟩
  refine Prod.ext ?_ ?_
  · exact le_antisymm (le_ciInf fun a => (hall a).1) (h2 ▸ low_le body a2 j)
  · exact le_antisymm (h3 ▸ le_high body a3 j) (ciSup_le fun a => (hall a).2)

theorem box_bounds {body : Fin n → Body d} (hres : Resolved R.u body) (a : Fin n) (j : Fin d) : boxLowR R body j < (body a).pos j ∧ (body a).pos j < boxHighR R body j := by
  obtain ⟨⟨-, h1⟩, h2, -⟩ := resolved_face hres a j
  exact ⟨(low_le body a j).trans_lt h1, h2.trans_le (le_high body a j)⟩

/-- The range is at most twice as large as the box around the particles. -/
theorem box_size {body : Fin n → Body d} (hres : Resolved R.u body) (a0 : Fin n) (j : Fin d) : boxHighR R body j - boxLowR R body j ≤ 2 * (boxHigh body j - boxLow body j) := by
  haveI : Nonempty (Fin n) := ⟨a0⟩
  obtain ⟨a, ha⟩ : ∃ a, R.fl ((body a).pos j - (body a).h) = boxLowR R body j := exists_eq_ciInf_of_finite
  obtain ⟨b, hb⟩ : ∃ b, R.fl ((body b).pos j + (body b).h) = boxHighR R body j := exists_eq_ciSup_of_finite
  have l1 : ∀ a, boxLow body j ≤ (body a).pos j - (body a).h := fun a => ciInf_le (Set.finite_range _).bddBelow a
  have l2 : ∀ a, (body a).pos j + (body a).h ≤ boxHigh body j := fun a => le_ciSup (f := fun a => (body a).pos j + (body a).h) (Set.finite_range _).bddAbove a
  obtain ⟨⟨h1, -⟩, -⟩ := resolved_face hres a j
  obtain ⟨-, -, h2⟩ := resolved_face hres b j
  linarith [l1 a, l2 a, l1 b, l2 b]

theorem inBox {body : Fin n → Body d} (hres : Resolved R.u body) (a : Fin n) : InBox d (axis (boxLowR R body)) (axis (boxHighR R body)) (axis (body a).pos) := by
  intro j hj
  obtain ⟨h1, h2⟩ := box_bounds hres a ⟨j, hj⟩
  simp only [axis, dif_pos hj]
  exact ⟨by linarith, h1.le, h2.le⟩

/-! ### The keys -/

/-- The keys as the code computes them from the range. -/
def KeysOf (R : Rounding) (bits : Nat) (body : Fin n → Body d) (key : Fin n → Nat) : Prop :=
  ∀ a, Rounded.encode R bits d (axis (boxLowR R body)) (axis (boxHighR R body)) (axis (body a).pos) = some (key a)

theorem keysOf_full {bits : Nat} (hb : 0 < bits) (hd : 0 < d) (hu : R.u ≤ 1 / 16) {body : Fin n → Body d} (hres : Resolved R.u body) {key : Fin n → Nat} (hk : KeysOf R bits body key) (a : Fin n) :
    FullKey (Key.maxDepth bits d) d (key a) := by
  obtain ⟨c, -, h1, h2, -⟩ := Rounded.C80_key bits d hb hd hu _ _ _ (inBox hres a)
  rw [hk a] at h1
  rwa [Option.some.inj h1]

theorem computeKeys_eq {bits : Nat} {body : Fin n → Body d} {key : Fin n → Nat} (hk : KeysOf R bits body key) (id old : Fin n → Nat) (vec : Fin P → List (Fin n)) :
    computeKeys R bits (fun j => (boxLowR R body j, boxHighR R body j)) (fun r => (vec r).map (entOf body id old)) = some fun r => (vec r).map (entOf body id key) := by
  have h1 : ∀ r, ((vec r).map (entOf body id old)).mapM (setKey R bits fun j => (boxLowR R body j, boxHighR R body j)) = some ((vec r).map (entOf body id key)) := by
    intro r
    refine mapM_map _ _ _ (fun a => ?_) _
    unfold setKey
    have := hk a
    simp only [entOf]
    rw [this]
    rfl
  unfold computeKeys
  rw [if_pos fun r => by rw [h1 r]; rfl]
  congr 1
  funext r
  rw [h1 r]; rfl

theorem arrange_eq {bits : Nat} (hd : 0 < d) (hP : 0 < P) {body : Fin n → Body d} (hres : Resolved R.u body) {key : Fin n → Nat} (hk : KeysOf R bits body key) (hkey : key.Injective) {id : Fin n → Nat} (hid : id.Injective)
    (old : Fin n → Nat) {vec : Fin P → List (Fin n)} (h : Division n P vec) (S : StdSort) (junk : Nat → Fin P → Ent d) {fuel : Nat} (hf : n ≤ fuel) : ∃ vec', Arranged n P vec key vec' ∧ arrange R bits S junk fuel (fun r => (vec r).map (entOf body id old)) = some fun r => (vec' r).map (entOf body id key) := by
  classical
  have hn := Division.pos h hP
  have hinj : (entOf body id key).Injective := fun a b hab => hid (by have := congrArg Ent.id hab; exact this)
  have hlen : ∑ r, (vec r).length = n := by
    have := h.all.length_eq
    rw [List.length_flatMap, List.length_finRange] at this
    rw [← List.sum_ofFn, List.ofFn_eq_map]
    exact this
  obtain ⟨out, h1, h2, h3, h4, -⟩ := C19_particles_partial itemOf P S junk (fun r => (vec r).map (entOf body id key)) ⟨⟨0, hP⟩, by simpa using h.nonempty _⟩
    (fun r r' h0 _ => absurd h0 (by simpa using h.nonempty r)) fuel (by simpa [hlen] using hf)
  have hev : everything (fun r => (vec r).map (entOf body id key)) = ((List.finRange P).flatMap vec).map (entOf body id key) := by
    rw [everything, List.map_flatMap]
  rw [hev] at h3
  obtain ⟨lab, hlab⟩ : ∃ lab : Ent d → Fin n, ∀ a, lab (entOf body id key a) = a := ⟨fun e => if h : ∃ a, entOf body id key a = e then h.choose else ⟨0, hn⟩, fun a => by
    have : ∃ b, entOf body id key b = entOf body id key a := ⟨a, rfl⟩
    simp only [dif_pos this]
    exact hinj this.choose_spec⟩
  have hmem : ∀ r, ∀ e ∈ out r, entOf body id key (lab e) = e := by
    intro r e he
    have : e ∈ everything out := by rw [everything]; exact List.mem_flatMap.2 ⟨r, List.mem_finRange r, he⟩
    obtain ⟨a, -, rfl⟩ := List.mem_map.1 (h3.mem_iff.1 this)
    rw [hlab]
  have hout : ∀ r, out r = ((out r).map lab).map (entOf body id key) := by
    intro r
    rw [List.map_map]
    conv_lhs => rw [← List.map_id (out r)]
    exact List.map_congr_left fun e he => (hmem r e he).symm
  have hall : ((List.finRange P).flatMap fun r => (out r).map lab).Perm ((List.finRange P).flatMap vec) := by
    have := h3.map lab
    rw [List.map_map, show lab ∘ entOf body id key = _root_.id from funext hlab, List.map_id, everything, List.map_flatMap] at this
    exact this
  refine ⟨fun r => (out r).map lab, ⟨⟨hall.trans h.all, fun r h0 => ?_⟩, fun r => by rw [List.length_map, h2, List.length_map], ?_⟩, ?_⟩
  · have := h2 r
    rw [List.map_eq_nil_iff.1 h0, List.length_nil, List.length_map] at this
    exact h.nonempty r (List.length_eq_zero_iff.1 this.symm)
  · have h5 : ((List.finRange P).flatMap fun r => (out r).map lab).Pairwise fun a b => key a ≤ key b := by
      have : everything out = ((List.finRange P).flatMap fun r => (out r).map lab).map (entOf body id key) := by
        rw [everything, List.map_flatMap]
        exact List.flatMap_congr fun r _ => hout r
      rw [this, List.pairwise_map] at h4
      exact h4
    have h6 : ((List.finRange P).flatMap fun r => (out r).map lab).Nodup := (hall.trans h.all).nodup_iff.2 (List.nodup_finRange n)
    exact (List.pairwise_and_iff.2 ⟨h5, h6⟩).imp fun {a b} hab => lt_of_le_of_ne hab.1 fun hc => hab.2 (hkey hc)
  · unfold arrange
    rw [range_eq hP hres h id old, Option.bind_some, if_neg, computeKeys_eq hk, Option.bind_some, h1]
    · congr 1
      funext r
      exact hout r
    · intro hc
      have := box_bounds hres ⟨0, hn⟩ ⟨0, hd⟩
      have := hc ⟨0, hd⟩
      dsimp only at this
      linarith

/-- The calls of the traversal, in terms of the particles. -/
theorem calls_between {D : Nat} (hD : 0 < D) (hd : 0 < d) {body : Fin n → Body d} {key : Fin n → Nat} (hinj : key.Injective) (hfull : ∀ a, FullKey D d (key a)) {id : Fin n → Nat} {vec : Fin P → List (Fin n)}
    (h : Division n P vec) (calls : Fin P → List (List Nat × List (List Nat)))
    {lower upper : Body d → Body d → ℝ} (hs : ∀ p : Fin P, ServedBetween D d (ranksOf fun r => (vec r).map (entOf body id key)) (bodyAt fun r => (vec r).map (entOf body id key)) lower upper p (calls p)) :
    ∃ nbs, ListsBetween lower upper body nbs ∧ ∀ p, CallsFor D d key nbs (vec p) (calls p) := by
  classical
  obtain ⟨ranks, hranks⟩ : ∃ ranks, ranks = ranksOf fun r => (vec r).map (entOf body id key) := ⟨_, rfl⟩
  have hb : ∀ a, bodyAt (fun r => (vec r).map (entOf body id key)) (key a) = body a := bodyAt_key hinj body id h
  have hmem : ∀ x, x ∈ ranks.flatten ↔ x ∈ (List.finRange n).map key := fun x => by rw [hranks]; exact mem_ranksOf h x
  have hget : ∀ p : Fin P, ranks[p.val]? = some ((vec p).map key) := fun p => by rw [hranks]; exact ranksOf_get p
  rw [← hranks] at hs
  have hx : ∀ a, key a ∈ ranks.flatten := fun a => (hmem _).2 (List.mem_map_of_mem (List.mem_finRange a))
  have hfl : ∀ x ∈ ranks.flatten, FullKey D d x := by
    intro x hx
    obtain ⟨a, -, rfl⟩ := List.mem_map.1 ((hmem x).1 hx)
    exact hfull a
  -- the leaf of a particle and the particle of a leaf
  obtain ⟨leaf, hleaf⟩ : ∃ leaf : Fin n → List Nat, ∀ a e, LeafOf D d ranks.flatten (key a) e ↔ leaf a = e := ⟨fun a => DistGravity.leafAt D d ranks.flatten (key a), fun a e => DistGravity.leafOf_iff hd hD hfl (hx a)⟩
  have hli : leaf.Injective := by
    intro a b hab
    have h1 := ((hleaf a (leaf a)).2 rfl)
    have h2 := ((hleaf b (leaf a)).2 hab.symm)
    have e1 := (DistGravity.leafOf_iff hd hD hfl (hx a)).1 h1
    have e2 := (DistGravity.leafOf_iff hd hD hfl (hx b)).1 h2
    exact hinj (DistGravity.leafAt_inj hD hfl (hx a) (hx b) (e1.trans e2.symm))
  have hall : ∀ x e, LeafOf D d ranks.flatten x e ↔ LeafOf D d ((List.finRange n).map key) x e := leafOf_congr hmem
  by_cases hn : n = 0
  · subst hn
    refine ⟨fun a => a.elim0, ⟨fun a => a.elim0, fun a => a.elim0, fun a => a.elim0⟩, fun p => ?_⟩
    exact absurd (List.eq_nil_iff_forall_not_mem.2 fun a => a.elim0) (h.nonempty p)
  obtain ⟨who, hwho⟩ : ∃ who : List Nat → Fin n, ∀ a, who (leaf a) = a := ⟨fun e => if h : ∃ a, leaf a = e then h.choose else ⟨0, Nat.pos_of_ne_zero hn⟩, fun a => by
    have hex : ∃ b, leaf b = leaf a := ⟨a, rfl⟩
    simp only [dif_pos hex]
    exact hli hex.choose_spec⟩
  -- the calls of a process
  have hcall : ∀ p e nb, (e, nb) ∈ calls p → ∃ a ∈ vec p, leaf a = e := by
    intro p e nb hc
    obtain ⟨hdig, ks, x, h1, h2, h3⟩ := ((hs p).all e).1 (List.mem_map_of_mem hc)
    rw [hget p] at h1
    obtain rfl := Option.some.inj h1
    obtain ⟨a, ha, rfl⟩ := List.mem_map.1 h2
    exact ⟨a, ha, (hleaf a e).1 ⟨hdig, h3⟩⟩
  have hex : ∀ a, ∃ p nb, a ∈ vec p ∧ (leaf a, nb) ∈ calls p := by
    intro a
    obtain ⟨p, hp⟩ := Division.mem h a
    have h1 := (hleaf a (leaf a)).2 rfl
    obtain ⟨⟨e, nb⟩, h2, h3⟩ := List.mem_map.1 (((hs p).all (leaf a)).2 ⟨h1.1, _, key a, hget p, List.mem_map_of_mem hp, h1.2⟩)
    dsimp only at h3
    subst h3
    exact ⟨p, nb, hp, h2⟩
  choose pr nb hpr hnb using hex
  have hone : ∀ a p, a ∈ vec p → p = pr a := by
    intro a p ha
    by_contra hne
    have hnd : ((List.finRange P).flatMap vec).Nodup := h.all.nodup_iff.2 (List.nodup_finRange n)
    rw [List.nodup_flatMap] at hnd
    haveI : Std.Symm (Function.onFun List.Disjoint vec) := ⟨fun x y h => List.Disjoint.symm h⟩
    exact (hnd.2.forall (List.mem_finRange p) (List.mem_finRange (pr a)) hne) ha (hpr a)
  have hlists : ∀ a, ∀ f ∈ nb a, leaf (who f) = f ∧ √(∑ j, ((body a).pos j - (body (who f)).pos j) ^ 2) ≤ upper (body a) (body (who f)) := by
    intro a f hf
    have h1 := (hleaf a (leaf a)).2 rfl
    obtain ⟨h2, y, hy, h3, h4⟩ := (hs (pr a)).sound _ _ _ (hnb a) (hx a) h1.2 f hf
    obtain ⟨b, -, rfl⟩ := List.mem_map.1 ((hmem y).1 hy)
    have h5 := (hleaf b f).1 ⟨h2, h3⟩
    rw [← h5, hwho]
    rw [hb, hb] at h4
    exact ⟨rfl, h4⟩
  refine ⟨fun a => (nb a).map who, ⟨fun a => ?_, fun a b hab => ?_, fun a b hab => ?_⟩, fun p => ?_⟩
  · refine ((hs (pr a)).nodup _ _ (hnb a)).map_on fun x hx y hy hxy => ?_
    rw [← (hlists a x hx).1, ← (hlists a y hy).1, hxy]
  · obtain ⟨f, hf, rfl⟩ := List.mem_map.1 hab
    exact (hlists a f hf).2
  · have h1 := (hleaf a (leaf a)).2 rfl
    have h2 := (hleaf b (leaf b)).2 rfl
    refine List.mem_map.2 ⟨leaf b, (hs (pr a)).complete _ _ _ (hnb a) (hx a) h1.2 _ _ (hx b) h2.1 h2.2 ?_, hwho b⟩
    rw [hb, hb]
    exact hab
  · refine ⟨(calls p).map fun c => who c.1, ?_, ?_⟩
    · have hnd : ((calls p).map fun c => who c.1).Nodup := by
        rw [show (fun c : List Nat × List (List Nat) => who c.1) = who ∘ Prod.fst from rfl, ← List.map_map]
        refine (hs p).once.map_on fun x hx y hy hxy => ?_
        obtain ⟨⟨e, l⟩, h1, rfl⟩ := List.mem_map.1 hx
        obtain ⟨⟨e', l'⟩, h1', rfl⟩ := List.mem_map.1 hy
        obtain ⟨a, -, h2⟩ := hcall p _ _ h1
        obtain ⟨a', -, h2'⟩ := hcall p _ _ h1'
        dsimp only at hxy ⊢
        rw [← h2, ← h2', hwho, hwho] at hxy
        rw [← h2, ← h2', hxy]
      have hnv : (vec p).Nodup := by
        have hnd : ((List.finRange P).flatMap vec).Nodup := h.all.nodup_iff.2 (List.nodup_finRange n)
        rw [List.nodup_flatMap] at hnd
        exact hnd.1 p (List.mem_finRange p)
      refine (List.perm_ext_iff_of_nodup hnd hnv).2 fun a => ⟨fun ha => ?_, fun ha => ?_⟩
      · obtain ⟨⟨e, l⟩, h1, rfl⟩ := List.mem_map.1 ha
        obtain ⟨a, h2, rfl⟩ := hcall p _ _ h1
        rw [hwho]; exact h2
      · have := hone a p ha
        subst this
        exact List.mem_map.2 ⟨_, hnb a, hwho a⟩
    · rw [List.forall₂_map_right_iff, List.forall₂_same]
      rintro ⟨e, l⟩ hc
      obtain ⟨a, ha, rfl⟩ := hcall p _ _ hc
      have hpa := hone a p ha
      subst hpa
      have hl : l = nb a := congrArg Prod.snd (List.inj_on_of_nodup_map (hs (pr a)).once hc (hnb a) rfl)
      subst hl
      dsimp only
      rw [hwho]
      refine ⟨(hall _ _).1 ((hleaf a _).2 rfl), ?_⟩
      rw [List.forall₂_map_right_iff, List.forall₂_same]
      exact fun f hf => (hall _ _).1 ((hleaf _ f).2 (hlists a f hf).1)


end FleCSPH.RoundedUpdate
