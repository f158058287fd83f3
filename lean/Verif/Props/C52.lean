import Mathlib.Tactic.Linarith
import Mathlib.Algebra.Order.Floor.Ring
import Mathlib.Algebra.Order.Archimedean.Real.Basic
import Verif.Model.Distribute
import Verif.Props.C01
import Verif.Props.C02
/-! C52: the range covers all particles. -/
namespace FleCSPH
open Distribute

variable {d : Nat}

private theorem fold_extend (j : Fin d) (l : List (Disc d)) (r : ℝ × ℝ) :
    (l.foldl (extend j) r).1 ≤ r.1 ∧ r.2 ≤ (l.foldl (extend j) r).2 ∧
    (∀ b ∈ l, (l.foldl (extend j) r).1 ≤ b.pos j - b.radius ∧ b.pos j + b.radius ≤ (l.foldl (extend j) r).2) ∧
    ((l.foldl (extend j) r).1 = r.1 ∨ ∃ b ∈ l, (l.foldl (extend j) r).1 = b.pos j - b.radius) ∧
    ((l.foldl (extend j) r).2 = r.2 ∨ ∃ b ∈ l, (l.foldl (extend j) r).2 = b.pos j + b.radius) := by
  induction l generalizing r with
  | nil => exact ⟨le_rfl, le_rfl, by simp, Or.inl rfl, Or.inl rfl⟩
  | cons b l ih =>
    obtain ⟨h1, h2, h3, h4, h5⟩ := ih (extend j r b)
    simp only [List.foldl_cons]
    have e1 : (extend j r b).1 ≤ r.1 ∧ (extend j r b).1 ≤ b.pos j - b.radius ∧ ((extend j r b).1 = r.1 ∨ (extend j r b).1 = b.pos j - b.radius) := by
      unfold extend
      simp only
      split_ifs with h
      · exact ⟨h.le, le_rfl, Or.inr rfl⟩
      · exact ⟨le_rfl, not_lt.mp h, Or.inl rfl⟩
    have e2 : r.2 ≤ (extend j r b).2 ∧ b.pos j + b.radius ≤ (extend j r b).2 ∧ ((extend j r b).2 = r.2 ∨ (extend j r b).2 = b.pos j + b.radius) := by
      unfold extend
      simp only
      split_ifs with h
      · exact ⟨(gt_iff_lt.mp h).le, le_rfl, Or.inr rfl⟩
      · exact ⟨le_rfl, not_lt.mp h, Or.inl rfl⟩
    refine ⟨h1.trans e1.1, e2.1.trans h2, ?_, ?_, ?_⟩
    · intro c hc
      rcases List.mem_cons.mp hc with rfl | hc
      · exact ⟨h1.trans e1.2.1, e2.2.1.trans h2⟩
      · exact h3 c hc
    · rcases h4 with h4 | ⟨c, hc, h4⟩
      · rcases e1.2.2 with e | e
        · left; rw [h4, e]
        · right; exact ⟨b, List.mem_cons_self, by rw [h4, e]⟩
      · right; exact ⟨c, List.mem_cons_of_mem _ hc, h4⟩
    · rcases h5 with h5 | ⟨c, hc, h5⟩
      · rcases e2.2.2 with e | e
        · left; rw [h5, e]
        · right; exact ⟨b, List.mem_cons_self, by rw [h5, e]⟩
      · right; exact ⟨c, List.mem_cons_of_mem _ hc, h5⟩

private theorem local_spec (l : List (Disc d)) (r : Fin d → ℝ × ℝ) (h : localRange l = some r) (hr : ∀ b ∈ l, 0 ≤ b.radius) (j : Fin d) :
    (∀ b ∈ l, (r j).1 ≤ b.pos j - b.radius ∧ b.pos j + b.radius ≤ (r j).2) ∧
    (∃ b ∈ l, (r j).1 = b.pos j - b.radius) ∧ (∃ b ∈ l, (r j).2 = b.pos j + b.radius) := by
  unfold localRange at h
  cases hl : l.getLast? with
  | none => rw [hl] at h; simp at h
  | some c =>
    rw [hl] at h
    obtain rfl := (Option.some.inj h).symm
    have hc : c ∈ l := List.mem_of_getLast? hl
    obtain ⟨h1, h2, h3, h4, h5⟩ := fold_extend j l (c.pos j, c.pos j)
    have hcc := h3 c hc
    have hrc := hr c hc
    refine ⟨h3, ?_, ?_⟩
    · rcases h4 with h4 | h4
      · refine ⟨c, hc, ?_⟩
        simp only at h4 ⊢
        linarith [hcc.1]
      · exact h4
    · rcases h5 with h5 | h5
      · refine ⟨c, hc, ?_⟩
        simp only at h5 ⊢
        linarith [hcc.2]
      · exact h5

private theorem fold_min (f : (Fin d → ℝ × ℝ) → ℝ) (l : List (Fin d → ℝ × ℝ)) (m : ℝ) :
    l.foldl (fun m q => min m (f q)) m ≤ m ∧ (∀ q ∈ l, l.foldl (fun m q => min m (f q)) m ≤ f q) ∧
    (l.foldl (fun m q => min m (f q)) m = m ∨ ∃ q ∈ l, l.foldl (fun m q => min m (f q)) m = f q) := by
  induction l generalizing m with
  | nil => exact ⟨le_rfl, by simp, Or.inl rfl⟩
  | cons a l ih =>
    obtain ⟨h1, h2, h3⟩ := ih (min m (f a))
    simp only [List.foldl_cons]
    refine ⟨h1.trans (min_le_left _ _), ?_, ?_⟩
    · intro q hq
      rcases List.mem_cons.mp hq with rfl | hq
      · exact h1.trans (min_le_right _ _)
      · exact h2 q hq
    · rcases h3 with h3 | ⟨q, hq, h3⟩
      · rcases min_choice m (f a) with e | e
        · left; rw [h3, e]
        · right; exact ⟨a, List.mem_cons_self, by rw [h3, e]⟩
      · right; exact ⟨q, List.mem_cons_of_mem _ hq, h3⟩

private theorem fold_max (f : (Fin d → ℝ × ℝ) → ℝ) (l : List (Fin d → ℝ × ℝ)) (m : ℝ) :
    m ≤ l.foldl (fun m q => max m (f q)) m ∧ (∀ q ∈ l, f q ≤ l.foldl (fun m q => max m (f q)) m) ∧
    (l.foldl (fun m q => max m (f q)) m = m ∨ ∃ q ∈ l, l.foldl (fun m q => max m (f q)) m = f q) := by
  induction l generalizing m with
  | nil => exact ⟨le_rfl, by simp, Or.inl rfl⟩
  | cons a l ih =>
    obtain ⟨h1, h2, h3⟩ := ih (max m (f a))
    simp only [List.foldl_cons]
    refine ⟨(le_max_left _ _).trans h1, ?_, ?_⟩
    · intro q hq
      rcases List.mem_cons.mp hq with rfl | hq
      · exact (le_max_right _ _).trans h1
      · exact h2 q hq
    · rcases h3 with h3 | ⟨q, hq, h3⟩
      · rcases max_choice m (f a) with e | e
        · left; rw [h3, e]
        · right; exact ⟨a, List.mem_cons_self, by rw [h3, e]⟩
      · right; exact ⟨q, List.mem_cons_of_mem _ hq, h3⟩

private theorem mapM_mem {α β : Type} (f : α → Option β) : ∀ (l : List α) (r : List β), l.mapM f = some r →
    (∀ x ∈ l, ∃ y ∈ r, f x = some y) ∧ ∀ y ∈ r, ∃ x ∈ l, f x = some y := by
  intro l
  induction l with
  | nil => intro r h; simp at h; subst h; simp
  | cons a l ih =>
    intro r h
    rw [List.mapM_cons] at h
    simp only [Option.bind_eq_bind, Option.pure_def] at h
    obtain ⟨y, h1, h⟩ := Option.bind_eq_some_iff.mp h
    obtain ⟨ys, h2, h⟩ := Option.bind_eq_some_iff.mp h
    obtain rfl := Option.some.inj h
    obtain ⟨i1, i2⟩ := ih ys h2
    constructor
    · intro x hx
      rcases List.mem_cons.mp hx with rfl | hx
      · exact ⟨y, List.mem_cons_self, h1⟩
      · obtain ⟨z, hz, e⟩ := i1 x hx
        exact ⟨z, List.mem_cons_of_mem _ hz, e⟩
    · intro z hz
      rcases List.mem_cons.mp hz with rfl | hz
      · exact ⟨a, List.mem_cons_self, h1⟩
      · obtain ⟨x, hx, e⟩ := i2 z hz
        exact ⟨x, List.mem_cons_of_mem _ hx, e⟩

/-- If every process holds at least one particle and radii are not negative, the range is defined, contains every particle of every process
with its radius, and is the smallest such box: every face is touched by a particle. -/
theorem C52_range_partial (procs : List (List (Disc d))) (hp : procs ≠ []) (hne : ∀ l ∈ procs, l ≠ []) (hr : ∀ l ∈ procs, ∀ b ∈ l, 0 ≤ b.radius) :
    ∃ range, computeRange procs = some range ∧ ∀ j,
      (∀ l ∈ procs, ∀ b ∈ l, (range j).1 ≤ b.pos j - b.radius ∧ b.pos j + b.radius ≤ (range j).2) ∧
      (∃ l ∈ procs, ∃ b ∈ l, (range j).1 = b.pos j - b.radius) ∧ ∃ l ∈ procs, ∃ b ∈ l, (range j).2 = b.pos j + b.radius := by
  obtain ⟨rs, hrs⟩ : ∃ rs, procs.mapM (localRange (d := d)) = some rs := by
    clear hp hr
    induction procs with
    | nil => exact ⟨[], rfl⟩
    | cons l procs ih =>
      obtain ⟨rs, hrs⟩ := ih fun l hl => hne l (List.mem_cons_of_mem _ hl)
      have hl := hne l List.mem_cons_self
      have h1 : ∃ r, localRange l = some r := by
        unfold localRange
        rw [List.getLast?_eq_getLast_of_ne_nil hl]
        exact ⟨_, rfl⟩
      obtain ⟨r, h1⟩ := h1
      exact ⟨r :: rs, by rw [List.mapM_cons, h1, hrs]; rfl⟩
  obtain ⟨m1, m2⟩ := mapM_mem _ _ _ hrs
  cases rs with
  | nil =>
    obtain ⟨l, hl⟩ := List.exists_mem_of_ne_nil _ hp
    obtain ⟨y, hy, _⟩ := m1 l hl
    simp at hy
  | cons r rs =>
    refine ⟨_, by unfold computeRange; rw [hrs], fun j => ?_⟩
    obtain ⟨a1, a2, a3⟩ := fold_min (fun q => (q j).1) rs (r j).1
    obtain ⟨b1, b2, b3⟩ := fold_max (fun q => (q j).2) rs (r j).2
    simp only
    have all1 : ∀ q ∈ r :: rs, rs.foldl (fun m q => min m (q j).1) (r j).1 ≤ (q j).1 ∧ (q j).2 ≤ rs.foldl (fun m q => max m (q j).2) (r j).2 := by
      intro q hq
      rcases List.mem_cons.mp hq with rfl | hq
      · exact ⟨a1, b1⟩
      · exact ⟨a2 q hq, b2 q hq⟩
    refine ⟨?_, ?_, ?_⟩
    · intro l hl b hb
      obtain ⟨q, hq, e⟩ := m1 l hl
      have := (local_spec l q e (hr l hl) j).1 b hb
      have h2 := all1 q hq
      exact ⟨h2.1.trans this.1, this.2.trans h2.2⟩
    · obtain ⟨q, hq, e⟩ : ∃ q ∈ r :: rs, rs.foldl (fun m q => min m (q j).1) (r j).1 = (q j).1 := by
        rcases a3 with e | ⟨q, hq, e⟩
        · exact ⟨r, List.mem_cons_self, e⟩
        · exact ⟨q, List.mem_cons_of_mem _ hq, e⟩
      obtain ⟨l, hl, e2⟩ := m2 q hq
      obtain ⟨b, hb, e3⟩ := (local_spec l q e2 (hr l hl) j).2.1
      exact ⟨l, hl, b, hb, e.trans e3⟩
    · obtain ⟨q, hq, e⟩ : ∃ q ∈ r :: rs, rs.foldl (fun m q => max m (q j).2) (r j).2 = (q j).2 := by
        rcases b3 with e | ⟨q, hq, e⟩
        · exact ⟨r, List.mem_cons_self, e⟩
        · exact ⟨q, List.mem_cons_of_mem _ hq, e⟩
      obtain ⟨l, hl, e2⟩ := m2 q hq
      obtain ⟨b, hb, e3⟩ := (local_spec l q e2 (hr l hl) j).2.2
      exact ⟨l, hl, b, hb, e.trans e3⟩

/-- With positive radii every particle gets a key, and it lies between the smallest and the largest key of full depth. -/
theorem C52_keys_partial (bits : Nat) (hb : 0 < bits) (hd : 0 < d) (procs : List (List (Disc d))) (hp : procs ≠ []) (hne : ∀ l ∈ procs, l ≠ [])
    (hr : ∀ l ∈ procs, ∀ b ∈ l, 0 < b.radius) (range : Fin d → ℝ × ℝ) (h : computeRange procs = some range) (l : List (Disc d)) (hl : l ∈ procs)
    (b : Disc d) (hbl : b ∈ l) :
    ∃ key, Morton.encode bits d (fun j => if h : j < d then (range ⟨j, h⟩).1 else 0) (fun j => if h : j < d then (range ⟨j, h⟩).2 else 0)
      (fun j => if h : j < d then b.pos ⟨j, h⟩ else 0) = some key ∧ Key.min bits d ≤ key ∧ key ≤ Key.max bits d := by
  obtain ⟨range', h', hc⟩ := C52_range_partial procs hp hne fun l hl b hb => (hr l hl b hb).le
  obtain rfl := Option.some.inj (h.symm.trans h')
  have hbox : InBox d (fun j => if h : j < d then (range ⟨j, h⟩).1 else 0) (fun j => if h : j < d then (range ⟨j, h⟩).2 else 0)
      (fun j => if h : j < d then b.pos ⟨j, h⟩ else 0) := by
    intro j hj
    have h1 := (hc ⟨j, hj⟩).1 l hl b hbl
    have h2 := hr l hl b hbl
    simp only [dif_pos hj]
    exact ⟨by linarith, by linarith, by linarith⟩
  obtain ⟨⟨c, hcell⟩, he⟩ := C02_encode bits d hb hd _ _ _ hbox
  exact ⟨_, he c hcell, C01_bounds bits d hb _ (zPath_isPath _ _ _) (zPath_length _ _ _)⟩

/-- Without the assumption that every process holds a particle the claim fails: the last element of an empty vector is read. -/
theorem C52_violated (procs : List (List (Disc d))) (h : [] ∈ procs) : computeRange procs = none := by
  unfold computeRange
  have : procs.mapM (localRange (d := d)) = none := by
    induction procs with
    | nil => simp at h
    | cons l procs ih =>
      rw [List.mapM_cons]
      rcases List.mem_cons.mp h with e | h
      · rw [← e]; rfl
      · rw [ih h]; cases localRange l <;> rfl
  rw [this]

/-- Non-vacuity: three particles on two processes. -/
example : ∃ procs : List (List (Disc 2)), procs ≠ [] ∧ (∀ l ∈ procs, l ≠ []) ∧ (∀ l ∈ procs, ∀ b ∈ l, 0 < b.radius) ∧ procs.length = 2 :=
  ⟨[[⟨![0, 0], 1⟩, ⟨![1, 2], 1 / 2⟩], [⟨![5, -3], 2⟩]], by simp, by simp, by
    intro l hl b hb
    simp only [List.mem_cons, List.not_mem_nil, or_false] at hl
    rcases hl with rfl | rfl
    · simp only [List.mem_cons, List.not_mem_nil, or_false] at hb
      rcases hb with rfl | rfl <;> norm_num
    · simp only [List.mem_cons, List.not_mem_nil, or_false] at hb
      subst hb; norm_num, rfl⟩

end FleCSPH
