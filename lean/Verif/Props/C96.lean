import Verif.Lemmas.RoundedClock
/-! C96: the clock of a run in floating-point arithmetic. -/
namespace FleCSPH.RoundedClock
open FleCSPH.Rounded
open FleCSPH.Timestep (Clock Outputs Kind truncate smallest smallest_mem smallest_le smallest_pos terminate due)

variable {R : Rounding}

/-! ### A fixed time step -/

/-- C96, the time of a run with a fixed step: up to the first time beyond `F`, after `k` iterations the clock shows the time of `k` steps up to `k` roundings, and each step that is not lost in the rounding of
the time moves the clock forward. -/
theorem C96_fixed (c : Clock) (F : ℝ) (hdt : 0 < c.dt) (hres : R.u * (max |c.totaltime| |F| + c.dt) < c.dt) (k : Nat)
    (hrun : ∀ j < k, ((advance R false)^[j] c).totaltime ≤ F) :
    |((advance R false)^[k] c).totaltime - (c.totaltime + k * c.dt)| ≤ k * (R.u * (max |c.totaltime| |F| + c.dt)) ∧
      ((advance R false)^[k] c).iteration = c.iteration + k ∧ ((advance R false)^[k] c).dt = c.dt ∧
      ∀ j < k, ((advance R false)^[j] c).totaltime < ((advance R false)^[j + 1] c).totaltime := by
  have h0 := R.nonneg
  obtain ⟨M, hM⟩ : ∃ M, M = max |c.totaltime| |F| := ⟨_, rfl⟩
  rw [← hM] at hres ⊢
  have key : ∀ k : Nat, (∀ j < k, ((advance R false)^[j] c).totaltime ≤ F) →
      c.totaltime ≤ ((advance R false)^[k] c).totaltime ∧
      |((advance R false)^[k] c).totaltime - (c.totaltime + k * c.dt)| ≤ k * (R.u * (M + c.dt)) ∧
      ((advance R false)^[k] c).iteration = c.iteration + k ∧ ((advance R false)^[k] c).dt = c.dt ∧
      ∀ j < k, ((advance R false)^[j] c).totaltime < ((advance R false)^[j + 1] c).totaltime := by
    intro k
    induction k with
    | zero => intro _; simp
    | succ k ih =>
      intro h
      obtain ⟨i0, i1, i2, i3, i4⟩ := ih fun j hj => h j (by omega)
      have hT := h k (by omega)
      have e : (advance R false)^[k + 1] c = advance R false ((advance R false)^[k] c) := Function.iterate_succ_apply' _ _ _
      obtain ⟨s, hs⟩ : ∃ s, s = (advance R false)^[k] c := ⟨_, rfl⟩
      rw [← hs] at e i0 i1 i2 i3 hT
      have habs : |s.totaltime| ≤ M := by
        rw [hM, abs_le]
        constructor
        · have := neg_abs_le c.totaltime; have := le_max_left |c.totaltime| |F|; linarith
        · have := le_abs_self F; have := le_max_right |c.totaltime| |F|; linarith
      have hT' : ((advance R false)^[k + 1] c).totaltime = R.fl (s.totaltime + c.dt) := by
        rw [e]; simp only [advance, i3]; rfl
      have herr : |R.fl (s.totaltime + c.dt) - (s.totaltime + c.dt)| ≤ R.u * (M + c.dt) := by
        refine (R.err _).trans (mul_le_mul_of_nonneg_left ?_ h0)
        refine (abs_add_le _ _).trans ?_
        rw [abs_of_pos hdt]; linarith
      have hlt : s.totaltime < R.fl (s.totaltime + c.dt) := by
        have := (abs_le.mp herr).1; linarith
      refine ⟨by rw [hT']; linarith, ?_, ?_, ?_, ?_⟩
      · rw [hT']
        have t := abs_add_le (R.fl (s.totaltime + c.dt) - (s.totaltime + c.dt)) (s.totaltime - (c.totaltime + k * c.dt))
        rw [show R.fl (s.totaltime + c.dt) - (c.totaltime + ((k + 1 : ℕ) : ℝ) * c.dt) =
          R.fl (s.totaltime + c.dt) - (s.totaltime + c.dt) + (s.totaltime - (c.totaltime + k * c.dt)) by push_cast; ring]
        push_cast
        linarith
      · rw [e]; simp only [advance, i2]; push_cast; ring
      · rw [e]; simp only [advance, i3]
      · intro j hj
        rcases Nat.lt_succ_iff_lt_or_eq.mp hj with hj | rfl
        · exact i4 j hj
        · rw [hT', ← hs]; exact hlt
  exact (key k hrun).2

/-- C96, the end of a run with a fixed step and a final time: it ends, and the number of iterations is that of exact arithmetic up to the error of the clock. -/
theorem C96_fixed_ends (c : Clock) (F : ℝ) (hF : 0 < F) (hdt : 0 < c.dt) (hres : R.u * (max |c.totaltime| |F| + c.dt) < c.dt) :
    ∃ k : Nat, 1 ≤ k ∧ terminate 0 F ((advance R false)^[k] c) ∧ (∀ j, 1 ≤ j → j < k → ¬ terminate 0 F ((advance R false)^[j] c)) ∧
      (c.totaltime ≤ F → F < c.totaltime + k * (c.dt + R.u * (max |c.totaltime| |F| + c.dt)) ∧
        c.totaltime + (k - 1 : ℕ) * (c.dt - R.u * (max |c.totaltime| |F| + c.dt)) ≤ F) := by
  classical
  have hterm : ∀ s : Clock, terminate 0 F s ↔ F < s.totaltime := fun s => by
    simp only [terminate]
    constructor
    · rintro (⟨h, -⟩ | ⟨-, h⟩)
      · exact absurd h (lt_irrefl _)
      · exact h
    · exact fun h => Or.inr ⟨hF, h⟩
  by_cases h0 : c.totaltime ≤ F
  · have hex : ∃ k : Nat, F < ((advance R false)^[k] c).totaltime := by
      by_contra hne
      push Not at hne
      obtain ⟨e, he⟩ : ∃ e, e = R.u * (max |c.totaltime| |F| + c.dt) := ⟨_, rfl⟩
      obtain ⟨k, hk⟩ := exists_nat_gt ((F - c.totaltime) / (c.dt - e))
      have h1 := (C96_fixed c F hdt hres k fun j _ => hne j).1
      rw [← he] at h1 hres
      have h2 := (abs_le.mp h1).1
      have h3 := hne k
      rw [div_lt_iff₀ (by linarith)] at hk
      nlinarith
    obtain ⟨k, hk, hmin⟩ : ∃ k : Nat, F < ((advance R false)^[k] c).totaltime ∧ ∀ j < k, ¬ F < ((advance R false)^[j] c).totaltime :=
      ⟨Nat.find hex, Nat.find_spec hex, fun j hj => Nat.find_min hex hj⟩
    have hk1 : 1 ≤ k := by
      rcases Nat.eq_zero_or_pos k with rfl | h
      · simp only [Function.iterate_zero, id] at hk; linarith
      · exact h
    refine ⟨k, hk1, (hterm _).mpr hk, fun j _ hj => by rw [hterm]; exact hmin j hj, fun _ => ?_⟩
    have h1 := (C96_fixed c F hdt hres k fun j hj => not_lt.mp (hmin j hj)).1
    have h2 := (C96_fixed c F hdt hres (k - 1) fun j hj => not_lt.mp (hmin j (by omega))).1
    have h3 := not_lt.mp (hmin (k - 1) (by omega))
    have h4 := (abs_le.mp h1).2
    have h5 := (abs_le.mp h2).1
    constructor
    · rw [mul_add]; linarith
    · rw [mul_sub]; linarith
  · refine ⟨1, le_rfl, (hterm _).mpr ?_, fun j h1 h2 => by omega, fun h => absurd h h0⟩
    have hc := not_le.mp h0
    have herr := abs_le.mp (R.err (c.totaltime + c.dt))
    have hb : |c.totaltime + c.dt| ≤ max |c.totaltime| |F| + c.dt := by
      refine (abs_add_le _ _).trans ?_
      rw [abs_of_pos hdt]; linarith [le_max_left |c.totaltime| |F|]
    have := mul_le_mul_of_nonneg_left hb R.nonneg
    simp only [Function.iterate_one, advance]
    show F < R.fl (c.totaltime + c.dt)
    linarith [herr.1]

/-- C96, where the code departs from C67 and C40: a step below the last digit of the time is lost, so a run with a fixed step and a final time never ends. -/
theorem C96_stuck_violated : ∃ c : Clock, 0 < c.dt ∧ c.totaltime = 1 ∧ Representable (tiesToEven 53) c.dt ∧
    ∀ k : Nat, ((advance (tiesToEven 53) false)^[k] c).totaltime = 1 ∧ ∀ F, 1 ≤ F → ¬ terminate 0 F ((advance (tiesToEven 53) false)^[k] c) := by
  refine ⟨⟨0, 2 ^ (-54 : ℤ), 0, 1, 0, 0⟩, by positivity, rfl, ?_, ?_⟩
  · have := fl_exact (p := 53) (by norm_num) (m := 1) (by norm_num) (-54)
    simpa [Representable] using this
  · have key : ∀ k : Nat, ((advance (tiesToEven 53) false)^[k] (⟨0, 2 ^ (-54 : ℤ), 0, 1, 0, 0⟩ : Clock)).totaltime = 1 ∧
        ((advance (tiesToEven 53) false)^[k] (⟨0, 2 ^ (-54 : ℤ), 0, 1, 0, 0⟩ : Clock)).dt = 2 ^ (-54 : ℤ) := by
      intro k
      induction k with
      | zero => exact ⟨rfl, rfl⟩
      | succ k ih =>
        rw [Function.iterate_succ_apply']
        refine ⟨?_, ih.2⟩
        show (tiesToEven 53).fl (_ + _) = 1
        rw [ih.1, ih.2]
        exact double_one (by positivity) le_rfl
    intro k
    refine ⟨(key k).1, fun F hF => ?_⟩
    rintro (⟨h, -⟩ | ⟨-, h⟩)
    · exact absurd h (lt_irrefl _)
    · rw [(key k).1] at h; linarith

/-! ### An adaptive time step -/

/-- C96, one call without timed outputs: the step is the way the clock will go up to one rounding, it is at most the smallest limit and twice the step before, up to the rounding of the time, and at least half of the
limit or twice the step before. -/
theorem C96_step (hu : R.u ≤ 1 / 2) (o : Outputs) (ho : ∀ k, ¬ o.interval k > 0) (ls : List (List ℝ)) (c : Clock) (hpos : ∀ l ∈ ls, ∀ x ∈ l, 0 < x) (hdt : 0 < c.dt) :
    let c' := setAdaptive R o ls c
    c'.totaltime = c.totaltime ∧ c'.iteration = c.iteration ∧ c'.t = c.t ∧
    |c'.dt - (c'.totaltimeNext - c.totaltime)| ≤ R.u * |c'.totaltimeNext - c.totaltime| ∧
    (∀ l ∈ ls, ∀ x ∈ l, c'.totaltimeNext - c.totaltime ≤ x + R.u * (|c.totaltime| + x)) ∧
    c'.totaltimeNext - c.totaltime ≤ 2 * (1 + R.u) * c.dt + R.u * (|c.totaltime| + 2 * (1 + R.u) * c.dt) ∧
    (1 - R.u) ^ 2 * min (2 * c.dt) (smallest ls / 2) - R.u * |c.totaltime| ≤ c'.totaltimeNext - c.totaltime := by
  have h0 := R.nonneg
  have hm := smallest_pos ls hpos
  obtain ⟨a1, a2, a3, a4⟩ := adapt_spec hu hm hdt
  intro c'
  have hc' : c' = _ := setAdaptive_none (R := R) o ho ls c
  obtain ⟨D, hD⟩ : ∃ D, D = adapt R (smallest ls) c.dt := ⟨_, rfl⟩
  rw [← hD] at hc' a1 a2 a3 a4
  rw [hc']
  simp only
  have herr := R.err (c.totaltime + D)
  have hb : |c.totaltime + D| ≤ |c.totaltime| + D := by
    refine (abs_add_le _ _).trans ?_
    rw [abs_of_pos a1]
  have hb' := mul_le_mul_of_nonneg_left hb h0
  obtain ⟨e1, e2⟩ := abs_le.mp herr
  refine ⟨trivial, trivial, trivial, R.err _, ?_, ?_, ?_⟩
  · intro l hl x hx
    have hDx := a2.trans (smallest_le ls hl hx)
    have := mul_le_mul_of_nonneg_left hDx h0
    linarith
  · have := mul_le_mul_of_nonneg_left a3 h0
    linarith
  · have := mul_le_mul_of_nonneg_left a4 (by linarith : 0 ≤ 1 - R.u)
    nlinarith

/-- The clock keeps a step of a quarter of `l` when all limits are at least `l` and this is well above the last digit of the time. -/
private theorem step_ge (hu : R.u ≤ 1 / 16) (o : Outputs) (ho : ∀ k, ¬ o.interval k > 0) {l : ℝ} (hl : 0 < l) (hl' : l ≤ 10 ^ 24) (ls : List (List ℝ)) (hls : ∀ q ∈ ls, ∀ x ∈ q, l ≤ x) (c : Clock)
    (hdt : l / 4 ≤ c.dt) (hT : 64 * R.u * |c.totaltime| ≤ l) :
    l / 4 ≤ (setAdaptive R o ls c).dt ∧ c.totaltime + l / 4 ≤ (setAdaptive R o ls c).totaltimeNext := by
  have h0 := R.nonneg
  obtain ⟨-, -, -, b1, -, -, b2⟩ := C96_step (R := R) (by linarith) o ho ls c (fun q hq x hx => lt_of_lt_of_le hl (hls q hq x hx)) (by linarith)
  have hs := smallest_ge ls hl' hls
  obtain ⟨W, hW⟩ : ∃ W, W = (setAdaptive R o ls c).totaltimeNext - c.totaltime := ⟨_, rfl⟩
  rw [← hW] at b1 b2
  have h1 : l / 2 ≤ min (2 * c.dt) (smallest ls / 2) := le_min (by linarith) (by linarith)
  have h2 : (15 / 16 : ℝ) ^ 2 ≤ (1 - R.u) ^ 2 := by
    apply pow_le_pow_left₀ (by norm_num); linarith
  have h3 : (15 / 16 : ℝ) ^ 2 * (l / 2) ≤ (1 - R.u) ^ 2 * min (2 * c.dt) (smallest ls / 2) := mul_le_mul h2 h1 (by linarith) (by positivity)
  have h4 : (3 / 8) * l ≤ W := by norm_num at h3; linarith
  have hWpos : 0 < W := by linarith
  rw [abs_of_pos hWpos] at b1
  have h5 := (abs_le.mp b1).1
  have h6 : R.u * W ≤ 1 / 16 * W := mul_le_mul_of_nonneg_right hu hWpos.le
  exact ⟨by linarith, by linarith⟩

/-- C96, an adaptive run without timed outputs: as long as the limits are at least `l`, 64 times the last digit of the times, every iteration moves the clock by at least a quarter of `l`; so a run that has not
ended after `n` iterations has `n l / 4 ≤ final time - initial time`. -/
theorem C96_adaptive_ends_partial (hu : R.u ≤ 1 / 16) (o : Outputs) (ho : ∀ k, ¬ o.interval k > 0) {l F : ℝ} (hl : 0 < l) (hl' : l ≤ 10 ^ 24) (hF : 0 < F) (c0 : Clock) (hdt : l / 4 ≤ c0.dt) (hstart : c0.totaltime ≤ F)
    (hres : 64 * R.u * max |c0.totaltime| F ≤ l) (fi : Int) (first : List (List ℝ)) (hfirst : ∀ q ∈ first, ∀ x ∈ q, l ≤ x) (rest : List (List (List ℝ))) (hrest : ∀ ls ∈ rest, ∀ q ∈ ls, ∀ x ∈ q, l ≤ x)
    (hrun : ∀ j, 1 ≤ j → j ≤ rest.length → ¬ terminate fi F (clockAt R o c0 first (rest.take j))) :
    rest.length * (l / 4) ≤ F - c0.totaltime ∧
      ∀ j < rest.length, (clockAt R o c0 first (rest.take j)).totaltime + l / 4 ≤ (clockAt R o c0 first (rest.take (j + 1))).totaltime := by
  have h0 := R.nonneg
  have hnt : ∀ j, 1 ≤ j → j ≤ rest.length → (clockAt R o c0 first (rest.take j)).totaltime ≤ F := by
    intro j h1 h2
    by_contra hc
    exact hrun j h1 h2 (Or.inr ⟨hF, not_le.mp hc⟩)
  obtain ⟨d, hd⟩ : ∃ d, d = setAdaptive R o first c0 := ⟨_, rfl⟩
  have hT0 : 64 * R.u * |c0.totaltime| ≤ l := le_trans (mul_le_mul_of_nonneg_left (le_max_left _ _) (by positivity)) hres
  have hd1 := (step_ge hu o ho hl hl' first hfirst c0 hdt hT0).1
  have hd2 : d.totaltime = c0.totaltime := by rw [hd, setAdaptive_none o ho]
  rw [← hd] at hd1
  have hclock : ∀ j, (clockAt R o c0 first (rest.take j)).totaltime = ((rest.take j).foldl (fun c l => advance R true (setAdaptive R o l c)) d).totaltime := by
    intro j
    rcases hj : rest.take j with _ | ⟨x, y⟩
    · simp [clockAt, hd2]
    · rw [clockAt, hd]
  have hclock' : ∀ j, 1 ≤ j → j ≤ rest.length → clockAt R o c0 first (rest.take j) = (rest.take j).foldl (fun c l => advance R true (setAdaptive R o l c)) d := by
    intro j h1 h2
    rcases hj : rest.take j with _ | ⟨x, y⟩
    · have := congrArg List.length hj
      rw [List.length_take, min_eq_left h2] at this
      simp at this; omega
    · rw [clockAt, hd]
  have key : ∀ j, j ≤ rest.length → l / 4 ≤ ((rest.take j).foldl (fun c l => advance R true (setAdaptive R o l c)) d).dt ∧
      c0.totaltime + j * (l / 4) ≤ ((rest.take j).foldl (fun c l => advance R true (setAdaptive R o l c)) d).totaltime ∧
      ∀ i < j, (clockAt R o c0 first (rest.take i)).totaltime + l / 4 ≤ (clockAt R o c0 first (rest.take (i + 1))).totaltime := by
    intro j
    induction j with
    | zero =>
      intro _
      simp only [List.take_zero, List.foldl_nil]
      exact ⟨hd1, by rw [hd2]; simp, fun i hi => by omega⟩
    | succ j ih =>
      intro hj
      obtain ⟨i1, i2, i3⟩ := ih (by omega)
      obtain ⟨s, hs⟩ : ∃ s, s = (rest.take j).foldl (fun c l => advance R true (setAdaptive R o l c)) d := ⟨_, rfl⟩
      have hsF : s.totaltime ≤ F := by
        rcases Nat.eq_zero_or_pos j with rfl | hpos
        · rw [hs]; simp only [List.take_zero, List.foldl_nil]; rw [hd2]; exact hstart
        · rw [hs, ← hclock' j hpos (by omega)]; exact hnt j hpos (by omega)
      have e : (rest.take (j + 1)).foldl (fun c l => advance R true (setAdaptive R o l c)) d = advance R true (setAdaptive R o (rest[j]'(by omega)) s) := by
        rw [List.take_succ_eq_append_getElem (by omega), List.foldl_append, ← hs]; rfl
      rw [← hs] at i1 i2
      have hjl : 0 ≤ (j : ℝ) * (l / 4) := by positivity
      have habs : |s.totaltime| ≤ max |c0.totaltime| F := by
        rw [abs_le]
        constructor
        · linarith [neg_abs_le c0.totaltime, le_max_left |c0.totaltime| F]
        · exact hsF.trans (le_max_right _ _)
      obtain ⟨b1, b2⟩ := step_ge hu o ho hl hl' (rest[j]'(by omega)) (fun q hq x hx => hrest _ (List.getElem_mem _) q hq x hx) s i1
        (le_trans (mul_le_mul_of_nonneg_left habs (by positivity)) hres)
      have hnew : ((rest.take (j + 1)).foldl (fun c l => advance R true (setAdaptive R o l c)) d).totaltime = (setAdaptive R o (rest[j]'(by omega)) s).totaltimeNext := by
        rw [e]; rfl
      refine ⟨by rw [e]; exact b1, ?_, ?_⟩
      · rw [hnew]; push_cast; linarith
      · intro i hi
        rcases Nat.lt_succ_iff_lt_or_eq.mp hi with hi | rfl
        · exact i3 i hi
        · rw [hclock, hclock, hnew, ← hs]; exact b2
  obtain ⟨-, k2, k3⟩ := key rest.length le_rfl
  refine ⟨?_, k3⟩
  rcases Nat.eq_zero_or_pos rest.length with hz | hpos
  · rw [hz]; simp; linarith
  · rw [← hclock' rest.length hpos le_rfl] at k2
    have := hnt rest.length hpos le_rfl
    linarith

/-- A clock whose step is zero stays where it is. -/
private theorem zero_step (o : Outputs) (ho : ∀ k, ¬ o.interval k > 0) (ls : List (List ℝ)) (hpos : ∀ l ∈ ls, ∀ x ∈ l, 0 < x) (c : Clock) (hdt : c.dt = 0) (hT : Representable R c.totaltime) :
    (setAdaptive R o ls c).dt = 0 ∧ (setAdaptive R o ls c).totaltimeNext = c.totaltime := by
  have hm := smallest_pos ls hpos
  have ha : adapt R (smallest ls) 0 = 0 := by
    simp only [adapt, if_neg (not_lt.mpr hm.le), mul_zero, zero_mul, fl_zero', gt_iff_lt, hm, if_true]
  rw [setAdaptive_none o ho, hdt, ha, add_zero, hT]
  simp [fl_zero']

/-- C96, where the code departs from C40 and C67: if one step of an adaptive run without timed outputs is lost in the rounding of the time, the step becomes zero, and it stays zero for ever,
whatever the limits of the particles become: the clock never moves again, and a run with a final time does not end. -/
theorem C96_frozen (o : Outputs) (ho : ∀ k, ¬ o.interval k > 0) (c : Clock) (hT : Representable R c.totaltime) (ls : List (List ℝ))
    (hlost : R.fl (c.totaltime + adapt R (smallest ls) c.dt) = c.totaltime) (rest : List (List (List ℝ))) (hpos : ∀ ls ∈ rest, ∀ q ∈ ls, ∀ x ∈ q, 0 < x) :
    (clockAt R o c ls rest).totaltime = c.totaltime ∧ (rest ≠ [] → (clockAt R o c ls rest).dt = 0) := by
  have h1 : (setAdaptive R o ls c).dt = 0 ∧ (setAdaptive R o ls c).totaltime = c.totaltime := by
    rw [setAdaptive_none o ho, hlost]
    simp [fl_zero']
  have key : ∀ (rest : List (List (List ℝ))), (∀ ls ∈ rest, ∀ q ∈ ls, ∀ x ∈ q, 0 < x) → ∀ s : Clock, s.dt = 0 → s.totaltime = c.totaltime →
      (rest.foldl (fun c l => advance R true (setAdaptive R o l c)) s).dt = 0 ∧ (rest.foldl (fun c l => advance R true (setAdaptive R o l c)) s).totaltime = c.totaltime := by
    intro rest
    induction rest with
    | nil => intro _ s h1 h2; exact ⟨h1, h2⟩
    | cons q rest ih =>
      intro hp s h1 h2
      obtain ⟨z1, z2⟩ := zero_step o ho q (hp q (List.mem_cons_self ..)) s h1 (by rw [h2]; exact hT)
      rw [List.foldl_cons]
      exact ih (fun ls h => hp ls (List.mem_cons_of_mem _ h)) _ z1 (z2.trans h2)
  rcases rest with _ | ⟨q, rest⟩
  · exact ⟨rfl, fun h => absurd rfl h⟩
  · obtain ⟨k1, k2⟩ := key (q :: rest) hpos _ h1.1 h1.2
    exact ⟨k2, fun _ => k1⟩

/-- C96, the same in `double`: one limit of `2^-60` at the time 1, and the run never ends although all later limits are one. -/
theorem C96_frozen_violated : ∃ (o : Outputs) (c : Clock) (first : List (List ℝ)), (∀ l ∈ first, ∀ x ∈ l, 0 < x) ∧ 0 < c.dt ∧ c.totaltime = 1 ∧
    ∀ n : Nat, (clockAt (tiesToEven 53) o c first (List.replicate n [[1]])).totaltime = 1 ∧
      ∀ F, 1 ≤ F → ¬ terminate 0 F (clockAt (tiesToEven 53) o c first (List.replicate n [[1]])) := by
  refine ⟨⟨0, 0⟩, ⟨0, 2 ^ (-60 : ℤ), 0, 1, 0, 0⟩, [[2 ^ (-60 : ℤ)]], ?_, by positivity, rfl, ?_⟩
  · intro l hl x hx
    rw [List.mem_singleton.mp hl] at hx
    rw [List.mem_singleton.mp hx]; positivity
  · intro n
    have h1 : (tiesToEven 53).fl 1 = 1 := by
      have := fl_exact (p := 53) (by norm_num) (m := 1) (by norm_num) 0
      simpa using this
    have hsm : smallest [[(2 : ℝ) ^ (-60 : ℤ)]] = 2 ^ (-60 : ℤ) := by
      simp only [smallest, List.map_cons, List.map_nil, List.foldl_cons, List.foldl_nil]
      norm_num
    have hu : (tiesToEven 53).u = 2 ^ (-53 : ℤ) := rfl
    have ha : 0 ≤ adapt (tiesToEven 53) (2 ^ (-60 : ℤ)) (2 ^ (-60 : ℤ)) ∧ adapt (tiesToEven 53) (2 ^ (-60 : ℤ)) (2 ^ (-60 : ℤ)) ≤ 2 ^ (-60 : ℤ) := by
      obtain ⟨a1, a2, -, -⟩ := adapt_spec (R := tiesToEven 53) (by rw [hu]; norm_num) (m := 2 ^ (-60 : ℤ)) (dt := 2 ^ (-60 : ℤ)) (by positivity) (by positivity)
      exact ⟨a1.le, a2⟩
    obtain ⟨k1, -⟩ := C96_frozen (R := tiesToEven 53) ⟨0, 0⟩ (fun k => by simp) ⟨0, 2 ^ (-60 : ℤ), 0, 1, 0, 0⟩ h1 [[2 ^ (-60 : ℤ)]]
      (by rw [hsm]; exact double_one ha.1 (ha.2.trans (by norm_num))) (List.replicate n [[1]]) (by
        intro ls hls q hq x hx
        rw [List.eq_of_mem_replicate hls] at hq
        rw [List.mem_singleton.mp hq] at hx
        rw [List.mem_singleton.mp hx]; norm_num)
    refine ⟨k1, fun F hF => ?_⟩
    rintro (⟨h, -⟩ | ⟨-, h⟩)
    · exact absurd h (lt_irrefl _)
    · rw [k1] at h; simp only at h; linarith

/-! ### One timed output -/

private theorem adapt_nonneg (hf : Format R) {m dt : ℝ} (hm : 0 < m) (hdt : 0 ≤ dt) : 0 ≤ adapt R m dt ∧ adapt R m dt ≤ m := by
  have hn : ∀ x, 0 ≤ x → 0 ≤ R.fl x := fun x hx => by
    have := hf.mono 0 x hx
    rwa [fl_zero'] at this
  simp only [adapt]
  by_cases h1 : m < dt
  · rw [if_pos h1]
    have d1 : 0 ≤ min m (R.fl (dt / 2)) := le_min hm.le (hn _ (by linarith))
    split_ifs with h2
    · rw [mul_comm 2] at h2
      exact ⟨hn _ (by linarith), h2.le⟩
    · exact ⟨d1, min_le_left _ _⟩
  · rw [if_neg h1]
    split_ifs with h2
    · rw [mul_comm 2] at h2
      exact ⟨hn _ (by linarith), h2.le⟩
    · exact ⟨hdt, not_lt.mp h1⟩

/-- C96, one call with one timed output: the time it sets is not before the present one and not beyond the next time of output, which moves by one interval when it has been reached. -/
theorem C96_output_step (hf : Format R) (o : Outputs) (k : Kind) (ho : ∀ k', o.interval k' > 0 ↔ k' = k) (ls : List (List ℝ)) (hpos : ∀ l ∈ ls, ∀ x ∈ l, 0 < x)
    (hle : ∃ l ∈ ls, ∃ x ∈ l, x ≤ o.interval k) (c : Clock) (hdt : 0 ≤ c.dt) (ht : c.totaltime ≤ c.t k) (hT : Representable R c.totaltime) (htr : Representable R (c.t k)) :
    let c' := setAdaptive R o ls c
    c'.totaltime = c.totaltime ∧ c'.t k = (if c.totaltime = c.t k then R.fl (c.t k + o.interval k) else c.t k) ∧ c.totaltime ≤ c'.totaltimeNext ∧ c'.totaltimeNext ≤ c'.t k ∧
      c'.dt = R.fl (c'.totaltimeNext - c.totaltime) ∧ 0 ≤ c'.dt ∧ Representable R c'.totaltimeNext ∧ Representable R (c'.t k) := by
  have hI : 0 < o.interval k := (ho k).mpr rfl
  have hm := smallest_pos ls hpos
  obtain ⟨l, hl, x, hx, hxI⟩ := hle
  obtain ⟨a1, a2⟩ := adapt_nonneg hf hm hdt
  have a3 := (a2.trans (smallest_le ls hl hx)).trans hxI
  have hn : ∀ x, 0 ≤ x → 0 ≤ R.fl x := fun x hx => by
    have := hf.mono 0 x hx
    rwa [fl_zero'] at this
  intro c'
  have hc' : c' = _ := setAdaptive_one (R := R) o k ho ls c
  generalize adapt R (smallest ls) c.dt = D at *
  clear_value c'
  have hTn : c.totaltime ≤ R.fl (c.totaltime + D) := by
    have := hf.mono c.totaltime (c.totaltime + D) (by linarith)
    rwa [hT] at this
  have main : c'.totaltime = c.totaltime ∧ c'.t k = (if c.totaltime = c.t k then R.fl (c.t k + o.interval k) else c.t k) ∧ c.totaltime ≤ c'.totaltimeNext ∧ c'.totaltimeNext ≤ c'.t k ∧
      c'.dt = R.fl (c'.totaltimeNext - c'.totaltime) ∧ Representable R c'.totaltimeNext ∧ Representable R (c'.t k) := by
    subst hc'
    simp only [catchUp]
    by_cases he : c.totaltime = c.t k
    · rw [if_pos he]
      simp only [if_pos he]
      have h1 : R.fl (c.totaltime + D) ≤ R.fl (c.t k + o.interval k) := hf.mono _ _ (by linarith)
      have hr1 : Representable R (R.fl (c.totaltime + D)) := hf.idem _
      have hr2 : Representable R (R.fl (c.t k + o.interval k)) := hf.idem _
      generalize (if c.dtSaved > 0 then c.dtSaved else D) = E
      simp only [align, Function.update_self]
      split_ifs with h2 h3
      · exact ⟨rfl, Function.update_self .., hTn.trans h1, by simp, trivial, hr2, by simpa using hr2⟩
      · refine ⟨rfl, Function.update_self .., le_min hTn (hTn.trans h1), by simp, trivial, ?_, by simpa using hr2⟩
        simpa [min_eq_left h1] using hr1
      · exact ⟨rfl, Function.update_self .., hTn, by simpa using h1, trivial, hr1, by simpa using hr2⟩
    · rw [if_neg he]
      simp only [if_neg he]
      have hr1 : Representable R (R.fl (c.totaltime + D)) := hf.idem _
      simp only [align]
      split_ifs with h2 h3
      · exact ⟨rfl, rfl, ht, le_rfl, trivial, htr, htr⟩
      · refine ⟨rfl, rfl, le_min hTn ht, min_le_right _ _, trivial, ?_, htr⟩
        simp only
        rcases min_choice (R.fl (c.totaltime + D)) (c.t k) with h | h <;> rw [h]
        · exact hr1
        · exact htr
      · refine ⟨rfl, rfl, hTn, ?_, trivial, hr1, htr⟩
        refine (not_lt.mp h2).trans ?_
        have h4 : 0 ≤ R.fl (R.fl (1 / 10) * o.interval k) := hn _ (mul_nonneg (hn _ (by norm_num)) hI.le)
        have := hf.mono (c.t k - R.fl (R.fl (1 / 10) * o.interval k)) (c.t k) (by linarith)
        rwa [htr] at this
  obtain ⟨m1, m2, m3, m4, m5, m6, m7⟩ := main
  rw [m1] at m5
  exact ⟨m1, m2, m3, m4, m5, by rw [m5]; exact hn _ (by linarith), m6, m7⟩

private theorem outputTime_mono (hf : Format R) {t I : ℝ} (ht : Representable R t) (hI : 0 < I) : (∀ m, Representable R (outputTime R t I m)) ∧ Monotone (outputTime R t I) := by
  have hr : ∀ m, Representable R (outputTime R t I m) := fun m => by
    cases m with
    | zero => exact ht
    | succ m => exact hf.idem _
  refine ⟨hr, monotone_nat_of_le_succ fun m => ?_⟩
  have := hf.mono (outputTime R t I m) (outputTime R t I m + I) (by linarith)
  rw [hr m] at this
  exact this

/-- C96, the times of output: those of exact arithmetic up to one rounding each. -/
theorem C96_output_times (t I B : ℝ) (hI : 0 < I) (m : Nat) (hB : ∀ i < m, |outputTime R t I i| + I ≤ B) : |outputTime R t I m - (t + m * I)| ≤ m * (R.u * B) := by
  induction m with
  | zero => simp [outputTime]
  | succ m ih =>
    have h1 := ih fun i hi => hB i (by omega)
    have h2 := R.err (outputTime R t I m + I)
    have h3 : |outputTime R t I m + I| ≤ B := by
      refine ((abs_add_le _ _).trans ?_).trans (hB m (by omega))
      rw [abs_of_pos hI]
    have h4 := mul_le_mul_of_nonneg_left h3 R.nonneg
    have h5 := abs_add_le (R.fl (outputTime R t I m + I) - (outputTime R t I m + I)) (outputTime R t I m - (t + m * I))
    rw [outputTime, show R.fl (outputTime R t I m + I) - (t + ((m + 1 : ℕ) : ℝ) * I) = R.fl (outputTime R t I m + I) - (outputTime R t I m + I) + (outputTime R t I m - (t + m * I)) by push_cast; ring]
    push_cast
    linarith

/-- C96, a run with one timed output, in a format: the time never goes back and never passes a time of output without having been equal to it at some iteration, whatever the limits of the particles, if one of them is
at most the interval at each call; and the output is written exactly at these times. -/
theorem C96_outputs_partial (hf : Format R) (o : Outputs) (k : Kind) (ho : ∀ k', o.interval k' > 0 ↔ k' = k) (it : Int) (T0 dt0 : ℝ) (hT0 : Representable R T0) (hdt : 0 ≤ dt0)
    (first : List (List ℝ)) (rest : List (List (List ℝ))) (hlim : ∀ ls ∈ first :: rest, (∀ l ∈ ls, ∀ x ∈ l, 0 < x) ∧ ∃ l ∈ ls, ∃ x ∈ l, x ≤ o.interval k) :
    let clock := fun j => clockAt R o (start R o it T0 dt0) first (rest.take j)
    let time := outputTime R ((start R o it T0 dt0).t k) (o.interval k)
    (∀ j < rest.length, (clock j).totaltime ≤ (clock (j + 1)).totaltime) ∧
    (∀ j ≤ rest.length, ∀ m, time m < (clock j).totaltime → ∃ j' < j, (clock j').totaltime = time m) ∧
    (∀ j ≤ rest.length, due o k (clock j) ↔ (clock j).totaltime = (clock j).t k) ∧
    (∀ j ≤ rest.length, ∃ m, (clock j).t k = time m) := by
  have hI : 0 < o.interval k := (ho k).mpr rfl
  intro clock time
  obtain ⟨c0, hc0⟩ : ∃ c0, c0 = start R o it T0 dt0 := ⟨_, rfl⟩
  have s1 : c0.totaltime = T0 := by rw [hc0]; rfl
  have s2 : c0.dt = dt0 := by rw [hc0]; rfl
  have s3 : T0 ≤ c0.t k ∧ Representable R (c0.t k) := by
    rw [hc0]
    simp only [start, if_pos (show o.interval k > 0 from hI)]
    split_ifs with h
    · exact ⟨le_rfl, hT0⟩
    · exact ⟨not_lt.mp h, hf.idem _⟩
  have htime : time = outputTime R (c0.t k) (o.interval k) := by rw [hc0]
  obtain ⟨hrep, hmono⟩ := outputTime_mono hf s3.2 hI
  rw [← htime] at hrep hmono
  have hstep : ∀ m, time (m + 1) = R.fl (time m + o.interval k) := fun m => by rw [htime]; rfl
  obtain ⟨d, hd⟩ : ∃ d, d = setAdaptive R o first c0 := ⟨_, rfl⟩
  obtain ⟨f, hfd⟩ : ∃ f : Nat → Clock, f = fun j => (rest.take j).foldl (fun c l => advance R true (setAdaptive R o l c)) d := ⟨_, rfl⟩
  have hclock' : ∀ j, 1 ≤ j → j ≤ rest.length → clock j = f j := by
    intro j h1 h2
    simp only [clock, hfd, ← hc0]
    rcases hj : rest.take j with _ | ⟨x, y⟩
    · have := congrArg List.length hj
      rw [List.length_take, min_eq_left h2] at this
      simp at this; omega
    · rw [clockAt, hd]
  obtain ⟨q1, q2, q3, q4, q5, q6, q7, q8⟩ := C96_output_step hf o k ho first (hlim first (List.mem_cons_self ..)).1 (hlim first (List.mem_cons_self ..)).2 c0 (by rw [s2]; exact hdt) (by rw [s1]; exact s3.1)
    (by rw [s1]; exact hT0) s3.2
  rw [← hd] at q1 q2 q3 q4 q5 q6 q7 q8
  have hf0 : f 0 = d := by rw [hfd]; rfl
  have hc00 : clock 0 = c0 := by simp only [clock, List.take_zero, clockAt, hc0]
  have hclock : ∀ j ≤ rest.length, (clock j).totaltime = (f j).totaltime := by
    intro j hj
    rcases Nat.eq_zero_or_pos j with rfl | h
    · rw [hc00, hf0, q1]
    · rw [hclock' j h hj]
  have key : ∀ j ≤ rest.length, 0 ≤ (f j).dt ∧ (f j).totaltime ≤ (f j).t k ∧ Representable R (f j).totaltime ∧ Representable R ((f j).t k) ∧
      (∃ m, (f j).t k = time m ∧ ∀ i < m, ∃ j' ≤ j, (clock j').totaltime = time i) ∧ ∀ i < j, (f i).totaltime ≤ (f (i + 1)).totaltime := by
    intro j
    induction j with
    | zero =>
      intro _
      rw [hf0]
      refine ⟨q6, by rw [q1]; exact q3.trans q4, by rw [q1, s1]; exact hT0, q8, ?_, fun i hi => by omega⟩
      by_cases he : c0.totaltime = c0.t k
      · refine ⟨1, by rw [q2, if_pos he, hstep, htime]; rfl, fun i hi => ⟨0, le_rfl, ?_⟩⟩
        rw [show i = 0 by omega, hc00, he, htime]; rfl
      · exact ⟨0, by rw [q2, if_neg he, htime]; rfl, fun i hi => by omega⟩
    | succ j ih =>
      intro hj
      obtain ⟨i1, i2, i3, i4, ⟨m, i5, i6⟩, i7⟩ := ih (by omega)
      have e : f (j + 1) = advance R true (setAdaptive R o (rest[j]'(by omega)) (f j)) := by
        rw [hfd]; simp only
        rw [List.take_succ_eq_append_getElem (by omega), List.foldl_append]; rfl
      have hmem : rest[j]'(by omega) ∈ first :: rest := List.mem_cons_of_mem _ (List.getElem_mem _)
      obtain ⟨p1, p2, p3, p4, p5, p6, p7, p8⟩ := C96_output_step hf o k ho (rest[j]'(by omega)) (hlim _ hmem).1 (hlim _ hmem).2 (f j) i1 i2 i3 i4
      have eT : (f (j + 1)).totaltime = (setAdaptive R o (rest[j]'(by omega)) (f j)).totaltimeNext := by rw [e]; rfl
      have et : (f (j + 1)).t k = (setAdaptive R o (rest[j]'(by omega)) (f j)).t k := by rw [e]; rfl
      refine ⟨by rw [e]; exact p6, by rw [eT, et]; exact p4, by rw [eT]; exact p7, by rw [et]; exact p8, ?_, ?_⟩
      · by_cases he : (f j).totaltime = (f j).t k
        · refine ⟨m + 1, by rw [et, p2, if_pos he, hstep, i5], fun i hi => ?_⟩
          rcases Nat.lt_succ_iff_lt_or_eq.mp hi with hi | rfl
          · obtain ⟨j', a, b⟩ := i6 i hi
            exact ⟨j', by omega, b⟩
          · exact ⟨j, by omega, by rw [hclock j (by omega), he, i5]⟩
        · exact ⟨m, by rw [et, p2, if_neg he, i5], fun i hi => by
            obtain ⟨j', a, b⟩ := i6 i hi
            exact ⟨j', by omega, b⟩⟩
      · intro i hi
        rcases Nat.lt_succ_iff_lt_or_eq.mp hi with hi | rfl
        · exact i7 i hi
        · rw [eT]; exact p3
  have hback : ∀ j ≤ rest.length, (clock j).totaltime ≤ (clock j).t k := by
    intro j hj
    rcases Nat.eq_zero_or_pos j with rfl | h
    · rw [hc00, s1]; exact s3.1
    · rw [hclock' j h hj]; exact (key j hj).2.1
  refine ⟨?_, ?_, ?_, ?_⟩
  · intro j hj
    rw [hclock j (by omega), hclock (j + 1) (by omega)]
    exact (key (j + 1) (by omega)).2.2.2.2.2 j (by omega)
  · intro j hj m hm
    obtain ⟨-, k2, -, -, ⟨m', k5, k6⟩, -⟩ := key j hj
    rw [hclock j hj] at hm
    have hlt : m < m' := by
      by_contra hc
      have := hmono (not_lt.mp hc)
      rw [← k5] at this
      linarith
    obtain ⟨j', a, b⟩ := k6 m hlt
    refine ⟨j', lt_of_le_of_ne a ?_, b⟩
    rintro rfl
    rw [hclock j' hj] at b
    linarith
  · intro j hj
    simp only [due, if_pos (show o.interval k > 0 from hI)]
    exact ⟨fun h => le_antisymm (hback j hj) (not_lt.mp h), fun h => by rw [h]; exact lt_irrefl _⟩
  · intro j hj
    rcases Nat.eq_zero_or_pos j with rfl | h
    · exact ⟨0, by rw [hc00, htime]; rfl⟩
    · rw [hclock' j h hj]
      obtain ⟨m, k5, -⟩ := (key j hj).2.2.2.2.1
      exact ⟨m, k5⟩

/-! ### Cases in `double` -/

private theorem double_u : (tiesToEven 53).u = 2 ^ (-53 : ℤ) := rfl

/-- A step of `2^-10` up to the time 4. -/
example : Format (tiesToEven 53) ∧ (0 : ℝ) < 2 ^ (-10 : ℤ) ∧ (tiesToEven 53).u * (max |0| |4| + 2 ^ (-10 : ℤ)) < 2 ^ (-10 : ℤ) := by
  refine ⟨tiesToEven_format (by norm_num), by positivity, ?_⟩
  rw [double_u]; norm_num

/-- Limits of a thousandth up to the time 1000. -/
example : (tiesToEven 53).u ≤ 1 / 16 ∧ 64 * (tiesToEven 53).u * max |0| 1000 ≤ 1 / 1000 := by
  rw [double_u]; norm_num

/-- Screen output at intervals of one, with limits of a tenth and of two in turn on two processes. -/
example : (∀ k', (fun k : Kind => if k = .screen then (1 : ℝ) else 0) k' > 0 ↔ k' = .screen) ∧ Representable (tiesToEven 53) 0 ∧
    ∀ ls ∈ ([[[1 / 10], [2]], [[2], [1 / 10]]] : List (List (List ℝ))), (∀ l ∈ ls, ∀ x ∈ l, 0 < x) ∧ ∃ l ∈ ls, ∃ x ∈ l, x ≤ 1 := by
  refine ⟨fun k' => by cases k' <;> simp, fl_zero', ?_⟩
  intro ls hls
  simp only [List.mem_cons, List.not_mem_nil, or_false] at hls
  rcases hls with rfl | rfl
  · exact ⟨by simp, [1 / 10], by simp, 1 / 10, by simp, by norm_num⟩
  · exact ⟨by simp, [1 / 10], by simp, 1 / 10, by simp, by norm_num⟩

end FleCSPH.RoundedClock
