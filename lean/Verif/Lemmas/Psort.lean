import Verif.Model.Psort
import Mathlib.Tactic
/-! Lemmas about the distributed sort. -/
namespace FleCSPH.Psort
variable {α : Type} {P : Nat}

theorem StrictWeak.asymm {lt : α → α → Bool} (h : StrictWeak lt) {a b : α} (hab : lt a b = true) : lt b a = false := by
  by_contra hc
  have := h.trans a b a hab (by simpa using hc)
  rw [h.irrefl] at this; cases this

/-- `n` is the number of elements of a sorted list which satisfy the decreasing predicate `p`. -/
def Bound (p : α → Bool) (l : List α) (n : Nat) : Prop := n ≤ l.length ∧ ∀ i (h : i < l.length), (i < n ↔ p l[i] = true)

theorem takeWhile_bound (p : α → Bool) (l : List α)
    (h : ∀ i j (hi : i < l.length) (hj : j < l.length), i ≤ j → p l[j] = true → p l[i] = true) : Bound p l (l.takeWhile p).length := by
  induction l with
  | nil => exact ⟨by simp, by simp⟩
  | cons a l ih =>
    have ih' := ih (by
      intro i j hi hj hij hp
      have := h (i+1) (j+1) (by simpa using hi) (by simpa using hj) (by omega)
      simpa using this (by simpa using hp))
    by_cases ha : p a = true
    · rw [List.takeWhile_cons_of_pos ha]
      refine ⟨by simpa using ih'.1, ?_⟩
      rintro (_ | i) hi
      · simp [ha]
      · have := ih'.2 i (by simpa using hi)
        simpa using this
    · rw [List.takeWhile_cons_of_neg ha]
      refine ⟨by simp, ?_⟩
      intro i hi
      have := h 0 i (by simp) hi (by omega)
      simp only [List.getElem_cons_zero] at this
      simp only [List.length_nil, Nat.not_lt_zero, false_iff]
      exact fun hc => ha (this hc)

theorem window_bound (p : α → Bool) (l : List α)
    (h : ∀ i j (hi : i < l.length) (hj : j < l.length), i ≤ j → p l[j] = true → p l[i] = true)
    (a b : Nat) (hab : a ≤ b) (hb : b ≤ l.length)
    (hlo : ∀ i (hi : i < l.length), i < a → p l[i] = true) (hhi : ∀ i (hi : i < l.length), b ≤ i → p l[i] = false) :
    Bound p l (a + (((l.drop a).take (b - a)).takeWhile p).length) ∧
      a ≤ a + (((l.drop a).take (b - a)).takeWhile p).length ∧ a + (((l.drop a).take (b - a)).takeWhile p).length ≤ b := by
  have hlen : ((l.drop a).take (b - a)).length = b - a := by simp; omega
  have hb' := takeWhile_bound p ((l.drop a).take (b - a)) (by
    intro i j hi hj hij hp
    rw [hlen] at hi hj
    simp only [List.getElem_take, List.getElem_drop] at hp ⊢
    exact h _ _ _ _ (by omega) hp)
  generalize (((l.drop a).take (b - a)).takeWhile p).length = n at hb' ⊢
  have hn := hb'.1
  rw [hlen] at hn
  refine ⟨⟨by omega, ?_⟩, by omega, by omega⟩
  intro i hi
  rcases lt_or_ge i a with h1 | h1
  · simp [hlo i hi h1]; omega
  · rcases lt_or_ge i b with h2 | h2
    · have := hb'.2 (i - a) (by rw [hlen]; omega)
      simp only [List.getElem_take, List.getElem_drop] at this
      have he : a + (i - a) = i := by omega
      simp only [he] at this
      rw [← this]; omega
    · simp [hhi i hi h2]; omega

/-- Sorted by `lt`. -/
abbrev Sorted (lt : α → α → Bool) (l : List α) : Prop := l.Pairwise fun a b => lt b a = false

theorem Sorted.get {lt : α → α → Bool} {l : List α} (hw : StrictWeak lt) (h : Sorted lt l) {i j : Nat} (hi : i < l.length) (hj : j < l.length)
    (hij : i ≤ j) : lt l[j] l[i] = false := by
  rcases Nat.lt_or_eq_of_le hij with h1 | h1
  · exact List.pairwise_iff_getElem.1 h i j hi hj h1
  · subst h1; exact hw.irrefl _

theorem Sorted.down {lt : α → α → Bool} {l : List α} (hw : StrictWeak lt) (h : Sorted lt l) (q : α) {i j : Nat} (hi : i < l.length) (hj : j < l.length)
    (hij : i ≤ j) (hp : lt l[j] q = true) : lt l[i] q = true := by
  by_contra hc
  have := hw.incomp _ _ _ (h.get hw hi hj hij) (by simpa using hc)
  rw [this] at hp; cases hp

theorem Sorted.down' {lt : α → α → Bool} {l : List α} (hw : StrictWeak lt) (h : Sorted lt l) (q : α) {i j : Nat} (hi : i < l.length) (hj : j < l.length)
    (hij : i ≤ j) (hp : (!lt q l[j]) = true) : (!lt q l[i]) = true := by
  have := hw.incomp _ _ _ (show lt q l[j] = false by simpa using hp) (h.get hw hi hj hij)
  simpa using this

/-- A cut of the data by value: what is left of it on one process is less than what is right of it on any process. -/
def Proper (lt : α → α → Bool) (D : Fin P → List α) (c : Fin P → Nat) : Prop :=
  (∀ r, c r ≤ (D r).length) ∧
  ∀ r r' i j (hi : i < (D r).length) (hj : j < (D r').length), i < c r → c r' ≤ j → lt (D r)[i] (D r')[j] = true

/-- The elements less than `q`. -/
def Lower (lt : α → α → Bool) (D : Fin P → List α) (q : α) (lo : Fin P → Nat) : Prop := ∀ r, Bound (fun x => lt x q) (D r) (lo r)
/-- The elements not greater than `q`. -/
def Upper (lt : α → α → Bool) (D : Fin P → List α) (q : α) (up : Fin P → Nat) : Prop := ∀ r, Bound (fun x => !lt q x) (D r) (up r)

theorem Lower.proper {lt : α → α → Bool} {D : Fin P → List α} {q : α} {lo : Fin P → Nat} (hw : StrictWeak lt) (h : Lower lt D q lo) :
    Proper lt D lo := by
  refine ⟨fun r => (h r).1, ?_⟩
  intro r r' i j hi hj h1 h2
  have a1 : lt (D r)[i] q = true := ((h r).2 i hi).1 h1
  have a2 : lt (D r')[j] q = false := by
    by_contra hc
    have := ((h r').2 j hj).2 (by simpa using hc)
    omega
  by_contra hc
  have := hw.incomp _ _ _ (by simpa using hc) a2
  rw [this] at a1; cases a1

theorem Upper.proper {lt : α → α → Bool} {D : Fin P → List α} {q : α} {up : Fin P → Nat} (hw : StrictWeak lt) (h : Upper lt D q up) :
    Proper lt D up := by
  refine ⟨fun r => (h r).1, ?_⟩
  intro r r' i j hi hj h1 h2
  have a1 : lt q (D r)[i] = false := by simpa using ((h r).2 i hi).1 h1
  have a2 : lt q (D r')[j] = true := by
    by_contra hc
    have := ((h r').2 j hj).2 (by simpa using hc)
    omega
  by_contra hc
  have := hw.incomp _ _ _ a1 (by simpa using hc)
  rw [this] at a2; cases a2

/-- Lower and upper bounds of the same value. -/
theorem lower_le_upper {lt : α → α → Bool} {D : Fin P → List α} {q : α} {lo up : Fin P → Nat} (hw : StrictWeak lt) (hl : Lower lt D q lo)
    (hu : Upper lt D q up) (r : Fin P) : lo r ≤ up r := by
  by_contra hc
  push Not at hc
  have h1 := (hl r).1
  have a1 := ((hl r).2 (up r) (by omega)).1 hc
  have a2 := mt ((hu r).2 (up r) (by omega)).2 (lt_irrefl _)
  have := hw.asymm a1
  simp [this] at a2

/-- Bounds of values in order. -/
theorem upper_le_lower {lt : α → α → Bool} {D : Fin P → List α} {q q' : α} {lo up : Fin P → Nat} (hw : StrictWeak lt) (hu : Upper lt D q up)
    (hl : Lower lt D q' lo) (h : lt q q' = true) (r : Fin P) : up r ≤ lo r := by
  by_contra hc
  push Not at hc
  have h1 := (hu r).1
  have a1 : lt q (D r)[lo r] = false := by simpa using ((hu r).2 (lo r) (by omega)).1 hc
  have a2 : lt (D r)[lo r] q' = false := by
    by_contra hcc
    exact lt_irrefl _ (((hl r).2 (lo r) (by omega)).2 (by simpa using hcc))
  have := hw.incomp _ _ _ a1 a2
  rw [this] at h; cases h

theorem Bound.unique {p : α → Bool} {l : List α} {n m : Nat} (h : Bound p l n) (h' : Bound p l m) : n = m := by
  rcases lt_trichotomy n m with h1 | h1 | h1
  · have a := h'.1
    have := ((h.2 n (by omega)).2 (((h'.2 n (by omega))).1 h1)); omega
  · exact h1
  · have a := h.1
    have := ((h'.2 m (by omega)).2 (((h.2 m (by omega))).1 h1)); omega

/-! ### Distribution of the excess -/

theorem fill_fold (lo up : Fin P → Int) (hlu : ∀ r, lo r ≤ up r) (l : List (Fin P)) (hl : l.Nodup) (e : Int) (he : 0 ≤ e) (row : Fin P → Int) :
    let st := l.foldl (fillStep lo up) (e, row)
    0 ≤ st.1 ∧ (∀ r, r ∉ l → st.2 r = row r) ∧ (∀ r ∈ l, lo r ≤ st.2 r ∧ st.2 r ≤ up r) ∧
      (l.map fun r => st.2 r - lo r).sum = e - st.1 ∧ st.1 = max (e - (l.map fun r => up r - lo r).sum) 0 := by
  induction l generalizing e row with
  | nil => simp [he]
  | cons a l ih =>
    obtain ⟨ha, hl'⟩ := List.nodup_cons.1 hl
    have hstep : fillStep lo up (e, row) a = (e - (min (lo a + e) (up a) - lo a), Function.update row a (min (lo a + e) (up a))) := rfl
    have hlua := hlu a
    have he' : 0 ≤ e - (min (lo a + e) (up a) - lo a) := by
      rcases min_cases (lo a + e) (up a) with h | h <;> omega
    obtain ⟨h1, h2, h3, h4, h5⟩ := ih hl' _ he' (Function.update row a (min (lo a + e) (up a)))
    simp only [List.foldl_cons, hstep]
    have hra := h2 a ha
    rw [Function.update_self] at hra
    refine ⟨h1, ?_, ?_, ?_, ?_⟩
    · intro r hr
      rw [List.mem_cons, not_or] at hr
      rw [h2 r hr.2, Function.update_of_ne hr.1]
    · intro r hr
      rcases List.mem_cons.1 hr with rfl | hr
      · rw [hra]; rcases min_cases (lo r + e) (up r) with h | h <;> omega
      · exact h3 r hr
    · rw [List.map_cons, List.sum_cons, h4, hra]; ring
    · rw [List.map_cons, List.sum_cons, h5]
      have : 0 ≤ (l.map fun r => up r - lo r).sum := List.sum_nonneg (by
        intro x hx; obtain ⟨r, _, rfl⟩ := List.mem_map.1 hx; have := hlu r; omega)
      rcases min_cases (lo a + e) (up a) with h | h <;> rcases max_cases (e - (up a - lo a + (l.map fun r => up r - lo r).sum)) 0 with h' | h' <;>
        rcases max_cases (e - (min (lo a + e) (up a) - lo a) - (l.map fun r => up r - lo r).sum) 0 with h'' | h'' <;> omega

theorem fill_fold_mono (lo up : Fin P → Int) (hlu : ∀ r, lo r ≤ up r) (l : List (Fin P)) (hl : l.Nodup) (e e' : Int) (he : 0 ≤ e) (hee : e ≤ e')
    (row row' : Fin P → Int) :
    ∀ r ∈ l, (l.foldl (fillStep lo up) (e, row)).2 r ≤ (l.foldl (fillStep lo up) (e', row')).2 r := by
  induction l generalizing e e' row row' with
  | nil => simp
  | cons a l ih =>
    obtain ⟨ha, hl'⟩ := List.nodup_cons.1 hl
    have hstep : ∀ e row, fillStep lo up (e, row) a = (e - (min (lo a + e) (up a) - lo a), Function.update row a (min (lo a + e) (up a))) :=
      fun _ _ => rfl
    have hlua := hlu a
    have he1 : 0 ≤ e - (min (lo a + e) (up a) - lo a) := by
      rcases min_cases (lo a + e) (up a) with h | h <;> omega
    have he2 : e - (min (lo a + e) (up a) - lo a) ≤ e' - (min (lo a + e') (up a) - lo a) := by
      rcases min_cases (lo a + e) (up a) with h | h <;> rcases min_cases (lo a + e') (up a) with h' | h' <;> omega
    intro r hr
    simp only [List.foldl_cons, hstep]
    rcases List.mem_cons.1 hr with rfl | hr
    · rw [(fill_fold lo up hlu l hl' _ he1 _).2.1 r ha, (fill_fold lo up hlu l hl' _ (he1.trans he2) _).2.1 r ha, Function.update_self,
        Function.update_self]
      rcases min_cases (lo r + e) (up r) with h | h <;> rcases min_cases (lo r + e') (up r) with h' | h' <;> omega
    · exact ih hl' _ _ he1 he2 _ _ r hr

theorem sum_finRange (f : Fin P → Int) : ((List.finRange P).map f).sum = ∑ r, f r := (Fin.sum_univ_def f).symm

theorem fill_spec (lo up : Fin P → Int) (hlu : ∀ r, lo r ≤ up r) (old : Fin P → Int) (t : Int) (h1 : ∑ r, lo r ≤ t) (h2 : t ≤ ∑ r, up r) :
    (∀ r, lo r ≤ fill lo up old t r ∧ fill lo up old t r ≤ up r) ∧ ∑ r, fill lo up old t r = t := by
  obtain ⟨-, -, h3, h4, h5⟩ := fill_fold lo up hlu (List.finRange P) (List.nodup_finRange P) (t - ∑ r, lo r) (by omega) old
  refine ⟨fun r => h3 r (List.mem_finRange r), ?_⟩
  rw [sum_finRange, Finset.sum_sub_distrib] at h4 h5
  rw [max_eq_right (by omega)] at h5
  rw [h5] at h4
  unfold fill
  omega

theorem fill_mono (lo up : Fin P → Int) (hlu : ∀ r, lo r ≤ up r) (old old' : Fin P → Int) (t t' : Int) (h1 : ∑ r, lo r ≤ t) (h : t ≤ t') (r : Fin P) :
    fill lo up old t r ≤ fill lo up old' t' r :=
  fill_fold_mono lo up hlu _ (List.nodup_finRange P) _ _ (by omega) (by omega) _ _ r (List.mem_finRange r)

/-! ### A finished row -/

/-- A row of `right_ends` for the target `t`. -/
def Good (lt : α → α → Bool) (D : Fin P → List α) (t : Int) (c : Fin P → Int) : Prop :=
  ∃ q lo up old, Lower lt D q lo ∧ Upper lt D q up ∧ ∑ r, (lo r : Int) ≤ t ∧ t ≤ ∑ r, (up r : Int) ∧ c = fill (fun r => lo r) (fun r => up r) old t

theorem Good.sum {lt : α → α → Bool} {D : Fin P → List α} {t : Int} {c : Fin P → Int} (hw : StrictWeak lt) (h : Good lt D t c) : ∑ r, c r = t := by
  obtain ⟨q, lo, up, old, hl, hu, h1, h2, rfl⟩ := h
  exact (fill_spec _ _ (fun r => by exact_mod_cast lower_le_upper hw hl hu r) old t h1 h2).2

theorem Good.range {lt : α → α → Bool} {D : Fin P → List α} {t : Int} {c : Fin P → Int} (hw : StrictWeak lt) (h : Good lt D t c) (r : Fin P) :
    0 ≤ c r ∧ c r ≤ (D r).length := by
  obtain ⟨q, lo, up, old, hl, hu, h1, h2, rfl⟩ := h
  obtain ⟨a, b⟩ := (fill_spec _ _ (fun r => by exact_mod_cast lower_le_upper hw hl hu r) old t h1 h2).1 r
  have := (hu r).1
  constructor <;> omega

/-- Left of the row nothing is greater than what is right of it. -/
theorem Good.cut {lt : α → α → Bool} {D : Fin P → List α} {t : Int} {c : Fin P → Int} (hw : StrictWeak lt) (h : Good lt D t c)
    (r r' : Fin P) (i j : Nat) (hi : i < (D r).length) (hj : j < (D r').length) (h1 : (i : Int) < c r) (h2 : c r' ≤ j) :
    lt (D r')[j] (D r)[i] = false := by
  obtain ⟨q, lo, up, old, hl, hu, a1, a2, rfl⟩ := h
  have hs := (fill_spec _ _ (fun r => by exact_mod_cast lower_le_upper hw hl hu r) old t a1 a2).1
  have b1 := (hs r).2
  have b2 := (hs r').1
  have c1 : lt q (D r)[i] = false := by simpa using ((hu r).2 i hi).1 (by omega)
  have c2 : lt (D r')[j] q = false := by
    by_contra hc
    have := ((hl r').2 j hj).2 (by simpa using hc)
    omega
  exact hw.incomp _ _ _ c2 c1

theorem Good.mono {lt : α → α → Bool} {D : Fin P → List α} {t t' : Int} {c c' : Fin P → Int} (hw : StrictWeak lt) (h : Good lt D t c)
    (h' : Good lt D t' c') (ht : t ≤ t') (r : Fin P) : c r ≤ c' r := by
  have s1 := h.sum hw
  have s2 := h'.sum hw
  obtain ⟨q, lo, up, old, hl, hu, a1, a2, hc⟩ := h
  obtain ⟨q', lo', up', old', hl', hu', a1', a2', hc'⟩ := h'
  have hlu := fun r => lower_le_upper hw hl hu r
  have hlu' := fun r => lower_le_upper hw hl' hu' r
  have f1 := (fill_spec _ _ (fun r => by exact_mod_cast hlu r) old t a1 a2).1
  have f2 := (fill_spec _ _ (fun r => by exact_mod_cast hlu' r) old' t' a1' a2').1
  rw [← hc] at f1
  rw [← hc'] at f2
  by_cases h1 : lt q q' = true
  · have := upper_le_lower hw hu hl' h1 r
    have := (f1 r).2
    have := (f2 r).1
    omega
  · by_cases h2 : lt q' q = true
    · have hle : ∀ r, c' r ≤ c r := by
        intro r
        have := upper_le_lower hw hu' hl h2 r
        have := (f1 r).1
        have := (f2 r).2
        omega
      have heq : ∑ r, c' r = ∑ r, c r := le_antisymm (Finset.sum_le_sum fun r _ => hle r) (by omega)
      have := (Finset.sum_eq_sum_iff_of_le (fun r _ => hle r)).1 heq r (Finset.mem_univ r)
      omega
    · -- equivalent values
      have hq1 : lt q q' = false := by simpa using h1
      have hq2 : lt q' q = false := by simpa using h2
      have e1 : lo = lo' := by
        funext r
        apply (hl r).unique
        refine ⟨(hl' r).1, fun i hi => ?_⟩
        rw [(hl' r).2 i hi]
        constructor
        · intro hx
          by_contra hc
          have := hw.incomp _ _ _ (show lt (D r)[i] q = false by simpa using hc) hq1
          simp [this] at hx
        · intro hx
          by_contra hc
          have := hw.incomp _ _ _ (show lt (D r)[i] q' = false by simpa using hc) hq2
          simp [this] at hx
      have e2 : up = up' := by
        funext r
        apply (hu r).unique
        refine ⟨(hu' r).1, fun i hi => ?_⟩
        rw [(hu' r).2 i hi]
        constructor
        · intro hx
          have := hw.incomp _ _ _ hq1 (show lt q' (D r)[i] = false by simpa using hx)
          simpa using this
        · intro hx
          have := hw.incomp _ _ _ hq2 (show lt q (D r)[i] = false by simpa using hx)
          simpa using this
      subst e1; subst e2
      rw [hc, hc']
      exact fill_mono _ _ (fun r => by exact_mod_cast hlu r) _ _ _ _ a1 ht r

/-! ### The rounds -/

/-- What holds of every active range. -/
structure Inv (lt : α → α → Bool) (D : Fin P → List α) (tg : Nat → Int) (a : Active P) : Prop where
  out : ∀ r, a.outleft r = a.dFirst r
  sub : ∀ r, a.subdist r = (a.dLast r : Int) - a.dFirst r
  le : ∀ r, a.dFirst r ≤ a.dLast r
  cutF : Proper lt D a.dFirst
  cutL : Proper lt D a.dLast
  t : a.tFirst < a.tLast
  tP : a.tLast ≤ P - 1
  tgt : ∀ s, a.tFirst ≤ s → s < a.tLast → ∑ r, (a.dFirst r : Int) < tg s ∧ tg s ≤ ∑ r, (a.dLast r : Int)

/-- The data of an active range. -/
def Active.size (a : Active P) : Int := ∑ r, (a.dLast r : Int) - ∑ r, (a.dFirst r : Int)

theorem choose_some (sd : Fin P → Int) (h0 : ∀ r, 0 ≤ sd r) (l : List (Fin P)) (mid : Int) (hm : mid ≤ (l.map sd).sum) (hex : ∃ r ∈ l, sd r ≠ 0) :
    ∃ r ∈ l, choose sd l mid = some r ∧ sd r ≠ 0 := by
  induction l generalizing mid with
  | nil => simp at hex
  | cons a l ih =>
    unfold choose
    by_cases ha : sd a = 0
    · rw [if_pos ha]
      obtain ⟨r, hr, hr0⟩ := hex
      have hr' : r ∈ l := by
        rcases List.mem_cons.1 hr with rfl | h
        · exact absurd ha hr0
        · exact h
      obtain ⟨r, h1, h2⟩ := ih mid (by simpa [ha] using hm) ⟨r, hr', hr0⟩
      exact ⟨r, List.mem_cons_of_mem _ h1, h2⟩
    · rw [if_neg ha]
      split_ifs with hc
      · exact ⟨a, List.mem_cons_self, rfl, ha⟩
      · rw [List.map_cons, List.sum_cons] at hm
        obtain ⟨r, h1, h2⟩ := ih (mid - sd a) (by omega) (by
          by_contra hno
          push Not at hno
          have : (l.map sd).sum = 0 := List.sum_eq_zero (by
            intro x hx; obtain ⟨r, hr, rfl⟩ := List.mem_map.1 hx; exact hno r hr)
          omega)
        exact ⟨r, List.mem_cons_of_mem _ h1, h2⟩

theorem query_some (S : StdSort) {lt : α → α → Bool} {nR : Nat} (junk : Fin P → α) {D : Fin P → List α} {tg : Nat → Int} {a : Active P}
    (ha : Inv lt D tg a) (hreal : ∀ r : Fin P, nR ≤ r.val → (D r).length = 0) :
    ∃ q, query S lt nR junk D a = some q ∧ ∃ (r0 : Fin P) (m : Nat) (hm : m < (D r0).length), q = (D r0)[m] ∧ a.dFirst r0 ≤ m ∧ m < a.dLast r0 := by
  have h0 : ∀ r, 0 ≤ a.subdist r := by intro r; rw [ha.sub]; have := ha.le r; omega
  unfold query
  dsimp only
  set perm := S.run (fun r s => lt (median junk D a r) (median junk D a s)) ((List.finRange P).filter fun r => r.val < nR) with hp
  have hperm : perm.Perm ((List.finRange P).filter fun r => r.val < nR) := S.perm _ _
  have hsum : (perm.map a.subdist).sum = ∑ r, a.subdist r := by
    rw [(hperm.map a.subdist).sum_eq, ← sum_finRange]
    have hz : ∀ l : List (Fin P), ((l.filter fun r => r.val < nR).map a.subdist).sum = (l.map a.subdist).sum := by
      intro l
      induction l with
      | nil => rfl
      | cons r l ih =>
        by_cases hr : r.val < nR
        · rw [List.filter_cons_of_pos (by simpa using hr), List.map_cons, List.map_cons, List.sum_cons, List.sum_cons, ih]
        · rw [List.filter_cons_of_neg (by simpa using hr), List.map_cons, List.sum_cons, ih]
          have hl := hreal r (by omega)
          have h1 := ha.cutL.1 r
          have h2 := ha.le r
          rw [ha.sub r]; omega
    exact hz _
  have hpos : 0 < ∑ r, a.subdist r := by
    obtain ⟨h1, h2⟩ := ha.tgt a.tFirst le_rfl ha.t
    simp only [ha.sub, Finset.sum_sub_distrib]
    omega
  have hex : ∃ r ∈ perm, a.subdist r ≠ 0 := by
    by_contra hno
    push Not at hno
    have : (perm.map a.subdist).sum = 0 := List.sum_eq_zero (by
      intro x hx; obtain ⟨r, hr, rfl⟩ := List.mem_map.1 hx; exact hno r hr)
    omega
  obtain ⟨r, -, hc, hr⟩ := choose_some a.subdist h0 perm ((∑ r, a.subdist r) / 2) (by omega) hex
  rw [hc]
  refine ⟨_, rfl, r, a.dFirst r + (a.subdist r / 2).toNat, ?_, ?_, ?_, ?_⟩
  · have := ha.cutL.1 r; have := h0 r; have := ha.sub r; omega
  · have h1 := ha.cutL.1 r; have h2 := h0 r; have h3 := ha.sub r
    unfold median
    rw [List.getD_eq_getElem?_getD, List.getElem?_eq_getElem (by omega)]
    rfl
  · omega
  · have h2 := h0 r; have h3 := ha.sub r; omega

theorem split_bound (tg : Nat → Int) (hmono : ∀ s s', s ≤ s' → tg s ≤ tg s') (first last : Nat) (hfl : first ≤ last) (p : Int → Bool)
    (hp : ∀ x y, x ≤ y → p y = true → p x = true) :
    let n := first + (((List.range (last - first)).map (first + ·)).takeWhile fun s => p (tg s)).length
    first ≤ n ∧ n ≤ last ∧ ∀ s, first ≤ s → s < last → (s < n ↔ p (tg s) = true) := by
  have hb := takeWhile_bound (fun s => p (tg s)) ((List.range (last - first)).map (first + ·)) (by
    intro i j hi hj hij
    simp only [List.getElem_map, List.getElem_range]
    exact hp _ _ (hmono _ _ (by omega)))
  dsimp only
  generalize (((List.range (last - first)).map (first + ·)).takeWhile fun s => p (tg s)).length = n at hb ⊢
  have hn := hb.1
  simp only [List.length_map, List.length_range] at hn
  refine ⟨by omega, by omega, ?_⟩
  intro s h1 h2
  have := hb.2 (s - first) (by simp; omega)
  simp only [List.getElem_map, List.getElem_range] at this
  have he : first + (s - first) = s := by omega
  rw [he] at this
  rw [← this]; omega

theorem splitOne_some (S : StdSort) {lt : α → α → Bool} (hw : StrictWeak lt) {nR : Nat} (junk : Fin P → α) {D : Fin P → List α}
    (hD : ∀ r, Sorted lt (D r)) {tg : Nat → Int} (hmono : ∀ s s', s ≤ s' → tg s ≤ tg s') {a : Active P}
    (ha : Inv lt D tg a) (hreal : ∀ r : Fin P, nR ≤ r.val → (D r).length = 0) :
    ∃ res, splitOne S lt nR junk D tg a = some res ∧
      (∀ w ∈ res.rows, ∃ s, w.1 = s + 1 ∧ s < P - 1 ∧ Good lt D (tg s) w.2) ∧
      (∀ b ∈ res.next, Inv lt D tg b ∧ b.size < a.size) ∧
      (∀ s, a.tFirst ≤ s → s < a.tLast → (∃ w ∈ res.rows, w.1 = s + 1) ∨ ∃ b ∈ res.next, b.tFirst ≤ s ∧ s < b.tLast) ∧
      (res.next.map fun b => b.tLast - b.tFirst).sum ≤ a.tLast - a.tFirst := by
  obtain ⟨q, hq, r0, m, hm, hqm, hm1, hm2⟩ := query_some S junk ha hreal
  have hlow : ∀ r i (hi : i < (D r).length), i < a.dFirst r → lt (D r)[i] q = true := by
    intro r i hi h; rw [hqm]; exact ha.cutF.2 r r0 i m hi hm h hm1
  have hhigh : ∀ r i (hi : i < (D r).length), a.dLast r ≤ i → lt q (D r)[i] = true := by
    intro r i hi h; rw [hqm]; exact ha.cutL.2 r0 r m i hm hi hm2 h
  set lo := fun r => lower lt (D r) (a.dFirst r) (a.dLast r) q with hlo
  set up := fun r => upper lt (D r) (a.dFirst r) (a.dLast r) q with hup
  have Lb : ∀ r, Bound (fun x => lt x q) (D r) (lo r) ∧ a.dFirst r ≤ lo r ∧ lo r ≤ a.dLast r := fun r =>
    window_bound (fun x => lt x q) (D r) (fun i j hi hj hij hp => (hD r).down hw q hi hj hij hp) _ _ (ha.le r) (ha.cutL.1 r)
      (fun i hi h => hlow r i hi h) (fun i hi h => hw.asymm (hhigh r i hi h))
  have Ub : ∀ r, Bound (fun x => !lt q x) (D r) (up r) ∧ a.dFirst r ≤ up r ∧ up r ≤ a.dLast r := fun r =>
    window_bound (fun x => !lt q x) (D r) (fun i j hi hj hij hp => (hD r).down' hw q hi hj hij hp) _ _ (ha.le r) (ha.cutL.1 r)
      (fun i hi h => by simpa using hw.asymm (hlow r i hi h)) (fun i hi h => by simpa using hhigh r i hi h)
  have hL : Lower lt D q lo := fun r => (Lb r).1
  have hU : Upper lt D q up := fun r => (Ub r).1
  have hlu := lower_le_upper hw hL hU
  have hstrict : lo r0 < up r0 := by
    have h1 : ¬ m < lo r0 := by
      rw [(hL r0).2 m hm]; simp [hqm, hw.irrefl]
    have h2 : m < up r0 := by
      rw [(hU r0).2 m hm]; simp [hqm, hw.irrefl]
    omega
  have hsumlt : ∑ r, (lo r : Int) < ∑ r, (up r : Int) :=
    Finset.sum_lt_sum (fun r _ => by exact_mod_cast hlu r) ⟨r0, Finset.mem_univ _, by exact_mod_cast hstrict⟩
  have hsumF : ∑ r, (a.dFirst r : Int) ≤ ∑ r, (lo r : Int) := Finset.sum_le_sum fun r _ => by exact_mod_cast (Lb r).2.1
  have hsumL : ∑ r, (up r : Int) ≤ ∑ r, (a.dLast r : Int) := Finset.sum_le_sum fun r _ => by exact_mod_cast (Ub r).2.2
  have hF0 : 0 ≤ ∑ r, (a.dFirst r : Int) := Finset.sum_nonneg fun r _ => by positivity
  obtain ⟨l1, l2, l3⟩ := split_bound tg hmono a.tFirst a.tLast ha.t.le (fun y => decide (y < ∑ r, (lo r : Int)))
    (by intro x y hxy; simp only [decide_eq_true_eq]; omega)
  obtain ⟨u1, u2, u3⟩ := split_bound tg hmono a.tFirst a.tLast ha.t.le (fun y => decide (y ≤ ∑ r, (up r : Int)))
    (by intro x y hxy; simp only [decide_eq_true_eq]; omega)
  simp only [decide_eq_true_eq] at l3 u3
  change a.tFirst ≤ splitLow tg a.tFirst a.tLast (∑ r, (lo r : Int)) at l1
  change splitLow tg a.tFirst a.tLast (∑ r, (lo r : Int)) ≤ a.tLast at l2
  change ∀ s, a.tFirst ≤ s → s < a.tLast → (s < splitLow tg a.tFirst a.tLast (∑ r, (lo r : Int)) ↔ _) at l3
  change a.tFirst ≤ splitHigh tg a.tFirst a.tLast (∑ r, (up r : Int)) at u1
  change splitHigh tg a.tFirst a.tLast (∑ r, (up r : Int)) ≤ a.tLast at u2
  change ∀ s, a.tFirst ≤ s → s < a.tLast → (s < splitHigh tg a.tFirst a.tLast (∑ r, (up r : Int)) ↔ _) at u3
  unfold splitOne
  rw [if_pos ha.sub, hq]
  simp only [Option.bind_some]
  change ∃ res, (if ∀ s ∈ (List.range (splitHigh tg a.tFirst a.tLast (∑ r, (up r : Int)) - splitLow tg a.tFirst a.tLast (∑ r, (lo r : Int)))).map
    (splitLow tg a.tFirst a.tLast (∑ r, (lo r : Int)) + ·), 0 < tg s then _ else _) = some res ∧ _
  generalize splitLow tg a.tFirst a.tLast (∑ r, (lo r : Int)) = low at *
  generalize splitHigh tg a.tFirst a.tLast (∑ r, (up r : Int)) = high at *
  have hlh : low ≤ high := by
    by_contra hc
    push Not at hc
    have e1 := (l3 high u1 (by omega)).1 hc
    have e2 := mt (u3 high u1 (by omega)).2 (lt_irrefl _)
    omega
  have hhit : ∀ s ∈ (List.range (high - low)).map (low + ·), low ≤ s ∧ s < high := by
    intro s hs
    simp only [List.mem_map, List.mem_range] at hs
    obtain ⟨k, hk, rfl⟩ := hs; omega
  have hmem : ∀ s, low ≤ s → s < high → s ∈ (List.range (high - low)).map (low + ·) := by
    intro s h1 h2
    simp only [List.mem_map, List.mem_range]
    exact ⟨s - low, by omega, by omega⟩
  have htg : ∀ s, low ≤ s → s < high → ∑ r, (lo r : Int) ≤ tg s ∧ tg s ≤ ∑ r, (up r : Int) := by
    intro s h1 h2
    have e1 := mt (l3 s (by omega) (by omega)).2 (by omega)
    have e2 := (u3 s (by omega) (by omega)).1 h2
    exact ⟨by omega, e2⟩
  rw [if_pos (by
    intro s hs
    obtain ⟨h1, h2⟩ := hhit s hs
    have := (ha.tgt s (by omega) (by omega)).1
    omega)]
  have invL : low - a.tFirst > 0 → Inv lt D tg
      { tFirst := a.tFirst, tLast := low, dFirst := a.dFirst, dLast := lo
        subdist := fun r => (lo r : Int) - a.outleft r, outleft := a.outleft } := by
    intro h
    refine ⟨ha.out, ?_, fun r => (Lb r).2.1, ha.cutF, hL.proper hw, by dsimp only; omega, by dsimp only; have := ha.tP; omega, ?_⟩
    · intro r; dsimp only; rw [ha.out]
    · intro s h1 h2
      dsimp only at h1 h2 ⊢
      refine ⟨(ha.tgt s h1 (by omega)).1, ?_⟩
      have := (l3 s h1 (by omega)).1 h2
      omega
  have invR : a.tLast - high > 0 → Inv lt D tg
      { tFirst := high, tLast := a.tLast, dFirst := up, dLast := a.dLast
        subdist := fun r => a.outleft r + a.subdist r - up r, outleft := fun r => up r } := by
    intro h
    refine ⟨fun r => rfl, ?_, fun r => (Ub r).2.2, hU.proper hw, ha.cutL, by dsimp only; omega, ha.tP, ?_⟩
    · intro r; dsimp only; rw [ha.out, ha.sub]; ring
    · intro s h1 h2
      dsimp only at h1 h2 ⊢
      refine ⟨?_, (ha.tgt s (by omega) h2).2⟩
      have := mt (u3 s (by omega) h2).2 (by omega)
      omega
  refine ⟨_, rfl, ?_, ?_, ?_, ?_⟩
  · intro w hws
    obtain ⟨s, hs, rfl⟩ := List.mem_map.1 hws
    obtain ⟨h1, h2⟩ := hhit s hs
    have := ha.tP
    exact ⟨s, rfl, by omega, q, lo, up, _, hL, hU, (htg s h1 h2).1, (htg s h1 h2).2, rfl⟩
  · intro b hb
    rcases List.mem_append.1 hb with hb | hb
    · split_ifs at hb with h
      · rw [List.mem_singleton] at hb
        subst hb
        refine ⟨invL h, ?_⟩
        change ∑ r, (lo r : Int) - ∑ r, (a.dFirst r : Int) < ∑ r, (a.dLast r : Int) - ∑ r, (a.dFirst r : Int)
        omega
      · simp at hb
    · split_ifs at hb with h
      · rw [List.mem_singleton] at hb
        subst hb
        refine ⟨invR h, ?_⟩
        change ∑ r, (a.dLast r : Int) - ∑ r, (up r : Int) < ∑ r, (a.dLast r : Int) - ∑ r, (a.dFirst r : Int)
        omega
      · simp at hb
  · intro s h1 h2
    rcases lt_or_ge s low with h3 | h3
    · right
      refine ⟨{ tFirst := a.tFirst, tLast := low, dFirst := a.dFirst, dLast := lo
                subdist := fun r => (lo r : Int) - a.outleft r, outleft := a.outleft },
        List.mem_append_left _ (by rw [if_pos (show low - a.tFirst > 0 by omega)]; exact List.mem_singleton.2 rfl), h1, h3⟩
    · rcases lt_or_ge s high with h4 | h4
      · left
        exact ⟨_, List.mem_map.2 ⟨s, hmem s h3 h4, rfl⟩, rfl⟩
      · right
        refine ⟨{ tFirst := high, tLast := a.tLast, dFirst := up, dLast := a.dLast
                  subdist := fun r => a.outleft r + a.subdist r - up r, outleft := fun r => up r },
          List.mem_append_right _ (by rw [if_pos (show a.tLast - high > 0 by omega)]; exact List.mem_singleton.2 rfl), h4, h2⟩
  · dsimp only
    split_ifs <;> simp <;> omega

theorem mapM_some {β γ : Type} (f : β → Option γ) (Q : β → γ → Prop) (l : List β) (h : ∀ b ∈ l, ∃ c, f b = some c ∧ Q b c) :
    ∃ cs, l.mapM f = some cs ∧ List.Forall₂ Q l cs := by
  induction l with
  | nil => exact ⟨[], rfl, .nil⟩
  | cons b l ih =>
    obtain ⟨c, h1, h2⟩ := h b List.mem_cons_self
    obtain ⟨cs, h3, h4⟩ := ih fun x hx => h x (List.mem_cons_of_mem _ hx)
    exact ⟨c :: cs, by simp [List.mapM_cons, h1, h3], .cons h2 h4⟩

theorem write_cases (R : Nat → Fin P → Int) (rows : List (Nat × (Fin P → Int))) (k : Nat) :
    ((∀ w ∈ rows, w.1 ≠ k) ∧ write R rows k = R k) ∨ ∃ w ∈ rows, w.1 = k ∧ write R rows k = w.2 := by
  induction rows generalizing R with
  | nil => left; exact ⟨by simp, rfl⟩
  | cons w rows ih =>
    have he : write R (w :: rows) = write (Function.update R w.1 w.2) rows := rfl
    rcases ih (Function.update R w.1 w.2) with ⟨h1, h2⟩ | ⟨w', h1, h2, h3⟩
    · by_cases hw : w.1 = k
      · right
        refine ⟨w, List.mem_cons_self, hw, ?_⟩
        rw [he, h2, ← hw, Function.update_self]
      · left
        refine ⟨?_, ?_⟩
        · intro x hx
          rcases List.mem_cons.1 hx with rfl | hx
          · exact hw
          · exact h1 x hx
        · rw [he, h2, Function.update_of_ne (Ne.symm hw)]
    · right
      exact ⟨w', List.mem_cons_of_mem _ h1, h2, by rw [he, h3]⟩

theorem forall₂_mem_left {β γ : Type} {Q : β → γ → Prop} {l : List β} {cs : List γ} (h : List.Forall₂ Q l cs) {b : β} (hb : b ∈ l) :
    ∃ c ∈ cs, Q b c := by
  induction h with
  | nil => simp at hb
  | cons h1 _ ih =>
    rcases List.mem_cons.1 hb with rfl | hb
    · exact ⟨_, List.mem_cons_self, h1⟩
    · obtain ⟨c, h2, h3⟩ := ih hb; exact ⟨c, List.mem_cons_of_mem _ h2, h3⟩

theorem forall₂_mem_right {β γ : Type} {Q : β → γ → Prop} {l : List β} {cs : List γ} (h : List.Forall₂ Q l cs) {c : γ} (hc : c ∈ cs) :
    ∃ b ∈ l, Q b c := by
  induction h with
  | nil => simp at hc
  | cons h1 _ ih =>
    rcases List.mem_cons.1 hc with rfl | hc
    · exact ⟨_, List.mem_cons_self, h1⟩
    · obtain ⟨c, h2, h3⟩ := ih hc; exact ⟨c, List.mem_cons_of_mem _ h2, h3⟩

theorem rounds_some (S : StdSort) {lt : α → α → Bool} (hw : StrictWeak lt) {nR : Nat} (junk : Nat → Fin P → α) {D : Fin P → List α}
    (hD : ∀ r, Sorted lt (D r)) {tg : Nat → Int} (hmono : ∀ s s', s ≤ s' → tg s ≤ tg s')
    (hreal : ∀ r : Fin P, nR ≤ r.val → (D r).length = 0) (n : Nat) (act : List (Active P)) (R : Nat → Fin P → Int)
    (hact : ∀ a ∈ act, Inv lt D tg a ∧ a.size ≤ n) (hwid : (act.map fun b => b.tLast - b.tFirst).sum ≤ P - 1)
    (hR : ∀ s, s < P - 1 → (∃ a ∈ act, a.tFirst ≤ s ∧ s < a.tLast) ∨ Good lt D (tg s) (R (s + 1))) :
    ∃ R', rounds S lt nR junk D tg n act R = some R' ∧ (∀ s, s < P - 1 → Good lt D (tg s) (R' (s + 1))) ∧ R' 0 = R 0 ∧ R' P = R P := by
  induction n generalizing act R with
  | zero =>
    cases act with
    | nil => exact ⟨R, rfl, fun s hs => by simpa using hR s hs, rfl, rfl⟩
    | cons a act =>
      exfalso
      obtain ⟨h1, h2⟩ := hact a List.mem_cons_self
      obtain ⟨h3, h4⟩ := h1.tgt a.tFirst le_rfl h1.t
      unfold Active.size at h2
      push_cast at h2
      omega
  | succ n ih =>
    cases act with
    | nil => exact ⟨R, rfl, fun s hs => by simpa using hR s hs, rfl, rfl⟩
    | cons a0 act0 =>
      obtain ⟨res, hres, hall⟩ := mapM_some (splitOne S lt nR (junk n) D tg) (fun a (res : Split P) =>
        a.size ≤ ((n + 1 : Nat) : Int) ∧
        (∀ w ∈ res.rows, ∃ s, w.1 = s + 1 ∧ s < P - 1 ∧ Good lt D (tg s) w.2) ∧
        (∀ b ∈ res.next, Inv lt D tg b ∧ b.size < a.size) ∧
        (∀ s, a.tFirst ≤ s → s < a.tLast → (∃ w ∈ res.rows, w.1 = s + 1) ∨ ∃ b ∈ res.next, b.tFirst ≤ s ∧ s < b.tLast) ∧
        (res.next.map fun b => b.tLast - b.tFirst).sum ≤ a.tLast - a.tFirst) (a0 :: act0) (by
          intro a ha
          obtain ⟨h1, h2⟩ := hact a ha
          obtain ⟨r, h3, h4⟩ := splitOne_some S hw (junk n) hD hmono h1 hreal
          exact ⟨r, h3, h2, h4⟩)
      have hrows : ∀ w ∈ res.flatMap (·.rows), ∃ s, w.1 = s + 1 ∧ s < P - 1 ∧ Good lt D (tg s) w.2 := by
        intro w hws
        obtain ⟨c, hc, hwc⟩ := List.mem_flatMap.1 hws
        obtain ⟨b, -, hb⟩ := forall₂_mem_right hall hc
        exact hb.2.1 w hwc
      have hnext : ∀ b ∈ res.flatMap (·.next), Inv lt D tg b ∧ b.size ≤ n := by
        intro b hb
        obtain ⟨c, hc, hbc⟩ := List.mem_flatMap.1 hb
        obtain ⟨a, -, ha⟩ := forall₂_mem_right hall hc
        obtain ⟨h1, h2⟩ := ha.2.2.1 b hbc
        refine ⟨h1, ?_⟩
        have := ha.1
        push_cast at this
        omega
      have hwid' : ((res.flatMap (·.next)).map fun b => b.tLast - b.tFirst).sum ≤ P - 1 := by
        refine le_trans ?_ hwid
        generalize a0 :: act0 = act at hall
        clear hwid hR hres hrows hnext
        induction hall with
        | nil => simp
        | cons h1 _ ih =>
          rw [List.flatMap_cons, List.map_append, List.sum_append, List.map_cons, List.sum_cons]
          exact Nat.add_le_add h1.2.2.2.2 ih
      have hlen : (res.flatMap (·.next)).length ≤ P - 1 := by
        refine le_trans ?_ hwid'
        generalize res.flatMap (·.next) = nx at hnext
        clear hwid' hrows
        induction nx with
        | nil => simp
        | cons b nx ih2 =>
          have := (hnext b List.mem_cons_self).1.t
          have := ih2 fun x hx => hnext x (List.mem_cons_of_mem _ hx)
          rw [List.map_cons, List.sum_cons, List.length_cons]
          omega
      have hR' : ∀ s, s < P - 1 → (∃ a ∈ res.flatMap (·.next), a.tFirst ≤ s ∧ s < a.tLast) ∨
          Good lt D (tg s) (write R (res.flatMap (·.rows)) (s + 1)) := by
        intro s hs
        rcases write_cases R (res.flatMap (·.rows)) (s + 1) with ⟨h1, h2⟩ | ⟨w, h1, h2, h3⟩
        · rcases hR s hs with ⟨a, ha, h3, h4⟩ | h3
          · left
            obtain ⟨c, hc, hac⟩ := forall₂_mem_left hall ha
            rcases hac.2.2.2.1 s h3 h4 with ⟨w, hw1, hw2⟩ | ⟨b, hb1, hb2⟩
            · exact absurd hw2 (h1 w (List.mem_flatMap.2 ⟨c, hc, hw1⟩))
            · exact ⟨b, List.mem_flatMap.2 ⟨c, hc, hb1⟩, hb2⟩
          · right; rw [h2]; exact h3
        · right
          obtain ⟨s', e1, e2, e3⟩ := hrows w h1
          have : s' = s := by omega
          subst this
          rw [h3]; exact e3
      obtain ⟨R', e1, e2, e3, e4⟩ := ih _ _ hnext hwid' hR'
      refine ⟨R', ?_, e2, ?_, ?_⟩
      · unfold rounds
        rw [hres]
        simp only [Option.bind_some]
        rw [if_pos hlen]
        exact e1
      · rw [e3]
        rcases write_cases R (res.flatMap (·.rows)) 0 with ⟨h1, h2⟩ | ⟨w, h1, h2, h3⟩
        · exact h2
        · obtain ⟨s', e1, -⟩ := hrows w h1; omega
      · rw [e4]
        rcases write_cases R (res.flatMap (·.rows)) P with ⟨h1, h2⟩ | ⟨w, h1, h2, h3⟩
        · exact h2
        · obtain ⟨s', e1, e2, -⟩ := hrows w h1; omega

end FleCSPH.Psort
