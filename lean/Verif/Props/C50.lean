import Verif.Model.Conservation
import Mathlib.Tactic.Linarith
import Mathlib.Tactic.NormNum
import Mathlib.Algebra.Order.Ring.Abs
/-!
C50: `check_conservation` returns true only if the quantity stays constant over all rows of scalar_reductions.dat. It does not: the header of the file stops the reader, and the answer is
true for every file `scalar_output` writes. On files of the layout the reader expects (`C50_expected_partial`) the tests of mass and energy are right, the tests of momenta always fail.
-/
namespace FleCSPH
open Conservation

namespace Conservation

/-- The rows of the layout which the reader expects. -/
def Expected (d : Nat) (r : List ℝ) : Prop := r.length = width d

/-- A quantity in a row of that layout. -/
def column : Quantity → Option Nat
  | .mass => some 3
  | .energy => some 4
  | _ => none

/-- The quantity is the same in two rows, up to the tolerance of 1e-16. -/
def Same (c : Quantity) (r r' : List ℝ) : Prop := ∀ i ∈ column c, |r.getD i 0 - r'.getD i 0| < 1 / 10 ^ 16

theorem gets_full (r : List ℝ) (t : List Tok) (vs : List (Option ℝ)) (h : vs.length = r.length) : gets ⟨r.map Tok.num ++ t, true⟩ vs = (r.map some, ⟨t, true⟩) := by
  induction r generalizing vs with
  | nil =>
    cases vs with
    | nil => rfl
    | cons v vs => simp at h
  | cons x r ih =>
    cases vs with
    | nil => simp at h
    | cons v vs =>
      have := ih vs (by simpa using h)
      simp only [List.map_cons, List.cons_append, gets, get, if_true, this]

theorem gets_bad (s : Stream) (hs : s.good = false) (vs : List (Option ℝ)) : gets s vs = (vs, s) := by
  induction vs with
  | nil => rfl
  | cons v vs ih => simp [gets, get, hs, ih]

theorem gets_end (vs : List (Option ℝ)) (h : vs ≠ []) : gets ⟨[], true⟩ vs = (vs, ⟨[], false⟩) := by
  cases vs with
  | nil => exact absurd rfl h
  | cons v vs => simp [gets, get, gets_bad]

theorem gets_word (t : List Tok) (v : Option ℝ) (vs : List (Option ℝ)) : gets ⟨Tok.word :: t, true⟩ (v :: vs) = (some 0 :: vs, ⟨Tok.word :: t, false⟩) := by
  simp [gets, get, gets_bad]

theorem width_pos (d : Nat) : 5 ≤ width d := by unfold width; omega

theorem getD_map (r : List ℝ) (i : Nat) (h : i < r.length) : (r.map some).getD i none = some (r.getD i 0) := by
  simp [List.getD, h]

theorem tests_mem (p q : Int) (r r' : List ℝ) (h : 5 ≤ r.length) (h' : 5 ≤ r'.length) (check : List Quantity) (hc : ∀ c ∈ check, c = .mass ∨ c = .energy) :
    ∃ b, tests p q (r.map some) (r'.map some) check = some b ∧ (b = true ↔ ∀ c ∈ check, Same c r r') := by
  induction check with
  | nil => exact ⟨true, rfl, by simp⟩
  | cons c l ih =>
    obtain ⟨b, h1, h2⟩ := ih fun c hc' => hc c (by simp [hc'])
    have ht : test p q (r.map some) (r'.map some) c = open Classical in some (decide (Same c r r')) := by
      rcases hc c (by simp) with rfl | rfl
      · show close ((r.map some).getD 3 none) ((r'.map some).getD 3 none) = _
        rw [getD_map r 3 (by omega), getD_map r' 3 (by omega)]
        simp [close, Same, column, tol]
      · show close ((r.map some).getD 4 none) ((r'.map some).getD 4 none) = _
        rw [getD_map r 4 (by omega), getD_map r' 4 (by omega)]
        simp [close, Same, column, tol]
    by_cases hs : Same c r r'
    · refine ⟨b, ?_, ?_⟩
      · simp only [tests, ht, hs, decide_true, h1]
      · rw [h2]; simp [hs]
    · refine ⟨false, ?_, ?_⟩
      · simp only [tests, ht, hs, decide_false]
      · simp [hs]

theorem rows_eq (d : Nat) (p q : Int) (r0 : List ℝ) (h0 : Expected d r0) (check : List Quantity) (hc : ∀ c ∈ check, c = .mass ∨ c = .energy) (l : List (List ℝ)) (hl : ∀ r ∈ l, Expected d r)
    (fuel : Nat) (hf : l.length + 2 ≤ fuel) (last : List (Option ℝ)) (hlast : last.length = width d)
    (hlast' : l = [] → ∃ r, Expected d r ∧ last = r.map some ∧ ∀ c ∈ check, Same c r0 r) :
    ∃ b, rows p q (r0.map some) check fuel ⟨l.flatMap (·.map Tok.num), true⟩ last = some b ∧ (b = true ↔ ∀ r ∈ l, ∀ c ∈ check, Same c r0 r) := by
  have hw := width_pos d
  induction l generalizing fuel last with
  | nil =>
    obtain ⟨r, hr1, rfl, hr2⟩ := hlast' rfl
    obtain ⟨fuel, rfl⟩ : ∃ f, fuel = f + 2 := ⟨fuel - 2, by simp at hf; omega⟩
    have hne : r.map some ≠ [] := by
      intro h
      rw [h] at hlast
      simp at hlast
      omega
    obtain ⟨b, hb1, hb2⟩ := tests_mem p q r0 r (by rw [h0]; exact hw) (by rw [hr1]; exact hw) check hc
    obtain rfl : b = true := hb2.2 hr2
    refine ⟨true, ?_, by simp⟩
    simp only [List.flatMap_nil, rows, if_true, gets_end _ hne, hb1, Bool.false_eq_true, if_false]
  | cons r l ih =>
    obtain ⟨fuel, rfl⟩ : ∃ f, fuel = f + 1 := ⟨fuel - 1, by simp at hf; omega⟩
    have hr : Expected d r := hl r (by simp)
    obtain ⟨b, hb1, hb2⟩ := tests_mem p q r0 r (by rw [h0]; exact hw) (by rw [hr]; exact hw) check hc
    have hg := gets_full r (l.flatMap (·.map Tok.num)) last (by rw [hlast, hr])
    cases b with
    | false =>
      refine ⟨false, ?_, ?_⟩
      · simp only [List.flatMap_cons, rows, if_true, hg, hb1]
      · have : ¬∀ c ∈ check, Same c r0 r := fun h => Bool.noConfusion (hb2.2 h)
        simp only [Bool.false_eq_true, false_iff]
        intro h
        exact this (h r (by simp))
    | true =>
      obtain ⟨b', h1, h2⟩ := ih (fun x hx => hl x (by simp [hx])) fuel (by simp at hf; omega) (r.map some) (by rw [List.length_map, hr]) (fun _ => ⟨r, hr, rfl, hb2.1 rfl⟩)
      refine ⟨b', ?_, ?_⟩
      · simp only [List.flatMap_cons, rows, if_true, hg, hb1]
        exact h1
      · rw [h2]
        have := hb2.1 rfl
        simp only [List.mem_cons, forall_eq_or_imp]
        exact ⟨fun h => ⟨this, h⟩, fun h => h.2⟩

end Conservation

/-- For every file `scalar_output` writes, whatever the rows, and every list of quantities, in every dimension, the answer is true. -/
theorem C50_violated (d : Nat) (p q : Int) (header : List Tok) (hist : List Scalars) (check : List Quantity) :
    checkConservation d p q (outputFile header hist) check = some true := by
  have hw := width_pos d
  obtain ⟨n, hn⟩ : ∃ n, width d = n + 1 := ⟨width d - 1, by omega⟩
  unfold checkConservation outputFile
  rw [hn, List.replicate_succ, List.cons_append, gets_word]
  simp [rows]

/-- In particular when mass and energy double from one row to the next. -/
example : ∃ hist : List Scalars, (∃ a b, hist = [a, b] ∧ b.mass = 2 * a.mass ∧ 0 < a.mass ∧ b.energy = 2 * a.energy ∧ 0 < a.energy) ∧
    checkConservation 1 4 4 (outputFile [] hist) [.mass, .energy, .momentum] = some true :=
  ⟨[⟨0, 0, 0, 1, 1, 0, 0, [0], [], []⟩, ⟨1, 0, 0, 2, 2, 0, 0, [0], [], []⟩], ⟨_, _, rfl, by norm_num, by norm_num, by norm_num, by norm_num⟩, C50_violated _ _ _ _ _ _⟩

/-- On a file of the layout the reader expects, without header and with at least two rows, the answer for mass and energy is right. -/
theorem C50_expected_partial (d : Nat) (p q : Int) (r0 r1 : List ℝ) (l : List (List ℝ)) (h0 : Expected d r0) (h1 : Expected d r1) (hl : ∀ r ∈ l, Expected d r) (check : List Quantity)
    (hc : ∀ c ∈ check, c = .mass ∨ c = .energy) :
    ∃ b, checkConservation d p q ((r0 :: r1 :: l).flatMap (·.map Tok.num)) check = some b ∧ (b = true ↔ ∀ r ∈ r1 :: l, ∀ c ∈ check, Same c r0 r) := by
  have hw := width_pos d
  unfold checkConservation
  rw [List.flatMap_cons, gets_full r0 _ _ (by rw [List.length_replicate, h0])]
  have hlen : ∀ l : List (List ℝ), (∀ r ∈ l, Expected d r) → l.length ≤ (l.flatMap (·.map Tok.num)).length := by
    intro l hl
    induction l with
    | nil => simp
    | cons r l ih =>
      have h1 := ih fun x hx => hl x (by simp [hx])
      have h2 : r.length = width d := hl r (by simp)
      rw [List.flatMap_cons, List.length_append, List.length_map, List.length_cons]
      omega
  have h01 : ∀ r ∈ r1 :: l, Expected d r := by
    intro r hr
    rcases List.mem_cons.1 hr with rfl | hr
    · exact h1
    · exact hl r hr
  refine rows_eq d p q r0 h0 check hc (r1 :: l) h01 _ ?_ _ (List.length_replicate ..) (by simp)
  have := hlen (r1 :: l) h01
  rw [List.length_append]
  omega

/-- The tests of momenta compare addresses and always fail on such a file. -/
theorem C50_momentum_violated (d : Nat) (p q : Int) (hp : p ≠ 0) (hq : q ≠ 0) (r0 r1 : List ℝ) (l : List (List ℝ)) (h0 : Expected d r0) (h1 : Expected d r1)
    (c : Quantity) (hc : c = .momentum ∨ c = .angMomentum) : checkConservation d p q ((r0 :: r1 :: l).flatMap (·.map Tok.num)) [c] = some false := by
  have key : ∀ p : Int, p ≠ 0 → ¬|(p : ℝ)| < tol := by
    intro p hp h
    have h1 : (1 : ℝ) ≤ |(p : ℝ)| := by
      rw [← Int.cast_abs]
      exact_mod_cast Int.one_le_abs hp
    unfold tol at h
    norm_num at h
    linarith
  have ht : ∀ base row, tests p q base row [c] = some false := by
    intro base row
    rcases hc with rfl | rfl
    · simp only [tests, test, key p hp, decide_false]
    · simp only [tests, test, key q hq, decide_false]
  unfold checkConservation
  rw [List.flatMap_cons, gets_full r0 _ _ (by rw [List.length_replicate, h0]), List.flatMap_cons]
  simp only [rows, if_true, ht]

example : Expected 1 [0, 0, 0, 1, 1, 0] ∧ Expected 3 [0, 0, 0, 1, 1, 0, 0, 0, 0, 0, 0] := ⟨rfl, rfl⟩

end FleCSPH
