import Mathlib.Tactic.Ring
import Mathlib.Tactic.Linarith
import Verif.Model.Key
import Verif.Spec.Path

namespace FleCSPH
open Spec Key

theorem pathKey_nil (dim) : pathKey dim [] = 1 := rfl

theorem pathKey_snoc (dim ds b) : pathKey dim (ds ++ [b]) = pathKey dim ds * 2 ^ dim + b := by
  simp [pathKey, List.foldl_append]

theorem IsPath.nil {dim} : IsPath dim [] := by intro d h; simp at h

theorem IsPath.snoc {dim ds b} : IsPath dim (ds ++ [b]) ↔ IsPath dim ds ∧ b < 2 ^ dim := by
  simp [IsPath, or_imp, forall_and]

theorem IsPath.take {dim ds} (h : IsPath dim ds) (n) : IsPath dim (ds.take n) :=
  fun d hd => h d (List.mem_of_mem_take hd)

/-- induction from the right -/
theorem snocInd {α} {P : List α → Prop} (nil : P []) (snoc : ∀ l a, P l → P (l ++ [a])) (l : List α) : P l := by
  have : ∀ n, ∀ l : List α, l.length = n → P l := by
    intro n
    induction n with
    | zero => intro l h; rw [List.length_eq_zero_iff.mp h]; exact nil
    | succ n ih =>
      intro l h
      have hne : l ≠ [] := by intro h0; simp [h0] at h
      have := List.dropLast_concat_getLast hne
      rw [← this]
      apply snoc
      apply ih
      simp [h]
  exact this _ l rfl

theorem pathKey_bounds {dim ds} (h : IsPath dim ds) :
    2 ^ (ds.length * dim) ≤ pathKey dim ds ∧ pathKey dim ds < 2 ^ (ds.length * dim + 1) := by
  induction ds using snocInd with
  | nil => simp [pathKey]
  | snoc l a ih =>
    obtain ⟨hl, ha⟩ := IsPath.snoc.mp h
    obtain ⟨h1, h2⟩ := ih hl
    rw [pathKey_snoc, List.length_append, List.length_singleton]
    have e1 : 2 ^ ((l.length + 1) * dim) = 2 ^ (l.length * dim) * 2 ^ dim := by
      rw [← Nat.pow_add]; congr 1; ring
    have e2 : 2 ^ ((l.length + 1) * dim + 1) = 2 ^ (l.length * dim + 1) * 2 ^ dim := by
      rw [← Nat.pow_add]; congr 1; ring
    rw [e1, e2]
    constructor
    · exact Nat.le_add_right_of_le (Nat.mul_le_mul_right _ h1)
    · have : (pathKey dim l + 1) * 2 ^ dim ≤ 2 ^ (l.length * dim + 1) * 2 ^ dim := Nat.mul_le_mul_right _ h2
      rw [Nat.add_mul, Nat.one_mul] at this
      omega

theorem pathKey_pos (dim ds) : 0 < pathKey dim ds := by
  induction ds using snocInd with
  | nil => simp [pathKey]
  | snoc l a ih =>
    rw [pathKey_snoc]
    have := Nat.mul_pos ih (Nat.two_pow_pos dim)
    omega

theorem pathKey_snoc_div {dim ds b} (hb : b < 2 ^ dim) : pathKey dim (ds ++ [b]) / 2 ^ dim = pathKey dim ds := by
  rw [pathKey_snoc, Nat.mul_comm, Nat.mul_add_div (Nat.two_pow_pos dim), Nat.div_eq_of_lt hb, Nat.add_zero]

theorem pathKey_snoc_mod {dim ds b} (hb : b < 2 ^ dim) : pathKey dim (ds ++ [b]) % 2 ^ dim = b := by
  rw [pathKey_snoc, Nat.mul_comm, Nat.mul_add_mod, Nat.mod_eq_of_lt hb]

theorem pathKey_append_div {dim} (ds es) (he : IsPath dim es) :
    pathKey dim (ds ++ es) / 2 ^ (es.length * dim) = pathKey dim ds := by
  induction es using snocInd with
  | nil => simp
  | snoc l a ih =>
    obtain ⟨hl, ha⟩ := IsPath.snoc.mp he
    have e : (l ++ [a]).length * dim = dim + l.length * dim := by simp; ring
    rw [e, Nat.pow_add, ← Nat.div_div_eq_div_mul, ← List.append_assoc, pathKey_snoc_div ha, ih hl]

theorem pathKey_div_take {dim ds} (h : IsPath dim ds) {n} (hn : n ≤ ds.length) :
    pathKey dim ds / 2 ^ (n * dim) = pathKey dim (ds.take (ds.length - n)) := by
  have e : ds.take (ds.length - n) ++ ds.drop (ds.length - n) = ds := List.take_append_drop _ _
  have hd : IsPath dim (ds.drop (ds.length - n)) := fun d hd => h d (List.mem_of_mem_drop hd)
  have hl : (ds.drop (ds.length - n)).length = n := by simp; omega
  have := pathKey_append_div (ds.take (ds.length - n)) _ hd
  rw [e, hl] at this
  exact this

theorem depthLoop_path {dim} (hdim : 0 < dim) (ds) (h : IsPath dim ds) (d) :
    depthLoop dim (pathKey dim ds) d = d + ds.length := by
  induction ds using snocInd generalizing d with
  | nil =>
    rw [depthLoop, if_pos]
    · simp
    · left; rw [Nat.shiftRight_eq_div_pow, pathKey_nil]
      exact Nat.div_eq_of_lt (Nat.one_lt_two_pow (by omega))
  | snoc l a ih =>
    obtain ⟨hl, ha⟩ := IsPath.snoc.mp h
    rw [depthLoop, Nat.shiftRight_eq_div_pow, pathKey_snoc_div ha, if_neg, ih hl]
    · simp; omega
    · have := pathKey_pos dim l
      omega

theorem depth_path {dim} (hdim : 0 < dim) {ds} (h : IsPath dim ds) : depth dim (pathKey dim ds) = ds.length := by
  rw [depth, depthLoop_path hdim ds h]; omega

theorem exists_path {dim} (n v : Nat) (h1 : 2 ^ (n * dim) ≤ v) (h2 : v < 2 ^ (n * dim + 1)) :
    ∃ ds, IsPath dim ds ∧ ds.length = n ∧ pathKey dim ds = v := by
  induction n generalizing v with
  | zero => exact ⟨[], IsPath.nil, rfl, by simp at h1 h2; simp [pathKey]; omega⟩
  | succ n ih =>
    have e1 : 2 ^ ((n + 1) * dim) = 2 ^ (n * dim) * 2 ^ dim := by
      rw [← Nat.pow_add]; congr 1; ring
    have e2 : 2 ^ ((n + 1) * dim + 1) = 2 ^ (n * dim + 1) * 2 ^ dim := by
      rw [← Nat.pow_add]; congr 1; ring
    rw [e1] at h1
    rw [e2] at h2
    obtain ⟨ds, hp, hl, hk⟩ := ih (v / 2 ^ dim)
      ((Nat.le_div_iff_mul_le (Nat.two_pow_pos _)).mpr h1)
      ((Nat.div_lt_iff_lt_mul (Nat.two_pow_pos _)).mpr h2)
    refine ⟨ds ++ [v % 2 ^ dim], IsPath.snoc.mpr ⟨hp, Nat.mod_lt _ (Nat.two_pow_pos _)⟩, by simp [hl], ?_⟩
    rw [pathKey_snoc, hk]
    exact Nat.div_add_mod' v (2 ^ dim)

theorem maxDepth_mul_lt {bits dim} (hb : 0 < bits) : maxDepth bits dim * dim < bits := by
  have := Nat.div_mul_le_self (bits - 1) dim
  unfold maxDepth; omega

theorem pathKey_lt_word {bits dim ds} (hb : 0 < bits) (h : IsPath dim ds) (hl : ds.length ≤ maxDepth bits dim) :
    pathKey dim ds < 2 ^ bits := by
  have h1 := (pathKey_bounds h).2
  have h2 : ds.length * dim ≤ maxDepth bits dim * dim := Nat.mul_le_mul_right _ hl
  have h3 := maxDepth_mul_lt (dim := dim) hb
  exact lt_of_lt_of_le h1 (Nat.pow_le_pow_right (by omega) (by omega))

theorem pathKey_inj {dim} (hdim : 0 < dim) {ds es} (h1 : IsPath dim ds) (h2 : IsPath dim es)
    (h : pathKey dim ds = pathKey dim es) : ds = es := by
  have hl : ds.length = es.length := by rw [← depth_path hdim h1, ← depth_path hdim h2, h]
  induction ds using snocInd generalizing es with
  | nil => exact (List.length_eq_zero_iff.mp hl.symm).symm
  | snoc l a ih =>
    have hne : es ≠ [] := by intro h0; simp [h0] at hl
    have e := List.dropLast_concat_getLast hne
    rw [← e] at h h2 hl ⊢
    generalize es.dropLast = m at *
    generalize es.getLast hne = b at *
    obtain ⟨hla, ha⟩ := IsPath.snoc.mp h1
    obtain ⟨hlb, hb⟩ := IsPath.snoc.mp h2
    have k1 := pathKey_snoc_div (ds := l) ha
    rw [h, pathKey_snoc_div hb] at k1
    have k2 := pathKey_snoc_mod (ds := l) ha
    rw [h, pathKey_snoc_mod hb] at k2
    rw [ih hla hlb k1.symm (by simp at hl; omega), k2]

theorem list_lt_snoc {l m : List Nat} {a b : Nat} (hl : l.length = m.length) :
    l ++ [a] < m ++ [b] ↔ l < m ∨ (l = m ∧ a < b) := by
  induction l generalizing m with
  | nil =>
    have : m = [] := List.length_eq_zero_iff.mp hl.symm
    subst this
    simp [List.cons_lt_cons_iff]
  | cons x l ih =>
    cases m with
    | nil => simp at hl
    | cons y m =>
      simp at hl
      simp [List.cons_lt_cons_iff, ih hl]
      constructor
      · rintro (h | ⟨h1, h2 | ⟨h3, h4⟩⟩)
        · exact Or.inl (Or.inl h)
        · exact Or.inl (Or.inr ⟨h1, h2⟩)
        · exact Or.inr ⟨⟨h1, h3⟩, h4⟩
      · rintro ((h | ⟨h1, h2⟩) | ⟨⟨h1, h3⟩, h4⟩)
        · exact Or.inl h
        · exact Or.inr ⟨h1, Or.inl h2⟩
        · exact Or.inr ⟨h1, Or.inr ⟨h3, h4⟩⟩

theorem pathKey_lt_iff {dim} (hdim : 0 < dim) {ds es} (h1 : IsPath dim ds) (h2 : IsPath dim es)
    (hl : ds.length = es.length) : pathKey dim ds < pathKey dim es ↔ ds < es := by
  induction ds using snocInd generalizing es with
  | nil =>
    have : es = [] := (List.length_eq_zero_iff.mp hl.symm)
    subst this; simp
  | snoc l a ih =>
    have hne : es ≠ [] := by intro h0; simp [h0] at hl
    have e := List.dropLast_concat_getLast hne
    rw [← e] at h2 hl ⊢
    generalize es.dropLast = m at *
    generalize es.getLast hne = b at *
    obtain ⟨hla, ha⟩ := IsPath.snoc.mp h1
    obtain ⟨hlb, hb⟩ := IsPath.snoc.mp h2
    have hlen : l.length = m.length := by simp at hl; omega
    rw [list_lt_snoc hlen, ← ih hla hlb hlen, pathKey_snoc, pathKey_snoc]
    rcases Nat.lt_trichotomy (pathKey dim l) (pathKey dim m) with h | h | h
    · have : (pathKey dim l + 1) * 2 ^ dim ≤ pathKey dim m * 2 ^ dim := Nat.mul_le_mul_right _ h
      rw [Nat.add_mul, Nat.one_mul] at this
      constructor
      · intro _; exact Or.inl h
      · intro _; omega
    · have hlm := pathKey_inj hdim hla hlb h
      rw [h]
      constructor
      · intro h'; exact Or.inr ⟨hlm, by omega⟩
      · rintro (h' | ⟨_, h'⟩) <;> omega
    · have : (pathKey dim m + 1) * 2 ^ dim ≤ pathKey dim l * 2 ^ dim := Nat.mul_le_mul_right _ h
      rw [Nat.add_mul, Nat.one_mul] at this
      constructor
      · intro h'; omega
      · rintro (h' | ⟨h', _⟩)
        · omega
        · subst h'; omega

theorem pathKey_replicate_zero (dim n : Nat) : pathKey dim (List.replicate n 0) = 2 ^ (n * dim) := by
  induction n with
  | zero => simp [pathKey]
  | succ n ih =>
    rw [List.replicate_succ', pathKey_snoc, ih, ← Nat.pow_add, Nat.add_zero]; congr 1; ring

theorem pathKey_replicate_max (dim n : Nat) :
    pathKey dim (List.replicate n (2 ^ dim - 1)) = 2 ^ (n * dim + 1) - 1 := by
  induction n with
  | zero => simp [pathKey]
  | succ n ih =>
    rw [List.replicate_succ', pathKey_snoc, ih]
    have e2 : 2 ^ ((n + 1) * dim + 1) = 2 ^ (n * dim + 1) * 2 ^ dim := by
      rw [← Nat.pow_add]; congr 1; ring
    rw [e2, Nat.sub_mul, Nat.one_mul]
    have := Nat.two_pow_pos dim
    have h2 : 2 ^ dim ≤ 2 ^ (n * dim + 1) * 2 ^ dim := Nat.le_mul_of_pos_left _ (Nat.two_pow_pos _)
    omega

/-- `maxLoop` flips bits `i .. i+n-1`. -/
theorem maxLoop_testBit (bits n i id j : Nat) (h : i + n ≤ bits) :
    (maxLoop bits n i id).testBit j = if i ≤ j ∧ j < i + n then !(id.testBit j) else id.testBit j := by
  induction n generalizing i id with
  | zero => simp [maxLoop]
  | succ n ih =>
    rw [maxLoop, ih (i + 1) _ (by omega), Nat.testBit_xor]
    have e : (1 <<< i % 2 ^ bits).testBit j = decide (i = j) := by
      rw [Nat.mod_eq_of_lt]
      · rw [Nat.one_shiftLeft, Nat.testBit_two_pow]
      · rw [Nat.one_shiftLeft]; exact Nat.pow_lt_pow_right (by omega) (by omega)
    rw [e]
    by_cases h1 : i = j
    · subst h1; simp
    · by_cases h2 : i + 1 ≤ j ∧ j < i + 1 + n
      · rw [if_pos h2, if_pos (by omega)]; simp [h1]
      · rw [if_neg h2, if_neg (by omega)]; simp [h1]


theorem outputDigits_path {dim} (hdim : 0 < dim) {ds} (h : IsPath dim ds) (acc : List Nat) :
    outputDigits dim ds.length (pathKey dim ds) acc = some (ds ++ acc) := by
  induction ds using snocInd generalizing acc with
  | nil => simp [outputDigits, pathKey, root]
  | snoc l a ih =>
    obtain ⟨hla, ha⟩ := IsPath.snoc.mp h
    have hd := depth_path hdim h
    have hne : pathKey dim (l ++ [a]) ≠ root := by
      intro h0
      have h1 : depth dim root = 0 := depth_path hdim (ds := []) IsPath.nil
      rw [h0, h1] at hd; simp at hd
    have hdp : depth dim (pathKey dim (l ++ [a])) > 0 := by rw [hd]; simp
    have e1 : pathKey dim (l ++ [a]) >>> dim = pathKey dim l := by
      rw [Nat.shiftRight_eq_div_pow, pathKey_snoc_div ha]
    have e2 : pathKey dim (l ++ [a]) &&& (1 <<< dim - 1) = a := by
      rw [Nat.shiftLeft_eq, Nat.one_mul, Nat.and_two_pow_sub_one_eq_mod, pathKey_snoc_mod ha]
    rw [List.length_append, List.length_singleton, outputDigits, if_neg hne, popValue, if_pos hdp, e1, e2]
    simp only [Option.bind_eq_bind, Option.bind_some]
    rw [ih hla]; simp

theorem length_le_pathKey {dim} (hdim : 0 < dim) {ds} (h : IsPath dim ds) : ds.length ≤ pathKey dim ds := by
  have h1 := (pathKey_bounds h).1
  have h2 : ds.length ≤ ds.length * dim := Nat.le_mul_of_pos_right _ hdim
  have h3 : ds.length * dim < 2 ^ (ds.length * dim) := Nat.lt_two_pow_self
  omega

theorem commonPrefix_self (l : List Nat) : commonPrefix l l = l := by
  induction l with
  | nil => rfl
  | cons x l ih => simp [commonPrefix, ih]

theorem commonPrefix_snoc {l m : List Nat} {a b : Nat} (hl : l.length = m.length) (hne : l ++ [a] ≠ m ++ [b]) :
    commonPrefix (l ++ [a]) (m ++ [b]) = commonPrefix l m := by
  induction l generalizing m with
  | nil =>
    have : m = [] := List.length_eq_zero_iff.mp hl.symm
    subst this
    simp at hne; simp [commonPrefix, hne]
  | cons x l ih =>
    cases m with
    | nil => simp at hl
    | cons y m =>
      simp at hl
      by_cases hxy : x = y
      · subst hxy
        simp only [List.cons_append, commonPrefix, if_true]
        rw [ih hl]; intro h0; apply hne; rw [List.cons_append, List.cons_append, h0]
      · simp [commonPrefix, hxy]

theorem pop_path {dim} (hdim : 0 < dim) {l : List Nat} {a} (h : IsPath dim (l ++ [a])) :
    pop dim (pathKey dim (l ++ [a])) = some (pathKey dim l) := by
  obtain ⟨hla, ha⟩ := IsPath.snoc.mp h
  have hdp : depth dim (pathKey dim (l ++ [a])) > 0 := by rw [depth_path hdim h]; simp
  rw [pop, if_pos hdp, Nat.shiftRight_eq_div_pow, pathKey_snoc_div ha]

theorem conflictLoop_path {dim} (hdim : 0 < dim) {ds es} (h1 : IsPath dim ds) (h2 : IsPath dim es)
    (hl : ds.length = es.length) (fuel : Nat) (hf : ds.length ≤ fuel) (c : Int) :
    conflictLoop dim fuel (pathKey dim ds) (pathKey dim es) c =
      some (c - ds.length + (commonPrefix ds es).length) := by
  induction ds using snocInd generalizing es fuel c with
  | nil =>
    have : es = [] := (List.length_eq_zero_iff.mp hl.symm)
    subst this; cases fuel <;> simp [conflictLoop, commonPrefix]
  | snoc l a ih =>
    have hne : es ≠ [] := by intro h0; simp [h0] at hl
    have e := List.dropLast_concat_getLast hne
    rw [← e] at h2 hl ⊢
    generalize es.dropLast = m at *
    generalize es.getLast hne = b at *
    have hlen : l.length = m.length := by simp at hl; omega
    cases fuel with
    | zero => simp at hf
    | succ fuel =>
      rw [conflictLoop]
      by_cases heq : pathKey dim (l ++ [a]) = pathKey dim (m ++ [b])
      · rw [if_pos heq, pathKey_inj hdim h1 h2 heq, commonPrefix_self]; congr 1; omega
      · rw [if_neg heq, pop_path hdim h1, pop_path hdim h2]
        simp only [Option.bind_eq_bind, Option.bind_some]
        rw [ih (IsPath.snoc.mp h1).1 (IsPath.snoc.mp h2).1 hlen fuel (by simp at hf; omega),
          commonPrefix_snoc hlen (fun h0 => heq (by rw [h0]))]
        congr 1; simp; omega

end FleCSPH
