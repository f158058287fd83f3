import Verif.Lemmas.Key

/-!
C01: a tree key is exactly a path of child digits. `pathKey` (Spec/Path.lean) is the independent specification.
-/
namespace FleCSPH
open Spec Key

/-- Pushing the digits of a path onto the root, one at a time, never fails and yields the number `1 d₁ ... dₙ`. -/
theorem C01_push_builds_path (bits dim : Nat) (hb : 0 < bits) (ds : List Nat) (h : IsPath dim ds)
    (hl : ds.length ≤ maxDepth bits dim) :
    ds.foldlM (fun v d => push bits dim v d) root = some (pathKey dim ds) := by
  induction ds using snocInd with
  | nil => rfl
  | snoc l a ih =>
    obtain ⟨hla, ha⟩ := IsPath.snoc.mp h
    have hl' : l.length ≤ maxDepth bits dim := by simp at hl; omega
    rw [List.foldlM_append, ih hla hl']
    have hlt := pathKey_lt_word hb h hl
    rw [pathKey_snoc] at hlt
    simp only [List.foldlM_cons, List.foldlM_nil, push, Option.bind_eq_bind, Option.bind_some, Option.pure_def,
      Option.bind_fun_some]
    rw [if_pos (by rw [Nat.shiftLeft_eq, Nat.one_mul]; exact ha), pathKey_snoc]
    rw [Nat.mod_eq_of_lt (by rw [Nat.shiftLeft_eq]; omega), ← Nat.shiftLeft_add_eq_or_of_lt ha, Nat.shiftLeft_eq]

/-- A digit that does not name a child is rejected (the assertion fails). -/
theorem C01_push_rejects (bits dim v b : Nat) (hb : 2 ^ dim ≤ b) : push bits dim v b = none := by
  rw [push, if_neg]; rw [Nat.shiftLeft_eq]; omega

/-- The depth of a key is the length of its path. -/
theorem C01_depth (dim : Nat) (hdim : 0 < dim) (ds : List Nat) (h : IsPath dim ds) :
    depth dim (pathKey dim ds) = ds.length := depth_path hdim h

/-- `pop` and `parent` remove the last digit; `last_value` and `pop_value` return it. -/
theorem C01_pop (dim : Nat) (hdim : 0 < dim) (ds : List Nat) (b : Nat) (h : IsPath dim (ds ++ [b])) :
    pop dim (pathKey dim (ds ++ [b])) = some (pathKey dim ds) ∧
    parent dim (pathKey dim (ds ++ [b])) = pathKey dim ds ∧
    lastValue dim (pathKey dim (ds ++ [b])) = b ∧
    popValue dim (pathKey dim (ds ++ [b])) = some (b, pathKey dim ds) := by
  obtain ⟨_, hb⟩ := IsPath.snoc.mp h
  have hd := depth_path hdim h
  have hdp : depth dim (pathKey dim (ds ++ [b])) > 0 := by rw [hd]; simp
  have e1 : pathKey dim (ds ++ [b]) >>> dim = pathKey dim ds := by
    rw [Nat.shiftRight_eq_div_pow, pathKey_snoc_div hb]
  have e2 : pathKey dim (ds ++ [b]) &&& (1 <<< dim - 1) = b := by
    rw [Nat.shiftLeft_eq, Nat.one_mul, Nat.and_two_pow_sub_one_eq_mod, pathKey_snoc_mod hb]
  refine ⟨?_, e1, e2, ?_⟩
  · rw [pop, if_pos hdp, e1]
  · rw [popValue, if_pos hdp, e1, e2]

/-- The root cannot be popped (the assertion fails). -/
theorem C01_pop_root (dim : Nat) (hdim : 0 < dim) : pop dim root = none ∧ popValue dim root = none := by
  have : depth dim root = 0 := depth_path hdim (ds := []) IsPath.nil
  constructor <;> simp [pop, popValue, this]

/-- `pop(n)` removes exactly the `n` last digits (all shifts it performs are defined). -/
theorem C01_popD (bits dim : Nat) (hb : 0 < bits) (ds : List Nat) (h : IsPath dim ds)
    (hl : ds.length ≤ maxDepth bits dim) (n : Nat) (hn : n ≤ ds.length) :
    popD bits dim (pathKey dim ds) n = some (pathKey dim (ds.take (ds.length - n))) := by
  have h2 : n * dim ≤ maxDepth bits dim * dim := Nat.mul_le_mul_right _ (by omega)
  have h3 := maxDepth_mul_lt (dim := dim) hb
  rw [popD, if_pos (by omega), Nat.shiftRight_eq_div_pow, pathKey_div_take h hn]

/-- `truncate(n)` keeps the first `n` digits. -/
theorem C01_truncate (dim : Nat) (hdim : 0 < dim) (ds : List Nat) (h : IsPath dim ds) (n : Nat) :
    truncate dim (pathKey dim ds) n = pathKey dim (ds.take n) := by
  rw [truncate, depth_path hdim h]
  by_cases hn : ds.length < n
  · simp only [if_pos hn]
    rw [List.take_of_length_le (by omega)]
  · simp only [if_neg hn]
    rw [Nat.shiftRight_eq_div_pow, pathKey_div_take h (by omega)]
    congr 2; omega

/-- Distinct paths have distinct keys. -/
theorem C01_injective (dim : Nat) (hdim : 0 < dim) (ds es : List Nat) (h1 : IsPath dim ds) (h2 : IsPath dim es)
    (h : pathKey dim ds = pathKey dim es) : ds = es := pathKey_inj hdim h1 h2 h

/-- Every word with the root marker at position `n * dim` is the key of a path of length `n`. -/
theorem C01_surjective (dim n v : Nat) (h1 : 2 ^ (n * dim) ≤ v) (h2 : v < 2 ^ (n * dim + 1)) :
    ∃ ds, IsPath dim ds ∧ ds.length = n ∧ pathKey dim ds = v := exists_path n v h1 h2

/-- At equal depth, key order is the lexicographic order of the paths. -/
theorem C01_order (dim : Nat) (hdim : 0 < dim) (ds es : List Nat) (h1 : IsPath dim ds) (h2 : IsPath dim es)
    (hl : ds.length = es.length) : pathKey dim ds < pathKey dim es ↔ ds < es :=
  pathKey_lt_iff hdim h1 h2 hl

/-- `min()` is the all-zero path and `max()` the all-highest path of full depth. -/
theorem C01_min_max (bits dim : Nat) (hb : 0 < bits) :
    Key.min bits dim = pathKey dim (List.replicate (maxDepth bits dim) 0) ∧
    Key.max bits dim = pathKey dim (List.replicate (maxDepth bits dim) (2 ^ dim - 1)) := by
  have h3 := maxDepth_mul_lt (dim := dim) hb
  constructor
  · rw [pathKey_replicate_zero, Key.min, Nat.one_shiftLeft,
      Nat.mod_eq_of_lt (Nat.pow_lt_pow_right (by omega) h3)]
  · rw [pathKey_replicate_max, Key.max]
    apply Nat.eq_of_testBit_eq
    intro j
    rw [maxLoop_testBit _ _ _ _ _ (by omega), Nat.testBit_two_pow_sub_one, Nat.testBit_two_pow_sub_one]
    split
    · have : j < bits := by omega
      simp [this]; omega
    · simp; omega

/-- Every full-depth key lies between `min()` and `max()`. -/
theorem C01_bounds (bits dim : Nat) (hb : 0 < bits) (ds : List Nat) (h : IsPath dim ds)
    (hl : ds.length = maxDepth bits dim) :
    Key.min bits dim ≤ pathKey dim ds ∧ pathKey dim ds ≤ Key.max bits dim := by
  obtain ⟨e1, e2⟩ := C01_min_max bits dim hb
  rw [e1, e2, pathKey_replicate_zero, pathKey_replicate_max, ← hl]
  have := pathKey_bounds h
  omega

/-- Printing a key yields its digits. -/
theorem C01_output (dim : Nat) (hdim : 0 < dim) (ds : List Nat) (h : IsPath dim ds) :
    outputDigits dim ds.length (pathKey dim ds) [] = some ds := by
  have := outputDigits_path hdim h []
  simpa using this

/-- For two keys of the same depth `n`, `conflict_depth` is `max_depth - n` plus the number of leading digits the two
paths share (so for full-depth keys it is exactly that number). -/
theorem C01_conflict_depth (bits dim : Nat) (hdim : 0 < dim) (ds es : List Nat) (h1 : IsPath dim ds)
    (h2 : IsPath dim es) (hl : ds.length = es.length) :
    conflictDepth bits dim (pathKey dim ds) (pathKey dim es) =
      some ((maxDepth bits dim : Int) - ds.length + (commonPrefix ds es).length) := by
  rw [conflictDepth]
  exact conflictLoop_path hdim h1 h2 hl _ (length_le_pathKey hdim h1) _

/-- Non-vacuity: the path 5,0,7 in dimension 3 with 64-bit keys. -/
example : IsPath 3 [5, 0, 7] ∧ [5, 0, 7].length ≤ maxDepth 64 3 ∧
    [5, 0, 7].foldlM (fun v d => push 64 3 v d) root = some 0o1507 := by
  refine ⟨by simp [IsPath], by decide, by decide⟩

example : Key.min 64 3 = 0o1000000000000000000000 ∧ Key.max 64 3 = 0o1777777777777777777777 ∧ maxDepth 64 3 = 21 := by
  decide

end FleCSPH
