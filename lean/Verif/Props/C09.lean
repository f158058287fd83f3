import Verif.Spec.Map
/-! C09: the hash table behaves as a map. -/
namespace FleCSPH
open Spec HashTable

variable {α : Type}

theorem scan_append (k : Nat) (l : List (Nat × α)) (k' : Nat) (v : α) :
    scan k (l ++ [(k', v)]) = (scan k l).or (if k' = k then some v else none) := by
  induction l with
  | nil =>
    by_cases h : k' = k <;> simp [scan, h]
  | cons x l ih =>
    obtain ⟨q, w⟩ := x
    by_cases h : q = k
    · simp [scan, h]
    · simp [scan, h, ih]

theorem scan_modify (k k' : Nat) (f : α → α) (l : List (Nat × α)) :
    scan k (scanModify k' f l) = if k = k' then (scan k l).map f else scan k l := by
  induction l with
  | nil => simp [scan, scanModify]
  | cons x l ih =>
    obtain ⟨q, w⟩ := x
    by_cases h : q = k'
    · subst h
      by_cases h2 : q = k
      · simp [scan, scanModify, h2]
      · have : ¬ k = q := fun e => h2 e.symm
        simp [scan, scanModify, h2, this]
    · by_cases h2 : q = k
      · subst h2; simp [scan, scanModify, h]
      · simp [scan, scanModify, h, h2, ih]

/-- The table refines the map. -/
structure TRep (t : Table α) (m : AMap α) : Prop where
  find : ∀ k, HashTable.find t k = m.val k
  absent : ∀ k, m.val k ≠ none → k ∈ m.keys

theorem trep_step (t : Table α) (m : AMap α) (h : TRep t m) (o : Op α)
    (ho : match o with | .emplace k _ => k ∉ m.keys | _ => True) : TRep (HashTable.step t o) (m.step o) := by
  cases o with
  | emplace k v =>
    have hk : m.val k = none := by
      cases e : m.val k with
      | none => rfl
      | some w => exact absurd (h.absent k (by simp [e])) ho
    refine ⟨?_, ?_⟩
    · intro k'
      have hf := h.find k'
      simp only [HashTable.step, HashTable.find, emplace, AMap.step] at *
      by_cases he : bucketOf k' = bucketOf k
      · rw [if_pos he, scan_append, hf]
        by_cases hkk : k' = k
        · subst hkk; simp [hk]
        · have : ¬ k = k' := fun e => hkk e.symm
          simp [hkk, this]
      · have : ¬ k' = k := fun e => he (by rw [e])
        rw [if_neg he, if_neg this, hf]
    · intro k' hk'
      simp only [AMap.step] at *
      by_cases hkk : k' = k
      · subst hkk; simp
      · rw [if_neg hkk] at hk'
        exact List.mem_append_left _ (h.absent k' hk')
  | modify k f =>
    refine ⟨?_, ?_⟩
    · intro k'
      have hf := h.find k'
      simp only [HashTable.step, HashTable.find, HashTable.modify, AMap.step] at *
      by_cases he : bucketOf k' = bucketOf k
      · rw [if_pos he, scan_modify, hf]
      · have : ¬ k' = k := fun e => he (by rw [e])
        rw [if_neg he, if_neg this, hf]
    · intro k' hk'
      simp only [AMap.step] at *
      apply h.absent
      intro hn
      rw [hn] at hk'
      simp at hk'
  | clear =>
    exact ⟨fun k => rfl, fun k hk => absurd rfl hk⟩

theorem trep_history (ops : List (Op α)) (t : Table α) (m : AMap α) (h : TRep t m) (hd : DistinctKeys m ops) :
    TRep (ops.foldl HashTable.step t) (ops.foldl AMap.step m) := by
  induction ops generalizing t m with
  | nil => exact h
  | cons o ops ih => exact ih _ _ (trep_step t m h o hd.1) hd.2

/-- After any history that never emplaces a present key, `find` agrees with the map, whatever the collisions. -/
theorem C09_map (ops : List (Op α)) (hd : DistinctKeys {} ops) (k : Nat) :
    find (ops.foldl HashTable.step (new α)) k = (ops.foldl AMap.step ({} : AMap α)).val k :=
  (trep_history ops (new α) {} ⟨fun _ => rfl, fun _ h => absurd rfl h⟩ hd).find k

theorem size_fold (ops : List (Op α)) (t : Table α) (m : AMap α) (h : t.nelement = some m.keys.length) :
    (ops.foldl HashTable.step t).nelement = some (ops.foldl AMap.step m).keys.length := by
  induction ops generalizing t m with
  | nil => exact h
  | cons o ops ih =>
    apply ih
    cases o <;> simp [HashTable.step, emplace, HashTable.modify, clear, AMap.step, h]

/-- Once the table has been cleared, `size()` is the number of keys. -/
theorem C09_size_partial (ops ops' : List (Op α)) :
    size ((ops ++ .clear :: ops').foldl HashTable.step (new α)) =
      some ((ops ++ .clear :: ops').foldl AMap.step ({} : AMap α)).keys.length := by
  rw [List.foldl_append, List.foldl_append, List.foldl_cons, List.foldl_cons]
  exact size_fold ops' _ _ rfl

/-- Before the first `clear()` the element count of a new table is indeterminate, whatever is inserted. -/
theorem C09_size_violated (kvs : List (Nat × α)) :
    size ((kvs.map fun p => Op.emplace p.1 p.2).foldl HashTable.step (new α)) = none := by
  have : ∀ (t : Table α), t.nelement = none →
      ((kvs.map fun p => Op.emplace p.1 p.2).foldl HashTable.step t).nelement = none := by
    induction kvs with
    | nil => intro t h; exact h
    | cons p kvs ih => intro t h; exact ih _ (by simp [HashTable.step, emplace, h])
  exact this _ rfl

/-- A key emplaced twice keeps its first value, as `std::unordered_map` would, but is counted twice. -/
theorem C09_duplicate (t : Table α) (k : Nat) (v w : α) (h : find t k = some v) :
    find (emplace t k w) k = some v := by
  simp only [find, emplace] at *
  rw [if_pos trivial, scan_append, h]; rfl

/-- Non-vacuity: keys 1 and 2^22 + 1 collide. -/
example : bucketOf 1 = bucketOf (2 ^ 22 + 1) ∧
    DistinctKeys {} [Op.clear, .emplace 1 "root", .emplace (2 ^ 22 + 1) "deep", .modify 1 (· ++ "!")] ∧
    find ([Op.clear, .emplace 1 "root", .emplace (2 ^ 22 + 1) "deep", .modify 1 (· ++ "!")].foldl HashTable.step (new String))
      (2 ^ 22 + 1) = some "deep" := by
  refine ⟨by decide, ?_, by decide⟩
  simp [DistinctKeys, AMap.step]

end FleCSPH
