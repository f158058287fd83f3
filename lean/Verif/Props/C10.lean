import Verif.Lemmas.BuildDup

/-! C10: `build_tree` on a single process yields the canonical tree of the particles. C54: `max_depth()`. -/
namespace FleCSPH
open Spec HCell BuildTree FleCSPH.Tree

/-- For particles sorted by distinct full-depth keys `ks`, `build_tree` succeeds; cells are present exactly for the inner
cells and the leaves of the particles; a cell is a node exactly when it is an inner cell; particle `j` is stored in its
leaf and nowhere else; the child flags of a cell name exactly the cells present below it. -/
theorem C10_canonical (D dim minKey maxKey : Nat) (hdim : 0 < dim) (hD : 0 < D) (ks : List Nat) (hne : ks ≠ [])
    (hfull : ∀ x ∈ ks, FullKey D dim x) (hsorted : ks.Pairwise (· < ·)) :
    ∃ E s, envOf D dim minKey maxKey [ks] 0 = some E ∧ buildTree E = some s ∧
      (∀ c, (s.tbl c).isSome = true ↔
        InnerCell D dim (· ∈ ks) c ∨ ∃ x ∈ ks, LeafCell D dim (· ∈ ks) x c) ∧
      (∀ c cell, s.tbl c = some cell →
        (cell.nodeIdx ≠ -1 ↔ InnerCell D dim (· ∈ ks) c) ∧
        (cell.entityIdx = -1 ↔ InnerCell D dim (· ∈ ks) c) ∧
        (∀ (j x : Nat), ks[j]? = some x → (cell.entityIdx = j ↔ LeafCell D dim (· ∈ ks) x c)) ∧
        (∀ b < 2 ^ dim, getChild cell b = true ↔ (s.tbl (c * 2 ^ dim + b)).isSome = true)) := by
  obtain ⟨E, hEe, hED, hEd, hents, hE, hK, hA⟩ := env_ok (minKey := minKey) (maxKey := maxKey) hdim hD [ks]
    (by simpa using hne) (by simpa using hfull) (by simpa using hsorted) 0 ks rfl
  obtain ⟨s, hs, hcan, -, hfin⟩ := build_fin E hE hK (by rw [hents]; exact hne)
  have hX : (fun y => y ∈ [ks].flatten) = (· ∈ ks) := by funext y; simp
  rw [hX] at hA
  have h0 : E.iam0 = true ∧ E.iamlast = true := by
    rw [envOf] at hEe
    simp [lowBound, highBound] at hEe
    rw [← hEe]; simp
  have hkn : Known E = (· ∈ ks) := by
    funext y; rw [Known, hents, h0.1, h0.2]; simp
  rw [hkn, hED, hEd] at hfin
  rw [hkn, hED, hEd, hents] at hcan
  have hinner := fun c => inner_iff (X := (· ∈ ks)) hdim hfull c
  have hleaf : ∀ x c, x ∈ ks → (LeafCell D dim (· ∈ ks) x c ↔ ∃ p, LeafAt D dim (· ∈ ks) x p ∧ c = A dim p x) :=
    fun x c hx => leafCell_iff (X := (· ∈ ks)) hdim hD hfull hx
  refine ⟨E, s, hEe, hs, ?_, ?_⟩
  · intro c
    constructor
    · intro hc
      obtain ⟨cell, hc⟩ := Option.isSome_iff_exists.mp hc
      rcases hcan.some_ c cell hc with ⟨h1, -⟩ | ⟨j, y, p, hj, hl, rfl, -, -⟩
      · exact Or.inl ((hinner c).mpr h1)
      · have hy := List.mem_of_getElem? hj
        exact Or.inr ⟨y, hy, (hleaf y _ hy).mpr ⟨p, hl, rfl⟩⟩
    · rintro (h | ⟨x, hx, h⟩)
      · obtain ⟨cell, h1, -⟩ := hcan.node c ((hinner c).mp h)
        rw [h1]; rfl
      · obtain ⟨p, hp, rfl⟩ := (hleaf x c hx).mp h
        obtain ⟨j, hj⟩ := List.mem_iff_getElem?.mp hx
        obtain ⟨cell, h1, -⟩ := hcan.leaf j x p hj hp
        rw [h1]; rfl
  · intro c cell hc
    refine ⟨?_, ?_, ?_, fun b hb => hcan.child c cell b hc hb⟩
    · rw [hfin c cell hc, hinner, h0.1, h0.2]; simp
    · constructor
      · intro he
        rcases hcan.some_ c cell hc with ⟨h1, -⟩ | ⟨j, y, p, hj, hl, -, h2, -⟩
        · exact (hinner c).mpr h1
        · rw [h2] at he; omega
      · intro hN
        obtain ⟨cell', h1, h2⟩ := hcan.node c ((hinner c).mp hN)
        rw [hc] at h1
        cases h1
        exact h2
    · intro j x hj
      have hx := List.mem_of_getElem? hj
      rw [hleaf x c hx]
      constructor
      · intro he
        rcases hcan.some_ c cell hc with ⟨-, h2⟩ | ⟨j', y, p, hj', hl, he', h2, -⟩
        · rw [h2] at he; omega
        · have : j' = j := by omega
          subst this
          rw [hj] at hj'
          cases hj'
          exact ⟨p, hl, he'⟩
      · rintro ⟨p, hp, rfl⟩
        obtain ⟨cell', h1, h2, -⟩ := hcan.leaf j x p hj hp
        rw [hc] at h1
        cases h1
        exact h2

/-- Particles that share a key (for instance two particles in the same finest cell) make `build_tree` shift by more than
the word width: the precondition of distinct keys cannot be dropped. -/
theorem C10_duplicate_violated (D dim minKey maxKey : Nat) (hdim : 0 < dim) (hD : 0 < D) (pre post : List Nat) (x : Nat)
    (hfull : ∀ y ∈ pre ++ [x], FullKey D dim y) (hsorted : (pre ++ [x]).Pairwise (· < ·)) :
    (envOf D dim minKey maxKey [pre ++ x :: x :: post] 0).bind buildTree = none := by
  have : envOf D dim minKey maxKey [pre ++ x :: x :: post] 0 =
      some ⟨D, dim, true, true, minKey, maxKey, pre ++ x :: x :: post⟩ := by
    rw [envOf]; simp [lowBound, highBound]
  rw [this]
  exact build_dup _ ⟨hdim, hD, by simp, by simp⟩ rfl rfl x pre post rfl hsorted hfull

/-- Non-vacuity: three particles at depth 3 in two dimensions, two of them close. -/
example : (∀ x ∈ [0b1000000, 0b1110100, 0b1110111], FullKey 3 2 x) ∧ [0b1000000, 0b1110100, 0b1110111].Pairwise (· < ·) ∧
    ((envOf 3 2 64 127 [[0b1000000, 0b1110100, 0b1110111]] 0).bind buildTree).map
      (fun s => ([1, 0b100, 0b111, 0b11101, 0b1110100, 0b1110111, 0b10000].map fun c =>
        (s.tbl c).map fun d => (d.nodeIdx, d.entityIdx))) =
      some [some (2, -1), some (-1, 0), some (1, -1), some (0, -1), some (-1, 1), some (-1, 2), none] := by
  decide

/-! ### C54 -/

theorem turn_maxDepth {E : Env} {i : Nat} {s s' : St} {b : Bool} (h : turn E i s = some (s', b)) : s.maxDepth ≤ s'.maxDepth := by
  rw [turn] at h
  dsimp only at h
  simp only [Option.bind_eq_bind, Option.bind_eq_some_iff] at h
  obtain ⟨nkey, -, u, -, h⟩ := h
  split at h
  · cases h; exact Nat.le_refl _
  · rw [Option.bind_eq_some_iff] at h
    obtain ⟨⟨t, cd, nk⟩, -, h⟩ := h
    cases h
    exact Nat.le_max_left _ _

theorem turns_maxDepth {E : Env} : ∀ (n i : Nat) (s s' : St), turns E n i s = some s' → s.maxDepth ≤ s'.maxDepth
  | 0, _, s, s', h => by rw [turns] at h; cases h; exact Nat.le_refl _
  | n + 1, i, s, s', h => by
    rw [turns] at h
    simp only [Option.bind_eq_bind, Option.bind_eq_some_iff] at h
    obtain ⟨⟨s1, b⟩, h1, h2⟩ := h
    have a := turn_maxDepth h1
    dsimp only at h2
    cases b with
    | true => rw [if_pos rfl] at h2; cases h2; exact a
    | false => rw [if_neg (by simp)] at h2; exact Nat.le_trans a (turns_maxDepth n _ _ _ h2)

/-- `max_depth()` on a single process is at least `D - 1` whatever the particles: it counts the digits dropped, not the
depth of the deepest cell, and the first particle always drops `D - 1`. -/
theorem C54_violated (D dim minKey maxKey : Nat) (hdim : 0 < dim) (hD : 0 < D) (ks : List Nat) (E : Env) (s : St)
    (hfull : ∀ x ∈ ks, FullKey D dim x) (hE : envOf D dim minKey maxKey [ks] 0 = some E)
    (h : buildTree E = some s) : D - 1 ≤ s.maxDepth := by
  have hEe : E = ⟨D, dim, true, true, minKey, maxKey, ks⟩ := by
    rw [envOf] at hE
    simp [lowBound, highBound] at hE
    exact hE.symm
  have hok : EnvOk E := by subst hEe; exact ⟨hdim, hD, by simp, by simp⟩
  rw [buildTree] at h
  split at h
  · cases h
  · rename_i hne
    obtain ⟨z, rest, he⟩ := List.exists_cons_of_ne_nil hne
    have hks : E.ents = ks := by rw [hEe]
    have hz : FullKey E.D E.dim z := by
      have := hfull z (by rw [← hks, he]; exact List.mem_cons_self)
      rw [hEe]; exact this
    obtain ⟨s', hs, hinv⟩ := turn_zero0 E hok z rest he hz
    rw [show E.ents.length + 1 = (rest.length + 1) + 1 from by rw [he]; rfl, turns] at h
    simp only [Option.bind_eq_bind] at h
    have h0 : E.iam0 = true := by rw [hEe]
    rw [h0, if_pos rfl, hs] at h
    simp only [Option.bind_some, Bool.false_eq_true, if_false] at h
    have hle := turns_maxDepth _ _ _ _ h
    have hcd : s'.cd = D - 1 := by
      have hl := hinv.leaf
      rcases hl.2.2 with h3 | ⟨y, hy, hne, -⟩
      · have : E.D = D := by rw [hEe]
        omega
      · exact absurd hy hne
    have : s'.cd ≤ s'.maxDepth := by
      rw [turn] at hs
      dsimp only at hs
      simp only [Option.bind_eq_bind, Option.bind_eq_some_iff] at hs
      obtain ⟨nkey, -, u, -, hs⟩ := hs
      split at hs
      · cases hs
      · rw [Option.bind_eq_some_iff] at hs
        obtain ⟨⟨t, cd, nk⟩, -, hs⟩ := hs
        cases hs
        exact Nat.le_max_right _ _
    omega

/-- A tree whose deepest cell is at depth 1 reports depth 20. -/
example : ((envOf 21 3 (2 ^ 63) (2 ^ 64 - 1) [[2 ^ 63, 2 ^ 63 + 2 ^ 60]] 0).bind buildTree).map
    (fun s => (s.maxDepth, (s.tbl 0b1000).isSome, (s.tbl 0b1001).isSome)) = some (20, true, true) := by
  decide +kernel

end FleCSPH
