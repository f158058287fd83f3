import Verif.Props.C30
/-! C65: removal of the snapshots of an earlier run. -/
namespace FleCSPH.Io

/-- The name is that of a snapshot with a number above the threshold. -/
def Later (base : List Char) (threshold : Int) (name : List Char) : Prop := ∃ k : Nat, isPrefixSnapshot base name = some (some k) ∧ threshold < k

variable {D : Type} [DecidableEq D]

theorem mem_remove (fs : Files D) (c : D) (name : List Char) (d : D) (n : List Char) : n ∈ fs.remove c name d ↔ n ∈ fs d ∧ ¬ (d = c ∧ n = name) := by
  unfold Files.remove
  split_ifs with h
  · simp [h]
  · simp [h]

/-- The loop removes from the working directory the later snapshots listed. -/
theorem removeLoop_spec (cwd : D) (base : List Char) (threshold : Int) (names : List (List Char)) (fs : Files D) (hw : ∀ name ∈ names, isPrefixSnapshot base name ≠ none) :
    ∃ fs', removeLoop cwd base threshold names fs = some fs' ∧ ∀ d n, n ∈ fs' d ↔ n ∈ fs d ∧ ¬ (d = cwd ∧ n ∈ names ∧ Later base threshold n) := by
  induction names generalizing fs with
  | nil => exact ⟨fs, rfl, fun d n => by simp⟩
  | cons name names ih =>
    have hw' : ∀ name ∈ names, isPrefixSnapshot base name ≠ none := fun n hn => hw n (by simp [hn])
    have skip : ¬ Later base threshold name → ∀ d n, (n ∈ fs d ∧ ¬ (d = cwd ∧ n ∈ names ∧ Later base threshold n)) ↔ (n ∈ fs d ∧ ¬ (d = cwd ∧ n ∈ name :: names ∧ Later base threshold n)) := by
      intro hl d n
      refine and_congr_right fun _ => not_congr (and_congr_right fun _ => ⟨fun h => ⟨by simp [h.1], h.2⟩, fun h => ⟨?_, h.2⟩⟩)
      rcases List.mem_cons.1 h.1 with rfl | h1
      · exact absurd h.2 hl
      · exact h1
    cases hp : isPrefixSnapshot base name with
    | none => exact absurd hp (hw name (by simp))
    | some r =>
      cases r with
      | none =>
        obtain ⟨fs', h1, h2⟩ := ih fs hw'
        refine ⟨fs', by simp only [removeLoop, hp]; exact h1, fun d n => (h2 d n).trans (skip ?_ d n)⟩
        rintro ⟨k, hk, -⟩
        rw [hp] at hk; simp at hk
      | some k =>
        by_cases hk : threshold < (k : Int)
        · obtain ⟨fs', h1, h2⟩ := ih (fs.remove cwd name) hw'
          refine ⟨fs', by simp only [removeLoop, hp]; rw [if_pos hk]; exact h1, fun d n => (h2 d n).trans ?_⟩
          rw [mem_remove]
          have hl : Later base threshold name := ⟨k, hp, hk⟩
          constructor
          · rintro ⟨⟨h3, h4⟩, h5⟩
            refine ⟨h3, ?_⟩
            rintro ⟨h6, h7, h8⟩
            rcases List.mem_cons.1 h7 with h7 | h7
            · exact h4 ⟨h6, h7⟩
            · exact h5 ⟨h6, h7, h8⟩
          · rintro ⟨h3, h4⟩
            refine ⟨⟨h3, fun h => h4 ⟨h.1, by simp [h.2], by rw [h.2]; exact hl⟩⟩, fun h => h4 ⟨h.1, by simp [h.2.1], h.2.2⟩⟩
        · obtain ⟨fs', h1, h2⟩ := ih fs hw'
          refine ⟨fs', by simp only [removeLoop, hp]; rw [if_neg hk]; exact h1, fun d n => (h2 d n).trans (skip ?_ d n)⟩
          rintro ⟨k', hk', h⟩
          rw [hp] at hk'
          simp only [Option.some.injEq] at hk'
          exact hk (hk' ▸ h)

/-- If the output prefix has no directory, exactly the snapshots with a number above the threshold are removed, and no file of another directory. -/
theorem C65_clear_partial (cwd : D) (base : List Char) (threshold : Int) (fs : Files D) (hw : ∀ name ∈ fs cwd, isPrefixSnapshot base name ≠ none) :
    ∃ fs', removePrefix cwd cwd base threshold fs = some fs' ∧ ∀ d n, n ∈ fs' d ↔ n ∈ fs d ∧ ¬ (d = cwd ∧ Later base threshold n) := by
  obtain ⟨fs', h1, h2⟩ := removeLoop_spec cwd base threshold (fs cwd) fs hw
  refine ⟨fs', h1, fun d n => (h2 d n).trans (and_congr_right fun h => not_congr ?_)⟩
  constructor
  · exact fun h' => ⟨h'.1, h'.2.2⟩
  · rintro ⟨rfl, h'⟩; exact ⟨rfl, h, h'⟩

/-- If it has one, no snapshot of this directory is removed; instead, files of the working directory with the same names are. -/
theorem C65_directory_violated (cwd dir : D) (hd : dir ≠ cwd) (base : List Char) (threshold : Int) (fs : Files D) (hw : ∀ name ∈ fs dir, isPrefixSnapshot base name ≠ none) :
    ∃ fs', removePrefix cwd dir base threshold fs = some fs' ∧ (∀ n, n ∈ fs' dir ↔ n ∈ fs dir) ∧ ∀ n, n ∈ fs dir → Later base threshold n → n ∉ fs' cwd := by
  obtain ⟨fs', h1, h2⟩ := removeLoop_spec cwd base threshold (fs dir) fs hw
  refine ⟨fs', h1, fun n => (h2 dir n).trans ⟨fun h => h.1, fun h => ⟨h, fun h' => hd h'.1⟩⟩, fun n hn hl hmem => ?_⟩
  exact ((h2 cwd n).1 hmem).2 ⟨rfl, hn, hl⟩

/-- A directory with an old run. -/
example : (∀ name ∈ directory, isPrefixSnapshot "sod".toList name ≠ none) ∧ Later "sod".toList 0 "sod_00002.h5part".toList ∧
    (removePrefix false true "sod".toList 0 (fun d => if d then directory else ["sod_00002.h5part".toList, "a.out".toList])).map (fun fs => (fs false, fs true)) =
      some (["a.out".toList], directory) :=
  ⟨by decide, ⟨2, by decide, by decide⟩, by decide⟩

end FleCSPH.Io
