import Verif.Props.C29
/-! C30: finding the iteration of a restart. -/
namespace FleCSPH.Io

/-- The directory has a snapshot of prefix `pre` with number `s`. -/
def Listed (pre : List Char) (names : List (List Char)) (s : Nat) : Prop := ∃ name ∈ names, isPrefixSnapshot pre name = some (some s)

/-- No name makes the parser read outside, and every snapshot has its attribute. -/
def WellFormed (pre : List Char) (iterationOf : Nat → Option Int) (names : List (List Char)) : Prop :=
  ∀ name ∈ names, isPrefixSnapshot pre name ≠ none ∧ ∀ s, isPrefixSnapshot pre name = some (some s) → iterationOf s ≠ none

theorem WellFormed.tail {pre : List Char} {iterationOf : Nat → Option Int} {name : List Char} {names : List (List Char)} (h : WellFormed pre iterationOf (name :: names)) :
    WellFormed pre iterationOf names := fun n hn => h n (by simp [hn])

/-- If the directory has a snapshot of the iteration, in whatever order it is listed, the number of one is returned. -/
theorem C30_found_partial (pre : List Char) (iterationOf : Nat → Option Int) (iteration : Int) (names : List (List Char)) (hw : WellFormed pre iterationOf names)
    (h : ∃ s, Listed pre names s ∧ iterationOf s = some iteration) :
    ∃ s : Nat, findIteration pre iterationOf iteration names = some (s : Int) ∧ Listed pre names s ∧ iterationOf s = some iteration := by
  unfold findIteration
  have key : ∀ (names : List (List Char)) (step : Int), WellFormed pre iterationOf names → (∃ s, Listed pre names s ∧ iterationOf s = some iteration) →
      ∃ s : Nat, findLoop pre iterationOf iteration names step = some (s : Int) ∧ Listed pre names s ∧ iterationOf s = some iteration := by
    intro names
    induction names with
    | nil => rintro step - ⟨s, ⟨name, hn, -⟩, -⟩; simp at hn
    | cons name names ih =>
      rintro step hw ⟨s, ⟨n, hn, hs⟩, hi⟩
      have hrest : n ∈ names → ∀ step', ∃ s : Nat, findLoop pre iterationOf iteration names step' = some (s : Int) ∧ Listed pre (name :: names) s ∧ iterationOf s = some iteration := by
        intro hn step'
        obtain ⟨s', h1, ⟨n', hn', hs'⟩, h3⟩ := ih step' hw.tail ⟨s, ⟨n, hn, hs⟩, hi⟩
        exact ⟨s', h1, ⟨n', by simp [hn'], hs'⟩, h3⟩
      obtain ⟨hw1, hw2⟩ := hw name (by simp)
      cases hp : isPrefixSnapshot pre name with
      | none => exact absurd hp hw1
      | some r =>
        cases r with
        | none =>
          have hne : n ∈ names := by
            rcases List.mem_cons.1 hn with rfl | hn
            · rw [hp] at hs; simp at hs
            · exact hn
          simp only [findLoop, hp]
          exact hrest hne _
        | some s' =>
          cases hi' : iterationOf s' with
          | none => exact absurd hi' (hw2 s' hp)
          | some it =>
            simp only [findLoop, hp, hi']
            split_ifs with he
            · exact ⟨s', rfl, ⟨name, by simp, hp⟩, by rw [hi', he]⟩
            · have hne : n ∈ names := by
                rcases List.mem_cons.1 hn with rfl | hn
                · rw [hp] at hs
                  simp only [Option.some.injEq] at hs
                  subst hs
                  rw [hi'] at hi
                  exact absurd (Option.some.inj hi) he
                · exact hn
              exact hrest hne _
  exact key names (-1) hw h

/-- Without a snapshot of the iteration, the result is the one of the name listed last. -/
theorem find_missing (pre : List Char) (iterationOf : Nat → Option Int) (iteration : Int) (names : List (List Char)) (name : List Char) (hw : WellFormed pre iterationOf (names ++ [name]))
    (h : ¬ ∃ s, Listed pre (names ++ [name]) s ∧ iterationOf s = some iteration) (step : Int) (r : Option Nat) (hr : isPrefixSnapshot pre name = some r) :
    findLoop pre iterationOf iteration (names ++ [name]) step = some (match r with | none => -1 | some s => (s : Int)) := by
  have skip : ∀ (n : List Char) (ns : List (List Char)) (step : Int), WellFormed pre iterationOf (n :: ns) → (¬ ∃ s, Listed pre (n :: ns) s ∧ iterationOf s = some iteration) → ∀ r, isPrefixSnapshot pre n = some r →
      findLoop pre iterationOf iteration (n :: ns) step = findLoop pre iterationOf iteration ns (match r with | none => -1 | some s => (s : Int)) := by
    intro n ns step hw h r hr
    cases r with
    | none => simp only [findLoop, hr]
    | some s =>
      cases hi : iterationOf s with
      | none => exact absurd hi ((hw n (by simp)).2 s hr)
      | some it =>
        simp only [findLoop, hr, hi]
        rw [if_neg]
        rintro rfl
        exact h ⟨s, ⟨n, by simp, hr⟩, hi⟩
  induction names generalizing step with
  | nil => rw [List.nil_append, skip name [] step hw h r hr]; cases r <;> rfl
  | cons n ns ih =>
    cases hp : isPrefixSnapshot pre n with
    | none => exact absurd hp (hw n (by simp)).1
    | some r' =>
      rw [List.cons_append, skip n (ns ++ [name]) step hw h r' hp]
      apply ih hw.tail
      rintro ⟨s, ⟨n', hn', hs'⟩, hi⟩
      exact h ⟨s, ⟨n', by rw [List.cons_append]; exact List.mem_cons_of_mem _ hn', hs'⟩, hi⟩

/-- Failure is reported when there is no snapshot of the iteration and the name listed last is not a snapshot. -/
theorem C30_missing_partial (pre : List Char) (iterationOf : Nat → Option Int) (iteration : Int) (names : List (List Char)) (hw : WellFormed pre iterationOf names)
    (h : ¬ ∃ s, Listed pre names s ∧ iterationOf s = some iteration) (hl : ∀ name, names.getLast? = some name → isPrefixSnapshot pre name = some none) :
    findIteration pre iterationOf iteration names = some (-1) := by
  rcases List.eq_nil_or_concat names with rfl | ⟨ns, name, rfl⟩
  · rfl
  · rw [List.concat_eq_append] at *
    exact find_missing pre iterationOf iteration ns name hw h (-1) none (hl name (by simp))

/-- When it is a snapshot, the number of this snapshot, of another iteration, is returned instead of a failure. -/
theorem C30_missing_violated (pre : List Char) (iterationOf : Nat → Option Int) (iteration : Int) (names : List (List Char)) (hw : WellFormed pre iterationOf names)
    (h : ¬ ∃ s, Listed pre names s ∧ iterationOf s = some iteration) (name : List Char) (s : Nat) (hl : names.getLast? = some name) (hs : isPrefixSnapshot pre name = some (some s)) :
    findIteration pre iterationOf iteration names = some (s : Int) ∧ iterationOf s ≠ some iteration := by
  rcases List.eq_nil_or_concat names with rfl | ⟨ns, name', rfl⟩
  · simp at hl
  · rw [List.concat_eq_append] at *
    obtain rfl : name' = name := by simpa using hl
    exact ⟨find_missing pre iterationOf iteration ns name' hw h (-1) (some s) hs, fun hi => h ⟨s, ⟨name', by simp, hs⟩, hi⟩⟩

/-- A directory with three snapshots, of iterations 0, 10 and 20. -/
def directory : List (List Char) := [".".toList, "sod_00002.h5part".toList, "sod.par".toList, "sod_00000.h5part".toList, "sod_00001.h5part".toList]

example : findIteration "sod".toList (fun s => some (10 * s)) 20 directory = some 2 ∧ findIteration "sod".toList (fun s => some (10 * s)) 15 directory = some 1 ∧
    findIteration "sod".toList (fun s => some (10 * s)) 15 (directory ++ ["..".toList]) = some (-1) := by decide

example : WellFormed "sod".toList (fun s => some (10 * s)) directory := by
  intro name hn
  refine ⟨?_, fun s _ => by simp⟩
  revert name
  decide

/-- In a single file the first step of the iteration is found, among the first million of steps; otherwise the program stops. -/
theorem C30_single (file : Nat → StepIn) (iteration : Int) (hw : ∀ s, s < 1000000 → file s ≠ .malformed) (s : Nat) :
    findStep file iteration = some s ↔ s < 1000000 ∧ file s = .iteration iteration ∧ ∀ s' < s, file s' ≠ .iteration iteration := by
  have key : ∀ k a, (∀ s, a ≤ s → s < a + k → file s ≠ .malformed) → (findStepLoop file iteration k a = some s ↔ a ≤ s ∧ s < a + k ∧ file s = .iteration iteration ∧ ∀ s', a ≤ s' → s' < s → file s' ≠ .iteration iteration) := by
    intro k
    induction k with
    | zero => intro a _; simp only [findStepLoop]; constructor
              · intro h; cases h
              · rintro ⟨h1, h2, -⟩; omega
    | succ k ih =>
      intro a hw
      have ih := ih (a + 1) fun s h1 h2 => hw s (by omega) (by omega)
      have step : file a ≠ .iteration iteration →
          ((a + 1 ≤ s ∧ s < a + 1 + k ∧ file s = .iteration iteration ∧ ∀ s', a + 1 ≤ s' → s' < s → file s' ≠ .iteration iteration) ↔
            (a ≤ s ∧ s < a + (k + 1) ∧ file s = .iteration iteration ∧ ∀ s', a ≤ s' → s' < s → file s' ≠ .iteration iteration)) := by
        intro hne
        constructor
        · rintro ⟨h1, h2, h3, h4⟩
          refine ⟨by omega, by omega, h3, fun s' h5 h6 => ?_⟩
          rcases Nat.eq_or_lt_of_le h5 with rfl | h5
          · exact hne
          · exact h4 s' h5 h6
        · rintro ⟨h1, h2, h3, h4⟩
          have : a ≠ s := by rintro rfl; exact hne h3
          exact ⟨by omega, by omega, h3, fun s' h5 h6 => h4 s' (by omega) h6⟩
      cases hf : file a with
      | absent => simp only [findStepLoop, hf]; rw [ih]; exact step (by simp [hf])
      | malformed => exact absurd hf (hw a le_rfl (by omega))
      | iteration it =>
        simp only [findStepLoop, hf]
        split_ifs with he
        · subst he
          constructor
          · intro h
            obtain rfl := Option.some.inj h
            exact ⟨le_rfl, by omega, hf, fun s' h1 h2 => by omega⟩
          · rintro ⟨h1, h2, h3, h4⟩
            rcases Nat.eq_or_lt_of_le h1 with rfl | h1
            · rfl
            · exact absurd hf (h4 a le_rfl h1)
        · rw [ih]
          apply step
          rw [hf]
          intro h
          exact he (StepIn.iteration.inj h)
  have := key maxstep 0 fun s _ h => hw s (by simpa [maxstep] using h)
  unfold findStep
  rw [this]
  simp [maxstep]

/-- A later step is not found. -/
theorem C30_single_violated (file : Nat → StepIn) (iteration : Int) (s : Nat) (hs : 1000000 ≤ s) (_hf : file s = .iteration iteration) (hw : ∀ s, file s ≠ .malformed)
    (h : ∀ s', s' ≠ s → file s' ≠ .iteration iteration) : findStep file iteration = none := by
  cases hfind : findStep file iteration with
  | none => rfl
  | some s' =>
    obtain ⟨h1, h2, -⟩ := (C30_single file iteration (fun s _ => hw s) s').1 hfind
    exact absurd h2 (h s' (by omega))

example : ∃ file : Nat → StepIn, (∀ s, file s ≠ .malformed) ∧ file 1000000 = .iteration 5 ∧ ∀ s', s' ≠ 1000000 → file s' ≠ .iteration 5 :=
  ⟨fun s => if s = 1000000 then .iteration 5 else .iteration 0, fun s => by dsimp only; split_ifs <;> simp, by simp, fun s hs => by simp [hs]⟩

end FleCSPH.Io
