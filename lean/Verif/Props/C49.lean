import Verif.Lemmas.Params
/-!
C49: comment and blank lines change nothing; a line `name = value # comment` sets the parameter to the value; quoting preserves the string. The full claim is for every line. It holds
for the lines of the documented form (`FileOk`), with strings of at most 510 characters; `#` in quotes, longer strings, lines which end with a carriage return and two declared parameters
are the exceptions.
-/
namespace FleCSPH
open Params

/-- Comment lines and blank lines change nothing, wherever they are in the file and whatever else it contains. -/
theorem C49_comments (f1 f2 : List Text) (l : Line) (h : l.Ok) (hl : ∀ w1 n w2 w3 v w4 c, l ≠ .assign w1 n w2 w3 v w4 c) (st : State) :
    readParams (f1 ++ l.render :: f2) st = readParams (f1 ++ f2) st := by
  have key : ∀ st, readLine l.render st = .ok st := by
    intro st
    unfold readLine
    rw [if_pos]
    cases l with
    | blank w => exact skip_blank w h
    | comment w c => exact skip_comment w c h
    | assign w1 n w2 w3 v w4 c => exact absurd rfl (hl w1 n w2 w3 v w4 c)
  induction f1 generalizing st with
  | nil =>
    rw [List.nil_append, List.nil_append, readParams, key st]
  | cons a f1 ih =>
    rw [List.cons_append, List.cons_append, readParams, readParams]
    cases readLine a st with
    | error e => rfl
    | ok st' => exact ih st'

example : readParams ["nparticles = 7".toList, "\t # nparticles = 8".toList, "".toList, "equal_mass=yes".toList] = readParams ["nparticles = 7".toList, "equal_mass=yes".toList] := by
  funext st
  have h1 := C49_comments ["nparticles = 7".toList] ["".toList, "equal_mass=yes".toList] (.comment "\t ".toList " nparticles = 8".toList) (by unfold Line.Ok Blank; decide) (by intros; simp) st
  have h2 := C49_comments ["nparticles = 7".toList] ["equal_mass=yes".toList] (.blank []) (by unfold Line.Ok Blank; decide) (by intros; simp) st
  exact h1.trans h2

/-- A file of documented lines is read, and every parameter has the value of the last line which sets it; the others keep theirs. -/
theorem C49_file_partial (f : List Line) (h : FileOk f) (st : State) :
    ∃ st', readParams (f.map Line.render) st = .ok st' ∧ ∀ name, Final name f (st name) (st' name) := by
  induction f generalizing st with
  | nil => exact ⟨st, rfl, fun _ => .nil _⟩
  | cons l f ih =>
    have hf : FileOk f := fun x hx => h x (by simp [hx])
    obtain ⟨hl, hs⟩ := h l (by simp)
    by_cases ha : ∃ w1 n w2 w3 v w4 c, l = .assign w1 n w2 w3 v w4 c
    · obtain ⟨w1, n, w2, w3, v, w4, c, rfl⟩ := ha
      obtain ⟨x, hx⟩ := hs w1 n w2 w3 v w4 c rfl
      have hx' := hx
      obtain ⟨-, k, ⟨s, hk, hsn⟩, hmeans⟩ := hx'
      obtain ⟨value, hv1, hv2⟩ := readLine_assign w1 n w2 w3 v w4 c hl st
      rw [setParam_known n value k s hk hsn, hv1, convert_means k _ x hmeans] at hv2
      obtain ⟨st', h1, h2⟩ := ih hf (Function.update st n x)
      refine ⟨st', ?_, fun name => ?_⟩
      · rw [List.map_cons, readParams, hv2]
        exact h1
      · have h3 := h2 name
        by_cases hn : name = n
        · subst hn
          rw [Function.update_self] at h3
          exact .set _ _ _ x _ hx h3
        · rw [Function.update_of_ne hn] at h3
          exact .other _ _ _ _ (fun v' hv' => hn hv'.1.symm) h3
    · obtain ⟨st', h1, h2⟩ := ih hf st
      refine ⟨st', ?_, fun name => .other _ _ _ _ (fun v' hv' => ?_) (h2 name)⟩
      · have := C49_comments [] (f.map Line.render) l hl (fun w1 n w2 w3 v w4 c e => ha ⟨w1, n, w2, w3, v, w4, c, e⟩) st
        rw [List.map_cons]
        exact this.trans h1
      · cases l with
        | assign w1 n w2 w3 v w4 c => exact ha ⟨w1, n, w2, w3, v, w4, c, rfl⟩
        | blank w => exact hv'
        | comment w c => exact hv'

/-- A documented line sets its parameter to its value and no other. -/
theorem C49_line_partial (w1 name w2 w3 : Text) (v : Written) (w4 : Text) (c : Option Text) (h : (Line.assign w1 name w2 w3 v w4 c).Ok) (x : Value)
    (hx : (Line.assign w1 name w2 w3 v w4 c).Sets name x) (st : State) :
    readLine (Line.assign w1 name w2 w3 v w4 c).render st = .ok (Function.update st name x) := by
  obtain ⟨-, k, ⟨s, hk, hsn⟩, hmeans⟩ := hx
  obtain ⟨value, hv1, hv2⟩ := readLine_assign w1 name w2 w3 v w4 c h st
  rw [hv2, setParam_known name value k s hk hsn, hv1, convert_means k _ x hmeans]

/-- Non-vacuity: the example of params.h:1390-1396. -/
example : FileOk [.comment "  ".toList " Sodtube test #1 for 10000 particles".toList,
    .assign "  ".toList "nparticles".toList [] " ".toList (.bare "10000".toList) "   ".toList (some " global number of particles".toList),
    .assign "  ".toList "output_h5data_prefix".toList "  ".toList " ".toList (.quoted '"' "sodtube np10k".toList) [] none,
    .assign [] "sph_kernel".toList [] [] (.bare "Wendland C6".toList) [] none,
    .assign [] "sph_variable_h".toList [' '] [' '] (.bare "yes".toList) [] none] := by
  intro l hl
  simp only [List.mem_cons, List.not_mem_nil, or_false] at hl
  rcases hl with rfl | rfl | rfl | rfl | rfl
  · refine ⟨by unfold Line.Ok Blank; decide, by intros; simp_all⟩
  · refine ⟨⟨by unfold Blank; decide, ⟨'n', rfl, 's', rfl, by rw [blank_single]; decide, by rw [blank_single]; decide⟩, by decide, by decide, by unfold Blank; decide, by unfold Blank; decide,
      ⟨⟨'1', rfl, '0', rfl, by rw [blank_single]; decide, by rw [blank_single]; decide⟩, by decide, by decide, by decide⟩, by unfold Blank; decide⟩, ?_⟩
    rintro w1 n w2 w3 v w4 c h
    injection h with h1 h2 h3 h4 h5 h6 h7
    subst h2
    exact ⟨.number "10000".toList, rfl, .numeric, ⟨"nparticles", by decide +kernel, rfl⟩, rfl⟩
  · refine ⟨⟨by unfold Blank; decide, ⟨'o', rfl, 'x', rfl, by rw [blank_single]; decide, by rw [blank_single]; decide⟩, by decide, by decide, by unfold Blank; decide, by unfold Blank; decide,
      ⟨Or.inr rfl, by decide⟩, by unfold Blank; decide⟩, ?_⟩
    rintro w1 n w2 w3 v w4 c h
    injection h with h1 h2 h3 h4 h5 h6 h7
    subst h2
    exact ⟨.string "sodtube np10k".toList, rfl, .string, ⟨"output_h5data_prefix", by decide +kernel, rfl⟩, by decide, rfl⟩
  · refine ⟨⟨by unfold Blank; decide, ⟨'s', rfl, 'l', rfl, by rw [blank_single]; decide, by rw [blank_single]; decide⟩, by decide, by decide, by unfold Blank; decide, by unfold Blank; decide,
      ⟨⟨'W', rfl, '6', rfl, by rw [blank_single]; decide, by rw [blank_single]; decide⟩, by decide, by decide, by decide⟩, by unfold Blank; decide⟩, ?_⟩
    rintro w1 n w2 w3 v w4 c h
    injection h with h1 h2 h3 h4 h5 h6 h7
    subst h2
    exact ⟨.keyword 4, rfl, .kernel, ⟨"sph_kernel", by decide +kernel, rfl⟩, 4, rfl, ["wendland_c6"], rfl, "wendland_c6", by simp, by unfold sameWord; decide⟩
  · refine ⟨⟨by unfold Blank; decide, ⟨'s', rfl, 'h', rfl, by rw [blank_single]; decide, by rw [blank_single]; decide⟩, by decide, by decide, by unfold Blank; decide, by unfold Blank; decide,
      ⟨⟨'y', rfl, 's', rfl, by rw [blank_single]; decide, by rw [blank_single]; decide⟩, by decide, by decide, by decide⟩, by unfold Blank; decide⟩, ?_⟩
    rintro w1 n w2 w3 v w4 c h
    injection h with h1 h2 h3 h4 h5 h6 h7
    subst h2
    exact ⟨.flag true, rfl, .boolean, ⟨"sph_variable_h", by decide +kernel, rfl⟩, Or.inl ⟨Or.inl rfl, rfl⟩⟩

/-- A documented line with an unknown name ends the program with code 2. -/
theorem C49_unknown (w1 name w2 w3 : Text) (v : Written) (w4 : Text) (c : Option Text) (h : (Line.assign w1 name w2 w3 v w4 c).Ok) (hn : ∀ e ∈ known, name ≠ e.1.toList) (st : State) :
    readLine (Line.assign w1 name w2 w3 v w4 c).render st = .error (.exit 2) := by
  obtain ⟨value, hv1, hv2⟩ := readLine_assign w1 name w2 w3 v w4 c h st
  rw [hv2]
  exact go_not_mem name (strip value) known hn true st

/-- Two declared parameters are unknown to the reader; all others are known. -/
theorem C49_declared_violated : declared.filter (fun n => n ∉ known.map (·.1)) = ["wvt_set_boundary", "fmm_max_cell_mass"] ∧ ∀ e ∈ known, e.1 ∈ declared := by decide +kernel

/-- A `#` in quotes: the rest, and the character in front of it, are lost. -/
theorem C49_hash_violated (q : Char) (hq : q = '\'' ∨ q = '"') (name : String) (hn : (name, Kind.string) ∈ known) (s : Text) (b : Char) (t : Text) (hs : '#' ∉ s) (hb : b ≠ '#')
    (hb' : b ≠ ' ' ∧ b ≠ '\t') (hlen : s.length ≤ 510) (hname : Word name.toList ∧ '=' ∉ name.toList ∧ name.toList.head? ≠ some '#') (st : State) :
    ∃ st', readLine (name.toList ++ " = ".toList ++ q :: (s ++ b :: '#' :: t) ++ [q]) st = .ok st' ∧ st' name.toList = .string s := by
  have hqw : white q = false := by rcases hq with rfl | rfl <;> decide
  have hbw : white b = false := by
    rw [Bool.eq_false_iff, Ne, white_iff]
    rintro (h | h)
    · exact hb'.1 h
    · exact hb'.2 h
  have hqb : ¬Blank [q] := by rw [blank_single, hqw]; simp
  have hbb : ¬Blank [b] := by rw [blank_single, hbw]; simp
  have hq3 : q ≠ '#' := by rcases hq with rfl | rfl <;> decide
  obtain ⟨a, u, e, ha⟩ := word_cons hname.1
  have hline : name.toList ++ " = ".toList ++ q :: (s ++ b :: '#' :: t) ++ [q] = (name.toList ++ [' ']) ++ '=' :: ([' '] ++ ((q :: (s ++ b :: '#' :: t) ++ [q]) ++ [])) := by
    simp
  have hne : '=' ∉ name.toList ++ [' '] := by
    rw [List.mem_append]
    rintro (h | h)
    · exact hname.2.1 h
    · simp at h
  have hsk : skipLine (name.toList ++ " = ".toList ++ q :: (s ++ b :: '#' :: t) ++ [q]) = false := by
    rw [e]
    exact skip_word [] a _ (by simp [Blank]) ha (by rintro rfl; exact hname.2.2 (by rw [e]; rfl))
  have htw := trim_word [] name.toList [' '] (by simp [Blank]) hname.1 (by simp [Blank])
  rw [List.nil_append] at htw
  have hval : trim ([' '] ++ ((q :: (s ++ b :: '#' :: t) ++ [q]) ++ [])) = q :: (s ++ b :: '#' :: t) ++ [q] :=
    trim_word [' '] _ [] (by simp [Blank]) ⟨q, rfl, q, by rw [Option.mem_def, List.getLast?_append]; rfl, hqb, hqb⟩ (by simp [Blank])
  have hstrip : strip (q :: (s ++ b :: '#' :: t) ++ [q]) = s := by
    unfold strip
    rw [if_pos (by simp), show q :: (s ++ b :: '#' :: t) ++ [q] = (q :: (s ++ [b])) ++ '#' :: (t ++ [q]) by simp, takeWhile_stop '#' _ _ (by
      simp only [List.mem_cons, List.mem_append, List.not_mem_nil, or_false]
      rintro (h | h | h)
      · exact hq3 h.symm
      · exact hs h
      · exact hb h.symm)]
    have := trim_word [] (q :: (s ++ [b])) [] (by simp [Blank]) ⟨q, rfl, b, by rw [Option.mem_def, show q :: (s ++ [b]) = (q :: s) ++ [b] from rfl, List.getLast?_append]; rfl, hqb, hbb⟩
      (by simp [Blank])
    rw [List.nil_append, List.append_nil] at this
    rw [this]
    dsimp only
    rw [if_pos hq]
    simp
  refine ⟨Function.update st name.toList (.string s), ?_, Function.update_self _ _ _⟩
  unfold readLine
  rw [hsk]
  rw [hline, takeWhile_stop '=' _ _ hne, dropWhile_stop' '=' _ _ hne, htw, List.drop_one, List.tail_cons, hval]
  simp only [Bool.false_eq_true, if_false]
  rw [if_pos (by simp), if_neg (by rw [e]; simp), setParam_known name.toList _ .string name hn rfl, hstrip]
  have : convert .string s = .ok (.string s) := if_pos (by unfold stringMaxlen; omega)
  rw [this]

example (st : State) : ∃ st', readLine "initial_data_prefix = \"run#1\"".toList st = .ok st' ∧ st' "initial_data_prefix".toList = .string "ru".toList :=
  C49_hash_violated '"' (Or.inr rfl) "initial_data_prefix" (by decide +kernel) "ru".toList 'n' "1".toList (by decide) (by decide) (by decide) (by decide)
    ⟨⟨'i', rfl, 'x', rfl, by rw [blank_single]; decide, by rw [blank_single]; decide⟩, by decide, by decide⟩ st

/-- A string of 511 characters or more is written past the end of its array. -/
theorem C49_long_violated (w1 name w2 w3 : Text) (v : Written) (w4 : Text) (c : Option Text) (h : (Line.assign w1 name w2 w3 v w4 c).Ok) (s : String) (hk : (s, Kind.string) ∈ known)
    (hs : s.toList = name) (hlen : 511 ≤ v.text.length) (st : State) : readLine (Line.assign w1 name w2 w3 v w4 c).render st = .error .overflow := by
  obtain ⟨value, hv1, hv2⟩ := readLine_assign w1 name w2 w3 v w4 c h st
  rw [hv2, setParam_known name value .string s hk hs, hv1]
  have : convert .string v.text = .error .overflow := if_neg (by unfold stringMaxlen; omega)
  rw [this]

/-- Files with carriage returns: a line with nothing else ends the program; a flag which is set to `yes` is read as false. -/
theorem C49_crlf_violated : (∀ st, readLine ['\r'] st = .error (.exit 1)) ∧
    ∀ (name : String), (name, Kind.boolean) ∈ known → Word name.toList ∧ '=' ∉ name.toList ∧ name.toList.head? ≠ some '#' → ∀ st,
      readLine (name.toList ++ " = yes\r".toList) st = .ok (Function.update st name.toList (.flag false)) := by
  refine ⟨fun st => rfl, fun name hk hn st => ?_⟩
  have hok : (Line.assign [] name.toList [' '] [' '] (.bare "yes\r".toList) [] none).Ok :=
    ⟨by simp [Blank], hn.1, hn.2.1, hn.2.2, by simp [Blank], by simp [Blank], ⟨⟨'y', rfl, '\r', rfl, by rw [blank_single]; decide, by rw [blank_single]; decide⟩, by decide, by decide, by decide⟩,
      by simp [Blank]⟩
  obtain ⟨value, hv1, hv2⟩ := readLine_assign [] name.toList [' '] [' '] (.bare "yes\r".toList) [] none hok st
  have hr : (Line.assign [] name.toList [' '] [' '] (.bare "yes\r".toList) [] none).render = name.toList ++ " = yes\r".toList := rfl
  rw [hr] at hv2
  rw [hv2, setParam_known name.toList value .boolean name hk rfl, hv1]
  rfl

/-- The names of the table are words, so that the theorems above apply to all of them. -/
theorem C49_names : ∀ e ∈ known, Word e.1.toList ∧ '=' ∉ e.1.toList ∧ e.1.toList.head? ≠ some '#' := by
  have key : ∀ e ∈ known, ((e.1.toList.head?.any fun a => !white a) && (e.1.toList.getLast?.any fun a => !white a)) = true ∧ '=' ∉ e.1.toList ∧ e.1.toList.head? ≠ some '#' := by
    decide +kernel
  intro e he
  obtain ⟨h1, h2, h3⟩ := key e he
  rw [Bool.and_eq_true, Option.any_eq_true, Option.any_eq_true] at h1
  obtain ⟨⟨a, ha, ha'⟩, b, hb, hb'⟩ := h1
  exact ⟨⟨a, ha, b, hb, by rw [blank_single]; simpa using ha', by rw [blank_single]; simpa using hb'⟩, h2, h3⟩

end FleCSPH
