import Verif.Spec.Params
import Mathlib.Data.List.Basic
/-! Lemmas about the reader of parameter files. -/
namespace FleCSPH.Params

theorem white_iff (c : Char) : white c = true ↔ c = ' ' ∨ c = '\t' := by simp [white]

theorem blank_single (c : Char) : Blank [c] ↔ white c = true := by simp [Blank, white_iff]

theorem dropWhile_stop (p : Char → Bool) (a : Text) (x : Char) (b : Text) (hx : p x = false) : (a ++ x :: b).dropWhile p = a.dropWhile p ++ x :: b := by
  induction a with
  | nil => simp [hx]
  | cons c a ih =>
    rw [List.cons_append, List.dropWhile_cons, List.dropWhile_cons]
    split_ifs
    · exact ih
    · rfl

theorem dropWhile_all (p : Char → Bool) (a b : Text) (h : ∀ c ∈ a, p c = true) : (a ++ b).dropWhile p = b.dropWhile p := by
  induction a with
  | nil => rfl
  | cons c a ih =>
    rw [List.cons_append, List.dropWhile_cons, if_pos (h c (by simp))]
    exact ih fun d hd => h d (by simp [hd])

theorem takeWhile_stop (x : Char) (a b : Text) (h : x ∉ a) : (a ++ x :: b).takeWhile (fun c => decide (c ≠ x)) = a := by
  induction a with
  | nil => simp
  | cons c a ih =>
    rw [List.cons_append, List.takeWhile_cons, if_pos (by simpa using fun h' : c = x => h (by simp [h'])), ih fun hx => h (by simp [hx])]

theorem dropWhile_stop' (x : Char) (a b : Text) (h : x ∉ a) : (a ++ x :: b).dropWhile (fun c => decide (c ≠ x)) = x :: b := by
  rw [dropWhile_all _ _ _ (fun c hc => by simpa using fun h' : c = x => h (h' ▸ hc))]
  simp

theorem blank_white {w : Text} (h : Blank w) : ∀ c ∈ w, white c = true := fun c hc => (white_iff c).2 (h c hc)

theorem blank_not_mem {w : Text} (h : Blank w) {x : Char} (hx : white x = false) : x ∉ w := by
  intro hm
  have := blank_white h x hm
  rw [hx] at this
  exact Bool.noConfusion this

theorem word_cons {s : Text} (h : Word s) : ∃ a t, s = a :: t ∧ white a = false := by
  obtain ⟨a, ha, -, -, h1, -⟩ := h
  cases s with
  | nil => simp at ha
  | cons x t =>
    simp only [List.head?_cons, Option.mem_def, Option.some.injEq] at ha
    subst ha
    exact ⟨x, t, rfl, by rw [blank_single] at h1; simpa using h1⟩

theorem word_concat {s : Text} (h : Word s) : ∃ t b, s = t ++ [b] ∧ white b = false := by
  obtain ⟨-, -, b, hb, -, h2⟩ := h
  rw [Option.mem_def, List.getLast?_eq_some_iff] at hb
  obtain ⟨t, rfl⟩ := hb
  exact ⟨t, b, rfl, by rw [blank_single] at h2; simpa using h2⟩

theorem trim_word (w s w' : Text) (hw : Blank w) (hs : Word s) (hw' : Blank w') : trim (w ++ (s ++ w')) = s := by
  unfold trim
  rw [dropWhile_all _ _ _ (blank_white hw)]
  obtain ⟨a, t, rfl, ha⟩ := word_cons hs
  have h1 : ((a :: t) ++ w').dropWhile white = (a :: t) ++ w' := by rw [List.cons_append, List.dropWhile_cons, if_neg (by simp [ha])]
  rw [h1, List.reverse_append, dropWhile_all _ _ _ (fun c hc => blank_white hw' c (List.mem_reverse.1 hc))]
  obtain ⟨t', b, h2, hb⟩ := word_concat hs
  rw [h2, List.reverse_append, List.reverse_singleton, List.singleton_append, List.dropWhile_cons, if_neg (by simp [hb]), List.reverse_cons, List.reverse_reverse]

theorem trim_blank (w : Text) (hw : Blank w) : trim w = [] := by
  unfold trim
  have := dropWhile_all white w [] (blank_white hw)
  rw [List.append_nil] at this
  rw [this]; rfl

/-- Blanks in front are removed, something which ends with a comment keeps all in front of it. -/
theorem trim_comment (w s c : Text) (hw : Blank w) (hs : ∃ a t, s = a :: t ∧ white a = false) : ∃ c', trim (w ++ (s ++ '#' :: c)) = s ++ '#' :: c' := by
  unfold trim
  rw [dropWhile_all _ _ _ (blank_white hw)]
  obtain ⟨a, t, rfl, ha⟩ := hs
  have h1 : ((a :: t) ++ '#' :: c).dropWhile white = (a :: t) ++ '#' :: c := by rw [List.cons_append, List.dropWhile_cons, if_neg (by simp [ha])]
  rw [h1, List.reverse_append, List.reverse_cons, List.append_assoc, List.singleton_append, dropWhile_stop _ _ _ _ (by decide)]
  refine ⟨(c.reverse.dropWhile white).reverse, ?_⟩
  rw [List.reverse_append, List.reverse_cons, List.reverse_reverse, List.append_assoc, List.singleton_append]

theorem written_word (v : Written) (h : v.Ok) : Word v.render := by
  cases v with
  | bare s => exact h.1
  | quoted q s =>
    have hq : ¬Blank [q] := by
      rw [blank_single]
      rcases h.1 with rfl | rfl <;> decide
    exact ⟨q, by simp [Written.render], q, by rw [Written.render, Option.mem_def, List.getLast?_append]; rfl, hq, hq⟩

theorem written_hash (v : Written) (h : v.Ok) : '#' ∉ v.render := by
  cases v with
  | bare s => exact h.2.1
  | quoted q s =>
    have hq : '#' ≠ q := by rcases h.1 with rfl | rfl <;> decide
    simp only [Written.render, List.cons_append, List.mem_cons, List.mem_append, List.not_mem_nil, or_false]
    rintro (h1 | h1 | h1)
    · exact hq h1
    · exact h.2 h1
    · exact hq h1

theorem unquote (v : Written) (h : v.Ok) :
    (match v.render with
      | [] => []
      | c :: t => if c = '\'' ∨ c = '"' then t.take (t.length - 1) else v.render) = v.text := by
  cases v with
  | bare s =>
    obtain ⟨a, t, hs, -⟩ := word_cons h.1
    obtain ⟨-, -, h1, h2⟩ := h
    subst hs
    simp only [Written.render, Written.text]
    rw [if_neg]
    rintro (rfl | rfl)
    · exact h1 rfl
    · exact h2 rfl
  | quoted q s =>
    simp only [Written.render, Written.text, List.cons_append]
    rw [if_pos h.1]
    simp

theorem strip_plain (v : Written) (h : v.Ok) : strip v.render = v.text := by
  unfold strip
  rw [if_neg (written_hash v h)]
  exact unquote v h

theorem strip_comment (v : Written) (h : v.Ok) (w c : Text) (hw : Blank w) : strip (v.render ++ (w ++ '#' :: c)) = v.text := by
  unfold strip
  rw [if_pos (by simp), ← List.append_assoc, takeWhile_stop '#' _ _ (by
    rw [List.mem_append]
    rintro (h1 | h1)
    · exact written_hash v h h1
    · exact blank_not_mem hw (by decide) h1)]
  have := trim_word [] v.render w (by simp [Blank]) (written_word v h) hw
  rw [List.nil_append] at this
  rw [this]
  exact unquote v h

theorem skip_blank (w : Text) (hw : Blank w) : skipLine w = true := by
  induction w with
  | nil => rfl
  | cons c w ih =>
    have hc := blank_white hw c (by simp)
    unfold skipLine
    rw [if_pos hc, ih fun d hd => hw d (by simp [hd])]
    simp

theorem skip_comment (w c : Text) (hw : Blank w) : skipLine (w ++ '#' :: c) = true := by
  induction w with
  | nil => rfl
  | cons d w ih =>
    have hc := blank_white hw d (by simp)
    rw [List.cons_append]
    unfold skipLine
    rw [if_pos hc, ih fun e he => hw e (by simp [he])]
    simp

theorem skip_word (w : Text) (a : Char) (t : Text) (hw : Blank w) (ha : white a = false) (ha' : a ≠ '#') : skipLine (w ++ a :: t) = false := by
  induction w with
  | nil =>
    rw [List.nil_append]
    unfold skipLine
    rw [if_neg ha', if_neg (by simp [ha])]
  | cons c w ih =>
    have hc := blank_white hw c (by simp)
    rw [List.cons_append]
    unfold skipLine
    rw [if_pos hc, ih fun e he => hw e (by simp [he]), if_neg]
    rintro rfl
    exact absurd hc (by decide)

theorem readLine_assign (w1 name w2 w3 : Text) (v : Written) (w4 : Text) (c : Option Text) (h : (Line.assign w1 name w2 w3 v w4 c).Ok) (st : State) :
    ∃ value, strip value = v.text ∧ readLine (Line.assign w1 name w2 w3 v w4 c).render st = setParam name value st := by
  obtain ⟨h1, h2, h3, h4, h5, h6, h7, h8⟩ := h
  obtain ⟨value, hv1, hv2, hv3⟩ : ∃ value, strip value = v.text ∧
      trim (w3 ++ (v.render ++ (w4 ++ tail c))) = value ∧ value ≠ [] := by
    cases c with
    | none =>
      refine ⟨v.render, strip_plain v h7, ?_, ?_⟩
      · rw [tail, List.append_nil]; exact trim_word _ _ _ h6 (written_word v h7) h8
      · obtain ⟨a, t, e, -⟩ := word_cons (written_word v h7)
        rw [e]; simp
    | some c =>
      obtain ⟨a, t, e, ha⟩ := word_cons (written_word v h7)
      obtain ⟨c', hc'⟩ := trim_comment w3 (v.render ++ w4) c h6 ⟨a, t ++ w4, by rw [e]; rfl, ha⟩
      refine ⟨v.render ++ (w4 ++ '#' :: c'), strip_comment v h7 w4 c' h8, ?_, by rw [e]; simp⟩
      rw [List.append_assoc, List.append_assoc] at hc'
      exact hc'
  refine ⟨value, hv1, ?_⟩
  obtain ⟨a, t, e, ha⟩ := word_cons h2
  have hsk : skipLine (Line.assign w1 name w2 w3 v w4 c).render = false := by
    rw [Line.render, e, List.cons_append]
    exact skip_word w1 a _ h1 ha (by rintro rfl; exact h4 (by rw [e]; rfl))
  have hne : '=' ∉ w1 ++ (name ++ w2) := by
    rw [List.mem_append, List.mem_append]
    rintro (h | h | h)
    · exact blank_not_mem h1 (by decide) h
    · exact h3 h
    · exact blank_not_mem h5 (by decide) h
  unfold readLine
  rw [hsk]
  have hr : (Line.assign w1 name w2 w3 v w4 c).render = (w1 ++ (name ++ w2)) ++ '=' :: (w3 ++ (v.render ++ (w4 ++ tail c))) := by
    rw [Line.render, List.append_assoc, List.append_assoc]
  rw [hr, takeWhile_stop '=' _ _ hne, dropWhile_stop' '=' _ _ hne, trim_word w1 name w2 h1 h2 h5]
  rw [List.drop_one, List.tail_cons, hv2]
  simp only [Bool.false_eq_true, if_false]
  rw [if_pos (by simp), if_neg]
  rintro (h | h)
  · rw [h] at e; simp at e
  · exact hv3 h

theorem go_not_mem (name s : Text) (l : List (String × Kind)) (h : ∀ e ∈ l, name ≠ e.1.toList) (u : Bool) (st : State) :
    setParam.go name s l u st = if u then .error (.exit 2) else .ok st := by
  induction l with
  | nil => rfl
  | cons e l ih =>
    obtain ⟨n, k⟩ := e
    unfold setParam.go
    rw [if_neg (h (n, k) (by simp))]
    exact ih fun e he => h e (by simp [he])

theorem go_mem (name s : Text) (k : Kind) (l : List (String × Kind)) (hn : (l.map (·.1.toList)).Nodup) (n : String) (hm : (n, k) ∈ l) (he : n.toList = name) (u : Bool) (st : State) :
    setParam.go name s l u st = match convert k s with
      | .error e => .error e
      | .ok v => .ok (Function.update st name v) := by
  induction l with
  | nil => simp at hm
  | cons e l ih =>
    obtain ⟨m, j⟩ := e
    rw [List.map_cons, List.nodup_cons] at hn
    unfold setParam.go
    rcases List.mem_cons.1 hm with h | h
    · obtain ⟨rfl, rfl⟩ := Prod.mk.inj h
      rw [if_pos he.symm]
      cases convert k s with
      | error e => rfl
      | ok v =>
        dsimp only
        rw [go_not_mem]
        · rfl
        · rintro e' he' h'
          exact hn.1 (List.mem_map.2 ⟨e', he', by dsimp only; rw [← h', he]⟩)
    · rw [if_neg]
      · exact ih hn.2 h
      · intro h'
        exact hn.1 (List.mem_map.2 ⟨(n, k), h, by dsimp only; rw [he, h']⟩)

theorem known_nodup : (known.map (·.1.toList)).Nodup := by decide +kernel

theorem setParam_known (name value : Text) (k : Kind) (n : String) (hm : (n, k) ∈ known) (he : n.toList = name) (st : State) :
    setParam name value st = match convert k (strip value) with
      | .error e => .error e
      | .ok v => .ok (Function.update st name v) :=
  go_mem name (strip value) k known known_nodup n hm he true st

theorem sameWord_normal (s : Text) (n : String) (h : sameWord s n) : normal s = n.toList := by
  rw [← h]
  unfold normal
  rw [List.map_map]
  congr 1
  funext c
  simp only [Function.comp]
  split_ifs with hc
  · rfl
  · rfl

/-- The keywords of the code are those documented. -/
theorem find_keyword (k : Kind) (i : Nat) (l : List String) (hl : (names k)[i]? = some l) (n : String) (hn : n ∈ l) :
    (keywords k).find? (fun e => e.1 = n.toList) = some (n.toList, i) := by
  have key : ∀ k ∈ [Kind.boolean, .numeric, .string, .kernel, .eos, .viscosity], ∀ i < (names k).length, ∀ l, (names k)[i]? = some l → ∀ n ∈ l,
      (keywords k).find? (fun e => e.1 = n.toList) = some (n.toList, i) := by
    intro k hk i hi l hl
    have key2 : ∀ k ∈ [Kind.boolean, .numeric, .string, .kernel, .eos, .viscosity], ∀ i < (names k).length, ∀ n ∈ (names k)[i]?.getD [],
      (keywords k).find? (fun e => e.1 = n.toList) = some (n.toList, i) := by decide +kernel
    have := key2 k hk i hi
    rw [hl] at this
    exact this
  exact key k (by cases k <;> simp) i (by
    rw [List.getElem?_eq_some_iff] at hl
    exact hl.1) l hl n hn

theorem convert_means (k : Kind) (s : Text) (v : Value) (h : Means k s v) : convert k s = .ok v := by
  have hk : ∀ i l n, (names k)[i]? = some l → n ∈ l → sameWord s n → (keywords k).find? (fun e => e.1 = normal s) = some (n.toList, i) := by
    intro i l n hl hn hs
    rw [sameWord_normal s n hs]
    exact find_keyword k i l hl n hn
  cases k with
  | boolean =>
    rcases h with ⟨rfl | rfl, rfl⟩ | ⟨rfl | rfl, rfl⟩ <;> rfl
  | numeric =>
    rw [show v = .number s from h]; rfl
  | string =>
    obtain ⟨h1, rfl⟩ := h
    exact if_pos (by unfold stringMaxlen; omega)
  | kernel =>
    obtain ⟨i, rfl, l, hl, n, hn, hs⟩ := h
    unfold convert
    rw [hk i l n hl hn hs]
  | eos =>
    obtain ⟨i, rfl, l, hl, n, hn, hs⟩ := h
    unfold convert
    rw [hk i l n hl hn hs]
  | viscosity =>
    obtain ⟨i, rfl, l, hl, n, hn, hs⟩ := h
    unfold convert
    rw [hk i l n hl hn hs]

end FleCSPH.Params
