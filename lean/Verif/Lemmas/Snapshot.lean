import Verif.Model.Io
import Mathlib.Tactic.Ring
import Mathlib.Tactic.Positivity
/-! Lemmas on names of snapshots. -/
namespace FleCSPH.Io

theorem charAt_append (p q : List Char) (k : Nat) (h : k < q.length) : charAt (p ++ q) ((p.length : Int) + k) = some q[k] := by
  unfold charAt
  rw [if_neg (by omega), if_neg (by simp; omega)]
  have : ((p.length : Int) + k).toNat = p.length + k := by omega
  rw [this, List.getElem?_append_right (by omega)]
  simp [h]

theorem charAt_neg (name : List Char) (i : Int) (h : i < 0) : charAt name i = none := by
  unfold charAt; rw [if_pos h]

/-- The digits are read from the right. -/
theorem digitsLoop_parts (p s : List Char) (u a b c d e : Char) (hs : s.length = 7) (name : List Char) (hname : name = p ++ u :: [a, b, c, d, e] ++ s) :
    digitsLoop name 5 ((name.length : Int) - 8) 0 1 = some (if ∀ x ∈ [a, b, c, d, e], isDig x = true then some (Nat.ofDigitChars 10 [a, b, c, d, e] 0) else none) ∧
    charAt name ((name.length : Int) - 8 - 5) = some u := by
  have hl : (name.length : Int) = p.length + 13 := by rw [hname]; simp; omega
  have at_ : ∀ (k : Nat) (hk : k < (u :: a :: b :: c :: d :: e :: s).length), charAt name ((p.length : Int) + k) = some (u :: a :: b :: c :: d :: e :: s)[k] := by
    intro k hk
    have := charAt_append p (u :: a :: b :: c :: d :: e :: s) k hk
    rw [hname]
    simpa using this
  have h0 := at_ 0 (by simp)
  have h1 := at_ 1 (by simp)
  have h2 := at_ 2 (by simp)
  have h3 := at_ 3 (by simp)
  have h4 := at_ 4 (by simp)
  have h5 := at_ 5 (by simp)
  simp only [List.getElem_cons_zero, List.getElem_cons_succ, Nat.cast_ofNat, Nat.cast_zero, Nat.cast_one] at h0 h1 h2 h3 h4 h5
  refine ⟨?_, ?_⟩
  · have e1 : (name.length : Int) - 8 = p.length + 5 := by omega
    have e2 : (p.length : Int) + 5 - 1 = p.length + 4 := by omega
    have e3 : (p.length : Int) + 4 - 1 = p.length + 3 := by omega
    have e4 : (p.length : Int) + 3 - 1 = p.length + 2 := by omega
    have e5 : (p.length : Int) + 2 - 1 = p.length + 1 := by omega
    rw [e1]
    by_cases he : isDig e = true
    · by_cases hd : isDig d = true
      · by_cases hc : isDig c = true
        · by_cases hb : isDig b = true
          · by_cases ha : isDig a = true
            · simp only [digitsLoop, h1, h2, h3, h4, h5, e2, e3, e4, e5, he, hd, hc, hb, ha, if_true]
              rw [if_pos (by simp [he, hd, hc, hb, ha])]
              simp only [Nat.ofDigitChars, List.foldl_cons, List.foldl_nil, Option.some.injEq]
              ring
            · simp [digitsLoop, h1, h2, h3, h4, h5, e2, e3, e4, e5, he, hd, hc, hb, ha]
          · simp [digitsLoop, h2, h3, h4, h5, e2, e3, e4, he, hd, hc, hb]
        · simp [digitsLoop, h3, h4, h5, e2, e3, he, hd, hc]
      · simp [digitsLoop, h4, h5, e2, he, hd]
    · simp [digitsLoop, h5, he]
  · have : (name.length : Int) - 8 - 5 = p.length + 0 := by omega
    rw [this]; exact h0

theorem eq_five (l : List Char) (h : l.length = 5) : ∃ a b c d e, l = [a, b, c, d, e] := by
  match l, h with
  | [a, b, c, d, e], _ => exact ⟨a, b, c, d, e, rfl⟩

/-- What the parser does with a name of at least 13 characters. -/
theorem snapshot_parts (pre p ds s : List Char) (u : Char) (hd : ds.length = 5) (hs : s.length = 7) (name : List Char) (hname : name = p ++ u :: ds ++ s) (hlen : name.length < 256) :
    isPrefixSnapshot pre name =
      some (if pre <:+: name ∧ suffix <:+: name ∧ (∀ x ∈ ds, isDig x = true) ∧ u = '_' ∧ pre = p then some (Nat.ofDigitChars 10 ds 0) else none) := by
  obtain ⟨a, b, c, d, e, rfl⟩ := eq_five ds hd
  obtain ⟨h1, h2⟩ := digitsLoop_parts p s u a b c d e hs name hname
  have hl : name.length = p.length + 13 := by rw [hname]; simp; omega
  have ht : name.take ((name.length : Int) - 8 - 5).toNat = p := by
    have : ((name.length : Int) - 8 - 5).toNat = p.length := by omega
    rw [this, hname]; simp
  unfold isPrefixSnapshot
  by_cases hp : pre <:+: name
  · by_cases hx : suffix <:+: name
    · rw [if_pos hp, if_pos hx]
      simp only [h1]
      by_cases hdig : ∀ x ∈ [a, b, c, d, e], isDig x = true
      · simp only [if_pos hdig, h2, if_pos hlen, ht]
        by_cases hu : u = '_'
        · by_cases hpp : pre = p
          · rw [if_pos hu, if_pos hpp, if_pos ⟨hp, hx, hdig, hu, hpp⟩]
          · rw [if_pos hu, if_neg hpp, if_neg fun h => hpp h.2.2.2.2]
        · rw [if_neg hu, if_neg fun h => hu h.2.2.2.1]
      · simp only [if_neg hdig]
        rw [if_neg fun h => hdig h.2.2.1]
    · rw [if_pos hp, if_neg hx, if_neg fun h => hx h.2.1]
  · rw [if_neg hp, if_neg fun h => hp h.1]

/-- A name of at least 13 characters in parts. -/
theorem exists_parts (name : List Char) (h : 13 ≤ name.length) : ∃ p u ds s, name = p ++ u :: ds ++ s ∧ ds.length = 5 ∧ s.length = 7 := by
  have hlt : name.length - 13 < name.length := by omega
  refine ⟨name.take (name.length - 13), name[name.length - 13], (name.drop (name.length - 12)).take 5, name.drop (name.length - 7), ?_, by simp; omega, by simp; omega⟩
  have e1 : name = name.take (name.length - 13) ++ name.drop (name.length - 13) := (List.take_append_drop _ _).symm
  have e2 : name.drop (name.length - 13) = name[name.length - 13] :: name.drop (name.length - 12) := by
    rw [List.drop_eq_getElem_cons hlt]
    congr 2
    omega
  have e3 : name.drop (name.length - 12) = (name.drop (name.length - 12)).take 5 ++ name.drop (name.length - 7) := by
    conv_lhs => rw [← List.take_append_drop 5 (name.drop (name.length - 12))]
    rw [List.drop_drop]
    congr 2
    omega
  conv_lhs => rw [e1, e2, e3]
  simp

theorem isDig_iff (c : Char) : isDig c = c.isDigit := rfl

theorem decimal_length (n k : Nat) (hk : 0 < k) : (decimal n).length ≤ k ↔ n < 10 ^ k := Nat.length_toDigits_le_iff (by decide) hk

theorem decimal_digits (n : Nat) : ∀ c ∈ decimal n, isDig c = true := fun c hc => by
  rw [isDig_iff]; exact Nat.isDigit_of_mem_toDigits (by decide) (by decide) hc

theorem pad5_small (n : Nat) (h : n < 100000) : (pad5 n).length = 5 ∧ (∀ c ∈ pad5 n, isDig c = true) ∧ Nat.ofDigitChars 10 (pad5 n) 0 = n := by
  have hl : (decimal n).length ≤ 5 := (decimal_length n 5 (by decide)).2 h
  refine ⟨by simp [pad5]; omega, ?_, ?_⟩
  · intro c hc
    rcases List.mem_append.1 hc with hc | hc
    · rw [List.eq_of_mem_replicate hc]; rfl
    · exact decimal_digits n c hc
  · unfold pad5 decimal
    rw [Nat.ofDigitChars_append, Nat.ofDigitChars_replicate_zero]
    simp

theorem pad5_large (n : Nat) (h : 100000 ≤ n) : 6 ≤ (pad5 n).length ∧ ∀ c ∈ pad5 n, isDig c = true := by
  have hl : ¬ (decimal n).length ≤ 5 := fun hl => by
    have := (decimal_length n 5 (by decide)).1 hl
    omega
  refine ⟨by simp [pad5]; omega, ?_⟩
  intro c hc
  rcases List.mem_append.1 hc with hc | hc
  · rw [List.eq_of_mem_replicate hc]; rfl
  · exact decimal_digits n c hc

theorem suffix_length : suffix.length = 7 := by decide

/-- The extension can only be at the end of a name of this form, unless the prefix contains it. -/
theorem suffix_at_end (p ds s : List Char) (hd : ds.length = 5) (hdig : ∀ c ∈ ds, isDig c = true) (hs : s.length = 7) (h : suffix <:+: p ++ '_' :: ds ++ s) (hp : ¬ suffix <:+: p) : s = suffix := by
  obtain ⟨x, y, hxy⟩ := h
  have hlen := congrArg List.length hxy
  simp only [List.length_append, List.length_cons, suffix_length, hd, hs] at hlen
  by_cases h1 : x.length + 7 ≤ p.length
  · exfalso
    apply hp
    have : (p ++ '_' :: ds ++ s).take p.length = p := by simp
    rw [← hxy, List.take_append] at this
    rw [List.take_of_length_le (by simp [suffix_length]; omega)] at this
    exact ⟨x, _, this⟩
  · by_cases h2 : x.length ≤ p.length
    · -- the underscore would be in the extension
      exfalso
      have e : (x ++ suffix ++ y)[p.length]? = some '_' := by rw [hxy]; simp
      rw [List.append_assoc, List.getElem?_append_right h2, List.getElem?_append_left (by rw [suffix_length]; omega)] at e
      have : '_' ∈ suffix := List.mem_of_getElem? e
      revert this; decide
    · by_cases h3 : x.length ≤ p.length + 5
      · -- a digit would be the point
        exfalso
        have e : (x ++ suffix ++ y)[x.length]? = some '.' := by simp [suffix]
        rw [hxy, List.append_assoc, List.getElem?_append_right (by omega)] at e
        obtain ⟨k, hk⟩ : ∃ k, x.length - p.length = k + 1 := ⟨x.length - p.length - 1, by omega⟩
        rw [hk, List.cons_append, List.getElem?_cons_succ, List.getElem?_append_left (by omega)] at e
        have := hdig _ (List.mem_of_getElem? e)
        revert this; decide
      · have hy : y = [] := List.length_eq_zero_iff.1 (by omega)
        subst hy
        rw [List.append_nil] at hxy
        exact ((List.append_inj' hxy (by rw [hs, suffix_length])).2).symm

theorem digit_range (c : Char) (h : isDig c = true) : 48 ≤ c.toNat ∧ c.toNat ≤ 57 := by
  unfold isDig at h
  simp only [Bool.and_eq_true, decide_eq_true_eq] at h
  exact ⟨h.1, h.2⟩

theorem value_cons (c : Char) (l : List Char) : Nat.ofDigitChars 10 (c :: l) 0 = 10 ^ l.length * (c.toNat - 48) + Nat.ofDigitChars 10 l 0 := by
  rw [Nat.ofDigitChars_cons, Nat.ofDigitChars_eq_ofDigitChars_zero]
  simp

theorem value_lt (l : List Char) (h : ∀ c ∈ l, isDig c = true) : Nat.ofDigitChars 10 l 0 < 10 ^ l.length := by
  induction l with
  | nil => simp
  | cons c l ih =>
    have h1 := ih fun x hx => h x (by simp [hx])
    have h2 := digit_range c (h c (by simp))
    rw [value_cons, List.length_cons, pow_succ]
    have : 10 ^ l.length * (c.toNat - 48) ≤ 10 ^ l.length * 9 := Nat.mul_le_mul_left _ (by omega)
    omega

theorem value_inj (l l' : List Char) (h : ∀ c ∈ l, isDig c = true) (h' : ∀ c ∈ l', isDig c = true) (hl : l.length = l'.length) (hv : Nat.ofDigitChars 10 l 0 = Nat.ofDigitChars 10 l' 0) : l = l' := by
  induction l generalizing l' with
  | nil => exact (List.length_eq_zero_iff.1 hl.symm).symm
  | cons c l ih =>
    cases l' with
    | nil => simp at hl
    | cons c' l' =>
      have hl : l.length = l'.length := by simpa using hl
      have h1 := value_lt l fun x hx => h x (by simp [hx])
      have h2 := value_lt l' fun x hx => h' x (by simp [hx])
      have h3 := digit_range c (h c (by simp))
      have h4 := digit_range c' (h' c' (by simp))
      rw [value_cons, value_cons, ← hl] at hv
      rw [← hl] at h2
      have hd : c.toNat - 48 = c'.toNat - 48 := by
        have hpos : 0 < 10 ^ l.length := Nat.pow_pos (by decide)
        have e1 : (10 ^ l.length * (c.toNat - 48) + Nat.ofDigitChars 10 l 0) / 10 ^ l.length = (10 ^ l.length * (c'.toNat - 48) + Nat.ofDigitChars 10 l' 0) / 10 ^ l.length := by rw [hv]
        rw [Nat.mul_add_div hpos, Nat.mul_add_div hpos, Nat.div_eq_of_lt h1, Nat.div_eq_of_lt h2] at e1
        simpa using e1
      have hc : c = c' := by
        apply Char.ext
        apply UInt32.toNat_inj.1
        have : c.toNat = c'.toNat := by omega
        exact this
      rw [hd] at hv
      rw [hc, ih l' (fun x hx => h x (by simp [hx])) (fun x hx => h' x (by simp [hx])) hl (by omega)]

theorem isPrefix_infix (p q : List Char) : p <:+: p ++ q := (List.prefix_append p q).isInfix

end FleCSPH.Io
