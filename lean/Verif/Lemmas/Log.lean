import Verif.Model.Log
import Verif.Spec.Log
import Mathlib.Tactic.Ring
import Mathlib.Tactic.Linarith
/-! Lemmas on the logging facility. -/
namespace FleCSPH.Log
open LogSpec

/-- What an output holds after the text `s` with the colour codes, `b` without, was let through. -/
def after (s b : Text) (x : Buffer) : Buffer :=
  if x.enabled then { x with sink := x.sink.map (· ++ if x.colorized then s else b) } else x

/-- Every output which is switched on exists. -/
def Tee.Usable (t : Tee) : Prop := ∀ kb ∈ t.buffers, kb.2.enabled = true → kb.2.sink.isSome = true

theorem mapM_some {α β : Type} (f : α → Option β) (g : α → β) : ∀ l : List α, (∀ x ∈ l, f x = some (g x)) → l.mapM f = some (l.map g)
  | [], _ => rfl
  | a :: l, h => by
    rw [List.mapM_cons, h a (by simp), mapM_some f g l (fun x hx => h x (by simp [hx]))]; rfl

theorem after_enabled (s b : Text) (x : Buffer) : (after s b x).enabled = x.enabled := by
  unfold after; split <;> rfl

theorem after_colorized (s b : Text) (x : Buffer) : (after s b x).colorized = x.colorized := by
  unfold after; split <;> rfl

theorem after_isSome (s b : Text) (x : Buffer) : (after s b x).sink.isSome = x.sink.isSome := by
  unfold after; split
  · cases x.sink <;> rfl
  · rfl

theorem after_after (s b s' b' : Text) (x : Buffer) : after s' b' (after s b x) = after (s ++ s') (b ++ b') x := by
  unfold after
  cases he : x.enabled
  · simp [he]
  · cases hc : x.colorized <;> cases hs : x.sink <;> simp [he, hc, hs]

theorem after_nil (x : Buffer) : after [] [] x = x := by
  unfold after
  cases hs : x.sink <;> split <;> simp_all
  · cases x; simp_all
  · cases x; simp_all

/-- All outputs changed by `after`. -/
def applied (s b : Text) (l : List (String × Buffer)) : List (String × Buffer) := l.map fun kb => (kb.1, after s b kb.2)

theorem applied_applied (s b s' b' : Text) (l : List (String × Buffer)) : applied s' b' (applied s b l) = applied (s ++ s') (b ++ b') l := by
  simp [applied, after_after]

theorem applied_nil (l : List (String × Buffer)) : applied [] [] l = l := by
  simp [applied, after_nil]

theorem usable_applied {t : Tee} (h : t.Usable) (s b x : Text) : (⟨applied s b t.buffers, x⟩ : Tee).Usable := by
  intro kb hkb he
  simp only [applied, List.mem_map] at hkb
  obtain ⟨kb', hm, rfl⟩ := hkb
  simp only [after_enabled, after_isSome] at he ⊢
  exact h kb' hm he

theorem flush_all {t : Tee} (h : t.Usable) : t.flush allBuffers = some ⟨applied t.test t.test t.buffers, []⟩ := by
  unfold Tee.flush
  rw [mapM_some _ (fun kb => (kb.1, after t.test t.test kb.2))]
  · rfl
  · intro kb hkb
    unfold writeTo allBuffers after
    cases he : kb.2.enabled
    · simp
    · obtain ⟨w, hw⟩ := Option.isSome_iff_exists.1 (h kb hkb he)
      simp [hw]

theorem flush_color {t : Tee} (h : t.Usable) : t.flush colorBuffers = some ⟨applied t.test [] t.buffers, []⟩ := by
  unfold Tee.flush
  rw [mapM_some _ (fun kb => (kb.1, after t.test [] kb.2))]
  · rfl
  · intro kb hkb
    unfold writeTo colorBuffers after
    cases he : kb.2.enabled
    · simp
    · obtain ⟨w, hw⟩ := Option.isSome_iff_exists.1 (h kb hkb he)
      cases hc : kb.2.colorized
      · cases hk : kb.2; simp_all
      · simp [hw]

theorem put_nil (t : Tee) : t.put [] = some t := rfl

theorem put_cons (t : Tee) (c : Char) (s : Text) : t.put (c :: s) = (t.overflow c).bind fun t' => t'.put s := by
  simp [Tee.put, List.foldlM_cons]

theorem put_append (t : Tee) (s s' : Text) : t.put (s ++ s') = (t.put s).bind fun t' => t'.put s' := by
  simp [Tee.put, List.foldlM_append]

theorem digit_ok {n : Char} (hn : n ∈ ['0', '1', '2', '3', '4', '5', '6', '7']) : n.isDigit ∧ n.toNat - '0'.toNat < 8 := by
  simp only [List.mem_cons, List.not_mem_nil, or_false] at hn
  rcases hn with rfl | rfl | rfl | rfl | rfl | rfl | rfl | rfl <;> decide

theorem put_piece {t : Tee} (h : t.Usable) (ht : t.test = []) {x : Piece} (hx : x.Ok) :
    t.put x.full = some ⟨applied x.full x.bare t.buffers, []⟩ := by
  obtain ⟨bufs, test⟩ := t
  simp only at ht
  subst ht
  cases x with
  | char c =>
    have hc : ¬ c = esc := hx
    simp only [Piece.full, Piece.bare, put_cons, Tee.overflow, List.length_nil, List.nil_append, if_neg hc]
    rw [flush_all (t := ⟨bufs, [c]⟩) h]
    rfl
  | code b n =>
    have hd := digit_ok hx
    have hfl := flush_color (t := ⟨bufs, Piece.full (.code b n)⟩) h
    cases b
    · simp only [Piece.full, Piece.bare, put_cons, Tee.overflow, List.length_nil, List.nil_append, List.length_cons, List.cons_append, esc] at hfl ⊢
      simp only [if_true, Option.bind_some, List.length_nil, List.nil_append, List.length_cons, List.cons_append, Nat.zero_add, Nat.reduceAdd,
        if_pos hd, if_pos, true_or, or_true, Bool.false_eq_true, if_false] at hfl ⊢
      rw [hfl]; rfl
    · simp only [Piece.full, Piece.bare, put_cons, Tee.overflow, List.length_nil, List.nil_append, List.length_cons, List.cons_append, esc] at hfl ⊢
      simp only [if_true, Option.bind_some, List.length_nil, List.nil_append, List.length_cons, List.cons_append, Nat.zero_add, Nat.reduceAdd,
        if_pos hd, if_pos, true_or, or_true, Bool.false_eq_true, if_false] at hfl ⊢
      rw [hfl]; rfl
  | reset =>
    have hfl := flush_color (t := ⟨bufs, Piece.full .reset⟩) h
    simp only [Piece.full, Piece.bare, put_cons, Tee.overflow, List.length_nil, List.nil_append, List.length_cons, List.cons_append, esc] at hfl ⊢
    simp only [if_true, Option.bind_some, List.length_nil, List.nil_append, List.length_cons, List.cons_append, Nat.zero_add, Nat.reduceAdd,
      true_or, or_true, if_false] at hfl ⊢
    simp [hfl, put_nil]

theorem put_full : ∀ (s : List Piece) {t : Tee}, t.Usable → t.test = [] → (∀ x ∈ s, x.Ok) →
    t.put (full s) = some ⟨applied (full s) (bare s) t.buffers, []⟩
  | [], t, _, ht, _ => by
    obtain ⟨bufs, test⟩ := t
    simp only at ht
    subst ht
    simp [full, bare, put_nil, applied_nil]
  | x :: s, t, h, ht, hs => by
    have h1 := put_piece h ht (hs x (by simp))
    have h2 := put_full s (t := ⟨applied x.full x.bare t.buffers, []⟩) (usable_applied h _ _ _) rfl (fun y hy => hs y (by simp [hy]))
    simp only [full, bare, List.flatMap_cons] at h2 ⊢
    rw [put_append, h1, Option.bind_some, h2, applied_applied]

/-! ### Histories of operations on the outputs -/

theorem lookup_alter (f : Buffer → Buffer) (key k : String) : ∀ l : List (String × Buffer),
    (alter f key l).lookup k = if k = key then some (f ((l.lookup key).getD ⟨false, false, none⟩)) else l.lookup k
  | [] => by
    by_cases h : k = key
    · subst h; simp [alter]
    · have : (k == key) = false := by simpa using h
      simp [alter, List.lookup_cons, this, h]
  | (k', b) :: l => by
    have ih := lookup_alter f key k l
    unfold alter
    by_cases hk : k' = key
    · subst hk
      by_cases h : k = k'
      · subst h; simp
      · have : (k == k') = false := by simpa using h
        simp [List.lookup_cons, this, h]
    · have hk2 : (key == k') = false := by simpa using fun h => hk h.symm
      by_cases h : k = k'
      · subst h
        simp [hk]
      · have h2 : (k == k') = false := by simpa using h
        simp [hk, List.lookup_cons, h2, hk2, ih]

theorem lookup_applied (s b : Text) (k : String) : ∀ l : List (String × Buffer), (applied s b l).lookup k = (l.lookup k).map (after s b)
  | [] => rfl
  | (k', x) :: l => by
    have ih := lookup_applied s b k l
    simp only [applied, List.map_cons, List.lookup_cons] at ih ⊢
    cases h : k == k' <;> simp [ih]

theorem mem_alter {f : Buffer → Buffer} {key : String} {kb : String × Buffer} : ∀ {l : List (String × Buffer)}, kb ∈ alter f key l →
    kb ∈ l ∨ kb.2 = f ((l.lookup key).getD ⟨false, false, none⟩) ∧ kb.1 = key
  | [], h => by simp [alter] at h; simp [h]
  | (k', b) :: l, h => by
    unfold alter at h
    by_cases hk : k' = key
    · subst hk
      simp at h
      rcases h with h | h
      · right; simp [h]
      · left; simp [h]
    · have hk2 : (key == k') = false := by simpa using fun h => hk h.symm
      simp only [hk, if_false, List.mem_cons] at h
      rcases h with h | h
      · left; simp [h]
      · rcases mem_alter h with h | h
        · left; simp [h]
        · right; simpa [List.lookup_cons, hk2] using h

/-- Every entry has an output behind it. -/
def Tee.Sound (t : Tee) : Prop := ∀ kb ∈ t.buffers, kb.2.sink.isSome = true

theorem Tee.Sound.usable {t : Tee} (h : t.Sound) : t.Usable := fun kb hkb _ => h kb hkb

theorem mem_of_lookup {k : String} {b : Buffer} : ∀ {l : List (String × Buffer)}, l.lookup k = some b → ∃ k', (k', b) ∈ l
  | [], h => by simp at h
  | (k', x) :: l, h => by
    rw [List.lookup_cons] at h
    cases hk : k == k'
    · rw [hk] at h
      obtain ⟨k'', hm⟩ := mem_of_lookup h
      exact ⟨k'', by simp [hm]⟩
    · rw [hk] at h
      simp at h
      exact ⟨k', by simp [h]⟩

/-! ### Any text -/

/-- The proper beginnings of a colour code. -/
def Pending : Text → Prop
  | [] => True
  | [a] => a = esc
  | [a, b] => a = esc ∧ b = '['
  | [a, b, c] => a = esc ∧ b = '[' ∧ (c = '0' ∨ c = '1')
  | [a, b, c, d] => a = esc ∧ b = '[' ∧ (c = '0' ∨ c = '1') ∧ d = ';'
  | [a, b, c, d, e] => a = esc ∧ b = '[' ∧ (c = '0' ∨ c = '1') ∧ d = ';' ∧ e = '3'
  | [a, b, c, d, e, f] => a = esc ∧ b = '[' ∧ (c = '0' ∨ c = '1') ∧ d = ';' ∧ e = '3' ∧ f.isDigit ∧ f.toNat - '0'.toNat < 8
  | _ => False

theorem removed_append {x y : Text} : ∀ w : Text, Removed x y → Removed (w ++ x) (w ++ y)
  | [], h => h
  | c :: w, h => .char c (removed_append w h)

theorem digit_mem {f : Char} (h : f.isDigit = true) (h2 : f.toNat - '0'.toNat < 8) : f ∈ ['0', '1', '2', '3', '4', '5', '6', '7'] := by
  have h48 : '0'.toNat = 48 := rfl
  have h3 : 48 ≤ f.toNat ∧ f.toNat ≤ 57 := by
    simp only [Char.isDigit, Bool.and_eq_true, decide_eq_true_eq] at h
    exact ⟨h.1, h.2⟩
  have h4 : f.toNat = 48 ∨ f.toNat = 49 ∨ f.toNat = 50 ∨ f.toNat = 51 ∨ f.toNat = 52 ∨ f.toNat = 53 ∨ f.toNat = 54 ∨ f.toNat = 55 := by omega
  have hf : f = Char.ofNat f.toNat := (Char.ofNat_toNat f).symm
  rcases h4 with h | h | h | h | h | h | h | h <;> rw [hf, h] <;> decide

theorem overflow_cases {t : Tee} (h : t.Usable) (hp : Pending t.test) (c : Char) :
    t.overflow c = some ⟨t.buffers, t.test ++ [c]⟩ ∧ Pending (t.test ++ [c]) ∨
    t.overflow c = some ⟨applied (t.test ++ [c]) (t.test ++ [c]) t.buffers, []⟩ ∨
    t.overflow c = some ⟨applied (t.test ++ [c]) [] t.buffers, []⟩ ∧ IsCode (t.test ++ [c]) := by
  obtain ⟨bufs, test⟩ := t
  have h1 := flush_all (t := ⟨bufs, test ++ [c]⟩) h
  have h2 := flush_color (t := ⟨bufs, test ++ [c]⟩) h
  match test, hp with
  | [], _ => by_cases hc : c = esc <;> simp_all [Tee.overflow, Pending]
  | [a], hp => by_cases hc : c = '[' <;> simp_all [Tee.overflow, Pending]
  | [a, b], hp => by_cases hc : c = '0' ∨ c = '1' <;> simp_all [Tee.overflow, Pending]
  | [a, b, d], hp =>
    by_cases hc : c = ';'
    · simp_all [Tee.overflow, Pending]
    · by_cases hm : c = 'm' <;> simp_all [Tee.overflow, Pending, IsCode, esc]
  | [a, b, d, e], hp => by_cases hc : c = '3' <;> simp_all [Tee.overflow, Pending]
  | [a, b, d, e, f], hp => by_cases hc : c.isDigit ∧ c.toNat - '0'.toNat < 8 <;> simp_all [Tee.overflow, Pending]
  | [a, b, d, e, f, g], hp =>
    have hg := digit_mem hp.2.2.2.2.2.1 hp.2.2.2.2.2.2
    by_cases hc : c = 'm'
    · right; right
      refine ⟨by simp_all [Tee.overflow], Or.inr ⟨d, by simpa using hp.2.2.1, g, hg, ?_⟩⟩
      simp [hp.1, hp.2.1, hp.2.2.2.1, hp.2.2.2.2.1, hc, esc]
    · simp_all [Tee.overflow, Pending]

theorem put_any : ∀ (s : Text) {t : Tee}, t.Usable → Pending t.test →
    ∃ x y z, t.put s = some ⟨applied x y t.buffers, z⟩ ∧ Pending z ∧ x ++ z = t.test ++ s ∧ Removed x y
  | [], t, h, hp => ⟨[], [], t.test, by simp [put_nil, applied_nil], hp, by simp, .nil⟩
  | c :: s, t, h, hp => by
    rw [put_cons]
    rcases overflow_cases h hp c with ⟨ho, hp'⟩ | ho | ⟨ho, hcode⟩
    · obtain ⟨x, y, z, h1, h2, h3, h4⟩ := put_any s (t := ⟨t.buffers, t.test ++ [c]⟩) h hp'
      exact ⟨x, y, z, by rw [ho, Option.bind_some, h1], h2, by simpa using h3, h4⟩
    · obtain ⟨x, y, z, h1, h2, h3, h4⟩ := put_any s (t := ⟨applied (t.test ++ [c]) (t.test ++ [c]) t.buffers, []⟩) (usable_applied h _ _ _) trivial
      refine ⟨t.test ++ [c] ++ x, t.test ++ [c] ++ y, z, by rw [ho, Option.bind_some, h1, applied_applied], h2, ?_, ?_⟩
      · rw [List.append_assoc, h3]; simp
      · exact removed_append _ h4
    · obtain ⟨x, y, z, h1, h2, h3, h4⟩ := put_any s (t := ⟨applied (t.test ++ [c]) [] t.buffers, []⟩) (usable_applied h _ _ _) trivial
      refine ⟨t.test ++ [c] ++ x, [] ++ y, z, by rw [ho, Option.bind_some, h1, applied_applied], h2, ?_, ?_⟩
      · rw [List.append_assoc, h3]; simp
      · exact .code hcode h4

/-! ### Tags -/

theorem pieces_plain {n : Text} (hn : ',' ∉ n) (acc s : Text) : pieces acc (n ++ s) = pieces (n.reverse ++ acc) s := by
  induction n generalizing acc with
  | nil => rfl
  | cons c n ih =>
    have hc : ¬ c = ',' := fun h => hn (by simp [h])
    rw [List.cons_append, pieces, if_neg hc, ih (fun h => hn (by simp [h]))]
    simp

theorem pieces_intercalate : ∀ l : List Text, (∀ n ∈ l, n ≠ [] ∧ ',' ∉ n) → pieces [] (List.intercalate [','] l) = l
  | [], _ => rfl
  | [n], h => by
    have hn := h n (by simp)
    have := pieces_plain hn.2 [] []
    simp only [List.append_nil] at this
    simp [List.intercalate, this, pieces, hn.1]
  | n :: m :: l, h => by
    have hn := h n (by simp)
    have ih := pieces_intercalate (m :: l) (fun x hx => h x (by simp [List.mem_cons.1 hx]))
    have : List.intercalate [','] (n :: m :: l) = n ++ ',' :: List.intercalate [','] (m :: l) := by simp [List.intercalate]
    rw [this, pieces_plain hn.2, pieces, if_pos rfl, ih]
    simp

theorem setBits_iff (map : List (String × Nat)) : ∀ (l : List String) (b : Nat → Bool) (i : Nat),
    setBits map l b i = true ↔ b i = true ∨ ∃ n ∈ l, map.lookup n = some i
  | [], b, i => by simp [setBits]
  | n :: l, b, i => by
    unfold setBits
    cases hn : map.lookup n with
    | none =>
      have ih := setBits_iff map l b i
      simp only [ih, List.mem_cons, exists_eq_or_imp, hn]
      simp
    | some j =>
      have ih := setBits_iff map l (Function.update b j true) i
      simp only [ih, List.mem_cons, exists_eq_or_imp, hn, Function.update_apply]
      by_cases hij : i = j
      · simp [hij]
      · have : ¬ j = i := fun h => hij h.symm
        simp [hij, this]

/-- Registered names have different numbers, all positive and at most the last one given. -/
structure Tags.Good (t : Tags) (regs : List String) : Prop where
  range : ∀ n i, t.map.lookup n = some i → 1 ≤ i ∧ i ≤ t.tagId
  inj : ∀ n m i, t.map.lookup n = some i → t.map.lookup m = some i → n = m
  known : ∀ n, (t.map.lookup n).isSome = true ↔ n ∈ regs

theorem lookup_cons_ite (n m : String) (i : Nat) (l : List (String × Nat)) :
    List.lookup n ((m, i) :: l) = if n = m then some i else l.lookup n := by
  rw [List.lookup_cons]
  by_cases h : n = m
  · simp [h]
  · have : (n == m) = false := by simpa using h
    simp [this, h]

theorem register_good {t t' : Tags} {regs : List String} (h : t.Good regs) {name : String} (hr : t.register name = some t') :
    t'.Good (name :: regs) ∧ t'.active = t.active ∧ t'.stash = t.stash := by
  unfold Tags.register at hr
  cases hl : t.map.lookup name with
  | some i =>
    rw [hl] at hr
    obtain rfl := Option.some.inj hr
    refine ⟨⟨h.range, h.inj, fun n => ?_⟩, rfl, rfl⟩
    rw [h.known, List.mem_cons]
    constructor
    · exact Or.inr
    · rintro (rfl | h')
      · exact (h.known n).1 (by rw [hl]; rfl)
      · exact h'
  | none =>
    rw [hl] at hr
    simp only at hr
    split at hr
    · obtain rfl := Option.some.inj hr
      refine ⟨⟨?_, ?_, ?_⟩, rfl, rfl⟩
      · intro n i hn
        simp only [lookup_cons_ite] at hn
        split at hn
        · simp at hn; simp [← hn]
        · have := h.range n i hn
          exact ⟨this.1, by simp only; omega⟩
      · intro n m i hn hm
        simp only [lookup_cons_ite] at hn hm
        split at hn <;> split at hm
        · rename_i a b; rw [a, b]
        · simp at hn; have := h.range m i hm; omega
        · simp at hm; have := h.range n i hn; omega
        · exact h.inj n m i hn hm
      · intro n
        simp only [lookup_cons_ite, List.mem_cons]
        split
        · rename_i hh; simp [hh]
        · rename_i hh; rw [h.known]; simp [hh]
    · simp at hr

theorem registers_good : ∀ (names : List String) {t t' : Tags} {regs : List String}, t.Good regs → names.foldlM Tags.register t = some t' →
    t'.Good (names.reverse ++ regs) ∧ t'.active = t.active ∧ t'.stash = t.stash
  | [], t, t', regs, h, hr => by
    simp at hr
    subst hr
    exact ⟨by simpa using h, rfl, rfl⟩
  | n :: names, t, t', regs, h, hr => by
    rw [List.foldlM_cons] at hr
    cases h1 : t.register n with
    | none => rw [h1] at hr; simp at hr
    | some t1 =>
      rw [h1] at hr
      have hg := register_good h h1
      have ih := registers_good names hg.1 hr
      exact ⟨by simpa using ih.1, ih.2.1.trans hg.2.1, ih.2.2.trans hg.2.2⟩

theorem good_new : Tags.new.Good [] := ⟨by simp [Tags.new], by simp [Tags.new], by simp [Tags.new]⟩

/-- Registering works as long as the numbers last. -/
theorem registers_some : ∀ (names : List String) {t : Tags} {regs : List String}, t.Good regs → names.Nodup → (∀ n ∈ names, n ∉ regs) →
    (t.tagId + names.length ≤ 63 → ∃ t', names.foldlM Tags.register t = some t' ∧ t'.tagId = t.tagId + names.length) ∧
    (t.tagId ≤ 63 → 63 < t.tagId + names.length → names.foldlM Tags.register t = none)
  | [], t, regs, h, _, _ => ⟨fun _ => ⟨t, rfl, rfl⟩, fun h1 h2 => by simp at h2; omega⟩
  | n :: names, t, regs, h, hd, hn => by
    have hl : t.map.lookup n = none := by
      cases hl : t.map.lookup n with
      | none => rfl
      | some i => exact absurd ((h.known n).1 (by rw [hl]; rfl)) (hn n (by simp))
    rw [List.foldlM_cons]
    by_cases hlt : t.tagId + 1 < 64
    · have hr : t.register n = some { t with map := (n, t.tagId + 1) :: t.map, tagId := t.tagId + 1 } := by
        unfold Tags.register; rw [hl]; simp [hlt]
      have ih := registers_some names (register_good h hr).1 (List.nodup_cons.1 hd).2 (fun m hm => by
        simp only [List.mem_cons, not_or]
        exact ⟨fun h' => (List.nodup_cons.1 hd).1 (h' ▸ hm), hn m (by simp [hm])⟩)
      rw [hr]
      simp only [Option.bind_eq_bind, Option.bind_some, List.length_cons] at ih ⊢
      refine ⟨fun hle => ?_, fun h1 h2 => ih.2 (by omega) (by omega)⟩
      obtain ⟨t', h1, h2⟩ := ih.1 (by omega)
      exact ⟨t', h1, by omega⟩
    · have hr : t.register n = none := by
        unfold Tags.register; rw [hl]; simp [hlt]
      rw [hr]
      exact ⟨fun hle => by simp at hle; omega, fun _ _ => rfl⟩

/-- Entering and leaving guards. -/
def guard (t : Tags) : Option String → Option Tags
  | some n => some (t.enter n)
  | none => t.leave

theorem guards_spec : ∀ (ev : List (Option String)) (st st' : List String) (t : Tags), openGuards ev st = some st' →
    t.active :: t.stash = st.map t.lookup ++ [0] →
    ∃ t', ev.foldlM guard t = some t' ∧ t'.active :: t'.stash = st'.map t.lookup ++ [0] ∧ t'.map = t.map ∧ t'.bits = t.bits ∧
      t'.initialized = t.initialized
  | [], st, st', t, h, ht => by
    simp [openGuards] at h
    subst h
    exact ⟨t, rfl, ht, rfl, rfl, rfl⟩
  | some n :: ev, st, st', t, h, ht => by
    obtain ⟨t', h1, h2, h3, h4, h5⟩ := guards_spec ev (n :: st) st' (t.enter n) h (by
      simp only [Tags.enter, List.map_cons, List.cons_append]
      rw [show (t.active :: t.stash) = st.map t.lookup ++ [0] from ht]
      rfl)
    exact ⟨t', by simpa [guard] using h1, h2, h3, h4, h5⟩
  | none :: ev, [], st', t, h, ht => by simp [openGuards] at h
  | none :: ev, m :: st, st', t, h, ht => by
    simp only [List.map_cons, List.cons_append, List.cons.injEq] at ht
    cases hs : t.stash with
    | nil => rw [hs] at ht; simp at ht
    | cons a l =>
      have hl : t.leave = some { t with active := a, stash := l } := by unfold Tags.leave; rw [hs]
      obtain ⟨t', h1, h2, h3, h4, h5⟩ := guards_spec ev st st' { t with active := a, stash := l } h (by
        simp only; rw [← hs, ht.2]; rfl)
      exact ⟨t', by simpa [guard, hl] using h1, h2, h3, h4, h5⟩

end FleCSPH.Log
