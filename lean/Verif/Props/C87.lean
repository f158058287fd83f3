import Verif.Lemmas.Log
/-!
C87. Every output of the log that is switched on receives the texts written; outputs without colours receive them without the colour codes
(include/log.h).
-/
namespace FleCSPH.Log
open LogSpec

/-- How the operations of the specification are done: `log_add_buffer`, `log_enable_buffer`, `log_disable_buffer` (log.h:1386-1420) and insertion. -/
def perform (t : Tee) : Op → Option Tee
  | .add key old c => some (t.add key old c)
  | .enable key => some (t.enable key)
  | .disable key => some (t.disable key)
  | .write s => t.put (full s)

/-- An output of the specification as an entry of the log. -/
def entry (o : Output) : Buffer := ⟨o.on, o.colours, some o.text⟩

private theorem perform_spec : ∀ (ops : List Op) (known : List String) (t : Tee) (spec : String → Option Output),
    Proper known ops → t.Sound → t.test = [] → (∀ k, t.buffers.lookup k = (spec k).map entry) → (∀ k ∈ known, (spec k).isSome = true) →
    ∃ t', ops.foldlM perform t = some t' ∧ t'.test = [] ∧ ∀ k, t'.buffers.lookup k = (outputOf k ops (spec k)).map entry
  | [], _, t, spec, _, _, ht, hl, _ => ⟨t, rfl, ht, hl⟩
  | .add key old c :: ops, known, t, spec, hp, hs, ht, hl, hk => by
    have step := fun hA hB hC => perform_spec ops (key :: known) (t.add key old c) (fun k => (Op.add key old c).effect k (spec k)) hp hA ht hB hC
    obtain ⟨t', h1, h2, h3⟩ := step (by
        intro kb hkb
        rcases mem_alter hkb with h | h
        · exact hs kb h
        · rw [h.1]; rfl) (by
        intro k
        simp only [Tee.add, lookup_alter, Op.effect]
        by_cases h : k = key
        · subst h; simp [entry]
        · rw [if_neg h, if_neg (fun h' => h h'.symm), hl]) (by
        intro k hk'
        simp only [Op.effect]
        split
        · rfl
        · rename_i hne
          rcases List.mem_cons.1 hk' with h | h
          · exact absurd h.symm hne
          · exact hk k h)
    exact ⟨t', by simpa [perform] using h1, h2, h3⟩
  | .enable key :: ops, known, t, spec, hp, hs, ht, hl, hk => by
    obtain ⟨o, ho⟩ := Option.isSome_iff_exists.1 (hk key hp.1)
    have hlk : t.buffers.lookup key = some (entry o) := by rw [hl, ho]; rfl
    have step := fun hA hB hC => perform_spec ops known (t.enable key) (fun k => (Op.enable key).effect k (spec k)) hp.2 hA ht hB hC
    obtain ⟨t', h1, h2, h3⟩ := step (by
        intro kb hkb
        rcases mem_alter hkb with h | h
        · exact hs kb h
        · rw [h.1, hlk]; rfl) (by
        intro k
        simp only [Tee.enable, lookup_alter, Op.effect]
        by_cases h : k = key
        · subst h; simp [hlk, ho, entry]
        · rw [if_neg h, if_neg (fun h' => h h'.symm), hl]) (by
        intro k hk'
        simp only [Op.effect]
        split
        · simpa using hk k hk'
        · exact hk k hk')
    exact ⟨t', by simpa [perform] using h1, h2, h3⟩
  | .disable key :: ops, known, t, spec, hp, hs, ht, hl, hk => by
    obtain ⟨o, ho⟩ := Option.isSome_iff_exists.1 (hk key hp.1)
    have hlk : t.buffers.lookup key = some (entry o) := by rw [hl, ho]; rfl
    have step := fun hA hB hC => perform_spec ops known (t.disable key) (fun k => (Op.disable key).effect k (spec k)) hp.2 hA ht hB hC
    obtain ⟨t', h1, h2, h3⟩ := step (by
        intro kb hkb
        rcases mem_alter hkb with h | h
        · exact hs kb h
        · rw [h.1, hlk]; rfl) (by
        intro k
        simp only [Tee.disable, lookup_alter, Op.effect]
        by_cases h : k = key
        · subst h; simp [hlk, ho, entry]
        · rw [if_neg h, if_neg (fun h' => h h'.symm), hl]) (by
        intro k hk'
        simp only [Op.effect]
        split
        · simpa using hk k hk'
        · exact hk k hk')
    exact ⟨t', by simpa [perform] using h1, h2, h3⟩
  | .write s :: ops, known, t, spec, hp, hs, ht, hl, hk => by
    have hput := put_full s hs.usable ht hp.1
    have step := fun hA hB hC => perform_spec ops known ⟨applied (full s) (bare s) t.buffers, []⟩ (fun k => (Op.write s).effect k (spec k)) hp.2 hA rfl hB hC
    obtain ⟨t', h1, h2, h3⟩ := step (by
        intro kb hkb
        simp only [applied, List.mem_map] at hkb
        obtain ⟨kb', hm, rfl⟩ := hkb
        simpa [after_isSome] using hs kb' hm) (by
        intro k
        simp only [lookup_applied, hl, Op.effect]
        cases hsk : spec k with
        | none => rfl
        | some o =>
          obtain ⟨on, col, txt⟩ := o
          cases on <;> cases col <;> simp [entry, after]) (by
        intro k hk'
        simpa [Op.effect] using hk k hk')
    exact ⟨t', by simpa [perform, hput] using h1, h2, h3⟩

/-- **C87.** For every history of adding outputs, switching them on and off, and writing texts, every output holds exactly what was written while it
was switched on, with the colour codes if it was added with colours, without them otherwise. Partial: outputs are switched only after they were added
(see `C87_unknown_violated`), and the escape character occurs in the texts only within colour codes (see `C87_escape_violated`). -/
theorem C87_outputs_partial (clog : List Char) (ops : List Op) (hops : Proper ["log"] ops) :
    ∃ t, ops.foldlM perform (Tee.initial clog) = some t ∧ t.test = [] ∧
      ∀ key, t.buffers.lookup key = (outputOf key ops (if key = "log" then some ⟨true, true, clog⟩ else none)).map entry := by
  refine perform_spec ops ["log"] (Tee.initial clog) _ hops ?_ rfl ?_ ?_
  · intro kb hkb
    simp [Tee.initial, Tee.add, alter] at hkb
    simp [hkb]
  · intro k
    by_cases h : k = "log"
    · subst h; simp [Tee.initial, Tee.add, alter, entry]
    · have : (k == "log") = false := by simpa using h
      simp [Tee.initial, Tee.add, alter, List.lookup_cons, this, h]
  · intro k hk
    simp at hk
    simp [hk]

/-- A file without colours is added, a warning is written, the file is switched off, something else is written. -/
example : ∃ t, [Op.add "file" "old ".toList false, .write [.code true '3', .char 'h', .char 'i', .reset], .disable "file", .write [.char '!']].foldlM
      perform (Tee.initial []) = some t ∧
    t.buffers.lookup "file" = some ⟨false, false, some "old hi".toList⟩ ∧ t.buffers.lookup "log" = some ⟨true, true, some "\x1b[1;33mhi\x1b[0m!".toList⟩ := by
  obtain ⟨t, h1, -, h3⟩ := C87_outputs_partial [] [Op.add "file" "old ".toList false, .write [.code true '3', .char 'h', .char 'i', .reset],
    .disable "file", .write [.char '!']] (by simp [Proper, Piece.Ok])
  refine ⟨t, h1, ?_, ?_⟩
  · rw [h3]; rfl
  · rw [h3]; rfl

/-- For any text whatsoever: nothing is withheld but the beginning of a colour code at the very end, outputs with colours receive the rest unchanged,
from outputs without colours only complete colour codes are taken out, and outputs which are switched off receive nothing. -/
theorem C87_any_text (t : Tee) (s : Text) (hu : ∀ kb ∈ t.buffers, kb.2.enabled = true → kb.2.sink.isSome = true) (ht : t.test = []) :
    ∃ shown bareText withheld, t.put s = some ⟨t.buffers.map (fun kb => (kb.1,
        if kb.2.enabled then { kb.2 with sink := kb.2.sink.map (· ++ if kb.2.colorized then shown else bareText) } else kb.2)), withheld⟩ ∧
      shown ++ withheld = s ∧ Removed shown bareText ∧ withheld.length ≤ 6 ∧ (withheld = [] ∨ withheld.head? = some '\x1b') := by
  obtain ⟨x, y, z, h1, h2, h3, h4⟩ := put_any s (t := t) hu (by rw [ht]; trivial)
  refine ⟨x, y, z, h1, by simpa [ht] using h3, h4, ?_⟩
  match z, h2 with
  | [], _ => simp
  | [a], h => exact ⟨by simp, .inr (congrArg some h)⟩
  | [a, b], h => exact ⟨by simp, .inr (congrArg some h.1)⟩
  | [a, b, c], h => exact ⟨by simp, .inr (congrArg some h.1)⟩
  | [a, b, c, d], h => exact ⟨by simp, .inr (congrArg some h.1)⟩
  | [a, b, c, d, e], h => exact ⟨by simp, .inr (congrArg some h.1)⟩
  | [a, b, c, d, e, f], h => exact ⟨by simp, .inr (congrArg some h.1)⟩

/-- A text with an escape character that belongs to no code. -/
example : ((Tee.initial []).add "file" [] false).put "a\x1bb\x1b[0mc\x1b[1;".toList =
    some ⟨[("log", ⟨true, true, some "a\x1bb\x1b[0mc".toList⟩), ("file", ⟨true, false, some "a\x1bbc".toList⟩)], "\x1b[1;".toList⟩ := by decide +kernel

/-- The property fails for texts with other escape characters: after one, the colour code that follows stays in outputs without colours. -/
theorem C87_escape_violated (t : Tee) (bold : Bool) (n : Char) (hn : n ≠ '\x1b') (hu : ∀ kb ∈ t.buffers, kb.2.enabled = true → kb.2.sink.isSome = true)
    (ht : t.test = []) :
    t.put ('\x1b' :: full [.code bold n]) = some ⟨t.buffers.map (fun kb => (kb.1,
        if kb.2.enabled then { kb.2 with sink := kb.2.sink.map (· ++ '\x1b' :: full [.code bold n]) } else kb.2)), []⟩ := by
  obtain ⟨bufs, test⟩ := t
  simp only at ht
  subst ht
  have hU : (⟨bufs, []⟩ : Tee).Usable := hu
  have h0 : (⟨bufs, []⟩ : Tee).put ['\x1b', '\x1b'] = some ⟨applied ['\x1b', '\x1b'] ['\x1b', '\x1b'] bufs, []⟩ := by
    have h := flush_all (t := ⟨bufs, ['\x1b', '\x1b']⟩) hU
    simp only [put_cons, Tee.overflow, List.length_nil, List.nil_append, esc, if_true, Option.bind_some, List.length_cons, Nat.zero_add, List.cons_append]
    rw [if_neg (by decide), h]; rfl
  have h1 : ('\x1b' :: full [.code bold n]) = ['\x1b', '\x1b'] ++ full [.char '[', .char (if bold then '1' else '0'), .char ';', .char '3', .char n,
      .char 'm'] := by simp [full, Piece.full]
  rw [h1, put_append, h0, Option.bind_some, put_full _ (usable_applied hU _ _ _) rfl, applied_applied]
  · congr 2
    simp only [applied, after, bare, full, List.flatMap_cons, Piece.bare, Piece.full, List.flatMap_nil]
    congr 1
    funext kb
    split <;> simp
  · intro x hx
    simp at hx
    rcases hx with rfl | rfl | rfl | rfl | rfl | rfl
    · simp [Piece.Ok]
    · cases bold <;> simp [Piece.Ok]
    · simp [Piece.Ok]
    · simp [Piece.Ok]
    · exact hn
    · simp [Piece.Ok]

/-- Switching on an output that was never added makes an entry without output: the next character written dereferences a null pointer; switching off
an unknown output does so at the next flush of the stream. -/
theorem C87_unknown_violated :
    (∀ (t : Tee) (key : String), t.buffers.lookup key = none → (t.enable key).flush allBuffers = none) ∧
    (∀ (t : Tee) (key : String), t.buffers.lookup key = none → (t.disable key).sync = none) := by
  have halter : ∀ (f : Buffer → Buffer) (key : String) (l : List (String × Buffer)), l.lookup key = none →
      (key, f ⟨false, false, none⟩) ∈ alter f key l := by
    intro f key l
    induction l with
    | nil => simp [alter]
    | cons kb l ih =>
      intro h
      obtain ⟨k, b⟩ := kb
      rw [List.lookup_cons] at h
      cases hk : key == k
      · rw [hk] at h
        have : ¬ k = key := fun h' => by simp [h'] at hk
        simp only [alter, this, if_false, List.mem_cons]
        exact .inr (ih h)
      · rw [hk] at h; simp at h
  have hnone : ∀ (g : String × Buffer → Option (String × Buffer)) (l : List (String × Buffer)), (∃ kb ∈ l, g kb = none) → l.mapM g = none := by
    intro g l
    induction l with
    | nil => simp
    | cons a l ih =>
      rintro ⟨kb, hm, hg⟩
      rw [List.mapM_cons]
      rcases List.mem_cons.1 hm with rfl | h
      · rw [hg]; rfl
      · rw [ih ⟨kb, h, hg⟩]
        cases g a <;> rfl
  constructor
  · intro t key h
    unfold Tee.flush
    have hm := halter (fun b => { b with enabled := true }) key t.buffers h
    have h2 := hnone (fun kb => Option.map (fun b => (kb.1, b)) (writeTo allBuffers (t.enable key).test kb.2)) (t.enable key).buffers
      ⟨_, hm, by simp [writeTo, allBuffers]⟩
    rw [h2]
    rfl
  · intro t key h
    have hm := halter (fun b => { b with enabled := false }) key t.buffers h
    unfold Tee.sync
    rw [if_neg]
    intro hall
    have := List.all_eq_true.1 hall _ hm
    simp at this

example : ((Tee.initial []).enable "lgo").put ['x'] = none := by decide +kernel
example : ((Tee.initial []).disable "lgo").sync = none := by decide +kernel

end FleCSPH.Log
