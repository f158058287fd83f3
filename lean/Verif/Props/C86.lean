import Verif.Lemmas.Log
import Mathlib.Data.List.Nodup
/-!
C86. A log message appears once, on the rank asked for, if its severity and its tag are enabled (include/log.h).
-/
namespace FleCSPH.Log
open LogSpec

/-- `log_one` or `log_rank`. -/
def formOf : Option Nat → Form
  | none => .one
  | some k => .rank k

/-- The statement `log_one(…) << text` or `log_rank(…, k) << text` on one process. -/
def say (o : Options) (digits : Nat → Text) (p : Proc) (c : Call) : Option Proc :=
  (p.message o digits (formOf c.target) (if c.isInfo then .info else .trace) c.stamp (full c.text)).map (·.1)

/-- The state of rank `r` when messages are printed: output rank `a`; logging was started with `log_init`, or (as in every program of the project) not. -/
def begun (r a : Nat) (clog : Text) (tags : Option String) : Proc :=
  ((match tags with | none => Proc.start r clog | some s => (Proc.start r clog).init s)).setOutputRank a

private theorem chars_ok {s : Text} (h : '\x1b' ∉ s) : ∀ x ∈ chars s, x.Ok := by
  intro x hx
  simp only [chars, List.mem_map] at hx
  obtain ⟨c, hc, rfl⟩ := hx
  exact fun h' => h (h' ▸ hc)

private theorem full_append (s s' : List Piece) : full (s ++ s') = full s ++ full s' := by simp [full]

private theorem full_chars (s : Text) : full (chars s) = s := by
  induction s with
  | nil => rfl
  | cons c s ih => simp only [chars, full, List.map_cons, List.flatMap_cons, Piece.full] at ih ⊢; simp [ih]

private theorem full_code (b : Bool) (n : Char) : full [.code b n] = colour b n := by simp [full, Piece.full, colour, esc]
private theorem full_reset : full [.reset] = colourPlain := by simp [full, Piece.full, colourPlain, esc]

private theorem full_line (letter col : Char) (stamp rank : Text) (text : List Piece) :
    full (line letter col stamp rank text) = output false col ['[', letter] ++ output false '7' stamp ++ output true '0' ([' ', 'r'] ++ rank) ++
      output false col [']', ' '] ++ full text := by
  simp only [line, full_append, full_chars, full_code, full_reset, output, List.append_assoc]

private theorem line_ok {letter col : Char} {stamp rank : Text} {text : List Piece} (hl : letter ≠ '\x1b')
    (hc : col ∈ ['0', '1', '2', '3', '4', '5', '6', '7']) (hs : '\x1b' ∉ stamp) (hr : '\x1b' ∉ rank) (ht : ∀ x ∈ text, x.Ok) :
    ∀ x ∈ line letter col stamp rank text, x.Ok := by
  intro x hx
  simp only [line, List.mem_append, List.mem_cons, List.not_mem_nil, or_false] at hx
  rcases hx with (((((((((((h | h) | h) | h) | h) | h) | h) | h) | h) | h) | h) | h) | h
  · subst h; exact hc
  · exact chars_ok (by simp [Ne.symm hl]) x h
  · subst h; trivial
  · subst h; simp [Piece.Ok]
  · exact chars_ok hs x h
  · subst h; trivial
  · subst h; simp [Piece.Ok]
  · exact chars_ok (by simpa using hr) x h
  · subst h; trivial
  · subst h; exact hc
  · exact chars_ok (by simp) x h
  · subst h; trivial
  · exact ht x h

private theorem message_put (o : Options) (digits : Nat → Text) (rank activeRank stateRank : Nat) (mpiReady : Bool) (tags : Tags) (tee : Tee) (cerr : Text)
    (f : Form) (hf : f.sendToOne = false) (sev : Severity) (hs : sev = .trace ∨ sev = .info) (stamp text : Text) :
    (⟨rank, activeRank, stateRank, mpiReady, tags, [], tee, cerr⟩ : Proc).message o digits f sev stamp text =
      (tee.put (if o.strip < sev.level ∧ f.predicate ⟨rank, activeRank, stateRank, mpiReady, tags, [], tee, cerr⟩ = true ∧ tags.enabled o = true
        then header sev stamp (digits stateRank) ++ text else [])).map fun t => (⟨rank, activeRank, stateRank, mpiReady, tags, [], t, cerr⟩, none) := by
  unfold Proc.message
  rcases hs with rfl | rfl
  · by_cases h : o.strip < Severity.trace.level ∧ f.predicate ⟨rank, activeRank, stateRank, mpiReady, tags, [], tee, cerr⟩ = true ∧ tags.enabled o = true
    · simp [hf, h.1, h.2.1, h.2.2]
    · have h' : (decide (o.strip < Severity.trace.level) && f.predicate ⟨rank, activeRank, stateRank, mpiReady, tags, [], tee, cerr⟩ && tags.enabled o) = false := by
        rw [← Bool.not_eq_true]
        simpa [and_assoc] using h
      simp [hf, h, h']
  · by_cases h : o.strip < Severity.info.level ∧ f.predicate ⟨rank, activeRank, stateRank, mpiReady, tags, [], tee, cerr⟩ = true ∧ tags.enabled o = true
    · simp [hf, h.1, h.2.1, h.2.2]
    · have h' : (decide (o.strip < Severity.info.level) && f.predicate ⟨rank, activeRank, stateRank, mpiReady, tags, [], tee, cerr⟩ && tags.enabled o) = false := by
        rw [← Bool.not_eq_true]
        simpa [and_assoc] using h
      simp [hf, h, h']

private theorem say_spec {o : Options} (ho : o.tags = false) {digits : Nat → Text} (hd : ∀ n, '\x1b' ∉ digits n) {p : Proc} {c : Call} (hc : c.Ok)
    {clog : Text} (ht : p.tee = ⟨[("log", ⟨true, true, some clog⟩)], []⟩) (hb : p.buf = []) :
    say o digits p c = some { p with tee := ⟨[("log", ⟨true, true, some (clog ++ full (c.expected o.strip p.activeRank p.rank (digits p.stateRank)))⟩)], []⟩ } := by
  have hu : p.tee.Usable := by rw [ht]; intro kb hkb; simp at hkb; simp [hkb]
  have hen : p.tags.enabled o = true := by simp [Tags.enabled, ho]
  have hput : ∀ s : List Piece, (∀ x ∈ s, x.Ok) → p.tee.put (full s) = some ⟨[("log", ⟨true, true, some (clog ++ full s)⟩)], []⟩ := by
    intro s hs
    rw [put_full s hu (by rw [ht]) hs, ht]
    simp [applied, after]
  obtain ⟨rank, activeRank, stateRank, mpiReady, tags, buf, tee, cerr⟩ := p
  simp only at hb hen hput
  subst hb
  have hexp : ∀ x ∈ c.expected o.strip activeRank rank (digits stateRank), x.Ok := by
    have h1 := line_ok (letter := 'I') (col := '2') (by decide) (by simp) hc.1 (hd stateRank) hc.2
    have h2 := line_ok (letter := 'T') (col := '6') (by decide) (by simp) hc.1 (hd stateRank) hc.2
    unfold Call.expected
    repeat' split
    all_goals first | exact h1 | exact h2 | simp
  obtain ⟨target, isInfo, stamp, text⟩ := c
  obtain ⟨f, hfdef⟩ : ∃ f, formOf target = f := ⟨_, rfl⟩
  have hf1 : f.sendToOne = false := by subst hfdef; cases target <;> rfl
  have hf2 : f.predicate ⟨rank, activeRank, stateRank, mpiReady, tags, [], tee, cerr⟩ = true ↔ rank = target.getD activeRank := by
    subst hfdef; cases target <;> simp [formOf, Form.predicate]
  have hsay : say o digits ⟨rank, activeRank, stateRank, mpiReady, tags, [], tee, cerr⟩ ⟨target, isInfo, stamp, text⟩ =
      (tee.put (full (Call.expected o.strip activeRank rank (digits stateRank) ⟨target, isInfo, stamp, text⟩))).map fun t =>
        ⟨rank, activeRank, stateRank, mpiReady, tags, [], t, cerr⟩ := by
    unfold say
    simp only
    rw [hfdef, message_put o digits _ _ _ _ _ _ _ f hf1 _ (by cases isInfo <;> simp)]
    have harg : (if o.strip < (if isInfo = true then Severity.info else Severity.trace).level ∧
        f.predicate ⟨rank, activeRank, stateRank, mpiReady, tags, [], tee, cerr⟩ = true ∧ tags.enabled o = true
        then header (if isInfo = true then Severity.info else Severity.trace) stamp (digits stateRank) ++ full text else []) =
        full (Call.expected o.strip activeRank rank (digits stateRank) ⟨target, isInfo, stamp, text⟩) := by
      unfold Call.expected
      simp only [hen, hf2, and_true]
      cases isInfo
      · by_cases h : rank = target.getD activeRank ∧ o.strip < 1
        · simp [Severity.level, h.2, ← h.1, full_line, header]
        · have h2 : ¬ (o.strip < 1 ∧ rank = target.getD activeRank) := fun h' => h ⟨h'.2, h'.1⟩
          simp only [Bool.false_eq_true, if_false, Severity.level, if_neg h, if_neg h2]
          rfl
      · by_cases h : rank = target.getD activeRank ∧ o.strip < 2
        · simp [Severity.level, h.2, ← h.1, full_line, header]
        · have h2 : ¬ (o.strip < 2 ∧ rank = target.getD activeRank) := fun h' => h ⟨h'.2, h'.1⟩
          simp only [if_true, Severity.level, if_neg h, if_neg h2]
          rfl
    rw [harg]
    cases tee.put (full (Call.expected o.strip activeRank rank (digits stateRank) ⟨target, isInfo, stamp, text⟩)) <;> rfl
  rw [hsay, hput _ hexp]
  rfl

private theorem says_spec {o : Options} (ho : o.tags = false) {digits : Nat → Text} (hd : ∀ n, '\x1b' ∉ digits n) : ∀ (calls : List Call) (p : Proc)
    (clog : Text), (∀ c ∈ calls, c.Ok) → p.tee = ⟨[("log", ⟨true, true, some clog⟩)], []⟩ → p.buf = [] →
    calls.foldlM (say o digits) p = some { p with tee := ⟨[("log", ⟨true, true,
      some (clog ++ full (calls.flatMap (Call.expected o.strip p.activeRank p.rank (digits p.stateRank))))⟩)], []⟩ }
  | [], p, clog, _, ht, _ => by
    have : full ([] : List Piece) = [] := rfl
    simp [this, ← ht]
  | c :: calls, p, clog, hc, ht, hb => by
    rw [List.foldlM_cons, say_spec ho hd (hc c (by simp)) ht hb]
    simp only [Option.bind_eq_bind, Option.bind_some]
    have ih := says_spec ho hd calls { p with tee := ⟨[("log", ⟨true, true,
      some (clog ++ full (c.expected o.strip p.activeRank p.rank (digits p.stateRank)))⟩)], []⟩ } _ (fun c' hc' => hc c' (by simp [hc'])) rfl hb
    rw [ih]
    simp only [List.flatMap_cons, full_append, List.append_assoc]

/-- **C86.** For every sequence of messages of severity trace or info for one rank (`log_one`, `log_rank`), every rank prints on its console
exactly the messages meant for it which are not left out by the strip level, one line each with severity, time, place and rank, in the order of the
calls, and nothing on its error stream. Partial: warnings and errors behave differently (`C86_warn_violated`, `C86_error_violated`); the rank printed
is right only after `log_init` (`C86_rank_violated`); tags are not compiled in, as in the build of the project (`C86_tags_partial` otherwise). -/
theorem C86_one_partial (o : Options) (ho : o.tags = false) (digits : Nat → Text) (hd : ∀ n, '\x1b' ∉ digits n) (r a : Nat) (clog : Text)
    (tags : Option String) (calls : List Call) (hc : ∀ c ∈ calls, c.Ok) :
    ∃ p, calls.foldlM (say o digits) (begun r a clog tags) = some p ∧ p.cerr = [] ∧
      p.tee.buffers.lookup "log" = some ⟨true, true, some (clog ++ full (calls.flatMap
        (Call.expected o.strip a r (digits (if tags.isSome then r else 0)))))⟩ := by
  refine ⟨_, says_spec ho hd calls (begun r a clog tags) clog hc ?_ ?_, ?_, ?_⟩
  · cases tags <;> rfl
  · cases tags <;> rfl
  · cases tags <;> rfl
  · cases tags <;> rfl

/-- Of any number of ranks exactly one prints something for a message which is not left out. -/
theorem C86_exactly_one (o : Options) (ho : o.tags = false) (digits : Nat → Text) (hd : ∀ n, '\x1b' ∉ digits n) (a : Nat) (clog : Nat → Text)
    (tags : Option String) (c : Call) (hc : c.Ok) (hs : o.strip < if c.isInfo then 2 else 1) (r : Nat) :
    ∃ p, say o digits (begun r a (clog r) tags) c = some p ∧
      (p.tee.buffers.lookup "log" ≠ some ⟨true, true, some (clog r)⟩ ↔ r = c.target.getD a) := by
  obtain ⟨p, h1, -, h3⟩ := C86_one_partial o ho digits hd r a (clog r) tags [c] (by simpa using hc)
  refine ⟨p, by simpa using h1, ?_⟩
  rw [h3]
  simp only [List.flatMap_cons, List.flatMap_nil, List.append_nil, ne_eq, Option.some.injEq, Buffer.mk.injEq, true_and, List.append_right_eq_self]
  unfold Call.expected
  by_cases hr : r = c.target.getD a
  · simp only [hr, true_and, hs, if_true, iff_true]
    split <;> simp [line, full, Piece.full]
  · simp [hr, full]

example : ∃ p, [⟨none, true, "1116 15:00:00 a.cc:7".toList, chars "hello\n".toList⟩, ⟨some 2, false, "1116 15:00:01 a.cc:9".toList, chars "two\n".toList⟩].foldlM
      (say ⟨0, false, false⟩ (fun n => (toString n).toList)) (begun 1 1 [] none) = some p ∧
    p.tee.buffers.lookup "log" = some ⟨true, true, some
      "\x1b[0;32m[I\x1b[0m\x1b[0;37m1116 15:00:00 a.cc:7\x1b[0m\x1b[1;30m r0\x1b[0m\x1b[0;32m] \x1b[0mhello\n".toList⟩ := by
  refine ⟨_, rfl, ?_⟩
  decide +kernel

/-- The rank in the line is not the rank of the process unless `log_init` was called: rank 3 prints `r0`. No program of the project calls it. -/
theorem C86_rank_violated : ∃ p, say ⟨0, false, false⟩ (fun n => (toString n).toList) (begun 3 3 [] none)
      ⟨none, true, "t".toList, chars "x".toList⟩ = some p ∧ p.rank = 3 ∧
    p.tee.buffers.lookup "log" = some ⟨true, true, some "\x1b[0;32m[I\x1b[0m\x1b[0;37mt\x1b[0m\x1b[1;30m r0\x1b[0m\x1b[0;32m] \x1b[0mx".toList⟩ := by
  refine ⟨_, rfl, rfl, ?_⟩
  decide +kernel

/-- A warning for one rank writes on the console of every other rank as well, a code that switches colours off; so does one left out by the strip
level. -/
theorem C86_warn_violated (o : Options) (digits : Nat → Text) (r a : Nat) (hr : r ≠ a) (clog stamp text : Text) (tags : Option String) :
    ∃ p, (begun r a clog tags).message o digits .one .warn stamp text = some (p, none) ∧
      p.tee.buffers.lookup "log" = some ⟨true, true, some (clog ++ "\x1b[0m".toList)⟩ := by
  have hra : (r == a) = false := by simpa using hr
  have hput := put_full [.reset] (t := Tee.initial clog) (by intro kb hkb; simp [Tee.initial, Tee.add, alter] at hkb; simp [hkb]) rfl (by simp [Piece.Ok])
  rw [full_reset] at hput
  have hlog : (applied colourPlain (bare [Piece.reset]) (Tee.initial clog).buffers).lookup "log" = some ⟨true, true, some (clog ++ "\x1b[0m".toList)⟩ := rfl
  cases tags with
  | none =>
    refine ⟨{ begun r a clog none with tee := ⟨applied colourPlain (bare [Piece.reset]) (Tee.initial clog).buffers, []⟩ }, ?_, hlog⟩
    simp [Proc.message, begun, Proc.setOutputRank, Proc.start, Form.predicate, hra, Form.sendToOne, hput]
  | some s =>
    refine ⟨{ begun r a clog (some s) with tee := ⟨applied colourPlain (bare [Piece.reset]) (Tee.initial clog).buffers, []⟩ }, ?_, hlog⟩
    simp [Proc.message, begun, Proc.setOutputRank, Proc.start, Proc.init, Form.predicate, hra, Form.sendToOne, hput]

example : ∃ p, (begun 1 0 "old".toList none).message ⟨0, false, false⟩ (fun _ => []) .one .warn [] "w".toList = some (p, none) ∧
    p.tee.buffers.lookup "log" = some ⟨true, true, some ("old".toList ++ "\x1b[0m".toList)⟩ := C86_warn_violated _ _ 1 0 (by decide) _ _ _ _

/-- An error for one rank is printed by every rank on its error stream, whatever the strip level, the rank asked for and the tags; the code which
switches the colour off goes to another stream, the console, so the error stream is left in colour. -/
theorem C86_error_violated (o : Options) (digits : Nat → Text) (r a : Nat) (clog stamp text : Text) :
    ∃ p, (begun r a clog none).message o digits .one .error stamp text = some (p, none) ∧
      p.cerr = header .error stamp (digits 0) ++ text ∧ p.tee.buffers.lookup "log" = some ⟨true, true, some (clog ++ "\x1b[0m".toList)⟩ := by
  have hput := put_full [.reset] (t := Tee.initial clog) (by intro kb hkb; simp [Tee.initial, Tee.add, alter] at hkb; simp [hkb]) rfl (by simp [Piece.Ok])
  rw [full_reset] at hput
  refine ⟨{ begun r a clog none with
      cerr := header .error stamp (digits 0) ++ text, tee := ⟨applied colourPlain (bare [Piece.reset]) (Tee.initial clog).buffers, []⟩ }, ?_, rfl, rfl⟩
  simp [Proc.message, begun, Proc.setOutputRank, Proc.start, Form.sendToOne, hput]

/-- Messages for all ranks (`logm`) of severity trace, info and warn print nothing and hand over nothing unless `log_init` was called. -/
theorem C86_all_violated (o : Options) (digits : Nat → Text) (r a : Nat) (clog stamp text : Text) (sev : Severity) (hsev : sev ≠ .error) :
    (begun r a clog none).message o digits .all sev stamp text = some (begun r a clog none, none) := by
  cases sev
  case error => exact absurd rfl hsev
  all_goals
    simp only [Proc.message, begun, Proc.setOutputRank, Proc.start, Form.predicate, Form.sendToOne, reduceCtorEq, if_false, or_self, true_or, if_true,
      Bool.and_true, List.nil_append, Bool.false_eq_true]
    split <;> rfl

/-- After `log_init` every rank hands over the line of the message, which `C88` follows; the process is as before. -/
theorem C86_all (o : Options) (ho : o.tags = false) (digits : Nat → Text) (r a : Nat) (clog stamp : Text) (text : List Piece) (s : String) :
    (o.strip < 1 → (begun r a clog (some s)).message o digits .all .trace stamp (full text) =
      some (begun r a clog (some s), some (full (line 'T' '6' stamp (digits r) text)))) ∧
    (o.strip < 2 → (begun r a clog (some s)).message o digits .all .info stamp (full text) =
      some (begun r a clog (some s), some (full (line 'I' '2' stamp (digits r) text)))) ∧
    (o.strip < 3 → (begun r a clog (some s)).message o digits .all .warn stamp (full text) =
      some (begun r a clog (some s), some (full (line 'W' '3' stamp (digits r) (.code true '3' :: text ++ [.reset]))))) := by
  refine ⟨fun h => ?_, fun h => ?_, fun h => ?_⟩
  · simp [Proc.message, begun, Proc.setOutputRank, Proc.start, Proc.init, Form.predicate, Form.sendToOne, Severity.level, h, Tags.enabled, ho, header, full_line]
  · simp [Proc.message, begun, Proc.setOutputRank, Proc.start, Proc.init, Form.predicate, Form.sendToOne, Severity.level, h, Tags.enabled, ho, header, full_line]
  · have h1 : full (.code true '3' :: text ++ [.reset]) = colour true '3' ++ (full text ++ colourPlain) := by
      rw [full_append, full_reset]
      simp [full, Piece.full, colour, esc]
    rw [List.cons_append] at h1
    simp [Proc.message, begun, Proc.setOutputRank, Proc.start, Proc.init, Form.predicate, Form.sendToOne, Severity.level, h, Tags.enabled, ho, header,
      full_line, h1]

/-! ### Tags -/

/-- Tags compiled in, before logging was started: whatever tags were registered and whatever guards are open, messages are let through exactly if the build lets messages through from outside. -/
theorem C86_before_start (o : Options) (ho : o.tags = true) (regs : List String) (t : Tags) (ht : regs.foldlM Tags.register Tags.new = some t)
    (ev : List (Option String)) (st : List String) (hev : openGuards ev [] = some st) : ∃ t', ev.foldlM guard t = some t' ∧ t'.enabled o = o.external := by
  obtain ⟨-, hact, hsta⟩ := registers_good regs good_new ht
  obtain ⟨t', h1, -, -, -, h5⟩ := guards_spec ev [] st t hev (by rw [hact, hsta]; rfl)
  have h0 : t.initialized = false := by
    have gen : ∀ (regs : List String) (t0 : Tags), regs.foldlM Tags.register t0 = some t → t.initialized = t0.initialized := by
      intro regs
      induction regs with
      | nil => intro t0 h; obtain rfl := Option.some.inj h; rfl
      | cons r regs ih =>
        intro t0 h
        rw [List.foldlM_cons] at h
        obtain ⟨t1, h1, h2⟩ := Option.bind_eq_some_iff.mp h
        rw [ih t1 h2]
        unfold Tags.register at h1
        split at h1
        · obtain rfl := Option.some.inj h1; rfl
        · split_ifs at h1
          obtain rfl := Option.some.inj h1; rfl
    exact gen regs _ ht
  exact ⟨t', h1, by simp [Tags.enabled, ho, h5, h0]⟩

example : ∃ t', [some "physics", none].foldlM guard (⟨[("physics", 1)], 1, fun _ => false, 0, false, []⟩ : Tags) = some t' ∧ t'.enabled ⟨0, true, true⟩ = true :=
  C86_before_start ⟨0, true, true⟩ rfl ["physics"] _ rfl _ [] rfl

/-- Tags compiled in: after some tags were registered, logging was started with a request, and guards were entered and left in any way that C++ scopes
allow, messages are let through exactly if no guard is open or the tag of the innermost open guard was asked for. Partial: guards with tags that were
not registered are let through as well. -/
theorem C86_tags_partial (o : Options) (ho : o.tags = true) (regs : List String) (t : Tags) (ht : regs.foldlM Tags.register Tags.new = some t)
    (req : Request) (hreq : req.Ok) (ev : List (Option String)) (st : List String) (hev : openGuards ev [] = some st) :
    ∃ t', ev.foldlM guard (t.init req.text) = some t' ∧
      (t'.enabled o = true ↔ ∀ n ∈ st.head?, n ∉ regs ∨ req.Asked n) := by
  obtain ⟨hg, hact, hsta⟩ := registers_good regs good_new ht
  obtain ⟨t', h1, h2, h3, h4, h5⟩ := guards_spec ev [] st (t.init req.text) hev (by
    show t.active :: t.stash = [0]
    rw [hact, hsta]; rfl)
  refine ⟨t', h1, ?_⟩
  have hinit : t'.initialized = true := by rw [h5]; rfl
  have hen : t'.enabled o = (t.init req.text).bits t'.active := by simp [Tags.enabled, ho, hinit, h4]
  have hbits : ∀ i, (t.init req.text).bits i = true ↔ i = 0 ∨ req = .all ∨ ∃ l, req = .names l ∧ ∃ n ∈ l, t.map.lookup n = some i := by
    intro i
    cases req with
    | all => simp [Tags.init, Request.text]
    | none => simp [Tags.init, Request.text]
    | names l =>
      have hl : pieces [] (Request.text (.names l)).toList = l.map String.toList := by
        rw [Request.text, String.toList_ofList]
        apply pieces_intercalate
        intro n hn
        simp only [List.mem_map] at hn
        obtain ⟨m, hm, rfl⟩ := hn
        have := hreq.1 m hm
        exact ⟨fun h => this.1 (by rw [← String.ofList_toList (s := m), h]), this.2⟩
      have hspecial : ∀ w : String, w ≠ "" → ',' ∉ w.toList → l ≠ [w] → Request.text (.names l) ≠ w := by
        intro w hw hw2 hlw h
        rw [h] at hl
        have h3 := pieces_intercalate [w.toList] (by
          intro n hn
          simp at hn
          subst hn
          exact ⟨fun h => hw (by rw [← String.ofList_toList (s := w), h]), hw2⟩)
        have h4 : List.intercalate [','] [w.toList] = w.toList := by simp [List.intercalate]
        rw [h4, hl] at h3
        apply hlw
        have h5 := congrArg (List.map String.ofList) h3
        simpa [Function.comp_def] using h5
      have ha := hspecial "all" (by decide) (by decide) hreq.2.1
      have hn := hspecial "none" (by decide) (by decide) hreq.2.2
      simp only [Tags.init, if_neg ha, if_pos hn, hl, List.map_map]
      rw [setBits_iff]
      simp [Function.comp_def]
  rw [hen, hbits]
  cases st with
  | nil =>
    simp at h2
    simp [h2.1]
  | cons n st =>
    simp only [List.map_cons, List.cons_append, List.cons.injEq] at h2
    have hactive : t'.active = (t.map.lookup n).getD 0 := h2.1
    simp only [List.head?_cons, Option.mem_def, Option.some.injEq, forall_eq']
    have hk := hg.known n
    simp only [List.append_nil, List.mem_reverse] at hk
    cases hl : t.map.lookup n with
    | none =>
      rw [hl] at hk hactive
      simp only [Option.getD_none] at hactive
      have hnr : n ∉ regs := fun h => by simpa using hk.2 h
      simp [hactive, hnr]
    | some i =>
      rw [hl] at hk hactive
      simp only [Option.getD_some] at hactive
      have hnr : n ∈ regs := hk.1 rfl
      have hi := hg.range n i hl
      rw [hactive]
      have hi0 : i ≠ 0 := by omega
      cases req with
      | all => simp [Request.Asked]
      | none => simp [Request.Asked, hi0, hnr]
      | names l =>
        simp only [hi0, false_or, reduceCtorEq, Request.names.injEq, exists_eq_left', Request.Asked, hnr, not_true]
        constructor
        · rintro ⟨m, hm, hm2⟩
          rwa [hg.inj n m i hl hm2]
        · intro h
          exact ⟨n, h, hl⟩

/-- 63 different tags can be registered, the next one ends the program. -/
theorem C86_tag_count (regs : List String) (hd : regs.Nodup) : (regs.foldlM Tags.register Tags.new).isSome = true ↔ regs.length ≤ 63 := by
  have h := registers_some regs good_new hd (by simp)
  have h0 : Tags.new.tagId = 0 := rfl
  rw [h0] at h
  constructor
  · intro hs
    by_contra hlt
    rw [h.2 (by omega) (by omega)] at hs
    simp at hs
  · intro hle
    obtain ⟨t', h1, -⟩ := h.1 (by omega)
    rw [h1]; rfl

/-- A message under a guard whose tag was never registered is printed although no tag was asked for, after the text "Ignoring this group". -/
theorem C86_unregistered_violated (name : String) :
    ((Tags.new.init "none").enter name).enabled ⟨0, true, false⟩ = true := by
  simp [Tags.new, Tags.init, Tags.enter, Tags.lookup, Tags.enabled]

example : ∃ t t', ["init", "advance"].foldlM Tags.register Tags.new = some t ∧
    [some "init", some "advance", none].foldlM guard (t.init "advance") = some t' ∧ t'.enabled ⟨0, true, false⟩ = false := by
  refine ⟨_, _, rfl, rfl, ?_⟩
  decide +kernel

example : (Request.names ["advance"]).Ok ∧ openGuards [some "init", some "advance", none] [] = some ["init"] ∧ ¬ (Request.names ["advance"]).Asked "init" := by
  refine ⟨by simp [Request.Ok], rfl, by simp [Request.Asked]⟩

/-! ### Containers -/

/-- `log_container_rank` and `log_container_one` print the banner and all entries with the delimiter between them; with new lines as delimiter every
entry has a numbered heading. -/
theorem C86_container_one (digits : Nat → Text) (banner : Text) (l : List Text) :
    (∀ d, d ≠ Delimiter.newline → containerTextOne digits d banner l = banner ++ [' '] ++ List.intercalate [d.char] l ++ ['\n']) ∧
    containerTextOne digits .newline banner l =
      banner ++ ['\n'] ++ List.intercalate ['\n'] (l.mapIdx fun i e => entryHead digits i ++ e) ++ ['\n'] := by
  constructor
  · intro d hd
    have hloop : ∀ i, containerLoopOne digits d i l = List.intercalate [d.char] l := by
      induction l with
      | nil => intro i; rfl
      | cons e l ih =>
        intro i
        cases l with
        | nil => simp [containerLoopOne, hd, List.intercalate]
        | cons e' l =>
          rw [containerLoopOne, ih]
          simp [hd, List.intercalate]
    simp [containerTextOne, hd, hloop]
  · have hloop : ∀ (l : List Text) (i : Nat), containerLoopOne digits .newline i l = List.intercalate ['\n'] (l.mapIdx fun j e => entryHead digits (i + j) ++ e) := by
      intro l
      induction l with
      | nil => intro i; rfl
      | cons e l ih =>
        intro i
        cases l with
        | nil => simp [containerLoopOne, List.intercalate]
        | cons e' l =>
          rw [containerLoopOne, ih]
          simp [List.intercalate, Delimiter.char, Nat.add_assoc, Nat.add_comm 1]
    simp [containerTextOne, hloop]

/-- `log_container` prints the entries only with new lines as delimiter; with any other delimiter it prints the delimiters without the entries. -/
theorem C86_container_violated (digits : Nat → Text) (banner : Text) (l : List Text) :
    (∀ d, d ≠ Delimiter.newline → containerText digits d banner l = banner ++ [' '] ++ List.replicate (l.length - 1) d.char ++ ['\n']) ∧
    containerText digits .newline banner l = containerTextOne digits .newline banner l := by
  constructor
  · intro d hd
    have hloop : ∀ i, containerLoop digits d i l = List.replicate (l.length - 1) d.char := by
      induction l with
      | nil => intro i; rfl
      | cons e l ih =>
        intro i
        cases l with
        | nil => simp [containerLoop, hd]
        | cons e' l =>
          rw [containerLoop, ih]
          simp [hd, List.replicate_succ]
    simp [containerText, hd, hloop]
  · have hloop : ∀ (l : List Text) (i : Nat), containerLoop digits .newline i l = containerLoopOne digits .newline i l := by
      intro l
      induction l with
      | nil => intro i; rfl
      | cons e l ih => intro i; simp [containerLoop, containerLoopOne, ih]
    simp [containerText, containerTextOne, hloop]

example : containerText (fun n => (toString n).toList) .comma "keys:".toList ["1".toList, "2".toList, "3".toList] = "keys: ,,\n".toList := by decide +kernel
example : containerTextOne (fun n => (toString n).toList) .comma "keys:".toList ["1".toList, "2".toList, "3".toList] = "keys: 1,2,3\n".toList := by
  decide +kernel

end FleCSPH.Log
