import Mathlib.Data.List.Basic
import Mathlib.Data.Nat.Basic
import Mathlib.Logic.Function.Basic
/-!
Model of the logging facility include/log.h: the stream that copies to several outputs and removes colour codes, the tags, the messages of the four
severities on every process, the packets and the thread that prints them. A `char` is a `Char`. What the C++ standard leaves undefined is `none`.
Not modelled: `log_timestamp` (the text is a parameter), the texts `LOG_DEBUG` prints, failures of the underlying streams.
-/
namespace FleCSPH.Log

abbrev Text := List Char

/-- The character `\033` of the colour codes, log.h:106-122. -/
def esc : Char := '\x1b'

/-- The colour codes log.h:106-121, `"\033[0;30m"` to `"\033[1;37m"`. -/
def colour (bold : Bool) (n : Char) : Text := [esc, '[', if bold then '1' else '0', ';', '3', n, 'm']

/-- `COLOR_PLAIN`, log.h:122. -/
def colourPlain : Text := [esc, '[', '0', 'm']

/-- `OUTPUT_…(s)`, log.h:124-139. -/
def output (bold : Bool) (n : Char) (s : Text) : Text := colour bold n ++ s ++ colourPlain

/-! ### The stream with several outputs -/

/-- `buffer_data_t`, log.h:333-337. `sink`: what the output holds; `none` is the null pointer. Every output is taken to be a stream of its own. -/
structure Buffer where
  enabled : Bool
  colorized : Bool
  sink : Option Text
deriving DecidableEq

/-- `tee_buffer_t`, log.h:325-533: `buffers_` (a list instead of a hash map: every output is written separately, so the order does not matter) and
`test_buffer_`. -/
structure Tee where
  buffers : List (String × Buffer)
  test : Text
deriving DecidableEq

/-- `buffers_[key].… = …`, log.h:344-367: changes the entry, making a new one (disabled, no colour, null pointer) if there is none. -/
def alter (f : Buffer → Buffer) (key : String) : List (String × Buffer) → List (String × Buffer)
  | [] => [(key, f ⟨false, false, none⟩)]
  | (k, b) :: l => if k = key then (k, f b) :: l else (k, b) :: alter f key l

/-- `add_buffer`, log.h:344-348; `old`: what the stream held before. -/
def Tee.add (t : Tee) (key : String) (old : Text) (colorized : Bool) : Tee :=
  { t with buffers := alter (fun _ => ⟨true, colorized, some old⟩) key t.buffers }

/-- `enable_buffer`, log.h:355-358. -/
def Tee.enable (t : Tee) (key : String) : Tee := { t with buffers := alter (fun b => { b with enabled := true }) key t.buffers }

/-- `disable_buffer`, log.h:364-367. -/
def Tee.disable (t : Tee) (key : String) : Tee := { t with buffers := alter (fun b => { b with enabled := false }) key t.buffers }

/-- `all_buffers`, log.h:499-501. -/
def allBuffers (b : Buffer) : Bool := b.enabled

/-- `color_buffers`, log.h:504-506. -/
def colorBuffers (b : Buffer) : Bool := b.enabled && b.colorized

/-- The loop body of `flush_buffer`, log.h:514-521, for one output. `none`: a null pointer is dereferenced. -/
def writeTo (pred : Buffer → Bool) (s : Text) (b : Buffer) : Option Buffer :=
  if pred b then b.sink.map fun w => { b with sink := some (w ++ s) } else some b

/-- `flush_buffer`, log.h:510-528. -/
def Tee.flush (t : Tee) (pred : Buffer → Bool) : Option Tee :=
  (t.buffers.mapM fun kb => (writeTo pred t.test kb.2).map fun b => (kb.1, b)).map fun l => ⟨l, []⟩

/-- `overflow`, log.h:381-479, called with every character inserted in the stream. -/
def Tee.overflow (t : Tee) (c : Char) : Option Tee :=
  let tbsize := t.test.length
  let t' : Tee := { t with test := t.test ++ [c] }
  match tbsize with
  | 0 => if c = esc then some t' else t'.flush allBuffers
  | 1 => if c = '[' then some t' else t'.flush allBuffers
  | 2 => if c = '0' ∨ c = '1' then some t' else t'.flush allBuffers
  | 3 => if c = ';' then some t' else if c = 'm' then t'.flush colorBuffers else t'.flush allBuffers
  | 4 => if c = '3' then some t' else t'.flush allBuffers
  | 5 => if c.isDigit ∧ c.toNat - '0'.toNat < 8 then some t' else t'.flush allBuffers
  | 6 => if c = 'm' then t'.flush colorBuffers else t'.flush allBuffers
  | _ => some t'

/-- Insertion of a text in the stream: `overflow` for every character, as there is no put area. -/
def Tee.put (t : Tee) (s : Text) : Option Tee := s.foldlM Tee.overflow t

/-- `sync`, log.h:485-494: `pubsync` of every output, enabled or not. `none`: a null pointer is dereferenced. -/
def Tee.sync (t : Tee) : Option Tee := if t.buffers.all fun kb => kb.2.sink.isSome then some t else none

/-- `tee_stream_t::tee_stream_t`, log.h:542-544: one output, `std::clog`, with colours. -/
def Tee.initial (clog : Text) : Tee := (⟨[], []⟩ : Tee).add "log" clog true

/-! ### Tags -/

/-- The members of `log_t` that have to do with tags, log.h:822-831, and the tags stored by the open `log_tag_scope_t` objects (log.h:872-898). -/
structure Tags where
  map : List (String × Nat)
  tagId : Nat
  bits : Nat → Bool
  active : Nat
  initialized : Bool
  stash : List Nat

/-- The constructor `log_t::log_t`, log.h:814. -/
def Tags.new : Tags := ⟨[], 0, fun _ => false, 0, false, []⟩

/-- `register_tag`, log.h:731-746; `none`: the assertion on the number of tags fails. `log_register_tag`, log.h:910-912, calls it once. -/
def Tags.register (t : Tags) (name : String) : Option Tags :=
  match t.map.lookup name with
  | some _ => some t
  | none => if t.tagId + 1 < 64 then some { t with map := (name, t.tagId + 1) :: t.map, tagId := t.tagId + 1 } else none

/-- The pieces `std::getline(is, tag, ',')` returns one after the other, log.h:654-656. A text that ends after a comma has no further piece. -/
def pieces : Text → Text → List Text
  | acc, [] => if acc = [] then [] else [acc.reverse]
  | acc, c :: s => if c = ',' then acc.reverse :: pieces [] s else pieces (c :: acc) s

/-- The loop log.h:656-665 over the names of `active`: known ones are set, others are ignored with a warning. -/
def setBits (map : List (String × Nat)) : List String → (Nat → Bool) → (Nat → Bool)
  | [], b => b
  | n :: l, b =>
    match map.lookup n with
    | some i => setBits map l (Function.update b i true)
    | none => setBits map l b

/-- `init`, log.h:625-681, what it does to the tags. -/
def Tags.init (t : Tags) (active : String) : Tags :=
  let b : Nat → Bool := fun i => i == 0
  { t with
    bits := if active = "all" then fun _ => true
            else if active ≠ "none" then setBits t.map ((pieces [] active.toList).map String.ofList) b
            else b
    initialized := true }

/-- `lookup_tag`, log.h:787-796. -/
def Tags.lookup (t : Tags) (name : String) : Nat := (t.map.lookup name).getD 0

/-- `log_tag_guard(name)`, log.h:919-920, the constructor of `log_tag_scope_t`, log.h:873-889. -/
def Tags.enter (t : Tags) (name : String) : Tags := { t with active := t.lookup name, stash := t.active :: t.stash }

/-- The destructor of `log_tag_scope_t`, log.h:891-893; `none`: no scope is open, which C++ excludes. -/
def Tags.leave (t : Tags) : Option Tags :=
  match t.stash with
  | [] => none
  | a :: l => some { t with active := a, stash := l }

/-- The build options `LOG_STRIP_LEVEL` (log.h:63), `LOG_ENABLE_TAGS` and `LOG_ENABLE_EXTERNAL` (log.h:763-778). The build of the project sets only the
first (cmake/SetupFlags.cmake:28). -/
structure Options where
  strip : Nat
  tags : Bool
  external : Bool

/-- `tag_enabled`, log.h:762-785. -/
def Tags.enabled (o : Options) (t : Tags) : Bool :=
  if o.tags then (if t.initialized then t.bits t.active else o.external) else true

/-! ### Messages -/

inductive Severity | trace | info | warn | error
deriving DecidableEq

/-- The number `LOG_STRIP_LEVEL` is compared with, log.h:1068, 1082, 1096. -/
def Severity.level : Severity → Nat
  | trace => 1
  | info => 2
  | warn => 3
  | error => 4

/-- What `stream()` writes ahead of the message, log.h:1066-1120: letter and colour of the severity, the stamp (log.h:1060-1061) and the rank
(log.h:1063). -/
def header (sev : Severity) (stamp rank : Text) : Text :=
  match sev with
  | .trace => output false '6' ['[', 'T'] ++ output false '7' stamp ++ output true '0' ([' ', 'r'] ++ rank) ++ output false '6' [']', ' ']
  | .info => output false '2' ['[', 'I'] ++ output false '7' stamp ++ output true '0' ([' ', 'r'] ++ rank) ++ output false '2' [']', ' ']
  | .warn => output false '3' ['[', 'W'] ++ output false '7' stamp ++ output true '0' ([' ', 'r'] ++ rank) ++ output false '3' [']', ' ']
      ++ colour true '3'
  | .error => output false '1' ['[', 'E'] ++ output false '7' stamp ++ output true '0' ([' ', 'r'] ++ rank) ++ output false '1' [']', ' ']
      ++ colour true '1'

/-- The logging state of one process: its rank for MPI, `mpi_config_t::active_rank_` (log.h:1531-1533), `mpi_state_t::rank_` and `initialized_`
(log.h:303-309; an object of static storage, so zero and false before `init`), the tags, `buffer_stream_`, `stream_`, and what `std::cerr` holds. -/
structure Proc where
  rank : Nat
  activeRank : Nat
  stateRank : Nat
  mpiReady : Bool
  tags : Tags
  buf : Text
  tee : Tee
  cerr : Text

/-- A process before the first call; `clog`: what `std::clog` holds. -/
def Proc.start (rank : Nat) (clog : Text) : Proc := ⟨rank, 0, 0, false, .new, [], .initial clog, []⟩

/-- `log_init`, log.h:1177-1180: `log_t::init` (log.h:625-681) and `mpi_state_t::init` (log.h:257-265). -/
def Proc.init (p : Proc) (active : String) : Proc := { p with tags := p.tags.init active, stateRank := p.rank, mpiReady := true }

/-- `log_set_output_rank`, log.h:1613-1616. -/
def Proc.setOutputRank (p : Proc) (r : Nat) : Proc := { p with activeRank := r }

/-- The forms of a message: `logm`, `log_trace`, `log_info`, `log_warn`, `log_error` (log.h:1208-1303), `log_rank` (log.h:1596-1601),
`log_one` (log.h:1630-1635). -/
inductive Form | all | rank (r : Nat) | one
deriving DecidableEq

/-- The predicate of the message: `true_state` (log.h:953-955), `is_static_rank` (log.h:1546-1552), `is_active_rank` (log.h:1560-1565). -/
def Form.predicate (p : Proc) : Form → Bool
  | .all => true
  | .rank r => p.rank == r
  | .one => p.rank == p.activeRank

/-- `can_send_to_one`, log.h:1039-1041, 1600, 1634. -/
def Form.sendToOne : Form → Bool
  | .all => true
  | _ => false

/-- A whole message statement `…(sev) << text`: `stream()` (log.h:1066-1120), the text, the destructors of the severity (log.h:1044-1049) and of
`log_message_t` (log.h:994-1010). Returns the state and the text handed to `send_to_one` (log.h:924-948), if any. `digits`: how a number is
printed. Expressions in the text that write messages themselves are not modelled. -/
def Proc.message (o : Options) (digits : Nat → Text) (p : Proc) (f : Form) (sev : Severity) (stamp text : Text) : Option (Proc × Option Text) :=
  let out := header sev stamp (digits p.stateRank) ++ text
  let on := decide (o.strip < sev.level) && f.predicate p && p.tags.enabled o
  -- log.h:1109-1120: errors go to std::cerr, the others to the buffer or to the null stream
  let p1 : Proc := if sev = .error then { p with cerr := p.cerr ++ out } else if on then { p with buf := p.buf ++ out } else p
  -- log.h:1044-1049: clean_color_ was set by stream() for warn and error
  let p2 : Proc := if sev = .warn ∨ sev = .error then { p1 with buf := p1.buf ++ colourPlain } else p1
  if f.sendToOne then
    some ({ p2 with buf := [] }, if p2.mpiReady then some p2.buf else none)
  else (p2.tee.put p2.buf).map fun t => ({ p2 with tee := t, buf := [] }, none)

/-! ### Containers -/

/-- `log_delimiters_t`, log.h:1432-1438. -/
inductive Delimiter | newline | space | colon | semicolon | comma
deriving DecidableEq

/-- `delim` of log.h:1467-1475. -/
def Delimiter.char : Delimiter → Char
  | newline => '\n'
  | space => ' '
  | colon => ':'
  | semicolon => ';'
  | comma => ','

/-- What precedes an entry, log.h:1480-1482. -/
def entryHead (digits : Nat → Text) (i : Nat) : Text :=
  output false '6' ['[', 'C'] ++ output false '7' " entry ".toList ++ digits i ++ output false '6' [']'] ++ ['\n']

/-- The loop of `log_container`, log.h:1478-1485, over the printed entries: the entry itself is part of the expression guarded by the delimiter. -/
def containerLoop (digits : Nat → Text) (d : Delimiter) : Nat → List Text → Text
  | _, [] => []
  | i, e :: l =>
    (if d = .newline then entryHead digits i ++ e else []) ++ (if l ≠ [] then [d.char] else []) ++
      containerLoop digits d (if d = .newline then i + 1 else i) l

/-- The loop of `log_container_rank` and `log_container_one`, log.h:1670-1677 and 1712-1719. -/
def containerLoopOne (digits : Nat → Text) (d : Delimiter) : Nat → List Text → Text
  | _, [] => []
  | i, e :: l =>
    (if d = .newline then entryHead digits i else []) ++ e ++ (if l ≠ [] then [d.char] else []) ++
      containerLoopOne digits d (if d = .newline then i + 1 else i) l

/-- The text of `log_container`, log.h:1462-1487. -/
def containerText (digits : Nat → Text) (d : Delimiter) (banner : Text) (l : List Text) : Text :=
  banner ++ [if d = .newline then '\n' else ' '] ++ containerLoop digits d 0 l ++ ['\n']

/-- The text of `log_container_rank` and `log_container_one`, log.h:1654-1719. -/
def containerTextOne (digits : Nat → Text) (d : Delimiter) (banner : Text) (l : List Text) : Text :=
  banner ++ [if d = .newline then '\n' else ' '] ++ containerLoopOne digits d 0 l ++ ['\n']

/-! ### Packets and the thread that prints them -/

/-- `strncpy` of the `k` bytes of a little-endian number into zeroed or not zeroed memory and reading the number back, log.h:205-207 and 215-221:
copying ends at the first byte which is zero, the rest is filled with zeros. -/
def readBack : Nat → Nat → Nat
  | 0, _ => 0
  | k + 1, n => if n % 256 = 0 then 0 else n % 256 + 256 * readBack k (n / 256)

/-- `packet_t`, log.h:193-243, as far as it can be read: `seconds()`, `useconds()`, `message()`. -/
structure Packet where
  seconds : Nat
  useconds : Nat
  msg : Text
deriving DecidableEq

/-- `packet_t::packet_t`, log.h:197-213, at the time `sec`, `usec` of the clock (not negative). The text is copied up to its first null character;
`none`: with the null character at its end it does not fit in `LOG_MAX_MESSAGE_SIZE` = 1024 bytes and `strcpy` writes behind the object. -/
def Packet.make (sec usec : Nat) (text : Text) : Option Packet :=
  let m := text.takeWhile (· ≠ '\x00')
  if m.length < 1024 then some ⟨readBack 8 sec, readBack 8 usec, m⟩ else none

/-- `packet_t::operator<`, log.h:235-238. -/
def Packet.lt (a b : Packet) : Bool := if a.seconds = b.seconds then a.useconds < b.useconds else a.seconds < b.seconds

/-- Where the thread `flush_packets` is, log.h:835-857: at the condition of the loop, asleep or waiting for the mutex, at its end. -/
inductive Pc | check | asleep | done
deriving DecidableEq

/-- What both threads of rank 0 share: `packets_`, `run_flusher_` (log.h:307-308), what was printed on the stream (one entry per message), and
the place of the printing thread. The access to `run_flusher_`, a plain `bool`, is taken to be atomic. -/
structure Flusher where
  packets : List Packet
  printed : List Packet
  run : Bool
  pc : Pc

/-- The state after `mpi_state_t::init`, log.h:257-265. -/
def Flusher.start : Flusher := ⟨[], [], true, .check⟩

/-- The steps of both threads, with the packets rank 0 received in them, if any. `gather`: rank 0 appends the packets of all ranks with the mutex held
(log.h:936-947). `finish`: `end_flusher` in the destructor at the end of the program (log.h:291-301). `wake`: the condition holds and the thread goes to
sleep (log.h:837-838). `flush`: with the mutex held the thread sorts, prints and clears (log.h:840-854); `std::sort` may return any sorted order.
`stop`: the condition fails (log.h:837). -/
inductive Flusher.Step : Flusher → Option (List Packet) → Flusher → Prop
  | gather (s ps) : s.run = true → Step s (some ps) { s with packets := s.packets ++ ps }
  | finish (s) : s.run = true → Step s none { s with run := false }
  | wake (s) : s.pc = .check → s.run = true → Step s none { s with pc := .asleep }
  | flush (s out) : s.pc = .asleep → out.Perm s.packets → out.Pairwise (fun a b => b.lt a = false) →
      Step s none { s with packets := [], printed := s.printed ++ out, pc := .check }
  | stop (s) : s.pc = .check → s.run = false → Step s none { s with pc := .done }

/-- `Run h s`: the state `s` is reached from the start in some interleaving of the threads; `h`: what was gathered, call by call. -/
inductive Flusher.Run : List (List Packet) → Flusher → Prop
  | start : Run [] .start
  | step {h s lab s'} : Run h s → Step s lab s' → Run (h ++ lab.toList) s'

end FleCSPH.Log
