import Mathlib.Data.Finset.Card
import Mathlib.Data.Finset.Insert
import Mathlib.Data.Finset.Range
/-!
Model of the requests for remote cells during `traversal_sph` and `traversal_fmm`, include/tree_topology/tree_topology.h:213-795, 1142-1377, 1470-1542, on any number of processes.

A key is the path of the cell, last child number first, so `push` is `cons` and `pop` is `tail`. Of a cell only what the protocol reads is kept. The geometric tests of the traversal (327-336)
depend on the task and on the node, whose data is the same on all processes; they are a function of the task and the key. The network: a message can be received at any time after it was sent,
except that MPI does not let the entity reply of a request overtake its node reply (both go from the same process to the same process, and the probes accept any tag). A request with its replies is
one record, a transaction, so no order between different requests is assumed. Undefined behaviour (a missing cell, `pop` of the root, a cell of the wrong kind, a failed assertion) is `none`. The
buffers which keep the messages alive are not modelled. The two traversals differ in their tasks only: what a process does with one task, given its table, is a parameter.
-/
namespace FleCSPH.Ghosts

abbrev Key := List Nat

/-- A cell in the table of a process (tree_types.h:148-287): whether it is an entity, the child flags, `nchildren_to_receive`, `requested`, `owner`. -/
structure Cell where
  ent : Bool
  kids : Finset Nat
  toRecv : Nat
  requested : Bool
  owner : Nat
deriving DecidableEq

/-- `htable_`. -/
abbrev Table := Key → Option Cell

def Table.set (t : Table) (k : Key) (c : Cell) : Table := fun k' => if k' = k then some c else t k'

/-- `is_empty_node`, tree_types.h:245-247. -/
def emptyNode (c : Cell) : Bool := !c.ent && (decide (c.kids = ∅) || decide (c.kids.card < c.toRecv))

/-- `daughters_`, tree_topology.h:1925-1943; `nch` is `nchildren_`. -/
def daughters (nch : Nat) (t : Table) (k : Key) (c : Cell) : Option (List (Nat × Cell)) :=
  ((List.range nch).filter fun j => decide (j ∈ c.kids)).mapM fun j => (t (j :: k)).map fun c' => (j, c')

/-! ### The search of one task -/

/-- One cell of the queue, tree_topology.h:322-380: cells for the next queue, cells which are not here yet, entities reached. -/
def examine (nch : Nat) (t : Table) (accept : Key → Bool) (k : Key) : Option (List Key × List Key × List Key) :=
  match t k with
  | none => none
  | some c =>
    if c.ent then some ([], [], [k])
    else if accept k then
      if emptyNode c then some ([], [k], [])
      else (daughters nch t k c).map fun ds => (ds.map fun p => p.1 :: k, [], [])
    else some ([], [], [])

/-- The loop over the queue, tree_topology.h:320-381. -/
def level (nch : Nat) (t : Table) (accept : Key → Bool) : List Key → Option (List Key × List Key × List Key)
  | [] => some ([], [], [])
  | k :: q =>
    match examine nch t accept k with
    | none => none
    | some (a, b, c) =>
      match level nch t accept q with
      | none => none
      | some (a', b', c') => some (a ++ a', b ++ b', c ++ c')

inductive Result
  /-- `non_local`: these cells are not here -/
  | missing (ms : List Key)
  /-- the entities reached -/
  | found (es : List Key)

/-- The loop `while(!queue->empty())`, tree_topology.h:317-400; the first number bounds its turns. -/
def explore (nch : Nat) (t : Table) (accept : Key → Bool) : Nat → List Key → List Key → Option Result
  | 0, _, _ => none
  | fuel + 1, queue, found =>
    if queue = [] then some (.found found)
    else
      match level nch t accept queue with
      | none => none
      | some (a, b, c) => if b ≠ [] then some (.missing b) else explore nch t accept fuel a (found ++ c)

/-- What a process does with one task: some cells it needs are not here; or the task is done, with new tasks and results. -/
inductive Outcome (τ ω : Type)
  | missing (ms : List Key)
  | done (next : List τ) (out : List ω)
deriving DecidableEq

/-- A task of `traversal_sph`: the search for the neighbours of some entities, tree_topology.h:284-408. The first number is the process. -/
def sphStep {τ : Type} (nch : Nat) (accept : τ → Key → Bool) (fuel : Nat) (_ : Nat) (t : Table) (a : τ) : Option (Outcome τ (τ × List Key)) :=
  (explore nch t (accept a) fuel [[]] []).map fun
    | .missing ms => .missing ms
    | .found es => .done [] [(a, es)]

/-! ### One pair of the queue of `traversal_fmm` -/

/-- What `traversal_fmm` does with two cells: `far` is a call of `t_c2c`, `t_p2c` or `f_p2p` with a node (tree_topology.h:557-575), depending on the kinds of the cells; `near` is a pair of entities
appended to `p2p` (tree_topology.h:501). -/
inductive Call
  | far (k1 k2 : Key)
  | near (k1 k2 : Key)
deriving DecidableEq

/-- The pairs made of the daughters of a node paired with itself, tree_topology.h:513-524; `mine` is `iam_owner`. -/
def selfPairs (mine : Key → Bool) : List Key → List (Key × Key)
  | [] => []
  | a :: l => (if mine a then [(a, a)] else []) ++ (l.flatMap fun b => (if mine a then [(a, b)] else []) ++ if mine b then [(b, a)] else []) ++ selfPairs mine l

/-- The keys of the daughters, and of those owned by the process. -/
def daughterKeys (nch : Nat) (t : Table) (k : Key) (c : Cell) : Option (List Key) := (daughters nch t k c).map fun ds => ds.map fun x => x.1 :: k

/-- `iam_owner`, tree_types.h:233-235. -/
def iamOwner (p : Nat) (t : Table) (k : Key) : Bool := (t k).map Cell.owner = some p

/-- The body of the loop over the queue, tree_topology.h:484-651, on process `p`. `mac` is the acceptance criterion for the two cells, `bigger` the test `radius1 > radius2`; both depend on the data
of the cells only, which is the same on all processes. `fmm_sub_entities_` is the constant 0 (tree_topology.h:2122), so the branches for few particles are never taken. -/
def fmmStep (nch : Nat) (mac bigger : Key → Key → Bool) (p : Nat) (t : Table) (x : Key × Key) : Option (Outcome (Key × Key) Call) :=
  match t x.1, t x.2 with
  | some c1, some c2 =>
    if c1.owner ≠ p then none
    else if emptyNode c2 then some (.missing [x.2])
    else if c1.ent && c2.ent then some (.done [] [.near x.1 x.2])
    else if x.1 = x.2 then (daughterKeys nch t x.1 c1).map fun ds => .done (selfPairs (iamOwner p t) ds) []
    else if mac x.1 x.2 then some (.done [] [.far x.1 x.2])
    else if bigger x.1 x.2 then (daughterKeys nch t x.1 c1).map fun ds => .done ((ds.filter (iamOwner p t)).map fun k => (k, x.2)) []
    else (daughterKeys nch t x.2 c2).map fun ds => .done (ds.map fun k => (x.1, k)) []
  | _, _ => none

/-! ### The end of `traversal_fmm` -/

def Call.isFar : Call → Bool
  | .far _ _ => true
  | .near _ _ => false

def Call.sink : Call → Key
  | .far k _ => k
  | .near k _ => k

def Call.source : Call → Key
  | .far _ k => k
  | .near _ k => k

/-- The entities below a node which belong to process `p`, tree_topology.h:702-715. A local entity is one this process owns: `is_shared` is set exactly for the received ones. The number bounds the
depth. The order is not modelled. -/
def subEnts (nch p : Nat) (t : Table) : Nat → Key → Option (List Key)
  | 0, _ => none
  | fuel + 1, k =>
    match t k with
    | none => none
    | some c =>
      if c.ent then some (if c.owner = p then [k] else [])
      else (daughterKeys nch t k c).bind fun ds => (ds.mapM (subEnts nch p t fuel)).map List.flatten

/-- The affected nodes of process `p`, tree_topology.h:682-694; `aff` is `affected()`. -/
def affectedNodes (nch p : Nat) (t : Table) (aff : Key → Bool) : Nat → Key → Option (List Key)
  | 0, _ => none
  | fuel + 1, k =>
    match t k with
    | none => none
    | some c =>
      if c.owner ≠ p then some []
      else if c.ent then some []
      else (daughterKeys nch t k c).bind fun ds => (ds.mapM (affectedNodes nch p t aff fuel)).map fun ls => (if aff k then [k] else []) ++ ls.flatten

/-- `n1->set_affected(true)`, tree_topology.h:566: after a far call whose first cell is a node. -/
def isAffected (t : Table) (calls : List Call) (k : Key) : Bool := decide ((t k).map Cell.ent = some false) && calls.any fun c => c.isFar && decide (c.sink = k)

/-- What finally acts on entities, tree_topology.h:696-775: pairs of an entity and the cell that acts on it. A far call on a node adds to its coefficients, which are evaluated at each entity below it
(`f_c2p`, 716); a far call on an entity acts on it at once (573); a near call acts between entities (771). -/
def actions (nch p : Nat) (t : Table) (fuel : Nat) (calls : List Call) : Option (List (Key × Key)) :=
  (affectedNodes nch p t (isAffected t calls) fuel []).bind fun ks =>
    (ks.mapM fun k => (subEnts nch p t fuel k).map fun es => es.flatMap fun e => (calls.filter fun c => c.isFar && decide (c.sink = k)).map fun c => (e, c.source)).map fun downs =>
      downs.flatten ++ (calls.filter fun c => decide ((t c.sink).map Cell.ent = some true)).map fun c => (c.sink, c.source)

/-! ### Messages -/

/-- `share_node_t` in a reply: owner, key, number of children. -/
structure NodeItem where
  owner : Nat
  key : Key
  n : Nat

/-- `share_entity_t`. -/
structure EntItem where
  owner : Nat
  key : Key

/-- One node of a node reply, tree_topology.h:1509-1534. `emplace` does nothing if the cell exists. -/
def recvNode (t : Table) (x : NodeItem) : Option Table :=
  match x.key with
  | [] => none
  | j :: pk =>
    match t pk with
    | none => none
    | some pc =>
      match t (j :: pk) with
      | none => some ((t.set (j :: pk) { ent := false, kids := ∅, toRecv := x.n, requested := false, owner := x.owner }).set pk { pc with kids := insert j pc.kids })
      | some c =>
        if c.ent then none
        else some ((t.set (j :: pk) { c with toRecv := x.n, owner := x.owner }).set pk { pc with kids := insert j pc.kids })

/-- One entity of an entity reply, tree_topology.h:1478-1494. -/
def recvEnt (t : Table) (x : EntItem) : Option Table :=
  match x.key with
  | [] => none
  | j :: pk =>
    match t pk with
    | none => none
    | some pc =>
      match t (j :: pk) with
      | none => some ((t.set (j :: pk) { ent := true, kids := ∅, toRecv := 0, requested := false, owner := x.owner }).set pk { pc with kids := insert j pc.kids })
      | some c => some ((t.set (j :: pk) { c with owner := x.owner }).set pk { pc with kids := insert j pc.kids })

/-- `recv_node_replies_`, tree_topology.h:1502-1542. -/
def recvNodes (t : Table) : List NodeItem → Option Table
  | [] => some t
  | x :: xs => (recvNode t x).bind fun t' => recvNodes t' xs

/-- `recv_entity_replies_`, tree_topology.h:1470-1495. -/
def recvEnts (t : Table) : List EntItem → Option Table
  | [] => some t
  | x :: xs => (recvEnt t x).bind fun t' => recvEnts t' xs

/-- The reply to one key, tree_topology.h:1316-1347: the cell itself, its children which are nodes, its children which are entities. -/
def replyOne (nch : Nat) (t : Table) (k : Key) : Option (List NodeItem × List EntItem) :=
  match t k with
  | none => none
  | some c =>
    if c.ent then none
    else (daughters nch t k c).map fun ds =>
      (⟨c.owner, k, c.kids.card⟩ :: (ds.filter fun p => !p.2.ent).map (fun p => ⟨p.2.owner, p.1 :: k, p.2.kids.card⟩),
        (ds.filter fun p => p.2.ent).map fun p => ⟨p.2.owner, p.1 :: k⟩)

/-- `recv_requests_`, tree_topology.h:1306-1377. -/
def reply (nch : Nat) (t : Table) : List Key → Option (List NodeItem × List EntItem)
  | [] => some ([], [])
  | k :: ks =>
    match replyOne nch t k with
    | none => none
    | some (a, b) =>
      match reply nch t ks with
      | none => none
      | some (a', b') => some (a ++ a', b ++ b')

/-! ### All processes -/

/-- Where a request is: on its way; answered, with the node reply (and the entity reply, if there is one) on its way; only the entity reply on its way. -/
inductive Stage
  | asked
  | answered (ns : List NodeItem) (es : List EntItem)
  | rest (es : List EntItem)

structure Trans where
  owner : Nat
  keys : List Key
  stage : Stage

/-- The state of all processes; `toSend` are keys marked as requested with their owners which are not sent yet (`request_keys`); `asked` records all keys a process ever requested, `results` what its
finished tasks found, `sent p` whether `p` has sent `DONE_COMMS`, and `got p q` whether `p` has received it from `q`. -/
structure State (τ ω : Type) where
  tbl : Nat → Table
  tasks : Nat → List τ
  results : Nat → List ω
  toSend : Nat → List (Nat × Key)
  trans : Nat → List Trans
  asked : Nat → List Key
  sent : Nat → Bool
  got : Nat → Nat → Bool

variable {τ ω : Type}

/-- `x` at index `p`. -/
def upd {β : Type} (f : Nat → β) (p : Nat) (x : β) : Nat → β := fun q => if q = p then x else f q

/-- `set_requested` for some keys. -/
def mark (t : Table) (ks : List Key) : Table := fun k => if k ∈ ks then (t k).map fun c => { c with requested := true } else t k

/-- `request_`, tree_topology.h:1276-1299: one message for each owner of a key. -/
def requests (n : Nat) (l : List (Nat × Key)) : List Trans :=
  (List.range n).filterMap fun o =>
    let ks := (l.filter fun x => x.1 = o).map Prod.snd
    if ks = [] then none else some { owner := o, keys := ks, stage := .asked }

/-- The missing cells which are not requested yet, with their owners, tree_topology.h:351-357, 645-651. -/
def unrequested (t : Table) (ms : List Key) : List (Nat × Key) :=
  ms.filterMap fun k => match t k with
    | none => none
    | some c => if c.requested then none else some (c.owner, k)

/-- Parameters: the number of processes, the number of children of a node, what a process does with a task. -/
structure Par (τ ω : Type) where
  n : Nat
  nch : Nat
  step : Nat → Table → τ → Option (Outcome τ ω)

/-- `traversal_sph` on `n` processes. -/
def sph (n nch : Nat) (accept : τ → Key → Bool) (fuel : Nat) : Par τ (τ × List Key) := { n := n, nch := nch, step := sphStep nch accept fuel }

/-- `traversal_fmm` on `n` processes. -/
def fmm (n nch : Nat) (mac bigger : Key → Key → Bool) : Par (Key × Key) Call := { n := n, nch := nch, step := fmmStep nch mac bigger }

/-- One turn of the loop of a traversal with one task on process `p` (tree_topology.h:284-408, 484-651), any task of its list. When all missing cells are already requested, nothing changes. -/
def work (P : Par τ ω) (s : State τ ω) (p : Nat) (l1 : List τ) (a : τ) (l2 : List τ) : Option (State τ ω) :=
  match P.step p (s.tbl p) a with
  | none => none
  | some (.done next out) => some { s with tasks := upd s.tasks p (l1 ++ next ++ l2), results := upd s.results p (s.results p ++ out) }
  | some (.missing ms) =>
    let new := unrequested (s.tbl p) ms
    some { s with tbl := upd s.tbl p (mark (s.tbl p) (new.map Prod.snd)), toSend := upd s.toSend p (s.toSend p ++ new), asked := upd s.asked p (s.asked p ++ new.map Prod.snd) }

/-- The keys collected so far are sent: in `traversal_sph` after each task (tree_topology.h:393), in `traversal_fmm` after each pass over the queue (653-658). -/
def flush (P : Par τ ω) (s : State τ ω) (p : Nat) : State τ ω := { s with toSend := upd s.toSend p [], trans := upd s.trans p (s.trans p ++ requests P.n (s.toSend p)) }

/-- The owner of a request of `p` receives it and replies. -/
def serve (P : Par τ ω) (s : State τ ω) (p : Nat) (l1 : List Trans) (x : Trans) (l2 : List Trans) : Option (State τ ω) :=
  match reply P.nch (s.tbl x.owner) x.keys with
  | none => none
  | some (ns, es) => some { s with trans := upd s.trans p (l1 ++ { x with stage := .answered ns es } :: l2) }

/-- `p` receives the node reply. No entity reply was sent if there is no entity (tree_topology.h:1361). -/
def takeNodes (s : State τ ω) (p : Nat) (l1 : List Trans) (x : Trans) (l2 : List Trans) (ns : List NodeItem) (es : List EntItem) : Option (State τ ω) :=
  match recvNodes (s.tbl p) ns with
  | none => none
  | some t => some { s with tbl := upd s.tbl p t, trans := upd s.trans p (if es.isEmpty then l1 ++ l2 else l1 ++ { x with stage := .rest es } :: l2) }

/-- `p` receives the entity reply. -/
def takeEnts (s : State τ ω) (p : Nat) (l1 l2 : List Trans) (es : List EntItem) : Option (State τ ω) :=
  match recvEnts (s.tbl p) es with
  | none => none
  | some t => some { s with tbl := upd s.tbl p t, trans := upd s.trans p (l1 ++ l2) }

/-- `comms_all_done_`, tree_topology.h:1183-1190: the process has left the loop `wait_comms_` and receives nothing any more. -/
def exited (n : Nat) (s : State τ ω) (p : Nat) : Prop := ∀ q < n, s.got p q = true

/-- What can happen next, and whether it is undefined behaviour (`none`). -/
inductive Next (P : Par τ ω) (s : State τ ω) : Option (State τ ω) → Prop
  | work (p : Nat) (hp : p < P.n) (l1 : List τ) (a : τ) (l2 : List τ) (h : s.tasks p = l1 ++ a :: l2) : Next P s (work P s p l1 a l2)
  | flush (p : Nat) (hp : p < P.n) : Next P s (some (flush P s p))
  | serve (p : Nat) (hp : p < P.n) (l1 : List Trans) (x : Trans) (l2 : List Trans) (h : s.trans p = l1 ++ x :: l2) (hx : x.stage = .asked) (he : ¬ exited P.n s x.owner) :
      Next P s (serve P s p l1 x l2)
  | takeNodes (p : Nat) (hp : p < P.n) (l1 : List Trans) (x : Trans) (l2 : List Trans) (ns : List NodeItem) (es : List EntItem) (h : s.trans p = l1 ++ x :: l2) (hx : x.stage = .answered ns es)
      (he : ¬ exited P.n s p) : Next P s (takeNodes s p l1 x l2 ns es)
  | takeEnts (p : Nat) (hp : p < P.n) (l1 : List Trans) (x : Trans) (l2 : List Trans) (es : List EntItem) (h : s.trans p = l1 ++ x :: l2) (hx : x.stage = .rest es) (he : ¬ exited P.n s p) :
      Next P s (takeEnts s p l1 l2 es)
  /-- no tasks left: `DONE_COMMS` is sent to all, tree_topology.h:410-417, 665-673 -/
  | finish (p : Nat) (hp : p < P.n) (h : s.tasks p = []) (hs : s.sent p = false) : Next P s (some { s with sent := upd s.sent p true })
  /-- `p` receives `DONE_COMMS` from `q`, tree_topology.h:1180-1191 -/
  | done (p q : Nat) (hp : p < P.n) (hq : q < P.n) (h : s.sent q = true) (hg : s.got p q = false) (he : ¬ exited P.n s p) :
      Next P s (some { s with got := upd s.got p (upd (s.got p) q true) })

end FleCSPH.Ghosts
