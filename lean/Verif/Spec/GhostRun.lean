import Verif.Model.Ghosts
import Verif.Spec.Ghosts
/-! The states in which a traversal starts, and its runs. -/
namespace FleCSPH.Ghosts

variable {τ ω : Type}

/-- The table is a part of the global tree: the children a cell has are known, and a node has none of its children, or all, or knows how many there are. -/
structure Good (G : Key → Option GCell) (t : Table) : Prop where
  sub : ∀ k c, t k = some c → ∃ g, G k = some g ∧ c.ent = g.ent ∧ c.kids ⊆ g.kids ∧ c.toRecv ≤ g.kids.card ∧ (c.kids = ∅ ∨ c.toRecv = g.kids.card ∨ c.kids = g.kids)
  link : ∀ j k, (t (j :: k)).isSome ↔ ∃ c, t k = some c ∧ j ∈ c.kids
  root : ∃ c, t [] = some c ∧ emptyNode c = false

/-- Process `o` has the cell with all its children. -/
def Has (G : Key → Option GCell) (n : Nat) (tbl : Nat → Table) (o : Nat) (k : Key) : Prop := o < n ∧ ∃ c g, tbl o k = some c ∧ G k = some g ∧ c.kids = g.kids

/-- The state after the tree was built and the boundary nodes were shared: every table is part of the global tree, the owner recorded for a cell has all its children, a cell has all its children
or none, and in the second case it is not requested yet. -/
structure Start (P : Par τ ω) (G : Key → Option GCell) (s : State τ ω) : Prop where
  good : ∀ p < P.n, Good G (s.tbl p)
  own : ∀ p < P.n, ∀ k c, s.tbl p k = some c → Has G P.n s.tbl c.owner k
  fresh : ∀ p < P.n, ∀ k c, s.tbl p k = some c → (c.kids = ∅ ∧ c.requested = false) ∨ ∃ g, G k = some g ∧ c.kids = g.kids
  toSend : ∀ p < P.n, s.toSend p = []
  trans : ∀ p < P.n, s.trans p = []
  asked : ∀ p < P.n, s.asked p = []
  results : ∀ p < P.n, s.results p = []
  sent : ∀ p < P.n, s.sent p = false
  got : ∀ p < P.n, ∀ q < P.n, s.got p q = false

/-- The cells process `p` owned at the start. -/
def Mine (s : State τ ω) (p : Nat) (k : Key) : Prop := ∃ c, s.tbl p k = some c ∧ c.owner = p

/-- The states that can be reached. -/
inductive Run (P : Par τ ω) (s0 : State τ ω) : State τ ω → Prop
  | start : Run P s0 s0
  | next {s s'} (h : Run P s0 s) (hn : Next P s (some s')) : Run P s0 s'

/-- The states that can be reached with `m` steps which changed something. -/
inductive RunN (P : Par τ ω) (s0 : State τ ω) : Nat → State τ ω → Prop
  | start : RunN P s0 0 s0
  | idle {m s} (h : RunN P s0 m s) (hn : Next P s (some s)) : RunN P s0 m s
  | next {m s s'} (h : RunN P s0 m s) (hn : Next P s (some s')) (hne : s' ≠ s) : RunN P s0 (m + 1) s'

/-- The state in which the next traversal starts. -/
def restart {τ' ω' : Type} (s : State τ ω) (tasks : Nat → List τ') : State τ' ω' :=
  { tbl := s.tbl, tasks := tasks, results := fun _ => [], toSend := fun _ => [], trans := fun _ => [], asked := fun _ => [], sent := fun _ => false, got := fun _ _ => false }

/-- Process `p` owns the entity, and all cells above it in its table are its own. -/
def Owns (G : Key → Option GCell) (s : State τ ω) (p : Nat) (e : Key) : Prop := (∃ g, G e = some g ∧ g.ent = true) ∧ ∀ a, a <:+ e → Mine s p a

end FleCSPH.Ghosts
