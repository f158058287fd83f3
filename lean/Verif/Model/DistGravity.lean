import Verif.Model.Fmm
import Verif.Model.Startup
/-!
`gravitation_fmm` (mpisph/bodies_system.h:282-288) on several processes: `traversal_fmm` (include/tree_topology/tree_topology.h:446-795) with the machine of Model/Ghosts.lean, the data of the cells
each process has, and the functions of include/physics/fmm.h.

Model/Ghosts.lean keeps of a cell only what the protocol reads. Here the data comes back: `dat p k` is what `get_node` or `get_entity` finds on process `p` for the cell with key `k`, and `heard` are
the data which may be in a message: a reply holds copies of the data of the process that sends it (1326-1345), and a process that receives a reply puts the copies into its table (1478-1534). Which
message holds which datum is not modelled: a step may use any datum that was ever sent for the key. The coefficients in the copies are never read, since a process uses only those of its own cells.
-/
namespace FleCSPH.DistGravity
open FleCSPH.Ghosts FleCSPH.Startup FleCSPH.Cofm FleCSPH.Geometry

/-- The data of the cells of one process. -/
abbrev DataTable (d : Nat) := Key → Option (Data d)

/-- Position and radius of a cell, tree_topology.h:529-553: an entity has radius zero. -/
def place {d : Nat} : Data d → Option (Point d × ℝ)
  | .inl b => some (b.pos, 0)
  | .inr n => n.map fun n => (n.coords, n.radius)

open Classical in
/-- The body of the loop over the queue on process `p`, tree_topology.h:484-651, with the criterion and the comparison of the radii (555, 620) computed from the data of the process. In the program the
data is read only if the cells are different and not both entities; a cell in the table always has its data. -/
noncomputable def step {d : Nat} (nch : Nat) (angle : ℝ) (dat : Nat → DataTable d) (p : Nat) (t : Table) (x : Key × Key) : Option (Outcome (Key × Key) Ghosts.Call) :=
  ((dat p x.1).bind place).bind fun a => ((dat p x.2).bind place).bind fun b =>
    fmmStep nch (fun _ _ => decide (mac a.1 a.2 b.1 b.2 angle)) (fun _ _ => decide (a.2 > b.2)) p t x

noncomputable def par {d : Nat} (n nch : Nat) (angle : ℝ) (dat : Nat → DataTable d) : Par (Key × Key) Ghosts.Call := { n := n, nch := nch, step := step nch angle dat }

/-- The state of all processes, with the data. -/
structure DState (d : Nat) where
  run : State (Key × Key) Ghosts.Call
  dat : Nat → DataTable d
  heard : Set (Key × Data d)

/-- One step of one process or one message. -/
structure DNext {d : Nat} (n nch : Nat) (angle : ℝ) (s s' : DState d) : Prop where
  next : Next (par n nch angle s.dat) s.run (some s'.run)
  /-- new data comes from messages -/
  fresh : ∀ p k v, s'.dat p k = some v → s.dat p k = some v ∨ (k, v) ∈ s.heard
  /-- every cell in a table has its data -/
  here : ∀ p < n, ∀ k, (s'.run.tbl p k).isSome → (s'.dat p k).isSome
  /-- a message holds data of the process that sends it -/
  sent : ∀ x ∈ s'.heard, x ∈ s.heard ∨ ∃ q < n, s.dat q x.1 = some x.2
  /-- messages are not lost -/
  keep : s.heard ⊆ s'.heard

inductive DRun {d : Nat} (n nch : Nat) (angle : ℝ) (s0 : DState d) : DState d → Prop
  | start : DRun n nch angle s0 s0
  | next {s s' : DState d} (h : DRun n nch angle s0 s) (hn : DNext n nch angle s s') : DRun n nch angle s0 s'

/-- The data of the cells after `build_tree` (tree_topology.h:879-1000). -/
def dataOf {d : Nat} (s : List (ShareTable.Proc (Data d))) (p : Nat) : DataTable d := fun k => (s[p]?).bind fun me => (me.tbl k).bind fun c => c.data

/-- The beginning of `traversal_fmm`, tree_topology.h:446-476, with the tables and data the processes have then. `s` is what they had after `build_tree`; all messages since then hold copies of that. -/
def begin_ {d : Nat} (n : Nat) (s : List (ShareTable.Proc (Data d))) (tbl : Nat → Table) (dat : Nat → DataTable d) : DState d :=
  { run := { tbl := tbl, tasks := fun _ => [([], [])], results := fun _ => [], toSend := fun _ => [], trans := fun _ => [], asked := fun _ => [], sent := fun _ => false, got := fun _ _ => false }
    dat := dat, heard := {x | ∃ q < n, dataOf s q x.1 = some x.2} }

/-! ### The field -/

/-- Coefficients of the nodes, potential and acceleration of the entities of one process. -/
structure Field (d : Nat) where
  pc : Key → ℝ
  fc : Key → Point d
  pot : Key → ℝ
  acc : Key → Point d

/-- `taylor_c2c` and `taylor_p2c` add to the coefficients, fmm.h:145-160. -/
noncomputable def addCoeff {d : Nat} (k : Key) (g : ℝ × Point d) (F : Field d) : Field d :=
  { F with pc := fun k' => if k' = k then F.pc k' + g.1 else F.pc k', fc := fun k' => if k' = k then F.fc k' + g.2 else F.fc k' }

/-- `setGPotential` and `setGAcceleration` after adding. -/
noncomputable def addTo {d : Nat} (e : Key) (g : ℝ × Point d) (F : Field d) : Field d :=
  { F with pot := fun k => if k = e then F.pot k + g.1 else F.pot k, acc := fun k => if k = e then F.acc k + g.2 else F.acc k }

/-- A call for two cells that are far enough apart, tree_topology.h:555-580 with fmm.h:122-160: `t_c2c`, `t_p2c` or `f_p2p` with a node, depending on the kinds of the cells. -/
noncomputable def far {d : Nat} (dat : DataTable d) (gc : ℝ) (F : Field d) (k1 k2 : Key) : Option (Field d) :=
  match dat k1, dat k2 with
  | some (.inr (some n1)), some (.inr (some n2)) => (Fmm.gravitation gc n1.coords n2.coords n2.mass).map fun g => addCoeff k1 g F
  | some (.inr (some n1)), some (.inl b) => (Fmm.gravitation gc n1.coords b.pos b.mass).map fun g => addCoeff k1 g F
  | some (.inl a), some (.inr (some n2)) => (Fmm.gravitation gc a.pos n2.coords n2.mass).map fun g => addTo k1 g F
  | _, _ => none

/-- A pair of entities, tree_topology.h:719-776 with fmm.h:122-143; `ids` are the identifiers of the particles. -/
noncomputable def near {d : Nat} (dat : DataTable d) (gc : ℝ) (ids : Key → Int) (F : Field d) (k1 k2 : Key) : Option (Field d) :=
  if ids k2 = ids k1 then some F
  else
    match dat k1, dat k2 with
    | some (.inl a), some (.inl b) => (Fmm.gravitation gc a.pos b.pos b.mass).map fun g => addTo k1 g F
    | _, _ => none

/-- The calls with cells that are far enough apart, in the order they are made. -/
noncomputable def fars {d : Nat} (dat : DataTable d) (gc : ℝ) : List Ghosts.Call → Field d → Option (Field d)
  | [], F => some F
  | .far k1 k2 :: l, F => (far dat gc F k1 k2).bind fun F => fars dat gc l F
  | .near _ _ :: l, F => fars dat gc l F

/-- The list `p2p` in its order. -/
noncomputable def nears {d : Nat} (dat : DataTable d) (gc : ℝ) (ids : Key → Int) : List Ghosts.Call → Field d → Option (Field d)
  | [], F => some F
  | .far _ _ :: l, F => nears dat gc ids l F
  | .near k1 k2 :: l, F => (near dat gc ids F k1 k2).bind fun F => nears dat gc ids l F

/-- `fmm_c2p` with `interaction_c2p`, fmm.h:91-120. -/
noncomputable def c2p {d : Nat} (dat : DataTable d) (k : Key) : List Key → Field d → Option (Field d)
  | [], F => some F
  | e :: l, F =>
    match dat k, dat e with
    | some (.inr (some n)), some (.inl b) => c2p dat k l (addTo e (F.pc k - ∑ i, (b.pos i - n.coords i) * F.fc k i, F.fc k) F)
    | _, _ => none

/-- The affected nodes one after the other, tree_topology.h:697-717. -/
noncomputable def downs {d : Nat} (nch p : Nat) (t : Table) (dat : DataTable d) (fuel : Nat) : List Key → Field d → Option (Field d)
  | [], F => some F
  | k :: l, F => (subEnts nch p t fuel k).bind fun es => (c2p dat k es F).bind fun F => downs nch p t dat fuel l F

/-- `gravitation_fmm` on process `p` with table `t` at the end of the traversal, given the calls the traversal made: potential and acceleration are reset before (default_physics.h:406-407) and the nodes
have no coefficients yet (node.h:70-81). The number bounds the depth of the tree. -/
noncomputable def gravity {d : Nat} (nch p : Nat) (t : Table) (dat : DataTable d) (gc : ℝ) (ids : Key → Int) (fuel : Nat) (calls : List Ghosts.Call) : Option (Field d) :=
  (fars dat gc calls ⟨0, 0, 0, 0⟩).bind fun F =>
    (affectedNodes nch p t (isAffected t calls) fuel []).bind fun ks =>
      (downs nch p t dat fuel ks F).bind fun F => nears dat gc ids calls F

end FleCSPH.DistGravity
