import Verif.Model.Rounding
import Verif.Model.DistGravity
/-!
`gravitation_fmm` in floating-point arithmetic: the functions of include/physics/fmm.h and the acceptance criterion again, with the result of every operation on `double` rounded. The cells have the
data `compute_cofm` gives them with rounding (`Rounded.summarise`). See Model/DistGravity.lean for what the functions do and Model/Rounding.lean for the assumptions on the arithmetic.
-/
namespace FleCSPH.Rounded
open FleCSPH.Geometry FleCSPH.Cofm FleCSPH.Startup FleCSPH.Ghosts FleCSPH.DistGravity

variable {d : Nat} (R : Rounding)

/-- `mac`, tree_geometry.h:124-131, 229-236, 343-350. -/
def mac (source : Point d) (sourceRadius : ℝ) (sink : Point d) (radius macAngle : ℝ) : Prop :=
  R.fl (sourceRadius + radius) < R.fl (macAngle * distance R source sink)

open Classical in
/-- The criterion for two cells with data `Val`, tree_topology.h:529-555. -/
noncomputable def macOf (Val : Key → Data d) (angle : ℝ) (k1 k2 : Key) : Bool :=
  decide (∃ a b, place (Val k1) = some a ∧ place (Val k2) = some b ∧ mac R a.1 a.2 b.1 b.2 angle)

open Classical in
/-- The comparison of the radii, tree_topology.h:620. Nothing is computed. -/
noncomputable def biggerOf (Val : Key → Data d) (k1 k2 : Key) : Bool := decide (∃ a b, place (Val k1) = some a ∧ place (Val k2) = some b ∧ a.2 > b.2)

/-- `gravitation_p2p`, fmm.h:38-48: what is added to potential and acceleration; `none`: division by zero. -/
noncomputable def gravitationP2P (gc : ℝ) (x y : Point d) (m : ℝ) : Option (ℝ × Point d) :=
  let dist := distance R x y
  let d3 := R.fl (R.fl (dist * dist) * dist)
  if dist = 0 ∨ d3 = 0 then none
  else some (R.fl (R.fl (-gc * m) / dist), fun i => R.fl (R.fl (R.fl (-gc * m) / d3) * R.fl (x i - y i)))

/-- `gravitation_fc` for a node and for a body, fmm.h:53-85: the same formula in another order. -/
noncomputable def gravitationFc (gc : ℝ) (x y : Point d) (m : ℝ) : Option (ℝ × Point d) :=
  let dist := distance R x y
  let d3 := R.fl (R.fl (dist * dist) * dist)
  if dist = 0 ∨ d3 = 0 then none
  else some (R.fl (R.fl (-gc * m) / dist), fun i => R.fl (R.fl (R.fl (-gc * m) * R.fl (x i - y i)) / d3))

/-- `pc += ..`, `fc[m] += ..`, fmm.h:62-65, 81-84. -/
noncomputable def addCoeff (k : Key) (g : ℝ × Point d) (F : Field d) : Field d :=
  { F with pc := fun k' => if k' = k then R.fl (F.pc k' + g.1) else F.pc k', fc := fun k' => if k' = k then fun i => R.fl (F.fc k' i + g.2 i) else F.fc k' }

/-- Adding to potential and acceleration of an entity, fmm.h:45, 62-65, 106-107, 138. -/
noncomputable def addTo (e : Key) (g : ℝ × Point d) (F : Field d) : Field d :=
  { F with pot := fun k => if k = e then R.fl (F.pot k + g.1) else F.pot k, acc := fun k => if k = e then fun i => R.fl (F.acc k i + g.2 i) else F.acc k }

/-- A call for two cells that are far enough apart, tree_topology.h:555-580 with fmm.h:122-160. -/
noncomputable def far (dat : DataTable d) (gc : ℝ) (F : Field d) (k1 k2 : Key) : Option (Field d) :=
  match dat k1, dat k2 with
  | some (.inr (some n1)), some (.inr (some n2)) => (gravitationFc R gc n1.coords n2.coords n2.mass).map fun g => addCoeff R k1 g F
  | some (.inr (some n1)), some (.inl b) => (gravitationFc R gc n1.coords b.pos b.mass).map fun g => addCoeff R k1 g F
  | some (.inl a), some (.inr (some n2)) => (gravitationFc R gc a.pos n2.coords n2.mass).map fun g => addTo R k1 g F
  | _, _ => none

/-- A pair of entities, tree_topology.h:719-776 with fmm.h:122-143. -/
noncomputable def nearPair (dat : DataTable d) (gc : ℝ) (ids : Key → Int) (F : Field d) (k1 k2 : Key) : Option (Field d) :=
  if ids k2 = ids k1 then some F
  else
    match dat k1, dat k2 with
    | some (.inl a), some (.inl b) => (gravitationP2P R gc a.pos b.pos b.mass).map fun g => addTo R k1 g F
    | _, _ => none

/-- The calls with cells that are far enough apart, in the order they are made, tree_topology.h:555-580. -/
noncomputable def fars (dat : DataTable d) (gc : ℝ) : List Ghosts.Call → Field d → Option (Field d)
  | [], F => some F
  | .far k1 k2 :: l, F => (far R dat gc F k1 k2).bind fun F => fars dat gc l F
  | .near _ _ :: l, F => fars dat gc l F

/-- The list `p2p` in its order, tree_topology.h:719-776. -/
noncomputable def nears (dat : DataTable d) (gc : ℝ) (ids : Key → Int) : List Ghosts.Call → Field d → Option (Field d)
  | [], F => some F
  | .far _ _ :: l, F => nears dat gc ids l F
  | .near k1 k2 :: l, F => (nearPair R dat gc ids F k1 k2).bind fun F => nears dat gc ids l F

/-- The potential of `interaction_c2p`, fmm.h:97-105: `pot += -r[i]*fc[i]` from left to right. -/
noncomputable def expand (x c : Point d) (pc : ℝ) (fc : Point d) : ℝ := (List.finRange d).foldl (fun s i => R.fl (s + R.fl (-R.fl (x i - c i) * fc i))) pc

/-- `fmm_c2p` with `interaction_c2p`, fmm.h:91-120. -/
noncomputable def c2p (dat : DataTable d) (k : Key) : List Key → Field d → Option (Field d)
  | [], F => some F
  | e :: l, F =>
    match dat k, dat e with
    | some (.inr (some n)), some (.inl b) => c2p dat k l (addTo R e (expand R b.pos n.coords (F.pc k) (F.fc k), F.fc k) F)
    | _, _ => none

/-- The affected nodes one after the other, tree_topology.h:697-717. -/
noncomputable def downs (nch p : Nat) (t : Table) (dat : DataTable d) (fuel : Nat) : List Key → Field d → Option (Field d)
  | [], F => some F
  | k :: l, F => (subEnts nch p t fuel k).bind fun es => (c2p R dat k es F).bind fun F => downs nch p t dat fuel l F

/-- `gravitation_fmm` on process `p`, bodies_system.h:282-288: see `DistGravity.gravity`. -/
noncomputable def gravity (nch p : Nat) (t : Table) (dat : DataTable d) (gc : ℝ) (ids : Key → Int) (fuel : Nat) (calls : List Ghosts.Call) : Option (Field d) :=
  (fars R dat gc calls ⟨0, 0, 0, 0⟩).bind fun F =>
    (affectedNodes nch p t (isAffected t calls) fuel []).bind fun ks =>
      (downs R nch p t dat fuel ks F).bind fun F => nears R dat gc ids calls F

end FleCSPH.Rounded
