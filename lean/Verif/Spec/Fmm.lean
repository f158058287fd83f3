import Verif.Model.Fmm
/-! Specification: how often the calls of an FMM traversal account for the action of one particle on another. -/
namespace FleCSPH.Spec
open FleCSPH.Fmm

/-- The calls that put the action of particle `b` into the coefficients of the node `k`. -/
def intoNode (below : Nat → Finset Nat) (b k : Nat) : Call → ℕ
  | .c2c k1 k2 => if k1 = k ∧ b ∈ below k2 then 1 else 0
  | .p2c k1 e => if k1 = k ∧ e = (false, (b : Int)) then 1 else 0
  | _ => 0

/-- How often one call lets particle `b` act on particle `a`, directly, through a node holding `b`, or through the
coefficients of a node, which `calls` filled. -/
def actsOn (below : Nat → Finset Nat) (calls : List Call) (a b : Nat) : Call → ℕ
  | .p2p e1 e2 => if e1 = (false, (a : Int)) ∧ e2 = (false, (b : Int)) then 1 else 0
  | .n2p e1 k2 => if e1 = (false, (a : Int)) ∧ b ∈ below k2 then 1 else 0
  | .c2p k subs => subs.count (false, (a : Int)) * (calls.map (intoNode below b k)).sum
  | _ => 0

/-- How often `b` acts on `a`. -/
def actions (below : Nat → Finset Nat) (calls : List Call) (a b : Nat) : ℕ := (calls.map (actsOn below calls a b)).sum

/-- Coefficients are used only when they are complete. -/
def Ordered (calls : List Call) : Prop :=
  ∃ first second, calls = first ++ second ∧ (∀ k subs, .c2p k subs ∉ first) ∧
    (∀ k1 k2, .c2c k1 k2 ∉ second) ∧ ∀ k1 e2, .p2c k1 e2 ∉ second

end FleCSPH.Spec
