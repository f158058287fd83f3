import Verif.Model.Icosahedral
import Verif.Spec.Lattice
/-! Specification of the icosahedral lattice. -/
namespace FleCSPH.Lattice

/-- The points of the `k`th shell: a triangulated icosahedron with `k` intervals along an edge: its 12 vertices, `k - 1` points inside of each of the 30 edges, `(k - 1)(k - 2)/2`
inside of each of the 20 faces. -/
def shellSize (k : Nat) : Nat := if k = 0 then 1 else 12 + 30 * (k - 1) + 20 * ((k - 1) * (k - 2) / 2)

/-- All points of the shells up to the `k`th. -/
def sphereSize : Nat → Nat
  | 0 => shellSize 0
  | k + 1 => sphereSize k + shellSize (k + 1)

/-- The radii with which the shells are generated: the state of the loop before shell `NN`. -/
noncomputable def radiiAt (rho mass : ℝ → ℝ) (stop : ℝ → ℝ → Prop) (R m0 : ℝ) : Nat → Radii
  | 0 => firstRadii rho R m0
  | k + 1 => nextRadii rho mass stop R m0 (shellSize (k + 1)) (radiiAt rho mass stop R m0 k)

/-- A generator as a function of the flag `count_only`: the counting pass returns `n` and writes nothing, the generating pass writes `n` entries from the start on and nothing else,
all `inside`. -/
def Places (gen : Bool → State → Option State) (n : Nat) (inside : Pos → Prop) : Prop :=
  ∀ st,
    (∃ st1, gen true st = some st1 ∧ st1.posid = st.posid + n ∧ st1.pos = st.pos) ∧
    ∃ st2, gen false st = some st2 ∧ st2.posid = st.posid + n ∧
      (∀ k, k < st.posid ∨ st.posid + n ≤ k → st2.pos k = st.pos k) ∧
      ∀ k < n, inside (st2.pos (st.posid + k))

end FleCSPH.Lattice
