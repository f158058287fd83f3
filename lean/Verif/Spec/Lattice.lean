import Verif.Model.Lattice
/-! What a lattice generator should do. -/
namespace FleCSPH.Lattice

/-- The square of the distance of two positions. -/
def dist2 (p q : Pos) : ℝ := (p.x - q.x) ^ 2 + (p.y - q.y) ^ 2 + (p.z - q.z) ^ 2

/-- A generator, as a function of the flag `count_only`, keeps its promises: for some number `n`, whatever the arrays hold and wherever it starts, the counting pass
returns `n` and writes nothing; the generating pass writes the `n` entries from the start on and nothing else, each `inside`, and each two `apart`. -/
def Generates (gen : Bool → State → Option State) (inside : Pos → Prop) (apart : Pos → Pos → Prop) : Prop :=
  ∃ n, ∀ st,
    (∃ st1, gen true st = some st1 ∧ st1.posid = st.posid + n ∧ st1.pos = st.pos) ∧
    ∃ st2, gen false st = some st2 ∧ st2.posid = st.posid + n ∧
      (∀ k, k < st.posid ∨ st.posid + n ≤ k → st2.pos k = st.pos k) ∧
      (∀ k < n, inside (st2.pos (st.posid + k))) ∧
      ∀ k < n, ∀ k' < n, k ≠ k' → apart (st2.pos (st.posid + k)) (st2.pos (st.posid + k'))

/-- A box without its upper faces. -/
def Box1 (lo hi p : Pos) : Prop := lo.x ≤ p.x ∧ p.x < hi.x
def Box2 (lo hi p : Pos) : Prop := Box1 lo hi p ∧ lo.y ≤ p.y ∧ p.y < hi.y
def Box3 (lo hi p : Pos) : Prop := Box2 lo hi p ∧ lo.z ≤ p.z ∧ p.z < hi.z

/-- The largest ball around the centre of a box. -/
noncomputable def ball2 (lo hi p : Pos) : Prop :=
  (p.x - (lo.x + hi.x) / 2) ^ 2 + (p.y - (lo.y + hi.y) / 2) ^ 2 ≤ (min (hi.x - lo.x) (hi.y - lo.y) / 2) ^ 2

/-- The same ball moved by a millionth of the width of the box along the negative diagonal, without its surface. -/
noncomputable def movedBall2 (lo hi p : Pos) : Prop :=
  (p.x + (hi.x - lo.x) / 1000000 - (lo.x + hi.x) / 2) ^ 2 + (p.y + (hi.x - lo.x) / 1000000 - (lo.y + hi.y) / 2) ^ 2 <
    (min (hi.x - lo.x) (hi.y - lo.y) / 2) ^ 2

noncomputable def movedBall3 (lo hi p : Pos) : Prop :=
  (p.x + (hi.x - lo.x) / 1000000 - (lo.x + hi.x) / 2) ^ 2 + (p.y + (hi.x - lo.x) / 1000000 - (lo.y + hi.y) / 2) ^ 2 +
    (p.z + (hi.x - lo.x) / 1000000 - (lo.z + hi.z) / 2) ^ 2 < (min (min (hi.x - lo.x) (hi.y - lo.y)) (hi.z - lo.z) / 2) ^ 2

/-- A box without its upper faces, enlarged at its lower faces by a millionth of its width. -/
noncomputable def WideBox3 (lo hi p : Pos) : Prop :=
  let tol := (hi.x - lo.x) / 1000000
  (lo.x - tol < p.x ∧ p.x < hi.x) ∧ (lo.y - tol < p.y ∧ p.y < hi.y) ∧ lo.z ≤ p.z ∧ p.z < hi.z

/-- A generator writes a particle at `p`. -/
def Writes (gen : Bool → State → Option State) (p : Pos) : Prop :=
  ∀ st, ∃ st2, gen false st = some st2 ∧ ∃ k, st.posid ≤ k ∧ k < st2.posid ∧ st2.pos k = p

/-- A box without what lies within a millionth of its width of the upper faces. -/
noncomputable def Inner1 (lo hi p : Pos) : Prop := lo.x ≤ p.x ∧ p.x < hi.x - (hi.x - lo.x) / 1000000
noncomputable def Inner2 (lo hi p : Pos) : Prop := Inner1 lo hi p ∧ lo.y ≤ p.y ∧ p.y < hi.y - (hi.x - lo.x) / 1000000
noncomputable def Inner3 (lo hi p : Pos) : Prop := Inner2 lo hi p ∧ lo.z ≤ p.z ∧ p.z < hi.z - (hi.x - lo.x) / 1000000

/-- The positions of the triangular lattice with a site at the lower corner: rows `√3/2` apart, every second one shifted by one half. -/
noncomputable def triangularSite (lo : Pos) (sep : ℝ) (i j : ℕ) : Pos := ⟨lo.x + (i + (if j % 2 = 1 then 1 / 2 else 0)) * sep, lo.y + j * (√3 / 2 * sep), 0⟩

/-- Layers of the triangular lattice, `√(2/3)` apart; layer `l` is shifted back by `s l` steps of half a separation in x and a third of a row in y. -/
noncomputable def stackedSite (s : ℕ → ℕ) (lo : Pos) (sep : ℝ) (i j l : ℕ) : Pos :=
  ⟨lo.x + (i + (if j % 2 = 1 then 1 / 2 else 0) - s l / 2) * sep, lo.y + (j - s l / 3) * (√3 / 2 * sep), lo.z + l * (√(2 / 3) * sep)⟩

end FleCSPH.Lattice
