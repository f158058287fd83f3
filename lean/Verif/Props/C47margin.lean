import Verif.Props.C47fill
/-! C47, the upper faces: all generated particles keep a distance of 10^-6 of the length of the box from the upper faces,
so the sites on the lower and the upper face of a periodic box are not both filled. -/
namespace FleCSPH
open Lattice
open Classical

namespace Lattice

/-- The particles generated since `n0` satisfy `Q`. -/
def Since (n0 : Nat) (Q : Pos → Prop) (st : State) : Prop := n0 ≤ st.posid ∧ ∀ k, n0 ≤ k → k < st.posid → Q (st.pos k)

theorem since_visit {n0 : Nat} {Q dom : Pos → Prop} (hd : ∀ p, dom p → Q p) (p : Pos) {st : State} (h : Since n0 Q st) :
    Since n0 Q (visit false dom p st) := by
  unfold visit
  simp only [Bool.false_eq_true, if_false]
  split_ifs with hp
  · refine ⟨by have := h.1; simp only; omega, fun k h1 h2 => ?_⟩
    by_cases hk : k = st.posid
    · subst hk; simp only [Function.update_self]; exact hd p hp
    · simp only [Function.update_of_ne hk]
      exact h.2 k h1 (by simp only at h2; omega)
  · exact h

theorem since_loop {n0 : Nat} {Q : Pos → Prop} (hi step : ℝ) (next : ℝ → ℝ) (body : ℝ → ℝ → State → Option State)
    (hb : ∀ x s st st', Since n0 Q st → body x s st = some st' → Since n0 Q st') :
    ∀ fuel p s st st', Since n0 Q st → loop fuel hi step next body p s st = some st' → Since n0 Q st' := by
  intro fuel
  induction fuel with
  | zero => intro p s st st' _ h; simp [loop] at h
  | succ fuel ih =>
    intro p s st st' h0 h
    rw [loop] at h
    split_ifs at h
    · obtain ⟨st1, h1, h2⟩ := Option.bind_eq_some_iff.mp h
      exact ih _ _ _ _ (hb _ _ _ _ h0 h1) h2
    · exact Option.some.inj h ▸ h0

theorem since_some {n0 : Nat} {Q dom : Pos → Prop} (hd : ∀ p, dom p → Q p) (p : Pos) (st st' : State) (h0 : Since n0 Q st)
    (h : some (visit false dom p st) = some st') : Since n0 Q st' := by
  obtain rfl := Option.some.inj h
  exact since_visit hd p h0

end Lattice

theorem C47_margin_1d (fuel : Nat) (lo hi : Pos) (sep : ℝ) (st st' : State) (h : generate1 fuel false lo hi sep st = some st') :
    ∀ k, st.posid ≤ k → k < st'.posid → (st'.pos k).x < hi.x - 1 / 1000000 * (hi.x - lo.x) := by
  refine (since_loop (n0 := st.posid) (Q := fun p => p.x < hi.x - 1 / 1000000 * (hi.x - lo.x)) _ _ _ _ ?_ _ _ _ _ _ ⟨le_rfl, fun k h1 h2 => by omega⟩ h).2
  intro x s st st' h0 h
  exact since_some (fun p hp => hp.2) _ _ _ h0 h

theorem C47_margin_2d (fuel : Nat) (lattice domain : Int) (lo hi : Pos) (sep : ℝ) (st st' : State)
    (h : generate2 fuel false lattice domain lo hi sep st = some st') :
    ∀ k, st.posid ≤ k → k < st'.posid → (st'.pos k).x < hi.x - 1 / 1000000 * (hi.x - lo.x) ∧ (st'.pos k).y < hi.y - 1 / 1000000 * (hi.x - lo.x) := by
  have hd : ∀ p, inDomain2 domain lo hi p → p.x < hi.x - 1 / 1000000 * (hi.x - lo.x) ∧ p.y < hi.y - 1 / 1000000 * (hi.x - lo.x) :=
    fun p hp => ⟨hp.1.2.1, hp.1.2.2.2⟩
  refine And.right (a := st.posid ≤ st'.posid) ?_
  change Since st.posid (fun p => p.x < hi.x - 1 / 1000000 * (hi.x - lo.x) ∧ p.y < hi.y - 1 / 1000000 * (hi.x - lo.x)) st'
  have h0 : Since st.posid (fun p => p.x < hi.x - 1 / 1000000 * (hi.x - lo.x) ∧ p.y < hi.y - 1 / 1000000 * (hi.x - lo.x)) st :=
    ⟨le_rfl, fun k h1 h2 => by omega⟩
  unfold generate2 at h
  dsimp only at h
  split_ifs at h
  all_goals
    refine since_loop _ _ _ _ ?_ _ _ _ _ _ h0 h
    intro y _ st1 st2 h1 h2
    refine since_loop _ _ _ _ ?_ _ _ _ _ _ h1 h2
    intro x _ st3 st4 h3 h4
    exact since_some hd _ _ _ h3 h4

theorem C47_margin_3d (fuel : Nat) (lattice domain : Int) (lo hi : Pos) (sep : ℝ) (st st' : State)
    (h : generate3 fuel false lattice domain lo hi sep st = some st') :
    ∀ k, st.posid ≤ k → k < st'.posid → (st'.pos k).x < hi.x - 1 / 1000000 * (hi.x - lo.x) ∧ (st'.pos k).y < hi.y - 1 / 1000000 * (hi.x - lo.x) ∧
      (st'.pos k).z < hi.z - 1 / 1000000 * (hi.x - lo.x) := by
  have hd : ∀ p, inDomain3 domain lo hi p → p.x < hi.x - 1 / 1000000 * (hi.x - lo.x) ∧ p.y < hi.y - 1 / 1000000 * (hi.x - lo.x) ∧
      p.z < hi.z - 1 / 1000000 * (hi.x - lo.x) := fun p hp => ⟨hp.1.2.1, hp.1.2.2.2.1, hp.1.2.2.2.2.2⟩
  refine And.right (a := st.posid ≤ st'.posid) ?_
  change Since st.posid (fun p => p.x < hi.x - 1 / 1000000 * (hi.x - lo.x) ∧ p.y < hi.y - 1 / 1000000 * (hi.x - lo.x) ∧
      p.z < hi.z - 1 / 1000000 * (hi.x - lo.x)) st'
  have h0 : Since st.posid (fun p => p.x < hi.x - 1 / 1000000 * (hi.x - lo.x) ∧ p.y < hi.y - 1 / 1000000 * (hi.x - lo.x) ∧
      p.z < hi.z - 1 / 1000000 * (hi.x - lo.x)) st := ⟨le_rfl, fun k h1 h2 => by omega⟩
  unfold generate3 at h
  dsimp only at h
  split_ifs at h
  on_goal 4 => exact Option.some.inj h ▸ h0
  all_goals
    refine since_loop _ _ _ _ ?_ _ _ _ _ _ h0 h
    intro z _ st1 st2 h1 h2
    refine since_loop _ _ _ _ ?_ _ _ _ _ _ h1 h2
    intro y _ st3 st4 h3 h4
    refine since_loop _ _ _ _ ?_ _ _ _ _ _ h3 h4
    intro x _ st5 st6 h5 h6
    exact since_some hd _ _ _ h5 h6

/-- Ten sites at 0, 0.1, .., 0.9: the generators do finish. -/
example : ∃ fuel st', generate1 fuel false ⟨0, 0, 0⟩ ⟨1, 0, 0⟩ (1 / 10) ⟨0, fun _ => ⟨0, 0, 0⟩⟩ = some st' := by
  obtain ⟨f, hf⟩ := C47_1d ⟨0, 0, 0⟩ ⟨1, 0, 0⟩ (1 / 10) (by norm_num)
  obtain ⟨_, hn⟩ := hf f le_rfl
  obtain ⟨-, st', h, -⟩ := hn ⟨0, fun _ => ⟨0, 0, 0⟩⟩
  exact ⟨f, st', h⟩

end FleCSPH
