import Verif.Lemmas.Tree2

/-! `build_tree` on two particles with the same key. -/
namespace FleCSPH.Tree
open FleCSPH.Spec FleCSPH.HCell FleCSPH.BuildTree

theorem turn_dup (E : Env) (X : Nat → Prop) (es : List Nat) (x : Nat) (s : St) (h : TInv E X es x s)
    (hlt : es.length < E.ents.length) (hz : E.ents.getD es.length E.hibound = x) : turn E es.length s = none := by
  have hn : (E.iamlast && es.length == E.ents.length) = false := by
    have : ¬ es.length = E.ents.length := by omega
    simp [this]
  rw [turn]
  dsimp only
  rw [hz, hn, pop_some (Nat.le_of_lt h.leaf.1)]
  simp only [Option.bind_eq_bind, Option.bind_some]
  rw [h.lek, ascend_still _ _ _ _ _ _ _ rfl (by rw [h.lnk])]
  simp only [Option.bind_some, Bool.false_eq_true, if_false]
  rw [BuildTree.insert]
  dsimp only
  cases s.tbl s.lastnkey with
  | none => rfl
  | some p =>
    simp only [Option.bind_eq_bind, Option.bind_some]
    rw [descend_dup]
    rfl

theorem turns_dup (E : Env) (hE : EnvOk E) (h0 : E.iam0 = true) (h1 : E.iamlast = true) (x : Nat) (post : List Nat) (k : Nat) :
    ∀ (mid es : List Nat) (y : Nat) (s : St), E.ents = es ++ mid ++ x :: post → (es ++ mid).Pairwise (· < ·) →
    (∀ w ∈ es ++ mid, FullKey E.D E.dim w) → (es ++ mid).getLast? = some x →
    0 < es.length → es[es.length - 1]? = some y → TInv E (fun w => w ∈ es) es y s →
    turns E (mid.length + 1 + k) es.length s = none := by
  intro mid
  induction mid with
  | nil =>
    intro es y s he hlt hfull hlast hlen hy h
    rw [List.append_nil] at he hlast
    have hyx : y = x := by
      rw [List.getLast?_eq_getElem?] at hlast
      rw [hlast] at hy; exact (Option.some.inj hy).symm
    subst hyx
    rw [show ([] : List Nat).length + 1 + k = k + 1 from by simp [Nat.add_comm], turns]
    simp only [Option.bind_eq_bind]
    rw [turn_dup E _ es y s h (by rw [he]; simp) (by rw [he]; simp)]
    rfl
  | cons z mid ih =>
    intro es y s he hlt hfull hlast hlen hy h
    have hyz : y < z := by
      rw [List.pairwise_append] at hlt
      exact hlt.2.2 y (List.mem_of_getElem? hy) z List.mem_cons_self
    have hltn : es.length < E.ents.length := by rw [he]; simp
    obtain ⟨s', hs, hinv⟩ := turn_next E hE _ es y z s h hlen hy (by rw [he]; simp) (hfull z (by simp)) hyz
      (by have : ¬ es.length = E.ents.length := by omega
          simp [this]) (by simp [h0]) (by simp [h1])
    rw [if_pos hltn] at hinv
    have hX : (fun w => w ∈ es ∨ w = z) = (fun w => w ∈ es ++ [z]) := by
      funext w; simp
    rw [hX] at hinv
    have := ih (es ++ [z]) z s' (by rw [he]; simp) (by simpa using hlt) (by simpa using hfull) (by simpa using hlast)
      (by simp) (by simp) hinv
    rw [show (z :: mid).length + 1 + k = (mid.length + 1 + k) + 1 from by simp; omega, turns]
    simp only [Option.bind_eq_bind]
    rw [hs]
    simp only [Option.bind_some, Bool.false_eq_true, if_false]
    rw [List.length_append, List.length_singleton] at this
    exact this

theorem build_dup (E : Env) (hE : EnvOk E) (h0 : E.iam0 = true) (h1 : E.iamlast = true) (x : Nat) (pre post : List Nat)
    (he : E.ents = pre ++ x :: x :: post) (hlt : (pre ++ [x]).Pairwise (· < ·))
    (hfull : ∀ w ∈ pre ++ [x], FullKey E.D E.dim w) : buildTree E = none := by
  obtain ⟨z, rest, hz⟩ : ∃ z rest, pre ++ [x] = z :: rest := List.exists_cons_of_ne_nil (by simp)
  have he' : E.ents = z :: (rest ++ x :: post) := by
    rw [he, show pre ++ x :: x :: post = (pre ++ [x]) ++ x :: post from by simp, hz]; rfl
  -- the first turn only needs the first key
  have hz2 : [z] ++ rest = pre ++ [x] := hz.symm
  have hfz : FullKey E.D E.dim z := hfull z (by rw [hz]; exact List.mem_cons_self)
  obtain ⟨s', hs, hinv⟩ := turn_zero0 E hE z (rest ++ x :: post) he' hfz
  have hX : (fun y => y = z) = (fun w => w ∈ [z]) := by funext w; simp
  rw [hX] at hinv
  have := turns_dup E hE h0 h1 x post (post.length + 1) rest [z] z s' (by rw [he']; rfl) (by rw [hz2]; exact hlt)
    (by rw [hz2]; exact hfull)
    (by rw [hz2]; simp) (by simp) (by simp) hinv
  rw [buildTree, if_neg (by rw [he]; simp), show E.ents.length + 1 = (rest.length + 1 + (post.length + 1)) + 1 from by
    rw [he']; simp; omega, turns]
  simp only [Option.bind_eq_bind]
  rw [h0, if_pos rfl, hs]
  exact this

end FleCSPH.Tree
