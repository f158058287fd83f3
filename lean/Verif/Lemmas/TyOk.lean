import Verif.Lemmas.Build3
/-! `build_tree` leaves the locality, request and reception fields of every cell at zero. -/
namespace FleCSPH.Tree
open FleCSPH.Spec FleCSPH.HCell FleCSPH.BuildTree

def TyOk (dim : Nat) (t : Tbl) : Prop := ∀ k c, t k = some c → c.ty < 2 ^ (2 ^ dim)

theorem TyOk.set {dim : Nat} {t : Tbl} (h : TyOk dim t) (k : Nat) (c : Cell) (hc : c.ty < 2 ^ (2 ^ dim)) : TyOk dim (t.set k c) := by
  intro k' c' hk
  rw [set_apply] at hk
  split_ifs at hk
  · cases hk; exact hc
  · exact h k' c' hk

theorem TyOk.emplace {dim : Nat} {t : Tbl} (h : TyOk dim t) (k : Nat) (c : Cell) (hc : c.ty < 2 ^ (2 ^ dim)) : TyOk dim (t.emplace k c) := by
  rw [Tbl.emplace]
  split_ifs
  · exact h
  · exact h.set k c hc

theorem ty_add {dim : Nat} {c : Cell} (hc : c.ty < 2 ^ (2 ^ dim)) (v : Nat) : (addChild c (Key.lastValue dim v)).ty < 2 ^ (2 ^ dim) := by
  rw [addChild]
  apply Nat.or_lt_two_pow hc
  rw [Nat.one_shiftLeft, lastValue_eq]
  exact Nat.pow_lt_pow_right (by decide) (Nat.mod_lt _ (Nat.pow_pos (by decide)))

theorem setEntityIdx_ty {c c' : Cell} {i : Int} (h : setEntityIdx c i = some c') : c'.ty = c.ty := by
  rw [setEntityIdx] at h
  split_ifs at h
  cases h; rfl

theorem setNodeIdx_ty {c c' : Cell} {i : Int} (h : setNodeIdx c i = some c') : c'.ty = c.ty := by
  rw [setNodeIdx] at h
  split_ifs at h
  cases h; rfl

theorem zero_ty (dim : Nat) : (0 : Nat) < 2 ^ (2 ^ dim) := Nat.pow_pos (by decide)

theorem finish_ty {dim : Nat} {t t' : Tbl} {cofm cofm' : List CofmCall} {key : Nat} (ht : TyOk dim t)
    (h : finish dim t cofm key = some (t', cofm')) : TyOk dim t' := by
  rw [finish] at h
  simp only [Option.bind_eq_bind, Option.bind_eq_some_iff] at h
  obtain ⟨n, hn, h⟩ := h
  split_ifs at h with hc
  · cases h; exact ht
  · simp only [Option.bind_eq_some_iff] at h
    obtain ⟨n', hn', ds, -, ⟨es, ns⟩, -, h⟩ := h
    cases h
    exact ht.set _ _ (by rw [setNodeIdx_ty hn']; exact ht _ _ hn)

theorem ascend_ty {E : Env} {final : Bool} {ekey lastekey : Nat} : ∀ {fuel : Nat} {again : Bool} {s u : Up}, TyOk E.dim s.tbl →
    ascend E final ekey lastekey fuel again s = some u → TyOk E.dim u.tbl := by
  intro fuel
  induction fuel with
  | zero => intro again s u _ h; simp [ascend] at h
  | succ fuel ih =>
    intro again s u ht h
    rw [ascend] at h
    split at h
    · simp only [Option.bind_eq_bind, Option.bind_eq_some_iff] at h
      obtain ⟨⟨tbl, cofm⟩, h1, h⟩ := h
      have htb : TyOk E.dim tbl := by
        rw [tryFinish] at h1
        simp only [Option.bind_eq_bind, Option.bind_eq_some_iff] at h1
        obtain ⟨lo, -, hi, -, h1⟩ := h1
        split_ifs at h1 with hc1
        · exact finish_ty ht h1
        · cases h1; exact ht
      dsimp only at h
      split_ifs at h with hc2
      · cases h; exact htb
      · simp only [Option.bind_eq_some_iff] at h
        obtain ⟨nk, -, lnk, -, h⟩ := h
        exact ih (s := ⟨tbl, cofm, s.cd + 1, nk, lnk⟩) htb h
    · cases h; exact ht

theorem descend_ty {E : Env} {ekey lastekey : Nat} : ∀ {cd : Nat} {t : Tbl} {parent : Nat} {r : Tbl × Nat × Nat × Nat × Nat},
    TyOk E.dim t → descend E ekey lastekey cd t parent = some r → TyOk E.dim r.1 := by
  intro cd
  induction cd with
  | zero => intro t parent r _ h; simp [descend] at h
  | succ cd ih =>
    intro t parent r ht h
    rw [descend] at h
    simp only [Option.bind_eq_bind, Option.bind_eq_some_iff] at h
    obtain ⟨lnk, -, nk, -, h⟩ := h
    split_ifs at h with hc
    · cases h; exact ht
    · simp only [Option.bind_eq_some_iff] at h
      obtain ⟨p, hp, p', hp', h⟩ := h
      refine ih ?_ h
      exact (ht.set _ _ (by rw [setEntityIdx_ty hp']; exact ty_add (ht _ _ hp) _)).emplace _ _ (zero_ty _)

theorem insert_ty {E : Env} {i ekey lastekey : Nat} {u : Up} {r : Tbl × Nat × Nat} (ht : TyOk E.dim u.tbl)
    (h : BuildTree.insert E i ekey lastekey u = some r) : TyOk E.dim r.1 := by
  rw [BuildTree.insert] at h
  simp only [Option.bind_eq_bind, Option.bind_eq_some_iff] at h
  obtain ⟨p, -, ⟨t1, parent, cd, nkey, lastnkey⟩, h1, h⟩ := h
  have ht1 : TyOk E.dim t1 := descend_ty ht h1
  obtain ⟨t2, h2, h⟩ := h
  have ht2 : TyOk E.dim t2 := by
    rw [recover] at h2
    split_ifs at h2 with hc
    · simp only [Option.bind_eq_bind, Option.bind_eq_some_iff] at h2
      obtain ⟨q, hq, q', hq', h2⟩ := h2
      cases h2
      exact (ht1.set _ _ (by rw [setEntityIdx_ty hq']; exact ty_add (ht1 _ _ hq) _)).emplace _ _ (zero_ty _)
    · cases h2; exact ht1
  obtain ⟨t3, h3, h⟩ := h
  cases h
  rw [addEntity] at h3
  split_ifs at h3 with hc
  · simp only [Option.bind_eq_bind, Option.bind_eq_some_iff] at h3
    obtain ⟨q, hq, h3⟩ := h3
    cases h3
    exact (ht2.set _ _ (ty_add (ht2 _ _ hq) _)).emplace _ _ (zero_ty _)
  · cases h3; exact ht2

theorem turn_ty {E : Env} {i : Nat} {s : St} {r : St × Bool} (ht : TyOk E.dim s.tbl) (h : turn E i s = some r) :
    TyOk E.dim r.1.tbl := by
  rw [turn] at h
  simp only [Option.bind_eq_bind, Option.bind_eq_some_iff] at h
  obtain ⟨nk, -, u, hu, h⟩ := h
  have htu := ascend_ty (s := ⟨s.tbl, s.cofm, s.cd, nk, s.lastnkey⟩) ht hu
  split_ifs at h with hc
  · cases h; exact htu
  · simp only [Option.bind_eq_some_iff] at h
    obtain ⟨⟨t, cd, nk'⟩, h1, h⟩ := h
    cases h
    exact insert_ty htu h1

theorem turns_ty {E : Env} : ∀ {n i : Nat} {s r : St}, TyOk E.dim s.tbl → turns E n i s = some r → TyOk E.dim r.tbl := by
  intro n
  induction n with
  | zero => intro i s r ht h; rw [turns] at h; cases h; exact ht
  | succ n ih =>
    intro i s r ht h
    rw [turns] at h
    simp only [Option.bind_eq_bind, Option.bind_eq_some_iff] at h
    obtain ⟨⟨s', stop⟩, h1, h⟩ := h
    have h2 := turn_ty ht h1
    dsimp only at h
    split_ifs at h with hc
    · cases h; exact h2
    · exact ih h2 h

theorem build_ty {E : Env} {s : St} (h : buildTree E = some s) : TyOk E.dim s.tbl := by
  rw [buildTree] at h
  split at h
  · cases h
  refine turns_ty ?_ h
  show TyOk E.dim (Tbl.emplace (fun _ => none) Key.root {})
  refine TyOk.emplace ?_ _ _ (zero_ty _)
  intro k c hk
  cases hk

theorem ty_shared {dim : Nat} {c : Cell} (h : c.ty < 2 ^ (2 ^ dim)) : isShared dim c = false := by
  rw [isShared, localityMask, localityDispl, Nat.one_shiftLeft, Nat.shiftRight_and_distrib,
    Nat.shiftRight_eq_div_pow, Nat.div_eq_of_lt h]
  simp

theorem ty_receive {dim : Nat} {c : Cell} (h : c.ty < 2 ^ (2 ^ dim)) : nchildrenToReceive dim c = 0 := by
  rw [nchildrenToReceive, nchildRecvDispl, Nat.one_shiftLeft, Nat.shiftRight_eq_div_pow, Nat.div_eq_of_lt]
  · simp
  · exact lt_of_lt_of_le h (Nat.pow_le_pow_right (by decide) (by omega))

theorem ty_requested {dim : Nat} {c : Cell} (h : c.ty < 2 ^ (2 ^ dim)) : requested dim c = false := by
  rw [requested, requestedMask, requestedDispl, Nat.one_shiftLeft, Nat.one_shiftLeft]
  have : c.ty &&& 2 ^ (2 ^ dim + 2) = 0 := by
    apply Nat.eq_of_testBit_eq
    intro i
    rw [Nat.testBit_and, Nat.zero_testBit, Nat.testBit_two_pow]
    by_cases hi : 2 ^ dim + 2 = i
    · subst hi
      rw [Nat.testBit_lt_two_pow (lt_of_lt_of_le h (Nat.pow_le_pow_right (by decide) (by omega)))]
      simp
    · simp [hi]
  simp [this]

theorem hasChild_of {dim : Nat} {c : Cell} {b : Nat} (hb : b < 2 ^ dim) (h : getChild c b = true) : hasChild dim c = true := by
  rw [hasChild, bne_iff_ne]
  intro h0
  have : (c.ty &&& ((1 <<< (1 <<< dim)) - 1)).testBit b = true := by
    rw [Nat.testBit_and, ← getChild_eq, h, Nat.one_shiftLeft, Nat.one_shiftLeft, Nat.testBit_two_pow_sub_one]
    simpa using hb
  rw [h0] at this
  simp at this

end FleCSPH.Tree
