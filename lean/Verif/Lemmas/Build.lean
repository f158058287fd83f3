import Verif.Lemmas.Tree

/-! The invariant of `build_tree`. -/
namespace FleCSPH.Tree
open FleCSPH.Spec FleCSPH.HCell FleCSPH.BuildTree

variable {D dim : Nat}

/-- Level form of `Holds`. -/
def H (D dim c x : Nat) : Prop := ∃ p ≤ D, A dim p x = c

def Node (D dim : Nat) (X : Nat → Prop) (c : Nat) : Prop :=
  c = 1 ∨ ∃ x y, X x ∧ X y ∧ x ≠ y ∧ ∃ p ≤ D, A dim p x = c ∧ A dim p y = c

def LeafAt (D dim : Nat) (X : Nat → Prop) (x p : Nat) : Prop :=
  p < D ∧ (∀ y, X y → A dim p y = A dim p x → y = x) ∧
    (p + 1 = D ∨ ∃ y, X y ∧ y ≠ x ∧ A dim (p + 1) y = A dim (p + 1) x)

theorem leafAt_unique {X : Nat → Prop} {x p r : Nat} (hp : LeafAt D dim X x p) (hr : LeafAt D dim X x r) : p = r := by
  have key : ∀ {p r}, LeafAt D dim X x p → LeafAt D dim X x r → ¬ p < r := by
    intro p r hp hr h
    rcases hp.2.2 with h1 | ⟨y, hy, hne, he⟩
    · have := hr.1; omega
    · exact hne (hr.2.1 y hy (A_up he h))
  rcases Nat.lt_trichotomy p r with h | h | h
  · exact absurd h (key hp hr)
  · exact h
  · exact absurd h (key hr hp)

open Classical in
theorem leafAt_exists (hD : 0 < D) (X : Nat → Prop) (x : Nat) : ∃ p, LeafAt D dim X x p := by
  have hex : ∃ p, p + 1 = D ∨ ∃ y, X y ∧ y ≠ x ∧ A dim (p + 1) y = A dim (p + 1) x := ⟨D - 1, Or.inl (by omega)⟩
  let p := Nat.find hex
  have h1 := Nat.find_spec hex
  have hmin := fun m (hm : m < p) => Nat.find_min hex hm
  have hlt : p < D := by
    rcases Nat.lt_or_ge (D - 1) p with h | h
    · exact absurd (Or.inl (by omega)) (hmin (D - 1) h)
    · omega
  refine ⟨p, hlt, ?_, h1⟩
  intro y hy he
  apply Classical.byContradiction
  intro hne
  rcases Nat.eq_zero_or_pos p with h0 | h0
  · rw [h0, A_zero, A_zero] at he; exact hne he
  · have := hmin (p - 1) (by omega)
    apply this
    right
    exact ⟨y, hy, hne, by rw [Nat.sub_add_cancel h0]; exact he⟩

theorem node_pos {X : Nat → Prop} {c : Nat} (hX : ∀ y, X y → FullKey D dim y) (h : Node D dim X c) : 0 < c := by
  rcases h with rfl | ⟨y, _, hy, -, -, q, hq, hq2, -⟩
  · decide
  · rw [← hq2]; exact A_pos (hX y hy) hq

theorem node_up {X : Nat → Prop} {x p r : Nat} (hdim : 0 < dim) (hX : ∀ y, X y → FullKey D dim y) (hx : FullKey D dim x)
    (hp : p ≤ r) (hr : r ≤ D) (h : Node D dim X (A dim p x)) : Node D dim X (A dim r x) := by
  rcases h with h | ⟨y, z, hy, hz, hne, q, hq, h1, h2⟩
  · have := (A_eq_one hdim hx (by omega)).mp h
    left
    exact (A_eq_one hdim hx hr).mpr (by omega)
  · have hqp := level_unique hdim (hX y hy) hx hq (by omega) h1
    subst hqp
    exact Or.inr ⟨y, z, hy, hz, hne, r, hr, A_up h1 hp, A_up h2 hp⟩

/-- Everything about the table except which nodes are finished. -/
structure Canon (D dim : Nat) (X : Nat → Prop) (es : List Nat) (t : Tbl) : Prop where
  some_ : ∀ c cell, t c = some cell → (Node D dim X c ∧ cell.entityIdx = -1) ∨
    (∃ (j y p : Nat), es[j]? = some y ∧ LeafAt D dim X y p ∧ c = A dim p y ∧ cell.entityIdx = j ∧ cell.nodeIdx = -1)
  node : ∀ c, Node D dim X c → ∃ cell, t c = some cell ∧ cell.entityIdx = -1
  leaf : ∀ (j y p : Nat), es[j]? = some y → LeafAt D dim X y p →
    ∃ cell, t (A dim p y) = some cell ∧ cell.entityIdx = j ∧ cell.nodeIdx = -1
  child : ChildOk dim t

/-- The cells present directly below `c`, by child number. -/
def childCells (dim : Nat) (t : Tbl) (c : Nat) : List Cell :=
  (List.range (2 ^ dim)).filterMap fun b => t (c * 2 ^ dim + b)

/-- The calls of the summary function agree with the table. -/
structure LogOk (dim : Nat) (t : Tbl) (cofm : List CofmCall) : Prop where
  idx : ∀ c cell, t c = some cell → cell.nodeIdx ≠ -1 →
    ∃ (m : Nat) (call : CofmCall), cofm[m]? = some call ∧ cell.nodeIdx = m ∧ call.key = c
  ent : ∀ (m : Nat) (call : CofmCall), cofm[m]? = some call →
    (∃ cell, t call.key = some cell ∧ cell.nodeIdx = m) ∧
    (∀ d ∈ childCells dim t call.key, d.nodeIdx ≠ -1 ∨ d.entityIdx ≠ -1) ∧
    call.ents = ((childCells dim t call.key).filter (fun d => d.nodeIdx == -1)).map Cell.entityIdx ∧
    call.nodes = ((childCells dim t call.key).filter (fun d => d.nodeIdx != -1)).map Cell.nodeIdx ∧
    (∀ n ∈ call.nodes, 0 ≤ n ∧ n < (m : Int))

/-- The nodes that have been finished: those that do not hold the last key `x` (or hold it below level `lvl`) and do not
reach a neighbouring rank. -/
def Closed (E : Env) (x lvl c : Nat) : Prop :=
  (¬ H E.D E.dim c x ∨ ∃ p < lvl, c = A E.dim p x) ∧ (E.iam0 = false → ¬ H E.D E.dim c E.lobound) ∧
    (E.iamlast = false → ¬ H E.D E.dim c E.hibound)

structure SInv (E : Env) (X : Nat → Prop) (es : List Nat) (x lvl : Nat) (t : Tbl) (cofm : List CofmCall) : Prop where
  canon : Canon E.D E.dim X es t
  fin : ∀ c cell, t c = some cell → (cell.nodeIdx ≠ -1 ↔ Node E.D E.dim X c ∧ Closed E x lvl c)
  log : LogOk E.dim t cofm

/-! ### `finish_` -/

theorem daughters_eq {dim : Nat} {t : Tbl} (hok : ChildOk dim t) {c : Nat} {n : Cell} (hc : t c = some n) :
    daughters dim t c n = some (childCells dim t c) := by
  rw [daughters, childCells, Nat.one_shiftLeft]
  have : ∀ l : List Nat, (∀ b ∈ l, b < 2 ^ dim) →
      ((l.filter fun j => getChild n j).mapM fun j => t ((c <<< dim) ||| j)) =
        some (l.filterMap fun b => t (c * 2 ^ dim + b)) := by
    intro l
    induction l with
    | nil => intro _; rfl
    | cons b l ih =>
      intro hl
      have hb := hl b List.mem_cons_self
      have ih := ih (fun b hb => hl b (List.mem_cons_of_mem _ hb))
      have hch := hok c n b hc hb
      rw [List.filter_cons, List.filterMap_cons]
      by_cases hg : getChild n b = true
      · rw [if_pos hg]
        obtain ⟨d, hd⟩ := Option.isSome_iff_exists.mp (hch.mp hg)
        rw [List.mapM_cons, child_or _ _ _ hb, hd, ih]; rfl
      · rw [if_neg hg]
        have : t (c * 2 ^ dim + b) = none := by
          cases hd : t (c * 2 ^ dim + b) with
          | none => rfl
          | some d => exact absurd (hch.mpr (by rw [hd]; rfl)) hg
        rw [this, ih]
  exact this _ (fun b hb => List.mem_range.mp hb)

theorem classify_eq (ds : List Cell) (hds : ∀ d ∈ ds, d.nodeIdx ≠ -1 ∨ d.entityIdx ≠ -1) (es ns : List Int) :
    classify ds es ns = some (es ++ (ds.filter (fun d => d.nodeIdx == -1)).map Cell.entityIdx,
      ns ++ (ds.filter (fun d => d.nodeIdx != -1)).map Cell.nodeIdx) := by
  induction ds generalizing es ns with
  | nil => simp [classify]
  | cons d ds ih =>
    have hd := hds d List.mem_cons_self
    have ih := fun es ns => ih (fun d hd => hds d (List.mem_cons_of_mem _ hd)) es ns
    rw [classify, isNode, if_pos hd]
    simp only [Option.bind_eq_bind, Option.bind_some]
    by_cases hn : d.nodeIdx = -1
    · rw [if_neg (by simp [hn]), ih]
      simp [hn, List.append_assoc]
    · rw [if_pos (by simp [hn]), ih]
      simp [hn, List.append_assoc]

theorem childCells_set {dim : Nat} {t : Tbl} {k c : Nat} {cell : Cell} (h : ∀ b < 2 ^ dim, c * 2 ^ dim + b ≠ k) :
    childCells dim (t.set k cell) c = childCells dim t c := by
  rw [childCells, childCells]
  apply List.filterMap_congr
  intro b hb
  rw [set_apply, if_neg (h b (List.mem_range.mp hb))]

theorem H_iff {x p y : Nat} (hdim : 0 < dim) (hx : FullKey D dim x) (hy : FullKey D dim y) (hp : p ≤ D) :
    H D dim (A dim p x) y ↔ A dim p y = A dim p x := by
  constructor
  · rintro ⟨q, hq, h⟩
    have := level_unique hdim hy hx hq hp h
    rw [← this]; rw [this] at h ⊢; exact h
  · intro h; exact ⟨p, hp, h⟩

theorem H_parent {y c b : Nat} (hdim : 0 < dim) (hy : FullKey D dim y) (hc : 0 < c) (hb : b < 2 ^ dim)
    (h : H D dim (c * 2 ^ dim + b) y) : ∃ q, q + 1 ≤ D ∧ A dim q y = c * 2 ^ dim + b ∧ A dim (q + 1) y = c := by
  obtain ⟨q, hq, he⟩ := h
  refine ⟨q, ?_, he, by rw [A_succ, he, child_div hb]⟩
  rcases Nat.lt_or_ge q D with h1 | h1
  · exact h1
  · have : q = D := by omega
    subst this
    rw [show A dim q y = 1 from hy] at he
    have h2 : 2 ≤ 2 ^ dim := by
      calc 2 = 2 ^ 1 := rfl
        _ ≤ 2 ^ dim := Nat.pow_le_pow_right (by decide) hdim
    have := Nat.mul_le_mul hc h2
    omega

/-- What is assumed of the keys a rank sees. -/
structure EnvOk (E : Env) : Prop where
  hdim : 0 < E.dim
  hD : 0 < E.D
  lo : E.iam0 = false → FullKey E.D E.dim E.lobound
  hi : E.iamlast = false → FullKey E.D E.dim E.hibound

/-- `finish_` on the node of the last key at level `p`, when the levels below are finished. -/
theorem finish_spec (E : Env) (hE : EnvOk E) (X : Nat → Prop) (es : List Nat) (x p : Nat) (hp : p ≤ E.D)
    (hX : ∀ y, X y → FullKey E.D E.dim y) (hx : FullKey E.D E.dim x)
    (t : Tbl) (cofm : List CofmCall) (h : SInv E X es x p t cofm)
    (hnode : Node E.D E.dim X (A E.dim p x))
    (hlo : E.iam0 = false → ¬ H E.D E.dim (A E.dim p x) E.lobound)
    (hhi : E.iamlast = false → ¬ H E.D E.dim (A E.dim p x) E.hibound) :
    ∃ t' cofm', finish E.dim t cofm (A E.dim p x) = some (t', cofm') ∧ SInv E X es x (p + 1) t' cofm' := by
  have hdim := hE.hdim
  obtain ⟨n, hn, hne1⟩ := h.canon.node _ hnode
  have hHx : H E.D E.dim (A E.dim p x) x := ⟨p, hp, rfl⟩
  have hnn : n.nodeIdx = -1 := by
    apply Classical.byContradiction
    intro hc
    obtain ⟨-, hcl, -⟩ := (h.fin _ _ hn).mp hc
    rcases hcl with hcl | ⟨q, hq, he⟩
    · exact hcl hHx
    · have := level_unique hdim hx hx hp (by omega) he
      omega
  have hcpos : 0 < A E.dim p x := A_pos hx hp
  -- every daughter is set
  have hset : ∀ d ∈ childCells E.dim t (A E.dim p x), d.nodeIdx ≠ -1 ∨ d.entityIdx ≠ -1 := by
    intro d hd
    rw [childCells, List.mem_filterMap] at hd
    obtain ⟨b, hb, hd⟩ := hd
    rw [List.mem_range] at hb
    rcases h.canon.some_ _ _ hd with ⟨hN, -⟩ | ⟨j, y, q, -, -, -, he, -⟩
    · left
      rw [h.fin _ _ hd]
      refine ⟨hN, ?_, ?_, ?_⟩
      · by_cases hH : H E.D E.dim (A E.dim p x * 2 ^ E.dim + b) x
        · right
          obtain ⟨q, hq, he, h1⟩ := H_parent hdim hx hcpos hb hH
          refine ⟨q, ?_, he.symm⟩
          have := level_unique hdim hx hx hq hp h1
          omega
        · exact Or.inl hH
      · intro h0 hH
        obtain ⟨q, hq, -, h1⟩ := H_parent hdim (hE.lo h0) hcpos hb hH
        exact hlo h0 ⟨q + 1, hq, h1⟩
      · intro h0 hH
        obtain ⟨q, hq, -, h1⟩ := H_parent hdim (hE.hi h0) hcpos hb hH
        exact hhi h0 ⟨q + 1, hq, h1⟩
    · right; rw [he]; omega
  let n' : Cell := { n with nodeIdx := cofm.length }
  let t' : Tbl := t.set (A E.dim p x) n'
  have ht' : ∀ k, t' k = if k = A E.dim p x then some n' else t k := fun k => rfl
  have hn' : t' (A E.dim p x) = some n' := by rw [ht', if_pos rfl]
  have hsome : ∀ k, (t' k).isSome = (t k).isSome := by
    intro k
    rw [ht']
    by_cases hk : k = A E.dim p x
    · rw [if_pos hk, hk, hn]; rfl
    · rw [if_neg hk]
  have hok' : ChildOk E.dim t' := by
    intro c cell b hc hb
    rw [hsome]
    rw [ht'] at hc
    by_cases hk : c = A E.dim p x
    · rw [if_pos hk] at hc
      cases hc
      subst hk
      exact h.canon.child _ n b hn hb
    · rw [if_neg hk] at hc
      exact h.canon.child _ cell b hc hb
  have hcc : childCells E.dim t' (A E.dim p x) = childCells E.dim t (A E.dim p x) :=
    childCells_set (fun b hb => child_ne hdim hcpos)
  have hfin : finish E.dim t cofm (A E.dim p x) = some (t', cofm ++ [⟨A E.dim p x,
      ((childCells E.dim t (A E.dim p x)).filter (fun d => d.nodeIdx == -1)).map Cell.entityIdx,
      ((childCells E.dim t (A E.dim p x)).filter (fun d => d.nodeIdx != -1)).map Cell.nodeIdx⟩]) := by
    rw [finish, hn]
    simp only [Option.bind_eq_bind, Option.bind_some]
    rw [if_neg (by simp [hne1]), setNodeIdx, if_pos hne1]
    simp only [Option.bind_some]
    have hd : daughters E.dim t' (A E.dim p x) n' = some (childCells E.dim t (A E.dim p x)) := by
      rw [← hcc]; exact daughters_eq hok' hn'
    rw [show daughters E.dim (t.set (A E.dim p x) { n with nodeIdx := (cofm.length : Int) }) (A E.dim p x)
      { n with nodeIdx := (cofm.length : Int) } = some (childCells E.dim t (A E.dim p x)) from hd]
    simp only [Option.bind_some]
    rw [classify_eq _ hset]
    simp only [Option.bind_some, List.nil_append]
    rfl
  refine ⟨_, _, hfin, ?_, ?_, ?_⟩
  · -- Canon
    refine ⟨?_, ?_, ?_, hok'⟩
    · intro c cell hc
      rw [ht'] at hc
      by_cases hk : c = A E.dim p x
      · rw [if_pos hk] at hc
        cases hc
        left
        exact ⟨hk ▸ hnode, hne1⟩
      · rw [if_neg hk] at hc
        exact h.canon.some_ c cell hc
    · intro c hc
      rw [ht']
      by_cases hk : c = A E.dim p x
      · rw [if_pos hk]; exact ⟨n', rfl, hne1⟩
      · rw [if_neg hk]; exact h.canon.node c hc
    · intro j y q hj hl
      obtain ⟨cell, h1, h2, h3⟩ := h.canon.leaf j y q hj hl
      refine ⟨cell, ?_, h2, h3⟩
      rw [ht', if_neg, h1]
      intro hk
      rw [hk, hn] at h1
      cases h1
      rw [hne1] at h2
      omega
  · -- finished nodes
    intro c cell hc
    rw [ht'] at hc
    by_cases hk : c = A E.dim p x
    · rw [if_pos hk] at hc
      cases hc
      subst hk
      constructor
      · intro _
        exact ⟨hnode, Or.inr ⟨p, Nat.lt_succ_self p, rfl⟩, hlo, hhi⟩
      · intro _
        show (cofm.length : Int) ≠ -1
        omega
    · rw [if_neg hk] at hc
      rw [h.fin c cell hc]
      constructor
      · rintro ⟨a, b1, b2, b3⟩
        refine ⟨a, ?_, b2, b3⟩
        rcases b1 with b1 | ⟨q, hq, he⟩
        · exact Or.inl b1
        · exact Or.inr ⟨q, by omega, he⟩
      · rintro ⟨a, b1, b2, b3⟩
        refine ⟨a, ?_, b2, b3⟩
        rcases b1 with b1 | ⟨q, hq, he⟩
        · exact Or.inl b1
        · refine Or.inr ⟨q, ?_, he⟩
          rcases Nat.lt_or_ge q p with h1 | h1
          · exact h1
          · have : q = p := by omega
            subst this
            exact absurd he hk
  · -- the log
    have hlen : ∀ (m : Nat) (call : CofmCall), cofm[m]? = some call → m < cofm.length := by
      intro m call hm
      exact (List.getElem?_eq_some_iff.mp hm).1
    refine ⟨?_, ?_⟩
    · intro c cell hc hcn
      rw [ht'] at hc
      by_cases hk : c = A E.dim p x
      · rw [if_pos hk] at hc
        cases hc
        exact ⟨cofm.length, _, List.getElem?_concat_length, rfl, hk.symm⟩
      · rw [if_neg hk] at hc
        obtain ⟨m, call, h1, h2, h3⟩ := h.log.idx c cell hc hcn
        refine ⟨m, call, ?_, h2, h3⟩
        rw [List.getElem?_append_left (hlen m call h1)]; exact h1
    · intro m call hm
      rcases Nat.lt_or_ge m cofm.length with hml | hml
      · rw [List.getElem?_append_left hml] at hm
        obtain ⟨⟨cell, h1, h2⟩, h3, h4, h5, h6⟩ := h.log.ent m call hm
        have hne2 : call.key ≠ A E.dim p x := by
          intro e
          rw [e, hn] at h1
          cases h1
          rw [hnn] at h2
          omega
        have hcl : Closed E x p call.key := ((h.fin _ _ h1).mp (by rw [h2]; omega)).2
        have hch : childCells E.dim t' call.key = childCells E.dim t call.key := by
          apply childCells_set
          intro b hb e
          -- then the finished node would be the parent of the current one
          have hkpos : 0 < call.key := by
            rcases h.canon.some_ _ _ h1 with ⟨hN, -⟩ | ⟨j, y, q, -, -, -, -, hq⟩
            · exact node_pos hX hN
            · rw [hq] at h2; omega
          have hHp : H E.D E.dim (call.key * 2 ^ E.dim + b) x := ⟨p, hp, e.symm⟩
          obtain ⟨q, hq, hq1, hq2⟩ := H_parent hdim hx hkpos hb hHp
          have hqp : q = p := level_unique hdim hx hx (by omega) hp (hq1.trans e)
          rcases hcl.1 with hc1 | ⟨r, hr, hr2⟩
          · exact hc1 ⟨q + 1, hq, hq2⟩
          · have := level_unique hdim hx hx hq (by omega) (hq2.trans hr2)
            omega
        refine ⟨⟨cell, by rw [ht', if_neg hne2]; exact h1, h2⟩, ?_, ?_, ?_, h6⟩
        · rw [hch]; exact h3
        · rw [hch]; exact h4
        · rw [hch]; exact h5
      · have hmeq : m = cofm.length := by
          have := (List.getElem?_eq_some_iff.mp hm).1
          simp at this
          omega
        subst hmeq
        rw [List.getElem?_concat_length] at hm
        cases hm
        refine ⟨⟨n', hn', rfl⟩, ?_, ?_, ?_, ?_⟩
        · rw [hcc]; exact hset
        · rw [hcc]
        · rw [hcc]
        · intro k hk
          rw [List.mem_map] at hk
          obtain ⟨d, hd, rfl⟩ := hk
          rw [List.mem_filter] at hd
          obtain ⟨hd1, hd2⟩ := hd
          rw [childCells, List.mem_filterMap] at hd1
          obtain ⟨b, hb, hd1⟩ := hd1
          obtain ⟨m, call, a1, a2, a3⟩ := h.log.idx _ d hd1 (by simpa using hd2)
          rw [a2]
          have := hlen m call a1
          omega

/-! ### The first inner loop -/

theorem lo_cond (E : Env) (hE : EnvOk E) {x p : Nat} (hx : FullKey E.D E.dim x) (hp : p ≤ E.D)
    (hlox : E.iam0 = false → E.lobound ≤ x) :
    ((E.iam0 = true ∨ A E.dim p x > A E.dim p E.lobound) ↔ (E.iam0 = false → ¬ H E.D E.dim (A E.dim p x) E.lobound)) := by
  cases h0 : E.iam0 with
  | true => simp
  | false =>
    simp only [Bool.false_eq_true, false_or, forall_const]
    rw [H_iff hE.hdim hx (hE.lo h0) hp]
    have := A_mono E.dim p (hlox h0)
    omega

theorem hi_cond (E : Env) (hE : EnvOk E) {x p : Nat} (hx : FullKey E.D E.dim x) (hp : p ≤ E.D)
    (hhix : E.iamlast = false → x ≤ E.hibound) :
    ((E.iamlast = true ∨ A E.dim p x < A E.dim p E.hibound) ↔ (E.iamlast = false → ¬ H E.D E.dim (A E.dim p x) E.hibound)) := by
  cases h0 : E.iamlast with
  | true => simp
  | false =>
    simp only [Bool.false_eq_true, false_or, forall_const]
    rw [H_iff hE.hdim hx (hE.hi h0) hp]
    have := A_mono E.dim p (hhix h0)
    omega

theorem sinv_skip {E : Env} {X : Nat → Prop} {es : List Nat} {x p : Nat} {t : Tbl} {cofm : List CofmCall}
    (h : SInv E X es x p t cofm) (hskip : ¬ (Node E.D E.dim X (A E.dim p x) ∧
      (E.iam0 = false → ¬ H E.D E.dim (A E.dim p x) E.lobound) ∧
      (E.iamlast = false → ¬ H E.D E.dim (A E.dim p x) E.hibound))) : SInv E X es x (p + 1) t cofm := by
  refine ⟨h.canon, ?_, h.log⟩
  intro c cell hc
  rw [h.fin c cell hc]
  constructor
  · rintro ⟨a, b1, b2, b3⟩
    refine ⟨a, ?_, b2, b3⟩
    rcases b1 with b1 | ⟨q, hq, he⟩
    · exact Or.inl b1
    · exact Or.inr ⟨q, by omega, he⟩
  · rintro ⟨a, b1, b2, b3⟩
    refine ⟨a, ?_, b2, b3⟩
    rcases b1 with b1 | ⟨q, hq, he⟩
    · exact Or.inl b1
    · refine Or.inr ⟨q, ?_, he⟩
      rcases Nat.lt_or_ge q p with h1 | h1
      · exact h1
      · have : q = p := by omega
        subst this
        subst he
        exact absurd ⟨a, b2, b3⟩ hskip

theorem tryFinish_spec (E : Env) (hE : EnvOk E) (X : Nat → Prop) (es : List Nat) (x : Nat)
    (hX : ∀ y, X y → FullKey E.D E.dim y) (hx : FullKey E.D E.dim x)
    (hlox : E.iam0 = false → E.lobound ≤ x) (hhix : E.iamlast = false → x ≤ E.hibound)
    (s : Up) (hp : s.cd ≤ E.D) (hl : s.lastnkey = A E.dim s.cd x) (h : SInv E X es x s.cd s.tbl s.cofm) (loopagain : Bool)
    (hloop : (loopagain = true ∧ Node E.D E.dim X (A E.dim s.cd x)) ∨ (loopagain = false ∧ ¬ Node E.D E.dim X (A E.dim s.cd x))) :
    ∃ t' cofm', tryFinish E loopagain s = some (t', cofm') ∧ SInv E X es x (s.cd + 1) t' cofm' := by
  rw [tryFinish, pop_some hp, pop_some hp]
  simp only [Option.bind_eq_bind, Option.bind_some]
  rw [hl]
  have c1 := lo_cond E hE hx hp hlox
  have c2 := hi_cond E hE hx hp hhix
  rcases hloop with ⟨rfl, hnode⟩ | ⟨rfl, hnode⟩
  · by_cases hcond : (E.iam0 = true ∨ A E.dim s.cd x > A E.dim s.cd E.lobound) ∧
        (E.iamlast = true ∨ A E.dim s.cd x < A E.dim s.cd E.hibound)
    · rw [if_pos ⟨rfl, hcond⟩]
      exact finish_spec E hE X es x s.cd hp hX hx s.tbl s.cofm h hnode (c1.mp hcond.1) (c2.mp hcond.2)
    · rw [if_neg (fun hh => hcond hh.2)]
      refine ⟨_, _, rfl, sinv_skip h ?_⟩
      rintro ⟨-, h1, h2⟩
      exact hcond ⟨c1.mpr h1, c2.mpr h2⟩
  · rw [if_neg (by simp)]
    exact ⟨_, _, rfl, sinv_skip h (fun hh => hnode hh.1)⟩

/-- The first inner loop, once it repeats. -/
theorem ascend_spec (E : Env) (hE : EnvOk E) (X : Nat → Prop) (es : List Nat) (x z : Nat) (final : Bool)
    (hfinal : final = true → E.iamlast = true)
    (hX : ∀ y, X y → FullKey E.D E.dim y) (hx : FullKey E.D E.dim x) (hz : final = false → FullKey E.D E.dim z)
    (hlox : E.iam0 = false → E.lobound ≤ x) (hhix : E.iamlast = false → x ≤ E.hibound) :
    ∀ (fuel : Nat) (s : Up) (loopagain : Bool), s.cd ≤ E.D → E.D < fuel + s.cd →
    s.lastnkey = A E.dim s.cd x → s.nkey = A E.dim s.cd z → SInv E X es x s.cd s.tbl s.cofm →
    (∀ p, s.cd < p → p ≤ E.D → Node E.D E.dim X (A E.dim p x)) →
    ((loopagain = true ∧ Node E.D E.dim X (A E.dim s.cd x)) ∨ (loopagain = false ∧ ¬ Node E.D E.dim X (A E.dim s.cd x))) →
    ∃ u, ascend E final z x fuel loopagain s = some u ∧
      (if final then SInv E X es x (E.D + 1) u.tbl u.cofm else
        s.cd ≤ u.cd ∧ u.cd ≤ E.D ∧ u.lastnkey = A E.dim u.cd x ∧ A E.dim u.cd x = A E.dim u.cd z ∧
        (u.cd = s.cd ∨ A E.dim (u.cd - 1) x ≠ A E.dim (u.cd - 1) z) ∧ SInv E X es x u.cd u.tbl u.cofm) := by
  intro fuel
  induction fuel with
  | zero => intro s _ h1 h2; omega
  | succ f ih =>
    intro s loopagain hcd hfuel hl hn h hnodes hloop
    rw [ascend]
    by_cases hcond : s.nkey ≠ s.lastnkey ∨ final = true
    · rw [if_pos hcond]
      obtain ⟨t', cofm', ht, h'⟩ := tryFinish_spec E hE X es x hX hx hlox hhix s hcd hl h loopagain hloop
      rw [ht]
      simp only [Option.bind_eq_bind, Option.bind_some]
      by_cases hroot : E.iamlast = true ∧ s.lastnkey = Key.root
      · rw [if_pos hroot]
        refine ⟨_, rfl, ?_⟩
        have hcdD : s.cd = E.D := by
          rw [hl] at hroot
          exact (A_eq_one hE.hdim hx hcd).mp hroot.2
        cases hf : final with
        | true =>
          rw [if_pos rfl]
          rw [hcdD] at h'
          exact h'
        | false =>
          exfalso
          rw [hf] at hcond
          simp only [Bool.false_eq_true, or_false] at hcond
          apply hcond
          rw [hl, hn, hcdD, show A E.dim E.D x = 1 from hx, show A E.dim E.D z = 1 from hz hf]
      · rw [if_neg hroot]
        have hlt : s.cd < E.D := by
          rcases Nat.lt_or_ge s.cd E.D with h1 | h1
          · exact h1
          · exfalso
            have hcdD : s.cd = E.D := by omega
            have h1 : s.lastnkey = 1 := by rw [hl, hcdD]; exact hx
            cases hf : final with
            | true => exact hroot ⟨hfinal hf, h1⟩
            | false =>
              rw [hf] at hcond
              simp only [Bool.false_eq_true, or_false] at hcond
              apply hcond
              rw [h1, hn, hcdD]; exact hz hf
        rw [pop_some hlt, pop_some hlt]
        simp only [Option.bind_some]
        obtain ⟨u, hu, hu2⟩ := ih ⟨t', cofm', s.cd + 1, A E.dim (s.cd + 1) z, A E.dim (s.cd + 1) x⟩ true hlt
          (by show E.D < f + (s.cd + 1); omega) rfl rfl h' (fun p h1 h2 => hnodes p (by
            have : s.cd + 1 < p := h1
            omega) h2) (Or.inl ⟨rfl, hnodes _ (by exact Nat.lt_succ_self _) hlt⟩)
        refine ⟨u, hu, ?_⟩
        cases hf : final with
        | true => rw [hf] at hu2; exact hu2
        | false =>
          rw [hf] at hu2
          simp only [Bool.false_eq_true, if_false] at hu2 ⊢
          obtain ⟨a1, a2, a3, a4, a5, a6⟩ := hu2
          refine ⟨by omega, a2, a3, a4, ?_, a6⟩
          right
          rcases a5 with a5 | a5
          · rw [a5, Nat.add_sub_cancel]
            rw [hf] at hcond
            simp only [Bool.false_eq_true, or_false] at hcond
            rw [← hl, ← hn]
            exact fun e => hcond e.symm
          · exact a5
    · rw [if_neg hcond]
      refine ⟨s, rfl, ?_⟩
      have hf : final = false := by
        cases hf : final with
        | true => exact absurd (Or.inr hf) hcond
        | false => rfl
      rw [if_neg (by simp [hf])]
      refine ⟨Nat.le_refl _, hcd, hl, ?_, Or.inl rfl, h⟩
      apply Classical.byContradiction
      intro hne
      apply hcond
      left
      rw [hl, hn]
      exact fun e => hne e.symm

end FleCSPH.Tree
