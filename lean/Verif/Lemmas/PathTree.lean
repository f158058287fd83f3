import Verif.Spec.GlobalTree
import Verif.Lemmas.Tree2
import Mathlib.Data.Finset.Union
import Mathlib.Data.Finset.Lattice.Fold
/-! The tree of all particles as a tree of paths. -/
namespace FleCSPH.Tree
open FleCSPH.Spec FleCSPH.Ghosts

variable {D dim : Nat}

/-- The child numbers on the way to a full key. -/
def path (dim : Nat) : Nat → Nat → List Nat
  | 0, _ => []
  | n + 1, x => x % 2 ^ dim :: path dim n (x / 2 ^ dim)

theorem path_length : ∀ (n x : Nat), (path dim n x).length = n
  | 0, _ => rfl
  | n + 1, x => by rw [path, List.length_cons, path_length n]

theorem path_digits : ∀ (n x : Nat), Digits dim (path dim n x)
  | 0, _ => fun j hj => by simp [path] at hj
  | n + 1, x => by
    intro j hj
    rw [path, List.mem_cons] at hj
    rcases hj with rfl | hj
    · exact Nat.mod_lt _ (Nat.pow_pos (by decide))
    · exact path_digits n _ j hj

theorem path_drop : ∀ (p n x : Nat), p ≤ n → (path dim n x).drop p = path dim (n - p) (A dim p x)
  | 0, n, x, _ => by simp [A]
  | p + 1, 0, x, h => by omega
  | p + 1, n + 1, x, h => by
    rw [path, List.drop_succ_cons, path_drop p n _ (by omega), Nat.add_sub_add_right]
    congr 1
    rw [A, A, Nat.div_div_eq_div_mul, Nat.succ_mul, Nat.pow_add, Nat.mul_comm]

theorem number_path : ∀ (n x : Nat), x / 2 ^ (n * dim) = 1 → number dim (path dim n x) = x
  | 0, x, h => by simpa [path, number] using h.symm
  | n + 1, x, h => by
    rw [path, number, number_path n (x / 2 ^ dim), Nat.div_add_mod']
    rw [Nat.div_div_eq_div_mul, ← Nat.pow_add, Nat.add_comm, ← Nat.succ_mul]; exact h

theorem path_number : ∀ {k : List Nat}, Digits dim k → path dim k.length (number dim k) = k := by
  intro k
  induction k with
  | nil => intro _; rfl
  | cons j k ih =>
    intro h
    have hj : j < 2 ^ dim := h j List.mem_cons_self
    rw [List.length_cons, path, number]
    rw [show (number dim k * 2 ^ dim + j) % 2 ^ dim = j by rw [Nat.mul_comm, Nat.mul_add_mod, Nat.mod_eq_of_lt hj],
      show (number dim k * 2 ^ dim + j) / 2 ^ dim = number dim k by rw [Nat.mul_comm, Nat.mul_add_div (Nat.pow_pos (by decide)), Nat.div_eq_of_lt hj, Nat.add_zero],
      ih (fun i hi => h i (List.mem_cons_of_mem _ hi))]

theorem number_full : ∀ {k : List Nat}, Digits dim k → number dim k / 2 ^ (k.length * dim) = 1 := by
  intro k
  induction k with
  | nil => intro _; simp [number]
  | cons j k ih =>
    intro h
    have hj : j < 2 ^ dim := h j List.mem_cons_self
    rw [List.length_cons, Nat.succ_mul, Nat.add_comm, Nat.pow_add, ← Nat.div_div_eq_div_mul, number,
      show (number dim k * 2 ^ dim + j) / 2 ^ dim = number dim k by rw [Nat.mul_comm, Nat.mul_add_div (Nat.pow_pos (by decide)), Nat.div_eq_of_lt hj, Nat.add_zero]]
    exact ih (fun i hi => h i (List.mem_cons_of_mem _ hi))

theorem level_eq (hdim : 0 < dim) {c a b : Nat} (ha : c / 2 ^ (a * dim) = 1) (hb : c / 2 ^ (b * dim) = 1) : a = b := by
  have key : ∀ {a b : Nat}, c / 2 ^ (a * dim) = 1 → c / 2 ^ (b * dim) = 1 → ¬ a < b := by
    intro a b ha hb hab
    have : c / 2 ^ (b * dim) = 0 := by
      obtain ⟨e, rfl⟩ : ∃ e, b = a + e := ⟨b - a, by omega⟩
      rw [Nat.add_mul, Nat.pow_add, ← Nat.div_div_eq_div_mul, ha]
      apply Nat.div_eq_of_lt
      exact Nat.one_lt_two_pow (Nat.pos_iff_ne_zero.mp (Nat.mul_pos (by omega) hdim))
    omega
  have := key ha hb
  have := key hb ha
  omega

theorem digits_suffix {k k' : List Nat} (h : Digits dim k') (hs : k <:+ k') : Digits dim k := fun j hj => h j (hs.subset hj)

theorem number_drop {k : List Nat} (hk : Digits dim k) : ∀ m, m ≤ k.length → number dim (k.drop m) = number dim k / 2 ^ (m * dim) := by
  intro m
  induction m with
  | zero => intro _; simp
  | succ m ih =>
    intro hm
    have h1 := ih (by omega)
    have h2 : k.drop m = k[m] :: k.drop (m + 1) := List.drop_eq_getElem_cons (by omega)
    rw [h2, number] at h1
    have hj : k[m] < 2 ^ dim := hk _ (List.getElem_mem _)
    rw [Nat.succ_mul, Nat.pow_add, ← Nat.div_div_eq_div_mul, ← h1, Nat.mul_comm, Nat.mul_add_div (Nat.pow_pos (by decide)), Nat.div_eq_of_lt hj]
    exact (Nat.add_zero _).symm

theorem number_suffix {k k' : List Nat} (hk : Digits dim k') (hs : k <:+ k') : number dim k = number dim k' / 2 ^ ((k'.length - k.length) * dim) := by
  rw [← number_drop hk _ (by omega), ← List.suffix_iff_eq_drop.mp hs]

theorem number_inj (hdim : 0 < dim) {k k' : List Nat} (hk : Digits dim k) (hk' : Digits dim k') (h : number dim k = number dim k') : k = k' := by
  have h1 := number_full hk
  rw [h] at h1
  have h2 := level_eq hdim h1 (number_full hk')
  rw [← path_number hk, ← path_number hk', h, h2]

theorem number_one (hdim : 0 < dim) {k : List Nat} (hk : Digits dim k) : number dim k = 1 ↔ k = [] := by
  constructor
  · intro h
    exact number_inj hdim hk (fun j hj => by simp at hj) h
  · rintro rfl; rfl

theorem suffix_path (hdim : 0 < dim) {k : List Nat} (hk : Digits dim k) {x : Nat} (hx : FullKey D dim x) : k <:+ path dim D x ↔ Holds D dim (number dim k) x := by
  constructor
  · intro h
    have hl := h.length_le
    rw [path_length] at hl
    refine ⟨D - k.length, by omega, ?_⟩
    have := number_suffix (path_digits D x) h
    rw [number_path D x hx, path_length] at this
    exact this.symm
  · rintro ⟨p, hp, h⟩
    have h1 := number_full hk
    have h2 : number dim k / 2 ^ ((D - p) * dim) = 1 := by
      rw [← h, Nat.div_div_eq_div_mul, ← Nat.pow_add, ← Nat.add_mul, Nat.add_sub_of_le hp]; exact hx
    have h3 := level_eq hdim h1 h2
    rw [← path_number hk, h3, ← h]
    have := path_drop (dim := dim) p D x hp
    rw [A] at this
    rw [← this]
    exact List.drop_suffix _ _

/-- Inner cells by paths. -/
def InnerP (D dim : Nat) (X : Nat → Prop) (k : List Nat) : Prop :=
  k = [] ∨ ∃ x y, X x ∧ X y ∧ x ≠ y ∧ k <:+ path dim D x ∧ k <:+ path dim D y

/-- Leaves by paths. -/
def LeafP (D dim : Nat) (X : Nat → Prop) (x : Nat) (k : List Nat) : Prop :=
  k ≠ [] ∧ k <:+ path dim D x ∧ (∀ y, X y → k <:+ path dim D y → y = x) ∧ InnerP D dim X k.tail

variable {X : Nat → Prop}

theorem inner_path (hdim : 0 < dim) (hX : ∀ y, X y → FullKey D dim y) {k : List Nat} (hk : Digits dim k) : InnerCell D dim X (number dim k) ↔ InnerP D dim X k := by
  rw [InnerCell, InnerP, number_one hdim hk]
  constructor
  · rintro (h | ⟨x, y, hx, hy, hne, h1, h2⟩)
    · exact Or.inl h
    · exact Or.inr ⟨x, y, hx, hy, hne, (suffix_path hdim hk (hX x hx)).mpr h1, (suffix_path hdim hk (hX y hy)).mpr h2⟩
  · rintro (h | ⟨x, y, hx, hy, hne, h1, h2⟩)
    · exact Or.inl h
    · exact Or.inr ⟨x, y, hx, hy, hne, (suffix_path hdim hk (hX x hx)).mp h1, (suffix_path hdim hk (hX y hy)).mp h2⟩

theorem InnerP.up {k k' : List Nat} (h : InnerP D dim X k') (hs : k <:+ k') : InnerP D dim X k := by
  rcases h with rfl | ⟨x, y, hx, hy, hne, h1, h2⟩
  · exact Or.inl (List.suffix_nil.mp hs)
  · exact Or.inr ⟨x, y, hx, hy, hne, hs.trans h1, hs.trans h2⟩

theorem leaf_path (hdim : 0 < dim) (hX : ∀ y, X y → FullKey D dim y) {k : List Nat} (hk : Digits dim k) {x : Nat} (hx : X x) :
    LeafCell D dim X x (number dim k) ↔ LeafP D dim X x k := by
  have hal : ∀ {k : List Nat}, Digits dim k → (HoldsAlone D dim X (number dim k) x ↔ k <:+ path dim D x ∧ ∀ y, X y → k <:+ path dim D y → y = x) := by
    intro k hk
    rw [HoldsAlone, suffix_path hdim hk (hX x hx)]
    refine and_congr_right fun _ => forall_congr' fun y => forall_congr' fun hy => ?_
    rw [suffix_path hdim hk (hX y hy)]
  rw [LeafCell, LeafP, hal hk, Ne, Ne, number_one hdim hk]
  constructor
  · rintro ⟨h1, ⟨h2, h3⟩, h4⟩
    refine ⟨h1, h2, h3, ?_⟩
    apply Classical.byContradiction
    intro hn
    obtain ⟨j, pk, rfl⟩ := List.exists_cons_of_ne_nil h1
    rw [List.tail_cons] at hn
    have hpk : Digits dim pk := digits_suffix hk (List.suffix_cons _ _)
    have hs : pk <:+ path dim D x := (List.suffix_cons _ _).trans h2
    have hne : pk ≠ [] := fun e => hn (Or.inl e)
    obtain ⟨m, hm⟩ := h4 (number dim pk) (by rw [Ne, number_one hdim hpk]; exact hne) ((hal hpk).mpr ⟨hs, fun y hy hys => by
      apply Classical.byContradiction
      intro hyx
      exact hn (Or.inr ⟨y, x, hy, hx, hyx, hys, hs⟩)⟩)
    have h5 : number dim (j :: pk) ≤ number dim pk := by rw [← hm]; exact Nat.div_le_self _ _
    rw [number] at h5
    have h6 : 0 < number dim pk := by
      apply Nat.pos_of_ne_zero
      intro e
      have := number_full hpk
      rw [e] at this; simp at this
    have h7 : 2 ≤ 2 ^ dim := by calc 2 = 2 ^ 1 := rfl
                             _ ≤ 2 ^ dim := Nat.pow_le_pow_right (by decide) hdim
    have h8 : number dim pk * 2 ≤ number dim pk * 2 ^ dim := Nat.mul_le_mul_left _ h7
    omega
  · rintro ⟨h1, h2, h3, h4⟩
    refine ⟨h1, ⟨h2, h3⟩, ?_⟩
    rintro c' hc' ⟨⟨p, hp, rfl⟩, h5⟩
    obtain ⟨k', hk'⟩ : ∃ k', k' = (path dim D x).drop p := ⟨_, rfl⟩
    have hs' : k' <:+ path dim D x := by rw [hk']; exact List.drop_suffix _ _
    have hd' : Digits dim k' := digits_suffix (path_digits D x) hs'
    have hn' : number dim k' = x / 2 ^ (p * dim) := by
      rw [hk', number_drop (path_digits D x) p (by rw [path_length]; exact hp), number_path D x (hX x hx)]
    rw [← hn'] at hc' h5 ⊢
    rcases List.suffix_or_suffix_of_suffix hs' h2 with h6 | h6
    · by_cases he : k' = k
      · exact ⟨0, by rw [he]; simp⟩
      · exfalso
        have h7 : k' <:+ k.tail := by
          obtain ⟨j, pk, rfl⟩ := List.exists_cons_of_ne_nil h1
          rcases List.suffix_cons_iff.mp h6 with h8 | h8
          · exact absurd h8 he
          · exact h8
        rcases h4.up h7 with h8 | ⟨a, b, ha, hb, hab, h8, h9⟩
        · exact hc' (by rw [h8]; rfl)
        · have e1 := h5 a ha ((suffix_path hdim hd' (hX a ha)).mp h8)
          have e2 := h5 b hb ((suffix_path hdim hd' (hX b hb)).mp h9)
          exact hab (e1.trans e2.symm)
    · exact ⟨k'.length - k.length, (number_suffix hd' h6).symm⟩

theorem leafP_unique {x : Nat} {k k' : List Nat} (hx : X x) (h : LeafP D dim X x k) (h' : LeafP D dim X x k') : k = k' := by
  have key : ∀ {k k' : List Nat}, LeafP D dim X x k → LeafP D dim X x k' → k <:+ k' → k = k' := by
    intro k k' h h' hs
    obtain ⟨j, pk, rfl⟩ := List.exists_cons_of_ne_nil h'.1
    rcases List.suffix_cons_iff.mp hs with h1 | h1
    · exact h1
    · rcases (h'.2.2.2.up (show k <:+ (j :: pk).tail from h1)) with h2 | ⟨a, b, ha, hb, hab, h2, h3⟩
      · exact absurd h2 h.1
      · exact absurd ((h.2.2.1 a ha h2).trans (h.2.2.1 b hb h3).symm) hab
  rcases List.suffix_or_suffix_of_suffix h.2.1 h'.2.1 with h1 | h1
  · exact key h h' h1
  · exact (key h' h h1).symm

theorem path_inj {x y : Nat} (hx : FullKey D dim x) (hy : FullKey D dim y) (h : path dim D x = path dim D y) : x = y := by
  rw [← number_path D x hx, h, number_path D y hy]

/-- A child of an inner cell which holds a particle is a cell. -/
theorem child_cases {k : List Nat} {j x : Nat} (hx : X x) (hk : InnerP D dim X k) (hs : j :: k <:+ path dim D x) :
    InnerP D dim X (j :: k) ∨ LeafP D dim X x (j :: k) := by
  by_cases h : ∃ y, X y ∧ y ≠ x ∧ j :: k <:+ path dim D y
  · obtain ⟨y, hy, hyx, hys⟩ := h
    exact Or.inl (Or.inr ⟨y, x, hy, hx, hyx, hys, hs⟩)
  · refine Or.inr ⟨by simp, hs, fun y hy hys => ?_, hk⟩
    apply Classical.byContradiction
    intro hyx
    exact h ⟨y, hy, hyx, hys⟩

/-- An inner cell has a child towards each of its particles. -/
theorem inner_step (hD : 0 < D) (hX : ∀ y, X y → FullKey D dim y) {k : List Nat} {x : Nat} (hx : X x) (hk : InnerP D dim X k) (hs : k <:+ path dim D x) :
    ∃ j, j :: k <:+ path dim D x := by
  have hlt : k.length < D := by
    have h1 := hs.length_le
    rw [path_length] at h1
    rcases Nat.lt_or_ge k.length D with h2 | h2
    · exact h2
    · exfalso
      rcases hk with rfl | ⟨a, b, ha, hb, hab, h3, h4⟩
      · simp at h2; omega
      · have e1 := h3.eq_of_length (by rw [path_length]; omega)
        have e2 := h4.eq_of_length (by rw [path_length]; omega)
        exact hab (path_inj (hX a ha) (hX b hb) (e1.symm.trans e2))
  obtain ⟨pre, hpre⟩ := hs
  rcases List.eq_nil_or_concat pre with rfl | ⟨l, j, rfl⟩
  · have := path_length (dim := dim) D x
    rw [← hpre] at this
    simp at this; omega
  · exact ⟨j, l, by rw [← hpre]; simp⟩

theorem exists_leafP (hD : 0 < D) (hX : ∀ y, X y → FullKey D dim y) {x : Nat} (hx : X x) : ∀ (n : Nat) (k : List Nat), D ≤ n + k.length → InnerP D dim X k → k <:+ path dim D x →
    ∃ e, LeafP D dim X x e ∧ k <:+ e := by
  intro n
  induction n with
  | zero =>
    intro k hn hk hs
    obtain ⟨j, hj⟩ := inner_step hD hX hx hk hs
    have := hj.length_le
    rw [path_length, List.length_cons] at this
    omega
  | succ n ih =>
    intro k hn hk hs
    obtain ⟨j, hj⟩ := inner_step hD hX hx hk hs
    rcases child_cases hx hk hj with h1 | h1
    · obtain ⟨e, h2, h3⟩ := ih (j :: k) (by rw [List.length_cons]; omega) h1 hj
      exact ⟨e, h2, (List.suffix_cons _ _).trans h3⟩
    · exact ⟨_, h1, List.suffix_cons _ _⟩

/-! ### The global tree -/

theorem isCell_iff (hdim : 0 < dim) (hX : ∀ y, X y → FullKey D dim y) {k : List Nat} :
    IsCell D dim X k ↔ Digits dim k ∧ (InnerP D dim X k ∨ ∃ x, X x ∧ LeafP D dim X x k) := by
  rw [IsCell]
  refine and_congr_right fun hk => ?_
  rw [inner_path hdim hX hk]
  refine or_congr_right ?_
  refine exists_congr fun x => and_congr_right fun hx => ?_
  rw [leaf_path hdim hX hk hx]

theorem innerP_not_leafP {k : List Nat} {x : Nat} (h : InnerP D dim X k) (h' : LeafP D dim X x k) : False := by
  rcases h with h1 | ⟨a, b, ha, hb, hab, h1, h2⟩
  · exact h'.1 h1
  · exact hab ((h'.2.2.1 a ha h1).trans (h'.2.2.1 b hb h2).symm)

theorem cell_parent {j : Nat} {k : List Nat} (h : InnerP D dim X (j :: k) ∨ ∃ x, X x ∧ LeafP D dim X x (j :: k)) : InnerP D dim X k := by
  rcases h with h | ⟨x, -, h⟩
  · exact h.up (List.suffix_cons _ _)
  · exact h.2.2.2

variable (hdim : 0 < dim) (hD : 0 < D) (hX : ∀ y, X y → FullKey D dim y)
include hdim hX

theorem global_isSome {k : List Nat} : (globalTree D dim X k).isSome ↔ Digits dim k ∧ (InnerP D dim X k ∨ ∃ x, X x ∧ LeafP D dim X x k) := by
  rw [← isCell_iff hdim hX, globalTree]
  split_ifs with h <;> simp [h]

open Classical in
theorem global_some {k : List Nat} {g : GCell} (h : globalTree D dim X k = some g) :
    Digits dim k ∧ (g.ent = false → InnerP D dim X k) ∧ (g.ent = true → ∃ x, X x ∧ LeafP D dim X x k) ∧
      ∀ j, j ∈ g.kids ↔ j < 2 ^ dim ∧ (globalTree D dim X (j :: k)).isSome := by
  rw [globalTree] at h
  split_ifs at h with hc
  cases h
  have hdig := hc.1
  have hle : (∃ x, X x ∧ LeafCell D dim X x (number dim k)) ↔ ∃ x, X x ∧ LeafP D dim X x k :=
    exists_congr fun x => and_congr_right fun hx => leaf_path hdim hX hdig hx
  refine ⟨hdig, ?_, ?_, ?_⟩
  · intro he
    rcases ((isCell_iff hdim hX).mp hc).2 with h1 | h1
    · exact h1
    · have he := of_decide_eq_false he
      exact absurd (hle.mpr h1) he
  · intro he
    exact hle.mp (of_decide_eq_true he)
  · intro j
    rw [global_isSome hdim hX, Finset.mem_filter, Finset.mem_range, isCell_iff hdim hX]

theorem isEnt_iff {e : List Nat} : IsEnt (globalTree D dim X) e ↔ Digits dim e ∧ ∃ x, X x ∧ LeafP D dim X x e := by
  constructor
  · rintro ⟨g, hg, he⟩
    obtain ⟨h1, -, h2, -⟩ := global_some hdim hX hg
    exact ⟨h1, h2 he⟩
  · rintro ⟨h1, x, hx, h2⟩
    obtain ⟨g, hg⟩ := Option.isSome_iff_exists.mp ((global_isSome hdim hX).mpr ⟨h1, Or.inr ⟨x, hx, h2⟩⟩)
    refine ⟨g, hg, ?_⟩
    cases he : g.ent with
    | true => rfl
    | false => exact (innerP_not_leafP ((global_some hdim hX hg).2.1 he) h2).elim

/-- The cells of the tree. -/
noncomputable def cellsOf (D dim : Nat) (l : List Nat) : Finset (List Nat) :=
  (insert [] (l.toFinset.biUnion fun x => (path dim D x).tails.toFinset)).filter fun k => (globalTree D dim (· ∈ l) k).isSome

include hD in
omit hX in
theorem global_tree {l : List Nat} (hl : l ≠ []) (hX : ∀ y ∈ l, FullKey D dim y) : IsTree (2 ^ dim) (globalTree D dim (· ∈ l)) (cellsOf D dim l) := by
  have hX' : ∀ y, (· ∈ l) y → FullKey D dim y := hX
  constructor
  · intro k
    unfold cellsOf
    rw [Finset.mem_filter]
    constructor
    · exact fun h => h.2
    · intro h
      refine ⟨?_, h⟩
      rw [global_isSome hdim hX'] at h
      rw [Finset.mem_insert, Finset.mem_biUnion]
      rcases h.2 with (h1 | ⟨x, y, hx, hy, -, h1, -⟩) | ⟨x, hx, h1⟩
      · exact Or.inl h1
      · exact Or.inr ⟨x, List.mem_toFinset.mpr hx, by rw [List.mem_toFinset, List.mem_tails]; exact h1⟩
      · exact Or.inr ⟨x, List.mem_toFinset.mpr hx, by rw [List.mem_toFinset, List.mem_tails]; exact h1.2.1⟩
  · obtain ⟨g, hg⟩ := Option.isSome_iff_exists.mp ((global_isSome (X := (· ∈ l)) (k := []) hdim hX').mpr ⟨fun j hj => by simp at hj, Or.inl (Or.inl rfl)⟩)
    refine ⟨g, hg, ?_⟩
    cases he : g.ent with
    | false => rfl
    | true =>
      obtain ⟨x, -, h⟩ := (global_some hdim hX' hg).2.2.1 he
      exact absurd rfl h.1
  · intro j k
    constructor
    · intro h
      have h0 := (global_isSome hdim hX').mp h
      have h1 := cell_parent h0.2
      obtain ⟨g, hg⟩ := Option.isSome_iff_exists.mp ((global_isSome (X := (· ∈ l)) hdim hX').mpr ⟨digits_suffix h0.1 (List.suffix_cons _ _), Or.inl h1⟩)
      exact ⟨g, hg, ((global_some hdim hX' hg).2.2.2 j).mpr ⟨h0.1 j List.mem_cons_self, h⟩⟩
    · rintro ⟨g, hg, hj⟩
      exact (((global_some hdim hX' hg).2.2.2 j).mp hj).2
  · intro k g hg
    obtain ⟨h1, h2, h3, h4⟩ := global_some hdim hX' hg
    constructor
    · intro he
      obtain ⟨x, hx, h5⟩ := h3 he
      rw [Finset.eq_empty_iff_forall_notMem]
      intro j hj
      have h6 := ((global_isSome hdim hX').mp ((h4 j).mp hj).2).2
      exact innerP_not_leafP (cell_parent h6) h5
    · intro hk
      cases he : g.ent with
      | true => rfl
      | false =>
        exfalso
        have h5 := h2 he
        obtain ⟨x, hx, hs⟩ : ∃ x ∈ l, k <:+ path dim D x := by
          rcases h5 with h6 | ⟨x, y, hx, hy, -, h6, -⟩
          · obtain ⟨x, hx⟩ := List.exists_mem_of_ne_nil l hl
            exact ⟨x, hx, by rw [h6]; exact List.nil_suffix⟩
          · exact ⟨x, hx, h6⟩
        obtain ⟨j, hj⟩ := inner_step (X := (· ∈ l)) hD hX' hx h5 hs
        have hdj := digits_suffix (path_digits D x) hj
        have : j ∈ g.kids := by
          rw [h4 j]
          refine ⟨hdj j List.mem_cons_self, (global_isSome hdim hX').mpr ⟨hdj, ?_⟩⟩
          rcases child_cases (X := (· ∈ l)) hx h5 hj with h7 | h7
          · exact Or.inl h7
          · exact Or.inr ⟨x, hx, h7⟩
        rw [hk] at this; simp at this
  · intro k g hg j hj
    exact (((global_some hdim hX' hg).2.2.2 j).mp hj).1

omit hX in
theorem global_depth {l : List Nat} (hX : ∀ y ∈ l, FullKey D dim y) : ∀ k ∈ cellsOf D dim l, k.length ≤ D := by
  intro k hk
  unfold cellsOf at hk
  rw [Finset.mem_filter] at hk
  rcases ((global_isSome (X := (· ∈ l)) hdim hX).mp hk.2).2 with (h1 | ⟨x, y, hx, hy, -, h1, -⟩) | ⟨x, hx, h1⟩
  · rw [h1]; simp
  · have := h1.length_le; rwa [path_length] at this
  · have := h1.2.1.length_le; rwa [path_length] at this

end FleCSPH.Tree
