import Verif.Lemmas.StartupTab
import Mathlib.Algebra.BigOperators.Group.Finset.Basic
/-! The summaries of the cells of the global tree. -/
namespace FleCSPH.Startup
open FleCSPH.Spec FleCSPH.Tree FleCSPH.Ghosts FleCSPH.Cofm FleCSPH.Geometry

variable {D dim d : Nat}

open Classical in
/-- The particles of a cell. -/
noncomputable def inside (D dim : Nat) (l : List Nat) (k : List Nat) : Finset Nat := l.toFinset.filter fun x => k <:+ path dim D x

theorem mem_inside {l : List Nat} {k : List Nat} {x : Nat} : x ∈ inside D dim l k ↔ x ∈ l ∧ k <:+ path dim D x := by
  unfold inside
  rw [Finset.mem_filter, List.mem_toFinset]

theorem inside_children (hD : 0 < D) {l : List Nat} (hX : ∀ y ∈ l, FullKey D dim y) {k : List Nat} (hk : InnerP D dim (· ∈ l) k) {M : Type} [AddCommMonoid M] (f : Nat → M) :
    ∑ x ∈ inside D dim l k, f x = ((List.range (2 ^ dim)).map fun b => ∑ x ∈ inside D dim l (b :: k), f x).sum := by
  have e : inside D dim l k = (Finset.range (2 ^ dim)).biUnion fun b => inside D dim l (b :: k) := by
    ext x
    rw [mem_inside, Finset.mem_biUnion]
    constructor
    · rintro ⟨h1, h2⟩
      obtain ⟨j, hj⟩ := inner_step (X := (· ∈ l)) hD hX h1 hk h2
      exact ⟨j, Finset.mem_range.mpr (digits_suffix (path_digits _ _) hj j List.mem_cons_self), mem_inside.mpr ⟨h1, hj⟩⟩
    · rintro ⟨b, -, h⟩
      obtain ⟨h1, h2⟩ := mem_inside.mp h
      exact ⟨h1, (List.suffix_cons _ _).trans h2⟩
  rw [e, Finset.sum_biUnion, sum_range_list]
  intro b _ b' _ hbb
  rw [Function.onFun, Finset.disjoint_left]
  intro x h1 h2
  obtain ⟨-, h1⟩ := mem_inside.mp h1
  obtain ⟨-, h2⟩ := mem_inside.mp h2
  rcases List.suffix_or_suffix_of_suffix h1 h2 with h3 | h3
  · have := h3.eq_of_length (by simp)
    cases this; exact hbb rfl
  · have := h3.eq_of_length (by simp)
    cases this; exact hbb rfl

theorem sum_split {M : Type} [AddCommMonoid M] (f : Nat → M) (S : Nat → Finset Nat) (x : Nat → Nat) (p q : Nat → Bool) (l : List Nat)
    (h0 : ∀ b ∈ l, p b = false → q b = false → S b = ∅) (h1 : ∀ b ∈ l, p b = true → S b = {x b}) (h2 : ∀ b ∈ l, p b = true → q b = false) :
    (l.map fun b => ∑ j ∈ S b, f j).sum = ((l.filter p).map fun b => f (x b)).sum + ((l.filter q).map fun b => ∑ j ∈ S b, f j).sum := by
  induction l with
  | nil => simp
  | cons b l ih =>
    have ih := ih (fun b hb => h0 b (List.mem_cons_of_mem _ hb)) (fun b hb => h1 b (List.mem_cons_of_mem _ hb)) (fun b hb => h2 b (List.mem_cons_of_mem _ hb))
    rw [List.map_cons, List.sum_cons, ih]
    cases hp : p b with
    | true =>
      rw [List.filter_cons_of_pos hp, List.filter_cons_of_neg (by rw [h2 b List.mem_cons_self hp]; decide), List.map_cons, List.sum_cons, h1 b List.mem_cons_self hp,
        Finset.sum_singleton, add_assoc]
    | false =>
      rw [List.filter_cons_of_neg (by rw [hp]; decide)]
      cases hq : q b with
      | true => rw [List.filter_cons_of_pos hq, List.map_cons, List.sum_cons, add_left_comm]
      | false => rw [List.filter_cons_of_neg (by rw [hq]; decide), h0 b List.mem_cons_self hp hq, Finset.sum_empty, zero_add]

theorem mapM_of {α β γ : Type} (g : β → Option γ) (v : α → β) (w : α → γ) (l : List α) (h : ∀ a ∈ l, g (v a) = some (w a)) : (l.map v).mapM g = some (l.map w) := by
  induction l with
  | nil => rfl
  | cons a l ih =>
    rw [List.map_cons, List.mapM_cons, h a List.mem_cons_self, ih fun a ha => h a (List.mem_cons_of_mem _ ha)]
    rfl

theorem summary (big : ℝ) (hdim : 0 < dim) (hD : 0 < D) {l : List Nat} (hl : l ≠ []) (hX : ∀ y ∈ l, FullKey D dim y) (body : Nat → Body d) (hmass : ∀ x ∈ l, 0 < (body x).mass) :
    ∀ (n : Nat) (k : List Nat), D ≤ n + k.length → Digits dim k → InnerP D dim (· ∈ l) k →
      ∃ N, valOf D dim (· ∈ l) (summarise big) (fun x => .inl (body x)) k = .inr (some N) ∧ Summarises body (inside D dim l k) N ∧ 0 ≤ N.radius ∧ BoxTight big body (inside D dim l k) N := by
  have hX' : ∀ y, (· ∈ l) y → FullKey D dim y := hX
  have hin : ∀ k, InnerP D dim (· ∈ l) k → (inside D dim l k).Nonempty := by
    intro k hk
    rcases hk with rfl | ⟨x, y, hx, -, -, h1, -⟩
    · obtain ⟨x, hx⟩ := List.exists_mem_of_ne_nil l hl
      exact ⟨x, mem_inside.mpr ⟨hx, List.nil_suffix⟩⟩
    · exact ⟨x, mem_inside.mpr ⟨hx, h1⟩⟩
  intro n
  induction n with
  | zero =>
    intro k hn hd hk
    exfalso
    obtain ⟨x, hx⟩ := hin k hk
    obtain ⟨h1, h2⟩ := mem_inside.mp hx
    obtain ⟨j, hj⟩ := inner_step (X := (· ∈ l)) hD hX h1 hk h2
    have := hj.length_le
    rw [path_length, List.length_cons] at this
    omega
  | succ n ih =>
    intro k hn hd hk
    rw [valOf_inner _ _ hk]
    obtain ⟨G, hG⟩ : ∃ G, G = globalTree D dim (· ∈ l) := ⟨_, rfl⟩
    have hdj : ∀ b ∈ List.range (2 ^ dim), Digits dim (b :: k) := by
      intro b hb j hj
      rcases List.mem_cons.mp hj with rfl | hj
      · exact List.mem_range.mp hb
      · exact hd j hj
    -- the three kinds of children
    have hleaf : ∀ b, (G (b :: k)).map GCell.ent = some true → ∃ x, x ∈ l ∧ LeafP D dim (· ∈ l) x (b :: k) := by
      intro b hb
      rw [hG, Option.map_eq_some_iff] at hb
      obtain ⟨g, hg, he⟩ := hb
      exact (global_some hdim hX' hg).2.2.1 he
    have hnode : ∀ b, (G (b :: k)).map GCell.ent = some false → InnerP D dim (· ∈ l) (b :: k) := by
      intro b hb
      rw [hG, Option.map_eq_some_iff] at hb
      obtain ⟨g, hg, he⟩ := hb
      exact (global_some hdim hX' hg).2.1 he
    have hnone : ∀ b, (G (b :: k)).map GCell.ent ≠ some true → (G (b :: k)).map GCell.ent ≠ some false → inside D dim l (b :: k) = ∅ := by
      intro b h1 h2
      rw [Finset.eq_empty_iff_forall_notMem]
      intro x hx
      obtain ⟨h3, h4⟩ := mem_inside.mp hx
      have hd' := digits_suffix (path_digits _ _) h4
      have : (G (b :: k)).isSome := by
        rw [hG, global_isSome hdim hX']
        refine ⟨hd', ?_⟩
        rcases child_cases (X := (· ∈ l)) h3 hk h4 with h5 | h5
        · exact Or.inl h5
        · exact Or.inr ⟨x, h3, h5⟩
      obtain ⟨g, hg⟩ := Option.isSome_iff_exists.mp this
      rw [hg] at h1 h2
      cases he : g.ent with
      | true => exact h1 (by rw [Option.map_some, he])
      | false => exact h2 (by rw [Option.map_some, he])
    classical
    let xo : Nat → Nat := fun b => if h : ∃ x, x ∈ l ∧ LeafP D dim (· ∈ l) x (b :: k) then h.choose else 0
    have hxo : ∀ b, (G (b :: k)).map GCell.ent = some true → xo b ∈ l ∧ LeafP D dim (· ∈ l) (xo b) (b :: k) := by
      intro b hb
      have h := hleaf b hb
      show (dite _ _ _) ∈ l ∧ LeafP D dim (· ∈ l) (dite _ _ _) _
      rw [dif_pos h]
      exact h.choose_spec
    have hno : ∀ b ∈ (List.range (2 ^ dim)).filter (fun j => decide ((G (j :: k)).map GCell.ent = some false)), ∃ N, valOf D dim (· ∈ l) (summarise big) (fun x => .inl (body x)) (b :: k) = .inr (some N) ∧
        Summarises body (inside D dim l (b :: k)) N ∧ 0 ≤ N.radius ∧ BoxTight big body (inside D dim l (b :: k)) N := by
      intro b hb
      obtain ⟨h1, h2⟩ := List.mem_filter.mp hb
      exact ih (b :: k) (by rw [List.length_cons]; omega) (hdj b h1) (hnode b (of_decide_eq_true h2))
    let nd : Nat → Node d := fun b => ((nodeOf (valOf D dim (· ∈ l) (summarise big) (fun x => .inl (body x)) (b :: k)))).getD ⟨0, 0, 0, 0, 0, 0, 0⟩
    have hnd : ∀ b ∈ (List.range (2 ^ dim)).filter (fun j => decide ((G (j :: k)).map GCell.ent = some false)),
        nodeOf (valOf D dim (· ∈ l) (summarise big) (fun x => .inl (body x)) (b :: k)) = some (nd b) ∧
        Summarises body (inside D dim l (b :: k)) (nd b) ∧ 0 ≤ (nd b).radius ∧ BoxTight big body (inside D dim l (b :: k)) (nd b) := by
      intro b hb
      obtain ⟨N, h1, h2⟩ := hno b hb
      have e : nd b = N := by
        show (nodeOf _).getD _ = N
        rw [h1]; rfl
      rw [e]
      exact ⟨by rw [h1]; rfl, h2⟩
    let ns : List (Finset Nat × Node d) := ((List.range (2 ^ dim)).filter (fun j => decide ((G (j :: k)).map GCell.ent = some false))).map fun b => (inside D dim l (b :: k), nd b)
    let es : List Nat := ((List.range (2 ^ dim)).filter (fun j => decide ((G (j :: k)).map GCell.ent = some true))).map xo
    have hes : (((List.range (2 ^ dim)).filter (fun j => decide ((G (j :: k)).map GCell.ent = some true))).map fun j => valOf D dim (· ∈ l) (summarise big) (fun x => .inl (body x)) (j :: k)).mapM bodyOf =
        some (es.map body) := by
      rw [List.map_map]
      apply mapM_of
      intro b hb
      obtain ⟨h1, h2⟩ := hxo b (of_decide_eq_true (List.mem_filter.mp hb).2)
      rw [valOf_leaf (X := (· ∈ l)) _ _ h1 h2]; rfl
    have hns : (((List.range (2 ^ dim)).filter (fun j => decide ((G (j :: k)).map GCell.ent = some false))).map fun j => valOf D dim (· ∈ l) (summarise big) (fun x => .inl (body x)) (j :: k)).mapM nodeOf =
        some (ns.map Prod.snd) := by
      rw [List.map_map]
      apply mapM_of
      intro b hb
      exact (hnd b hb).1
    have hsum : ∀ (M : Type) [AddCommMonoid M] (f : Nat → M), ∑ j ∈ inside D dim l k, f j = (es.map f).sum + (ns.map fun n => ∑ j ∈ n.1, f j).sum := by
      intro M _ f
      rw [inside_children hD hX hk f, List.map_map, List.map_map]
      apply sum_split f (fun b => inside D dim l (b :: k)) xo
      · intro b _ h1 h2
        exact hnone b (of_decide_eq_false h1) (of_decide_eq_false h2)
      · intro b _ h1
        obtain ⟨h2, h3⟩ := hxo b (of_decide_eq_true h1)
        ext y
        rw [mem_inside, Finset.mem_singleton]
        constructor
        · rintro ⟨g1, g2⟩; exact h3.2.2.1 y g1 g2
        · rintro rfl; exact ⟨h2, h3.2.1⟩
      · intro b _ h1
        rw [of_decide_eq_true h1]; rfl
    obtain ⟨N, h1, h2, h3⟩ := computeCofm_spec big body (inside D dim l k) es ns (by
        intro m hm
        obtain ⟨b, hb, rfl⟩ := List.mem_map.mp hm
        exact (hnd b hb).2) hsum (by
        intro j hj
        obtain ⟨h1, h2⟩ := mem_inside.mp hj
        obtain ⟨b, hb⟩ := inner_step (X := (· ∈ l)) hD hX h1 hk h2
        have hbr : b ∈ List.range (2 ^ dim) := List.mem_range.mpr (digits_suffix (path_digits _ _) hb b List.mem_cons_self)
        by_cases g1 : (G (b :: k)).map GCell.ent = some true
        · left
          obtain ⟨g2, g3⟩ := hxo b g1
          refine List.mem_map.mpr ⟨b, List.mem_filter.mpr ⟨hbr, decide_eq_true g1⟩, ?_⟩
          exact (g3.2.2.1 j h1 hb).symm
        · by_cases g2 : (G (b :: k)).map GCell.ent = some false
          · right
            exact ⟨_, List.mem_map.mpr ⟨b, List.mem_filter.mpr ⟨hbr, decide_eq_true g2⟩, rfl⟩, mem_inside.mpr ⟨h1, hb⟩⟩
          · have := hnone b g1 g2
            have hm : j ∈ inside D dim l (b :: k) := mem_inside.mpr ⟨h1, hb⟩
            rw [this] at hm; simp at hm) (fun j hj => hmass j (mem_inside.mp hj).1) (hin k hk)
    refine ⟨N, ?_, h2, h3⟩
    rw [← hG, summarise, hes, hns, Option.bind_some, Option.bind_some, h1]

end FleCSPH.Startup
