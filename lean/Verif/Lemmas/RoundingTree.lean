import Verif.Lemmas.Rounding
import Verif.Lemmas.StartupCofm
/-! The rounded summaries of the cells of the global tree. -/
namespace FleCSPH.Startup
open FleCSPH.Spec FleCSPH.Tree FleCSPH.Ghosts FleCSPH.Cofm FleCSPH.Geometry

variable {D dim d : Nat}

/-- A statement about the data of the nodes, by induction over the tree: `Q n S N` says that `N` is right for the particles `S` in `n` levels. -/
theorem summary_of (F : Nat → List (Data d) → List (Data d) → Data d) (Q : Nat → Finset Nat → Node d → Prop) (hdim : 0 < dim) (hD : 0 < D) {l : List Nat} (hl : l ≠ []) (hX : ∀ y ∈ l, FullKey D dim y)
    (body : Nat → Body d)
    (hstep : ∀ n key S (es : List Nat) (ns : List (Finset Nat × Node d)), (∀ m ∈ ns, Q n m.1 m.2) → es.length ≤ 2 ^ dim → ns.length ≤ 2 ^ dim → (∀ j ∈ es, j ∈ l) → (es ≠ [] ∨ ns ≠ []) →
      (∀ j ∈ S, j ∈ es ∨ ∃ m ∈ ns, j ∈ m.1) →
      (∀ f : Nat → ℝ, ∑ j ∈ S, f j = (es.map f).sum + (ns.map fun m => ∑ j ∈ m.1, f j).sum) → ∃ N, F key (es.map fun x => .inl (body x)) (ns.map fun m => .inr (some m.2)) = .inr (some N) ∧ Q (n + 1) S N) :
    ∀ (n : Nat) (k : List Nat), D ≤ n + k.length → Digits dim k → InnerP D dim (· ∈ l) k →
      ∃ N, valOf D dim (· ∈ l) F (fun x => .inl (body x)) k = .inr (some N) ∧ Q n (inside D dim l k) N := by
  have hX' : ∀ y, (· ∈ l) y → FullKey D dim y := hX
  have hin : ∀ k, InnerP D dim (· ∈ l) k → (inside D dim l k).Nonempty := by
    intro k hk
    rcases hk with rfl | ⟨x, y, hx, -, -, h1, -⟩
    · obtain ⟨x, hx⟩ := List.exists_mem_of_ne_nil l hl
      exact ⟨x, mem_inside.mpr ⟨hx, List.nil_suffix⟩⟩
    · exact ⟨x, mem_inside.mpr ⟨hx, h1⟩⟩
  intro n
  induction n with
  | zero =>
    intro k hn hd hk
    exfalso
    obtain ⟨x, hx⟩ := hin k hk
    obtain ⟨h1, h2⟩ := mem_inside.mp hx
    obtain ⟨j, hj⟩ := inner_step (X := (· ∈ l)) hD hX h1 hk h2
    have := hj.length_le
    rw [path_length, List.length_cons] at this
    omega
  | succ n ih =>
    intro k hn hd hk
    rw [valOf_inner _ _ hk]
    obtain ⟨G, hG⟩ : ∃ G, G = globalTree D dim (· ∈ l) := ⟨_, rfl⟩
    have hdj : ∀ b ∈ List.range (2 ^ dim), Digits dim (b :: k) := by
      intro b hb j hj
      rcases List.mem_cons.mp hj with rfl | hj
      · exact List.mem_range.mp hb
      · exact hd j hj
    have hleaf : ∀ b, (G (b :: k)).map GCell.ent = some true → ∃ x, x ∈ l ∧ LeafP D dim (· ∈ l) x (b :: k) := by
      intro b hb
      rw [hG, Option.map_eq_some_iff] at hb
      obtain ⟨g, hg, he⟩ := hb
      exact (global_some hdim hX' hg).2.2.1 he
    have hnode : ∀ b, (G (b :: k)).map GCell.ent = some false → InnerP D dim (· ∈ l) (b :: k) := by
      intro b hb
      rw [hG, Option.map_eq_some_iff] at hb
      obtain ⟨g, hg, he⟩ := hb
      exact (global_some hdim hX' hg).2.1 he
    have hnone : ∀ b, (G (b :: k)).map GCell.ent ≠ some true → (G (b :: k)).map GCell.ent ≠ some false → inside D dim l (b :: k) = ∅ := by
      intro b h1 h2
      rw [Finset.eq_empty_iff_forall_notMem]
      intro x hx
      obtain ⟨h3, h4⟩ := mem_inside.mp hx
      have hd' := digits_suffix (path_digits _ _) h4
      have : (G (b :: k)).isSome := by
        rw [hG, global_isSome hdim hX']
        refine ⟨hd', ?_⟩
        rcases child_cases (X := (· ∈ l)) h3 hk h4 with h5 | h5
        · exact Or.inl h5
        · exact Or.inr ⟨x, h3, h5⟩
      obtain ⟨g, hg⟩ := Option.isSome_iff_exists.mp this
      rw [hg] at h1 h2
      cases he : g.ent with
      | true => exact h1 (by rw [Option.map_some, he])
      | false => exact h2 (by rw [Option.map_some, he])
    classical
    let xo : Nat → Nat := fun b => if h : ∃ x, x ∈ l ∧ LeafP D dim (· ∈ l) x (b :: k) then h.choose else 0
    have hxo : ∀ b, (G (b :: k)).map GCell.ent = some true → xo b ∈ l ∧ LeafP D dim (· ∈ l) (xo b) (b :: k) := by
      intro b hb
      have h := hleaf b hb
      show (dite _ _ _) ∈ l ∧ LeafP D dim (· ∈ l) (dite _ _ _) _
      rw [dif_pos h]
      exact h.choose_spec
    let nd : Nat → Node d := fun b => ((nodeOf (valOf D dim (· ∈ l) F (fun x => .inl (body x)) (b :: k)))).getD ⟨0, 0, 0, 0, 0, 0, 0⟩
    have hnd : ∀ b ∈ (List.range (2 ^ dim)).filter (fun j => decide ((G (j :: k)).map GCell.ent = some false)),
        valOf D dim (· ∈ l) F (fun x => .inl (body x)) (b :: k) = .inr (some (nd b)) ∧ Q n (inside D dim l (b :: k)) (nd b) := by
      intro b hb
      obtain ⟨h1, h2⟩ := List.mem_filter.mp hb
      obtain ⟨N, h3, h4⟩ := ih (b :: k) (by rw [List.length_cons]; omega) (hdj b h1) (hnode b (of_decide_eq_true h2))
      have e : nd b = N := by
        show (nodeOf _).getD _ = N
        rw [h3]; rfl
      rw [e]
      exact ⟨h3, h4⟩
    let ns : List (Finset Nat × Node d) := ((List.range (2 ^ dim)).filter (fun j => decide ((G (j :: k)).map GCell.ent = some false))).map fun b => (inside D dim l (b :: k), nd b)
    let es : List Nat := ((List.range (2 ^ dim)).filter (fun j => decide ((G (j :: k)).map GCell.ent = some true))).map xo
    have hes : ((List.range (2 ^ dim)).filter (fun j => decide ((G (j :: k)).map GCell.ent = some true))).map (fun j => valOf D dim (· ∈ l) F (fun x => .inl (body x)) (j :: k)) =
        es.map fun x => .inl (body x) := by
      rw [List.map_map]
      refine List.map_congr_left fun b hb => ?_
      obtain ⟨h1, h2⟩ := hxo b (of_decide_eq_true (List.mem_filter.mp hb).2)
      rw [valOf_leaf (X := (· ∈ l)) _ _ h1 h2]; rfl
    have hns : ((List.range (2 ^ dim)).filter (fun j => decide ((G (j :: k)).map GCell.ent = some false))).map (fun j => valOf D dim (· ∈ l) F (fun x => .inl (body x)) (j :: k)) =
        ns.map fun m => .inr (some m.2) := by
      rw [List.map_map]
      exact List.map_congr_left fun b hb => (hnd b hb).1
    have hcov : ∀ j ∈ inside D dim l k, j ∈ es ∨ ∃ m ∈ ns, j ∈ m.1 := by
      intro j hj
      obtain ⟨h1, h2⟩ := mem_inside.mp hj
      obtain ⟨b, hb⟩ := inner_step (X := (· ∈ l)) hD hX h1 hk h2
      have hbr : b ∈ List.range (2 ^ dim) := List.mem_range.mpr (digits_suffix (path_digits _ _) hb b List.mem_cons_self)
      by_cases g1 : (G (b :: k)).map GCell.ent = some true
      · left
        obtain ⟨g2, g3⟩ := hxo b g1
        refine List.mem_map.mpr ⟨b, List.mem_filter.mpr ⟨hbr, decide_eq_true g1⟩, ?_⟩
        exact (g3.2.2.1 j h1 hb).symm
      · by_cases g2 : (G (b :: k)).map GCell.ent = some false
        · right
          exact ⟨_, List.mem_map.mpr ⟨b, List.mem_filter.mpr ⟨hbr, decide_eq_true g2⟩, rfl⟩, mem_inside.mpr ⟨h1, hb⟩⟩
        · have := hnone b g1 g2
          have hm : j ∈ inside D dim l (b :: k) := mem_inside.mpr ⟨h1, hb⟩
          rw [this] at hm; simp at hm
    have hsum : ∀ f : Nat → ℝ, ∑ j ∈ inside D dim l k, f j = (es.map f).sum + (ns.map fun m => ∑ j ∈ m.1, f j).sum := by
      intro f
      rw [inside_children hD hX hk f, List.map_map, List.map_map]
      apply sum_split f (fun b => inside D dim l (b :: k)) xo
      · intro b _ h1 h2
        exact hnone b (of_decide_eq_false h1) (of_decide_eq_false h2)
      · intro b _ h1
        obtain ⟨h2, h3⟩ := hxo b (of_decide_eq_true h1)
        ext y
        rw [mem_inside, Finset.mem_singleton]
        constructor
        · rintro ⟨g1, g2⟩; exact h3.2.2.1 y g1 g2
        · rintro rfl; exact ⟨h2, h3.2.1⟩
      · intro b _ h1
        rw [of_decide_eq_true h1]
        rfl
    have hlen : ∀ p : Nat → Bool, ((List.range (2 ^ dim)).filter p).length ≤ 2 ^ dim := fun p => (List.length_filter_le _ _).trans (List.length_range).le
    rw [← hG, hes, hns]
    refine hstep n _ _ es ns ?_ (by rw [List.length_map]; exact hlen _) (by rw [List.length_map]; exact hlen _) ?_ ?_ hcov hsum
    · intro m hm
      obtain ⟨b, hb, rfl⟩ := List.mem_map.mp hm
      exact (hnd b hb).2
    · intro j hj
      obtain ⟨b, hb, rfl⟩ := List.mem_map.mp hj
      exact (hxo b (of_decide_eq_true (List.mem_filter.mp hb).2)).1
    · obtain ⟨j, hj⟩ := hin k hk
      rcases hcov j hj with h | ⟨m, h, -⟩
      · exact Or.inl (List.ne_nil_of_mem h)
      · exact Or.inr (List.ne_nil_of_mem h)

end FleCSPH.Startup

namespace FleCSPH.Rounded
open FleCSPH.Spec FleCSPH.Tree FleCSPH.Cofm FleCSPH.Geometry FleCSPH.Startup

variable {D dim d : Nat} {R : Rounding}

/-- What holds of a node computed with rounding, `n` levels above the deepest cells, for the particles `S`; `X` bounds coordinates and smoothing lengths. -/
structure Sums (R : Rounding) (X : ℝ) (body : Nat → Body d) (n : Nat) (S : Finset Nat) (N : Node d) : Prop where
  mass : 0 < N.mass
  coords : ∀ i, (1 - R.u) ^ (34 * n) * |N.coords i| ≤ X
  pos : 0 ≤ N.radius
  radius : ∀ j ∈ S, (1 - R.u) ^ (9 * n) * Geometry.distance N.coords (body j).pos ≤ N.radius
  lap : ∀ j ∈ S, (1 - R.u) ^ (9 * n) * (Geometry.distance N.coords (body j).pos + (body j).h) ≤ N.lap
  box : ∀ j ∈ S, ∀ i, N.bmin i ≤ R.fl ((body j).pos i - R.fl ((body j).h / 2)) ∧ R.fl ((body j).pos i + R.fl ((body j).h / 2)) ≤ N.bmax i

theorem mass_fold (hu : R.u ≤ 1) : ∀ (l : List (ℝ × ℝ)) (s : ℝ), 0 ≤ s → (∀ a ∈ l, 0 ≤ a.1) → 0 ≤ (l.map Prod.fst).sum ∧
    (1 - R.u) ^ l.length * (s + (l.map Prod.fst).sum) ≤ l.foldl (fun s a => R.fl (s + a.1)) s := by
  intro l
  induction l with
  | nil => intro s hs _; simp
  | cons a l ih =>
    intro s hs h
    have ha := h a List.mem_cons_self
    have h1 := fl_ge (R := R) (add_nonneg hs ha)
    obtain ⟨h2, h3⟩ := ih (R.fl (s + a.1)) (fl_nonneg hu (add_nonneg hs ha)) fun a ha => h a (List.mem_cons_of_mem _ ha)
    rw [List.map_cons, List.sum_cons, List.length_cons, List.foldl_cons]
    refine ⟨add_nonneg ha h2, le_trans ?_ h3⟩
    have h4 := pow_nonneg' hu l.length (R := R)
    calc (1 - R.u) ^ (l.length + 1) * (s + (a.1 + (l.map Prod.fst).sum)) = (1 - R.u) ^ l.length * ((1 - R.u) * (s + a.1) + (1 - R.u) * (l.map Prod.fst).sum) := by ring
      _ ≤ (1 - R.u) ^ l.length * (R.fl (s + a.1) + (l.map Prod.fst).sum) := by
        refine mul_le_mul_of_nonneg_left (add_le_add h1 ?_) h4
        exact mul_le_of_le_one_left h2 (by linarith [R.nonneg])

theorem coord_fold (hu : R.u ≤ 1) {B : ℝ} (hB : 0 ≤ B) : ∀ (l : List (ℝ × ℝ)) (s : ℝ), (∀ a ∈ l, 0 ≤ a.1 ∧ |a.2| ≤ B) →
    (1 - R.u) ^ (l.length + 1) * |l.foldl (fun s a => R.fl (s + R.fl (a.1 * a.2))) s| ≤ (1 - R.u) * |s| + B * (l.map Prod.fst).sum := by
  intro l
  induction l with
  | nil => intro s _; simp
  | cons a l ih =>
    intro s h
    obtain ⟨hm, hx⟩ := h a List.mem_cons_self
    have hv : 0 ≤ 1 - R.u := by linarith
    have hv1 : 1 - R.u ≤ 1 := by linarith [R.nonneg]
    have h1 := ih (R.fl (s + R.fl (a.1 * a.2))) fun a ha => h a (List.mem_cons_of_mem _ ha)
    have hS : 0 ≤ (l.map Prod.fst).sum := List.sum_nonneg (by
      intro z hz
      obtain ⟨a, ha, rfl⟩ := List.mem_map.mp hz
      exact (h a (List.mem_cons_of_mem _ ha)).1)
    have h2 := (near_abs hu (R := R) (s + R.fl (a.1 * a.2))).2
    have h3 := (near_abs hu (R := R) (a.1 * a.2)).2
    rw [pow_one] at h2 h3
    rw [abs_mul, abs_of_nonneg hm] at h3
    have h4 : a.1 * |a.2| ≤ B * a.1 := by rw [mul_comm B]; exact mul_le_mul_of_nonneg_left hx hm
    have h5 := abs_add_le s (R.fl (a.1 * a.2))
    rw [List.map_cons, List.sum_cons, List.length_cons, List.foldl_cons]
    calc (1 - R.u) ^ (l.length + 1 + 1) * |l.foldl (fun s a => R.fl (s + R.fl (a.1 * a.2))) (R.fl (s + R.fl (a.1 * a.2)))|
        = (1 - R.u) * ((1 - R.u) ^ (l.length + 1) * |l.foldl (fun s a => R.fl (s + R.fl (a.1 * a.2))) (R.fl (s + R.fl (a.1 * a.2)))|) := by ring
      _ ≤ (1 - R.u) * ((1 - R.u) * |R.fl (s + R.fl (a.1 * a.2))| + B * (l.map Prod.fst).sum) := mul_le_mul_of_nonneg_left h1 hv
      _ ≤ (1 - R.u) * (|s| + |R.fl (a.1 * a.2)| + B * (l.map Prod.fst).sum) := mul_le_mul_of_nonneg_left (by linarith) hv
      _ = (1 - R.u) * |s| + (1 - R.u) * |R.fl (a.1 * a.2)| + (1 - R.u) * (B * (l.map Prod.fst).sum) := by ring
      _ ≤ (1 - R.u) * |s| + B * a.1 + B * (l.map Prod.fst).sum := by
        have := mul_le_of_le_one_left (mul_nonneg hB hS) hv1
        linarith
      _ = _ := by ring

theorem fold_at {α : Type} (F : Fin d → ℝ → α → ℝ) (l : List α) (c : Point d) (i : Fin d) : l.foldl (fun (c : Point d) a => fun i => F i (c i) a) c i = l.foldl (fun x a => F i x a) (c i) := by
  induction l generalizing c with
  | nil => rfl
  | cons a l ih => rw [List.foldl_cons, List.foldl_cons, ih]

/-- One level. -/
theorem computeCofm_sums {X : ℝ} (hu : R.u < 1) (hd : d ≤ 3) (hX : 0 ≤ X) (big : ℝ) (body : Nat → Body d) (n : Nat) (S : Finset Nat) (es : List Nat) (ns : List (Finset Nat × Node d))
    (hns : ∀ m ∈ ns, Sums R X body n m.1 m.2) (hes : ∀ j ∈ es, 0 < (body j).mass ∧ 0 ≤ (body j).h ∧ ∀ i, |(body j).pos i| ≤ X) (hel : es.length ≤ 8) (hnl : ns.length ≤ 8) (hne : es ≠ [] ∨ ns ≠ [])
    (hcov : ∀ j ∈ S, j ∈ es ∨ ∃ m ∈ ns, j ∈ m.1) (hh : ∀ m ∈ ns, ∀ j ∈ m.1, 0 ≤ (body j).h) : ∃ N, computeCofm R big (es.map body) (ns.map Prod.snd) = some N ∧ Sums R X body (n + 1) S N := by
  have hv : 0 < 1 - R.u := by linarith
  have hv1 : 1 - R.u ≤ 1 := by linarith [R.nonneg]
  have hp : ∀ k, 0 < (1 - R.u) ^ k := fun k => pow_pos hv k
  -- masses and coordinates as one list
  let W : Fin d → List (ℝ × ℝ) := fun i => es.map (fun j => ((body j).mass, (body j).pos i)) ++ ns.map fun m => (m.2.mass, m.2.coords i)
  let w : List (ℝ × ℝ) := es.map (fun j => ((body j).mass, 0)) ++ ns.map fun m => (m.2.mass, 0)
  have hWw : ∀ i, (W i).map Prod.fst = w.map Prod.fst := by
    intro i
    simp only [W, w, List.map_append, List.map_map]
    rfl
  have hwl : w.length ≤ 16 := by simp only [w, List.length_append, List.length_map]; omega
  have hWl : ∀ i, (W i).length = w.length := by intro i; simp only [W, w, List.length_append, List.length_map]
  have hwpos : ∀ a ∈ w, 0 < a.1 := by
    intro a ha
    rcases List.mem_append.mp ha with ha | ha
    · obtain ⟨j, hj, rfl⟩ := List.mem_map.mp ha; exact (hes j hj).1
    · obtain ⟨m, hm, rfl⟩ := List.mem_map.mp ha; exact (hns m hm).mass
  have hwne : w ≠ [] := by
    simp only [w, ne_eq, List.append_eq_nil_iff, List.map_eq_nil_iff, not_and_or]
    exact hne
  have hsum : 0 < (w.map Prod.fst).sum := by
    refine List.sum_pos _ ?_ (by rwa [ne_eq, List.map_eq_nil_iff])
    intro z hz
    obtain ⟨a, ha, rfl⟩ := List.mem_map.mp hz
    exact hwpos a ha
  obtain ⟨M, hM⟩ : ∃ M, M = w.foldl (fun s a => R.fl (s + a.1)) 0 := ⟨_, rfl⟩
  have hM1 : (1 - R.u) ^ w.length * (w.map Prod.fst).sum ≤ M := by
    have := (mass_fold hu.le w 0 le_rfl fun a ha => (hwpos a ha).le).2
    rwa [zero_add, ← hM] at this
  have hM0 : 0 < M := lt_of_lt_of_le (mul_pos (hp _) hsum) hM1
  have eM : (ns.map Prod.snd).foldl (fun m n => R.fl (m + n.mass)) ((es.map body).foldl (fun m e => R.fl (m + e.mass)) 0) = M := by
    rw [hM]
    simp only [w, List.foldl_append, List.foldl_map]
  obtain ⟨B, hBdef⟩ : ∃ B, B = X / (1 - R.u) ^ (34 * n) := ⟨_, rfl⟩
  have hB0 : 0 ≤ B := by rw [hBdef]; exact div_nonneg hX (hp _).le
  have hBX : (1 - R.u) ^ (34 * n) * B = X := by rw [hBdef]; exact mul_div_cancel₀ _ (hp _).ne'
  obtain ⟨C, hC⟩ : ∃ C : Point d, C = fun i => R.fl ((W i).foldl (fun s a => R.fl (s + R.fl (a.1 * a.2))) 0 / M) := ⟨_, rfl⟩
  have hcoord : ∀ i, (1 - R.u) ^ (34 * (n + 1)) * |C i| ≤ X := by
    intro i
    have h1 := coord_fold hu.le hB0 (W i) 0 (by
      intro a ha
      rcases List.mem_append.mp ha with ha | ha
      · obtain ⟨j, hj, rfl⟩ := List.mem_map.mp ha
        refine ⟨(hes j hj).1.le, ((hes j hj).2.2 i).trans ?_⟩
        rw [← hBX]; exact mul_le_of_le_one_left hB0 (pow_le_one' hu.le _)
      · obtain ⟨m, hm, rfl⟩ := List.mem_map.mp ha
        refine ⟨(hns m hm).mass.le, ?_⟩
        rw [hBdef, le_div_iff₀ (hp _), mul_comm]
        exact (hns m hm).coords i)
    rw [abs_zero, mul_zero, zero_add, hWw, hWl] at h1
    obtain ⟨s, hs⟩ : ∃ s, s = (W i).foldl (fun s a => R.fl (s + R.fl (a.1 * a.2))) 0 := ⟨_, rfl⟩
    have h2 := (near_abs hu.le (R := R) (s / M)).2
    rw [abs_div, abs_of_pos hM0, pow_one] at h2
    have e : C i = R.fl (s / M) := by rw [hC, hs]
    rw [e, ← hBX]
    rw [← hs] at h1
    have h3 : (1 - R.u) ^ (2 * w.length + 1) * (|s| / M) ≤ B := by
      rw [← mul_div_assoc, div_le_iff₀ hM0]
      calc (1 - R.u) ^ (2 * w.length + 1) * |s| = (1 - R.u) ^ w.length * ((1 - R.u) ^ (w.length + 1) * |s|) := by rw [← mul_assoc, ← pow_add]; congr 2; omega
        _ ≤ (1 - R.u) ^ w.length * (B * (w.map Prod.fst).sum) := mul_le_mul_of_nonneg_left h1 (hp _).le
        _ = B * ((1 - R.u) ^ w.length * (w.map Prod.fst).sum) := by ring
        _ ≤ B * M := mul_le_mul_of_nonneg_left hM1 hB0
    have h4 : (1 - R.u) ^ 34 * |R.fl (s / M)| ≤ B := by
      calc (1 - R.u) ^ 34 * |R.fl (s / M)| ≤ (1 - R.u) ^ (2 * w.length + 2) * |R.fl (s / M)| := mul_le_mul_of_nonneg_right (pow_mono hu.le (by omega)) (abs_nonneg _)
        _ = (1 - R.u) ^ (2 * w.length + 1) * ((1 - R.u) * |R.fl (s / M)|) := by ring
        _ ≤ (1 - R.u) ^ (2 * w.length + 1) * (|s| / M) := mul_le_mul_of_nonneg_left h2 (hp _).le
        _ ≤ B := h3
    calc (1 - R.u) ^ (34 * (n + 1)) * |R.fl (s / M)| = (1 - R.u) ^ (34 * n) * ((1 - R.u) ^ 34 * |R.fl (s / M)|) := by rw [← mul_assoc, ← pow_add]; rfl
      _ ≤ (1 - R.u) ^ (34 * n) * B := mul_le_mul_of_nonneg_left h4 (hp _).le
  have eC : (fun i => R.fl ((ns.map Prod.snd).foldl (fun (c : Point d) n => fun i => R.fl (c i + R.fl (n.mass * n.coords i)))
      ((es.map body).foldl (fun (c : Point d) e => fun i => R.fl (c i + R.fl (e.mass * e.pos i))) 0) i / M)) = C := by
    rw [hC]
    funext i
    congr 2
    rw [fold_at (fun i x (n : Node d) => R.fl (x + R.fl (n.mass * n.coords i))), fold_at (fun i x (e : Body d) => R.fl (x + R.fl (e.mass * e.pos i)))]
    simp only [W, List.foldl_append, List.foldl_map]
    rfl
  have hnear := fun p => near_distance hu.le hd C p (R := R)
  unfold computeCofm
  dsimp only
  rw [eM, if_neg hM0.ne', eC]
  refine ⟨_, rfl, ⟨hM0, hcoord, ?_, ?_, ?_, ?_⟩⟩
  · dsimp only
    exact ((foldl_max_ge _ _ _).1).trans' ((foldl_max_ge _ _ _).1)
  · intro j hj
    dsimp only
    rcases hcov j hj with h | ⟨m, hm, h⟩
    · refine le_trans ?_ (((foldl_max_ge _ _ _).1).trans' ((foldl_max_ge _ _ _).2 (body j) (List.mem_map_of_mem h)))
      exact (mul_le_mul_of_nonneg_right (pow_mono hu.le (by omega)) (distance_nonneg _ _)).trans (hnear (body j).pos).2.1
    · refine le_trans ?_ ((foldl_max_ge _ _ _).2 m.2 (List.mem_map_of_mem hm))
      have h1 := (hns m hm).radius j h
      obtain ⟨h2, h3⟩ := hnear m.2.coords
      have h4 := distance_triangle C m.2.coords (body j).pos
      refine le_trans ?_ (fl_ge (add_nonneg h2 (hns m hm).pos))
      calc (1 - R.u) ^ (9 * (n + 1)) * Geometry.distance C (body j).pos
          ≤ (1 - R.u) ^ (9 * n + 8) * (Geometry.distance C m.2.coords + Geometry.distance m.2.coords (body j).pos) :=
            mul_le_mul (pow_mono hu.le (by omega)) h4 (distance_nonneg _ _) (hp _).le
        _ = (1 - R.u) * ((1 - R.u) ^ (9 * n) * ((1 - R.u) ^ 7 * Geometry.distance C m.2.coords) + (1 - R.u) ^ 7 * ((1 - R.u) ^ (9 * n) * Geometry.distance m.2.coords (body j).pos)) := by ring
        _ ≤ (1 - R.u) * (distance R C m.2.coords + m.2.radius) := by
          refine mul_le_mul_of_nonneg_left (add_le_add ?_ ?_) hv.le
          · exact (mul_le_of_le_one_left (mul_nonneg (hp _).le (distance_nonneg _ _)) (pow_le_one' hu.le _)).trans h3.1
          · exact (mul_le_of_le_one_left (mul_nonneg (hp _).le (distance_nonneg _ _)) (pow_le_one' hu.le _)).trans h1
  · intro j hj
    dsimp only
    rcases hcov j hj with h | ⟨m, hm, h⟩
    · refine le_trans ?_ (((foldl_max_ge _ _ _).1).trans' ((foldl_max_ge _ _ _).2 (body j) (List.mem_map_of_mem h)))
      obtain ⟨h2, h3⟩ := hnear (body j).pos
      have hj0 := (hes j h).2.1
      refine le_trans ?_ (fl_ge (add_nonneg h2 hj0))
      calc (1 - R.u) ^ (9 * (n + 1)) * (Geometry.distance C (body j).pos + (body j).h) ≤ (1 - R.u) ^ 8 * (Geometry.distance C (body j).pos + (body j).h) :=
            mul_le_mul_of_nonneg_right (pow_mono hu.le (by omega)) (add_nonneg (distance_nonneg _ _) hj0)
        _ = (1 - R.u) * ((1 - R.u) ^ 7 * Geometry.distance C (body j).pos + (1 - R.u) ^ 7 * (body j).h) := by ring
        _ ≤ _ := mul_le_mul_of_nonneg_left (add_le_add h3.1 (mul_le_of_le_one_left hj0 (pow_le_one' hu.le _))) hv.le
    · refine le_trans ?_ ((foldl_max_ge _ _ _).2 m.2 (List.mem_map_of_mem hm))
      have h1 := (hns m hm).lap j h
      have hj0 := hh m hm j h
      obtain ⟨h2, h3⟩ := hnear m.2.coords
      have h4 := distance_triangle C m.2.coords (body j).pos
      have hl0 : 0 ≤ (1 - R.u) ^ (9 * n) * (Geometry.distance m.2.coords (body j).pos + (body j).h) := mul_nonneg (hp _).le (add_nonneg (distance_nonneg _ _) hj0)
      have h5 := fl_ge (R := R) (add_nonneg h2 (hns m hm).pos)
      have h6 : 0 ≤ R.fl (distance R C m.2.coords + m.2.radius) := fl_nonneg hu.le (add_nonneg h2 (hns m hm).pos)
      refine le_trans ?_ (fl_ge (add_nonneg h6 (hl0.trans h1)))
      calc (1 - R.u) ^ (9 * (n + 1)) * (Geometry.distance C (body j).pos + (body j).h)
          ≤ (1 - R.u) ^ (9 * n + 9) * (Geometry.distance C m.2.coords + (Geometry.distance m.2.coords (body j).pos + (body j).h)) :=
            mul_le_mul_of_nonneg_left (by linarith) (hp _).le
        _ = (1 - R.u) * ((1 - R.u) * ((1 - R.u) ^ (9 * n) * ((1 - R.u) ^ 7 * Geometry.distance C m.2.coords)) +
            (1 - R.u) ^ 8 * ((1 - R.u) ^ (9 * n) * (Geometry.distance m.2.coords (body j).pos + (body j).h))) := by ring
        _ ≤ (1 - R.u) * (R.fl (distance R C m.2.coords + m.2.radius) + m.2.lap) := by
          refine mul_le_mul_of_nonneg_left (add_le_add (le_trans (mul_le_mul_of_nonneg_left ?_ hv.le) h5) ?_) hv.le
          · refine (mul_le_of_le_one_left (mul_nonneg (hp _).le (distance_nonneg _ _)) (pow_le_one' hu.le _)).trans (h3.1.trans ?_)
            linarith [(hns m hm).pos]
          · exact (mul_le_of_le_one_left hl0 (pow_le_one' hu.le _)).trans h1
  · intro j hj i
    dsimp only
    rcases hcov j hj with h | ⟨m, hm, h⟩
    · constructor
      · exact ((foldl_minp (fun n : Node d => n.bmin) _ _ i).1).trans ((foldl_minp (fun e : Body d => fun i => R.fl (e.pos i - R.fl (e.h / 2))) _ _ i).2 (body j) (List.mem_map_of_mem h))
      · exact ((foldl_maxp (fun e : Body d => fun i => R.fl (e.pos i + R.fl (e.h / 2))) _ _ i).2 (body j) (List.mem_map_of_mem h)).trans ((foldl_maxp (fun n : Node d => n.bmax) _ _ i).1)
    · obtain ⟨h1, h2⟩ := (hns m hm).box j h i
      constructor
      · exact ((foldl_minp (fun n : Node d => n.bmin) _ _ i).2 m.2 (List.mem_map_of_mem hm)).trans h1
      · exact h2.trans ((foldl_maxp (fun n : Node d => n.bmax) _ _ i).2 m.2 (List.mem_map_of_mem hm))

/-- The rounded summaries of all nodes. -/
theorem sums {X : ℝ} (hu : R.u < 1) (hd : d ≤ 3) (hd3 : dim ≤ 3) (big : ℝ) (hdim : 0 < dim) (hD : 0 < D) {l : List Nat} (hl : l ≠ []) (hf : ∀ y ∈ l, FullKey D dim y) (body : Nat → Body d)
    (hX : 0 ≤ X) (hb : ∀ x ∈ l, 0 < (body x).mass ∧ 0 ≤ (body x).h ∧ ∀ i, |(body x).pos i| ≤ X) {k : List Nat} (hk : Digits dim k) (hi : InnerP D dim (· ∈ l) k) :
    ∃ N, valOf D dim (· ∈ l) (summarise R big) (fun x => .inl (body x)) k = .inr (some N) ∧ Sums R X body D (inside D dim l k) N := by
  have h8 : 2 ^ dim ≤ 8 := by
    calc 2 ^ dim ≤ 2 ^ 3 := Nat.pow_le_pow_right (by decide) hd3
      _ = 8 := rfl
  obtain ⟨N, h1, h2, -⟩ := summary_of (summarise R big) (fun n S N => Sums R X body n S N ∧ ∀ j ∈ S, j ∈ l) hdim hD hl hf body (by
    intro n key S es ns hns hel hnl hes hne hcov _
    obtain ⟨N, h1, h2⟩ := computeCofm_sums hu hd hX big body n S es ns (fun m hm => (hns m hm).1) (fun j hj => hb j (hes j hj)) (hel.trans h8) (hnl.trans h8) hne hcov
      (fun m hm j hj => (hb j ((hns m hm).2 j hj)).2.1)
    refine ⟨N, ?_, h2, fun j hj => ?_⟩
    · unfold summarise
      rw [mapM_of bodyOf (fun x => .inl (body x)) body es fun _ _ => rfl, mapM_of nodeOf (fun m : Finset Nat × Node d => .inr (some m.2)) Prod.snd ns fun _ _ => rfl]
      simp only [Option.bind_some, h1]
    · rcases hcov j hj with h | ⟨m, hm, h⟩
      · exact hes j h
      · exact (hns m hm).2 j h) D k (by omega) hk hi
  exact ⟨N, h1, h2⟩

end FleCSPH.Rounded
