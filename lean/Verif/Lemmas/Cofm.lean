import Verif.Lemmas.Geometry
import Verif.Lemmas.Tree2
import Verif.Spec.Summary
/-! The summaries computed by `build_tree`. -/
namespace FleCSPH.Cofm
open FleCSPH.Geometry FleCSPH.BuildTree FleCSPH.Spec FleCSPH.HCell FleCSPH.Tree

variable {d : Nat}

theorem foldl_add {α M : Type} [AddCommMonoid M] (f : α → M) (l : List α) (a : M) :
    l.foldl (fun s x => s + f x) a = a + (l.map f).sum := by
  induction l generalizing a with
  | nil => simp
  | cons x l ih => rw [List.foldl_cons, ih, List.map_cons, List.sum_cons, add_assoc]

theorem foldl_max_ge {α : Type} (f : α → ℝ) (l : List α) (a : ℝ) :
    a ≤ l.foldl (fun s x => max s (f x)) a ∧ ∀ x ∈ l, f x ≤ l.foldl (fun s x => max s (f x)) a := by
  induction l generalizing a with
  | nil => exact ⟨le_refl _, by simp⟩
  | cons y l ih =>
    rw [List.foldl_cons]
    obtain ⟨h1, h2⟩ := ih (max a (f y))
    refine ⟨le_trans (le_max_left _ _) h1, ?_⟩
    intro x hx
    rcases List.mem_cons.mp hx with rfl | hx
    · exact le_trans (le_max_right _ _) h1
    · exact h2 x hx

theorem foldl_maxp {α : Type} (f : α → Point d) (l : List α) (a : Point d) (i : Fin d) :
    a i ≤ l.foldl (fun s x => fun i => max (s i) (f x i)) a i ∧
      ∀ x ∈ l, f x i ≤ l.foldl (fun s x => fun i => max (s i) (f x i)) a i := by
  induction l generalizing a with
  | nil => exact ⟨le_refl _, by simp⟩
  | cons y l ih =>
    rw [List.foldl_cons]
    obtain ⟨h1, h2⟩ := ih (fun i => max (a i) (f y i))
    refine ⟨le_trans (le_max_left _ _) h1, ?_⟩
    intro x hx
    rcases List.mem_cons.mp hx with rfl | hx
    · exact le_trans (le_max_right _ _) h1
    · exact h2 x hx

theorem foldl_minp {α : Type} (f : α → Point d) (l : List α) (a : Point d) (i : Fin d) :
    l.foldl (fun s x => fun i => min (s i) (f x i)) a i ≤ a i ∧
      ∀ x ∈ l, l.foldl (fun s x => fun i => min (s i) (f x i)) a i ≤ f x i := by
  induction l generalizing a with
  | nil => exact ⟨le_refl _, by simp⟩
  | cons y l ih =>
    rw [List.foldl_cons]
    obtain ⟨h1, h2⟩ := ih (fun i => min (a i) (f y i))
    refine ⟨le_trans h1 (min_le_left _ _), ?_⟩
    intro x hx
    rcases List.mem_cons.mp hx with rfl | hx
    · exact le_trans h1 (min_le_right _ _)
    · exact h2 x hx

theorem foldl_minp_ge {α : Type} (f : α → Point d) (l : List α) (a : Point d) (i : Fin d) (v : ℝ) (ha : v ≤ a i)
    (h : ∀ x ∈ l, v ≤ f x i) : v ≤ l.foldl (fun s x => fun i => min (s i) (f x i)) a i := by
  induction l generalizing a with
  | nil => exact ha
  | cons y l ih =>
    rw [List.foldl_cons]
    exact ih (fun i => min (a i) (f y i)) (le_min ha (h y List.mem_cons_self)) fun x hx => h x (List.mem_cons_of_mem _ hx)

theorem foldl_maxp_le {α : Type} (f : α → Point d) (l : List α) (a : Point d) (i : Fin d) (v : ℝ) (ha : a i ≤ v)
    (h : ∀ x ∈ l, f x i ≤ v) : l.foldl (fun s x => fun i => max (s i) (f x i)) a i ≤ v := by
  induction l generalizing a with
  | nil => exact ha
  | cons y l ih =>
    rw [List.foldl_cons]
    exact ih (fun i => max (a i) (f y i)) (max_le ha (h y List.mem_cons_self)) fun x hx => h x (List.mem_cons_of_mem _ hx)

/-- `compute_cofm` on particles and summaries of disjoint sets. -/
theorem computeCofm_spec (big : ℝ) (body : Nat → Body d) (S : Finset Nat) (es : List Nat) (ns : List (Finset Nat × Node d))
    (hns : ∀ n ∈ ns, Summarises body n.1 n.2 ∧ 0 ≤ n.2.radius ∧ BoxTight big body n.1 n.2)
    (hsum : ∀ (M : Type) [AddCommMonoid M] (f : Nat → M),
      ∑ j ∈ S, f j = (es.map f).sum + (ns.map fun n => ∑ j ∈ n.1, f j).sum)
    (hmem : ∀ j ∈ S, j ∈ es ∨ ∃ n ∈ ns, j ∈ n.1) (hmass : ∀ j ∈ S, 0 < (body j).mass) (hne : S.Nonempty) :
    ∃ N, computeCofm big (es.map body) (ns.map Prod.snd) = some N ∧ Summarises body S N ∧ 0 ≤ N.radius ∧ BoxTight big body S N := by
  have hmapsum : ∀ {M : Type} [AddCommMonoid M] (g : Node d → M) (f : Nat → M),
      (∀ n ∈ ns, g n.2 = ∑ j ∈ n.1, f j) → ((ns.map Prod.snd).map g).sum = (ns.map fun n => ∑ j ∈ n.1, f j).sum := by
    intro M _ g f h
    rw [List.map_map]
    congr 1
    exact List.map_congr_left h
  have hm : (ns.map Prod.snd).foldl (fun m n => m + n.mass) ((es.map body).foldl (fun m e => m + e.mass) 0) =
      ∑ j ∈ S, (body j).mass := by
    rw [foldl_add, foldl_add, zero_add, List.map_map, hmapsum _ (fun j => (body j).mass) (fun n hn => (hns n hn).1.mass),
      hsum ℝ]
    rfl
  have hsb : (ns.map Prod.snd).foldl (fun m n => m + n.sub) ((es.map body).foldl (fun m _ => m + 1) 0) = S.card := by
    rw [foldl_add, foldl_add (f := fun _ => (1 : ℕ)), zero_add, List.map_map,
      hmapsum _ (fun _ => 1) (fun n hn => by rw [(hns n hn).1.sub]; simp), Finset.card_eq_sum_ones, hsum ℕ]
    rfl
  have hc : (ns.map Prod.snd).foldl (fun c n => c + n.mass • n.coords) ((es.map body).foldl (fun c e => c + e.mass • e.pos) 0) =
      ∑ j ∈ S, (body j).mass • (body j).pos := by
    rw [foldl_add, foldl_add, zero_add, List.map_map,
      hmapsum _ (fun j => (body j).mass • (body j).pos) (fun n hn => (hns n hn).1.centre), hsum (Point d)]
    rfl
  have hpos : 0 < ∑ j ∈ S, (body j).mass := Finset.sum_pos hmass hne
  let coords : Point d := (∑ j ∈ S, (body j).mass)⁻¹ • ∑ j ∈ S, (body j).mass • (body j).pos
  rw [computeCofm]
  dsimp only
  rw [hm, hsb, hc, if_neg (ne_of_gt hpos)]
  refine ⟨_, rfl, ⟨rfl, rfl, ?_, ?_, ?_, ?_⟩, ?_, ?_⟩
  · rw [smul_smul, mul_inv_cancel₀ (ne_of_gt hpos), one_smul]
  · intro j hj
    dsimp only
    rcases hmem j hj with h | ⟨n, hn, hjn⟩
    · refine le_trans ?_ (foldl_max_ge _ _ _).1
      exact (foldl_max_ge (fun e : Body d => distance coords e.pos) _ _).2 (body j) (List.mem_map_of_mem h)
    · refine le_trans ?_ ((foldl_max_ge (fun n : Node d => distance coords n.coords + n.radius) _ _).2 n.2 (List.mem_map_of_mem hn))
      exact le_trans (distance_triangle _ n.2.coords _) (add_le_add (le_refl _) ((hns n hn).1.radius j hjn))
  · intro j hj
    dsimp only
    rcases hmem j hj with h | ⟨n, hn, hjn⟩
    · refine le_trans ?_ (foldl_max_ge _ _ _).1
      exact (foldl_max_ge (fun e : Body d => distance coords e.pos + e.h) _ _).2 (body j) (List.mem_map_of_mem h)
    · refine le_trans ?_ ((foldl_max_ge (fun n : Node d => distance coords n.coords + n.radius + n.lap) _ _).2 n.2 (List.mem_map_of_mem hn))
      have h1 := distance_triangle coords n.2.coords (body j).pos
      have h2 := (hns n hn).1.lap j hjn
      have h3 := (hns n hn).2.1
      show distance coords (body j).pos + _ ≤ _
      linarith
  · intro j hj i
    dsimp only
    rcases hmem j hj with h | ⟨n, hn, hjn⟩
    · constructor
      · refine le_trans (foldl_minp _ _ _ i).1 ?_
        exact (foldl_minp (fun e : Body d => fun i => e.pos i - e.h / 2) _ _ i).2 (body j) (List.mem_map_of_mem h)
      · refine le_trans ?_ (foldl_maxp _ _ _ i).1
        exact (foldl_maxp (fun e : Body d => fun i => e.pos i + e.h / 2) _ _ i).2 (body j) (List.mem_map_of_mem h)
    · have hb := (hns n hn).1.box j hjn i
      constructor
      · exact le_trans ((foldl_minp (fun n : Node d => n.bmin) _ _ i).2 n.2 (List.mem_map_of_mem hn)) hb.1
      · exact le_trans hb.2 ((foldl_maxp (fun n : Node d => n.bmax) _ _ i).2 n.2 (List.mem_map_of_mem hn))
  · exact le_trans (foldl_max_ge (fun e : Body d => distance coords e.pos) _ 0).1 (foldl_max_ge _ _ _).1
  · have hsubE : ∀ j ∈ es, j ∈ S := by
      intro j hj
      apply Classical.byContradiction
      intro hjS
      have h1 := hsum ℕ (fun i => if i = j then 1 else 0)
      rw [Finset.sum_ite_eq', if_neg hjS] at h1
      have h2 : 1 ≤ (es.map fun i => if i = j then 1 else 0).sum :=
        List.single_le_sum (by simp) 1 (List.mem_map.mpr ⟨j, hj, if_pos rfl⟩)
      omega
    have hsubN : ∀ n ∈ ns, ∀ j ∈ n.1, j ∈ S := by
      intro n hn j hj
      apply Classical.byContradiction
      intro hjS
      have h1 := hsum ℕ (fun i => if i = j then 1 else 0)
      rw [Finset.sum_ite_eq', if_neg hjS] at h1
      have h2 : 1 ≤ (ns.map fun n => ∑ i ∈ n.1, if i = j then 1 else 0).sum :=
        List.single_le_sum (by simp) 1 (List.mem_map.mpr ⟨n, hn, by rw [Finset.sum_ite_eq', if_pos hj]⟩)
      omega
    intro i v hv1 hv2
    constructor
    · intro h
      apply foldl_minp_ge (fun n : Node d => n.bmin)
      · apply foldl_minp_ge (fun e : Body d => fun i => e.pos i - e.h / 2) _ _ _ _ hv2
        intro e he
        obtain ⟨j, hj, rfl⟩ := List.mem_map.mp he
        exact h j (hsubE j hj)
      · intro n hn
        obtain ⟨m, hm, rfl⟩ := List.mem_map.mp hn
        exact ((hns m hm).2.2 i v hv1 hv2).1 fun j hj => h j (hsubN m hm j hj)
    · intro h
      apply foldl_maxp_le (fun n : Node d => n.bmax)
      · apply foldl_maxp_le (fun e : Body d => fun i => e.pos i + e.h / 2) _ _ _ _ hv1
        intro e he
        obtain ⟨j, hj, rfl⟩ := List.mem_map.mp he
        exact h j (hsubE j hj)
      · intro n hn
        obtain ⟨m, hm, rfl⟩ := List.mem_map.mp hn
        exact ((hns m hm).2.2 i v hv1 hv2).2 fun j hj => h j (hsubN m hm j hj)

end FleCSPH.Cofm
