import Verif.Lemmas.RoundedTotals
import Verif.Lemmas.RoundingTree
/-! Mass and centre of mass of the cells of the tree with rounding. -/
namespace FleCSPH.Rounded
open FleCSPH.Spec FleCSPH.Tree FleCSPH.Cofm FleCSPH.Geometry FleCSPH.Startup

variable {D dim d : Nat} {R : Rounding}

/-- Mass and moments of a node, `n` levels above the deepest cells, for the particles `S`. -/
structure Centred (R : Rounding) (body : Nat → Cofm.Body d) (n : Nat) (S : Finset Nat) (N : Node d) : Prop where
  pos : 0 < N.mass
  mass : Err R (16 * n) (∑ j ∈ S, (body j).mass) N.mass (∑ j ∈ S, (body j).mass)
  moment : ∀ i, Err R (18 * n) (∑ j ∈ S, (body j).mass * (body j).pos i) (N.mass * N.coords i) (∑ j ∈ S, (body j).mass * |(body j).pos i|)

private theorem err_foldl_mem {ι : Type} (f x m : ι → ℝ) (k : Nat) (l : List ι) (hf : ∀ i ∈ l, Err R k (x i) (f i) (m i)) {a : Nat} {X Y M : ℝ} (h : Err R a X Y M) (hk : k ≤ a) :
    Err R (a + l.length) (X + (l.map x).sum) (l.foldl (fun s i => R.fl (s + f i)) Y) (M + (l.map m).sum) := by
  induction l generalizing a X Y M with
  | nil => simpa using h
  | cons i l ih =>
    have h1 := (h.add le_rfl hk (hf i List.mem_cons_self)).fl
    have := ih (fun j hj => hf j (List.mem_cons_of_mem _ hj)) h1 (by omega)
    rw [List.foldl_cons, List.map_cons, List.map_cons, List.sum_cons, List.sum_cons, List.length_cons, ← add_assoc X, ← add_assoc M, show a + (l.length + 1) = a + 1 + l.length by omega]
    exact this

/-- One level. -/
theorem computeCofm_centred (hu : R.u < 1) (big : ℝ) (body : Nat → Cofm.Body d) (n : Nat) (S : Finset Nat) (es : List Nat) (ns : List (Finset Nat × Node d))
    (hns : ∀ m ∈ ns, Centred R body n m.1 m.2) (hes : ∀ j ∈ es, 0 < (body j).mass) (hel : es.length ≤ 8) (hnl : ns.length ≤ 8) (hne : es ≠ [] ∨ ns ≠ [])
    (hsum : ∀ f : Nat → ℝ, ∑ j ∈ S, f j = (es.map f).sum + (ns.map fun m => ∑ j ∈ m.1, f j).sum) : ∃ N, computeCofm R big (es.map body) (ns.map Prod.snd) = some N ∧ Centred R body (n + 1) S N := by
  obtain ⟨M, hM⟩ : ∃ M, M = (ns.map Prod.snd).foldl (fun m n => R.fl (m + n.mass)) ((es.map body).foldl (fun m e => R.fl (m + e.mass)) 0) := ⟨_, rfl⟩
  have hM0 : 0 < M := by
    have h1 := (mass_fold hu.le (es.map (fun j => ((body j).mass, (0 : ℝ))) ++ ns.map fun m => (m.2.mass, (0 : ℝ))) 0 le_rfl (by
      intro a ha
      rcases List.mem_append.mp ha with ha | ha
      · obtain ⟨j, hj, rfl⟩ := List.mem_map.mp ha; exact (hes j hj).le
      · obtain ⟨m, hm, rfl⟩ := List.mem_map.mp ha; exact (hns m hm).pos.le)).2
    rw [List.foldl_append, List.foldl_map, List.foldl_map, zero_add] at h1
    rw [hM, List.foldl_map, List.foldl_map]
    refine lt_of_lt_of_le (mul_pos (pow_pos (by linarith) _) (List.sum_pos _ ?_ ?_)) h1
    · intro z hz
      obtain ⟨a, ha, rfl⟩ := List.mem_map.mp hz
      rcases List.mem_append.mp ha with ha | ha
      · obtain ⟨j, hj, rfl⟩ := List.mem_map.mp ha; exact hes j hj
      · obtain ⟨m, hm, rfl⟩ := List.mem_map.mp ha; exact (hns m hm).pos
    · simp only [ne_eq, List.map_eq_nil_iff, List.append_eq_nil_iff, not_and_or]
      exact hne
  have hmass : Err R (16 * (n + 1)) (∑ j ∈ S, (body j).mass) M (∑ j ∈ S, (body j).mass) := by
    have h1 := err_foldl_mem (R := R) (fun j => (body j).mass) (fun j => (body j).mass) (fun j => (body j).mass) 0 es
      (fun j hj => (Err.refl _).congr rfl (abs_of_pos (hes j hj))) ((Err.refl 0).mono (Nat.zero_le (16 * n))) (Nat.zero_le _)
    have h2 := err_foldl_mem (R := R) (fun m : Finset Nat × Node d => m.2.mass) (fun m => ∑ j ∈ m.1, (body j).mass) (fun m => ∑ j ∈ m.1, (body j).mass) (16 * n) ns (fun m hm => (hns m hm).mass) h1 (by omega)
    rw [abs_zero, zero_add, ← hsum] at h2
    rw [hM, List.foldl_map, List.foldl_map]
    exact h2.mono (by omega)
  have hmom : ∀ i, Err R (18 * n + 17) (∑ j ∈ S, (body j).mass * (body j).pos i)
      ((ns.map Prod.snd).foldl (fun x n => R.fl (x + R.fl (n.mass * n.coords i))) ((es.map body).foldl (fun x e => R.fl (x + R.fl (e.mass * e.pos i))) 0)) (∑ j ∈ S, (body j).mass * |(body j).pos i|) := by
    intro i
    have h1 := err_foldl_mem (R := R) (fun j => R.fl ((body j).mass * (body j).pos i)) (fun j => (body j).mass * (body j).pos i) (fun j => (body j).mass * |(body j).pos i|) 1 es
      (fun j hj => ((Err.refl _).fl).congr rfl (by rw [abs_mul, abs_of_pos (hes j hj)])) ((Err.refl 0).mono (Nat.zero_le (18 * n + 1))) (by omega)
    have h2 := err_foldl_mem (R := R) (fun m : Finset Nat × Node d => R.fl (m.2.mass * m.2.coords i)) (fun m => ∑ j ∈ m.1, (body j).mass * (body j).pos i)
      (fun m => ∑ j ∈ m.1, (body j).mass * |(body j).pos i|) (18 * n + 1) ns (fun m hm => ((hns m hm).moment i).fl) h1 (by omega)
    rw [abs_zero, zero_add, zero_add, ← hsum, ← hsum] at h2
    rw [List.foldl_map, List.foldl_map]
    exact h2.mono (by omega)
  unfold computeCofm
  dsimp only
  rw [← hM, if_neg hM0.ne']
  refine ⟨_, rfl, hM0, hmass, fun i => ?_⟩
  dsimp only
  rw [fold_at (fun i x (n : Node d) => R.fl (x + R.fl (n.mass * n.coords i))), fold_at (fun i x (e : Cofm.Body d) => R.fl (x + R.fl (e.mass * e.pos i)))]
  have h := hmom i
  obtain ⟨s, hs⟩ : ∃ s, s = (ns.map Prod.snd).foldl (fun x n => R.fl (x + R.fl (n.mass * n.coords i))) ((es.map body).foldl (fun x e => R.fl (x + R.fl (e.mass * e.pos i))) ((0 : Point d) i)) := ⟨_, rfl⟩
  rw [← hs]
  have h : Err R (18 * n + 17) (∑ j ∈ S, (body j).mass * (body j).pos i) s (∑ j ∈ S, (body j).mass * |(body j).pos i|) := by rw [hs]; exact h
  refine ⟨h.1, ?_⟩
  have h1 : |M * R.fl (s / M) - s| ≤ R.u * |s| := by
    have h2 := mul_le_mul_of_nonneg_left (R.err (s / M)) hM0.le
    rw [abs_div, abs_of_pos hM0] at h2
    calc |M * R.fl (s / M) - s| = |M * (R.fl (s / M) - s / M)| := by rw [mul_sub, mul_div_cancel₀ _ hM0.ne']
      _ = M * |R.fl (s / M) - s / M| := by rw [abs_mul, abs_of_pos hM0]
      _ ≤ M * (R.u * (|s| / M)) := h2
      _ = R.u * |s| := by field_simp
  have h2 := mul_le_mul_of_nonneg_left h.abs_le R.nonneg
  have h3 := abs_add_le (M * R.fl (s / M) - s) (s - ∑ j ∈ S, (body j).mass * (body j).pos i)
  rw [sub_add_sub_cancel] at h3
  have h4 := h.2
  rw [show 18 * (n + 1) = 18 * n + 17 + 1 by omega, pow_succ]
  nlinarith

/-- Mass and moments of all nodes. -/
theorem centred (hu : R.u < 1) (hd3 : dim ≤ 3) (big : ℝ) (hdim : 0 < dim) (hD : 0 < D) {l : List Nat} (hl : l ≠ []) (hf : ∀ y ∈ l, FullKey D dim y) (body : Nat → Cofm.Body d)
    (hb : ∀ x ∈ l, 0 < (body x).mass) {k : List Nat} (hk : Digits dim k) (hi : InnerP D dim (· ∈ l) k) :
    ∃ N, valOf D dim (· ∈ l) (summarise R big) (fun x => .inl (body x)) k = .inr (some N) ∧ Centred R body D (inside D dim l k) N := by
  have h8 : 2 ^ dim ≤ 8 := by
    calc 2 ^ dim ≤ 2 ^ 3 := Nat.pow_le_pow_right (by decide) hd3
      _ = 8 := rfl
  refine summary_of (summarise R big) (fun n S N => Centred R body n S N) hdim hD hl hf body (by
    intro n key S es ns hns hel hnl hes hne _ hsum
    obtain ⟨N, h1, h2⟩ := computeCofm_centred hu big body n S es ns hns (fun j hj => hb j (hes j hj)) (hel.trans h8) (hnl.trans h8) hne hsum
    refine ⟨N, ?_, h2⟩
    unfold summarise
    rw [mapM_of bodyOf (fun x => .inl (body x)) body es fun _ _ => rfl, mapM_of nodeOf (fun m : Finset Nat × Node d => .inr (some m.2)) Prod.snd ns fun _ _ => rfl]
    simp only [Option.bind_some, h1]) D k (by omega) hk hi

/-- The coordinates of a node are near the centre of mass. -/
theorem Centred.near {body : Nat → Cofm.Body d} {S : Finset Nat} {N : Node d} (h : Centred R body D S N) (hb : ∀ j ∈ S, 0 < (body j).mass) (hS : S.Nonempty) (hu : 64 * D * R.u ≤ 1) :
    |N.mass - ∑ j ∈ S, (body j).mass| ≤ 32 * D * R.u * ∑ j ∈ S, (body j).mass ∧
    ∀ i, |N.coords i - (∑ j ∈ S, (body j).mass * (body j).pos i) / ∑ j ∈ S, (body j).mass| ≤ 136 * D * R.u * ((∑ j ∈ S, (body j).mass * |(body j).pos i|) / ∑ j ∈ S, (body j).mass) := by
  have hDu : 0 ≤ D * R.u := mul_nonneg (Nat.cast_nonneg D) R.nonneg
  have hm : 0 < ∑ j ∈ S, (body j).mass := Finset.sum_pos hb hS
  have h1 := h.mass.2
  have g1 := growth_le (R := R) (16 * D) (by push_cast; linarith)
  have g2 := growth_le (R := R) (18 * D) (by push_cast; linarith)
  obtain ⟨m, hmd⟩ : ∃ m, m = ∑ j ∈ S, (body j).mass := ⟨_, rfl⟩
  push_cast at g1 g2
  have hp := h.pos
  rw [← hmd] at hm h1 ⊢
  have e1 : |N.mass - m| ≤ 32 * D * R.u * m := h1.trans (by nlinarith)
  refine ⟨e1, fun i => ?_⟩
  have h2 := (h.moment i).2
  have h3 := (h.moment i).1
  have h4 := (h.moment i).size_nonneg
  obtain ⟨A, hA⟩ : ∃ A, A = ∑ j ∈ S, (body j).mass * (body j).pos i := ⟨_, rfl⟩
  obtain ⟨B, hB⟩ : ∃ B, B = ∑ j ∈ S, (body j).mass * |(body j).pos i| := ⟨_, rfl⟩
  rw [← hA] at h2 h3 ⊢
  rw [← hB] at h2 h3 h4 ⊢
  have e2 : |N.mass * N.coords i - A| ≤ 36 * D * R.u * B := h2.trans (by nlinarith)
  have e3 : m / 2 ≤ N.mass := by
    have := (abs_le.mp e1).1
    nlinarith
  have e4 : m * N.mass * (N.coords i - A / m) = m * (N.mass * N.coords i - A) - A * (N.mass - m) := by
    field_simp
    ring
  have e5 : |m * N.mass * (N.coords i - A / m)| ≤ 68 * D * R.u * B * m := by
    rw [e4]
    refine (abs_sub _ _).trans ?_
    rw [abs_mul, abs_mul, abs_of_pos hm]
    have := mul_le_mul_of_nonneg_left e2 hm.le
    have := mul_le_mul h3 e1 (abs_nonneg _) h4
    linarith
  rw [abs_mul, abs_of_pos (mul_pos hm hp)] at e5
  have e6 : m * (m / 2) * |N.coords i - A / m| ≤ 68 * D * R.u * B * m := (mul_le_mul_of_nonneg_right (mul_le_mul_of_nonneg_left e3 hm.le) (abs_nonneg _)).trans e5
  rw [← mul_div_assoc, le_div_iff₀ hm]
  have e7 : m * (|N.coords i - A / m| * m) ≤ m * (136 * D * R.u * B) := by linarith
  exact le_of_mul_le_mul_left e7 hm

end FleCSPH.Rounded
