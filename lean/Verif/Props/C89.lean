import Verif.Lemmas.TreeDriver
import Verif.Props.C78
/-!
C89: the program which times the neighbour search (app/drivers/tree).

Proved in exact arithmetic on `2^m` processes, for at least two particles: a run makes 5000 iterations, its check that every particle is among its own neighbours never fails, and in every iteration every process
prints the average number of neighbours of its particles, rounded down.

Missing for the full property: between the mean and the maximum of two different smoothing lengths the number depends on the cells (`C13_violated`); rounding; other numbers of processes; periodic
boundaries, a single particle.
-/
namespace FleCSPH.TreeDriver
open FleCSPH.Geometry FleCSPH.Sph FleCSPH.Driver FleCSPH.Spec FleCSPH.DistRun FleCSPH.Newtonian FleCSPH.Key FleCSPH.Cofm FleCSPH.Update FleCSPH.Program FleCSPH.RunExamples

variable {i : Fin 3} {n m : Nat}

section
variable {g : Settings} (hbits : i.val + 1 < g.bits) (htol : 0 ≤ g.tol) (hn : 2 ≤ n) (hsmall : n < 2 ^ 32) {v : Fin n → Particle (i + 1)} (hv : ∀ a, 0 < (v a).mass ∧ 0 < (v a).h)
  (hid : ∀ a b, (v a).id = (v b).id → a = b)
include hbits htol hn hsmall hv hid

/-- What one iteration prints. -/
private theorem step {T T' T'' : Trees i n m} {nbs : Fin n → List (Fin n)} {order : Fin (2 ^ m) → List (Fin n)} (hd : Division n (2 ^ m) T.vec) (hap : Apart g v) (hu : Updated g v T T') (hs : Searched g T' T'' nbs)
    (ho : ∀ p, (order p).Perm (T'.vec p)) : T''.vec = T'.vec ∧ Arranged n (2 ^ m) T.vec T'.key T'.vec ∧ ZKey (maxDepth g.bits (i + 1)) (fun a => bodyOf (v a)) T'.key ∧
      ∀ p, ∃ x, report v nbs (order p) (T'.vec p) = some x ∧ meanOf (nearCount v) (T'.vec p) ≤ x ∧ x ≤ meanOf (wideCount v) (T'.vec p) := by
  classical
  have ha := arranged hbits hv hid hd hap hu
  have hg := good_update hbits hv hid hd hap hu
  have hl := good_lists hbits hv hn htol hg hs
  have hself : ∀ a, a ∈ nbs a := fun a => hl.complete a a (by
    have : (∑ j, ((bodyOf (v a)).pos j - (bodyOf (v a)).pos j) ^ 2) = 0 := Finset.sum_eq_zero fun j _ => by ring
    rw [this, Real.sqrt_zero]
    have := (hv a).2
    change 0 ≤ ((v a).h + (v a).h) / 2
    linarith)
  have hlen : ∀ a, (nbs a).length ≤ n := fun a => by
    have := (hl.nodup a).length_le_card
    rwa [Fintype.card_fin] at this
  have hmine : ∀ p, (T'.vec p).length ≤ n := fun p => by
    have h1 : (T'.vec p).Sublist ((List.finRange (2 ^ m)).flatMap T'.vec) := List.sublist_flatten_of_mem (List.mem_map.2 ⟨p, List.mem_finRange p, rfl⟩)
    have h2 := h1.length_le
    rw [hg.division.all.length_eq, List.length_finRange] at h2
    exact h2
  refine ⟨by obtain ⟨_, _, _, _, _, _, _, _, e, -⟩ := hs; exact e, ha, hg.key, fun p => ?_⟩
  have hpos : 0 < (T'.vec p).length := List.length_pos_iff.2 (hg.division.nonempty p)
  have ht : tally v nbs (order p) = some (((T'.vec p).map fun a => (nbs a).length).sum) := by
    have hb : 0 + (order p).length * n < 2 ^ 64 := by
      rw [(ho p).length_eq, Nat.zero_add]
      calc (T'.vec p).length * n ≤ n * n := Nat.mul_le_mul_right _ (hmine p)
        _ < 2 ^ 32 * 2 ^ 32 := Nat.mul_lt_mul'' hsmall hsmall
        _ = 2 ^ 64 := by norm_num
    unfold tally
    rw [tally_eq hself hlen _ _ hb, Nat.zero_add, ((ho p).map _).sum_eq]
  refine ⟨((T'.vec p).map fun a => (nbs a).length).sum / (T'.vec p).length, ?_, ?_, ?_⟩
  · unfold report
    rw [ht, Option.bind_some, average, if_neg (by omega)]
  · refine Nat.div_le_div_right (List.sum_le_sum fun a _ => ?_)
    rw [← List.toFinset_card_of_nodup (hl.nodup a)]
    refine Finset.card_le_card fun b hb => ?_
    rw [List.mem_toFinset]
    exact hl.complete a b (Finset.mem_filter.1 hb).2
  · refine Nat.div_le_div_right (List.sum_le_sum fun a _ => ?_)
    rw [← List.toFinset_card_of_nodup (hl.nodup a)]
    refine Finset.card_le_card fun b hb => ?_
    rw [List.mem_toFinset] at hb
    exact Finset.mem_filter.2 ⟨Finset.mem_univ b, hl.sound a b hb⟩

private theorem loop {k : Nat} (hk : 0 < k) (hk' : k < 2 ^ 64) {T : Trees i n m} {out : List (Fin (2 ^ m) → Nat)} {r : End} (h : Bench g v k T out r) {T0 : Trees i n m} (hd0 : Division n (2 ^ m) T0.vec)
    (hd : Division n (2 ^ m) T.vec) (hsz : ∀ p, (T.vec p).length = (T0.vec p).length) :
    (r = .clash ∧ ¬Apart g v ∧ out = []) ∨ (r = .done ∧ Apart g v ∧ out.length = k ∧ ∃ key mine, ZKey (maxDepth g.bits (i + 1)) (fun a => bodyOf (v a)) key ∧ Arranged n (2 ^ m) T0.vec key mine ∧
      ∀ line ∈ out, ∀ p, meanOf (nearCount v) (mine p) ≤ line p ∧ line p ≤ meanOf (wideCount v) (mine p)) := by
  have uniq : ∀ {key key' : Fin n → Nat} {mine mine'}, Apart g v → ZKey (maxDepth g.bits (i + 1)) (fun a => bodyOf (v a)) key → ZKey (maxDepth g.bits (i + 1)) (fun a => bodyOf (v a)) key' →
      Arranged n (2 ^ m) T0.vec key mine → Arranged n (2 ^ m) T0.vec key' mine' → mine = mine' := by
    intro key key' mine mine' hap hk hk' h1 h2
    have hh : ∀ a, 0 < (bodyOf (v a)).h := fun a => (hv a).2
    obtain ⟨key0, -, hu, -⟩ := C77_keys (Nat.succ_pos i.val) hbits hh
    obtain rfl : key = key' := (hu _ hk).trans (hu _ hk').symm
    obtain ⟨vec', -, hq, -⟩ := C77_sorted (Nat.succ_pos i.val) hbits hh hap hk (id := fun a => (v a).id) hid key exSort (Nat.pow_pos (by decide)) hd0
    exact (hq _ h1).trans (hq _ h2).symm
  induction h with
  | @last k T T' T'' nbs order out hap hu hs ho hr hz =>
    obtain ⟨-, ha, hkey, h4⟩ := step hbits htol hn hsmall hv hid hd hap hu hs ho
    refine Or.inr ⟨rfl, hap, ?_, T'.key, T'.vec, hkey, ⟨ha.division, fun p => (ha.sizes p).trans (hsz p), ha.increasing⟩, fun line hl p => ?_⟩
    · rw [List.length_singleton]; omega
    · obtain ⟨x, hx, hb⟩ := h4 p
      obtain rfl := Option.some.inj ((hr p).symm.trans hx)
      rw [List.mem_singleton.1 hl]
      exact hb
  | @more k T T' T'' nbs order out l r hap hu hs ho hr hz hB ih =>
    obtain ⟨he, ha, hkey, h4⟩ := step hbits htol hn hsmall hv hid hd hap hu hs ho
    have e : (k + (2 ^ 64 - 1)) % 2 ^ 64 = k - 1 := by omega
    have harr : Arranged n (2 ^ m) T0.vec T'.key T'.vec := ⟨ha.division, fun p => (ha.sizes p).trans (hsz p), ha.increasing⟩
    rw [e] at ih hz
    rcases ih (by omega) (by omega) (by rw [he]; exact ha.division) (fun p => by rw [he]; exact harr.sizes p) with ⟨-, hna, -⟩ | ⟨h1, -, h2, key, mine, h3, h5, h6⟩
    · exact absurd hap hna
    · refine Or.inr ⟨h1, hap, by rw [List.length_cons, h2]; omega, key, mine, h3, h5, fun line hl p => ?_⟩
      rcases List.mem_cons.1 hl with rfl | hl
      · obtain ⟨x, hx, hb⟩ := h4 p
        obtain rfl := Option.some.inj ((hr p).symm.trans hx)
        rw [uniq hap h3 hkey h5 harr]
        exact hb
      · exact h6 line hl p
  | @failed k T T' T'' nbs order p hap hu hs ho hr =>
    obtain ⟨-, -, -, h4⟩ := step hbits htol hn hsmall hv hid hd hap hu hs ho
    obtain ⟨x, hx, -⟩ := h4 p
    rw [hr] at hx
    cases hx
  | clash hna => exact Or.inl ⟨rfl, hna, rfl⟩

/-- However the particles are divided at the start, a run in which no two particles are in one cell of the finest grid makes 5000 iterations, no assertion fails, and in each of them process `p` prints the average
number of neighbours of the particles it has after sorting, rounded down: at least of those within the mean of the smoothing lengths, at most of those within the greater one. -/
theorem C89_run_partial {T : Trees i n m} (hd : Division n (2 ^ m) T.vec) {out : List (Fin (2 ^ m) → Nat)} {r : End} (h : TreeDriver.Program g v T out r) :
    (r = .clash ∧ ¬Separate (maxDepth g.bits (i + 1)) (fun a => bodyOf (v a)) ∧ out = []) ∨
    (r = .done ∧ out.length = 5000 ∧ ∃ key mine, ZKey (maxDepth g.bits (i + 1)) (fun a => bodyOf (v a)) key ∧ Arranged n (2 ^ m) T.vec key mine ∧
      ∀ line ∈ out, ∀ p, meanOf (nearCount v) (mine p) ≤ line p ∧ line p ≤ meanOf (wideCount v) (mine p)) := by
  rcases loop hbits htol hn hsmall hv hid (by norm_num) (by norm_num) h hd hd fun _ => rfl with h | ⟨h1, -, h2⟩
  · exact Or.inl h
  · exact Or.inr ⟨h1, h2⟩

/-- With one smoothing length the numbers are exact, and every iteration prints the same. -/
theorem C89_uniform (hone : ∀ a b, (v a).h = (v b).h) (hsep : Separate (maxDepth g.bits (i + 1)) fun a => bodyOf (v a)) {T : Trees i n m} (hd : Division n (2 ^ m) T.vec) {out : List (Fin (2 ^ m) → Nat)} {r : End}
    (h : TreeDriver.Program g v T out r) : r = .done ∧ ∃ key mine, ZKey (maxDepth g.bits (i + 1)) (fun a => bodyOf (v a)) key ∧ Arranged n (2 ^ m) T.vec key mine ∧
      out = List.replicate 5000 fun p => meanOf (nearCount v) (mine p) := by
  have e : nearCount v = wideCount v := by
    funext a
    unfold nearCount wideCount
    congr 1
    refine Finset.filter_congr fun b _ => ?_
    rw [hone b a, max_self, add_self_div_two]
  rcases C89_run_partial hbits htol hn hsmall hv hid hd h with ⟨-, h, -⟩ | ⟨h1, h2, key, mine, h3, h4, h5⟩
  · exact absurd hsep h
  · refine ⟨h1, key, mine, h3, h4, List.eq_replicate_iff.2 ⟨h2, fun line hl => funext fun p => ?_⟩⟩
    have := h5 line hl p
    rw [← e] at this
    omega

/-- The program can be carried out. -/
theorem C89_exists {T : Trees i n m} (hd : Division n (2 ^ m) T.vec) : ∃ out r, TreeDriver.Program g v T out r := by
  by_cases hap : Apart g v
  swap
  · exact ⟨[], .clash, .clash hap⟩
  have key : ∀ k, 0 < k → k < 2 ^ 64 → ∀ T : Trees i n m, Division n (2 ^ m) T.vec → ∃ out r, Bench g v k T out r := by
    intro k
    induction k with
    | zero => intro h; omega
    | succ k ih =>
      intro _ hk T hd
      obtain ⟨T', hu⟩ := update_exists hbits hv hid hd hap
      have hg := good_update hbits hv hid hd hap hu
      obtain ⟨T'', nbs, hs⟩ := search_exists hbits hv hn htol hg
      obtain ⟨he, ha, -, h4⟩ := step hbits htol hn hsmall hv hid hd hap hu hs (order := T'.vec) fun _ => .refl _
      choose x hx _ using h4
      by_cases h0 : k = 0
      · exact ⟨_, _, .last hap hu hs (fun _ => .refl _) hx (by omega)⟩
      · have e : (k + 1 + (2 ^ 64 - 1)) % 2 ^ 64 = k := by omega
        obtain ⟨out, r, hB⟩ := ih (by omega) (by omega) T'' (by rw [he]; exact ha.division)
        exact ⟨_, _, .more hap hu hs (fun _ => .refl _) hx (by omega) (e ▸ hB)⟩
  exact key 5000 (by norm_num) (by norm_num) T hd

end

/-! ### Example -/

private def two2 : Trees 1 2 1 := ⟨![[1], [0]], fun _ => 0, [], fun _ _ => none, fun _ _ => none⟩
private noncomputable def set2 : Settings := ⟨⟨64, 1000, 0, 1⟩, 0, 8⟩

/-- Two particles of one smoothing length, near each other, on two processes: in each of its 5000 iterations the program prints the number two on both. -/
example : TreeDriver.Program set2 two two2 (List.replicate 5000 fun _ => 2) .done := by
  have hp : ∀ a, 0 < (two a).mass ∧ 0 < (two a).h := fun a => by simp [two]
  have hid : ∀ a b : Fin 2, (two a).id = (two b).id → a = b := fun a b h => Fin.ext h
  have hb : (1 : Fin 3).val + 1 < set2.bits := (by decide : (1 : Fin 3).val + 1 < 64)
  have hd : Division 2 (2 ^ 1) two2.vec := ⟨by decide, by decide⟩
  obtain ⟨out, r, h⟩ := C89_exists (g := set2) hb le_rfl (by decide) (by decide) hp hid hd
  obtain ⟨rfl, key, mine, -, ha, rfl⟩ := C89_uniform (g := set2) hb le_rfl (by decide) (by decide) hp hid (fun a b => by simp [two]) two_separate hd h
  have hc : ∀ a, nearCount two a = 2 := by
    intro a
    unfold nearCount
    rw [Finset.filter_true_of_mem, Finset.card_univ, Fintype.card_fin]
    intro b _
    have e : ((two a).h + (two b).h) / 2 = 1 := by simp [two]
    rw [e, Real.sqrt_le_left (by norm_num)]
    fin_cases a <;> fin_cases b <;> norm_num [two, Fin.sum_univ_two]
  have hm : ∀ p, meanOf (nearCount two) (mine p) = 2 := by
    intro p
    unfold meanOf
    rw [List.map_congr_left (g := fun _ => 2) fun a _ => hc a, List.map_const', List.sum_replicate, smul_eq_mul, Nat.mul_div_cancel_left _ (List.length_pos_iff.2 (ha.division.nonempty p))]
  simp only [hm] at h
  exact h

end FleCSPH.TreeDriver
