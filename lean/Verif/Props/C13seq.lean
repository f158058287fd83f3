import Verif.Lemmas.DistBuilt2
import Verif.Props.C13dist
/-!
C13 and C18 for sequences of traversals: after `build_tree` on `2^m` processes any number of neighbour searches and computations of gravity can follow each other on one tree, in any order.
-/
namespace FleCSPH.SphRun
open FleCSPH.Spec FleCSPH.Startup FleCSPH.Cofm FleCSPH.Tree FleCSPH.Ghosts FleCSPH.DistGravity

variable {d D dim : Nat} {ranks : List (List Nat)}

/-- Whatever traversals have ended before on the tree, a search for neighbours does no undefined step, requests no key twice, can always be ended, and when it has ended every process has called the user's function
once for each of its particles with the right neighbours, from all processes; and another traversal can follow (`After`). -/
theorem C13_sequence_partial {m : Nat} (hdim : 0 < dim) (hD : 0 < D) (hm : ranks.length = 2 ^ m) (hne : ∀ l ∈ ranks, l ≠ []) (hfull : ∀ x ∈ ranks.flatten, FullKey D dim x) (hsorted : ranks.flatten.Pairwise (· < ·))
    (htwo : 2 ≤ ranks.flatten.length) (body : Nat → Body d) (hmass : ∀ x ∈ ranks.flatten, 0 < (body x).mass) (hpos : ∀ x ∈ ranks.flatten, ∀ y ∈ ranks.flatten, x ≠ y → (body x).pos ≠ (body y).pos)
    (hh : ∀ x ∈ ranks.flatten, 0 ≤ (body x).h) (big tol : ℝ) (htol : 0 ≤ tol) :
    ∃ s Val, startup D dim (summarise big) (fun x => .inl (body x)) ranks = some s ∧ TreeData D dim (· ∈ ranks.flatten) (summarise big) (fun x => .inl (body x)) Val ∧
      let Q := sph (2 ^ m) (2 ^ dim) (accepts tol Val) (D + 2)
      ∀ tbl dat, After (2 ^ m) (2 ^ dim) (D + 2) s tbl dat → ∀ groups : Nat → List Group, (∀ p < 2 ^ m, Divided D dim ranks p (groups p)) →
        ∀ s', Run Q ⟨tbl, groups, fun _ => [], fun _ => [], fun _ => [], fun _ => [], fun _ => false, fun _ _ => false⟩ s' →
          (∀ r, Next Q s' r → r ≠ none) ∧ (∀ p < 2 ^ m, (s'.asked p).Nodup) ∧ (∃ s'', Run Q s' s'' ∧ ∀ p < 2 ^ m, exited (2 ^ m) s'' p) ∧
          ((∀ p < 2 ^ m, exited (2 ^ m) s' p) → (∀ p < 2 ^ m, Served D dim ranks body (fun a b => (a.h + b.h) / 2) p (calls Val (s'.results p))) ∧ ∃ dat', After (2 ^ m) (2 ^ dim) (D + 2) s s'.tbl dat') := by
  classical
  have I : Input D dim m ranks body := ⟨⟨hdim, hD, hne, hfull, hsorted⟩, hm, hmass, hpos, htwo⟩
  have P := I.parts
  obtain ⟨s, hs, -, -, -, hall, -⟩ := I.start big
  obtain ⟨Val, hVal⟩ : ∃ Val, Val = valOf D dim (· ∈ ranks.flatten) (summarise (d := d) big) (fun x => .inl (body x)) := ⟨_, rfl⟩
  have hT := global_tree hdim hD I.ne hfull
  have hf : ∀ k ∈ cellsOf D dim ranks.flatten, k.length + 2 ≤ D + 2 := fun k hk => Nat.add_le_add_right (global_depth hdim hfull k hk) 2
  refine ⟨s, Val, hs, by rw [hVal]; exact treeData hdim P.fullX _ _, fun tbl dat ha groups hg s' h => ?_⟩
  have hS := (I.after big hs ha).1 (sph (2 ^ m) (2 ^ dim) (accepts tol Val) (D + 2)) rfl ⟨tbl, groups, fun _ => [], fun _ => [], fun _ => [], fun _ => [], fun _ => false, fun _ _ => false⟩ ⟨rfl⟩
  refine ⟨fun r hr => C18_safe hT hf hS h hr, fun p hp => C18_once hT hf hS h hp, C18_can_end hT hf hS h, fun hend => ⟨fun p hp => ?_, ?_⟩⟩
  · obtain ⟨-, -, -, g2, g3⟩ := C18_end hT hf hS h hend p hp
    exact calls_served P hmass hh htol I.ne (fun k _ => congrFun hVal k) (hg p hp) g2 g3
  · refine ⟨fun p k => if k ∈ cellsOf D dim ranks.flatten then some (valFor big D dim body ranks.flatten k) else none, .sph _ _ s' _ ha rfl h hend ?_ ?_⟩
    · intro p k v hv
      split_ifs at hv with hk
      obtain rfl := Option.some.inj hv
      obtain ⟨q, hq, h1⟩ := hall k hk
      exact ⟨q, hq, h1⟩
    · intro p hp k hk
      have hg := (C18_again rfl hT hf hS h hend (P' := sph (2 ^ m) (2 ^ dim) (accepts tol Val) (D + 2)) (fun _ => [])).good p hp
      obtain ⟨c, hc⟩ := Option.isSome_iff_exists.1 hk
      obtain ⟨g, hg1, -⟩ := hg.sub k c hc
      rw [if_pos ((hT.mem k).2 (by rw [hg1]; rfl))]
      rfl

/-! ### A case: a search for the four particles of `exRanks` on two processes, followed by the computation of gravity, followed by another search. -/

theorem ex_mass : ∀ x ∈ exRanks.flatten, 0 < (exBody x).mass ∧ 0 ≤ (exBody x).h := by
  intro x hx
  simp [exRanks] at hx
  rcases hx with rfl | rfl | rfl | rfl <;> norm_num [exBody]

theorem ex_apart : ∀ x ∈ exRanks.flatten, ∀ y ∈ exRanks.flatten, x ≠ y → (exBody x).pos ≠ (exBody y).pos := by
  intro x hx y hy hxy h
  simp [exRanks] at hx hy
  have := congrFun h 1
  rcases hx with rfl | rfl | rfl | rfl <;> rcases hy with rfl | rfl | rfl | rfl <;> first | exact hxy rfl | norm_num [exBody] at this

example : ∃ s groups tbl1 dat1 tbl2 dat2 s', startup 3 2 (summarise 1000) (fun x => .inl (exBody x)) exRanks = some s ∧ (∀ p < 2 ^ 1, Divided 3 2 exRanks p (groups p)) ∧ After (2 ^ 1) (2 ^ 2) (3 + 2) s tbl1 dat1 ∧
    (∃ T, DRun (2 ^ 1) (2 ^ 2) (1 / 2) (DistGravity.begin_ (2 ^ 1) s tbl1 dat1) T ∧ tbl2 = T.run.tbl ∧ dat2 = T.dat) ∧ After (2 ^ 1) (2 ^ 2) (3 + 2) s tbl2 dat2 ∧
    (∃ Val, Run (sph (2 ^ 1) (2 ^ 2) (accepts (0 : ℝ) (d := 2) Val) (3 + 2)) ⟨tbl2, groups, fun _ => [], fun _ => [], fun _ => [], fun _ => [], fun _ => false, fun _ _ => false⟩ s') ∧ ∀ p < 2 ^ 1, exited (2 ^ 1) s' p := by
  have hfull : ∀ x ∈ exRanks.flatten, FullKey 3 2 x := by decide
  have h1 := C13_distributed_partial (D := 3) (dim := 2) (m := 1) (by decide) (by decide) (ranks := exRanks) (by decide) (by decide) hfull (by decide) 1000 exBody (fun x hx => (ex_mass x hx).1)
    (fun x hx => (ex_mass x hx).2) 0 le_rfl 8
  have h2 := C13_sequence_partial (D := 3) (dim := 2) (m := 1) (by decide) (by decide) (ranks := exRanks) (by decide) (by decide) hfull (by decide) (by decide) exBody (fun x hx => (ex_mass x hx).1) ex_apart
    (fun x hx => (ex_mass x hx).2) 1000 0 le_rfl
  have I : Input 3 2 1 exRanks exBody := ⟨⟨by decide, by decide, by decide, hfull, by decide⟩, by decide, fun x hx => (ex_mass x hx).1, ex_apart, by decide⟩
  obtain ⟨s, -, groups, hs, -, hg, -⟩ := h1
  obtain ⟨s2, Val, hs2, -, hseq⟩ := h2
  obtain rfl := Option.some.inj (hs2.symm.trans hs)
  have hdiv : ∀ p < 2 ^ 1, Divided 3 2 exRanks p (groups p) := fun p hp => (hg p hp).choose_spec.2.2
  obtain ⟨-, -, ⟨s1, r1, e1⟩, -⟩ := hseq _ _ .built groups hdiv _ .start
  obtain ⟨-, -, -, k1⟩ := hseq _ _ .built groups hdiv _ r1
  obtain ⟨-, dat1, A1⟩ := k1 e1
  obtain ⟨-, ⟨T, r2, e2⟩, -⟩ := I.field 1000 hs2 (1 / 2) 1 (fun e => (number 2 e : Int)) (fun x hx y hy h => by
    have hl := fun x hx => leafAt_spec (dim := 2) (D := 3) (l := exRanks.flatten) (by decide) hfull (x := x) hx
    have hd := fun x hx => digits_suffix (path_digits _ _) (hl x hx).2.1
    exact leafAt_inj (by decide) hfull hx hy (number_inj (by decide) (hd x hx) (hd y hy) (by exact_mod_cast h))) A1 .start
  have A2 := After.fmm (1 / 2) T A1 r2 e2
  obtain ⟨-, -, ⟨s3, r3, e3⟩, -⟩ := hseq _ _ A2 groups hdiv _ .start
  exact ⟨s2, groups, s1.tbl, dat1, _, _, s3, hs, hdiv, A1, ⟨T, r2, rfl, rfl⟩, A2, ⟨Val, r3⟩, e3⟩

end FleCSPH.SphRun
