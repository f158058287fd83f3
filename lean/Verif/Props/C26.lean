import Verif.Props.C25
/-!
C26: particle ids stay unique across processes when ghosts are added, over any history of iterations.
-/
namespace FleCSPH
open Boundary Geometry

namespace Boundary

variable {β : Type}

/-- The particles of all processes before an iteration, from the start of a run: an iteration removes the ghosts, generates new ones, and then particles move, change and are exchanged
between processes in any way. -/
inductive Reachable (i : Fin 3) : List (List (Body (i + 1) β)) → Prop
  | start (ranks : List (List (Body (i + 1) β))) (hw : ∀ l ∈ ranks, ∀ b ∈ l, b.wall = false) (hid : Numbered ranks.flatten) : Reachable i ranks
  | iterate (ranks c out next : List (List (Body (i + 1) β))) (B : Box (i + 1)) (h : Reachable i ranks) (hc : ranks.mapM clean = some c) (hg : generate i B c = some out)
      (hn : (next.flatten.map fun b => (b.id, b.wall)).Perm (out.flatten.map fun b => (b.id, b.wall))) : Reachable i next

theorem clean_eq {d : Nat} (l : List (Body d β)) (h : reals l ≠ []) : clean l = some (reals l) := by
  unfold clean
  rw [if_neg]
  · rfl
  · intro h0
    exact h (List.length_eq_zero_iff.1 h0)

theorem clean_none {d : Nat} (l : List (Body d β)) (h : reals l = []) : clean l = none := by
  unfold clean
  rw [if_pos]
  show (reals l).length = 0
  rw [h]
  rfl

theorem clean_all {d : Nat} (ranks : List (List (Body d β))) (h : ∀ l ∈ ranks, reals l ≠ []) : ranks.mapM clean = some (ranks.map reals) := by
  induction ranks with
  | nil => rfl
  | cons l ranks ih =>
    rw [List.mapM_cons, clean_eq l (h l (by simp)), ih fun l' hl' => h l' (by simp [hl'])]
    rfl

theorem clean_some {d : Nat} (ranks c : List (List (Body d β))) (h : ranks.mapM clean = some c) : c = ranks.map reals := by
  induction ranks generalizing c with
  | nil =>
    cases h
    rfl
  | cons l ranks ih =>
    rw [List.mapM_cons] at h
    by_cases hl : reals l = []
    · rw [clean_none l hl] at h
      cases h
    · rw [clean_eq l hl] at h
      cases hm : ranks.mapM clean with
      | none =>
        rw [hm] at h
        cases h
      | some c' =>
        rw [hm] at h
        cases h
        rw [ih c' hm]
        rfl

theorem reals_no_walls {d : Nat} (ranks : List (List (Body d β))) : ∀ l ∈ ranks.map reals, ∀ b ∈ l, b.wall = false := by
  intro l hl b hb
  obtain ⟨l', -, rfl⟩ := List.mem_map.1 hl
  have := (List.mem_filter.1 hb).2
  simpa using this

theorem reals_flatten {d : Nat} (ranks : List (List (Body d β))) : (ranks.map reals).flatten = reals ranks.flatten := by
  unfold reals
  rw [List.filter_flatten]

/-- The ids of the real particles depend only on the ids and the types. -/
theorem reals_ids {d : Nat} (l : List (Body d β)) : (reals l).map Body.id = ((l.map fun b => (b.id, b.wall)).filter fun q => !q.2).map Prod.fst := by
  unfold reals
  rw [List.filter_map, List.map_map]
  rfl

theorem numbered_iff {d : Nat} (l l' : List (Body d β)) (h : (l.map Body.id).Perm (l'.map Body.id)) : Numbered l' → Numbered l := by
  intro h'
  unfold Numbered at h' ⊢
  have hlen : l.length = l'.length := by simpa using h.length_eq
  rw [hlen]
  exact h.trans h'

theorem generate_numbered (i : Fin 3) (B : Box (i + 1)) (c : List (List (Body (i + 1) β))) (hw : ∀ l ∈ c, ∀ b ∈ l, b.wall = false) (hid : Numbered c.flatten) :
    ∃ out, generate i B c = some out ∧ Numbered out.flatten ∧ out.map (fun l => (reals l).map Body.id) = c.map fun l => l.map Body.id := by
  refine ⟨_, generate_some i B c hw hid, ?_, ?_⟩
  · obtain ⟨T, out, h1, h2, h3, -⟩ := generate_eq i B c hw _ rfl _ rfl
    unfold Numbered
    rw [← h1, h3, h2, h1]
    have hp := outOf_ids i B c.flatten.length 0 (c.map fun l => l.map (teleport B)) (no_walls i B c hw)
    refine hp.trans ?_
    have e : ((c.map fun l => l.map (teleport B)).flatten.map Body.id) = c.flatten.map Body.id := by
      rw [← List.map_flatten, List.map_map]
      rfl
    rw [e, List.range_add, List.map_append]
    refine List.Perm.append hid ?_
    rw [List.map_map (f := fun x => c.flatten.length + x)]
    refine List.Perm.of_eq (List.map_congr_left fun k _ => ?_)
    simp only [Function.comp]
    push_cast
    ring
  · have hr := generate_reals i B c hw _ (generate_some i B c hw hid)
    have : (fun l : List (Body (i + 1) β) => (reals l).map Body.id) = (fun l => l.map Body.id) ∘ reals := rfl
    rw [this, ← List.map_map, hr, List.map_map]
    refine List.map_congr_left fun l _ => ?_
    simp only [Function.comp, List.map_map]
    rfl

theorem reachable_numbered (i : Fin 3) (ranks : List (List (Body (i + 1) β))) (h : Reachable i ranks) : Numbered (reals ranks.flatten) := by
  induction h with
  | start ranks hw hid =>
    have : reals ranks.flatten = ranks.flatten := by
      unfold reals
      rw [List.filter_eq_self]
      intro b hb
      obtain ⟨l, hl, hb'⟩ := List.mem_flatten.1 hb
      rw [hw l hl b hb']
      rfl
    rw [this]
    exact hid
  | iterate ranks c out next B h hc hg hn ih =>
    obtain rfl := clean_some ranks c hc
    rw [← reals_flatten] at ih
    have hr := generate_reals i B _ (reals_no_walls ranks) _ hg
    refine numbered_iff _ _ ?_ ih
    rw [reals_ids]
    have h1 : ((next.flatten.map fun b => (b.id, b.wall)).filter fun q => !q.2).Perm ((out.flatten.map fun b => (b.id, b.wall)).filter fun q => !q.2) := hn.filter _
    have h2 : ((ranks.map reals).flatten.map Body.id) = ((out.flatten.map fun b => (b.id, b.wall)).filter fun q => !q.2).map Prod.fst := by
      rw [← reals_ids, ← reals_flatten, hr, ← List.map_flatten, List.map_map]
      rfl
    rw [h2]
    exact h1.map _

end Boundary

/-- In every history, if each process has a particle which is not a ghost, then the iteration removes the ghosts and generates new ones, the check succeeds, afterwards all particles of all
processes carry different ids, namely 0, ..., T - 1, and the particles which are not ghosts keep theirs. -/
theorem C26_ids_partial {β : Type} (i : Fin 3) (B : Box (i + 1)) (ranks : List (List (Body (i + 1) β))) (h : Reachable i ranks) (hne : ∀ l ∈ ranks, reals l ≠ []) :
    ∃ c out, ranks.mapM clean = some c ∧ c = ranks.map reals ∧ generate i B c = some out ∧ (out.flatten.map Body.id).Nodup ∧ Numbered out.flatten ∧
      out.map (fun l => (reals l).map Body.id) = ranks.map fun l => (reals l).map Body.id := by
  have h1 := reachable_numbered i ranks h
  rw [← reals_flatten] at h1
  obtain ⟨out, h2, h3, h4⟩ := generate_numbered i B (ranks.map reals) (reals_no_walls ranks) h1
  refine ⟨_, out, clean_all ranks hne, rfl, h2, ?_, h3, ?_⟩
  · refine h3.nodup_iff.2 ?_
    refine List.Nodup.map ?_ List.nodup_range
    intro a b hab
    exact Int.ofNat.inj hab
  · rw [h4, List.map_map]
    rfl

/-- Two iterations of a run on two processes. -/
example : ∃ ranks next : List (List (Body 1 Unit)), Reachable 0 ranks ∧ Reachable 0 next ∧ (∀ l ∈ next, reals l ≠ []) ∧ ∃ l ∈ next, ghosts l ≠ [] := by
  obtain ⟨B, hB⟩ : ∃ B : Box 1, B = ⟨fun _ => 1, fun _ => true, 1 / 4⟩ := ⟨_, rfl⟩
  obtain ⟨ranks, hr⟩ : ∃ ranks : List (List (Body 1 Unit)), ranks = [[⟨0, false, ![-1 / 3], ()⟩], [⟨1, false, ![1 / 2], ()⟩]] := ⟨_, rfl⟩
  have hR : Reachable 0 ranks := Reachable.start _ (by rw [hr]; simp) (by rw [hr]; exact List.Perm.refl _)
  have hne : ∀ l ∈ ranks, reals l ≠ [] := by rw [hr]; simp [reals]
  obtain ⟨c, out, h1, hc, h2, h3, h4, h5⟩ := C26_ids_partial 0 B ranks hR hne
  refine ⟨ranks, out, hR, Reachable.iterate ranks c out out B hR h1 h2 (List.Perm.refl _), ?_, ?_⟩
  · intro l hl hnil
    have h6 : (reals l).map Body.id ∈ out.map fun l => (reals l).map Body.id := List.mem_map.2 ⟨l, hl, rfl⟩
    rw [h5, hnil, hr] at h6
    simp [reals] at h6
  · have hgh := generate_ghosts 0 B c (by rw [hc]; exact reals_no_walls ranks) out h2
    by_contra hcon
    push Not at hcon
    have hz : out.map (fun l => (ghosts l).map fun b => (b.pos, b.rest)) = out.map fun _ => [] := List.map_congr_left fun l hl => by rw [hcon l hl]; rfl
    rw [hz, generate_reals 0 B c (by rw [hc]; exact reals_no_walls ranks) out h2, List.map_map] at hgh
    have hmem : (⟨1, false, ![1 / 2], ()⟩ : Body 1 Unit) ∈ reals [(⟨1, false, ![1 / 2], ()⟩ : Body 1 Unit)] := by simp [reals]
    have hl : reals [(⟨1, false, ![1 / 2], ()⟩ : Body 1 Unit)] ∈ c := by rw [hc, hr]; simp
    have hin : (edge 0 B ((reals [(⟨1, false, ![1 / 2], ()⟩ : Body 1 Unit)]).map (teleport B))).map (fun b => (b.pos, b.rest)) ∈ out.map fun _ => ([] : List (Point 1 × Unit)) := by
      rw [hgh]
      exact List.mem_map.2 ⟨_, hl, rfl⟩
    obtain ⟨-, -, hnil⟩ := List.mem_map.1 hin
    have hedge : edge 0 B ((reals [(⟨1, false, ![1 / 2], ()⟩ : Body 1 Unit)]).map (teleport B)) = [] := List.map_eq_nil_iff.1 hnil.symm
    have hcop : copies 0 B (teleport B (⟨1, false, ![1 / 2], ()⟩ : Body 1 Unit)) = [] :=
      List.flatMap_eq_nil_iff.1 hedge _ (List.mem_map.2 ⟨_, hmem, rfl⟩)
    unfold copies at hcop
    have h6 := (List.append_eq_nil_iff.1 hcop).1
    rw [List.map_eq_nil_iff, List.filter_eq_nil_iff] at h6
    refine h6 (0 : Fin 1) (List.mem_finRange (0 : Fin 1)) ?_
    unfold onEdge
    rw [teleport_pos]
    unfold wrap1 Box.max Box.min
    rw [hB]
    simp
    norm_num

/-- A process which holds only ghosts, or nothing, stops the run at the next iteration. -/
theorem C26_only_ghosts_violated {β : Type} (i : Fin 3) (ranks : List (List (Body (i + 1) β))) (l : List (Body (i + 1) β)) (hl : l ∈ ranks) (h : ∀ b ∈ l, b.wall = true) :
    ranks.mapM clean = none := by
  cases hm : ranks.mapM clean with
  | none => rfl
  | some c =>
    exfalso
    induction ranks generalizing c with
    | nil => simp at hl
    | cons a ranks ih =>
      rw [List.mapM_cons] at hm
      rcases List.mem_cons.1 hl with rfl | hl'
      · have hr : reals l = [] := by
          unfold reals
          rw [List.filter_eq_nil_iff]
          intro b hb
          rw [h b hb]
          simp
        rw [clean_none l hr] at hm
        cases hm
      · by_cases ha : reals a = []
        · rw [clean_none a ha] at hm
          cases hm
        · rw [clean_eq a ha] at hm
          cases hm' : ranks.mapM clean with
          | none =>
            rw [hm'] at hm
            cases hm
          | some c' => exact ih hl' c' hm'

/-- That happens: after one iteration the only ghost can be alone on its process. -/
theorem C26_only_ghosts_reached : ∃ ranks : List (List (Body 1 Unit)), Reachable 0 ranks ∧ (∃ l ∈ ranks, l ≠ [] ∧ ∀ b ∈ l, b.wall = true) ∧ ranks.mapM clean = none := by
  obtain ⟨ranks, hr⟩ : ∃ ranks : List (List (Body 1 Unit)), ranks = [[⟨0, false, ![1 / 2], ()⟩]] := ⟨_, rfl⟩
  obtain ⟨B, hB⟩ : ∃ B : Box 1, B = ⟨fun _ => 1, fun _ => true, 1 / 4⟩ := ⟨_, rfl⟩
  have hR : Reachable 0 ranks := Reachable.start _ (by rw [hr]; simp) (by rw [hr]; exact List.Perm.refl _)
  have hne : ∀ l ∈ ranks, reals l ≠ [] := by rw [hr]; simp [reals]
  obtain ⟨c, out, h1, hc, h2, h3, h4, h5⟩ := C26_ids_partial 0 B ranks hR hne
  have hex : ∃ g ∈ out.flatten, g.wall = true := by
    have hw := reals_no_walls ranks
    rw [← hc] at hw
    have hgh := generate_ghosts 0 B c hw out h2
    by_contra hcon
    push Not at hcon
    have hz : out.map (fun l => (ghosts l).map fun b => (b.pos, b.rest)) = out.map fun _ => [] := List.map_congr_left fun l hl => by
      have : ghosts l = [] := by
        unfold ghosts
        rw [List.filter_eq_nil_iff]
        intro b hb
        exact hcon b (List.mem_flatten.2 ⟨l, hl, hb⟩)
      rw [this]
      rfl
    rw [hz, generate_reals 0 B c hw out h2, List.map_map] at hgh
    have hl : [(⟨0, false, ![1 / 2], ()⟩ : Body 1 Unit)] ∈ c := by rw [hc, hr]; simp [reals]
    have hin : (edge 0 B (([(⟨0, false, ![1 / 2], ()⟩ : Body 1 Unit)]).map (teleport B))).map (fun b => (b.pos, b.rest)) ∈ out.map fun _ => ([] : List (Point 1 × Unit)) := by
      rw [hgh]
      exact List.mem_map.2 ⟨_, hl, rfl⟩
    obtain ⟨-, -, hnil⟩ := List.mem_map.1 hin
    have hedge : edge 0 B (([(⟨0, false, ![1 / 2], ()⟩ : Body 1 Unit)]).map (teleport B)) = [] := List.map_eq_nil_iff.1 hnil.symm
    have hcop : copies 0 B (teleport B (⟨0, false, ![1 / 2], ()⟩ : Body 1 Unit)) = [] := List.flatMap_eq_nil_iff.1 hedge _ (List.mem_map.2 ⟨_, by simp, rfl⟩)
    unfold copies at hcop
    have h6 := (List.append_eq_nil_iff.1 hcop).1
    rw [List.map_eq_nil_iff, List.filter_eq_nil_iff] at h6
    refine h6 (0 : Fin 1) (List.mem_finRange (0 : Fin 1)) ?_
    unfold onEdge
    rw [teleport_pos]
    unfold wrap1 Box.max Box.min
    rw [hB]
    simp
    norm_num
  obtain ⟨g, hg, hgw⟩ := hex
  have hnext : Reachable 0 [ghosts out.flatten, reals out.flatten] := by
    refine Reachable.iterate ranks c out _ B hR h1 h2 (List.Perm.map _ ?_)
    show (ghosts out.flatten ++ (reals out.flatten ++ [])).Perm out.flatten
    rw [List.append_nil]
    exact List.filter_append_perm (fun b : Body 1 Unit => b.wall) out.flatten
  have hall : ∀ b ∈ ghosts out.flatten, b.wall = true := fun b hb => (List.mem_filter.1 hb).2
  refine ⟨_, hnext, ⟨ghosts out.flatten, by simp, ?_, hall⟩, C26_only_ghosts_violated 0 _ (ghosts out.flatten) (by simp) hall⟩
  intro hnil
  have : g ∈ ghosts out.flatten := List.mem_filter.2 ⟨hg, hgw⟩
  rw [hnil] at this
  simp at this

/-- With other ids the check fails, for example with 1, ..., N. -/
theorem C26_check {β : Type} (i : Fin 3) (B : Box (i + 1)) (ranks : List (List (Body (i + 1) β))) (hw : ∀ l ∈ ranks, ∀ b ∈ l, b.wall = false) :
    (∃ out, generate i B ranks = some out) ↔ 2 * (ranks.flatten.map Body.id).sum = ((ranks.flatten.length : Int) - 1) * ranks.flatten.length := by
  obtain ⟨T, out, -, -, -, h⟩ := generate_eq i B ranks hw _ rfl _ rfl
  rw [h]
  split_ifs with hc
  · exact ⟨fun _ => hc, fun _ => ⟨_, rfl⟩⟩
  · refine ⟨fun h => ?_, fun h => absurd h hc⟩
    obtain ⟨o, ho⟩ := h
    cases ho

end FleCSPH
