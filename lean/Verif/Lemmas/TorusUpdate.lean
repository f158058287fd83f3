import Verif.Lemmas.Torus
import Verif.Model.PeriodicRun
import Verif.Props.C26
/-! What `update_iteration` makes of the particles is an extension of the torus. -/
namespace FleCSPH.Torus
open FleCSPH.Geometry FleCSPH.Sph FleCSPH.DistRun FleCSPH.PeriodicRun FleCSPH.Boundary

variable {i : Fin 3} {β : Type}

/-! ### The ghosts of a particle -/

open Classical in
/-- The period by which a ghost is moved along an axis. -/
noncomputable def stepOf (B : Box (i + 1)) (p : Point (i + 1)) (j : Fin (i + 1)) : ℤ := if p j + B.halo > B.max j then -1 else 1

noncomputable def shiftOf (B : Box (i + 1)) (p : Point (i + 1)) (axes : List (Fin (i + 1))) (j : Fin (i + 1)) : ℤ := if j ∈ axes then stepOf B p j else 0

noncomputable def shiftsOf (B : Box (i + 1)) (p : Point (i + 1)) : List (Fin (i + 1) → ℤ) := ((axisSets i).filter fun axes => axes.all (onEdge B p)).map (shiftOf B p)

theorem stepOf_ne (B : Box (i + 1)) (p : Point (i + 1)) (j : Fin (i + 1)) : stepOf B p j ≠ 0 := by
  unfold stepOf; split_ifs <;> decide

theorem shifted_step (B : Box (i + 1)) (p : Point (i + 1)) (j : Fin (i + 1)) : shifted B j (p j) = p j + stepOf B p j * B.sides j := by
  unfold shifted stepOf
  split_ifs <;> push_cast <;> ring

theorem axisSets_nodup : ∀ i : Fin 3, (axisSets i).Nodup := by decide
theorem axisSets_inj : ∀ i : Fin 3, ∀ a ∈ axisSets i, ∀ a' ∈ axisSets i, (∀ j, j ∈ a ↔ j ∈ a') → a = a' := by decide

theorem shiftsOf_nodup (B : Box (i + 1)) (p : Point (i + 1)) : (shiftsOf B p).Nodup := by
  refine List.Nodup.map_on ?_ ((axisSets_nodup i).filter _)
  intro a ha a' ha' h
  refine axisSets_inj i a (List.mem_filter.mp ha).1 a' (List.mem_filter.mp ha').1 fun j => ?_
  have := congrFun h j
  unfold shiftOf at this
  by_cases h1 : j ∈ a <;> by_cases h2 : j ∈ a'
  · simp [h1, h2]
  · rw [if_pos h1, if_neg h2] at this; exact absurd this (stepOf_ne B p j)
  · rw [if_neg h1, if_pos h2] at this; exact absurd this.symm (stepOf_ne B p j)
  · simp [h1, h2]

theorem shiftsOf_ne (B : Box (i + 1)) (p : Point (i + 1)) : (0 : Fin (i + 1) → ℤ) ∉ shiftsOf B p := by
  intro h
  obtain ⟨a, ha, h⟩ := List.mem_map.mp h
  obtain ⟨j, hj⟩ := List.exists_mem_of_ne_nil a (axisSets_ne i a (List.mem_filter.mp ha).1)
  have := congrFun h j
  unfold shiftOf at this
  rw [if_pos hj] at this
  exact stepOf_ne B p j this

theorem shiftsOf_lattice (B : Box (i + 1)) (p : Point (i + 1)) (k) (h : k ∈ shiftsOf B p) : Lattice B.periodic k := by
  obtain ⟨a, ha, rfl⟩ := List.mem_map.mp h
  intro j hj
  unfold shiftOf
  split_ifs with h1
  · have := onEdge_periodic B p j (List.all_eq_true.mp (List.mem_filter.mp ha).2 j h1)
    rw [hj] at this; cases this
  · rfl

theorem shiftsOf_complete (B : Box (i + 1)) (hs : ∀ j, B.periodic j = true → 0 < B.sides j) (hh : ∀ j, B.periodic j = true → 2 * B.halo ≤ B.sides j) (p q : Point (i + 1)) (hp : InBox B p) (hq : InBox B q)
    (k : Fin (i + 1) → ℤ) (hk : Lattice B.periodic k) (h0 : k ≠ 0) (hd : gap p (fun j => q j + k j * B.sides j) ≤ B.halo) : k ∈ shiftsOf B q := by
  have hper : ∀ j, k j ≠ 0 → B.periodic j = true := by
    intro j hj
    by_contra hcon
    exact hj (hk j (by simpa using hcon))
  have hneed : ∀ j, k j ≠ 0 → onEdge B q j = true ∧ k j = stepOf B q j := by
    intro j hj
    have hpj := hper j hj
    have hc := coordinate_le p (fun j => q j + k j * B.sides j) B.halo hd j
    have h7 := shift_needed (B.sides j) B.halo (p j) (q j) (k j) hj (hs j hpj) (hh j hpj) (hp j hpj).1 (hp j hpj).2 (hq j hpj).1 (hq j hpj).2 hc
    unfold onEdge stepOf Box.max Box.min
    rcases h7 with ⟨h7, h8, h9⟩ | ⟨h7, h8⟩
    · rw [h7, if_neg h9, hpj, Bool.true_and, Bool.or_eq_true]
      exact ⟨Or.inr (decide_eq_true h8), rfl⟩
    · rw [h7, if_pos h8, hpj, Bool.true_and, Bool.or_eq_true]
      exact ⟨Or.inl (decide_eq_true h8), rfl⟩
  obtain ⟨axes, ha, hmem⟩ := axisSets_all i (Finset.univ.filter fun j => k j ≠ 0) (by
    obtain ⟨j, hj⟩ : ∃ j, k j ≠ 0 := by
      by_contra hcon
      push Not at hcon
      exact h0 (funext hcon)
    exact ⟨j, by simp [hj]⟩)
  have hmem' : ∀ j, j ∈ axes ↔ k j ≠ 0 := fun j => by rw [hmem j]; simp
  refine List.mem_map.mpr ⟨axes, List.mem_filter.mpr ⟨ha, List.all_eq_true.mpr fun j hj => (hneed j ((hmem' j).mp hj)).1⟩, ?_⟩
  funext j
  unfold shiftOf
  split_ifs with h
  · exact (hneed j ((hmem' j).mp h)).2.symm
  · by_contra hcon
    exact h ((hmem' j).mpr fun h' => hcon h'.symm)

theorem copies_eq (B : Box (i + 1)) (b : Body (i + 1) β) (hin : InBox B b.pos) : copies i B b = (shiftsOf B b.pos).map fun k => { b with wall := true, pos := fun j => b.pos j + k j * B.sides j } := by
  have hall : ∀ l : List (List (Fin (i + 1))), l.flatMap (addCorner B b) =
      ((l.filter fun axes => axes.all (onEdge B b.pos)).map (shiftOf B b.pos)).map fun k => { b with wall := true, pos := fun j => b.pos j + k j * B.sides j } := by
    intro l
    induction l with
    | nil => rfl
    | cons a l ih =>
      rw [List.flatMap_cons, ih]
      unfold addCorner
      by_cases h : a.all (onEdge B b.pos) = true
      · rw [if_pos h, List.filter_cons_of_pos (p := fun axes : List (Fin (i + 1)) => axes.all (onEdge B b.pos)) h, List.map_cons, List.map_cons, List.singleton_append]
        congr 2
        funext j
        rw [corner_fold]
        unfold shiftOf
        split_ifs with hj
        · have hp := hin j (onEdge_periodic B b.pos j (List.all_eq_true.mp h j hj))
          rw [cornerCopy_eq B b.pos j hp.1 hp.2, shifted_step]
        · simp
      · rw [if_neg h, List.filter_cons_of_neg (p := fun axes : List (Fin (i + 1)) => axes.all (onEdge B b.pos)) h, List.nil_append]
  unfold copies shiftsOf axisSets
  rw [List.filter_append, List.map_append, List.map_append, hall, List.filter_map, List.map_map, List.map_map]
  congr 1
  have e : ((fun axes : List (Fin (i + 1)) => axes.all (onEdge B b.pos)) ∘ fun j => [j]) = onEdge B b.pos := by
    funext j; simp [Function.comp]
  rw [e, List.map_map]
  refine List.map_congr_left fun j _ => ?_
  simp only [Function.comp]
  congr 1
  funext m
  unfold shiftOf
  by_cases h : m = j
  · subst h
    rw [Function.update_self, if_pos (by simp), axisCopy_eq, shifted_step]
  · rw [Function.update_of_ne h, if_neg (by simpa using h)]
    simp

/-! ### All particles -/

/-- What is kept: everything but the ids of ghosts. -/
def viewB (b : Body (i + 1) β) : Bool × Int × Point (i + 1) × β := (b.wall, if b.wall then 0 else b.id, b.pos, b.rest)

theorem renumber_view (n : Int) (l : List (Body (i + 1) β)) : (renumber n l).map viewB = l.map viewB := by
  induction l generalizing n with
  | nil => rfl
  | cons b l ih =>
    simp only [renumber]
    split_ifs with h
    · rw [List.map_cons, List.map_cons, ih]
      simp [viewB, h]
    · rw [List.map_cons, List.map_cons, ih]

theorem outOf_view (B : Box (i + 1)) (N s : Int) (moved : List (List (Body (i + 1) β))) :
    ((outOf i B N s moved).flatten.map viewB).Perm ((moved.flatten.flatMap fun b => b :: copies i B b).map viewB) := by
  induction moved generalizing s with
  | nil => exact List.Perm.refl _
  | cons l moved ih =>
    rw [outOf_cons, List.flatten_cons, List.flatten_cons, List.flatMap_append, List.map_append, List.map_append, renumber_view]
    refine List.Perm.append ?_ (ih _)
    refine List.Perm.map _ ?_
    have := List.map_append_flatMap_perm l (fun b => b) (copies i B)
    simpa [edge] using this

open Classical in
theorem largest_le (H : ℝ) (h0 : 0 ≤ H) (ranks : List (List (Body (i + 1) (Particle (i + 1))))) (h : ∀ l ∈ ranks, ∀ b ∈ l, b.rest.h ≤ H) : largestH ranks ≤ H := by
  have h1 : ∀ (l : List (Body (i + 1) (Particle (i + 1)))) (s : ℝ), s ≤ H → (∀ b ∈ l, b.rest.h ≤ H) → l.foldl (fun s b => if s < b.rest.h then b.rest.h else s) s ≤ H := by
    intro l
    induction l with
    | nil => intro s hs _; exact hs
    | cons b l ih =>
      intro s hs hb
      rw [List.foldl_cons]
      refine ih _ ?_ fun c hc => hb c (List.mem_cons_of_mem _ hc)
      split_ifs
      · exact hb b (by simp)
      · exact hs
  have h2 : ∀ (l : List ℝ) (s : ℝ), s ≤ H → (∀ b ∈ l, b ≤ H) → l.foldl max s ≤ H := by
    intro l
    induction l with
    | nil => intro s hs _; exact hs
    | cons b l ih =>
      intro s hs hb
      rw [List.foldl_cons]
      exact ih _ (max_le hs (hb b (by simp))) fun c hc => hb c (List.mem_cons_of_mem _ hc)
  refine h2 _ 0 h0 ?_
  intro x hx
  obtain ⟨l, hl, rfl⟩ := List.mem_map.mp hx
  exact h1 l 0 h0 (h l hl)

open Classical in
theorem le_largest (ranks : List (List (Body (i + 1) (Particle (i + 1))))) : 0 ≤ largestH ranks ∧ ∀ l ∈ ranks, ∀ b ∈ l, b.rest.h ≤ largestH ranks := by
  have h1 : ∀ (l : List (Body (i + 1) (Particle (i + 1)))) (s : ℝ), s ≤ l.foldl (fun s b => if s < b.rest.h then b.rest.h else s) s ∧
      ∀ b ∈ l, b.rest.h ≤ l.foldl (fun s b => if s < b.rest.h then b.rest.h else s) s := by
    intro l
    induction l with
    | nil => intro s; exact ⟨le_refl _, by simp⟩
    | cons b l ih =>
      intro s
      rw [List.foldl_cons]
      obtain ⟨h1, h2⟩ := ih (if s < b.rest.h then b.rest.h else s)
      refine ⟨le_trans ?_ h1, fun c hc => ?_⟩
      · split_ifs with h
        · exact h.le
        · exact le_refl _
      · rcases List.mem_cons.mp hc with rfl | hc
        · refine le_trans ?_ h1
          split_ifs with h
          · exact le_refl _
          · exact not_lt.mp h
        · exact h2 c hc
  have h2 : ∀ (l : List ℝ) (s : ℝ), s ≤ l.foldl max s ∧ ∀ b ∈ l, b ≤ l.foldl max s := by
    intro l
    induction l with
    | nil => intro s; exact ⟨le_refl _, by simp⟩
    | cons b l ih =>
      intro s
      rw [List.foldl_cons]
      obtain ⟨h1, h2⟩ := ih (max s b)
      refine ⟨le_trans (le_max_left _ _) h1, fun c hc => ?_⟩
      rcases List.mem_cons.mp hc with rfl | hc
      · exact le_trans (le_max_right _ _) h1
      · exact h2 c hc
  refine ⟨(h2 _ 0).1, fun l hl b hb => ?_⟩
  exact le_trans ((h1 l 0).2 b hb) ((h2 _ 0).2 _ (List.mem_map.mpr ⟨l, hl, rfl⟩))

/-- What is kept of a particle with its type. -/
def viewT (x : Typed (i + 1)) : Bool × Particle (i + 1) := (x.1, if x.1 then { x.2 with id := 0 } else x.2)

variable {n : Nat}

/-- Particles with the combinations of periods of themselves and their ghosts. -/
noncomputable def images (B : Box (i + 1)) (s : Fin n → Particle (i + 1)) : List (Fin n × (Fin (i + 1) → ℤ)) :=
  (List.finRange n).flatMap fun a => (0 :: shiftsOf B (s a).pos).map fun k => (a, k)

theorem images_nodup (B : Box (i + 1)) (s : Fin n → Particle (i + 1)) : (images B s).Nodup := by
  unfold images
  rw [List.nodup_flatMap]
  refine ⟨fun a _ => ?_, ?_⟩
  · refine List.Nodup.map (fun k k' h => (Prod.mk.inj h).2) ?_
    rw [List.nodup_cons]
    exact ⟨shiftsOf_ne B _, shiftsOf_nodup B _⟩
  · refine (List.nodup_finRange n).imp ?_
    intro a b hab
    simp only [Function.onFun]
    intro x h1 h2
    obtain ⟨k, -, rfl⟩ := List.mem_map.mp h1
    obtain ⟨k', -, h3⟩ := List.mem_map.mp h2
    exact hab (Prod.mk.inj h3).1.symm

theorem mem_images (B : Box (i + 1)) (s : Fin n → Particle (i + 1)) (a : Fin n) (k : Fin (i + 1) → ℤ) : (a, k) ∈ images B s ↔ k = 0 ∨ k ∈ shiftsOf B (s a).pos := by
  unfold images
  rw [List.mem_flatMap]
  constructor
  · rintro ⟨b, -, h⟩
    obtain ⟨k', h1, h2⟩ := List.mem_map.mp h
    obtain ⟨rfl, rfl⟩ := Prod.mk.inj h2
    exact List.mem_cons.mp h1
  · intro h
    exact ⟨a, List.mem_finRange a, List.mem_map.mpr ⟨k, List.mem_cons.mpr h, rfl⟩⟩

open Classical in
/-- An image with its type. -/
noncomputable def imageT (sides : Fin (i + 1) → ℝ) (s : Fin n → Particle (i + 1)) (q : Fin n × (Fin (i + 1) → ℤ)) : Typed (i + 1) := (decide (q.2 ≠ 0), imageOf sides (s q.1) q.2)

theorem ranks_reals (procs : Nat) (σ : PState i) (hh : ∀ a, σ.home a < procs) : ((σ.ranks procs).flatten.filter fun x => !x.1).Perm (σ.reals.map fun a => (false, a)) := by
  have h1 : (σ.ranks procs).flatten.Perm ((List.finRange σ.n).map fun a => (σ.wall a, σ.data.val a)) := by
    unfold PState.ranks
    rw [← List.flatMap_def]
    have h2 : ((List.range procs).flatMap fun p => (List.finRange σ.n).filter fun a => σ.home a = p).Perm (List.finRange σ.n) := by
      rw [List.perm_iff_count]
      intro a
      rw [List.count_flatMap]
      have h3 : ∀ p, (List.count a ∘ fun p => (List.finRange σ.n).filter fun a => σ.home a = p) p = if p = σ.home a then 1 else 0 := by
        intro p
        simp only [Function.comp]
        split_ifs with h
        · rw [List.count_filter (by simp [h]), List.count_eq_one_of_mem (List.nodup_finRange _) (List.mem_finRange a)]
        · rw [List.count_eq_zero]
          intro h4
          have := (List.mem_filter.mp h4).2
          simp at this
          exact h this.symm
      rw [List.count_eq_one_of_mem (List.nodup_finRange _) (List.mem_finRange a)]
      have h4 : (List.map (List.count a ∘ fun p => (List.finRange σ.n).filter fun a => σ.home a = p) (List.range procs)) = (List.range procs).map fun p => if p = σ.home a then 1 else 0 :=
        List.map_congr_left fun p _ => h3 p
      rw [h4]
      have h5 : ∀ m, ((List.range m).map fun p => if p = σ.home a then 1 else 0).sum = if σ.home a < m then 1 else 0 := by
        intro m
        induction m with
        | zero => simp
        | succ m ih =>
          rw [List.range_succ, List.map_append, List.sum_append, ih]
          simp only [List.map_cons, List.map_nil, List.sum_cons, List.sum_nil]
          split_ifs <;> omega
      rw [h5, if_pos (hh a)]
    have h6 := h2.map fun a => (σ.wall a, σ.data.val a)
    rw [List.map_flatMap] at h6
    exact h6
  refine (h1.filter _).trans ?_
  unfold PState.reals
  rw [List.filter_map, List.map_map]
  refine List.Perm.of_eq ?_
  have e : ((fun x : Typed (i + 1) => !x.1) ∘ fun a => (σ.wall a, σ.data.val a)) = fun a => !σ.wall a := rfl
  rw [e]
  refine List.map_congr_left fun a ha => ?_
  have := (List.mem_filter.mp ha).2
  simp only [Function.comp]
  rw [Bool.not_eq_true'] at this
  rw [this]

theorem regenerate_images {sides : Fin (i + 1) → ℝ} {periodic : Fin (i + 1) → Bool} (hs : ∀ j, periodic j = true → 0 < sides j) {procs : Nat} {σ : PState i} (hh : ∀ a, σ.home a < procs)
    (hok : Contained sides periodic σ) {s : Fin n → Particle (i + 1)} (hσ : σ.reals.Perm (List.ofFn s)) {out : List (List (Typed (i + 1)))} (h : regenerate sides periodic (σ.ranks procs) = some out) :
    ∃ (s' : Fin n → Particle (i + 1)) (H : ℝ), (∀ a, ∃ k, Lattice periodic k ∧ s' a = imageOf sides (s a) k) ∧ 0 ≤ H ∧ (∀ a, (s a).h ≤ H) ∧ (∀ j, periodic j = true → 5 * H ≤ sides j) ∧
      (∀ a, InBox ⟨sides, periodic, 5 / 2 * H⟩ (s' a).pos) ∧ (out.flatten.map viewT).Perm ((images ⟨sides, periodic, 5 / 2 * H⟩ s').map fun q => viewT (imageT sides s' q)) := by
  unfold regenerate at h
  obtain ⟨c, hc, h⟩ := Option.bind_eq_some_iff.mp h
  obtain rfl := clean_some _ _ hc
  obtain ⟨o, ho, rfl⟩ := Option.map_eq_some_iff.mp h
  obtain ⟨c, hcdef⟩ : ∃ c, c = ((σ.ranks procs).map fun l => l.map toBody).map Boundary.reals := ⟨_, rfl⟩
  obtain ⟨H, hH⟩ : ∃ H, H = largestH c := ⟨_, rfl⟩
  obtain ⟨B, hB⟩ : ∃ B : Box (i + 1), B = ⟨sides, periodic, 5 / 2 * H⟩ := ⟨_, rfl⟩
  rw [← hcdef, ← hH, ← hB] at ho
  -- the particles after the ghosts were removed
  have hcf : c.flatten.Perm ((List.ofFn s).map fun a => toBody (false, a)) := by
    rw [hcdef, reals_flatten, ← List.map_flatten]
    have h1 : Boundary.reals ((σ.ranks procs).flatten.map toBody) = ((σ.ranks procs).flatten.filter fun x => !x.1).map toBody := by
      unfold Boundary.reals
      rw [List.filter_map]
      rfl
    rw [h1]
    refine ((ranks_reals procs σ hh).map toBody).trans ?_
    rw [List.map_map]
    exact hσ.map _
  have hmemc : ∀ l ∈ c, ∀ b ∈ l, ∃ a, b = toBody (false, s a) := by
    intro l hl b hb
    have := hcf.mem_iff.mp (List.mem_flatten.mpr ⟨l, hl, hb⟩)
    obtain ⟨p, hp, rfl⟩ := List.mem_map.mp this
    obtain ⟨a, rfl⟩ := List.mem_ofFn.mp hp
    exact ⟨a, rfl⟩
  have hmems : ∀ a, ∃ l ∈ c, toBody (false, s a) ∈ l := by
    intro a
    have := hcf.mem_iff.mpr (List.mem_map.mpr ⟨s a, List.mem_ofFn.mpr ⟨a, rfl⟩, rfl⟩)
    obtain ⟨l, hl, hb⟩ := List.mem_flatten.mp this
    exact ⟨l, hl, hb⟩
  have hoks : ∀ a j, periodic j = true → -(3 / 2) * sides j < (s a).pos j ∧ (s a).pos j ≤ 3 / 2 * sides j ∧ 5 * (s a).h ≤ sides j :=
    fun a => hok _ (hσ.mem_iff.mpr (List.mem_ofFn.mpr ⟨a, rfl⟩))
  have hleH := le_largest c
  rw [← hH] at hleH
  have hle : ∀ a, (s a).h ≤ H := by
    intro a
    obtain ⟨l, hl, hb⟩ := hmems a
    exact hleH.2 l hl _ hb
  have h5 : ∀ j, periodic j = true → 5 * H ≤ sides j := by
    intro j hj
    have := largest_le (sides j / 5) (by have := hs j hj; linarith) c (by
      intro l hl b hb
      obtain ⟨a, rfl⟩ := hmemc l hl b hb
      have := (hoks a j hj).2.2
      show (s a).h ≤ _
      linarith)
    rw [← hH] at this
    linarith
  -- the wrap
  have hsB : ∀ j, B.periodic j = true → 0 < B.sides j := by rw [hB]; exact hs
  have hdB : ∀ a j, B.periodic j = true → -(3 / 2) * B.sides j < (toBody (false, s a)).pos j ∧ (toBody (false, s a)).pos j ≤ 3 / 2 * B.sides j := by
    rw [hB]
    intro a j hj
    exact ⟨(hoks a j hj).1, (hoks a j hj).2.1⟩
  obtain ⟨s', hs'⟩ : ∃ s' : Fin n → Particle (i + 1), s' = fun a => { s a with pos := (teleport B (toBody (false, s a))).pos } := ⟨_, rfl⟩
  have himg : ∀ a, ∃ k, Lattice periodic k ∧ s' a = imageOf sides (s a) k := by
    intro a
    have h1 := (wrapped_teleport B (toBody (false, s a)) hsB (hdB a)).2.2.2
    have h2 : ∀ j, ∃ k : ℤ, (periodic j = false → k = 0) ∧ (teleport B (toBody (false, s a))).pos j = (s a).pos j + k * sides j := by
      intro j
      have h3 := h1 j
      rw [hB] at h3
      by_cases hj : periodic j = true
      · simp only [hj, if_true] at h3
        obtain ⟨k, hk⟩ := h3.2.2
        rw [hB]
        exact ⟨k, by rw [hj]; simp, hk⟩
      · simp only [hj] at h3
        rw [hB]
        exact ⟨0, fun _ => rfl, by rw [Int.cast_zero, zero_mul, add_zero]; simp at h3; exact h3⟩
    choose k hk1 hk2 using h2
    refine ⟨k, hk1, ?_⟩
    have h3 : s' a = { s a with pos := (teleport B (toBody (false, s a))).pos } := by rw [hs']
    have h4 : (teleport B (toBody (false, s a))).pos = fun j => (s a).pos j + k j * sides j := funext hk2
    rw [h3, h4]
    rfl
  have hin : ∀ a, InBox B (s' a).pos := by
    intro a
    rw [hs']
    exact inBox_teleport B _ hsB (hdB a)
  refine ⟨s', H, himg, hleH.1, hle, h5, by rw [← hB]; exact hin, ?_⟩
  rw [← hB]
  -- the lists
  have hw : ∀ l ∈ c, ∀ b ∈ l, b.wall = false := by
    intro l hl b hb
    obtain ⟨a, rfl⟩ := hmemc l hl b hb
    rfl
  obtain ⟨T, o', ho', -, -, hg⟩ := generate_eq i B c hw _ rfl _ rfl
  rw [hg] at ho
  split_ifs at ho with hcheck
  obtain rfl := Option.some.inj ho
  rw [ho', ← List.map_flatten]
  -- back from the view of bodies
  obtain ⟨F, hF⟩ : ∃ F : Bool × Int × Point (i + 1) × Particle (i + 1) → Bool × Particle (i + 1), F = fun q => (q.1, { q.2.2.2 with id := q.2.1.toNat, pos := q.2.2.1 }) := ⟨_, rfl⟩
  have hFv : ∀ b : Body (i + 1) (Particle (i + 1)), viewT (ofBody b) = F (viewB b) := by
    intro b
    rw [hF]
    unfold viewT ofBody viewB
    by_cases hb : b.wall = true
    · simp [hb]
    · simp [hb]
  have h6 : ∀ l : List (Body (i + 1) (Particle (i + 1))), (l.map ofBody).map viewT = (l.map viewB).map F := by
    intro l
    rw [List.map_map, List.map_map]
    exact List.map_congr_left fun b _ => hFv b
  rw [h6]
  refine ((outOf_view B _ 0 _).map F).trans ?_
  rw [← h6]
  have h7 : ((c.map fun l => l.map (teleport B)).flatten).Perm ((List.finRange n).map fun a => teleport B (toBody (false, s a))) := by
    rw [← List.map_flatten]
    have := hcf.map (teleport B)
    rw [List.ofFn_eq_map, List.map_map, List.map_map] at this
    exact this
  refine ((h7.flatMap_right _).map _ |>.map _).trans (List.Perm.of_eq ?_)
  rw [List.flatMap_map]
  unfold images
  rw [List.map_flatMap, List.map_flatMap, List.map_flatMap]
  congr 1
  funext a
  have hb : teleport B (toBody (false, s a)) = ⟨(s a).id, false, (s' a).pos, s a⟩ := by
    rw [hs']
    rfl
  have hsa : s' a = { s a with pos := (s' a).pos } := by rw [hs']
  rw [hb, copies_eq B _ (hin a), List.map_cons, List.map_cons, List.map_cons, List.map_cons, List.map_map, List.map_map, List.map_map]
  congr 1
  · unfold imageT
    simp only [imageOf_zero]
    unfold viewT ofBody
    simp
    exact hsa.symm
  · refine List.map_congr_left fun k hk => ?_
    have hk0 : k ≠ 0 := fun h => shiftsOf_ne B _ (h ▸ hk)
    simp only [Function.comp]
    unfold imageT viewT ofBody
    simp only [hk0, ne_eq, not_false_eq_true, decide_true, if_true]
    unfold imageOf
    rw [hsa, hB]

/-- From the list to the particles. -/
theorem extension_of_perm {sides : Fin (i + 1) → ℝ} {periodic : Fin (i + 1) → Bool} (hs : ∀ j, periodic j = true → 0 < sides j) {H : ℝ} (h5 : ∀ j, periodic j = true → 5 * H ≤ sides j)
    {s : Fin n → Particle (i + 1)} (hin : ∀ a, InBox ⟨sides, periodic, 5 / 2 * H⟩ (s a).pos) {N : Nat} {wall : Fin N → Bool} {t : Fin N → Particle (i + 1)}
    (h : ((List.ofFn fun e => (wall e, t e)).map viewT).Perm ((images ⟨sides, periodic, 5 / 2 * H⟩ s).map fun q => viewT (imageT sides s q))) :
    ∃ (base : Fin N → Fin n) (shift : Fin N → Fin (i + 1) → ℤ) (real : Fin n → Fin N), IsExt sides periodic (5 / 2 * H) (fun a => (s a).pos) base shift real ∧ (∀ a, t (real a) = s a) ∧
      (∀ e, wall e = false ↔ ∃ a, real a = e) ∧ real.Injective ∧ ∀ e, { t e with id := 0 } = { imageOf sides (s (base e)) (shift e) with id := 0 } := by
  obtain ⟨B, hB⟩ : ∃ B : Box (i + 1), B = ⟨sides, periodic, 5 / 2 * H⟩ := ⟨_, rfl⟩
  rw [← hB] at h hin
  have h1 : Relation.Comp (· = List.map (fun q => viewT (imageT sides s q)) ·) List.Perm ((List.ofFn fun e => (wall e, t e)).map viewT) (images B s) := by
    rw [List.eq_map_comp_perm]; exact h
  obtain ⟨X, hX, hperm⟩ := h1
  have hlen : X.length = N := by
    have := congrArg List.length hX
    simp at this
    exact this.symm
  have hnd : X.Nodup := hperm.nodup_iff.mpr (images_nodup B s)
  obtain ⟨φ, hφ⟩ : ∃ φ : Fin N → Fin n × (Fin (i + 1) → ℤ), φ = fun e => X[e.1]'(by rw [hlen]; exact e.2) := ⟨_, rfl⟩
  have hinj : φ.Injective := by
    intro e e' hee
    rw [hφ] at hee
    exact Fin.ext ((List.Nodup.getElem_inj_iff hnd).mp hee)
  have hval : ∀ e, viewT (wall e, t e) = viewT (imageT sides s (φ e)) := by
    intro e
    have h2 := List.getElem_of_eq hX (i := e.1) (by simp)
    simp only [List.getElem_map, List.getElem_ofFn] at h2
    rw [hφ]
    exact h2
  have hmem : ∀ e, φ e ∈ images B s := by
    intro e
    rw [← hperm.mem_iff, hφ]
    exact List.getElem_mem _
  have hsur : ∀ q ∈ images B s, ∃ e, φ e = q := by
    intro q hq
    rw [← hperm.mem_iff] at hq
    obtain ⟨m, hm, rfl⟩ := List.getElem_of_mem hq
    exact ⟨⟨m, by rw [← hlen]; exact hm⟩, by rw [hφ]⟩
  have hreal : ∀ a, ∃ e, φ e = (a, 0) := fun a => hsur _ ((mem_images B s a 0).mpr (Or.inl rfl))
  choose real hr using hreal
  have hwall : ∀ e, wall e = decide ((φ e).2 ≠ 0) := fun e => congrArg Prod.fst (hval e)
  refine ⟨fun e => (φ e).1, fun e => (φ e).2, real, ⟨?_, ?_, ?_, ?_, ?_⟩, ?_, ?_, ?_, ?_⟩
  · intro e
    have := hmem e
    rw [show φ e = ((φ e).1, (φ e).2) from rfl, mem_images] at this
    rcases this with h2 | h2
    · rw [h2]; exact Lattice.zero
    · have := shiftsOf_lattice B _ _ h2
      rw [hB] at this
      exact this
  · intro e e' h2 h3
    exact hinj (Prod.ext h2 h3)
  · intro a
    show (φ (real a)).1 = a
    rw [hr]
  · intro a
    show (φ (real a)).2 = 0
    rw [hr]
  · intro a b k hk hd
    by_cases h0 : k = 0
    · exact ⟨real b, by rw [hr], by rw [hr, h0]⟩
    · have h2 := shiftsOf_complete B (by rw [hB]; exact hs) (by rw [hB]; intro j hj; have := h5 j hj; simp only; linarith) (s a).pos (s b).pos (hin a) (hin b) k (by rw [hB]; exact hk) h0 (by rw [hB]; exact hd)
      obtain ⟨e, he⟩ := hsur (b, k) ((mem_images B s b k).mpr (Or.inr h2))
      exact ⟨e, by rw [he], by rw [he]⟩
  · intro a
    have h2 := hval (real a)
    rw [hr] at h2
    have h3 : wall (real a) = false := by rw [hwall, hr]; simp
    have h4 := congrArg Prod.snd h2
    unfold viewT imageT at h4
    simp only [h3, imageOf_zero] at h4
    simpa using h4
  · intro e
    rw [hwall]
    constructor
    · intro h2
      have h3 : (φ e).2 = 0 := by simpa using h2
      refine ⟨(φ e).1, hinj ?_⟩
      rw [hr]
      exact Prod.ext rfl h3.symm
    · rintro ⟨a, rfl⟩
      rw [hr]
      simp
  · intro a b hab
    have := congrArg φ hab
    rw [hr, hr] at this
    exact (Prod.mk.inj this).1
  · intro e
    have h2 := congrArg (fun x : Bool × Particle (i + 1) => ({ x.2 with id := 0 } : Particle (i + 1))) (hval e)
    have h3 : ∀ x : Typed (i + 1), ({ (viewT x).2 with id := 0 } : Particle (i + 1)) = { x.2 with id := 0 } := by
      intro x
      unfold viewT
      split_ifs <;> rfl
    simp only [h3] at h2
    exact h2

end FleCSPH.Torus
