import Mathlib.Data.Nat.Nth
import Mathlib.MeasureTheory.Measure.Lebesgue.Basic
import Verif.Model.RandomLattice
import Verif.Model.DensityProfiles
/-!
C100: the random distribution of particles. `RandomLattice.generate` is `generator_random_lattice` of include/lattice.h for any sequence of random numbers in the ranges of their distributions. Whatever they are, the number of
particles is the same; the particles are the accepted draws in their order; and the draws which are accepted in a region have the mass of the region as their measure.
-/
namespace FleCSPH.RandomLattice
noncomputable section
open FleCSPH.Lattice FleCSPH.DensityProfiles Classical MeasureTheory

/-- The ranges of `coord_gen` and `density_gen`: a cube of half-width `R` around the origin, and densities up to the central one. -/
def InRange (prof : ℝ → ℝ) (R : ℝ) (d : Draw) : Prop := |d.x| ≤ R ∧ |d.y| ≤ R ∧ |d.z| ≤ R ∧ 0 ≤ d.random ∧ d.random ≤ prof 0

variable {prof : ℝ → ℝ} {lattice domain : Int} {c : Bool} {lo hi : Pos} {draws : ℕ → Draw}

/-- A draw which becomes a particle. -/
private abbrev acc (prof : ℝ → ℝ) (domain : Int) (lo hi : Pos) (draws : ℕ → Draw) (i : ℕ) : Prop := accepted prof domain lo hi (draws i)

private theorem count_skip {p : ℕ → Prop} {k j : ℕ} (hkj : k ≤ j) (h : ∀ i, k ≤ i → i < j → ¬ p i) : Nat.count p j = Nat.count p k := by
  induction j, hkj using Nat.le_induction with
  | base => rfl
  | succ j hj ih => rw [Nat.count_succ, if_neg (h j hj (by omega)), ih fun i h1 h2 => h i h1 (by omega)]; rfl

private theorem attempt_some {fuel k k' : ℕ} {st st' : Lattice.State} (h : attempt prof domain c lo hi draws fuel k st = some (k', st')) :
    ∃ j, k ≤ j ∧ k' = j + 1 ∧ acc prof domain lo hi draws j ∧ (∀ i, k ≤ i → i < j → ¬ acc prof domain lo hi draws i) ∧ st'.posid = st.posid + 1 ∧
      st'.pos = if c then st.pos else Function.update st.pos st.posid (draws j).pos := by
  induction fuel generalizing k with
  | zero => cases h
  | succ fuel ih =>
    rw [attempt] at h
    by_cases ha : accepted prof domain lo hi (draws k)
    · rw [if_pos ha] at h
      cases h
      exact ⟨k, le_rfl, rfl, ha, fun i h1 h2 => by omega, rfl, rfl⟩
    · rw [if_neg ha] at h
      obtain ⟨j, h1, h2, h3, h4, h5⟩ := ih h
      exact ⟨j, by omega, h2, h3, fun i a1 a2 => if hi : i = k then by rw [hi]; exact ha else h4 i (by omega) a2, h5⟩

private theorem rounds_some {fuel : ℕ} (n k : ℕ) (st s : Lattice.State) (h : rounds prof domain c lo hi draws fuel n k st = some s) :
    s.posid = st.posid + n ∧ (∃ M, Nat.count (acc prof domain lo hi draws) M = Nat.count (acc prof domain lo hi draws) k + n) ∧
      ∀ i, s.pos i = if c = false ∧ st.posid ≤ i ∧ i < st.posid + n then (draws (Nat.nth (acc prof domain lo hi draws) (Nat.count (acc prof domain lo hi draws) k + (i - st.posid)))).pos else st.pos i := by
  induction n generalizing k st with
  | zero =>
    cases h
    exact ⟨rfl, ⟨k, rfl⟩, fun i => by rw [if_neg (by omega)]⟩
  | succ n ih =>
    rw [rounds] at h
    obtain ⟨⟨k', st'⟩, ha, hr⟩ := Option.bind_eq_some_iff.1 h
    obtain ⟨j, h1, rfl, h3, h4, h5, h6⟩ := attempt_some ha
    obtain ⟨a1, ⟨M, a2⟩, a3⟩ := ih (j + 1) st' hr
    have e := count_skip h1 h4
    have e' : Nat.count (acc prof domain lo hi draws) (j + 1) = Nat.count (acc prof domain lo hi draws) k + 1 := by rw [Nat.count_succ, if_pos h3, e]
    refine ⟨by rw [a1, h5]; omega, ⟨M, by rw [a2, e']; omega⟩, fun i => ?_⟩
    rw [a3 i, e', h5, h6]
    by_cases hc : c = false
    · subst hc
      simp only [Bool.false_eq_true, if_false, true_and]
      rcases lt_trichotomy i st.posid with hx | hx | hx
      · rw [if_neg (by omega), if_neg (by omega), Function.update_of_ne (by omega)]
      · rw [if_neg (by omega), if_pos (by omega), hx, Function.update_self, Nat.sub_self, Nat.add_zero, ← e, Nat.nth_count h3]
      · by_cases hx2 : i < st.posid + (n + 1)
        · rw [if_pos (by omega), if_pos (by omega), show Nat.count (acc prof domain lo hi draws) k + 1 + (i - (st.posid + 1)) = Nat.count (acc prof domain lo hi draws) k + (i - st.posid) by omega]
        · rw [if_neg (by omega), if_neg (by omega), Function.update_of_ne (by omega)]
    · have hc' : c = true := by simpa using hc
      subst hc'
      simp

private theorem attempt_ends {j : ℕ} (hj : acc prof domain lo hi draws j) (fuel k : ℕ) (st : Lattice.State) (hk : k ≤ j) (hf : j - k < fuel) :
    ∃ k' st', attempt prof domain c lo hi draws fuel k st = some (k', st') := by
  induction fuel generalizing k with
  | zero => omega
  | succ fuel ih =>
    rw [attempt]
    by_cases ha : accepted prof domain lo hi (draws k)
    · rw [if_pos ha]; exact ⟨_, _, rfl⟩
    · rw [if_neg ha]
      have : k ≠ j := fun e => ha (e ▸ hj)
      exact ih (k + 1) (by omega) (by omega)

private theorem rounds_ends {fuel M : ℕ} (hf : M < fuel) (n k : ℕ) (st : Lattice.State) (h : Nat.count (acc prof domain lo hi draws) k + n ≤ Nat.count (acc prof domain lo hi draws) M) :
    ∃ s, rounds prof domain c lo hi draws fuel n k st = some s := by
  induction n generalizing k st with
  | zero => exact ⟨st, rfl⟩
  | succ n ih =>
    have hlt : Nat.count (acc prof domain lo hi draws) k < Nat.count (acc prof domain lo hi draws) M := by omega
    have hkM : k < M := lt_of_not_ge fun hle => absurd (Nat.count_monotone (acc prof domain lo hi draws) hle) (by omega)
    obtain ⟨j, hj1, hj2, hj3⟩ : ∃ j, k ≤ j ∧ j < M ∧ acc prof domain lo hi draws j := by
      by_contra hne
      push Not at hne
      have := count_skip hkM.le fun i h1 h2 => hne i h1 h2
      omega
    obtain ⟨k', st', ha⟩ := attempt_ends (c := c) hj3 fuel k st hj1 (by omega)
    obtain ⟨j', h1, rfl, h3, h4, -, -⟩ := attempt_some ha
    rw [rounds, ha]
    refine ih (j' + 1) st' ?_
    rw [Nat.count_succ, if_pos h3, count_skip h1 h4]
    omega

/-- What is generated: as many particles as the number for the separation, whatever is drawn; the particles are the accepted draws in their order, each with a density below the profile at its radius and a position in the domain
and in the cube around the origin; other entries of the arrays are not touched. -/
theorem C100_points_partial (sep : ℝ) (fuel : ℕ) (st s : Lattice.State) (hr : ∀ i, InRange prof (radius lo hi) (draws i)) (h : generate fuel prof lattice domain false lo hi sep draws st = some s) :
    s.posid = st.posid + (npart lo hi sep).toNat ∧ (∀ i, ¬(st.posid ≤ i ∧ i < s.posid) → s.pos i = st.pos i) ∧
    ∀ k < (npart lo hi sep).toNat, ∃ i, i = Nat.nth (fun i => accepted prof domain lo hi (draws i)) k ∧ s.pos (st.posid + k) = ⟨(draws i).x, (draws i).y, (draws i).z⟩ ∧
      (draws i).random ≤ prof (√((draws i).x ^ 2 + (draws i).y ^ 2 + (draws i).z ^ 2) / radius lo hi) ∧ inDomain3 domain lo hi (s.pos (st.posid + k)) ∧
      |(s.pos (st.posid + k)).x| ≤ radius lo hi ∧ |(s.pos (st.posid + k)).y| ≤ radius lo hi ∧ |(s.pos (st.posid + k)).z| ≤ radius lo hi := by
  unfold generate at h
  split_ifs at h with hl
  obtain ⟨h1, ⟨M, hM⟩, h3⟩ := rounds_some _ _ _ _ h
  refine ⟨h1, fun i hi => ?_, fun k hk => ?_⟩
  · rw [h3 i, if_neg (by omega)]
  · rw [Nat.count_zero, Nat.zero_add] at hM
    have hacc : accepted prof domain lo hi (draws (Nat.nth (acc prof domain lo hi draws) k)) := by
      refine Nat.nth_mem (p := acc prof domain lo hi draws) k fun hfin => ?_
      have h4 : Nat.count (acc prof domain lo hi draws) M ≤ hfin.toFinset.card := by
        rw [Nat.count_eq_card_filter_range]
        exact Finset.card_le_card fun i hi => by simpa using (Finset.mem_filter.1 hi).2
      omega
    have hp : s.pos (st.posid + k) = (draws (Nat.nth (acc prof domain lo hi draws) k)).pos := by
      rw [h3, if_pos ⟨rfl, by omega, by omega⟩, Nat.count_zero, Nat.zero_add, Nat.add_sub_cancel_left]
    obtain ⟨r1, r2, r3, -, -⟩ := hr (Nat.nth (acc prof domain lo hi draws) k)
    refine ⟨_, rfl, hp, ?_, by rw [hp]; exact hacc.2, by rw [hp]; exact r1, by rw [hp]; exact r2, by rw [hp]; exact r3⟩
    have := hacc.1
    simp only [pow_two]
    exact this

/-- Counting and generating give the same number although they draw different numbers, and it is the whole part of the cube of the number of separations in the diameter, plus one. -/
theorem C100_number_partial (sep : ℝ) (hsep : 0 < sep) (hbox : lo.x ≤ hi.x) (fuel fuel' : ℕ) (st st' s s' : Lattice.State) (draws' : ℕ → Draw)
    (h : generate fuel prof lattice domain true lo hi sep draws st = some s) (h' : generate fuel' prof lattice domain false lo hi sep draws' st' = some s') :
    s.posid - st.posid = s'.posid - st'.posid ∧ s.pos = st.pos ∧ ((s.posid - st.posid : ℕ) : ℝ) ≤ ((hi.x - lo.x) / sep + 1) ^ 3 ∧ ((hi.x - lo.x) / sep + 1) ^ 3 < ((s.posid - st.posid : ℕ) : ℝ) + 1 := by
  unfold generate at h h'
  split_ifs at h with hl
  rw [if_pos hl] at h'
  obtain ⟨h1, -, h3⟩ := rounds_some _ _ _ _ h
  obtain ⟨h1', -, -⟩ := rounds_some _ _ _ _ h'
  have hq : 0 ≤ ((hi.x - lo.x) / sep + 1) ^ 3 := by
    have : 0 ≤ (hi.x - lo.x) / sep := div_nonneg (by linarith) hsep.le
    positivity
  have hn : npart lo hi sep = ⌊((hi.x - lo.x) / sep + 1) ^ 3⌋ := by
    unfold npart radius IdGen.truncate
    dsimp only
    rw [show 2 * ((hi.x - lo.x) / 2) / sep = (hi.x - lo.x) / sep by ring]
    rw [show ((hi.x - lo.x) / sep + 1) * ((hi.x - lo.x) / sep + 1) * ((hi.x - lo.x) / sep + 1) = ((hi.x - lo.x) / sep + 1) ^ 3 by ring, if_pos hq]
  have hn' : (((npart lo hi sep).toNat : ℕ) : ℝ) = ((⌊((hi.x - lo.x) / sep + 1) ^ 3⌋ : ℤ) : ℝ) := by
    rw [hn]
    have := Int.toNat_of_nonneg (Int.floor_nonneg.2 hq)
    exact_mod_cast this
  refine ⟨by omega, funext fun i => by rw [h3 i, if_neg (by simp)], ?_, ?_⟩
  · rw [h1, Nat.add_sub_cancel_left, hn']; exact Int.floor_le _
  · rw [h1, Nat.add_sub_cancel_left, hn']; exact Int.lt_floor_add_one _

/-- The generator ends if and only if enough draws are accepted. -/
theorem C100_ends (sep : ℝ) (hl : lattice = 4) (st : Lattice.State) :
    (∃ fuel s, generate fuel prof lattice domain c lo hi sep draws st = some s) ↔ ∃ M, (npart lo hi sep).toNat ≤ Nat.count (fun i => accepted prof domain lo hi (draws i)) M := by
  constructor
  · rintro ⟨fuel, s, h⟩
    rw [generate, if_pos hl] at h
    obtain ⟨-, ⟨M, hM⟩, -⟩ := rounds_some _ _ _ _ h
    exact ⟨M, by rw [Nat.count_zero] at hM; exact (by omega : (npart lo hi sep).toNat ≤ Nat.count (acc prof domain lo hi draws) M)⟩
  · rintro ⟨M, hM⟩
    obtain ⟨s, hs⟩ := rounds_ends (prof := prof) (domain := domain) (c := c) (lo := lo) (hi := hi) (draws := draws) (Nat.lt_succ_self M) (npart lo hi sep).toNat 0 st (by rw [Nat.count_zero, Nat.zero_add]; exact hM)
    exact ⟨M + 1, s, by rw [generate, if_pos hl]; exact hs⟩

/-- The four numbers of one attempt. -/
def toDraw (q : (ℝ × ℝ × ℝ) × ℝ) : Draw := ⟨q.1.1, q.1.2.1, q.1.2.2, q.2⟩

/-- The positions which are possible: in the cube around the origin and in the domain. -/
def possible (domain : Int) (lo hi : Pos) : Set (ℝ × ℝ × ℝ) := {p | |p.1| ≤ radius lo hi ∧ |p.2.1| ≤ radius lo hi ∧ |p.2.2| ≤ radius lo hi ∧ inDomain3 domain lo hi ⟨p.1, p.2.1, p.2.2⟩}

private theorem possible_measurable (domain : Int) (lo hi : Pos) : MeasurableSet (possible domain lo hi) := by
  have hb : ∀ f : ℝ × ℝ × ℝ → ℝ, Measurable f → ∀ a : ℝ, MeasurableSet {p | |f p| ≤ a} := fun f hf a => measurableSet_le (continuous_abs.measurable.comp hf) measurable_const
  have hl : ∀ f g : ℝ × ℝ × ℝ → ℝ, Measurable f → Measurable g → MeasurableSet {p | f p < g p} := fun f g hf hg => measurableSet_lt hf hg
  have e1 : Measurable fun p : ℝ × ℝ × ℝ => p.1 := measurable_fst
  have e2 : Measurable fun p : ℝ × ℝ × ℝ => p.2.1 := measurable_fst.comp measurable_snd
  have e3 : Measurable fun p : ℝ × ℝ × ℝ => p.2.2 := measurable_snd.comp measurable_snd
  refine (hb _ e1 _).inter ((hb _ e2 _).inter ((hb _ e3 _).inter ?_))
  refine MeasurableSet.inter (s₁ := {p : ℝ × ℝ × ℝ | p.1 > lo.x - bTol * (hi.x - lo.x) ∧ p.1 < hi.x - bTol * (hi.x - lo.x) ∧ p.2.1 > lo.y - bTol * (hi.x - lo.x) ∧ p.2.1 < hi.y - bTol * (hi.x - lo.x) ∧
    p.2.2 > lo.z - bTol * (hi.x - lo.x) ∧ p.2.2 < hi.z - bTol * (hi.x - lo.x)}) ?_ ?_
  · exact (hl _ _ measurable_const e1).inter ((hl _ _ e1 measurable_const).inter ((hl _ _ measurable_const e2).inter ((hl _ _ e2 measurable_const).inter ((hl _ _ measurable_const e3).inter (hl _ _ e3 measurable_const)))))
  · by_cases hd : domain = 1
    · simp only [hd, true_imp_iff]
      refine hl _ _ ?_ measurable_const
      fun_prop
    · simp only [hd, false_imp_iff]
      exact MeasurableSet.univ

/-- The attempts which give a particle in a region have the mass of the region as their measure: so the particles are distributed as the profile, in the part of the domain inside of the cube around the origin. The profile must not
exceed its value at the centre. -/
theorem C100_share_partial (hm : Measurable prof) (hle : ∀ r, 0 ≤ r → prof r ≤ prof 0) (hR : 0 < radius lo hi) (A : Set (ℝ × ℝ × ℝ)) (hA : MeasurableSet A) :
    volume {q : (ℝ × ℝ × ℝ) × ℝ | q.1 ∈ A ∧ InRange prof (radius lo hi) (toDraw q) ∧ accepted prof domain lo hi (toDraw q)} =
      ∫⁻ p in A ∩ possible domain lo hi, ENNReal.ofReal (prof (√(p.1 ^ 2 + p.2.1 ^ 2 + p.2.2 ^ 2) / radius lo hi)) := by
  have hS : MeasurableSet (A ∩ possible domain lo hi) := hA.inter (possible_measurable domain lo hi)
  have hg : Measurable fun p : ℝ × ℝ × ℝ => prof (√(p.1 ^ 2 + p.2.1 ^ 2 + p.2.2 ^ 2) / radius lo hi) := by
    refine hm.comp ?_
    fun_prop
  have hset : {q : (ℝ × ℝ × ℝ) × ℝ | q.1 ∈ A ∧ InRange prof (radius lo hi) (toDraw q) ∧ accepted prof domain lo hi (toDraw q)} =
      {q | q.1 ∈ A ∩ possible domain lo hi ∧ 0 ≤ q.2 ∧ q.2 ≤ prof (√(q.1.1 ^ 2 + q.1.2.1 ^ 2 + q.1.2.2 ^ 2) / radius lo hi)} := by
    ext q
    have h0 := hle (√(q.1.1 ^ 2 + q.1.2.1 ^ 2 + q.1.2.2 ^ 2) / radius lo hi) (by positivity)
    have e : (accepted prof domain lo hi (toDraw q)) ↔ q.2 ≤ prof (√(q.1.1 ^ 2 + q.1.2.1 ^ 2 + q.1.2.2 ^ 2) / radius lo hi) ∧ inDomain3 domain lo hi ⟨q.1.1, q.1.2.1, q.1.2.2⟩ := by
      simp only [pow_two]
      exact Iff.rfl
    simp only [Set.mem_ofPred_eq, e, Set.mem_inter_iff, possible]
    constructor
    · rintro ⟨a1, ⟨a2, a3, a4, a5, -⟩, a6, a7⟩
      exact ⟨⟨a1, a2, a3, a4, a7⟩, a5, a6⟩
    · rintro ⟨⟨a1, a2, a3, a4, a7⟩, a5, a6⟩
      exact ⟨a1, ⟨a2, a3, a4, a5, a6.trans h0⟩, a6, a7⟩
  have hmeas : MeasurableSet {q : (ℝ × ℝ × ℝ) × ℝ | q.1 ∈ A ∩ possible domain lo hi ∧ 0 ≤ q.2 ∧ q.2 ≤ prof (√(q.1.1 ^ 2 + q.1.2.1 ^ 2 + q.1.2.2 ^ 2) / radius lo hi)} :=
    (measurable_fst hS).inter ((measurableSet_le measurable_const measurable_snd).inter (measurableSet_le measurable_snd (hg.comp measurable_fst)))
  rw [hset, Measure.volume_eq_prod, Measure.prod_apply hmeas, ← lintegral_indicator hS]
  refine lintegral_congr fun p => ?_
  by_cases hp : p ∈ A ∩ possible domain lo hi
  · rw [Set.indicator_of_mem hp]
    have : (Prod.mk p ⁻¹' {q : (ℝ × ℝ × ℝ) × ℝ | q.1 ∈ A ∩ possible domain lo hi ∧ 0 ≤ q.2 ∧ q.2 ≤ prof (√(q.1.1 ^ 2 + q.1.2.1 ^ 2 + q.1.2.2 ^ 2) / radius lo hi)}) =
        Set.Icc 0 (prof (√(p.1 ^ 2 + p.2.1 ^ 2 + p.2.2 ^ 2) / radius lo hi)) := by
      ext u
      simp only [Set.mem_preimage, Set.mem_ofPred_eq, Set.mem_Icc]
      exact ⟨fun h => h.2, fun h => ⟨hp, h⟩⟩
    rw [this, Real.volume_Icc, sub_zero]
  · rw [Set.indicator_of_notMem hp]
    have : (Prod.mk p ⁻¹' {q : (ℝ × ℝ × ℝ) × ℝ | q.1 ∈ A ∩ possible domain lo hi ∧ 0 ≤ q.2 ∧ q.2 ≤ prof (√(q.1.1 ^ 2 + q.1.2.1 ^ 2 + q.1.2.2 ^ 2) / radius lo hi)}) = ∅ := by
      ext u
      simp only [Set.mem_preimage, Set.mem_ofPred_eq, Set.mem_empty_iff_false, iff_false]
      exact fun h => hp h.1
    rw [this, measure_empty]

/-- The draws are around the origin and not around the box: for a box to the right of the cube around the origin the generator never ends, whatever is drawn. -/
theorem C100_offset_violated (sep : ℝ) (hsep : 0 < sep) (hbox : lo.x < hi.x) (hoff : radius lo hi ≤ lo.x - bTol * (hi.x - lo.x)) (hr : ∀ i, InRange prof (radius lo hi) (draws i)) (fuel : ℕ) (st : Lattice.State) :
    generate fuel prof lattice domain c lo hi sep draws st = none := by
  by_contra hne
  obtain ⟨s, hs⟩ := Option.ne_none_iff_exists'.1 hne
  by_cases hl : lattice = 4
  · obtain ⟨M, hM⟩ := (C100_ends sep hl st).1 ⟨fuel, s, hs⟩
    have hn : 1 ≤ npart lo hi sep := by
      have h1 : 1 ≤ 2 * radius lo hi / sep + 1 := by
        have : 0 ≤ 2 * radius lo hi / sep := by
          unfold radius
          have : 0 < hi.x - lo.x := by linarith
          positivity
        linarith
      have h2 : 1 ≤ (2 * radius lo hi / sep + 1) * (2 * radius lo hi / sep + 1) * (2 * radius lo hi / sep + 1) := one_le_mul_of_one_le_of_one_le (one_le_mul_of_one_le_of_one_le h1 h1) h1
      unfold npart IdGen.truncate
      dsimp only
      rw [if_pos (by linarith), Int.le_floor]
      exact_mod_cast h2
    have h0 : Nat.count (fun i => accepted prof domain lo hi (draws i)) M = 0 := by
      rw [Nat.count_eq_card_filter_range, Finset.card_eq_zero, Finset.filter_eq_empty_iff]
      intro i _ ha
      have h1 : (draws i).x > lo.x - bTol * (hi.x - lo.x) := ha.2.1.1
      have h2 := (abs_le.1 (hr i).1).2
      linarith
    omega
  · rw [generate, if_neg hl] at hs
    cases hs

/-- The extents in the other directions are not looked at: in a box of twice the length in `y` the quarters at its ends stay empty, whatever is drawn. -/
theorem C100_tall_violated (sep : ℝ) (fuel : ℕ) (st s : Lattice.State) (hr : ∀ i, InRange prof (radius ⟨-1, -2, -1⟩ ⟨1, 2, 1⟩) (draws i))
    (h : generate fuel prof lattice 0 false ⟨-1, -2, -1⟩ ⟨1, 2, 1⟩ sep draws st = some s) :
    (∀ k, st.posid ≤ k → k < s.posid → |(s.pos k).y| ≤ 1) ∧ ∀ y : ℝ, 1 < y → y < 199 / 100 → inDomain3 0 ⟨-1, -2, -1⟩ ⟨1, 2, 1⟩ ⟨0, y, 0⟩ := by
  have hR : radius ⟨-1, -2, -1⟩ ⟨1, 2, 1⟩ = 1 := by norm_num [radius]
  refine ⟨fun k h1 h2 => ?_, fun y h1 h2 => ?_⟩
  · obtain ⟨a1, -, a3⟩ := C100_points_partial sep fuel st s hr h
    obtain ⟨i, -, -, -, -, -, hy, -⟩ := a3 (k - st.posid) (by omega)
    rw [show st.posid + (k - st.posid) = k by omega, hR] at hy
    exact hy
  · simp only [inDomain3, bTol]
    refine ⟨⟨by norm_num, by norm_num, by linarith, by linarith, by norm_num, by norm_num⟩, fun h => absurd h (by decide)⟩

/-- The profiles of the code which decrease outwards meet the hypothesis of `C100_share_partial`: the constant and the parabolic one. -/
theorem C100_profiles : (Measurable (rhoConstant 2) ∧ ∀ r, 0 ≤ r → rhoConstant 2 r ≤ rhoConstant 2 0) ∧ Measurable (rhoParabolic 2) ∧ ∀ r, 0 ≤ r → rhoParabolic 2 r ≤ rhoParabolic 2 0 := by
  refine ⟨⟨measurable_const, fun r _ => le_rfl⟩, ?_, fun r _ => ?_⟩
  · unfold rhoParabolic
    simp only [Fin.isValue, show ¬ (2 : Fin 3) = 0 by decide, show ¬ (2 : Fin 3) = 1 by decide, if_false]
    fun_prop
  · unfold rhoParabolic
    simp only [Fin.isValue, show ¬ (2 : Fin 3) = 0 by decide, show ¬ (2 : Fin 3) = 1 by decide, if_false]
    have : 0 ≤ 15 / (8 * Real.pi) := by positivity
    nlinarith [mul_self_nonneg r]

-- a sequence of draws in range for which the generator ends: always the centre
example : ∃ draws : ℕ → Draw, (∀ i, InRange (rhoConstant 2) (radius ⟨-1, -1, -1⟩ ⟨1, 1, 1⟩) (draws i)) ∧
    ∃ fuel s, generate fuel (rhoConstant 2) 4 1 false ⟨-1, -1, -1⟩ ⟨1, 1, 1⟩ (1 / 10) draws ⟨0, fun _ => ⟨0, 0, 0⟩⟩ = some s := by
  have hpos : 0 ≤ rhoConstant 2 0 := by
    unfold rhoConstant
    split_ifs <;> positivity
  refine ⟨fun _ => ⟨0, 0, 0, 0⟩, fun i => ?_, ?_⟩
  · refine ⟨?_, ?_, ?_, le_rfl, hpos⟩ <;> norm_num [radius]
  · refine (C100_ends _ rfl _).2 ⟨(npart ⟨-1, -1, -1⟩ ⟨1, 1, 1⟩ (1 / 10)).toNat, ?_⟩
    have ha : ∀ i : ℕ, accepted (rhoConstant 2) 1 ⟨-1, -1, -1⟩ ⟨1, 1, 1⟩ ((fun _ : ℕ => (⟨0, 0, 0, 0⟩ : Draw)) i) := by
      intro i
      refine ⟨?_, ⟨by norm_num [Draw.pos, bTol], fun _ => by norm_num [Draw.pos, bTol]⟩⟩
      show (0 : ℝ) ≤ rhoConstant 2 _
      unfold rhoConstant
      split_ifs <;> positivity
    rw [Nat.count_eq_card_filter_range, Finset.filter_true_of_mem fun i _ => ha i, Finset.card_range]

-- a box to the right
example : radius ⟨2, 2, 2⟩ ⟨3, 3, 3⟩ ≤ (2 : ℝ) - bTol * (3 - 2) := by norm_num [radius, bTol]

end
end FleCSPH.RandomLattice
