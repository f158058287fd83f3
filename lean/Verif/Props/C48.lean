import Verif.Lemmas.Icosahedral
/-!
C48: the closed form for the number of particles in `k` icosahedral shells equals the sum of the shell counts and the number of points the generator places. The full claim is for
every `k` and every domain. It fails from `k = 600` on, where the `int` arithmetic overflows; below, the closed forms are right, the generator never places more, places exactly as many
when its shells fit into the domain, and what it places lies on the shells.
-/
namespace FleCSPH
open Lattice
open Classical

/-- The closed forms count the points of the shells, as long as they do not overflow. -/
theorem C48_closed_forms_partial (k : Nat) (hk : k ≤ 599) :
    npartSphere k = some ((sphereSize k : ℕ) : Int) ∧ ∀ i ≤ k, npartShell i = some ((shellSize i : ℕ) : Int) :=
  ⟨npartSphere_eq k hk, fun i hi => npartShell_eq i (by omega)⟩

/-- The closed form for one shell is right as long as it does not overflow. -/
theorem C48_shell_partial (k : Nat) (hk : k ≤ 14654) : npartShell k = some ((shellSize k : ℕ) : Int) := npartShell_eq k hk

/-- From 600 shells on, the count overflows `int`; so does the count of one shell from 14655 on. -/
theorem C48_closed_forms_violated : (∀ k : Int, 600 ≤ k → npartSphere k = none) ∧ ∀ k : Int, 14655 ≤ k → npartShell k = none :=
  ⟨npartSphere_none, npartShell_none⟩

namespace Lattice

theorem gen_eq (rho mass : ℝ → ℝ) (stop : ℝ → ℝ → Prop) (domain : Int) (lo hi : Pos) (sep : ℝ) (K : Nat) (hK : kRad ((hi.x - lo.x) / 2) sep = some (K : Int)) (h : K ≤ 599)
    (c : Bool) (st : State) : generateIco rho mass stop c domain lo hi sep st =
      some ((allItems rho mass stop (inDomain3 domain lo hi) (centre lo hi) ((hi.x - lo.x) / 2) (1 / (sphereSize K : ℝ)) 0 (K + 1)).foldl
        (fun st q => visit c (fun _ => q.1) q.2 st) st) := by
  unfold generateIco
  simp only [hK, npartSphere_eq K h]
  rw [show ((K : Int) + 1).toNat = K + 1 by omega, List.range_eq_range', Int.cast_natCast]
  exact shells_eq rho mass stop c _ _ _ _ 0 (K + 1) (by omega) st

theorem places_of (gen : Bool → State → Option State) (l : List (Prop × Pos)) (hgen : ∀ c st, gen c st = some (l.foldl (fun st q => visit c (fun _ => q.1) q.2 st) st))
    (inside : Pos → Prop) (hin : ∀ q ∈ l, q.1 → inside q.2) : Places gen (l.filter (fun q => decide q.1)).length inside := by
  intro st
  refine ⟨⟨_, hgen true st, (visits2 true l st).1, ?_⟩, _, hgen false st, (visits2 false l st).1, ?_, ?_⟩
  · funext k
    rw [(visits2 true l st).2]; simp
  · intro k hk
    rw [(visits2 false l st).2]
    simp only [Bool.false_eq_true, if_false]
    rcases hk with hk | hk
    · rw [if_pos hk]
    · rw [if_neg (by omega), List.getElem?_eq_none (by omega)]; rfl
  · intro k hk
    rw [(visits2 false l st).2]
    simp only [Bool.false_eq_true, if_false]
    rw [if_neg (by omega), Nat.add_sub_cancel_left, List.getElem?_eq_getElem hk, Option.map_some, Option.getD_some]
    have hm := List.getElem_mem hk
    rw [List.mem_filter] at hm
    exact hin _ hm.1 (by simpa using hm.2)

theorem sphereSize_pos (k : Nat) : 0 < sphereSize k := by have := sphereSize_eq k; omega

end Lattice

/-- Up to 599 shells the generator, for every box, domain and profile, places at most as many particles as the closed form says; both passes agree. Every particle is the centre of the
box or passes the test of the domain. -/
theorem C48_generator_partial (rho mass : ℝ → ℝ) (stop : ℝ → ℝ → Prop) (domain : Int) (lo hi : Pos) (sep : ℝ) (K : Nat) (hK : kRad ((hi.x - lo.x) / 2) sep = some (K : Int))
    (h : K ≤ 599) : ∃ n ≤ sphereSize K, Places (fun c => generateIco rho mass stop c domain lo hi sep) n (fun p => p = centre lo hi ∨ inDomain3 domain lo hi p) := by
  refine ⟨_, ?_, places_of _ _ (fun c st => gen_eq rho mass stop domain lo hi sep K hK h c st) _ ?_⟩
  · exact (List.length_filter_le _ _).trans (allItems_length rho mass stop (inDomain3 domain lo hi) (centre lo hi) ((hi.x - lo.x) / 2) (1 / (sphereSize K : ℝ)) K).le
  · intro q hq hq1
    obtain ⟨NN, -, hq⟩ := List.mem_flatMap.1 hq
    unfold shellItems at hq
    rw [List.mem_append, List.mem_append] at hq
    rcases hq with hq | hq | hq
    · split_ifs at hq with hN
      · obtain ⟨i, -, rfl⟩ := List.mem_map.1 hq
        exact Or.inr hq1
      · rw [List.mem_singleton] at hq
        exact Or.inl (by rw [hq])
    · obtain ⟨e, -, hq⟩ := List.mem_flatMap.1 hq
      obtain ⟨k, -, rfl⟩ := List.mem_map.1 hq
      exact Or.inr hq1
    · obtain ⟨f, -, hq⟩ := List.mem_flatMap.1 hq
      obtain ⟨m, -, hq⟩ := List.mem_flatMap.1 hq
      obtain ⟨n, -, rfl⟩ := List.mem_map.1 hq
      exact Or.inr hq1

/-- When the density in the centre is not too small, all particles lie on the shells, which are strictly inside of the sphere around the centre whose diameter is the width of the
box. -/
theorem C48_on_shells (rho mass : ℝ → ℝ) (stop : ℝ → ℝ → Prop) (domain : Int) (lo hi : Pos) (sep : ℝ) (K : Nat) (hK : kRad ((hi.x - lo.x) / 2) sep = some (K : Int))
    (h : K ≤ 599) (hx : lo.x < hi.x) (hrho : 0 < rho 0) (hm : 1728 / 1000 * (3 / (sphereSize K : ℝ)) < 4 * Real.pi * rho 0) :
    ∃ radius : Nat → ℝ, (∀ NN, 1 ≤ NN → 0 < radius NN ∧ radius NN < (hi.x - lo.x) / 2) ∧
      ∃ n, Places (fun c => generateIco rho mass stop c domain lo hi sep) n (fun p => p = centre lo hi ∨ ∃ NN, 1 ≤ NN ∧ NN ≤ K ∧ dist2 p (centre lo hi) = radius NN ^ 2) := by
  have hR : 0 < (hi.x - lo.x) / 2 := by linarith
  have hS : (0 : ℝ) < sphereSize K := by exact_mod_cast sphereSize_pos K
  have hm0 : 0 < 1 / (sphereSize K : ℝ) := by positivity
  have hf := first_bounds rho _ _ hR hm0 hrho
  have hb := radiiAt_bounds rho mass stop _ _ hR hf.1
  have hlt := hf.2 (by rw [show 3 * (1 / (sphereSize K : ℝ)) = 3 / (sphereSize K : ℝ) by ring]; exact hm)
  refine ⟨fun NN => (radiiAt rho mass stop ((hi.x - lo.x) / 2) (1 / (sphereSize K : ℝ)) NN).rk, fun NN hN => ⟨(hb NN).1.2 (by omega), ((hb NN).2 hlt).2⟩, _,
    places_of _ _ (fun c st => gen_eq rho mass stop domain lo hi sep K hK h c st) _ ?_⟩
  intro q hq _
  obtain ⟨NN, hN, hq⟩ := List.mem_flatMap.1 hq
  rw [List.mem_range'_1] at hN
  by_cases h0 : NN = 0
  · subst h0
    rw [shellItems_zero, List.mem_singleton] at hq
    exact Or.inl (by rw [hq])
  · exact Or.inr ⟨NN, by omega, by omega, (shellItems_mem _ _ _ NN h0 ((hb NN).1.2 h0).ne' q hq).2⟩

/-- When the other sides of the box are not shorter and the shells stay clear of the surface, the generator places exactly as many particles as the closed form says. -/
theorem C48_all_placed_partial (rho mass : ℝ → ℝ) (stop : ℝ → ℝ → Prop) (domain : Int) (lo hi : Pos) (sep : ℝ) (K : Nat) (hK : kRad ((hi.x - lo.x) / 2) sep = some (K : Int))
    (h : K ≤ 599) (hx : lo.x < hi.x) (hy : hi.x - lo.x ≤ hi.y - lo.y) (hz : hi.x - lo.x ≤ hi.z - lo.z) (hrho : 0 < rho 0)
    (hr : ∀ NN, 1 ≤ NN → NN ≤ K →
      (radiiAt rho mass stop ((hi.x - lo.x) / 2) (1 / (sphereSize K : ℝ)) NN).rk ≤ (1 - 1 / 100000) * ((hi.x - lo.x) / 2)) :
    npartSphere K = some ((sphereSize K : ℕ) : Int) ∧ Places (fun c => generateIco rho mass stop c domain lo hi sep) (sphereSize K) (fun _ => True) := by
  refine ⟨npartSphere_eq K h, ?_⟩
  have hR : 0 < (hi.x - lo.x) / 2 := by linarith
  have hS : (0 : ℝ) < sphereSize K := by exact_mod_cast sphereSize_pos K
  have hm0 : 0 < 1 / (sphereSize K : ℝ) := by positivity
  have hf := first_bounds rho _ _ hR hm0 hrho
  have hb := radiiAt_bounds rho mass stop _ _ hR hf.1
  have hpl := places_of _ _ (fun c st => gen_eq rho mass stop domain lo hi sep K hK h c st) (fun _ => True) (fun _ _ _ => trivial)
  have hall : ∀ q ∈ allItems rho mass stop (inDomain3 domain lo hi) (centre lo hi) ((hi.x - lo.x) / 2) (1 / (sphereSize K : ℝ)) 0 (K + 1), q.1 := by
    intro q hq
    obtain ⟨NN, hN, hq⟩ := List.mem_flatMap.1 hq
    rw [List.mem_range'_1] at hN
    by_cases h0 : NN = 0
    · subst h0
      rw [shellItems_zero, List.mem_singleton] at hq
      rw [hq]; trivial
    · obtain ⟨e1, e2⟩ := shellItems_mem _ _ _ NN h0 ((hb NN).1.2 h0).ne' q hq
      rw [e1]
      have hrk := hr NN (by omega) (by omega)
      have hrk0 := (hb NN).1.2 h0
      generalize (radiiAt rho mass stop ((hi.x - lo.x) / 2) (1 / (sphereSize K : ℝ)) NN).rk = r at hrk hrk0 e2
      obtain ⟨R, hRd⟩ : ∃ R, R = (hi.x - lo.x) / 2 := ⟨_, rfl⟩
      have hw : hi.x - lo.x = 2 * R := by linarith
      rw [← hRd] at hrk hR
      unfold dist2 centre at e2
      dsimp only at e2
      generalize q.2 = p at e2 ⊢
      obtain ⟨px, py, pz⟩ := p
      dsimp only at e2
      obtain ⟨a, ha⟩ : ∃ a, a = px - 1 / 2 * (lo.x + hi.x) := ⟨_, rfl⟩
      obtain ⟨b, hb'⟩ : ∃ b, b = py - 1 / 2 * (lo.y + hi.y) := ⟨_, rfl⟩
      obtain ⟨c, hc⟩ : ∃ c, c = pz - 1 / 2 * (lo.z + hi.z) := ⟨_, rfl⟩
      rw [← ha, ← hb', ← hc] at e2
      have ha1 : |a| ≤ r := abs_le_of_sq_le_sq (by nlinarith [sq_nonneg b, sq_nonneg c]) hrk0.le
      have hb1 : |b| ≤ r := abs_le_of_sq_le_sq (by nlinarith [sq_nonneg a, sq_nonneg c]) hrk0.le
      have hc1 : |c| ≤ r := abs_le_of_sq_le_sq (by nlinarith [sq_nonneg b, sq_nonneg a]) hrk0.le
      rw [abs_le] at ha1 hb1 hc1
      unfold inDomain3 bTol
      dsimp only
      rw [hw] at hy hz ⊢
      refine ⟨⟨?_, ?_, ?_, ?_, ?_, ?_⟩, fun _ => ?_⟩
      · linarith
      · linarith
      · linarith
      · linarith
      · linarith
      · linarith
      · have hmin : min (min (hi.x - 1 / 1000000 * (2 * R) - (lo.x - 1 / 1000000 * (2 * R))) (hi.y - 1 / 1000000 * (2 * R) - (lo.y - 1 / 1000000 * (2 * R))))
            (hi.z - 1 / 1000000 * (2 * R) - (lo.z - 1 / 1000000 * (2 * R))) = 2 * R := by
          rw [min_eq_left (a := hi.x - 1 / 1000000 * (2 * R) - (lo.x - 1 / 1000000 * (2 * R))) (by linarith), min_eq_left (by linarith)]
          linarith
        rw [hmin]
        obtain ⟨d, hd⟩ : ∃ d, d = 1 / 500000 * R := ⟨_, rfl⟩
        have e : (px - 1 / 2 * (lo.x - 1 / 1000000 * (2 * R) + (hi.x - 1 / 1000000 * (2 * R)))) = a + d := by rw [ha, hd]; ring
        have e' : (py - 1 / 2 * (lo.y - 1 / 1000000 * (2 * R) + (hi.y - 1 / 1000000 * (2 * R)))) = b + d := by rw [hb', hd]; ring
        have e'' : (pz - 1 / 2 * (lo.z - 1 / 1000000 * (2 * R) + (hi.z - 1 / 1000000 * (2 * R)))) = c + d := by rw [hc, hd]; ring
        rw [e, e', e'']
        have hd0 : 0 < d := by rw [hd]; positivity
        have h1 : (a + d) * (a + d) + (b + d) * (b + d) + (c + d) * (c + d) ≤ r ^ 2 + 6 * d * r + 3 * d ^ 2 := by nlinarith
        have h2 : r ^ 2 + 6 * d * r + 3 * d ^ 2 ≤ (r + 3 * d) ^ 2 := by nlinarith [sq_nonneg d]
        have h3 : r + 3 * d < R := by rw [hd]; linarith
        have h4 : (r + 3 * d) ^ 2 < R ^ 2 := by
          apply pow_lt_pow_left₀ h3 (by positivity) (by norm_num)
        have h5 : 1 / 2 * (2 * R) * (1 / 2 * (2 * R)) = R ^ 2 := by ring
        rw [h5]
        linarith
  rw [List.filter_eq_self.2 (fun q hq => by simpa using hall q hq), allItems_length] at hpl
  exact hpl

/-- With a separation of a six hundredth of the half width or less there is no lattice: the count overflows. -/
theorem C48_generator_violated (rho mass : ℝ → ℝ) (stop : ℝ → ℝ → Prop) (c : Bool) (domain : Int) (lo hi : Pos) (sep : ℝ) (hs : 0 < sep) (h : 599 * sep ≤ (hi.x - lo.x) / 2) (st : State) :
    generateIco rho mass stop c domain lo hi sep st = none := by
  have h1 : (599 : ℝ) ≤ (hi.x - lo.x) / 2 / sep := by rw [le_div_iff₀ hs]; exact h
  unfold generateIco
  dsimp only
  rcases hk : kRad ((hi.x - lo.x) / 2) sep with _ | K
  · rfl
  · have : 600 ≤ K := by
      unfold kRad at hk
      rw [if_pos (by linarith), Option.bind_eq_some_iff] at hk
      obtain ⟨k, hk1, hk2⟩ := hk
      obtain ⟨rfl, -⟩ := i32_eq.1 hk1
      obtain ⟨rfl, -⟩ := i32_eq.1 hk2
      have : (599 : Int) ≤ ⌊(hi.x - lo.x) / 2 / sep⌋ := Int.le_floor.2 (by exact_mod_cast h1)
      omega
    simp only [npartSphere_none K this]

/-- Non-vacuity: a sphere of constant density in the cube from -1 to 1 with separation 2 has one shell, and the generator places 13 particles. -/
theorem C48_thirteen (mass : ℝ → ℝ) (stop : ℝ → ℝ → Prop) (domain : Int) :
    Places (fun c => generateIco (fun _ => 3 / (4 * Real.pi)) mass stop c domain ⟨-1, -1, -1⟩ ⟨1, 1, 1⟩ 2) 13 (fun _ => True) := by
  have hpi := Real.pi_pos
  have hK : kRad (((⟨1, 1, 1⟩ : Pos).x - (⟨-1, -1, -1⟩ : Pos).x) / 2) 2 = some ((1 : ℕ) : Int) := by
    unfold kRad
    norm_num [i32]
  have h13 : sphereSize 1 = 13 := rfl
  refine (C48_all_placed_partial (fun _ => 3 / (4 * Real.pi)) mass stop domain ⟨-1, -1, -1⟩ ⟨1, 1, 1⟩ 2 1 hK (by omega) (by norm_num) (by norm_num) (by norm_num) (by positivity) ?_).2
  intro NN h1 h2
  obtain rfl : NN = 1 := by omega
  rw [h13]
  have hlt : (firstRadii (fun _ => 3 / (4 * Real.pi)) 1 (1 / 13)).rk12p < 6 / 10 := by
    unfold firstRadii
    dsimp only
    have e : 3 * (1 / 13) / (4 * Real.pi * (3 / (4 * Real.pi) / (1 * 1 * 1))) = 1 / 13 := by field_simp
    have h8 : ((1 : ℝ) / 13) ^ (1 / 3 : ℝ) < ((1 / 2) ^ (3 : ℕ)) ^ (1 / 3 : ℝ) := Real.rpow_lt_rpow (by norm_num) (by norm_num) (by norm_num)
    rw [← Real.rpow_natCast, ← Real.rpow_mul (by norm_num)] at h8
    rw [show ((3 : ℕ) : ℝ) * (1 / 3) = 1 by norm_num, Real.rpow_one] at h8
    rw [e]
    linarith
  have e1 : ((1 : ℝ) - -1) / 2 = 1 := by norm_num
  norm_num only [radiiAt, e1]
  unfold nextRadii
  have hm : (firstRadii (fun _ => 3 / (4 * Real.pi)) 1 (1 / 13)).mrk12p = 1 / 13 := rfl
  have hs : shellSize 1 = 12 := rfl
  dsimp only
  rw [hm, hs]
  norm_num
  linarith

end FleCSPH
