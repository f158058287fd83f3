import Verif.Lemmas.WvtForces
import Verif.Spec.Sph
/-!
C91: the pseudo-accelerations of the weighted Voronoi relaxation. Vocabulary: `Spec.length`, `Spec.unit`, `Spec.pushes` (sum of the pushes of the neighbours), `Spec.imagePushes` (sum of the
pushes of their mirror images), `Spec.tangential`.
-/
namespace FleCSPH
open Wvt Geometry Kernels Spec
open Sph (Particle passM)

variable {i : Fin 3} {n : Nat}

/-- Away from the edge of the sphere, and anywhere in it with open boundary, the acceleration is the sum over the neighbours of the weight of the method times the unit vector away from the
neighbour. -/
theorem C91_inside (p : Forces) (a : Particle (i + 1)) (nbs : List (Particle (i + 1))) (ha : 0 < a.h) (hb : ∀ nb ∈ nbs, 0 < nb.h) (hin : length a.pos ≤ p.radius)
    (h : p.edge = .open ∨ length a.pos + a.h ≤ p.radius) : wvtForce p i a nbs = some (pushes p.method p.kernel i a nbs) := by
  have hr : p.edge ≠ .reflective ∨ length a.pos + a.h ≤ p.radius := h.imp (fun h => by rw [h]; decide) id
  rw [wvtForce_eq, if_pos hin, if_neg, terms_inside p i a nbs ha hb hr, own_inside p i a 0 hr, add_zero]
  rintro ⟨h1, h2⟩
  rcases h with h | h
  · rw [h] at h1; cases h1
  · exact absurd h2 (not_lt.2 h)

/-- Particles outside of the sphere do not move. -/
theorem C91_outside (p : Forces) (a : Particle (i + 1)) (nbs : List (Particle (i + 1))) (h : p.radius < length a.pos) : wvtForce p i a nbs = some 0 := by
  rw [wvtForce_eq, if_neg (not_le.2 h)]

/-- Near a reflective edge, in the plane and in space, the images of the neighbours in the sphere are added, and the image of the particle itself. -/
theorem C91_reflective_partial (p : Forces) (hi : i ≠ 0) (a : Particle (i + 1)) (nbs : List (Particle (i + 1))) (ha : 0 < a.h) (hb : ∀ nb ∈ nbs, 0 < nb.h)
    (hx : a.pos ≠ 0) (hy : ∀ nb ∈ nbs, nb.pos ≠ 0) (hin : length a.pos ≤ p.radius) (he : p.edge = .reflective) (h : p.radius < length a.pos + a.h) :
    wvtForce p i a nbs = some (pushes p.method p.kernel i a nbs + imagePushes p.method p.kernel i p.radius a nbs +
      imagePush p.method p.kernel i p.radius a a.pos a.h) := by
  rw [wvtForce_eq, if_pos hin, if_neg (by rw [he]; rintro ⟨h1, -⟩; cases h1), terms_edge p i hi a nbs ha hb hy he h, own_edge p i hi a ha hx he h, zero_add]

/-- The image is on the same ray, as far beyond the sphere as the point is before it. -/
theorem C91_image {d : Nat} (b : ℝ) (y : Point d) (hy : y ≠ 0) (hb : length y ≤ 2 * b) : length (image b y) = 2 * b - length y ∧ ∃ c, 0 ≤ c ∧ image b y = fun j => c * y j := by
  have hm : mag y ≠ 0 := fun h => hy ((mag_eq_zero y).1 h)
  have h0 : 0 ≤ 2 * b - length y := by linarith
  constructor
  · unfold image
    rw [length_eq, mag_smul, abs_of_nonneg h0, mag_eq_of_sq (unit y) 1 zero_le_one (by rw [unit_length y hy, one_mul]), mul_one]
  · refine ⟨(2 * b - length y) / length y, div_nonneg h0 (length_nonneg y), ?_⟩
    funext j
    unfold image unit
    ring

/-- The image of the particle itself pushes it towards the centre, strictly if it is closer than the smoothing length. -/
theorem C91_own_inward (p : Forces) (hp : Usable p) (a : Particle (i + 1)) (ha : 0 < a.h) (hx : a.pos ≠ 0) (hin : length a.pos < p.radius) :
    ∃ c, 0 ≤ c ∧ (imagePush p.method p.kernel i p.radius a a.pos a.h = fun j => -c * a.pos j) ∧ (2 * (p.radius - length a.pos) < a.h → 0 < c) := by
  have hl : 0 < length a.pos := lt_of_le_of_ne (length_nonneg _) (by rw [length_eq]; exact fun h => hx ((mag_eq_zero _).1 h.symm))
  obtain ⟨c, hc⟩ : ∃ c, c = 2 * (p.radius - length a.pos) / length a.pos := ⟨_, rfl⟩
  have hc0 : 0 < c := by rw [hc]; exact div_pos (by linarith) hl
  have hd : (fun k => a.pos k - image p.radius a.pos k) = fun k => -c * a.pos k := by
    funext k
    unfold image unit
    rw [hc]
    field_simp
    ring
  have hlen : length (fun k => -c * a.pos k) = c * length a.pos := by
    rw [length_eq, mag_smul, abs_neg, abs_of_pos hc0, length_eq]
  refine ⟨imageWeight p.method p.kernel i a.h a.h (c * length a.pos) / length a.pos, div_nonneg (imageWeight_nonneg hp i ha ha (by positivity)) hl.le, ?_, fun h => ?_⟩
  swap
  · refine div_pos (imageWeight_pos hp i ha (by positivity) ?_) hl
    rw [hc, div_mul_cancel₀ _ hl.ne']
    exact h
  unfold imagePush
  rw [hd, hlen]
  funext j
  unfold unit
  rw [hlen]
  field_simp

/-- Near a frozen edge the acceleration is twice the tangential part of the sum of the pushes: the radial part is zero. -/
theorem C91_frozen_partial (p : Forces) (a : Particle (i + 1)) (nbs : List (Particle (i + 1))) (ha : 0 < a.h) (hb : ∀ nb ∈ nbs, 0 < nb.h) (hx : a.pos ≠ 0)
    (hin : length a.pos ≤ p.radius) (he : p.edge = .frozen) (h : p.radius < length a.pos + a.h) :
    ∃ v, wvtForce p i a nbs = some v ∧ (v = fun j => 2 * tangential a.pos (pushes p.method p.kernel i a nbs) j) ∧ ∑ j, v j * a.pos j = 0 := by
  have hr : p.edge ≠ .reflective ∨ length a.pos + a.h ≤ p.radius := Or.inl (by rw [he]; decide)
  refine ⟨_, ?_, rfl, ?_⟩
  · rw [wvtForce_eq, if_pos hin, if_pos ⟨he, h⟩, terms_inside p i a nbs ha hb hr, own_inside p i a 0 hr, add_zero, removeRadial_eq _ _ hx]
  · have := tangential_orth a.pos (pushes p.method p.kernel i a nbs)
    have e : ∀ j, 2 * tangential a.pos (pushes p.method p.kernel i a nbs) j * a.pos j = 2 * (tangential a.pos (pushes p.method p.kernel i a nbs) j * a.pos j) := fun j => by ring
    simp only [e]
    rw [← Finset.mul_sum, this, mul_zero]

/-- A particle at the centre of the sphere which sees a frozen edge gets an acceleration which is not a number. -/
theorem C91_frozen_violated (p : Forces) (a : Particle (i + 1)) (nbs : List (Particle (i + 1))) (hx : a.pos = 0) (hr : 0 ≤ p.radius) (he : p.edge = .frozen) (h : p.radius < a.h) :
    wvtForce p i a nbs = none := by
  have h0 : length a.pos = 0 := by rw [hx, Wvt.length_zero]
  rw [wvtForce_eq, if_pos (by rw [h0]; exact hr), if_pos ⟨he, by rw [h0, zero_add]; exact h⟩]
  unfold removeRadialAcc
  rw [if_pos ((mag_eq_zero _).2 hx)]

/-- The neighbours may be listed in any order. -/
theorem C91_order (p : Forces) (a : Particle (i + 1)) (l l' : List (Particle (i + 1))) (h : l.Perm l') : wvtForce p i a l = wvtForce p i a l' := by
  rw [wvtForce_eq, wvtForce_eq, (h.map _).sum_eq]

/-- Away from the edge every neighbour pushes the particle away from itself, the others being the same: strictly if it is closer than the mean smoothing length, not at all if it is not. -/
theorem C91_repulsive (p : Forces) (hp : Usable p) (a nb : Particle (i + 1)) (nbs : List (Particle (i + 1))) (ha : 0 < a.h) (hb : ∀ x ∈ nb :: nbs, 0 < x.h)
    (hin : length a.pos ≤ p.radius) (h : p.edge = .open ∨ length a.pos + a.h ≤ p.radius) :
    ∃ v w c, wvtForce p i a nbs = some v ∧ wvtForce p i a (nb :: nbs) = some w ∧ (w = fun j => v j + c * (a.pos j - nb.pos j)) ∧ 0 ≤ c ∧
      ((a.h + nb.h) / 2 ≤ length (fun k => a.pos k - nb.pos k) → c = 0) ∧ (a.pos ≠ nb.pos → length (fun k => a.pos k - nb.pos k) < (a.h + nb.h) / 2 → 0 < c) := by
  have hnb := hb nb List.mem_cons_self
  obtain ⟨r, hr⟩ : ∃ r, r = length fun k => a.pos k - nb.pos k := ⟨_, rfl⟩
  have hr0 : 0 ≤ r := by rw [hr]; exact length_nonneg _
  refine ⟨_, _, weight p.method p.kernel i a.h nb.h r / r, C91_inside p a nbs ha (fun x hx => hb x (List.mem_cons_of_mem _ hx)) hin h, C91_inside p a (nb :: nbs) ha hb hin h, ?_,
    div_nonneg (weight_nonneg hp i ha hnb hr0) hr0, fun h1 => ?_, fun h1 h2 => ?_⟩
  · funext j
    unfold pushes
    rw [List.map_cons, List.sum_cons, Pi.add_apply, ← hr]
    unfold unit
    rw [← hr]
    ring
  · rw [weight_zero hp i ha hnb (by rw [hr]; exact h1), zero_div]
  · have hne : r ≠ 0 := fun h0 => h1 (by
      rw [hr, length_eq, mag_eq_zero] at h0
      funext k
      have := congrFun h0 k
      simpa [sub_eq_zero] using this)
    exact div_pos (weight_pos hp i ha hnb hr0 (by rw [hr]; exact h2)) (lt_of_le_of_ne hr0 (Ne.symm hne))

/-- The acceleration is bounded by the number of neighbours and the largest smoothing length, however close the particles are, in every dimension and for every boundary: 10.52 is
1/0.09 - 1/1.69. -/
theorem C91_bounded (p : Forces) (hp : Usable p) (a : Particle (i + 1)) (nbs : List (Particle (i + 1))) (H : ℝ) (ha : 0 < a.h) (ha' : a.h ≤ H)
    (hb : ∀ nb ∈ nbs, 0 < nb.h ∧ nb.h ≤ H) (v : Point (i + 1)) (hv : wvtForce p i a nbs = some v) :
    length v ≤ (4 * nbs.length + 2) * H * (match p.method with | .diehl => 1052 / 100 | .arth => 2 ^ (i + 1 : ℕ) * kernel p.kernel i 0 1) := by
  have := force_le hp i a nbs ha ha' hb v hv
  unfold cap at this
  rw [mul_assoc]
  exact this

/-- A pass over all particles gives each of them the acceleration computed from the positions and smoothing lengths before the pass, in whatever order they are visited, and changes nothing
else. -/
theorem C91_pass (p : Forces) (s t : Fin n → Particle (i + 1)) (nbs : Fin n → List (Fin n)) (order : List (Fin n)) (hall : VisitsAll order)
    (ht : passM (wvtAcceleration p i) nbs order s = some t) (a : Fin n) : ∃ v, wvtForce p i (s a) ((nbs a).map s) = some v ∧ t a = { s a with acc := v } := by
  have h := passM_eq (wvtAcceleration p i) (fun b => { b with acc := 0 }) (wvtAcceleration p i) (fun a l => by
    unfold wvtAcceleration wvtForce
    have e : ∀ (l : List (Particle (i + 1))) acc, (l.map fun b => { b with acc := 0 }).foldl (fromNeighbour p i a) acc = l.foldl (fromNeighbour p i a) acc := by
      intro l
      induction l with
      | nil => intro acc; rfl
      | cons x l ih => intro acc; exact ih _
    rw [e]) (fun a l x hx => by
    unfold wvtAcceleration at hx
    obtain ⟨v, -, rfl⟩ := Option.map_eq_some_iff.1 hx
    rfl) nbs order hall s t ht a
  unfold wvtAcceleration at h
  obtain ⟨v, hv, e⟩ := Option.map_eq_some_iff.1 h
  exact ⟨v, hv, e.symm⟩

/-- Action and reaction: away from the edge the accelerations of the method of Arth et al. add up to zero, and those of Diehl et al. if all smoothing lengths are the same. -/
theorem C91_balance_partial (p : Forces) (hp : Usable p) (s : Fin n → Particle (i + 1)) (nbs : Fin n → List (Fin n)) (hs : SymmetricLists s nbs) (hh : ∀ a, 0 < (s a).h)
    (hin : ∀ a, length (s a).pos ≤ p.radius) (h : p.edge = .open ∨ ∀ a, length (s a).pos + (s a).h ≤ p.radius)
    (hm : p.method = .arth ∨ ∀ a b, (s a).h = (s b).h) (v : Fin n → Point (i + 1)) (hv : ∀ a, wvtForce p i (s a) ((nbs a).map s) = some (v a)) (j : Fin (i + 1)) :
    ∑ a, v a j = 0 := by
  have hva : ∀ a, v a = pushes p.method p.kernel i (s a) ((nbs a).map s) := fun a => by
    have h1 := C91_inside p (s a) ((nbs a).map s) (hh a) (fun nb hnb => by obtain ⟨b, -, rfl⟩ := List.mem_map.1 hnb; exact hh b) (hin a) (h.imp id fun h => h a)
    rw [hv a] at h1
    exact Option.some_inj.1 h1
  have hsym : ∀ a b r, weight p.method p.kernel i (s b).h (s a).h r = weight p.method p.kernel i (s a).h (s b).h r := fun a b r => by
    rcases hm with hm | hm
    · unfold weight
      rw [hm]
      simp only
      rw [add_comm]
    · rw [hm a b]
  have key := Sph.sum_antisymm s nbs hs
    (fun a b => weight p.method p.kernel i (s a).h (s b).h (length fun k => (s a).pos k - (s b).pos k) * unit (fun k => (s a).pos k - (s b).pos k) j)
    (fun a b => by
      show _ * _ = -(_ * _)
      rw [hsym a b, length_comm (s a).pos (s b).pos, unit_neg (s a).pos (s b).pos]
      ring)
    (fun a b hab => by
      show _ * _ = 0
      rw [weight_zero hp i (hh a) (hh b) (show _ ≤ length _ from not_lt.1 hab), zero_mul])
  rw [← key]
  refine Finset.sum_congr rfl fun a _ => ?_
  rw [hva a]
  unfold pushes
  rw [Wvt.sum_apply, List.map_map, List.map_map]
  rfl

/-- A neighbourhood which is symmetric about the particle exerts no force: a lattice is at rest. -/
theorem C91_symmetric (p : Forces) (a : Particle (i + 1)) (l : List (Particle (i + 1))) (l' : List (Particle (i + 1))) (ha : 0 < a.h)
    (hb : ∀ x ∈ l, 0 < x.h) (hl : l' = l.map fun b => { b with pos := fun j => 2 * a.pos j - b.pos j }) (hin : length a.pos ≤ p.radius)
    (h : p.edge = .open ∨ length a.pos + a.h ≤ p.radius) : wvtForce p i a (l ++ l') = some 0 := by
  rw [C91_inside p a (l ++ l') ha (fun nb hnb => by
    rcases List.mem_append.1 hnb with h | h
    · exact hb nb h
    · rw [hl] at h
      obtain ⟨b, hb', rfl⟩ := List.mem_map.1 h
      exact hb b hb') hin h]
  congr 1
  unfold pushes
  rw [List.map_append, List.sum_append, hl, List.map_map]
  have e : ∀ b : Particle (i + 1), (fun k => a.pos k - (2 * a.pos k - b.pos k)) = fun k => b.pos k - a.pos k := fun b => by funext k; ring
  clear hl h hin hb
  induction l with
  | nil => simp
  | cons x l ih =>
    simp only [List.map_cons, List.sum_cons, Function.comp_apply, e]
    have h1 : (fun j => weight p.method p.kernel i a.h x.h (length fun k => x.pos k - a.pos k) * unit (fun k => x.pos k - a.pos k) j) =
        -(fun j => weight p.method p.kernel i a.h x.h (length fun k => a.pos k - x.pos k) * unit (fun k => a.pos k - x.pos k) j) := by
      funext j
      rw [Pi.neg_apply, length_comm a.pos x.pos, unit_neg a.pos x.pos]
      ring
    rw [h1]
    simp only [Function.comp_def, e] at ih
    simp only [Function.comp_def, e]
    linear_combination (exp := 1) ih

/-- The accelerations turn with the particles: for every rotation or reflection `A` about the centre, the acceleration of the turned particle among the turned neighbours is the turned
acceleration. With a reflective boundary in the plane and in space only. -/
theorem C91_rotation_partial (p : Forces) (a : Particle (i + 1)) (nbs : List (Particle (i + 1))) (ha : 0 < a.h) (hb : ∀ nb ∈ nbs, 0 < nb.h)
    (A : Point (i + 1) →ₗ[ℝ] Point (i + 1)) (hA : ∀ x y : Point (i + 1), ∑ j, A x j * A y j = ∑ j, x j * y j)
    (hr : p.edge = .reflective → i ≠ 0 ∧ a.pos ≠ 0 ∧ ∀ nb ∈ nbs, nb.pos ≠ 0) :
    wvtForce p i { a with pos := A a.pos } (nbs.map fun nb => { nb with pos := A nb.pos }) = (wvtForce p i a nbs).map fun v => A v := by
  have hc := core_map A hA p a nbs ha hb hr
  have hl : length (turn A a).pos = length a.pos := length_map A hA a.pos
  show wvtForce p i (turn A a) (nbs.map (turn A)) = _
  rw [wvtForce_eq, wvtForce_eq, hl, hc, show (turn A a).h = a.h from rfl]
  split
  · split
    · by_cases hx : a.pos = 0
      · have hx' : (turn A a).pos = 0 := by show A a.pos = 0; rw [hx, map_zero]
        unfold removeRadialAcc
        rw [if_pos ((mag_eq_zero _).2 hx'), if_pos ((mag_eq_zero _).2 hx)]
        rfl
      · rw [removeRadial_eq _ _ hx, removeRadial_eq _ _ (show (turn A a).pos ≠ 0 from map_ne_zero A hA hx)]
        rw [show (turn A a).pos = A a.pos from rfl, tangential_map A hA, Option.map_some, map_scale]
    · rfl
  · rw [Option.map_some, map_zero]

/-- The neighbour list of the searches holds the particle itself, so that its own image is counted twice: a particle with no other neighbour gets twice the push of its image. -/
theorem C91_twice_violated (p : Forces) (hp : Usable p) (hi : i ≠ 0) (a : Particle (i + 1)) (ha : 0 < a.h) (hx : a.pos ≠ 0) (he : p.edge = .reflective)
    (hin : length a.pos < p.radius) (h : 2 * (p.radius - length a.pos) < a.h) :
    (wvtForce p i a [a] = some fun j => 2 * imagePush p.method p.kernel i p.radius a a.pos a.h j) ∧ imagePush p.method p.kernel i p.radius a a.pos a.h ≠ 0 := by
  constructor
  · rw [C91_reflective_partial p hi a [a] ha (by simpa using ha) hx (by simpa using hx) hin.le he (by linarith)]
    congr 1
    have e1 : pushes p.method p.kernel i a [a] = 0 := by
      funext j
      simp [pushes, unit]
    have e2 : imagePushes p.method p.kernel i p.radius a [a] = imagePush p.method p.kernel i p.radius a a.pos a.h := by
      unfold imagePushes
      rw [List.filter_cons_of_pos (by simpa using hin)]
      simp
    rw [e1, e2]
    funext j
    simp only [Pi.add_apply, Pi.zero_apply]
    ring
  · obtain ⟨c, -, h2, h3⟩ := C91_own_inward p hp a ha hx hin
    intro h0
    rw [h2] at h0
    apply hx
    funext j
    have h1 : -c * a.pos j = 0 := congrFun h0 j
    rcases mul_eq_zero.1 h1 with h4 | h4
    · linarith [h3 h]
    · exact h4

/-- On the line the images of the particles near the left edge are put beyond the right edge: the image of a particle at the right edge pushes it inward, that of the particle at the mirrored
position does not push it. -/
theorem C91_line_violated (p : Forces) (hp : Usable p) (a a' : Particle 1) (he : p.edge = .reflective) (ha : 0 < a.h) (hh : a'.h = a.h) (hx : 0 < a.pos 0)
    (hin : a.pos 0 < p.radius) (hle : a.h ≤ 2 * p.radius) (h : 2 * (p.radius - a.pos 0) < a.h) (hx' : a'.pos 0 = -a.pos 0) :
    (∃ v, wvtForce p 0 a [] = some v ∧ v 0 < 0) ∧ wvtForce p 0 a' [] = some 0 := by
  have hl : length a.pos = a.pos 0 := by
    unfold length
    rw [show ∑ j, a.pos j ^ 2 = a.pos 0 ^ 2 from Fin.sum_univ_one _, Real.sqrt_sq hx.le]
  have hl' : length a'.pos = a.pos 0 := by
    unfold length
    rw [show ∑ j, a'.pos j ^ 2 = a'.pos 0 ^ 2 from Fin.sum_univ_one _, hx', neg_sq, Real.sqrt_sq hx.le]
  have hone : ∀ v : Point 1, length v = |v 0| := fun v => by
    unfold length
    rw [show ∑ j, v j ^ 2 = v 0 ^ 2 from Fin.sum_univ_one _, Real.sqrt_sq_eq_abs]
  have hfr : ∀ q : Prop, ¬ (p.edge = .frozen ∧ q) := fun q => by rw [he]; rintro ⟨h, -⟩; cases h
  have hown : ∀ b : Particle 1, p.radius < length b.pos + b.h → 0 < b.h → fromOwnImage p 0 b 0 = fun j =>
      imageWeight p.method p.kernel 0 b.h b.h (length fun k => b.pos k - (2 * p.radius - |b.pos 0|)) * unit (fun k => b.pos k - (2 * p.radius - |b.pos 0|)) j := fun b h1 h2 => by
    obtain ⟨e1, e2⟩ := reflected_line p.radius b.pos
    unfold fromOwnImage
    rw [if_pos ⟨he, by rw [length_eq] at h1; exact h1⟩, e1]
    simp only
    rw [push_eq, e2, ownStrength_eq p 0 h2, distance_length, zero_add]
    rfl
  have hr : 0 < p.radius := by linarith
  constructor
  · refine ⟨fromOwnImage p 0 a 0, ?_, ?_⟩
    · rw [wvtForce_eq, if_pos (by rw [hl]; exact hin.le), if_neg (hfr _)]
      simp only [List.map_nil, List.sum_nil, zero_add]
    · rw [hown a (by rw [hl]; linarith) ha]
      have e : length (fun k => a.pos k - (2 * p.radius - |a.pos 0|)) = 2 * (p.radius - a.pos 0) := by
        rw [hone, abs_of_pos hx]
        show |a.pos 0 - (2 * p.radius - a.pos 0)| = _
        rw [abs_of_neg (by linarith)]
        ring
      show imageWeight p.method p.kernel 0 a.h a.h (length fun k => a.pos k - (2 * p.radius - |a.pos 0|)) * ((a.pos 0 - (2 * p.radius - |a.pos 0|)) / length fun k => a.pos k - (2 * p.radius - |a.pos 0|)) < 0
      rw [e, abs_of_pos hx]
      refine mul_neg_of_pos_of_neg (imageWeight_pos hp 0 ha (by linarith) h) (div_neg_of_neg_of_pos (by linarith) (by linarith))
  · rw [wvtForce_eq, if_pos (by rw [hl']; exact hin.le), if_neg (hfr _), hown a' (by rw [hl', hh]; linarith) (by rw [hh]; exact ha)]
    have e : length (fun k => a'.pos k - (2 * p.radius - |a'.pos 0|)) = 2 * p.radius := by
      rw [hone]
      show |a'.pos 0 - (2 * p.radius - |a'.pos 0|)| = _
      rw [hx', abs_neg, abs_of_pos hx, abs_of_neg (by linarith)]
      ring
    rw [e, hh, imageWeight_zero hp 0 ha hle]
    simp only [List.map_nil, List.sum_nil, zero_add, zero_mul]
    rfl

/-- With different smoothing lengths action and reaction of the method of Diehl et al. do not cancel: two particles, each the neighbour of the other, get accelerations in proportion to their
smoothing lengths. -/
theorem C91_balance_violated (p : Forces) (hm : p.method = .diehl) (he : p.edge = .open) (a b : Particle (i + 1)) (ha : 0 < a.h) (hb : 0 < b.h) (hne : a.h ≠ b.h)
    (hia : length a.pos ≤ p.radius) (hib : length b.pos ≤ p.radius) (hab : a.pos ≠ b.pos) (hclose : length (fun k => a.pos k - b.pos k) < (a.h + b.h) / 2) :
    ∃ v w, wvtForce p i a [a, b] = some v ∧ wvtForce p i b [a, b] = some w ∧ v + w ≠ 0 := by
  obtain ⟨r, hr⟩ : ∃ r, r = length fun k => a.pos k - b.pos k := ⟨_, rfl⟩
  have hr0 : 0 ≤ r := by rw [hr]; exact length_nonneg _
  have hrne : r ≠ 0 := fun h0 => hab (by
    rw [hr, length_eq, mag_eq_zero] at h0
    funext k
    have := congrFun h0 k
    simpa [sub_eq_zero] using this)
  refine ⟨_, _, C91_inside p a [a, b] ha (by simp [ha, hb]) hia (Or.inl he), C91_inside p b [a, b] hb (by simp [ha, hb]) hib (Or.inl he), fun h0 => ?_⟩
  have hself : ∀ c : Particle (i + 1), unit (fun k => c.pos k - c.pos k) = 0 := fun c => by funext j; simp [unit]
  obtain ⟨L, hL⟩ : ∃ L, L = diehlLaw ((a.h + b.h) / 2) r := ⟨_, rfl⟩
  have hLpos : 0 < L := by rw [hL]; exact diehlLaw_pos hr0 (by rw [hr]; exact hclose)
  have key : ∀ j, (a.h - b.h) * L * unit (fun k => a.pos k - b.pos k) j = 0 := fun j => by
    have h1 := congrFun h0 j
    unfold pushes at h1
    simp only [hm, List.map_cons, List.map_nil, List.sum_cons, List.sum_nil, Pi.add_apply, Pi.zero_apply, hself, mul_zero, add_zero, zero_add, weight] at h1
    rw [length_comm a.pos b.pos, unit_neg a.pos b.pos, ← hr, add_comm b.h a.h, ← hL] at h1
    linear_combination h1
  apply hab
  funext j
  have h1 := key j
  have h2 : (a.h - b.h) * L ≠ 0 := mul_ne_zero (sub_ne_zero.2 hne) hLpos.ne'
  have h3 : unit (fun k => a.pos k - b.pos k) j = 0 := (mul_eq_zero.1 h1).resolve_left h2
  unfold unit at h3
  rw [← hr, div_eq_zero_iff] at h3
  rcases h3 with h3 | h3
  · linarith
  · exact absurd h3 hrne

/-! Cases which meet the hypotheses. -/
section examples

/-- A particle of the plane with nothing but a position and a smoothing length. -/
private noncomputable def at2 (x y h : ℝ) : Particle (1 + 1) :=
  ⟨0, 1, h, ![x, y], 0, 0, 0, 0, 0, 1, 0, 0, 0, 0, 0, 0, 0, 0, 0, 0, 0, 0, 0⟩

private theorem length2 (x y h : ℝ) : length (at2 x y h).pos = √(x ^ 2 + y ^ 2) := by
  unfold length at2
  congr 1
  exact Fin.sum_univ_two _

private noncomputable def ball (e : Edge) : Forces := ⟨.arth, e, .wendlandC2, 10⟩

private theorem usable (e : Edge) : Usable (ball e) := fun _ => .wendlandC2

private theorem l34 (h : ℝ) : length (at2 3 4 h).pos = 5 := by
  rw [length2, show (3 : ℝ) ^ 2 + 4 ^ 2 = 5 ^ 2 by norm_num, Real.sqrt_sq (by norm_num)]

private theorem l68 (h : ℝ) : length (at2 6 8 h).pos = 10 := by
  rw [length2, show (6 : ℝ) ^ 2 + 8 ^ 2 = 10 ^ 2 by norm_num, Real.sqrt_sq (by norm_num)]

private theorem ne2 {x y h : ℝ} (hx : x ≠ 0) : (at2 x y h).pos ≠ 0 := fun h0 => hx (by have := congrFun h0 0; simpa [at2] using this)

-- away from the edge (5 + 2 ≤ 10) with two neighbours: the hypotheses of C91_inside, C91_repulsive, C91_bounded and C91_symmetric
example : 0 < (at2 3 4 2).h ∧ (∀ nb ∈ [at2 3 5 1, at2 4 4 3], 0 < nb.h) ∧ length (at2 3 4 2).pos ≤ (ball .reflective).radius ∧
    length (at2 3 4 2).pos + (at2 3 4 2).h ≤ (ball .reflective).radius ∧ Usable (ball .reflective) := by
  refine ⟨by norm_num [at2], ?_, ?_, ?_, usable _⟩
  · intro nb hnb
    simp only [List.mem_cons, List.not_mem_nil, or_false] at hnb
    rcases hnb with rfl | rfl <;> norm_num [at2]
  · rw [l34]; norm_num [ball]
  · rw [l34]; norm_num [ball, at2]

-- near the edge (5 + 6 > 10): the hypotheses of C91_reflective_partial and C91_frozen_partial
example (e : Edge) : 0 < (at2 3 4 6).h ∧ (at2 3 4 6).pos ≠ 0 ∧ (at2 4 4 3).pos ≠ 0 ∧ length (at2 3 4 6).pos ≤ (ball e).radius ∧
    (ball e).radius < length (at2 3 4 6).pos + (at2 3 4 6).h ∧ (ball e).edge = e := by
  refine ⟨by norm_num [at2], ne2 (by norm_num), ne2 (by norm_num), ?_, ?_, rfl⟩
  · rw [l34]; norm_num [ball]
  · rw [l34]; norm_num [ball, at2]

-- C91_own_inward and C91_twice_violated: 2 (10 - 5) < 11
example : length (at2 3 4 11).pos < (ball .reflective).radius ∧ 2 * ((ball .reflective).radius - length (at2 3 4 11).pos) < (at2 3 4 11).h := by
  rw [l34]; norm_num [ball, at2]

-- C91_outside
example : (⟨.diehl, .open, .wendlandC2, 9⟩ : Forces).radius < length (at2 6 8 1).pos := by rw [l68]; norm_num

-- C91_frozen_violated
example : ∃ a : Particle (1 + 1), a.pos = 0 ∧ (ball .frozen).radius < a.h := ⟨{ at2 0 0 11 with pos := 0 }, rfl, by norm_num [ball, at2]⟩

-- C91_rotation_partial: a quarter turn
example : ∃ A : Point (1 + 1) →ₗ[ℝ] Point (1 + 1), (∀ x y : Point (1 + 1), ∑ j, A x j * A y j = ∑ j, x j * y j) ∧ A ![1, 0] = ![0, 1] := by
  refine ⟨{ toFun := fun x => ![-x 1, x 0], map_add' := fun x y => ?_, map_smul' := fun c x => ?_ }, fun x y => ?_, ?_⟩
  · funext j; fin_cases j <;> simp; ring
  · funext j; fin_cases j <;> simp
  · rw [Fin.sum_univ_two, Fin.sum_univ_two]; simp; ring
  · funext j; fin_cases j <;> simp

-- C91_balance_partial: two particles, each in the list of the other
example : SymmetricLists (![at2 3 4 2, at2 3 5 1] : Fin 2 → Particle (1 + 1)) (fun _ => [0, 1]) ∧ (ball .open).edge = .open ∧
    ∃ v, wvtForce (ball .open) 1 (at2 3 4 2) [at2 3 4 2, at2 3 5 1] = some v := by
  refine ⟨⟨fun _ => by decide, fun a b _ => ?_⟩, rfl, _, C91_inside _ _ _ (by norm_num [at2]) ?_ (by rw [l34]; norm_num [ball]) (Or.inl rfl)⟩
  · have : ∀ c : Fin 2, c ∈ [(0 : Fin 2), 1] := by decide
    exact ⟨fun _ => this a, fun _ => this b⟩
  · intro nb hnb
    simp only [List.mem_cons, List.not_mem_nil, or_false] at hnb
    rcases hnb with rfl | rfl <;> norm_num [at2]

-- C91_balance_violated
example : (at2 3 4 2).h ≠ (at2 3 5 1).h ∧ (at2 3 4 2).pos ≠ (at2 3 5 1).pos ∧
    length (fun k => (at2 3 4 2).pos k - (at2 3 5 1).pos k) < ((at2 3 4 2).h + (at2 3 5 1).h) / 2 := by
  refine ⟨by norm_num [at2], fun h => ?_, ?_⟩
  · have := congrFun h 1
    norm_num [at2] at this
  · unfold length
    rw [show ∑ j, ((at2 3 4 2).pos j - (at2 3 5 1).pos j) ^ 2 = (3 - 3) ^ 2 + (4 - 5) ^ 2 from Fin.sum_univ_two _]
    norm_num [at2]

-- C91_line_violated: 2 (1 - 0.9) < 0.5
example : ∃ a a' : Particle 1, 0 < a.h ∧ a'.h = a.h ∧ 0 < a.pos 0 ∧ a.pos 0 < 1 ∧ a.h ≤ 2 * 1 ∧ 2 * (1 - a.pos 0) < a.h ∧ a'.pos 0 = -a.pos 0 :=
  ⟨⟨0, 1, 1 / 2, ![9 / 10], 0, 0, 0, 0, 0, 1, 0, 0, 0, 0, 0, 0, 0, 0, 0, 0, 0, 0, 0⟩, ⟨0, 1, 1 / 2, ![-(9 / 10)], 0, 0, 0, 0, 0, 1, 0, 0, 0, 0, 0, 0, 0, 0, 0, 0, 0, 0, 0⟩,
    by norm_num, rfl, by norm_num, by norm_num, by norm_num, by norm_num, by norm_num⟩

end examples

end FleCSPH
