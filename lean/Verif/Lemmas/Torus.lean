import Verif.Spec.Torus
import Verif.Lemmas.DistPhys
import Verif.Lemmas.Geometry
/-! Sums over the particles and their ghosts are sums over the images on the torus, up to the depth to which the ghosts are there and agree with their particles. -/
namespace FleCSPH.Torus
open FleCSPH.Geometry FleCSPH.Sph FleCSPH.DistRun FleCSPH.Spec FleCSPH.Kernels

variable {d n N : Nat} {sides : Fin d → ℝ} {periodic : Fin d → Bool}

theorem Lattice.zero : Lattice periodic 0 := fun _ _ => rfl
theorem Lattice.add {k k' : Fin d → ℤ} (h : Lattice periodic k) (h' : Lattice periodic k') : Lattice periodic (k + k') := fun j hj => by rw [Pi.add_apply, h j hj, h' j hj]; rfl
theorem Lattice.sub {k k' : Fin d → ℤ} (h : Lattice periodic k) (h' : Lattice periodic k') : Lattice periodic (k - k') := fun j hj => by rw [Pi.sub_apply, h j hj, h' j hj]; rfl

theorem imageOf_imageOf (a : Particle d) (k k' : Fin d → ℤ) : imageOf sides (imageOf sides a k) k' = imageOf sides a (k + k') := by
  unfold imageOf
  simp only [Pi.add_apply, Int.cast_add]
  congr 1
  funext j; ring

theorem imageOf_zero (a : Particle d) : imageOf sides a 0 = a := by
  unfold imageOf
  cases a
  simp

/-- Everything but the id and the signal speed. -/
def core (a : Particle d) : Particle d := { a with id := 0, vsig := 0 }

theorem core_imageOf (a : Particle d) (k : Fin d → ℤ) : core (imageOf sides a k) = imageOf sides (core a) k := rfl

/-- The distance. -/
noncomputable def gap (p q : Point d) : ℝ := √(∑ j, (p j - q j) ^ 2)

theorem gap_eq (p q : Point d) : gap p q = distance p q := by simp only [gap, distance, sq]
theorem gap_triangle (p q r : Point d) : gap p r ≤ gap p q + gap q r := by rw [gap_eq, gap_eq, gap_eq]; exact distance_triangle p q r
theorem gap_comm (p q : Point d) : gap p q = gap q p := by
  unfold gap; congr 1; exact Finset.sum_congr rfl fun j _ => by ring
theorem gap_self (p : Point d) : gap p p = 0 := by simp [gap]
theorem gap_image (a b : Particle d) (k : Fin d → ℤ) : gap (imageOf sides a k).pos (imageOf sides b k).pos = gap a.pos b.pos := by
  unfold gap imageOf; congr 1; exact Finset.sum_congr rfl fun j _ => by ring

/-- Particles and ghosts: `base` is the particle and `shift` the combination of periods, `real` finds the particle itself, and `x` are the positions of the particles. Every image at most `halo` away from a
particle is there. -/
structure IsExt (sides : Fin d → ℝ) (periodic : Fin d → Bool) (halo : ℝ) (x : Fin n → Point d) (base : Fin N → Fin n) (shift : Fin N → Fin d → ℤ) (real : Fin n → Fin N) : Prop where
  lattice : ∀ e, Lattice periodic (shift e)
  inj : ∀ e e', base e = base e' → shift e = shift e' → e = e'
  base_real : ∀ a, base (real a) = a
  shift_real : ∀ a, shift (real a) = 0
  complete : ∀ a b k, Lattice periodic k → gap (x a) (fun j => x b j + k j * sides j) ≤ halo → ∃ e, base e = b ∧ shift e = k

/-- Not further than `r` from a particle. -/
def Close (x : Fin n → Point d) (p : Point d) (r : ℝ) : Prop := ∃ a, gap p (x a) ≤ r

/-- Ghosts at most `r` away from a particle agree with their particles as far as `v` shows. -/
def Agree (sides : Fin d → ℝ) (x : Fin n → Point d) (base : Fin N → Fin n) (shift : Fin N → Fin d → ℤ) (real : Fin n → Fin N) {V : Type} (v : Particle d → V) (r : ℝ) (t : Fin N → Particle d) : Prop :=
  ∀ e, Close x (t e).pos r → v (t e) = v (imageOf sides (t (real (base e))) (shift e))

/-- Everything is where it should be, and smoothing lengths are positive and at most `H`. -/
structure Placed (sides : Fin d → ℝ) (x : Fin n → Point d) (base : Fin N → Fin n) (shift : Fin N → Fin d → ℤ) (H : ℝ) (t : Fin N → Particle d) : Prop where
  pos : ∀ e, (t e).pos = fun j => x (base e) j + shift e j * sides j
  hpos : ∀ e, 0 < (t e).h
  hle : ∀ e, (t e).h ≤ H

section
variable {halo H r : ℝ} {x : Fin n → Point d} {base : Fin N → Fin n} {shift : Fin N → Fin d → ℤ} {real : Fin n → Fin N} (hE : IsExt sides periodic halo x base shift real) {t : Fin N → Particle d}
  (hp : Placed sides x base shift H t)
include hE hp

theorem real_pos (a : Fin n) : (t (real a)).pos = x a := by
  rw [hp.pos, hE.base_real, hE.shift_real]
  funext j; simp

theorem close_real (a : Fin n) (hr : 0 ≤ r) : Close x (t (real a)).pos r := ⟨a, by rw [real_pos hE hp, gap_self]; exact hr⟩

theorem base_pos (e : Fin N) : (t e).pos = (imageOf sides (t (real (base e))) (shift e)).pos := by
  rw [hp.pos]
  show _ = fun j => (t (real (base e))).pos j + _
  rw [real_pos hE hp]

theorem sum_torus {M V : Type} [AddCommMonoid M] {v : Particle d → V} {φ : Particle d → Particle d → M} (hfar : ∀ a b, 0 < a.h → 0 < b.h → (a.h + b.h) / 2 < gap a.pos b.pos → φ a b = 0)
    (hview : ∀ a a' b b', core a = core a' → v b = v b' → φ a b = φ a' b') (hshift : ∀ a b k, Lattice periodic k → φ (imageOf sides a k) (imageOf sides b k) = φ a b)
    (hv : Agree sides x base shift real v (r + H) t) (hr : r + H ≤ halo) (e : Fin N) (he : Close x (t e).pos r) (hc : core (t e) = core (imageOf sides (t (real (base e))) (shift e)))
    {l : List (Fin n × (Fin d → ℤ))} (hl : Near sides periodic (fun a => t (real a)) (t (real (base e))) l) :
    ∑ e', φ (t e) (t e') = (l.map fun q => φ (t (real (base e))) (imageOf sides (t (real q.1)) q.2)).sum := by
  have hgap : ∀ b k, gap (t (real (base e))).pos (imageOf sides (t (real b)) k).pos = gap (t e).pos (imageOf sides (t (real b)) (k + shift e)).pos := by
    intro b k
    rw [base_pos hE hp e, ← imageOf_imageOf, gap_image]
  have hterm : ∀ e', φ (t e) (t e') = φ (t (real (base e))) (imageOf sides (t (real (base e'))) (shift e' - shift e)) := by
    intro e'
    by_cases h : gap (t e).pos (t e').pos ≤ H
    · have h1 : Close x (t e').pos (r + H) := by
        obtain ⟨a, ha⟩ := he
        refine ⟨a, ?_⟩
        have := gap_triangle (t e').pos (t e).pos (x a)
        rw [gap_comm (t e').pos (t e).pos] at this
        linarith
      rw [hview _ _ _ _ hc (hv e' h1)]
      rw [show shift e' = (shift e' - shift e) + shift e by simp, ← imageOf_imageOf, hshift _ _ _ (hE.lattice e)]
      simp
    · rw [not_le] at h
      rw [hfar _ _ (hp.hpos e) (hp.hpos e') (by have := hp.hle e; have := hp.hle e'; linarith)]
      refine (hfar (t (real (base e))) (imageOf sides (t (real (base e'))) (shift e' - shift e)) (hp.hpos _) (hp.hpos (real (base e'))) ?_).symm
      rw [hgap, sub_add_cancel, ← base_pos hE hp]
      have h1 := hp.hle (real (base e))
      have h2 : (imageOf sides (t (real (base e'))) (shift e' - shift e)).h ≤ H := hp.hle (real (base e'))
      linarith
  rw [Finset.sum_congr rfl fun e' _ => hterm e', ← List.sum_toFinset _ hl.nodup]
  refine Finset.sum_bij_ne_zero (fun e' _ _ => (base e', shift e' - shift e)) (fun e' _ h0 => ?_) (fun e1 _ _ e2 _ _ h => ?_) (fun q hq h0 => ?_) (fun e' _ _ => rfl)
  · rw [List.mem_toFinset, hl.mem]
    refine ⟨(hE.lattice _).sub (hE.lattice _), ?_⟩
    by_contra hcon
    exact h0 (hfar _ _ (hp.hpos _) (hp.hpos (real (base e'))) (not_le.mp hcon))
  · obtain ⟨h1, h2⟩ := Prod.mk.inj h
    exact hE.inj _ _ h1 (by simpa using h2)
  · obtain ⟨b, k⟩ := q
    rw [List.mem_toFinset, hl.mem] at hq
    obtain ⟨h1, h2⟩ := hq
    have h3 : gap (t e).pos (imageOf sides (t (real b)) (k + shift e)).pos ≤ H := by
      rw [← hgap]
      refine le_trans h2 ?_
      have h4 := hp.hle (real (base e))
      have h5 := hp.hle (real b)
      linarith
    obtain ⟨a, ha⟩ := he
    obtain ⟨e', h6, h7⟩ := hE.complete a b (k + shift e) (h1.add (hE.lattice e)) (by
      have h8 := gap_triangle (x a) (t e).pos (imageOf sides (t (real b)) (k + shift e)).pos
      rw [gap_comm (x a) (t e).pos] at h8
      have h9 : (imageOf sides (t (real b)) (k + shift e)).pos = fun j => x b j + (k + shift e) j * sides j := by
        show (fun j => (t (real b)).pos j + _) = _
        rw [real_pos hE hp]
      rw [h9] at h8 h3
      linarith)
    refine ⟨e', Finset.mem_univ _, ?_, ?_⟩
    · rw [h6, h7, add_sub_cancel_right]; exact h0
    · rw [h6, h7, add_sub_cancel_right]

/-- The list of neighbours on the torus exists. -/
theorem near_exists (hH : H ≤ halo) (a : Fin n) : ∃ l, Near sides periodic (fun a => t (real a)) (t (real a)) l := by
  classical
  refine ⟨((List.finRange N).filter fun e => gap (t (real a)).pos (t e).pos ≤ ((t (real a)).h + (t (real (base e))).h) / 2).map fun e => (base e, shift e), ?_, ?_⟩
  · refine List.Nodup.map_on ?_ ((List.nodup_finRange N).filter _)
    intro e _ e' _ h
    obtain ⟨h1, h2⟩ := Prod.mk.inj h
    exact hE.inj _ _ h1 h2
  · intro b k
    rw [List.mem_map]
    constructor
    · rintro ⟨e, he, hq⟩
      obtain ⟨rfl, rfl⟩ := Prod.mk.inj hq
      refine ⟨hE.lattice e, ?_⟩
      have := (List.mem_filter.mp he).2
      rw [decide_eq_true_eq, base_pos hE hp e] at this
      exact this
    · rintro ⟨h1, h2⟩
      have h3 : (imageOf sides (t (real b)) k).pos = fun j => x b j + k j * sides j := by
        show (fun j => (t (real b)).pos j + _) = _
        rw [real_pos hE hp]
      obtain ⟨e, h6, h7⟩ := hE.complete a b k h1 (by
        rw [← h3, ← real_pos hE hp a]
        refine le_trans h2 ?_
        have h4 := hp.hle (real a)
        have h5 := hp.hle (real b)
        linarith)
      refine ⟨e, List.mem_filter.mpr ⟨List.mem_finRange e, ?_⟩, by rw [h6, h7]⟩
      rw [decide_eq_true_eq, base_pos hE hp e, h6, h7]
      exact h2
end

/-- A function which adds up contributions of the neighbours: `φ` is what a neighbour contributes, `G` what is done with the sum. -/
structure SumForm (sides : Fin d → ℝ) (periodic : Fin d → Bool) {V : Type} (v : Particle d → V) (f : Particle d → List (Particle d) → Option (Particle d)) where
  M : Type
  [inst : AddCommMonoid M]
  φ : Particle d → Particle d → M
  G : Particle d → M → Option (Particle d)
  form : ∀ a l, l ≠ [] → (f a l).map core = G (core a) (l.map (φ a)).sum
  far : ∀ a b, 0 < a.h → 0 < b.h → (a.h + b.h) / 2 < gap a.pos b.pos → φ a b = 0
  view : ∀ a a' b b', core a = core a' → v b = v b' → φ a b = φ a' b'
  shift : ∀ a b k, Lattice periodic k → φ (imageOf sides a k) (imageOf sides b k) = φ a b
  shiftG : ∀ a m k, Lattice periodic k → G (imageOf sides a k) m = (G a m).map fun y => imageOf sides y k
  keepId : ∀ a l y, f a l = some y → y.id = a.id

section
variable {halo H r : ℝ} {x : Fin n → Point d} {base : Fin N → Fin n} {shift : Fin N → Fin d → ℤ} {real : Fin n → Fin N} (hE : IsExt sides periodic halo x base shift real) {t t' : Fin N → Particle d}
  (hp : Placed sides x base shift H t) {V : Type} {v : Particle d → V} {f : Particle d → List (Particle d) → Option (Particle d)} (S : SumForm sides periodic v f)
include hE hp S

/-- What a pass gives a particle or a ghost. -/
theorem pass_value (hv : Agree sides x base shift real v (r + H) t) (hr : r + H ≤ halo) {nbs : Fin N → List (Fin N)} (hn : NearLists t nbs) (e : Fin N) (he : Close x (t e).pos r)
    (hc : core (t e) = core (imageOf sides (t (real (base e))) (shift e))) {l : List (Fin n × (Fin d → ℤ))} (hl : Near sides periodic (fun a => t (real a)) (t (real (base e))) l) :
    (f (t e) ((nbs e).map t)).map core = ((f (t (real (base e))) (l.map fun q => imageOf sides (t (real q.1)) q.2)).map core).map fun y => imageOf sides y (shift e) := by
  let _ := S.inst
  have hself : e ∈ nbs e := hn.complete e e (by
    have := hp.hpos e
    simp; linarith)
  have hne : (nbs e).map t ≠ [] := by
    intro h
    rw [List.map_eq_nil_iff] at h
    rw [h] at hself; simp at hself
  have hmem : (base e, (0 : Fin d → ℤ)) ∈ l := by
    rw [hl.mem]
    refine ⟨Lattice.zero, ?_⟩
    rw [imageOf_zero]
    have := hp.hpos (real (base e))
    simp; linarith
  have hne' : (l.map fun q => imageOf sides (t (real q.1)) q.2) ≠ [] := by
    intro h
    rw [List.map_eq_nil_iff] at h
    rw [h] at hmem; simp at hmem
  rw [S.form _ _ hne, S.form _ _ hne', hc, core_imageOf, S.shiftG _ _ _ (hE.lattice e), List.map_map, List.map_map]
  congr 2
  have h1 := sum_torus hE hp S.far S.view S.shift hv hr e he hc hl
  refine Eq.trans ?_ h1
  rw [sum_list _ (hn.nodup e)]
  refine Finset.sum_congr rfl fun b _ => ?_
  simp only [Function.comp]
  split_ifs with hb
  · rfl
  · rw [S.far _ _ (hp.hpos e) (hp.hpos b)]
    by_contra hcon
    exact hb (hn.complete e b (not_lt.mp hcon))

/-- A pass with neighbour lists on particles and ghosts is a pass on the torus. -/
theorem pass_step (hv : Agree sides x base shift real v (r + H) t) (hc : Agree sides x base shift real core r t) (h0 : 0 ≤ r) (hr : r + H ≤ halo) {nbs : Fin N → List (Fin N)}
    (hn : NearLists t nbs) (ht : ∀ e, (f (t e) ((nbs e).map t)).map er = some (er (t' e))) (hpos : ∀ e, (t' e).pos = (t e).pos) :
    Pass sides periodic f (fun a => t (real a)) (fun a => t' (real a)) ∧ Agree sides x base shift real core r t' := by
  have hHh : H ≤ halo := by linarith
  have htc : ∀ e, (f (t e) ((nbs e).map t)).map core = some (core (t' e)) := by
    intro e
    have := congrArg (Option.map core) (ht e)
    rw [Option.map_map] at this
    exact this
  have hval : ∀ a l, Near sides periodic (fun a => t (real a)) (t (real a)) l → ∃ y, f (t (real a)) (l.map fun q => imageOf sides (t (real q.1)) q.2) = some y ∧ core y = core (t' (real a)) := by
    intro a l hl
    have h1 := pass_value hE hp S hv hr hn (real a) (close_real hE hp a h0) (hc _ (close_real hE hp a h0)) (l := l) (by rw [hE.base_real]; exact hl)
    rw [htc, hE.base_real, hE.shift_real] at h1
    obtain ⟨y', hy', h2⟩ := Option.map_eq_some_iff.mp h1.symm
    obtain ⟨y, hy, rfl⟩ := Option.map_eq_some_iff.mp hy'
    rw [imageOf_zero] at h2
    exact ⟨y, hy, h2⟩
  refine ⟨fun a => ?_, fun e he => ?_⟩
  · obtain ⟨l, hl⟩ := near_exists hE hp hHh a
    obtain ⟨y, hy, h2⟩ := hval a l hl
    refine ⟨l, y, hl, hy, ?_⟩
    have h3 : y.id = (t (real a)).id := S.keepId _ _ _ hy
    have h4 : (t' (real a)).id = (t (real a)).id := by
      obtain ⟨w, hw, h5⟩ := Option.map_eq_some_iff.mp (ht (real a))
      have h6 := S.keepId _ _ _ hw
      have h7 := congrArg Particle.id h5
      exact (show w.id = (t' (real a)).id from h7).symm.trans h6
    have h5 : ∀ p q : Particle d, core p = core q → p.id = q.id → er p = er q := by
      intro p q h hid
      have : ∀ p : Particle d, er p = { core p with id := p.id } := fun _ => rfl
      rw [this p, this q, h, hid]
    exact h5 _ _ h2 (h3.trans h4.symm)
  · rw [hpos] at he
    obtain ⟨l, hl⟩ := near_exists hE hp hHh (base e)
    obtain ⟨y, hy, h2⟩ := hval (base e) l hl
    have h1 := pass_value hE hp S hv hr hn e he (hc e he) hl
    rw [htc, hy] at h1
    rw [core_imageOf, ← h2]
    exact Option.some.inj h1
end

end FleCSPH.Torus
