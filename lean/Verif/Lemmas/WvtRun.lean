import Verif.Spec.RelaxRun
import Verif.Lemmas.WvtForces
import Verif.Lemmas.Driver
import Verif.Lemmas.DistRun
import Verif.Props.C53
import Verif.Props.C63
/-! Lemmas on whole runs of the relaxation. -/
namespace FleCSPH.Wvt
open FleCSPH.Geometry FleCSPH.Kernels FleCSPH.Spec
open FleCSPH.Sph (Particle passM accumulate)
open FleCSPH.Driver (applyAllM applyAllM_iff)

variable {i : Fin 3} {n : Nat}

theorem shrink_some {d : Nat} (b : ℝ) (x a : Point d) : ∀ (f : Nat) (mu : ℝ), mu < 2 ^ f * (1 / 10 ^ 10) → ∃ m, shrink b x a (f + 1) mu = some m
  | 0, mu, h => by
    refine ⟨mu, ?_⟩
    unfold shrink
    rw [if_neg]
    rintro ⟨-, h'⟩
    rw [pow_zero, one_mul] at h
    exact lt_asymm h' h
  | f + 1, mu, h => by
    by_cases hc : mag (moved x a mu) / b > 101 / 100 ∧ mu > 1 / 10 ^ 10
    · obtain ⟨m, hm⟩ := shrink_some b x a f (mu * (1 / 2)) (by rw [pow_succ] at h; linarith)
      refine ⟨m, ?_⟩
      unfold shrink
      rw [if_pos hc]
      exact hm
    · refine ⟨mu, ?_⟩
      unfold shrink
      rw [if_neg hc]

theorem shrink_mono {d : Nat} (b : ℝ) (x a : Point d) : ∀ (f g : Nat) (mu m : ℝ), f ≤ g → shrink b x a f mu = some m → shrink b x a g mu = some m
  | 0, _, _, _, _, h => by unfold shrink at h; cases h
  | f + 1, 0, _, _, hg, _ => by omega
  | f + 1, g + 1, mu, m, hg, h => by
    unfold shrink at h ⊢
    split at h
    · rename_i hc
      rw [if_pos hc]
      exact shrink_mono b x a f g _ m (by omega) h
    · rename_i hc
      rw [if_neg hc]
      exact h

/-- The displacement of a particle, with a number of halvings which depends on the step size only. -/
theorem displace_ok (i : Fin 3) (b : ℝ) (hb : 0 < b) (x a : Point (i + 1)) (mu : ℝ) (hmu : 0 ≤ mu) (f fuel : Nat) (hf : mu < 2 ^ f * (1 / 10 ^ 10)) (hfuel : f + 1 ≤ fuel)
    (h : length x + 1 / 10 ^ 10 * length a ≤ 3 * b) : ∃ q, displace i b x a mu fuel = some q ∧ length q ≤ b := by
  obtain ⟨q, f0, h1, h2⟩ := C53_stays_partial i b hb x a mu hmu (by rw [radius_eq, radius_eq, ← length_eq, ← length_eq]; exact h)
  refine ⟨q, ?_, by rw [length_eq, ← radius_eq]; exact h2⟩
  obtain ⟨m, hm⟩ := shrink_some b x a f mu hf
  have e1 := shrink_mono b x a (f + 1) fuel mu m hfuel hm
  have e2 := shrink_mono b x a (f + 1) (max fuel f0) mu m (hfuel.trans (le_max_left _ _)) hm
  rw [← h1 (max fuel f0) (le_max_right _ _)]
  unfold displace
  rw [e1, e2]

theorem stepSize_ok (S : Setup) (hmu : 0 ≤ S.mu) (k : Int) (hk : k ≤ S.run.final + S.run.coolDown) :
    ∃ m, stepSize S.mu S.run.final S.run.coolDown k = some m ∧ 0 ≤ m ∧ m ≤ S.mu := by
  unfold stepSize
  by_cases h : k > S.run.final
  · have hc : 0 < S.run.coolDown := by omega
    rw [if_pos h, if_neg hc.ne']
    refine ⟨_, rfl, le_max_right _ _, max_le ?_ hmu⟩
    have hcR : (0 : ℝ) < (S.run.coolDown : ℝ) := by exact_mod_cast hc
    have hkR : (0 : ℝ) ≤ ((k - S.run.final : Int) : ℝ) := by exact_mod_cast (by omega : (0 : Int) ≤ k - S.run.final)
    have h1 : 0 ≤ 1 / 10 * S.mu / (S.run.coolDown : ℝ) * ((k - S.run.final : Int) : ℝ) := mul_nonneg (div_nonneg (by linarith) hcR.le) hkR
    have e : -(1 / 10) * S.mu / (S.run.coolDown : ℝ) * ((k - S.run.final : Int) : ℝ) = -(1 / 10 * S.mu / (S.run.coolDown : ℝ) * ((k - S.run.final : Int) : ℝ)) := by ring
    rw [e]
    linarith
  · rw [if_neg h]
    exact ⟨_, rfl, hmu, le_rfl⟩

theorem kernelWidth_pos (κ : Kernel) : 0 < kernelWidth κ := by
  unfold kernelWidth
  split <;> norm_num

theorem ball_pos (i : Fin 3) {h : ℝ} (hh : 0 < h) : 0 < ball i h := by
  have := Real.pi_pos
  fin_cases i
  · show 0 < 2 * h; positivity
  · show 0 < Real.pi * (h * h); positivity
  · show 0 < Real.pi * 4 * (h * h * h) / 3; positivity

/-- The volume of a ball increases with its radius. -/
theorem ball_le_of (i : Fin 3) {h g : ℝ} (hh : 0 < h) (hg : 0 < g) (hle : ball i h ≤ ball i g) : h ≤ g := by
  have hp := Real.pi_pos
  by_contra hlt
  push Not at hlt
  refine absurd hle (not_le.2 ?_)
  fin_cases i
  · show 2 * g < 2 * h; linarith
  · show Real.pi * (g * g) < Real.pi * (h * h)
    exact mul_lt_mul_of_pos_left (mul_lt_mul'' hlt hlt hg.le hg.le) hp
  · show Real.pi * 4 * (g * g * g) / 3 < Real.pi * 4 * (h * h * h) / 3
    have h1 : g * g * g < h * h * h := mul_lt_mul'' (mul_lt_mul'' hlt hlt hg.le hg.le) hlt (by positivity) hg.le
    have h2 := mul_lt_mul_of_pos_left h1 hp
    linarith

/-- With the smoothing length set by the number of neighbours a ball holds that many particles. -/
theorem ball_byNumber (i : Fin 3) (f : Profile) {m rho : ℝ} (hn : 0 < f.ngb) (hm : 0 < m) (hr : 0 < rho) :
    0 < byNumber f m rho i ∧ ball i (byNumber f m rho i) * rho = f.ngb * m := by
  have hp := Real.pi_pos
  fin_cases i
  · constructor
    · show 0 < f.ngb * m / (2 * rho); positivity
    · show 2 * (f.ngb * m / (2 * rho)) * rho = f.ngb * m
      field_simp
  · constructor
    · show 0 < √(f.ngb * m / (Real.pi * rho)); positivity
    · show Real.pi * (√(f.ngb * m / (Real.pi * rho)) * √(f.ngb * m / (Real.pi * rho))) * rho = f.ngb * m
      rw [Real.mul_self_sqrt (by positivity)]
      field_simp
  · have hv : 0 < f.ngb * m / (4 * Real.pi * rho / 3) := by positivity
    constructor
    · exact Real.rpow_pos_of_pos hv _
    · show Real.pi * 4 * ((f.ngb * m / (4 * Real.pi * rho / 3)) ^ ((1 : ℝ) / 3) * (f.ngb * m / (4 * Real.pi * rho / 3)) ^ ((1 : ℝ) / 3) *
        (f.ngb * m / (4 * Real.pi * rho / 3)) ^ ((1 : ℝ) / 3)) / 3 * rho = f.ngb * m
      have h1 : ((f.ngb * m / (4 * Real.pi * rho / 3)) ^ ((1 : ℝ) / 3)) ^ 3 = f.ngb * m / (4 * Real.pi * rho / 3) := by
        rw [← Real.rpow_natCast, ← Real.rpow_mul hv.le]
        norm_num
      rw [← pow_three', h1]
      field_simp

section run
variable {S : Setup} {M ρ H : ℝ} {N : Nat} (hS : Meaningful S i M ρ H N)

include hS in
theorem byMass_ok {m rho : ℝ} (hm : 0 < m ∧ m ≤ M) (hr : ρ ≤ rho) : 0 < byMass S.profile S.forces.kernel i m rho ∧ byMass S.profile S.forces.kernel i m rho ≤ H := by
  have hk := kernelWidth_pos S.forces.kernel
  have he := hS.eta
  have hr0 : 0 < rho := lt_of_lt_of_le hS.rho hr
  unfold byMass
  refine ⟨mul_pos (mul_pos he hk) (Real.rpow_pos_of_pos (div_pos hm.1 hr0) _), le_trans ?_ hS.largest⟩
  refine mul_le_mul_of_nonneg_left (Real.rpow_le_rpow (div_nonneg hm.1.le hr0.le) ?_ (by positivity)) (by positivity)
  exact div_le_div₀ hS.mass.le hm.2 hS.rho hr

include hS in
theorem H_pos : 0 < H := by
  have h := byMass_ok hS ⟨hS.mass, le_rfl⟩ (le_refl ρ)
  exact lt_of_lt_of_le h.1 h.2

include hS in
theorem newLength_ok {m rho : ℝ} (hm : 0 < m ∧ m ≤ M) (hr : ρ ≤ rho) :
    0 < newLength S.profile S.forces.kernel i m rho ∧ newLength S.profile S.forces.kernel i m rho ≤ H := by
  have hr0 : 0 < rho := lt_of_lt_of_le hS.rho hr
  unfold newLength
  rw [if_neg hr0.ne']
  by_cases hb : S.profile.byNeighbours = true
  · rw [if_pos hb]
    obtain ⟨h1, h2⟩ := ball_byNumber i S.profile hS.ngb hm.1 hr0
    refine ⟨h1, ball_le_of i h1 (H_pos hS) ?_⟩
    have h3 := hS.number hb
    have hB := (ball_pos i (H_pos hS)).le
    have h4 : ball i (byNumber S.profile m rho i) * rho ≤ ball i H * rho := by
      rw [h2]
      calc S.profile.ngb * m ≤ S.profile.ngb * M := mul_le_mul_of_nonneg_left hm.2 hS.ngb.le
        _ ≤ ball i H * ρ := h3
        _ ≤ ball i H * rho := mul_le_mul_of_nonneg_left hr hB
    exact le_of_mul_le_mul_right h4 hr0
  · rw [if_neg hb]
    exact byMass_ok hS hm hr

theorem cap_eq (p : Forces) (i : Fin 3) : cap p i = largestPush p i := rfl

include hS in
theorem usable : Usable S.forces := fun _ => hS.kernel

/-- What stays the same in a pass. -/
def fixed (a : Particle (i + 1)) : Nat × ℝ × ℝ × Point (i + 1) := (a.id, a.mass, a.h, a.pos)

theorem InSphere.of_fixed {s t : Fin n → Particle (i + 1)} (h : InSphere S M H s) (ht : ∀ a, fixed (t a) = fixed (s a)) : InSphere S M H t := by
  have hm : ∀ a, (t a).mass = (s a).mass := fun a => congrArg (fun q => q.2.1) (ht a)
  have hh : ∀ a, (t a).h = (s a).h := fun a => congrArg (fun q => q.2.2.1) (ht a)
  have hp : ∀ a, (t a).pos = (s a).pos := fun a => congrArg (fun q => q.2.2.2) (ht a)
  exact ⟨fun a => by rw [hp]; exact h.inside a, fun a => by rw [hm]; exact h.mass a, fun a => by rw [hh]; exact h.h a⟩

theorem magnitude_length {d : Nat} (x y : Point d) : magnitude (x - y) = length fun k => x k - y k := by
  unfold magnitude length
  simp only [sq]
  rfl

/-- The sum of `wvtDensity`. -/
theorem density_sum (κ : Kernel) (s : Fin n → Particle (i + 1)) (l : List (Fin n)) (a : Fin n) :
    (accumulate (l.map s) fun b => b.mass * kernel κ i (magnitude ((s a).pos - b.pos)) (1 / 2 * ((s a).h + b.h))) = kernelSum κ s l a := by
  unfold kernelSum
  rw [Sph.accumulate_eq, List.map_map]
  congr 1
  refine List.map_congr_left fun b _ => ?_
  simp only [Function.comp_apply]
  rw [magnitude_length, show (1 : ℝ) / 2 * ((s a).h + (s b).h) = ((s a).h + (s b).h) / 2 by ring]

include hS in
theorem kernelSum_pos {s : Fin n → Particle (i + 1)} (h : InSphere S M H s) {l : List (Fin n)} {a : Fin n} (ha : a ∈ l) : 0 < kernelSum S.forces.kernel s l a := by
  unfold kernelSum
  have h0 : ∀ b, 0 ≤ (s b).mass * kernel S.forces.kernel i (length fun k => (s a).pos k - (s b).pos k) (((s a).h + (s b).h) / 2) := fun b =>
    mul_nonneg (h.mass b).1.le (kernel_nonneg hS.kernel i (by linarith [(h.h a).1, (h.h b).1]) (length_nonneg _))
  refine lt_of_lt_of_le ?_ (List.single_le_sum (fun x hx => by obtain ⟨b, -, rfl⟩ := List.mem_map.1 hx; exact h0 b) _ (List.mem_map.2 ⟨a, ha, rfl⟩))
  refine mul_pos (h.mass a).1 (kernel_pos hS.kernel i (length_nonneg _) ?_)
  have : length (fun k => (s a).pos k - (s a).pos k) = 0 := by simp [length]
  rw [this]
  linarith [(h.h a).1]

/-- The acceleration is a number. -/
theorem force_some (p : Forces) (a : Particle (i + 1)) (nbs : List (Particle (i + 1))) (h : p.edge = .frozen → a.h ≤ p.radius) : ∃ v, wvtForce p i a nbs = some v := by
  rw [wvtForce_eq]
  split
  · split
    · rename_i h1 h2
      have hx : a.pos ≠ 0 := fun h0 => by
        have h3 := h h2.1
        have h4 := h2.2
        rw [h0, Wvt.length_zero] at h4
        linarith
      exact ⟨_, removeRadial_eq _ _ hx⟩
    · exact ⟨_, rfl⟩
  · exact ⟨_, rfl⟩

include hS in
theorem passes_ok {w : Search i n} (hw : Searches w N) (k : Int) {s : Fin n → Particle (i + 1)} (h : InSphere S M H s) :
    ∃ t, passes S w k s = some t ∧ (∀ a, fixed (t a) = fixed (s a)) ∧ (∀ a, length (t a).acc ≤ (4 * N + 2) * H * largestPush S.forces i) ∧
      (∀ a, (t a).rho = kernelSum S.forces.kernel s (w.lists s a) a) ∧ ∃ s1 : Fin n → Particle (i + 1), (∀ a, fixed (s1 a) = fixed (s a)) ∧
        ∀ a, wvtForce S.forces i (s1 a) ((w.lists s1 a).map s1) = some (t a).acc := by
  obtain ⟨s1, hs1, hfix1⟩ := Driver.passM_some (wvtDensity S.forces.kernel i) (fun u => ∀ a, fixed (u a) = fixed (s a)) (w.lists s) (fun u a hu => by
    have hu' := InSphere.of_fixed h hu
    have hpos := kernelSum_pos hS hu' (hw.self s a)
    refine ⟨{ u a with rho := kernelSum S.forces.kernel u (w.lists s a) a }, ?_, fun c => ?_⟩
    · unfold wvtDensity
      simp only [density_sum]
      rw [if_pos ⟨by rw [List.length_map]; exact List.length_pos_of_mem (hw.self s a), hpos⟩]
    · by_cases hc : c = a
      · subst hc; rw [Function.update_self]; exact hu c
      · rw [Function.update_of_ne hc]; exact hu c) (w.order k false) s (fun _ => rfl)
  have hrho : ∀ a, (s1 a).rho = kernelSum S.forces.kernel s (w.lists s a) a := fun a => by
    have h1 := passM_eq (wvtDensity S.forces.kernel i) (fun b => { b with rho := 0 }) (wvtDensity S.forces.kernel i) (fun a l => by
      unfold wvtDensity
      simp only [Sph.accumulate_eq, List.map_map, List.length_map]
      rfl) (fun a l x hx => by
      unfold wvtDensity at hx
      simp only at hx
      split at hx
      · obtain rfl := Option.some_inj.1 hx; rfl
      · cases hx) (w.lists s) (w.order k false) (hw.order k false) s s1 hs1 a
    unfold wvtDensity at h1
    simp only [density_sum] at h1
    split at h1
    · rw [← Option.some_inj.1 h1]
    · cases h1
  have hin1 := InSphere.of_fixed h hfix1
  obtain ⟨t, ht, hfix⟩ := Driver.passM_some (wvtAcceleration S.forces i) (fun u => ∀ a, fixed (u a) = fixed (s1 a) ∧ (u a).rho = (s1 a).rho) (w.lists s1) (fun u a hu => by
    have hua : (u a).h = (s1 a).h := congrArg (fun q => q.2.2.1) (hu a).1
    obtain ⟨v, hv⟩ := force_some S.forces (u a) ((w.lists s1 a).map u) fun he => by rw [hua]; exact (hin1.h a).2.trans (hS.frozen he)
    refine ⟨{ u a with acc := v }, by unfold wvtAcceleration; rw [hv]; rfl, fun c => ?_⟩
    by_cases hc : c = a
    · subst hc; rw [Function.update_self]; exact hu c
    · rw [Function.update_of_ne hc]; exact hu c) (w.order k true) s1 (fun _ => ⟨rfl, rfl⟩)
  have hforce : ∀ a, wvtForce S.forces i (s1 a) ((w.lists s1 a).map s1) = some (t a).acc := fun a => by
    have h1 := passM_eq (wvtAcceleration S.forces i) (fun b => { b with acc := 0 }) (wvtAcceleration S.forces i) (fun a l => by
      unfold wvtAcceleration wvtForce
      have e : ∀ (l : List (Particle (i + 1))) acc, (l.map fun b => { b with acc := 0 }).foldl (fromNeighbour S.forces i a) acc = l.foldl (fromNeighbour S.forces i a) acc := by
        intro l
        induction l with
        | nil => intro acc; rfl
        | cons x l ih => intro acc; exact ih _
      rw [e]) (fun a l x hx => by
      unfold wvtAcceleration at hx
      obtain ⟨v, -, rfl⟩ := Option.map_eq_some_iff.1 hx
      rfl) (w.lists s1) (w.order k true) (hw.order k true) s1 t ht a
    unfold wvtAcceleration at h1
    obtain ⟨v, hv, e⟩ := Option.map_eq_some_iff.1 h1
    rw [hv, ← e]
  refine ⟨t, ?_, fun a => by rw [(hfix a).1, hfix1 a], fun a => ?_, fun a => by rw [(hfix a).2, hrho a], s1, hfix1, hforce⟩
  · unfold passes
    rw [hs1, Option.bind_some]
    exact ht
  · have h2 := force_le (usable hS) i (s1 a) ((w.lists s1 a).map s1) (hin1.h a).1 (hin1.h a).2 (fun nb hnb => by
      obtain ⟨b, -, rfl⟩ := List.mem_map.1 hnb
      exact hin1.h b) _ (hforce a)
    rw [List.length_map, cap_eq] at h2
    refine h2.trans ?_
    rw [mul_assoc]
    have h3 : 0 ≤ H * largestPush S.forces i := mul_nonneg (H_pos hS).le (by rw [← cap_eq]; exact cap_nonneg (usable hS) i)
    refine mul_le_mul_of_nonneg_right ?_ h3
    have : ((w.lists s1 a).length : ℝ) ≤ N := by exact_mod_cast hw.few s1 a
    linarith

include hS in
theorem rescaleAll_ok (hv : S.variableH = true) (hn : 0 < n) {s : Fin n → Particle (i + 1)} (h : InSphere S M H s) :
    ∃ t, rescaleAll S s = some t ∧ InSphere S M H t ∧ ∀ a, (t a).id = (s a).id ∧ (t a).mass = (s a).mass ∧ (t a).pos = (s a).pos := by
  obtain ⟨T, hT⟩ : ∃ T, T = reduceSum [List.ofFn fun a => (s a).h] (ball i) := ⟨_, rfl⟩
  have hT' : T = ((List.ofFn fun a => (s a).h).map (ball i)).sum := by rw [hT]; simp [reduceSum]
  have hle : ∀ a, ball i (s a).h ≤ T := fun a => by
    rw [hT']
    refine List.single_le_sum (fun x hx => ?_) _ (List.mem_map.2 ⟨(s a).h, by simp, rfl⟩)
    obtain ⟨y, hy, rfl⟩ := List.mem_map.1 hx
    rw [List.mem_ofFn] at hy
    obtain ⟨b, rfl⟩ := hy
    exact (ball_pos i (h.h b).1).le
  have hT0 : 0 < T := lt_of_lt_of_le (ball_pos i (h.h ⟨0, hn⟩).1) (hle ⟨0, hn⟩)
  have hbb := ball_pos i hS.radius
  obtain ⟨c, hc⟩ : ∃ c, c = ball i S.forces.radius * S.profile.ngb / T := ⟨_, rfl⟩
  have hc0 : 0 < c := by rw [hc]; exact div_pos (mul_pos hbb hS.ngb) hT0
  have hroot : 0 < root i c := by
    fin_cases i
    · exact hc0
    · exact Real.sqrt_pos.2 hc0
    · exact Real.rpow_pos_of_pos hc0 _
  refine ⟨fun a => { s a with h := (s a).h * root i c }, ?_, ⟨h.inside, h.mass, fun a => ⟨mul_pos (h.h a).1 hroot, ?_⟩⟩, fun a => ⟨rfl, rfl, rfl⟩⟩
  · unfold rescaleAll
    simp only
    rw [← hT, if_neg hT0.ne', hc]
  · refine ball_le_of i (mul_pos (h.h a).1 hroot) (H_pos hS) ?_
    rw [ball_scale i _ _ hc0.le]
    refine le_trans ?_ (hS.lengths hv)
    rw [hc, div_mul_eq_mul_div, div_le_iff₀ hT0]
    exact mul_le_mul_of_nonneg_left (hle a) (mul_pos hbb hS.ngb).le

include hS in
theorem density_ok {x : Point (i + 1)} (hx : length x ≤ S.forces.radius) : ρ ≤ S.profile.density (mag x) := by
  rw [← length_eq]
  exact hS.density _ (length_nonneg x) hx

include hS in
theorem displacement_ok (f fuel : Nat) (hf : S.mu < 2 ^ f * (1 / 10 ^ 10)) (hfuel : f + 1 ≤ fuel) {m : ℝ} (hm0 : 0 ≤ m) (hm : m ≤ S.mu) {s : Fin n → Particle (i + 1)}
    (h : InSphere S M H s) (hacc : ∀ a, length (s a).acc ≤ (4 * N + 2) * H * largestPush S.forces i) :
    ∃ t, applyAllM (wvtDisplacement S.profile S.forces.kernel i S.forces.radius m fuel) s = some t ∧ InSphere S M H t ∧
      ∀ a, (t a).id = (s a).id ∧ (t a).mass = (s a).mass ∧ displace i S.forces.radius (s a).pos (s a).acc m fuel = some (t a).pos ∧
        (t a).h = newLength S.profile S.forces.kernel i (s a).mass (S.profile.density (length (t a).pos)) := by
  have hb := hS.radius
  have hd : ∀ a, ∃ q, displace i S.forces.radius (s a).pos (s a).acc m fuel = some q ∧ length q ≤ S.forces.radius := fun a => by
    refine displace_ok i S.forces.radius hb (s a).pos (s a).acc m hm0 f fuel (lt_of_le_of_lt hm hf) hfuel ?_
    have h1 := h.inside a
    have h2 := (hacc a).trans hS.slow
    have h3 : 1 / 10 ^ 10 * length (s a).acc ≤ 2 * S.forces.radius := by
      rw [one_div, inv_mul_le_iff₀ (by norm_num)]
      linarith
    linarith
  choose q hq1 hq2 using hd
  refine ⟨fun a => { s a with h := newLength S.profile S.forces.kernel i (s a).mass (S.profile.density (mag (q a))), pos := q a, rho := S.profile.density (mag (q a)) },
    (applyAllM_iff _ _ _).mpr fun a => ?_, ⟨hq2, h.mass, fun a => newLength_ok hS (h.mass a) (density_ok hS (hq2 a))⟩,
    fun a => ⟨rfl, rfl, hq1 a, by show newLength _ _ _ _ _ = _; rw [length_eq]⟩⟩
  unfold wvtDisplacement
  rw [hq1 a, Option.bind_some, if_neg]
  rintro (h0 | h0)
  · exact hS.center h0
  · exact hS.sphere.ne' h0

include hS in
theorem setDensity_ok {s : Fin n → Particle (i + 1)} (h : InSphere S M H s) :
    ∃ t, applyAllM (wvtSetDensity S.profile S.forces.kernel i) s = some t ∧ InSphere S M H t ∧
      ∀ a, (t a).id = (s a).id ∧ (t a).mass = (s a).mass ∧ (t a).pos = (s a).pos ∧ (t a).rho = S.profile.density (length (s a).pos) ∧
        (t a).h = byMass S.profile S.forces.kernel i (s a).mass (S.profile.density (length (s a).pos)) := by
  refine ⟨fun a => { s a with h := byMass S.profile S.forces.kernel i (s a).mass (S.profile.density (mag (s a).pos)), rho := S.profile.density (mag (s a).pos) },
    (applyAllM_iff _ _ _).mpr fun a => ?_, ⟨h.inside, h.mass, fun a => byMass_ok hS (h.mass a) (density_ok hS (h.inside a))⟩,
    fun a => ⟨rfl, rfl, rfl, by rw [length_eq], by show byMass _ _ _ _ _ = _; rw [length_eq]⟩⟩
  unfold wvtSetDensity
  rw [if_neg]
  rintro (h0 | h0 | h0)
  · exact hS.center h0
  · exact hS.sphere.ne' h0
  · have := density_ok hS (h.inside a)
    have := hS.rho
    linarith

theorem fromNeighbour_congr (p : Forces) {a a' b b' : Particle (i + 1)} (ha : a.pos = a'.pos ∧ a.h = a'.h) (hb : b.pos = b'.pos ∧ b.h = b'.h) (acc : Point (i + 1)) :
    fromNeighbour p i a acc b = fromNeighbour p i a' acc b' := by
  unfold fromNeighbour
  rw [ha.1, ha.2, hb.1, hb.2]

/-- The force depends on positions and smoothing lengths only. -/
theorem wvtForce_congr (p : Forces) {s t : Fin n → Particle (i + 1)} (h : ∀ a, (s a).pos = (t a).pos ∧ (s a).h = (t a).h) (l : List (Fin n)) (a : Fin n) :
    wvtForce p i (s a) (l.map s) = wvtForce p i (t a) (l.map t) := by
  have e : ∀ (l : List (Fin n)) acc, (l.map s).foldl (fromNeighbour p i (s a)) acc = (l.map t).foldl (fromNeighbour p i (t a)) acc := by
    intro l
    induction l with
    | nil => intro acc; rfl
    | cons x l ih =>
      intro acc
      simp only [List.map_cons, List.foldl_cons]
      rw [fromNeighbour_congr p (h a) (h x), ih]
  unfold wvtForce fromOwnImage
  simp only [e, (h a).1, (h a).2]

theorem kernelSum_congr (κ : Kernel) {s t : Fin n → Particle (i + 1)} (h : ∀ a, fixed (s a) = fixed (t a)) (l : List (Fin n)) (a : Fin n) : kernelSum κ s l a = kernelSum κ t l a := by
  have hm : ∀ a, (s a).mass = (t a).mass := fun a => congrArg (fun q => q.2.1) (h a)
  have hh : ∀ a, (s a).h = (t a).h := fun a => congrArg (fun q => q.2.2.1) (h a)
  have hp : ∀ a, (s a).pos = (t a).pos := fun a => congrArg (fun q => q.2.2.2) (h a)
  unfold kernelSum
  simp only [hm, hh, hp]

theorem fixed_ph {a b : Particle (i + 1)} (h : fixed a = fixed b) : a.pos = b.pos ∧ a.h = b.h := ⟨congrArg (fun q => q.2.2.2) h, congrArg (fun q => q.2.2.1) h⟩

theorem fixed_im {a b : Particle (i + 1)} (h : fixed a = fixed b) : a.id = b.id ∧ a.mass = b.mass := ⟨congrArg (fun q => q.1) h, congrArg (fun q => q.2.1) h⟩

/-- The passes, in terms of their result. -/
theorem passes_result (hS : Meaningful S i M ρ H N) {w : Search i n} (hw : Searches w N) (k : Int) {s : Fin n → Particle (i + 1)} (h : InSphere S M H s) :
    ∃ t, passes S w k s = some t ∧ (∀ a, fixed (t a) = fixed (s a)) ∧ (∀ a, length (t a).acc ≤ (4 * N + 2) * H * largestPush S.forces i) ∧
      ∀ a, (t a).rho = kernelSum S.forces.kernel t (w.lists t a) a ∧ wvtForce S.forces i (t a) ((w.lists t a).map t) = some (t a).acc := by
  obtain ⟨t, h1, h2, h3, h4, s1, h5, h6⟩ := passes_ok hS hw k h
  refine ⟨t, h1, h2, h3, fun a => ⟨?_, ?_⟩⟩
  · rw [h4 a, kernelSum_congr _ h2, hw.same t s fun a => fixed_ph (h2 a)]
  · have e : ∀ a, fixed (t a) = fixed (s1 a) := fun a => (h2 a).trans (h5 a).symm
    rw [hw.same t s1 fun a => fixed_ph (e a), wvtForce_congr _ fun a => fixed_ph (e a)]
    exact h6 a

/-- What holds of the particles at the end of an iteration, before the density may be reset. -/
def Settled (S : Setup) (M H : ℝ) (N : Nat) (w : Search i n) (t : Fin n → Particle (i + 1)) : Prop :=
  InSphere S M H t ∧ (∀ a, length (t a).acc ≤ (4 * N + 2) * H * largestPush S.forces i) ∧
    ∀ a, (t a).rho = kernelSum S.forces.kernel t (w.lists t a) a ∧ wvtForce S.forces i (t a) ((w.lists t a).map t) = some (t a).acc

/-- How an iteration moves the particles. -/
def Moved (S : Setup) (fuel : Nat) (k : Int) (s t : Fin n → Particle (i + 1)) : Prop :=
  (∀ a, (t a).id = (s a).id ∧ (t a).mass = (s a).mass) ∧ (k = S.run.initial → ∀ a, (t a).pos = (s a).pos ∧ (t a).h = (s a).h) ∧
    (k ≠ S.run.initial → ∃ m, stepSize S.mu S.run.final S.run.coolDown k = some m ∧ ∀ a, displace i S.forces.radius (s a).pos (s a).acc m fuel = some (t a).pos ∧
      (S.variableH = false → (t a).h = newLength S.profile S.forces.kernel i (s a).mass (S.profile.density (length (t a).pos))))

theorem iteration_ok (hS : Meaningful S i M ρ H N) {w : Search i n} (hw : Searches w N) (hn : 0 < n) (f fuel : Nat) (hf : S.mu < 2 ^ f * (1 / 10 ^ 10)) (hfuel : f + 1 ≤ fuel) (k : Int)
    (hk : k ≤ S.run.final + S.run.coolDown) {s : Fin n → Particle (i + 1)} (h : InSphere S M H s)
    (hacc : k ≠ S.run.initial → ∀ a, length (s a).acc ≤ (4 * N + 2) * H * largestPush S.forces i) :
    ∃ t, iteration S w fuel k s = some t ∧ Settled S M H N w t ∧ Moved S fuel k s t := by
  by_cases hi : k = S.run.initial
  · obtain ⟨t, h1, h2, h3, h4⟩ := passes_result hS hw k h
    refine ⟨t, ?_, ⟨InSphere.of_fixed h h2, h3, h4⟩, fun a => fixed_im (h2 a), fun _ a => fixed_ph (h2 a), fun h' => absurd hi h'⟩
    unfold iteration
    rw [if_pos (by unfold Run.step; rw [if_pos hi])]
    exact h1
  · obtain ⟨m, hm, hm0, hm1⟩ := stepSize_ok S hS.mu k hk
    obtain ⟨s1, d1, d2, d3⟩ := displacement_ok hS f fuel hf hfuel hm0 hm1 h (hacc hi)
    have hr : ∃ s2, (if S.variableH then rescaleAll S s1 else some s1) = some s2 ∧ InSphere S M H s2 ∧
        (∀ a, (s2 a).id = (s1 a).id ∧ (s2 a).mass = (s1 a).mass ∧ (s2 a).pos = (s1 a).pos) ∧ (S.variableH = false → s2 = s1) := by
      by_cases hv : S.variableH = true
      · obtain ⟨s2, r1, r2, r3⟩ := rescaleAll_ok hS hv hn d2
        exact ⟨s2, by rw [if_pos hv]; exact r1, r2, r3, fun h0 => by rw [hv] at h0; cases h0⟩
      · exact ⟨s1, by rw [if_neg hv], d2, fun _ => ⟨rfl, rfl, rfl⟩, fun _ => rfl⟩
    obtain ⟨s2, r1, r2, r3, r4⟩ := hr
    obtain ⟨t, h1, h2, h3, h4⟩ := passes_result hS hw k r2
    refine ⟨t, ?_, ⟨InSphere.of_fixed r2 h2, h3, h4⟩, fun a => ?_, fun h' => absurd h' hi, fun _ => ⟨m, hm, fun a => ?_⟩⟩
    · unfold iteration
      rw [if_neg (by unfold Run.step; rw [if_neg hi]; split <;> simp), hm, Option.bind_some, d1, Option.bind_some, r1, Option.bind_some]
      exact h1
    · rw [(fixed_im (h2 a)).1, (fixed_im (h2 a)).2, (r3 a).1, (r3 a).2.1]
      exact ⟨(d3 a).1, (d3 a).2.1⟩
    · rw [(fixed_ph (h2 a)).1, (fixed_ph (h2 a)).2, (r3 a).2.2]
      refine ⟨(d3 a).2.2.1, fun hv => ?_⟩
      rw [r4 hv]
      exact (d3 a).2.2.2

theorem applyAllM_mono {P : Type} {f g : P → Option P} (h : ∀ a x, f a = some x → g a = some x) {s t : Fin n → P} (hs : applyAllM f s = some t) : applyAllM g s = some t :=
  (applyAllM_iff _ _ _).mpr fun a => h _ _ ((applyAllM_iff _ _ _).mp hs a)

theorem displace_mono {i : Fin 3} {b : ℝ} {x a : Point (i + 1)} {mu : ℝ} {f g : Nat} (hfg : f ≤ g) {q : Point (i + 1)} (h : displace i b x a mu f = some q) : displace i b x a mu g = some q := by
  unfold displace at h ⊢
  split at h
  · cases h
  · rename_i hb
    rw [if_neg hb]
    obtain ⟨m, hm, e⟩ := Option.bind_eq_some_iff.1 h
    rw [shrink_mono b x a f g mu m hfg hm]
    exact e

theorem iteration_mono (w : Search i n) {f g : Nat} (hfg : f ≤ g) (k : Int) {s t : Fin n → Particle (i + 1)} (h : iteration S w f k s = some t) : iteration S w g k s = some t := by
  unfold iteration at h ⊢
  split at h
  · rename_i hi
    rw [if_pos hi]
    exact h
  · rename_i hi
    rw [if_neg hi]
    obtain ⟨m, hm, h⟩ := Option.bind_eq_some_iff.1 h
    obtain ⟨s1, hs1, h⟩ := Option.bind_eq_some_iff.1 h
    rw [hm, Option.bind_some, applyAllM_mono (fun a x hx => ?_) hs1, Option.bind_some]
    · exact h
    · unfold wvtDisplacement at hx ⊢
      obtain ⟨q, hq, e⟩ := Option.bind_eq_some_iff.1 hx
      rw [displace_mono hfg hq]
      exact e

theorem converged_some (hng : S.profile.ngb ≠ 0) (hn : 0 < n) (k : Int) (s : Fin n → Particle (i + 1)) (old : Bool) : ∃ c, converged S k s old = some c := by
  unfold converged
  split
  · unfold checkConvergence
    simp only
    rw [if_neg]
    · exact ⟨_, rfl⟩
    · rintro (h | h)
      · simp at h; omega
      · exact hng h
  · exact ⟨_, rfl⟩

/-- How an iteration leads from the particles `s` to the record `p`. -/
def Link (S : Setup) (M H : ℝ) (N : Nat) (w : Search i n) (fuel : Nat) (k : Int) (s : Fin n → Particle (i + 1)) (p : Record × (Fin n → Particle (i + 1))) : Prop :=
  ∃ t c, Settled S M H N w t ∧ Moved S fuel k s t ∧ converged S k t false = some c ∧ p.1.iteration = k ∧ p.1.reset = (c || decide (k = S.run.final + S.run.coolDown)) ∧
    (p.1.reset = true → p.1.snapshot = true) ∧ (p.1.reset = false → p.2 = t) ∧
    (p.1.reset = true → applyAllM (wvtSetDensity S.profile S.forces.kernel i) t = some p.2)

theorem Link.inSphere (hS : Meaningful S i M ρ H N) {w : Search i n} {fuel : Nat} {k : Int} {s : Fin n → Particle (i + 1)} {p : Record × (Fin n → Particle (i + 1))}
    (h : Link S M H N w fuel k s p) : InSphere S M H p.2 ∧ (∀ a, (p.2 a).id = (s a).id ∧ (p.2 a).mass = (s a).mass) ∧
      (p.1.reset = false → Settled S M H N w p.2) ∧
      (p.1.reset = true → ∀ a, (p.2 a).rho = S.profile.density (length (p.2 a).pos) ∧ (p.2 a).h = byMass S.profile S.forces.kernel i (p.2 a).mass (p.2 a).rho) := by
  obtain ⟨t, c, h1, h2, h3, h4, h5, h6, h7, h8⟩ := h
  cases hr : p.1.reset with
  | false =>
    rw [h7 hr]
    exact ⟨h1.1, h2.1, fun _ => h1, fun h0 => by cases h0⟩
  | true =>
    obtain ⟨u, u1, u2, u3⟩ := setDensity_ok hS h1.1
    rw [h8 hr] at u1
    obtain rfl := Option.some_inj.1 u1
    refine ⟨u2, fun a => ⟨(u3 a).1.trans (h2.1 a).1, (u3 a).2.1.trans (h2.1 a).2⟩, fun h0 => by (cases h0), fun _ a => ?_⟩
    obtain ⟨-, v2, v3, v4, v5⟩ := u3 a
    rw [v3, v4, v5, v2]
    exact ⟨rfl, rfl⟩

/-- The particles an iteration starts with. -/
def before (s : Fin n → Particle (i + 1)) (log : List (Record × (Fin n → Particle (i + 1)))) : Nat → Fin n → Particle (i + 1)
  | 0 => s
  | j + 1 => match log[j]? with
    | some p => p.2
    | none => s

theorem run_ok (hS : Meaningful S i M ρ H N) {w : Search i n} (hw : Searches w N) (hn : 0 < n) (f : Nat) (hf : S.mu < 2 ^ f * (1 / 10 ^ 10)) :
    ∀ (j : Nat) (k : Int) (s : Fin n → Particle (i + 1)), S.run.initial ≤ k → S.run.final + S.run.coolDown - k = j → InSphere S M H s →
      (k ≠ S.run.initial → ∀ a, length (s a).acc ≤ (4 * N + 2) * H * largestPush S.forces i) →
      ∃ log, (∀ fuel steps, f + 1 ≤ fuel → j + 1 ≤ steps → relaxation S w fuel steps k false s = some log) ∧ log ≠ [] ∧ k + (log.length : Int) - 1 ≤ S.run.final + S.run.coolDown ∧
        (∀ l (hl : l < log.length), Link S M H N w (f + 1) (k + l) (before s log l) log[l]) ∧
        (∀ l (hl : l < log.length), log[l].1.reset = true ↔ l + 1 = log.length) := by
  intro j
  induction j with
  | zero =>
    intro k s hk0 hk h hacc
    obtain ⟨t, ht, hset, hmov⟩ := iteration_ok hS hw hn f (f + 1) hf le_rfl k (by omega) h hacc
    obtain ⟨c, hc⟩ := converged_some hS.ngb.ne' hn k t false
    obtain ⟨u, hu, -, -⟩ := setDensity_ok hS hset.1
    have hlast : (c || decide (k = S.run.final + S.run.coolDown)) = true := by rw [decide_eq_true (by omega : k = _)]; simp
    refine ⟨[(⟨k, S.run.step k, true, true⟩, u)], fun fuel steps h1 h2 => ?_, by simp, by simp; omega, fun l hl => ?_, fun l hl => ?_⟩
    · obtain ⟨steps, rfl⟩ : ∃ q, steps = q + 1 := ⟨steps - 1, by omega⟩
      unfold relaxation
      simp only [iteration_mono w h1 k ht, Option.bind_some, hc, hlast, if_true, hu, Bool.or_true]
      rw [if_neg (by omega)]
    · simp only [List.length_cons, List.length_nil, zero_add, Nat.lt_one_iff] at hl
      subst hl
      simp only [Nat.cast_zero, add_zero, List.getElem_cons_zero]
      exact ⟨t, c, hset, hmov, hc, rfl, hlast.symm, fun _ => rfl, fun h0 => by (cases h0), fun _ => hu⟩
    · simp only [List.length_cons, List.length_nil, zero_add, Nat.lt_one_iff] at hl
      subst hl
      simp
  | succ j ih =>
    intro k s hk0 hk h hacc
    obtain ⟨t, ht, hset, hmov⟩ := iteration_ok hS hw hn f (f + 1) hf le_rfl k (by omega) h hacc
    obtain ⟨c, hc⟩ := converged_some hS.ngb.ne' hn k t false
    have hne : decide (k = S.run.final + S.run.coolDown) = false := decide_eq_false (by omega)
    cases c with
    | true =>
      obtain ⟨u, hu, -, -⟩ := setDensity_ok hS hset.1
      refine ⟨[(⟨k, S.run.step k, true, true⟩, u)], fun fuel steps h1 h2 => ?_, by simp, by simp; omega, fun l hl => ?_, fun l hl => ?_⟩
      · obtain ⟨steps, rfl⟩ : ∃ q, steps = q + 1 := ⟨steps - 1, by omega⟩
        unfold relaxation
        simp only [iteration_mono w h1 k ht, Option.bind_some, hc, Bool.true_or, if_true, hu, Bool.or_true]
        rw [if_neg (by simp)]
      · simp only [List.length_cons, List.length_nil, zero_add, Nat.lt_one_iff] at hl
        subst hl
        simp only [Nat.cast_zero, add_zero, List.getElem_cons_zero]
        exact ⟨t, true, hset, hmov, hc, rfl, rfl, fun _ => rfl, fun h0 => by (cases h0), fun _ => hu⟩
      · simp only [List.length_cons, List.length_nil, zero_add, Nat.lt_one_iff] at hl
        subst hl
        simp
    | false =>
      obtain ⟨log, r1, r2, r3, r4, r5⟩ := ih (k + 1) t (by omega) (by omega) hset.1 fun _ => hset.2.1
      have hlen : 0 < log.length := List.length_pos_iff.2 r2
      refine ⟨(⟨k, S.run.step k, false, decide (S.run.every > 0) && decide (k.tmod S.run.every = 0)⟩, t) :: log, fun fuel steps h1 h2 => ?_, by simp,
        by rw [List.length_cons]; push_cast; omega, fun l hl => ?_, fun l hl => ?_⟩
      · obtain ⟨steps, rfl⟩ : ∃ q, steps = q + 1 := ⟨steps - 1, by omega⟩
        unfold relaxation
        simp only [iteration_mono w h1 k ht, Option.bind_some, hc, Bool.false_or, hne, Bool.or_false]
        rw [if_neg (by simp), Option.bind_some, if_pos ⟨by omega, trivial⟩, r1 fuel steps h1 (by omega)]
        rfl
      · cases l with
        | zero =>
          simp only [Nat.cast_zero, add_zero, List.getElem_cons_zero]
          exact ⟨t, false, hset, hmov, hc, rfl, by rw [hne]; rfl, fun h0 => by (cases h0), fun _ => rfl, fun h0 => by (cases h0)⟩
        | succ l =>
          have hl' : l < log.length := by simpa using hl
          have e : k + ((l + 1 : Nat) : Int) = k + 1 + (l : Int) := by push_cast; ring
          have hb : before s ((⟨k, S.run.step k, false, decide (S.run.every > 0) && decide (k.tmod S.run.every = 0)⟩, t) :: log) (l + 1) = before t log l := by
            cases l with
            | zero => rfl
            | succ l =>
              have : l < log.length := by omega
              simp [before, List.getElem?_eq_getElem this]
          rw [e, hb, List.getElem_cons_succ]
          exact r4 l hl'
      · cases l with
        | zero => simp; exact r2
        | succ l =>
          rw [List.getElem_cons_succ, r5 l (by simpa using hl), List.length_cons]
          omega

theorem relaxation_mono (w : Search i n) : ∀ (steps steps' : Nat) {f g : Nat} (k : Int) (old : Bool) (s : Fin n → Particle (i + 1)) (tr : List (Record × (Fin n → Particle (i + 1)))),
    f ≤ g → steps ≤ steps' → relaxation S w f steps k old s = some tr → relaxation S w g steps' k old s = some tr
  | 0, _, _, _, _, _, _, _, _, _, h => by unfold relaxation at h; cases h
  | steps + 1, 0, _, _, _, _, _, _, _, h0, _ => by omega
  | steps + 1, steps' + 1, f, g, k, old, s, tr, hfg, hst, h => by
    unfold relaxation at h ⊢
    obtain ⟨s1, hs1, h⟩ := Option.bind_eq_some_iff.1 h
    obtain ⟨c, hc, h⟩ := Option.bind_eq_some_iff.1 h
    obtain ⟨s2, hs2, h⟩ := Option.bind_eq_some_iff.1 h
    simp only at h
    simp only [iteration_mono w hfg k hs1, Option.bind_some, hc]
    rw [hs2, Option.bind_some]
    split at h
    · rename_i hcond
      rw [if_pos hcond]
      obtain ⟨tr', ht, e⟩ := Option.map_eq_some_iff.1 h
      rw [relaxation_mono w steps steps' (k + 1) c s2 tr' hfg (by omega) ht, ← e]
      rfl
    · rename_i hcond
      rw [if_neg hcond]
      exact h

/-- Two runs which end give the same. -/
theorem relaxation_unique (w : Search i n) {f g steps steps' : Nat} {k : Int} {old : Bool} {s : Fin n → Particle (i + 1)} {tr tr' : List (Record × (Fin n → Particle (i + 1)))}
    (h : relaxation S w f steps k old s = some tr) (h' : relaxation S w g steps' k old s = some tr') : tr = tr' := by
  have h1 := relaxation_mono w steps (max steps steps') k old s tr (le_max_left f g) (le_max_left _ _) h
  have h2 := relaxation_mono w steps' (max steps steps') k old s tr' (le_max_right f g) (le_max_right _ _) h'
  exact Option.some_inj.1 (h1.symm.trans h2)

theorem enough (mu : ℝ) : ∃ f : Nat, mu < 2 ^ f * (1 / 10 ^ 10) := by
  obtain ⟨f, hf⟩ := pow_unbounded_of_one_lt (mu * 10 ^ 10) (by norm_num : (1 : ℝ) < 2)
  refine ⟨f, ?_⟩
  rw [mul_one_div, lt_div_iff₀ (by norm_num)]
  exact hf

/-- What holds of a run that ends. -/
theorem run_links (hS : Meaningful S i M ρ H N) {w : Search i n} (hw : Searches w N) (hn : 0 < n) {s : Fin n → Particle (i + 1)} (hs : InSphere S M H s) {fuel steps : Nat}
    {log : List (Record × (Fin n → Particle (i + 1)))} (h : relaxation S w fuel steps S.run.initial false s = some log) :
    ∃ f, log ≠ [] ∧ S.run.initial + (log.length : Int) - 1 ≤ S.run.final + S.run.coolDown ∧
      (∀ l (hl : l < log.length), Link S M H N w (f + 1) (S.run.initial + l) (before s log l) log[l]) ∧
      (∀ l (hl : l < log.length), log[l].1.reset = true ↔ l + 1 = log.length) := by
  obtain ⟨f, hf⟩ := enough S.mu
  obtain ⟨tr, h1, h2⟩ := run_ok hS hw hn f hf (S.run.final + S.run.coolDown - S.run.initial).toNat S.run.initial s le_rfl (by have := hS.ends; omega) hs fun h0 => absurd rfl h0
  have e := relaxation_unique w h (h1 (f + 1) _ le_rfl le_rfl)
  subst e
  exact ⟨f, h2⟩

end run

end FleCSPH.Wvt
