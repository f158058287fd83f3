import Verif.Lemmas.TorusUnique
import Verif.Lemmas.Density
/-! A short chain of particles across the boundary, for the counterexamples of C75. -/
namespace FleCSPH.Torus.Witness
open FleCSPH.Geometry FleCSPH.Sph FleCSPH.Driver FleCSPH.DistRun FleCSPH.PeriodicRun FleCSPH.Spec FleCSPH.Integration FleCSPH.Kernels

abbrev Part := Particle ((2 : Fin 3) + 1)
abbrev Pt := Point ((2 : Fin 3) + 1)

/-- A cube of side 20, periodic along the first axis. -/
def sides : Fin ((2 : Fin 3) + 1) → ℝ := fun _ => 20
def periodic : Fin ((2 : Fin 3) + 1) → Bool := fun j => j == 0

noncomputable def par : Params 2 := ⟨.wendlandC2, .constant, 0, 0, 1 / 100, fun _ => 0, 0⟩
/-- No equation of state: the particles keep their pressures. -/
noncomputable def conf (ev : Bool) (m : HMode) : Config 2 := ⟨par, .noEos, ⟨2, 2, 1⟩, fun _ => 0, ev, false, 1, 2, 1, 1, 0, 0, 1, 0, m, 1, 1, 1, false, ⟨fun _ => 0, fun _ => 0⟩, 0⟩
noncomputable def clock : Timestep.Clock := ⟨1, 1, 0, 0, 0, fun _ => 0⟩

/-- A point on the first axis. -/
def axis (x : ℝ) : Pt := fun j => if j.1 = 0 then x else 0

/-- A particle of mass 1 and smoothing length 1 at rest on the first axis. -/
def part (id : Nat) (x P U : ℝ) : Part := ⟨id, 1, 1, axis x, 0, 0, 0, 0, 0, 0, P, 0, 0, U, 0, 0, 0, 0, 0, 0, 0, 0, 0⟩

theorem mag_axis (x y : ℝ) : magnitude (axis x - axis y) = |x - y| := by
  unfold magnitude
  have : ∑ j, (axis x - axis y) j * (axis x - axis y) j = (x - y) * (x - y) := by
    show ∑ j : Fin 3, _ = _
    rw [Fin.sum_univ_three]
    show (x - y) * (x - y) + ((0 : ℝ) - 0) * (0 - 0) + (0 - 0) * (0 - 0) = _
    ring
  rw [this]
  exact Real.sqrt_mul_self_eq_abs _

theorem gap_axis (x y : ℝ) : gap (axis x) (axis y) = |x - y| := by
  rw [← mag_axis]; exact gap_mag (i := 2) _ _

/-! ### The passes on a chain -/

section
variable {N : Nat} (id : Fin N → Nat) (x P : Fin N → ℝ) (U : ℝ) (nb : Fin N → List (Fin N))

noncomputable def W (r : ℝ) : ℝ := kernel .wendlandC2 2 r 1
noncomputable def rho (a : Fin N) : ℝ := ((nb a).map fun b => W |x a - x b|).sum
noncomputable def grad (s : ℝ) : Pt := kernelGradient .wendlandC2 2 (axis s) 1
noncomputable def acc (a : Fin N) : Pt :=
  ((nb a).map fun b => (-(P a / (rho x nb a * rho x nb a) + P b / (rho x nb b * rho x nb b))) • grad (x a - x b)).sum
noncomputable def rate (a : Fin N) : ℝ :=
  P a / (rho x nb a * rho x nb a) * ((nb a).map fun b => dot ((1 / 2 : ℝ) • acc x P nb a - (1 / 2 : ℝ) • acc x P nb b) (grad (x a - x b))).sum

noncomputable def y0 (a : Fin N) : Part := part (id a) (x a) (P a) U
noncomputable def y1 (a : Fin N) : Part := { y0 id x P U a with rho := rho x nb a }
noncomputable def y2 (a : Fin N) : Part := { y1 id x P U nb a with acc := acc x P nb a }
noncomputable def y3 (a : Fin N) : Part := { y2 id x P U nb a with vel := (1 / 2 : ℝ) • acc x P nb a }
noncomputable def y4 (a : Fin N) : Part := { y3 id x P U nb a with dudt := rate x P nb a }
noncomputable def y5 (a : Fin N) : Part := { y4 id x P U nb a with u := U + 1 / 2 * rate x P nb a }

theorem grad_zero : grad 0 = 0 := by
  funext j
  have : axis 0 j = 0 := by unfold axis; split_ifs <;> rfl
  show axis 0 j * _ / _ = 0
  rw [this]; simp

theorem axis_sub (x y : ℝ) : axis x - axis y = axis (x - y) := by
  funext j
  simp only [Pi.sub_apply, axis]
  split_ifs <;> ring

/-- Particles which differ from those of the chain only in what the gradient does not look at. -/
theorem grad_eq {a b : Part} {s t : ℝ} (ha : a.pos = axis s) (hb : b.pos = axis t) (h1 : a.h = 1) (h2 : b.h = 1) : gradOf par a b = grad (s - t) := by
  unfold gradOf grad
  rw [ha, hb, h1, h2, axis_sub]
  norm_num [par]

theorem visc_zero (a b : Part) : viscOf par a b = 0 := by
  simp [viscOf, artificialViscosity, par]

theorem mass_grad {a b : Part} {s t : ℝ} (ha : a.pos = axis s) (hb : b.pos = axis t) (h1 : a.h = 1) (h2 : b.h = 1) (hm : b.mass = 1) (c : ℝ) :
    (massOf a b * c) • gradOf par a b = c • grad (s - t) := by
  rw [grad_eq ha hb h1 h2]
  by_cases hst : s = t
  · rw [hst, sub_self, grad_zero, smul_zero, smul_zero]
  · have : b.pos ≠ a.pos := by
      rw [ha, hb]
      intro h
      exact hst (by have := congrFun h 0; simpa [axis] using this.symm)
    unfold massOf fac
    rw [if_pos this, hm]
    simp

theorem W_pos {r : ℝ} (h0 : 0 ≤ r) (h : r < 1) : 0 < W r := by
  show 0 < wendlandC2 2 r 1
  unfold wendlandC2
  have hs : 0 < wendlandC2Sigma 2 := by
    show 0 < (![5 / 4, 7 / Real.pi, 21 / (2 * Real.pi)] : Fin 3 → ℝ) 2
    have := Real.pi_pos
    simp; positivity
  have h1 : 0 < 1 - r := by linarith
  simp only [div_one, fac]
  rw [if_pos h]
  positivity

theorem rho_pos (hself : ∀ a, a ∈ nb a) (hnn : ∀ a, ∀ b ∈ nb a, |x a - x b| < 1) (a : Fin N) : 0 < rho x nb a := by
  unfold rho
  refine List.sum_pos _ (fun y hy => ?_) (by intro h; rw [List.map_eq_nil_iff] at h; have := hself a; rw [h] at this; simp at this)
  obtain ⟨b, hb, rfl⟩ := List.mem_map.mp hy
  exact W_pos (abs_nonneg _) (hnn a b hb)

theorem sum_accumulate {α β : Type} [AddCommMonoid β] (l : List α) (f : α → β) : accumulate l f = (l.map f).sum := by
  rw [accumulate_eq]

theorem density_step (ev : Bool) (m : HMode) (hself : ∀ a, a ∈ nb a) (hnn : ∀ a, ∀ b ∈ nb a, |x a - x b| < 1) (a : Fin N) :
    (Eos.computeDensityPressureSoundspeed par (conf ev m).eos (conf ev m).eosParams (setup (conf ev m) 1) (y0 id x P U a) ((nb a).map (y0 id x P U))).map er = some (er (y1 id x P U nb a)) := by
  have hsum : accumulate ((nb a).map (y0 id x P U)) (fun b => b.mass * kernel par.kernel 2 (magnitude ((y0 id x P U a).pos - b.pos)) (1 / 2 * ((y0 id x P U a).h + b.h))) = rho x nb a := by
    rw [sum_accumulate, List.map_map]
    unfold rho
    congr 1
    refine List.map_congr_left fun b _ => ?_
    show (1 : ℝ) * kernel .wendlandC2 2 (magnitude (axis (x a) - axis (x b))) (1 / 2 * (1 + 1)) = _
    rw [mag_axis]
    norm_num [W]
  have hd : computeDensity par (y0 id x P U a) ((nb a).map (y0 id x P U)) = some (y1 id x P U nb a) := by
    unfold computeDensity
    have hlen : 0 < ((nb a).map (y0 id x P U)).length := by rw [List.length_map]; exact List.length_pos_of_mem (hself a)
    have hpos := lt_of_lt_of_eq (rho_pos x nb hself hnn a) hsum.symm
    exact (if_pos ⟨hlen, hpos⟩).trans <| congrArg (fun r => some ({ y0 id x P U a with rho := r } : Part)) hsum
  unfold Eos.computeDensityPressureSoundspeed
  rw [hd]
  show (((Eos.recoverIf (setup (conf ev m) 1) (y1 id x P U nb a))).bind fun a' => some _).map er = _
  have : Eos.recoverIf (setup (conf ev m) 1) (y1 id x P U nb a) = some (y1 id x P U nb a) := by
    unfold Eos.recoverIf setup
    cases ev <;> rfl
  rw [this]
  rfl

theorem acceleration_step (a : Fin N) : computeAcceleration par (y1 id x P U nb a) ((nb a).map (y1 id x P U nb)) = y2 id x P U nb a := by
  unfold computeAcceleration y2
  have : accumulate ((nb a).map (y1 id x P U nb)) (fun b => (-massOf (y1 id x P U nb a) b * ((y1 id x P U nb a).P / ((y1 id x P U nb a).rho * (y1 id x P U nb a).rho) + b.P / (b.rho * b.rho) +
      viscOf par (y1 id x P U nb a) b)) • gradOf par (y1 id x P U nb a) b) = acc x P nb a := by
    rw [sum_accumulate, List.map_map]
    unfold acc
    congr 1
    refine List.map_congr_left fun b _ => ?_
    simp only [Function.comp, visc_zero, add_zero]
    rw [neg_mul, ← mul_neg, mass_grad (s := x a) (t := x b) rfl rfl rfl rfl rfl]
    rfl
  refine (congrArg (fun r => ({ y1 id x P U nb a with acc := r + 0, gacc := 0, gpot := 0 } : Part)) this).trans ?_
  show ({ y1 id x P U nb a with acc := acc x P nb a + 0, gacc := 0, gpot := 0 } : Part) = _
  rw [add_zero]
  rfl

theorem kick_step (a : Fin N) : kickV 1 (y2 id x P U nb a) = y3 id x P U nb a := by
  unfold kickV y3
  show ({ y2 id x P U nb a with vel := 0 + (1 / 2 * 1 : ℝ) • (acc x P nb a + 0) } : Part) = _
  rw [mul_one, add_zero, zero_add]

theorem rate_step (a : Fin N) : computeDudt par 1 (y3 id x P U nb a) ((nb a).map (y3 id x P U nb)) = y4 id x P U nb a := by
  unfold computeDudt
  rw [if_neg (by show ¬ (1 : Int) < 0; norm_num)]
  have h1 : accumulate ((nb a).map (y3 id x P U nb)) (fun b => massOf (y3 id x P U nb a) b * dot ((y3 id x P U nb a).vel - b.vel) (gradOf par (y3 id x P U nb a) b)) =
      ((nb a).map fun b => dot ((1 / 2 : ℝ) • acc x P nb a - (1 / 2 : ℝ) • acc x P nb b) (grad (x a - x b))).sum := by
    rw [sum_accumulate, List.map_map]
    congr 1
    refine List.map_congr_left fun b _ => ?_
    have h2 := mass_grad (a := y3 id x P U nb a) (b := y3 id x P U nb b) (s := x a) (t := x b) rfl rfl rfl rfl rfl 1
    rw [mul_one, one_smul] at h2
    simp only [Function.comp]
    rw [← h2]
    simp only [dot, Pi.smul_apply, smul_eq_mul, Finset.mul_sum]
    refine Finset.sum_congr rfl fun j _ => ?_
    show massOf _ _ * (((1 / 2 : ℝ) • acc x P nb a - (1 / 2 : ℝ) • acc x P nb b) j * _) = _
    ring
  have h2 : accumulate ((nb a).map (y3 id x P U nb)) (fun b => massOf (y3 id x P U nb a) b * dot ((y3 id x P U nb a).vel - b.vel) (gradOf par (y3 id x P U nb a) b) * viscOf par (y3 id x P U nb a) b) = 0 := by
    rw [sum_accumulate]
    refine List.sum_eq_zero fun y hy => ?_
    obtain ⟨b, _, rfl⟩ := List.mem_map.mp hy
    rw [visc_zero, mul_zero]
  refine (congrArg₂ (fun r q => ({ y3 id x P U nb a with dudt := P a / (rho x nb a * rho x nb a) * r + 1 / 2 * q } : Part)) h1 h2).trans ?_
  show ({ y3 id x P U nb a with dudt := P a / (rho x nb a * rho x nb a) * _ + 1 / 2 * 0 } : Part) = _
  rw [mul_zero, add_zero]
  rfl

theorem energy_step (a : Fin N) : kickU 1 (Eos.recomputePressureSoundspeed .noEos ⟨2, 2, 1⟩ 1 (y4 id x P U nb a)) = y5 id x P U nb a := by
  unfold kickU y5
  show ({ y4 id x P U nb a with u := U + 1 / 2 * 1 * rate x P nb a } : Part) = _
  rw [mul_one]

end

theorem rest_step (id : Nat) (x P U : ℝ) : kickU 1 (part id x P U) = part id x P U ∧ kickV 1 (part id x P U) = part id x P U ∧ saveVelocityhalf (part id x P U) = part id x P U ∧ drift 1 (part id x P U) = part id x P U := by
  refine ⟨?_, ?_, rfl, ?_⟩ <;> simp [part, kickU, kickV, drift]

/-! ### The chain in the code -/

section
variable {N : Nat} {wall : Fin N → Bool} {ok : PState 2 → Prop} {ops : List (Op Part)} {Y Y' Z : Fin N → Part}

/-- From particles and ghosts `Y` the calls lead to `Z`, on one process. -/
def Reach (ok : PState 2 → Prop) (wall : Fin N → Bool) (ops : List (Op Part)) (Y Z : Fin N → Part) : Prop :=
  ∀ d : DState Part N, (d.copy = fun _ _ => none) → d.flight = [] → (∀ a, er (d.val a) = er (Y a)) →
    ∃ d' : DState Part N, PExec (fun _ => NearLists) ok sides periodic 1 ops ⟨N, wall, fun _ => 0, d⟩ ⟨N, wall, fun _ => 0, d'⟩ ∧ d'.flight = [] ∧ ∀ a, er (d'.val a) = er (Z a)

theorem reach_nil : Reach ok wall [] Y Y := fun d _ hf h => ⟨d, .nil, hf, h⟩

theorem reach_all {g : Part → Option Part} (hg : ∀ a b, er a = er b → (g a).map er = (g b).map er) (hY : ∀ a, (g (Y a)).map er = some (er (Y' a))) (h : Reach ok wall ops Y' Z) :
    Reach ok wall (.all g :: ops) Y Z := by
  intro d hc hf hd
  have h1 : ∀ a, ∃ y, g (d.val a) = some y ∧ er y = er (Y' a) := by
    intro a
    have := hg _ _ (hd a)
    rw [hY] at this
    exact Option.map_eq_some_iff.mp this
  choose v hv hv' using h1
  obtain ⟨d', h2, h3⟩ := h { d with val := v } hc hf hv'
  exact ⟨d', .step (fun h => by cases h) (.all v hv .nil) h2, h3⟩

theorem reach_reset (h : Reach ok wall ops Y Z) : Reach ok wall (.reset :: ops) Y Z := by
  intro d hc hf hd
  obtain ⟨d', h2, h3⟩ := h d hc hf hd
  exact ⟨d', .step (fun h => by cases h) (.reset (d' := d) ⟨rfl, fun p b x hx => (by rw [hc] at hx; cases hx), hf⟩ .nil) h2, h3⟩

theorem reach_pass {k : Nat} {v : Part → Part} {f : Part → List Part → Option Part} (hf : Reads er v f) (hv : ∀ a, v (er a) = v a) (he : ∀ a l, (f (er a) l).map er = (f a l).map er) {nb : Fin N → List (Fin N)}
    (hn : NearLists Y nb) (hY : ∀ a, (f (Y a) ((nb a).map Y)).map er = some (er (Y' a))) (h : Reach ok wall ops Y' Z) : Reach ok wall (.pass k f :: ops) Y Z := by
  intro d hc hfl hd
  have hval : ∀ a, (f (d.val a) ((nb a).map d.val)).map er = some (er (Y' a)) := by
    intro a
    rw [← hY a, ← he (d.val a), hd, he]
    refine hf.read _ _ _ ?_
    rw [List.map_map, List.map_map]
    refine List.map_congr_left fun b _ => ?_
    show v (d.val b) = v (Y b)
    rw [← hv, hd, hv]
  have hcons : Consistent v d := ⟨fun p b x hx => by rw [hc] at hx; (cases hx), fun p b x hx => by rw [hfl] at hx; simp at hx⟩
  have hp := passM_dpass f nb (List.finRange N) d hfl
  obtain ⟨r1, r2⟩ := dpass_result hf d.val hp (List.nodup_finRange N) hcons (fun _ => rfl) (fun _ _ => rfl)
  cases hq : passM f nb (List.finRange N) d.val with
  | none =>
    obtain ⟨a, ha⟩ := r2 (by rw [hq]; rfl)
    have := hval a
    rw [ha] at this
    cases this
  | some s =>
    rw [hq] at hp r1
    obtain ⟨q1, -, q2, -⟩ := r1 _ rfl
    obtain ⟨d', h2, h3⟩ := h { d with val := s } hc q1 fun a => Option.some.inj ((q2 a (List.mem_finRange a)).symm.trans (hval a))
    exact ⟨d', .step (fun h => by cases h) (.pass nb (List.finRange N) (near_er Y d.val nb (fun a => (hd a).symm) hn) (List.nodup_finRange N) List.mem_finRange hp .nil) h2, h3⟩

theorem reach_mean {g : Part → ℝ} {set : ℝ → Part → Part} (hg : ∀ a, g a = g (er a)) (hset : ∀ r a b, er a = er b → er (set r a) = er (set r b)) (hY : ∀ a, set (1 / (N : ℝ) * ∑ b, g (Y b)) (Y a) = Y' a)
    (h : Reach ok wall ops Y' Z) : Reach ok wall (.mean g set :: ops) Y Z := by
  intro d hc hf hd
  obtain ⟨V, hV⟩ : ∃ V : Fin N → Part, V = fun a => set (1 / (N : ℝ) * ∑ p ∈ Finset.range 1, ∑ b with (fun _ : Fin N => 0) b = p, g (d.val b)) (d.val a) := ⟨_, rfl⟩
  obtain ⟨d', h2, h3⟩ := h { d with val := V } hc hf (fun a => by
    have hs : ∑ b, g (d.val b) = ∑ b, g (Y b) := Finset.sum_congr rfl fun b _ => by rw [hg, hd, ← hg]
    have e : V a = set (1 / (N : ℝ) * ∑ b, g (Y b)) (d.val a) := by
      rw [hV, ← hs]
      simp
    show er (V a) = _
    rw [e, hset _ _ _ (hd a), hY])
  refine ⟨d', .step (fun h => by cases h) (.mean (fun _ => Nat.one_pos) ?_) h2, h3⟩
  rw [hV]
  exact .nil

end

/-! ### The calls of the iteration -/

open Classical in
/-- `check_negativity` -/
noncomputable def check (ev : Bool) : Op Part := .all fun a => if 0 ≤ a.rho ∧ 0 ≤ a.P ∧ (ev = true → 0 ≤ a.u) then some a else none

noncomputable def front : List (Op Part) := [.all fun a => some (kickV 1 a), .all fun a => some (saveVelocityhalf a), .all fun a => some (drift 1 a), .update]
noncomputable def middle (ev : Bool) (m : HMode) : List (Op Part) :=
  [densityOp (conf ev m) 1, .reset, .pass 2 fun a l => some (computeAcceleration par a l), .all fun a => some (kickV 1 a), .reset]
noncomputable def energyBack : List (Op Part) :=
  [.pass 4 fun a l => some (computeDudt par 1 a l), .all fun a => some (Eos.recomputePressureSoundspeed .noEos ⟨2, 2, 1⟩ 1 a), .all fun a => some (kickU 1 a), check true]
noncomputable def uniformBack : List (Op Part) := [.mean (newH (conf false .uniform)) fun x a => { a with h := x }, check false]

theorem ops_energy : iterationOps (conf true .fixed) clock = .all (fun a => some (kickU 1 a)) :: (front ++ (middle true .fixed ++ energyBack)) := by
  unfold iterationOps
  rw [if_neg (by show ¬ (1 : Int) = 0; norm_num)]
  rfl

theorem ops_uniform : iterationOps (conf false .uniform) clock = front ++ (middle false .uniform ++ uniformBack) := by
  unfold iterationOps
  rw [if_neg (by show ¬ (1 : Int) = 0; norm_num)]
  rfl

section
variable {N : Nat} {wall : Fin N → Bool} {ok : PState 2 → Prop} {ops : List (Op Part)} {Z : Fin N → Part} {id : Fin N → Nat} {x P : Fin N → ℝ} {U : ℝ} {nb : Fin N → List (Fin N)}

theorem reach_pure {Y Y' : Fin N → Part} {g : Part → Part} (hg : ∀ a, er (g a) = er (g (er a))) (hY : ∀ a, g (Y a) = Y' a) (h : Reach ok wall ops Y' Z) : Reach ok wall (.all (fun a => some (g a)) :: ops) Y Z :=
  reach_all (fun a b e => by show some (er (g a)) = some (er (g b)); rw [hg, e, ← hg]) (fun a => by show some (er (g (Y a))) = _; rw [hY]) h

theorem reach_middle (ev : Bool) (m : HMode) (hself : ∀ a, a ∈ nb a) (hnn : ∀ a, ∀ b ∈ nb a, |x a - x b| < 1) (hn : NearLists (y0 id x P U) nb) (h : Reach ok wall ops (y3 id x P U nb) Z) :
    Reach ok wall (middle ev m ++ ops) (y0 id x P U) Z := by
  refine reach_pass (density_reads (conf ev m) rfl 1) (fun _ => rfl) (fun a l => ?_) hn (density_step id x P U nb ev m hself hnn) (reach_reset ?_)
  · rw [density_er (conf ev m) rfl, density_er (conf ev m) rfl]; rfl
  refine reach_pass (acceleration_reads par) (fun _ => rfl) (fun a l => rfl) (nb := nb) (Y' := y2 id x P U nb) ⟨hn.nodup, hn.complete⟩ (fun a => ?_) ?_
  · show some (er (computeAcceleration par _ _)) = _
    rw [acceleration_step]
  · exact reach_pure (fun _ => rfl) (kick_step id x P U nb) (reach_reset h)

theorem reach_check {Y : Fin N → Part} (ev : Bool) (h : ∀ a, 0 ≤ (Y a).rho ∧ 0 ≤ (Y a).P ∧ (ev = true → 0 ≤ (Y a).u)) : Reach ok wall [check ev] Y Y := by
  refine reach_all (fun a b e => ?_) (fun a => ?_) reach_nil
  · have h1 : a.rho = b.rho := by have := congrArg Particle.rho e; exact this
    have h2 : a.P = b.P := by have := congrArg Particle.P e; exact this
    have h3 : a.u = b.u := by have := congrArg Particle.u e; exact this
    rw [h1, h2, h3]
    split_ifs
    · exact congrArg some e
    · rfl
  · rw [if_pos (h a)]; rfl

theorem reach_energy (hself : ∀ a, a ∈ nb a) (hnn : ∀ a, ∀ b ∈ nb a, |x a - x b| < 1) (hn : NearLists (y0 id x P U) nb) (hP : ∀ a, 0 ≤ P a) (hU : ∀ a, 0 ≤ U + 1 / 2 * rate x P nb a) :
    Reach ok wall (middle true .fixed ++ energyBack) (y0 id x P U) (y5 id x P U nb) := by
  refine reach_middle true .fixed hself hnn hn ?_
  refine reach_pass (dudt_reads par 1) (fun _ => rfl) (fun a l => ?_) (nb := nb) (Y' := y4 id x P U nb) ⟨hn.nodup, hn.complete⟩ (fun a => ?_) ?_
  · simp only [computeDudt]; split <;> rfl
  · show some (er (computeDudt par 1 _ _)) = _
    rw [rate_step]
  · refine reach_pure (Y' := y4 id x P U nb) (fun a => ?_) (fun _ => rfl) ?_
    · rfl
    · refine reach_pure (fun a => rfl) (energy_step id x P U nb) (reach_check true fun a => ⟨(rho_pos x nb hself hnn a).le, hP a, fun _ => hU a⟩)

theorem reach_uniform (hself : ∀ a, a ∈ nb a) (hnn : ∀ a, ∀ b ∈ nb a, |x a - x b| < 1) (hn : NearLists (y0 id x P U) nb) (hP : ∀ a, 0 ≤ P a) :
    Reach ok wall (middle false .uniform ++ uniformBack) (y0 id x P U) (fun a => { y3 id x P U nb a with h := 1 / (N : ℝ) * ∑ b, newH (conf false .uniform) (y3 id x P U nb b) }) := by
  refine reach_middle false .uniform hself hnn hn ?_
  refine reach_mean (fun _ => rfl) (fun r a b e => ?_) (fun _ => rfl) (reach_check false fun a => ⟨(rho_pos x nb hself hnn a).le, hP a, fun h => by cases h⟩)
  have : ∀ c : Part, er { c with h := r } = { er c with h := r } := fun _ => rfl
  rw [this, this, e]

end

/-! ### The chain on the torus -/

section
variable {N : Nat} {id : Fin N → Nat} {x P : Fin N → ℝ} {U : ℝ} {nb : Fin N → List (Fin N)}

/-- A chain much shorter than the period: there are no other neighbours than those in the chain. -/
theorem near_chain (hnd : ∀ a, (nb a).Nodup) (hsmall : ∀ a b, |x a - x b| ≤ 3) (hmem : ∀ a b, b ∈ nb a ↔ |x a - x b| ≤ 1) {Y : Fin N → Part} (hY : ∀ a, (Y a).pos = axis (x a) ∧ (Y a).h = 1) (a : Fin N) :
    Near sides periodic Y (Y a) ((nb a).map fun b => (b, 0)) := by
  refine ⟨(hnd a).map fun b c h => (Prod.mk.inj h).1, fun b k => ?_⟩
  have hgap : Lattice periodic k → √(∑ j, ((Y a).pos j - (imageOf sides (Y b) k).pos j) ^ 2) = |x a - (x b + 20 * k 0)| := by
    intro hk
    have h1 : (imageOf sides (Y b) k).pos = axis (x b + 20 * k 0) := by
      funext j
      show (Y b).pos j + k j * 20 = _
      rw [(hY b).1]
      by_cases hj : j = 0
      · subst hj; simp [axis]; ring
      · rw [hk j (by simp [periodic, hj])]
        have : j.1 ≠ 0 := fun h => hj (Fin.ext h)
        simp [axis, this]
    rw [(hY a).1, h1]
    exact gap_axis _ _
  constructor
  · intro h
    obtain ⟨c, hc, e⟩ := List.mem_map.mp h
    obtain ⟨rfl, rfl⟩ := Prod.mk.inj e
    refine ⟨Lattice.zero, ?_⟩
    rw [hgap Lattice.zero, (hY a).2, (hY c).2]
    have := (hmem a c).mp hc
    simpa using this
  · rintro ⟨hk, h⟩
    rw [hgap hk, (hY a).2, (hY b).2] at h
    have h3 := hsmall a b
    have hk0 : k 0 = 0 := by
      rw [abs_le] at h h3
      have h1 : (20 : ℝ) * k 0 < 20 := by linarith [h.1, h3.2]
      have h2 : -20 < (20 : ℝ) * k 0 := by linarith [h.2, h3.1]
      have h4 : (k 0 : ℝ) < 1 := by linarith
      have h5 : (-1 : ℝ) < k 0 := by linarith
      have h6 : k 0 < 1 := by exact_mod_cast h4
      have h7 : -1 < k 0 := by exact_mod_cast h5
      omega
    have hk' : k = 0 := by
      funext j
      by_cases hj : j = 0
      · subst hj; exact hk0
      · exact hk j (by simp [periodic, hj])
    subst hk'
    refine List.mem_map.mpr ⟨b, (hmem a b).mpr ?_, rfl⟩
    simpa using h

variable {ops : List (Op Part)} {Y Y' Z : Fin N → Part}

theorem torus_pass (hnd : ∀ a, (nb a).Nodup) (hsmall : ∀ a b, |x a - x b| ≤ 3) (hmem : ∀ a b, b ∈ nb a ↔ |x a - x b| ≤ 1) (hY : ∀ a, (Y a).pos = axis (x a) ∧ (Y a).h = 1) {k : Nat}
    {f : Part → List Part → Option Part} (hf : ∀ a, (f (Y a) ((nb a).map Y)).map er = some (er (Y' a))) (h : Exec sides periodic ops Y' Z) : Exec sides periodic (.pass k f :: ops) Y Z := by
  refine .pass (fun a => ?_) h
  obtain ⟨y, h1, h2⟩ := Option.map_eq_some_iff.mp (hf a)
  refine ⟨_, y, near_chain hnd hsmall hmem hY a, ?_, h2⟩
  rw [List.map_map]
  rw [show ((fun q : Fin N × _ => imageOf sides (Y q.1) q.2) ∘ fun b => (b, (0 : Fin _ → ℤ))) = Y from funext fun b => imageOf_zero (sides := sides) (Y b)]
  exact h1

theorem torus_middle (ev : Bool) (m : HMode) (hnd : ∀ a, (nb a).Nodup) (hsmall : ∀ a b, |x a - x b| ≤ 3) (hmem : ∀ a b, b ∈ nb a ↔ |x a - x b| ≤ 1) (hnn : ∀ a, ∀ b ∈ nb a, |x a - x b| < 1)
    (h : Exec sides periodic ops (y3 id x P U nb) Z) : Exec sides periodic (middle ev m ++ ops) (y0 id x P U) Z := by
  have hself : ∀ a, a ∈ nb a := fun a => (hmem a a).mpr (by simp)
  refine torus_pass hnd hsmall hmem (fun a => ⟨rfl, rfl⟩) (density_step id x P U nb ev m hself hnn) (.reset ?_)
  refine torus_pass hnd hsmall hmem (Y' := y2 id x P U nb) (fun a => ⟨rfl, rfl⟩) (fun a => ?_) (.all (t := y3 id x P U nb) (fun a => ?_) (.reset h))
  · show some (er (computeAcceleration par _ _)) = _
    rw [acceleration_step]
  · rw [kick_step]

theorem torus_energy (hnd : ∀ a, (nb a).Nodup) (hsmall : ∀ a b, |x a - x b| ≤ 3) (hmem : ∀ a b, b ∈ nb a ↔ |x a - x b| ≤ 1) (hnn : ∀ a, ∀ b ∈ nb a, |x a - x b| < 1)
    (hP : ∀ a, 0 ≤ P a) (hU : ∀ a, 0 ≤ U + 1 / 2 * rate x P nb a) : Exec sides periodic (middle true .fixed ++ energyBack) (y0 id x P U) (y5 id x P U nb) := by
  have hself : ∀ a, a ∈ nb a := fun a => (hmem a a).mpr (by simp)
  refine torus_middle true .fixed hnd hsmall hmem hnn ?_
  refine torus_pass hnd hsmall hmem (Y' := y4 id x P U nb) (fun a => ⟨rfl, rfl⟩) (fun a => ?_) (.all (t := y4 id x P U nb) (fun a => rfl) (.all (t := y5 id x P U nb) (fun a => ?_) (.all (fun a => ?_) .nil)))
  · show some (er (computeDudt par 1 _ _)) = _
    rw [rate_step]
  · exact congrArg some (energy_step id x P U nb a)
  · rw [if_pos]
    exact ⟨(rho_pos x nb hself hnn a).le, hP a, fun _ => hU a⟩

theorem torus_uniform (hnd : ∀ a, (nb a).Nodup) (hsmall : ∀ a b, |x a - x b| ≤ 3) (hmem : ∀ a b, b ∈ nb a ↔ |x a - x b| ≤ 1) (hnn : ∀ a, ∀ b ∈ nb a, |x a - x b| < 1) (hP : ∀ a, 0 ≤ P a) :
    Exec sides periodic (middle false .uniform ++ uniformBack) (y0 id x P U) (fun a => { y3 id x P U nb a with h := 1 / (N : ℝ) * ∑ b, newH (conf false .uniform) (y3 id x P U nb b) }) := by
  have hself : ∀ a, a ∈ nb a := fun a => (hmem a a).mpr (by simp)
  refine torus_middle false .uniform hnd hsmall hmem hnn ?_
  refine .mean (fun a => rfl) (.all (fun a => ?_) .nil)
  rw [if_pos]
  exact ⟨(rho_pos x nb hself hnn a).le, hP a, fun h => by cases h⟩

end

/-! ### The ghosts of the chain -/

section
open FleCSPH.Boundary

theorem periodic_zero : periodic 0 = true := rfl
theorem periodic_ne {j : Fin ((2 : Fin 3) + 1)} (h : j ≠ 0) : periodic j = false := by simp [periodic, h]

noncomputable abbrev box : Box ((2 : Fin 3) + 1) := ⟨sides, periodic, 5 / 2 * 1⟩

theorem box_max (j) : box.max j = 10 := by show (1 / 2 : ℝ) * 20 = 10; norm_num
theorem box_min (j) : box.min j = -10 := by show -(1 / 2 : ℝ) * 20 = -10; norm_num

theorem axis_zero (x : ℝ) : axis x 0 = x := rfl

theorem update_axis (x y : ℝ) : Function.update (axis x) 0 y = axis y := by
  funext j
  by_cases h : j = 0
  · subst h; simp [axis_zero]
  · have : j.1 ≠ 0 := fun e => h (Fin.ext e)
    simp [h, axis, this]

theorem teleport_chain (id : Int) (x : ℝ) (r : Part) (h : -10 < x ∧ x ≤ 10) : teleport box (⟨id, false, axis x, r⟩ : Body _ Part) = ⟨id, false, axis x, r⟩ := by
  have : ∀ l : List (Fin ((2 : Fin 3) + 1)), l.foldl (teleportAxis box) (axis x) = axis x := by
    intro l
    induction l with
    | nil => rfl
    | cons j l ih =>
      rw [List.foldl_cons]
      have : teleportAxis box (axis x) j = axis x := by
        unfold teleportAxis
        by_cases hj : j = 0
        · subst hj
          rw [box_max, box_min, axis_zero, if_pos periodic_zero, if_neg (by linarith [h.2]), if_neg (by linarith [h.1])]
        · rw [if_neg (by rw [show box.periodic j = periodic j from rfl, periodic_ne hj]; simp)]
      rw [this, ih]
  unfold teleport
  rw [this]

theorem edge_zero (x : ℝ) : onEdge box (axis x) 0 = (decide (15 / 2 < x) || decide (x ≤ -15 / 2)) := by
  unfold onEdge
  rw [box_max, box_min, axis_zero]
  show (true && _) = _
  rw [Bool.true_and, Bool.eq_iff_iff]
  simp only [Bool.or_eq_true, decide_eq_true_eq]
  constructor <;> rintro (h | h) <;> [left; right; left; right] <;> linarith

theorem edge_ne (x : ℝ) {j : Fin ((2 : Fin 3) + 1)} (h : j ≠ 0) : onEdge box (axis x) j = false := by
  unfold onEdge
  rw [show box.periodic j = periodic j from rfl, periodic_ne h]
  rfl

theorem copies_chain (id : Int) (x : ℝ) (r : Part) : copies 2 box (⟨id, false, axis x, r⟩ : Body _ Part) =
    if 15 / 2 < x then [⟨id, true, axis (x - 20), r⟩] else if x ≤ -15 / 2 then [⟨id, true, axis (x + 20), r⟩] else [] := by
  have h0 : ∀ axes : List (Fin ((2 : Fin 3) + 1)), (∃ j ∈ axes, j ≠ 0) → addCorner box (⟨id, false, axis x, r⟩ : Body _ Part) axes = [] := by
    rintro axes ⟨j, h1, h2⟩
    unfold addCorner
    rw [if_neg]
    intro h
    have := List.all_eq_true.mp h j h1
    rw [edge_ne x h2] at this
    cases this
  have h1 : (corners 2).flatMap (addCorner box (⟨id, false, axis x, r⟩ : Body _ Part)) = [] := by
    rw [List.flatMap_eq_nil_iff]
    intro axes h
    refine h0 axes ?_
    have : ∀ axes ∈ corners 2, ∃ j ∈ axes, j ≠ 0 := by decide
    exact this axes h
  unfold copies
  rw [h1, List.append_nil]
  have h2 : (List.finRange ((2 : Fin 3) + 1)).filter (onEdge box (axis x)) = if 15 / 2 < x ∨ x ≤ -15 / 2 then [0] else [] := by
    have : List.finRange (((2 : Fin 3) : Nat) + 1) = [0, 1, 2] := by decide
    show (List.finRange (((2 : Fin 3) : Nat) + 1)).filter _ = _
    rw [this]
    rw [List.filter_cons, List.filter_cons, List.filter_cons, edge_zero, edge_ne x (show (1 : Fin ((2 : Fin 3) + 1)) ≠ 0 by decide), edge_ne x (show (2 : Fin ((2 : Fin 3) + 1)) ≠ 0 by decide)]
    simp
  show List.map _ ((List.finRange ((2 : Fin 3) + 1)).filter (onEdge box (axis x))) = _
  rw [h2]
  by_cases hx : 15 / 2 < x
  · rw [if_pos (Or.inl hx), if_pos hx]
    have e : axisCopy box (axis x) 0 = x - 20 := by
      unfold axisCopy
      rw [box_max, box_min, axis_zero, if_pos (by show x + 5 / 2 * 1 > 10; linarith)]
      ring
    show [(⟨id, true, Function.update (axis x) 0 (axisCopy box (axis x) 0), r⟩ : Body _ Part)] = _
    rw [e, update_axis]
  · by_cases hx' : x ≤ -15 / 2
    · rw [if_pos (Or.inr hx'), if_neg hx, if_pos hx']
      have e : axisCopy box (axis x) 0 = x + 20 := by
        unfold axisCopy
        rw [box_max, box_min, axis_zero, if_neg (by show ¬ x + 5 / 2 * 1 > 10; linarith)]
        ring
      show [(⟨id, true, Function.update (axis x) 0 (axisCopy box (axis x) 0), r⟩ : Body _ Part)] = _
      rw [e, update_axis]
    · rw [if_neg (by tauto), if_neg hx, if_neg hx']; rfl

end

/-- Four particles in a row across the boundary, with the gaps 9/10. -/
def q4 : Fin 4 → ℚ := ![10, -91/10, -82/10, -73/10]
def P4 : Fin 4 → ℝ := ![1, 0, 1, 0]
/-- And their three ghosts. -/
def q7 : Fin 7 → ℚ := ![10, -91/10, -82/10, -73/10, -10, 109/10, 118/10]
def P7 : Fin 7 → ℝ := ![1, 0, 1, 0, 1, 0, 1]
def wall7 : Fin 7 → Bool := ![false, false, false, false, true, true, true]
/-- The same four particles, moved next to each other. -/
def qt : Fin 4 → ℚ := ![10, 109/10, 118/10, 127/10]

def x4 (a : Fin 4) : ℝ := q4 a
def x7 (a : Fin 7) : ℝ := q7 a
def xt (a : Fin 4) : ℝ := qt a

noncomputable def start (U : ℝ) : PState 2 := ⟨4, fun _ => false, fun _ => 0, ⟨y0 (fun a => a.1) x4 P4 U, fun _ _ => none, []⟩⟩
noncomputable def ghosts (U : ℝ) : PState 2 := ⟨7, wall7, fun _ => 0, ⟨y0 (fun a => a.1) x7 P7 U, fun _ _ => none, []⟩⟩

theorem start_ranks (U : ℝ) : (start U).ranks 1 = [[(false, part 0 (x4 0) 1 U), (false, part 1 (x4 1) 0 U), (false, part 2 (x4 2) 1 U), (false, part 3 (x4 3) 0 U)]] := by
  rfl

theorem x4_0 : x4 0 = 10 := by rw [show x4 0 = ((10 : ℚ) : ℝ) from rfl]; norm_num
theorem x4_1 : x4 1 = -91 / 10 := by rw [show x4 1 = ((-91/10 : ℚ) : ℝ) from rfl]; norm_num
theorem x4_2 : x4 2 = -82 / 10 := by rw [show x4 2 = ((-82/10 : ℚ) : ℝ) from rfl]; norm_num
theorem x4_3 : x4 3 = -73 / 10 := by rw [show x4 3 = ((-73/10 : ℚ) : ℝ) from rfl]; norm_num

theorem regenerate_chain (U : ℝ) : regenerate sides periodic ((start U).ranks 1) = some [List.ofFn fun a => (wall7 a, y0 (fun a => a.1) x7 P7 U a)] := by
  rw [start_ranks]
  obtain ⟨l, hl⟩ : ∃ l : List (Boundary.Body _ Part), l = [⟨0, false, axis (x4 0), part 0 (x4 0) 1 U⟩, ⟨1, false, axis (x4 1), part 1 (x4 1) 0 U⟩, ⟨2, false, axis (x4 2), part 2 (x4 2) 1 U⟩, ⟨3, false, axis (x4 3), part 3 (x4 3) 0 U⟩] := ⟨_, rfl⟩
  have hclean : ([[(false, part 0 (x4 0) 1 U), (false, part 1 (x4 1) 0 U), (false, part 2 (x4 2) 1 U), (false, part 3 (x4 3) 0 U)]].map fun l => l.map toBody).mapM Boundary.clean = some [l] := by
    rw [hl]; rfl
  have hH : largestH [l] = 1 := by
    rw [hl]
    simp [largestH, part]
  have hbox : (⟨sides, periodic, 5 / 2 * largestH [l]⟩ : Boundary.Box _) = box := by rw [hH]
  have htele : l.map (Boundary.teleport box) = l := by
    rw [hl]
    simp only [List.map_cons, List.map_nil]
    rw [teleport_chain 0 _ _ (by rw [x4_0]; norm_num), teleport_chain 1 _ _ (by rw [x4_1]; norm_num), teleport_chain 2 _ _ (by rw [x4_2]; norm_num), teleport_chain 3 _ _ (by rw [x4_3]; norm_num)]
  have hedge : Boundary.edge 2 box l = [⟨0, true, axis (x4 0 - 20), part 0 (x4 0) 1 U⟩, ⟨1, true, axis (x4 1 + 20), part 1 (x4 1) 0 U⟩, ⟨2, true, axis (x4 2 + 20), part 2 (x4 2) 1 U⟩] := by
    rw [hl]
    unfold Boundary.edge
    simp only [List.flatMap_cons, List.flatMap_nil, copies_chain]
    rw [if_pos (by rw [x4_0]; norm_num), if_neg (by rw [x4_1]; norm_num), if_pos (by rw [x4_1]; norm_num), if_neg (by rw [x4_2]; norm_num), if_pos (by rw [x4_2]; norm_num),
      if_neg (by rw [x4_3]; norm_num), if_neg (by rw [x4_3]; norm_num)]
    rfl
  unfold regenerate
  rw [hclean]
  show (Boundary.generate 2 ⟨sides, periodic, 5 / 2 * largestH [l]⟩ [l]).map _ = _
  rw [hbox]
  have hgen : Boundary.generate 2 box [l] = some [l ++ [⟨4, true, axis (x4 0 - 20), part 0 (x4 0) 1 U⟩, ⟨5, true, axis (x4 1 + 20), part 1 (x4 1) 0 U⟩, ⟨6, true, axis (x4 2 + 20), part 2 (x4 2) 1 U⟩]] := by
    unfold Boundary.generate
    simp only [List.map_cons, List.map_nil]
    rw [htele, hedge, hl]
    refine (if_pos ?_).trans rfl
    simp [Boundary.renumber, Boundary.prefixes]
  rw [hgen, hl]
  have e4 : x4 0 - 20 = x7 4 := by rw [x4_0, show x7 4 = ((-10 : ℚ) : ℝ) from rfl]; norm_num
  have e5 : x4 1 + 20 = x7 5 := by rw [x4_1, show x7 5 = ((109/10 : ℚ) : ℝ) from rfl]; norm_num
  have e6 : x4 2 + 20 = x7 6 := by rw [x4_2, show x7 6 = ((118/10 : ℚ) : ℝ) from rfl]; norm_num
  rw [e4, e5, e6]
  rfl

/-! ### The run of the code -/

def nb7 : Fin 7 → List (Fin 7) := ![[0, 5], [1, 2, 4], [1, 2, 3], [2, 3], [4, 1], [0, 5, 6], [5, 6]]
def nbt : Fin 4 → List (Fin 4) := ![[0, 1], [0, 1, 2], [1, 2, 3], [2, 3]]

theorem cast_gap {N : Nat} {q : Fin N → ℚ} (a b : Fin N) : |(q a : ℝ) - (q b : ℝ)| = ((|q a - q b| : ℚ) : ℝ) := by push_cast; rfl

theorem near7 : ∀ a b, b ∈ nb7 a ↔ |x7 a - x7 b| ≤ 1 := by
  have h : ∀ a b, b ∈ nb7 a ↔ |q7 a - q7 b| ≤ 1 := by decide +kernel
  intro a b
  rw [h, show x7 a = (q7 a : ℝ) from rfl, show x7 b = (q7 b : ℝ) from rfl, cast_gap]
  exact_mod_cast Iff.rfl

theorem inside7 : ∀ a, ∀ b ∈ nb7 a, |x7 a - x7 b| < 1 := by
  have h : ∀ a, ∀ b ∈ nb7 a, |q7 a - q7 b| < 1 := by decide +kernel
  intro a b hb
  rw [show x7 a = (q7 a : ℝ) from rfl, show x7 b = (q7 b : ℝ) from rfl, cast_gap]
  exact_mod_cast h a b hb

theorem neart : ∀ a b, b ∈ nbt a ↔ |xt a - xt b| ≤ 1 := by
  have h : ∀ a b, b ∈ nbt a ↔ |qt a - qt b| ≤ 1 := by decide +kernel
  intro a b
  rw [h, show xt a = (qt a : ℝ) from rfl, show xt b = (qt b : ℝ) from rfl, cast_gap]
  exact_mod_cast Iff.rfl

theorem insidet : ∀ a, ∀ b ∈ nbt a, |xt a - xt b| < 1 := by
  have h : ∀ a, ∀ b ∈ nbt a, |qt a - qt b| < 1 := by decide +kernel
  intro a b hb
  rw [show xt a = (qt a : ℝ) from rfl, show xt b = (qt b : ℝ) from rfl, cast_gap]
  exact_mod_cast h a b hb

theorem smallt : ∀ a b, |xt a - xt b| ≤ 3 := by
  have h : ∀ a b, |qt a - qt b| ≤ 3 := by decide +kernel
  intro a b
  rw [show xt a = (qt a : ℝ) from rfl, show xt b = (qt b : ℝ) from rfl, cast_gap]
  exact_mod_cast h a b

theorem self7 : ∀ a, a ∈ nb7 a := by decide
theorem nodup7 : ∀ a, (nb7 a).Nodup := by decide
theorem nodupt : ∀ a, (nbt a).Nodup := by decide

theorem lists7 (U : ℝ) : NearLists (y0 (fun a => a.1) x7 P7 U) nb7 := by
  refine ⟨nodup7, fun a b h => (near7 a b).mpr ?_⟩
  have h1 : gap (axis (x7 a)) (axis (x7 b)) ≤ (1 + 1) / 2 := h
  rw [gap_axis] at h1
  linarith

theorem P4_nonneg : ∀ a, 0 ≤ P4 a := by
  intro a; fin_cases a <;> norm_num [P4]
theorem P7_nonneg : ∀ a, 0 ≤ P7 a := by
  intro a; fin_cases a <;> norm_num [P7]

theorem start_val (U : ℝ) (a : Fin 4) : (start U).data.val a = part a.1 (x4 a) (P4 a) U := rfl

theorem start_contained (U : ℝ) : Contained sides periodic (start U) := by
  intro p hp j hj
  obtain ⟨a, -, rfl⟩ := List.mem_map.mp hp
  have hj0 : j = 0 := by
    by_contra h
    rw [periodic_ne h] at hj; cases hj
  subst hj0
  show -(3 / 2) * (20 : ℝ) < x4 a ∧ x4 a ≤ 3 / 2 * 20 ∧ 5 * (1 : ℝ) ≤ 20
  have h : ∀ a : Fin 4, -30 < q4 a ∧ q4 a ≤ 30 := by decide +kernel
  have h1 : (-30 : ℝ) < x4 a := by show (-30 : ℝ) < ((q4 a : ℚ) : ℝ); exact_mod_cast (h a).1
  have h2 : x4 a ≤ 30 := by show ((q4 a : ℚ) : ℝ) ≤ 30; exact_mod_cast (h a).2
  exact ⟨by linarith, by linarith, by norm_num⟩

theorem exec_fix {ok : PState 2 → Prop} {f : Part → Part} {ops : List (Op Part)} {σ τ : PState 2} (h : ∀ a, f (σ.data.val a) = σ.data.val a) (h' : PExec (fun _ => NearLists) ok sides periodic 1 ops σ τ) :
    PExec (fun _ => NearLists) ok sides periodic 1 (.all (fun a => some (f a)) :: ops) σ τ :=
  .step (home := σ.home) (d := σ.data) (fun h => by cases h) (.all σ.data.val (fun a => congrArg some (h a)) .nil) h'

theorem exec_front (U : ℝ) {ops : List (Op Part)} {τ : PState 2} (h : PExec (fun _ => NearLists) (Contained sides periodic) sides periodic 1 ops (ghosts U) τ) :
    PExec (fun _ => NearLists) (Contained sides periodic) sides periodic 1 (front ++ ops) (start U) τ := by
  refine exec_fix (fun a => (rest_step _ _ _ _).2.1) (exec_fix (fun a => (rest_step _ _ _ _).2.2.1) (exec_fix (fun a => (rest_step _ _ _ _).2.2.2) ?_))
  refine .update (start_contained U) (regenerate_chain U) ?_ (fun _ => Nat.one_pos) (fun p b x hx => by cases hx) rfl h
  rw [List.flatten_cons, List.flatten_nil, List.append_nil]
  exact List.Perm.refl _

theorem code_energy (U : ℝ) (hU : ∀ a, 0 ≤ U + 1 / 2 * rate x7 P7 nb7 a) : ∃ d : DState Part 7,
    PRun (fun _ => NearLists) (Contained sides periodic) sides periodic 1 (conf true .fixed) 1 clock (start U) ⟨7, wall7, fun _ => 0, d⟩ ∧ ∀ a, er (d.val a) = er (y5 (fun a => a.1) x7 P7 U nb7 a) := by
  obtain ⟨d, h1, -, h2⟩ := reach_energy (wall := wall7) (ok := Contained sides periodic) self7 inside7 (lists7 U) P7_nonneg hU (ghosts U).data rfl rfl fun _ => rfl
  refine ⟨d, .cons ?_ .nil, h2⟩
  rw [ops_energy]
  exact exec_fix (fun a => (rest_step _ _ _ _).1) (exec_front U h1)

theorem code_uniform : ∃ d : DState Part 7,
    PRun (fun _ => NearLists) (Contained sides periodic) sides periodic 1 (conf false .uniform) 1 clock (start 0) ⟨7, wall7, fun _ => 0, d⟩ ∧
      ∀ a, er (d.val a) = er { y3 (fun a => a.1) x7 P7 0 nb7 a with h := 1 / ((7 : Nat) : ℝ) * ∑ b, newH (conf false .uniform) (y3 (fun a => a.1) x7 P7 0 nb7 b) } := by
  obtain ⟨d, h1, -, h2⟩ := reach_uniform (wall := wall7) (ok := Contained sides periodic) self7 inside7 (lists7 0) P7_nonneg (ghosts 0).data rfl rfl fun _ => rfl
  refine ⟨d, .cons ?_ .nil, h2⟩
  rw [ops_uniform]
  exact exec_front 0 h1

/-! ### The run on the torus -/

theorem torus_front (U : ℝ) {ops : List (Op Part)} {t : Fin 4 → Part} (h : Exec sides periodic ops (y0 (fun a => a.1) xt P4 U) t) : Exec sides periodic (front ++ ops) (y0 (fun a => a.1) x4 P4 U) t := by
  refine .all (t := y0 (fun a => a.1) x4 P4 U) (fun a => congrArg some (rest_step _ _ _ _).2.1) (.all (t := y0 (fun a => a.1) x4 P4 U) (fun a => congrArg some (rest_step _ _ _ _).2.2.1)
    (.all (t := y0 (fun a => a.1) x4 P4 U) (fun a => congrArg some (rest_step _ _ _ _).2.2.2) (.update (fun a => ?_) h)))
  refine ⟨fun j => if j = 0 then (![0, 1, 1, 1] : Fin 4 → ℤ) a else 0, fun j hj => ?_, ?_⟩
  · have : j ≠ 0 := by rintro rfl; cases hj
    simp [this]
  · have hq : ∀ a, qt a = q4 a + (![0, 1, 1, 1] : Fin 4 → ℤ) a * 20 := by decide +kernel
    have hx : xt a = x4 a + (![0, 1, 1, 1] : Fin 4 → ℤ) a * 20 := by
      show ((qt a : ℚ) : ℝ) = ((q4 a : ℚ) : ℝ) + _
      rw [hq]; push_cast; rfl
    have : axis (xt a) = fun j => axis (x4 a) j + ((if j = 0 then (![0, 1, 1, 1] : Fin 4 → ℤ) a else 0 : ℤ) : ℝ) * sides j := by
      rw [← update_axis (x4 a), hx]
      funext j
      by_cases hj : j = 0
      · subst hj; simp [axis_zero, sides]
      · simp [hj]
    exact congrArg (fun p => ({ part a.1 (x4 a) (P4 a) U with pos := p } : Part)) this

theorem run_energy (U : ℝ) (hU : ∀ a, 0 ≤ U + 1 / 2 * rate xt P4 nbt a) :
    Run sides periodic (conf true .fixed) 1 clock (y0 (fun a => a.1) x4 P4 U) (y5 (fun a => a.1) xt P4 U nbt) := by
  refine .cons ?_ .nil
  rw [ops_energy]
  exact .all (t := y0 (fun a => a.1) x4 P4 U) (fun a => congrArg some (rest_step _ _ _ _).1) (torus_front U (torus_energy nodupt smallt neart insidet P4_nonneg hU))

theorem run_uniform : Run sides periodic (conf false .uniform) 1 clock (y0 (fun a => a.1) x4 P4 0)
    (fun a => { y3 (fun a => a.1) xt P4 0 nbt a with h := 1 / ((4 : Nat) : ℝ) * ∑ b, newH (conf false .uniform) (y3 (fun a => a.1) xt P4 0 nbt b) }) := by
  refine .cons ?_ .nil
  rw [ops_uniform]
  exact torus_front 0 (torus_uniform nodupt smallt neart insidet P4_nonneg)

/-! ### The difference -/

noncomputable def w : ℝ := W (9 / 10)
noncomputable def g : Pt := grad (-(9 / 10))

theorem w_pos : 0 < w := W_pos (by norm_num) (by norm_num)
theorem W0_pos : 0 < W 0 := W_pos le_rfl (by norm_num)

theorem gap7 (a b : Fin 7) (r : ℚ) (h : q7 a - q7 b = r) : x7 a - x7 b = r := by
  show (q7 a : ℝ) - (q7 b : ℝ) = r
  exact_mod_cast congrArg ((↑) : ℚ → ℝ) h
theorem gapt (a b : Fin 4) (r : ℚ) (h : qt a - qt b = r) : xt a - xt b = r := by
  show (qt a : ℝ) - (qt b : ℝ) = r
  exact_mod_cast congrArg ((↑) : ℚ → ℝ) h

/-- The neighbours other than the particle itself have distance 9/10. -/
theorem rho7 : ∀ a, rho x7 nb7 a = W 0 + (((nb7 a).length - 1 : Nat) : ℝ) * w := by
  have h : ∀ a, (nb7 a).map (fun b => |q7 a - q7 b|) = ((nb7 a).map fun b => if b = a then 0 else 9 / 10) := by decide +kernel
  have hx : ∀ a b, |x7 a - x7 b| = ((|q7 a - q7 b| : ℚ) : ℝ) := fun a b => cast_gap a b
  intro a
  have h1 : rho x7 nb7 a = (((nb7 a).map fun b => if b = a then (0 : ℚ) else 9 / 10).map fun r => W ((r : ℚ) : ℝ)).sum := by
    rw [← h a, List.map_map]
    unfold rho
    congr 1
    exact List.map_congr_left fun b _ => by rw [hx]; rfl
  rw [h1, List.map_map]
  have h2 : (fun r : ℚ => W ((r : ℚ) : ℝ)) ∘ (fun b => if b = a then (0 : ℚ) else 9 / 10) = fun b => if b = a then W 0 else w := by
    funext b
    simp only [Function.comp]
    split_ifs
    · simp
    · unfold w; push_cast; rfl
  rw [h2]
  fin_cases a <;> simp [nb7] <;> ring

theorem rhot : ∀ a, rho xt nbt a = W 0 + (((nbt a).length - 1 : Nat) : ℝ) * w := by
  have h : ∀ a, (nbt a).map (fun b => |qt a - qt b|) = ((nbt a).map fun b => if b = a then 0 else 9 / 10) := by decide +kernel
  have hx : ∀ a b, |xt a - xt b| = ((|qt a - qt b| : ℚ) : ℝ) := fun a b => cast_gap a b
  intro a
  have h1 : rho xt nbt a = (((nbt a).map fun b => if b = a then (0 : ℚ) else 9 / 10).map fun r => W ((r : ℚ) : ℝ)).sum := by
    rw [← h a, List.map_map]
    unfold rho
    congr 1
    exact List.map_congr_left fun b _ => by rw [hx]; rfl
  rw [h1, List.map_map]
  have h2 : (fun r : ℚ => W ((r : ℚ) : ℝ)) ∘ (fun b => if b = a then (0 : ℚ) else 9 / 10) = fun b => if b = a then W 0 else w := by
    funext b
    simp only [Function.comp]
    split_ifs
    · simp
    · unfold w; push_cast; rfl
  rw [h2]
  fin_cases a <;> simp [nbt] <;> ring

theorem g_ne : 0 < dot g g := by
  have h0 : g 0 ≠ 0 := by
    show axis (-(9 / 10)) 0 * slope .wendlandC2 2 (magnitude (axis (-(9 / 10)))) 1 / (magnitude (axis (-(9 / 10))) + tiny) ≠ 0
    have hm : magnitude (axis (-(9 / 10))) = 9 / 10 := by
      have := mag_axis (-(9 / 10)) 0
      rw [axis_sub, sub_zero] at this
      rw [this]; norm_num
    rw [hm, axis_zero]
    have hs : 0 < wendlandC2Sigma 2 := by
      show 0 < (![5 / 4, 7 / Real.pi, 21 / (2 * Real.pi)] : Fin 3 → ℝ) 2
      have := Real.pi_pos
      simp; positivity
    have hslope : slope .wendlandC2 2 (9 / 10) 1 ≠ 0 := by
      show wendlandC2Slope 2 (9 / 10) 1 ≠ 0
      unfold wendlandC2Slope
      norm_num [fac]
      exact hs.ne'
    have ht : (9 / 10 + tiny : ℝ) ≠ 0 := by unfold tiny; positivity
    exact div_ne_zero (mul_ne_zero (by norm_num) hslope) ht
  unfold dot
  have : 0 < g 0 * g 0 := mul_self_pos.mpr h0
  exact lt_of_lt_of_le this (Finset.single_le_sum (f := fun j => g j * g j) (fun j _ => mul_self_nonneg _) (Finset.mem_univ 0))

/-- The weights of particles at an end and in the middle. -/
noncomputable def A : ℝ := 1 / ((W 0 + w) * (W 0 + w))
noncomputable def B : ℝ := 1 / ((W 0 + 2 * w) * (W 0 + 2 * w))

theorem B_lt_A : B < A := by
  have h1 := w_pos
  have h2 := W0_pos
  unfold A B
  refine one_div_lt_one_div_of_lt (by positivity) ?_
  nlinarith

theorem rho7_0 : rho x7 nb7 0 = W 0 + w := by rw [rho7]; simp [nb7]
theorem rho7_6 : rho x7 nb7 6 = W 0 + w := by rw [rho7]; simp [nb7]
theorem rhot_0 : rho xt nbt 0 = W 0 + w := by rw [rhot]; simp [nbt]
theorem rhot_2 : rho xt nbt 2 = W 0 + 2 * w := by rw [rhot]; simp [nbt]

theorem acc7_0 : acc x7 P7 nb7 0 = (-A) • g := by
  unfold acc
  rw [show nb7 0 = [0, 5] from rfl, List.map_cons, List.map_cons, List.map_nil, List.sum_cons, List.sum_cons, List.sum_nil, sub_self, grad_zero, smul_zero, zero_add, add_zero,
    gap7 0 5 (-(9 / 10)) (by decide +kernel), show P7 5 = 0 from rfl, show P7 0 = 1 from rfl, rho7_0]
  push_cast
  unfold g A
  simp

theorem acct_0 : acc xt P4 nbt 0 = (-A) • g := by
  unfold acc
  rw [show nbt 0 = [0, 1] from rfl, List.map_cons, List.map_cons, List.map_nil, List.sum_cons, List.sum_cons, List.sum_nil, sub_self, grad_zero, smul_zero, zero_add, add_zero,
    gapt 0 1 (-(9 / 10)) (by decide +kernel), show P4 1 = 0 from rfl, show P4 0 = 1 from rfl, rhot_0]
  push_cast
  unfold g A
  simp

theorem acc7_5 : acc x7 P7 nb7 5 = (-A) • grad (9 / 10) + (-A) • g := by
  unfold acc
  rw [show nb7 5 = [0, 5, 6] from rfl, List.map_cons, List.map_cons, List.map_cons, List.map_nil, List.sum_cons, List.sum_cons, List.sum_cons, List.sum_nil, sub_self, grad_zero, smul_zero, zero_add, add_zero,
    gap7 5 0 (9 / 10) (by decide +kernel), gap7 5 6 (-(9 / 10)) (by decide +kernel), show P7 5 = 0 from rfl, show P7 0 = 1 from rfl, show P7 6 = 1 from rfl, rho7_0, rho7_6]
  push_cast
  unfold g A
  simp

theorem acct_1 : acc xt P4 nbt 1 = (-A) • grad (9 / 10) + (-B) • g := by
  unfold acc
  rw [show nbt 1 = [0, 1, 2] from rfl, List.map_cons, List.map_cons, List.map_cons, List.map_nil, List.sum_cons, List.sum_cons, List.sum_cons, List.sum_nil, sub_self, grad_zero, smul_zero, zero_add, add_zero,
    gapt 1 0 (9 / 10) (by decide +kernel), gapt 1 2 (-(9 / 10)) (by decide +kernel), show P4 1 = 0 from rfl, show P4 0 = 1 from rfl, show P4 2 = 1 from rfl, rhot_0, rhot_2]
  push_cast
  unfold g A B
  simp

theorem rate_ne : rate x7 P7 nb7 0 ≠ rate xt P4 nbt 0 := by
  have h7 : rate x7 P7 nb7 0 = A * dot ((1 / 2 : ℝ) • acc x7 P7 nb7 0 - (1 / 2 : ℝ) • acc x7 P7 nb7 5) g := by
    unfold rate
    rw [show nb7 0 = [0, 5] from rfl, List.map_cons, List.map_cons, List.map_nil, List.sum_cons, List.sum_cons, List.sum_nil, sub_self, sub_self, grad_zero,
      gap7 0 5 (-(9 / 10)) (by decide +kernel), show P7 0 = 1 from rfl, rho7_0]
    push_cast
    unfold A g
    simp [dot]
  have ht : rate xt P4 nbt 0 = A * dot ((1 / 2 : ℝ) • acc xt P4 nbt 0 - (1 / 2 : ℝ) • acc xt P4 nbt 1) g := by
    unfold rate
    rw [show nbt 0 = [0, 1] from rfl, List.map_cons, List.map_cons, List.map_nil, List.sum_cons, List.sum_cons, List.sum_nil, sub_self, sub_self, grad_zero,
      gapt 0 1 (-(9 / 10)) (by decide +kernel), show P4 0 = 1 from rfl, rhot_0]
    push_cast
    unfold A g
    simp [dot]
  have hA : 0 < A := by have := w_pos; have := W0_pos; unfold A; positivity
  have hd : rate x7 P7 nb7 0 - rate xt P4 nbt 0 = A * (1 / 2 * (A - B) * dot g g) := by
    rw [h7, ht, acc7_0, acct_0, acc7_5, acct_1]
    rw [← mul_sub]
    refine congrArg (A * ·) ?_
    unfold dot
    rw [← Finset.sum_sub_distrib, Finset.mul_sum]
    refine Finset.sum_congr rfl fun j _ => ?_
    simp only [Pi.sub_apply, Pi.smul_apply, Pi.add_apply, smul_eq_mul]
    ring
  intro h
  have hB := B_lt_A
  have hg := g_ne
  rw [h, sub_self] at hd
  have : 0 < A * (1 / 2 * (A - B) * dot g g) := by
    have : 0 < A - B := by linarith
    positivity
  linarith

/-- The smoothing lengths for the densities at an end and in the middle. -/
theorem newH_ne (a b : Part) (ha : a.mass = 1) (hb : b.mass = 1) (h1 : a.rho = W 0 + w) (h2 : b.rho = W 0 + 2 * w) : newH (conf false .uniform) b < newH (conf false .uniform) a := by
  have hw := w_pos
  have hW := W0_pos
  unfold newH root
  rw [ha, hb, h1, h2]
  show _ * 1 * 1 < _ * (1 : ℝ) * 1
  rw [mul_one, mul_one, mul_one, mul_one]
  refine Real.rpow_lt_rpow (by positivity) ?_ (by positivity)
  exact one_div_lt_one_div_of_lt (by positivity) (by linarith)

theorem newH_eq (a b : Part) (ha : a.mass = b.mass) (h : a.rho = b.rho) : newH (conf false .uniform) a = newH (conf false .uniform) b := by
  unfold newH; rw [ha, h]

theorem mean_ne : 1 / ((7 : Nat) : ℝ) * ∑ b, newH (conf false .uniform) (y3 (fun a => a.1) x7 P7 0 nb7 b) ≠ 1 / ((4 : Nat) : ℝ) * ∑ b, newH (conf false .uniform) (y3 (fun a => a.1) xt P4 0 nbt b) := by
  obtain ⟨α, hα⟩ : ∃ α, α = newH (conf false .uniform) (y3 (fun a => a.1) xt P4 0 nbt 0) := ⟨_, rfl⟩
  obtain ⟨β, hβ⟩ : ∃ β, β = newH (conf false .uniform) (y3 (fun a => a.1) xt P4 0 nbt 2) := ⟨_, rfl⟩
  have hlt : β < α := by rw [hα, hβ]; exact newH_ne _ _ rfl rfl rhot_0 rhot_2
  have e7 : ∀ a, newH (conf false .uniform) (y3 (fun a => a.1) x7 P7 0 nb7 a) = if (nb7 a).length = 2 then α else β := by
    intro a
    have h : (nb7 a).length = 2 ∨ (nb7 a).length = 3 := by revert a; decide
    rcases h with h | h
    · rw [if_pos h, hα]
      refine newH_eq _ _ rfl ?_
      show rho x7 nb7 a = rho xt nbt 0
      rw [rho7, rhot_0, h]; norm_num
    · rw [if_neg (by omega), hβ]
      refine newH_eq _ _ rfl ?_
      show rho x7 nb7 a = rho xt nbt 2
      rw [rho7, rhot_2, h]; norm_num
  have et : ∀ a, newH (conf false .uniform) (y3 (fun a => a.1) xt P4 0 nbt a) = if (nbt a).length = 2 then α else β := by
    intro a
    have h : (nbt a).length = 2 ∨ (nbt a).length = 3 := by revert a; decide
    rcases h with h | h
    · rw [if_pos h, hα]
      refine newH_eq _ _ rfl ?_
      show rho xt nbt a = rho xt nbt 0
      rw [rhot, rhot_0, h]; norm_num
    · rw [if_neg (by omega), hβ]
      refine newH_eq _ _ rfl ?_
      show rho xt nbt a = rho xt nbt 2
      rw [rhot, rhot_2, h]; norm_num
  rw [Finset.sum_congr rfl fun a _ => e7 a, Finset.sum_congr rfl fun a _ => et a]
  have s7 : ∑ a : Fin 7, (if (nb7 a).length = 2 then α else β) = 4 * α + 3 * β := by
    simp [Fin.sum_univ_succ, nb7]; ring
  have st : ∑ a : Fin 4, (if (nbt a).length = 2 then α else β) = 2 * α + 2 * β := by
    simp [Fin.sum_univ_succ, nbt]; ring
  rw [s7, st]
  push_cast
  intro h
  linarith

/-! ### Runs for which the hypotheses hold -/

/-- The first iteration, with the energy equation. -/
noncomputable def clock0 : Timestep.Clock := ⟨0, 1, 0, 0, 0, fun _ => 0⟩

theorem rest_rate {N : Nat} (id : Fin N → Nat) (x P : Fin N → ℝ) (U : ℝ) (nb : Fin N → List (Fin N)) (a : Fin N) :
    computeDudt par 0 (y2 id x P U nb a) ((nb a).map (y2 id x P U nb)) = y2 id x P U nb a := by
  unfold computeDudt
  rw [if_neg (by show ¬ (0 : Int) < 0; norm_num)]
  have h1 : accumulate ((nb a).map (y2 id x P U nb)) (fun b => massOf (y2 id x P U nb a) b * dot ((y2 id x P U nb a).vel - b.vel) (gradOf par (y2 id x P U nb a) b)) = 0 := by
    rw [sum_accumulate]
    refine List.sum_eq_zero fun y hy => ?_
    obtain ⟨b, hb, rfl⟩ := List.mem_map.mp hy
    obtain ⟨c, -, rfl⟩ := List.mem_map.mp hb
    have : (y2 id x P U nb a).vel - (y2 id x P U nb c).vel = 0 := sub_self _
    rw [this]
    simp [dot]
  have h2 : accumulate ((nb a).map (y2 id x P U nb)) (fun b => massOf (y2 id x P U nb a) b * dot ((y2 id x P U nb a).vel - b.vel) (gradOf par (y2 id x P U nb a) b) * viscOf par (y2 id x P U nb a) b) = 0 := by
    rw [sum_accumulate]
    refine List.sum_eq_zero fun y hy => ?_
    obtain ⟨b, _, rfl⟩ := List.mem_map.mp hy
    rw [visc_zero, mul_zero]
  refine (congrArg₂ (fun r q => ({ y2 id x P U nb a with dudt := P a / (rho x nb a * rho x nb a) * r + 1 / 2 * q } : Part)) h1 h2).trans ?_
  have e : P a / (rho x nb a * rho x nb a) * 0 + 1 / 2 * 0 = (0 : ℝ) := by ring
  exact congrArg (fun r => ({ y2 id x P U nb a with dudt := r } : Part)) e

noncomputable def firstBack : List (Op Part) :=
  [.all fun a => some (Eos.init .noEos ⟨2, 2, 1⟩ a), densityOp (conf true .fixed) 1, .all fun a => some (saveVelocityhalf a), .reset, .pass 2 fun a l => some (computeAcceleration par a l),
    .pass 4 fun a l => some (computeDudt par 0 a l), .all fun a => some (Eos.recomputePressureSoundspeed .noEos ⟨2, 2, 1⟩ 1 a), check true]

theorem ops_first : iterationOps (conf true .fixed) clock0 = .update :: firstBack := by
  unfold iterationOps
  rw [if_pos (by rfl)]
  rfl

theorem code_first : ∃ τ, PRun (fun _ => NearLists) (Contained sides periodic) sides periodic 1 (conf true .fixed) 1 clock0 (start 1) τ := by
  have h : Reach (Contained sides periodic) wall7 firstBack (y0 (fun a => a.1) x7 P7 1) (y2 (fun a => a.1) x7 P7 1 nb7) := by
    refine reach_pure (Y' := y0 (fun a => a.1) x7 P7 1) (fun _ => rfl) (fun _ => rfl) ?_
    refine reach_pass (density_reads (conf true .fixed) rfl 1) (fun _ => rfl) (fun a l => ?_) (lists7 1) (density_step _ _ _ _ _ true .fixed self7 inside7) ?_
    · rw [density_er (conf true .fixed) rfl, density_er (conf true .fixed) rfl]; rfl
    refine reach_pure (Y' := y1 (fun a => a.1) x7 P7 1 nb7) (fun _ => rfl) (fun _ => rfl) (reach_reset ?_)
    refine reach_pass (acceleration_reads par) (fun _ => rfl) (fun a l => rfl) (nb := nb7) (Y' := y2 (fun a => a.1) x7 P7 1 nb7) ⟨(lists7 1).nodup, (lists7 1).complete⟩ (fun a => ?_) ?_
    · show some (er (computeAcceleration par _ _)) = _
      rw [acceleration_step]
    refine reach_pass (dudt_reads par 0) (fun _ => rfl) (fun a l => ?_) (nb := nb7) (Y' := y2 (fun a => a.1) x7 P7 1 nb7) ⟨(lists7 1).nodup, (lists7 1).complete⟩ (fun a => ?_) ?_
    · simp only [computeDudt]; split <;> rfl
    · show some (er (computeDudt par 0 _ _)) = _
      rw [rest_rate]
    refine reach_pure (Y' := y2 (fun a => a.1) x7 P7 1 nb7) (fun _ => rfl) (fun _ => rfl) (reach_check true fun a => ⟨(rho_pos x7 nb7 self7 inside7 a).le, P7_nonneg a, fun _ => ?_⟩)
    exact zero_le_one
  obtain ⟨d, h1, -⟩ := h (ghosts 1).data rfl rfl fun _ => rfl
  refine ⟨_, .cons (τ := ⟨7, wall7, fun _ => 0, d⟩) ?_ .nil⟩
  rw [ops_first]
  refine .update (start_contained 1) (regenerate_chain 1) ?_ (fun _ => Nat.one_pos) (fun p b x hx => by cases hx) rfl h1
  rw [List.flatten_cons, List.flatten_nil, List.append_nil]
  exact List.Perm.refl _

theorem ops_plain : iterationOps (conf false .fixed) clock = front ++ (middle false .fixed ++ [check false]) := by
  unfold iterationOps
  rw [if_neg (by show ¬ (1 : Int) = 0; norm_num)]
  rfl

theorem code_plain : ∃ τ, PRun (fun _ => NearLists) (Contained sides periodic) sides periodic 1 (conf false .fixed) 1 clock (start 0) τ := by
  obtain ⟨d, h1, -, h2⟩ := reach_middle (wall := wall7) (ok := Contained sides periodic) false .fixed self7 inside7 (lists7 0)
    (reach_check false fun a => ⟨(rho_pos x7 nb7 self7 inside7 a).le, P7_nonneg a, fun h => by cases h⟩) (ghosts 0).data rfl rfl fun _ => rfl
  refine ⟨_, .cons (τ := ⟨7, wall7, fun _ => 0, d⟩) ?_ .nil⟩
  rw [ops_plain]
  exact exec_front 0 h1

theorem start_reals (U : ℝ) : (start U).reals = List.ofFn (y0 (fun a => a.1) x4 P4 U) := rfl

theorem force (ev : Bool) (m : HMode) : PeriodicForce sides periodic (conf ev m) := ⟨fun _ _ _ _ _ => rfl, fun _ _ _ => rfl⟩

theorem code_motion : ∃ τ, PExec (fun _ => NearLists) (Contained sides periodic) sides periodic 1 (kickOps (conf true .uniform) 1 ++ [.all fun a => some (kickV 1 a), .all fun a => some (saveVelocityhalf a),
    .all fun a => some (drift 1 a), .update, densityOp (conf true .uniform) 1] ++ forceOps (conf true .uniform) 1 ++ [.all fun a => some (kickV 1 a)]) (start 0) τ := by
  have h : Reach (Contained sides periodic) wall7 [densityOp (conf true .uniform) 1, .reset, .pass 2 fun a l => some (computeAcceleration par a l), .all fun a => some (kickV 1 a)] (y0 (fun a => a.1) x7 P7 0)
      (y3 (fun a => a.1) x7 P7 0 nb7) := by
    refine reach_pass (density_reads (conf true .uniform) rfl 1) (fun _ => rfl) (fun a l => ?_) (lists7 0) (density_step _ _ _ _ _ true .uniform self7 inside7) (reach_reset ?_)
    · rw [density_er (conf true .uniform) rfl, density_er (conf true .uniform) rfl]; rfl
    refine reach_pass (acceleration_reads par) (fun _ => rfl) (fun a l => rfl) (nb := nb7) (Y' := y2 (fun a => a.1) x7 P7 0 nb7) ⟨(lists7 0).nodup, (lists7 0).complete⟩ (fun a => ?_)
      (reach_pure (fun _ => rfl) (kick_step _ x7 P7 0 nb7) reach_nil)
    show some (er (computeAcceleration par _ _)) = _
    rw [acceleration_step]
  obtain ⟨d, h1, -⟩ := h (ghosts 0).data rfl rfl fun _ => rfl
  exact ⟨⟨7, wall7, fun _ => 0, d⟩, exec_fix (fun a => (rest_step _ _ _ _).1) (exec_front 0 h1)⟩

end FleCSPH.Torus.Witness
