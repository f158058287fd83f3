import Verif.Lemmas.TorusForms
import Verif.Lemmas.TorusUpdate
/-! Executions with periodic boundaries follow executions on the torus as long as the ghosts near the particles are right. -/
namespace FleCSPH.Torus
open FleCSPH.Geometry FleCSPH.Sph FleCSPH.Driver FleCSPH.DistRun FleCSPH.PeriodicRun FleCSPH.Spec

variable {i : Fin 3} {n : Nat}

section inversion
variable {near : ∀ n : Nat, (Fin n → Particle (i + 1)) → (Fin n → List (Fin n)) → Prop} {ok : PState i → Prop} {sides : Fin (i + 1) → ℝ} {periodic : Fin (i + 1) → Bool} {procs : Nat}
  {ops : List (Op (Particle (i + 1)))} {σ τ : PState i}

theorem pexec_all {f : Particle (i + 1) → Option (Particle (i + 1))} (h : PExec near ok sides periodic procs (.all f :: ops) σ τ) :
    ∃ v, (∀ a, f (σ.data.val a) = some (v a)) ∧ PExec near ok sides periodic procs ops ⟨σ.n, σ.wall, σ.home, { σ.data with val := v }⟩ τ := by
  cases h with
  | step _ h1 h2 =>
    cases h1 with
    | all v hv h3 =>
      cases h3
      exact ⟨v, hv, h2⟩

theorem pexec_pass {k : Nat} {f : Particle (i + 1) → List (Particle (i + 1)) → Option (Particle (i + 1))} (h : PExec near ok sides periodic procs (.pass k f :: ops) σ τ) :
    ∃ d' nbs order, near σ.n σ.data.val nbs ∧ order.Nodup ∧ (∀ a, a ∈ order) ∧ DPass σ.home f nbs order σ.data (some d') ∧ PExec near ok sides periodic procs ops ⟨σ.n, σ.wall, σ.home, d'⟩ τ := by
  cases h with
  | step _ h1 h2 =>
    cases h1 with
    | pass nbs order g1 g2 g3 g4 h3 =>
      cases h3
      exact ⟨_, nbs, order, g1, g2, g3, g4, h2⟩

theorem pexec_reset (h : PExec near ok sides periodic procs (.reset :: ops) σ τ) : ∃ d', Rebuilt σ.data d' ∧ PExec near ok sides periodic procs ops ⟨σ.n, σ.wall, σ.home, d'⟩ τ := by
  cases h with
  | step _ h1 h2 =>
    cases h1 with
    | reset g1 h3 =>
      cases h3
      exact ⟨_, g1, h2⟩

theorem pexec_update (h : PExec near ok sides periodic procs (.update :: ops) σ τ) : ∃ out ρ, ok σ ∧ regenerate sides periodic (σ.ranks procs) = some out ∧
    (List.ofFn fun a => (ρ.wall a, ρ.data.val a)).Perm out.flatten ∧ (∀ a, ρ.home a < procs) ∧ (∀ p b x, ρ.data.copy p b = some x → x = ρ.data.val b) ∧ ρ.data.flight = [] ∧
    PExec near ok sides periodic procs ops ρ τ := by
  cases h with
  | step h1 _ _ => exact (h1 rfl).elim
  | update g1 g2 g3 g4 g5 g6 g7 => exact ⟨_, _, g1, g2, g3, g4, g5, g6, g7⟩

theorem pexec_nil (h : PExec near ok sides periodic procs [] σ τ) : τ = σ := by cases h; rfl
end inversion

/-- The particles of the torus are those which are not ghosts; `I` holds for them. -/
structure Simple (procs : Nat) (I : Particle (i + 1) → Prop) (σ : PState i) (s : Fin n → Particle (i + 1)) : Prop where
  reals : σ.reals.Perm (List.ofFn s)
  home : ∀ a, σ.home a < procs
  flight : σ.data.flight = []
  inv : ∀ a, I (s a)

/-- Where the particles of the torus are. -/
structure Finds (σ : PState i) (real : Fin n → Fin σ.n) (s : Fin n → Particle (i + 1)) : Prop where
  val : ∀ a, σ.data.val (real a) = s a
  wall : ∀ e, σ.wall e = false ↔ ∃ a, real a = e
  inj : real.Injective

theorem Finds.reals {σ : PState i} {real : Fin n → Fin σ.n} {s : Fin n → Particle (i + 1)} (h : Finds σ real s) : σ.reals.Perm (List.ofFn s) := by
  have h1 : ((List.finRange σ.n).filter fun a => !σ.wall a).Perm ((List.finRange n).map real) := by
    rw [List.perm_ext_iff_of_nodup ((List.nodup_finRange _).filter _) ((List.nodup_finRange n).map h.inj)]
    intro e
    rw [List.mem_filter, List.mem_map]
    constructor
    · rintro ⟨-, h1⟩
      obtain ⟨a, ha⟩ := (h.wall e).mp (by simpa using h1)
      exact ⟨a, List.mem_finRange a, ha⟩
    · rintro ⟨a, -, ha⟩
      exact ⟨List.mem_finRange e, by simpa using (h.wall e).mpr ⟨a, ha⟩⟩
  have h2 := h1.map σ.data.val
  rw [List.map_map] at h2
  rw [List.ofFn_eq_map]
  refine h2.trans (List.Perm.of_eq (List.map_congr_left fun a _ => h.val a))

theorem Finds.exists {σ : PState i} {s : Fin n → Particle (i + 1)} (h : σ.reals.Perm (List.ofFn s)) : ∃ real, Finds σ real s := by
  unfold PState.reals at h
  rw [List.ofFn_eq_map] at h
  have h1 : Relation.Comp (· = List.map σ.data.val ·) List.Perm ((List.finRange n).map s) ((List.finRange σ.n).filter fun a => !σ.wall a) := by
    rw [List.eq_map_comp_perm]; exact h.symm
  obtain ⟨X, hX, hperm⟩ := h1
  have hlen : X.length = n := by
    have := congrArg List.length hX
    simpa using this.symm
  have hnd : X.Nodup := hperm.nodup_iff.mpr ((List.nodup_finRange _).filter _)
  refine ⟨fun a => X[a.1]'(by rw [hlen]; exact a.2), fun a => ?_, fun e => ?_, fun a b hab => Fin.ext ((List.Nodup.getElem_inj_iff hnd).mp hab)⟩
  · have h2 := List.getElem_of_eq hX (i := a.1) (by simp)
    simp only [List.getElem_map, List.getElem_finRange] at h2
    exact h2.symm
  · have h3 : σ.wall e = false ↔ e ∈ X := by
      rw [hperm.mem_iff, List.mem_filter]
      simp [List.mem_finRange]
    rw [h3]
    constructor
    · intro h4
      obtain ⟨m, hm, rfl⟩ := List.getElem_of_mem h4
      exact ⟨⟨m, by rw [← hlen]; exact hm⟩, rfl⟩
    · rintro ⟨a, rfl⟩
      exact List.getElem_mem _

/-- The ghosts are there, and agree with their particles near the particles: in everything up to a distance of `r` and in what forces look at up to `R`, in units of the largest smoothing length. The copies on
the other processes agree as far as `v` shows. -/
def Rich (sides : Fin (i + 1) → ℝ) (periodic : Fin (i + 1) → Bool) (procs : Nat) (v : Particle (i + 1) → Particle (i + 1)) (r R : ℝ) (I : Particle (i + 1) → Prop) (σ : PState i)
    (s : Fin n → Particle (i + 1)) : Prop :=
  ∃ (H : ℝ) (x : Fin n → Point (i + 1)) (base : Fin σ.n → Fin n) (shift : Fin σ.n → Fin (i + 1) → ℤ) (real : Fin n → Fin σ.n), IsExt sides periodic (5 / 2 * H) x base shift real ∧ 0 ≤ H ∧
    Placed sides x base shift H σ.data.val ∧ Agree sides x base shift real core (r * H) σ.data.val ∧ Agree sides x base shift real flowC (R * H) σ.data.val ∧ Consistent v σ.data ∧ Finds σ real s ∧
    (∀ a, σ.home a < procs) ∧ σ.data.flight = [] ∧ ∀ a, I (s a)

theorem Rich.simple {sides : Fin (i + 1) → ℝ} {periodic : Fin (i + 1) → Bool} {procs : Nat} {v : Particle (i + 1) → Particle (i + 1)} {r R : ℝ} {I : Particle (i + 1) → Prop} {σ : PState i}
    {s : Fin n → Particle (i + 1)} (h : Rich sides periodic procs v r R I σ s) : Simple procs I σ s := by
  obtain ⟨H, x, base, shift, real, -, -, -, -, -, -, h1, h2, h3, h4⟩ := h
  exact ⟨h1.reals, h2, h3, h4⟩

section
variable (sides : Fin (i + 1) → ℝ) (periodic : Fin (i + 1) → Bool) (procs : Nat)

/-- Every execution of the calls from a state in `A` follows an execution on the torus and ends in a state with `J`. -/
def Leads (n : Nat) (J : Particle (i + 1) → Prop) (ops : List (Op (Particle (i + 1)))) (A : PState i → (Fin n → Particle (i + 1)) → Prop) : Prop :=
  ∀ σ s τ, A σ s → PExec (fun _ => NearLists) (Contained sides periodic) sides periodic procs ops σ τ → ∃ s', Exec sides periodic ops s s' ∧ Simple procs J τ s'
end

section
variable {sides : Fin (i + 1) → ℝ} {periodic : Fin (i + 1) → Bool} {procs : Nat} {ops : List (Op (Particle (i + 1)))} {I I' J : Particle (i + 1) → Prop}

theorem Leads.weaken {A A' : PState i → (Fin n → Particle (i + 1)) → Prop} (h : Leads sides periodic procs n J ops A) (hA : ∀ σ s, A' σ s → A σ s) : Leads sides periodic procs n J ops A' :=
  fun σ s τ h1 h2 => h σ s τ (hA σ s h1) h2

theorem lead_nil (h : ∀ a, I a → J a) : Leads sides periodic procs n J [] (Simple procs I) := by
  intro σ s τ h1 h2
  obtain rfl := pexec_nil h2
  exact ⟨s, .nil, h1.reals, h1.home, h1.flight, fun a => h _ (h1.inv a)⟩

theorem lead_all {f : Particle (i + 1) → Option (Particle (i + 1))} (hI : ∀ a y, I a → f a = some y → I' y) (h : Leads sides periodic procs n J ops (Simple procs I')) :
    Leads sides periodic procs n J (.all f :: ops) (Simple procs I) := by
  intro σ s τ h1 h2
  obtain ⟨v, hv, h3⟩ := pexec_all h2
  obtain ⟨real, hr⟩ := Finds.exists h1.reals
  have hr' : Finds (⟨σ.n, σ.wall, σ.home, { σ.data with val := v }⟩ : PState i) real (fun a => v (real a)) := ⟨fun _ => rfl, hr.wall, hr.inj⟩
  have hf : ∀ a, f (s a) = some (v (real a)) := fun a => by rw [← hr.val]; exact hv _
  obtain ⟨s', g1, g2⟩ := h _ _ τ ⟨hr'.reals, h1.home, h1.flight, fun a => hI _ _ (h1.inv a) (hf a)⟩ h3
  exact ⟨s', .all hf g1, g2⟩

theorem lead_reset (h : Leads sides periodic procs n J ops (Simple procs I)) : Leads sides periodic procs n J (.reset :: ops) (Simple procs I) := by
  intro σ s τ h1 h2
  obtain ⟨d', hb, h3⟩ := pexec_reset h2
  obtain ⟨real, hr⟩ := Finds.exists h1.reals
  have hr' : Finds (⟨σ.n, σ.wall, σ.home, d'⟩ : PState i) real s := ⟨fun a => by show d'.val _ = _; rw [hb.val]; exact hr.val a, hr.wall, hr.inj⟩
  obtain ⟨s', g1, g2⟩ := h _ _ τ ⟨hr'.reals, h1.home, hb.flight, h1.inv⟩ h3
  exact ⟨s', .reset g1, g2⟩

theorem lead_update (hs : ∀ j, periodic j = true → 0 < sides j) {v : Particle (i + 1) → Particle (i + 1)} (hI : ∀ a, I a → 0 < a.h) (hI' : ∀ a k, I a → I (imageOf sides a k))
    (h : Leads sides periodic procs n J ops (Rich sides periodic procs v (5 / 2) (5 / 2) I)) : Leads sides periodic procs n J (.update :: ops) (Simple procs I) := by
  intro σ s τ h1 h2
  obtain ⟨out, ρ, hok, hreg, hperm, hhome, hcopy, hfl, h3⟩ := pexec_update h2
  obtain ⟨s', H, e1, e2, e3, e4, e5, e6⟩ := regenerate_images hs h1.home hok h1.reals hreg
  obtain ⟨base, shift, real, f1, f2, f3, f4, f5⟩ := extension_of_perm hs e4 e5 ((hperm.map viewT).trans e6)
  have hh : ∀ a, (s' a).h = (s a).h := fun a => by
    obtain ⟨k, -, hk⟩ := e1 a
    rw [hk]; rfl
  have hinv : ∀ a, I (s' a) := fun a => by
    obtain ⟨k, -, hk⟩ := e1 a
    rw [hk]; exact hI' _ _ (h1.inv a)
  have hc : ∀ e, core (ρ.data.val e) = core (imageOf sides (ρ.data.val (real (base e))) (shift e)) := by
    intro e
    rw [f2]
    exact congrArg (fun a : Particle (i + 1) => ({ a with vsig := 0 } : Particle (i + 1))) (f5 e)
  have hpl : Placed sides (fun a => (s' a).pos) base shift H ρ.data.val := by
    refine ⟨fun e => ?_, fun e => ?_, fun e => ?_⟩
    · have := congrArg Particle.pos (f5 e)
      exact this
    · have := congrArg Particle.h (f5 e)
      have h4 : (ρ.data.val e).h = (s' (base e)).h := this
      rw [h4]; exact hI _ (hinv _)
    · have := congrArg Particle.h (f5 e)
      have h4 : (ρ.data.val e).h = (s' (base e)).h := this
      rw [h4, hh]; exact e3 _
  have hcons : Consistent v ρ.data := ⟨fun p b x hx => by rw [hcopy p b x hx], fun p b x hx => by rw [hfl] at hx; simp at hx⟩
  obtain ⟨u, g1, g2⟩ := h ρ s' τ ⟨H, _, base, shift, real, f1, e2, hpl, fun e _ => hc e, fun e _ => core_flowC (hc e), hcons, ⟨f2, f3, f4⟩, hhome, hfl, hinv⟩ h3
  exact ⟨u, .update e1 g1, g2⟩

theorem lead_rich_reset {v w : Particle (i + 1) → Particle (i + 1)} {r R : ℝ} (h : Leads sides periodic procs n J ops (Rich sides periodic procs w r R I)) :
    Leads sides periodic procs n J (.reset :: ops) (Rich sides periodic procs v r R I) := by
  intro σ s τ h1 h2
  obtain ⟨d', hb, h3⟩ := pexec_reset h2
  obtain ⟨H, x, base, shift, real, g1, g2, g3, g4, g5, -, g7, g8, g9, g10⟩ := h1
  obtain ⟨s', k1, k2⟩ := h _ _ τ (⟨H, x, base, shift, real, g1, g2, by rw [hb.val]; exact g3, by rw [hb.val]; exact g4, by rw [hb.val]; exact g5, hb.consistent w,
    ⟨fun a => by show d'.val _ = _; rw [hb.val]; exact g7.val a, g7.wall, g7.inj⟩, g8, hb.flight, g10⟩ : Rich sides periodic procs w r R I (⟨σ.n, σ.wall, σ.home, d'⟩ : PState i) s) h3
  exact ⟨s', .reset k1, k2⟩

/-- `apply_all` with a function which does the same to ghosts as to their particles. -/
theorem lead_rich_all {v : Particle (i + 1) → Particle (i + 1)} {r R : ℝ} {f : Particle (i + 1) → Option (Particle (i + 1))}
    (hf : ∀ a b k y y', Lattice periodic k → core a = core (imageOf sides b k) → f a = some y → f b = some y' → core y = core (imageOf sides y' k))
    (hk : ∀ a y, f a = some y → y.pos = a.pos ∧ y.h = a.h ∧ v y = v a) (hI : ∀ a y, I a → f a = some y → I' y) (h : Leads sides periodic procs n J ops (Rich sides periodic procs v r r I')) :
    Leads sides periodic procs n J (.all f :: ops) (Rich sides periodic procs v r R I) := by
  intro σ s τ h1 h2
  obtain ⟨t, ht, h3⟩ := pexec_all h2
  obtain ⟨H, x, base, shift, real, g1, g2, g3, g4, g5, g6, g7, g8, g9, g10⟩ := h1
  have hfs : ∀ a, f (s a) = some (t (real a)) := fun a => by rw [← g7.val]; exact ht _
  have hag : Agree sides x base shift real core (r * H) t := by
    intro e he
    rw [(hk _ _ (ht e)).1] at he
    exact hf _ _ _ _ _ (g1.lattice e) (g4 e he) (ht e) (ht _)
  obtain ⟨s', k1, k2⟩ := h _ _ τ (⟨H, x, base, shift, real, g1, g2, ⟨fun e => by rw [(hk _ _ (ht e)).1]; exact g3.pos e, fun e => by rw [(hk _ _ (ht e)).2.1]; exact g3.hpos e,
    fun e => by rw [(hk _ _ (ht e)).2.1]; exact g3.hle e⟩, hag, fun e he => core_flowC (hag e he), ⟨fun p b y hy => by rw [g6.copy p b y hy]; exact (hk _ _ (ht b)).2.2.symm,
      fun p b y hy => by rw [g9] at hy; simp at hy⟩, ⟨fun _ => rfl, g7.wall, g7.inj⟩, g8, g9, fun a => hI _ _ (g10 a) (hfs a)⟩ :
        Rich sides periodic procs v r r I' (⟨σ.n, σ.wall, σ.home, { σ.data with val := t }⟩ : PState i) (fun a => t (real a))) h3
  exact ⟨s', .all hfs k1, k2⟩

/-- A pass. Its own result needs the neighbours' data `w` up to one smoothing length further. -/
theorem lead_rich_pass {v : Particle (i + 1) → Particle (i + 1)} {w : Particle (i + 1) → Particle (i + 1)} {r R r' R' : ℝ} {k : Nat} {f : Particle (i + 1) → List (Particle (i + 1)) → Option (Particle (i + 1))}
    (S : SumForm sides periodic w f) (hread : Reads er v f) (h0 : 0 ≤ r') (hr : r' ≤ r) (hr2 : r' + 1 ≤ 5 / 2)
    (hw : (r' + 1 ≤ r ∧ ∀ a b, core a = core b → w a = w b) ∨ (r' + 1 ≤ R ∧ ∀ a b, flowC a = flowC b → w a = w b))
    (hR : R' ≤ r' ∨ (R' ≤ R ∧ ∀ a l y, f a l = some y → flowC y = flowC a)) (hgeo : ∀ a l y, f a l = some y → geo y = geo a)
    (hI : ∀ a l y, I a → f a l = some y → I' y) (hI' : ∀ a b, er a = er b → I' a → I' b) (h : Leads sides periodic procs n J ops (Rich sides periodic procs v r' R' I')) :
    Leads sides periodic procs n J (.pass k f :: ops) (Rich sides periodic procs v r R I) := by
  intro σ s τ h1 h2
  obtain ⟨d', nbs, order, hn, ho, hall, hp, h3⟩ := pexec_pass h2
  obtain ⟨H, x, base, shift, real, g1, g2, g3, g4, g5, g6, g7, g8, g9, g10⟩ := h1
  obtain ⟨q1, q2, q3, -⟩ := (dpass_result hread σ.data.val hp ho g6 (fun _ => rfl) (fun _ _ => rfl)).1 d' rfl
  have ht : ∀ e, (f (σ.data.val e) ((nbs e).map σ.data.val)).map er = some (er (d'.val e)) := fun e => q3 e (hall e)
  have hval : ∀ e, ∃ y, f (σ.data.val e) ((nbs e).map σ.data.val) = some y ∧ er y = er (d'.val e) := fun e => Option.map_eq_some_iff.mp (ht e)
  have hg : ∀ e, (d'.val e).pos = (σ.data.val e).pos ∧ (d'.val e).h = (σ.data.val e).h := by
    intro e
    obtain ⟨y, hy, he⟩ := hval e
    have := hgeo _ _ _ hy
    have e1 := congrArg Particle.pos this
    have e2 := congrArg Particle.h this
    have e3 := congrArg Particle.pos he
    have e4 := congrArg Particle.h he
    exact ⟨e3.symm.trans e1, e4.symm.trans e2⟩
  have hmono : ∀ {V : Type} {u u' : Particle (i + 1) → V} {a b : ℝ}, a ≤ b → (∀ p q, u p = u q → u' p = u' q) → Agree sides x base shift real u (b * H) σ.data.val →
      Agree sides x base shift real u' (a * H) σ.data.val := by
    intro V u u' a b hab hu hag e he
    obtain ⟨m, hm⟩ := he
    exact hu _ _ (hag e ⟨m, le_trans hm (mul_le_mul_of_nonneg_right hab g2)⟩)
  have hview : Agree sides x base shift real w (r' * H + H) σ.data.val := by
    have e : r' * H + H = (r' + 1) * H := by ring
    rw [e]
    rcases hw with ⟨h4, h5⟩ | ⟨h4, h5⟩
    · exact hmono h4 h5 g4
    · exact hmono h4 h5 g5
  obtain ⟨p1, p2⟩ := pass_step g1 g3 S hview (hmono hr (fun _ _ h => h) g4) (mul_nonneg h0 g2) (by
    have := mul_le_mul_of_nonneg_right hr2 g2
    linarith) hn ht (fun e => (hg e).1)
  have hflow : Agree sides x base shift real flowC (R' * H) d'.val := by
    rcases hR with h4 | ⟨h4, h5⟩
    · intro e he
      obtain ⟨m, hm⟩ := he
      exact core_flowC (p2 e ⟨m, le_trans hm (mul_le_mul_of_nonneg_right h4 g2)⟩)
    · have hk : ∀ e, flowC (d'.val e) = flowC (σ.data.val e) := by
        intro e
        obtain ⟨y, hy, he⟩ := hval e
        rw [← h5 _ _ _ hy]
        have : ∀ a : Particle (i + 1), flowC a = flowC (er a) := fun _ => rfl
        rw [this y, he]; rfl
      intro e he
      rw [(hg e).1] at he
      rw [hk e, hmono h4 (fun _ _ h => h) g5 e he]
      have : ∀ a k, flowC (imageOf sides a k) = imageOf sides (flowC a) k := fun _ _ => rfl
      rw [this, this, hk]
  obtain ⟨s', k1, k2⟩ := h _ _ τ (⟨H, x, base, shift, real, g1, g2, ⟨fun e => by rw [(hg e).1]; exact g3.pos e, fun e => by rw [(hg e).2]; exact g3.hpos e, fun e => by rw [(hg e).2]; exact g3.hle e⟩,
    p2, hflow, q2, ⟨fun _ => rfl, g7.wall, g7.inj⟩, g8, q1, fun a => by
      obtain ⟨y, hy, he⟩ := hval (real a)
      exact hI' _ _ he (hI _ _ _ (by rw [g7.val]; exact g10 a) hy)⟩ :
        Rich sides periodic procs v r' R' I' (⟨σ.n, σ.wall, σ.home, d'⟩ : PState i) (fun a => d'.val (real a))) h3
  have hsv : (fun a => σ.data.val (real a)) = s := funext g7.val
  rw [hsv] at p1
  exact ⟨s', .pass p1 k1, k2⟩

end

end FleCSPH.Torus
