import Verif.Lemmas.Program
import Verif.Lemmas.NewtonStep
/-! Executions with trees: they are executions of Model/DistRun.lean, they agree, and they exist. -/
namespace FleCSPH.Program
open FleCSPH.Geometry FleCSPH.Sph FleCSPH.Driver FleCSPH.DistRun FleCSPH.Cofm FleCSPH.Key FleCSPH.Newtonian FleCSPH.Update FleCSPH.Spec FleCSPH.Integration

variable {i : Fin 3} {n m : Nat}

/-- The calls use the trees only while they are those of the particles: `t`, whether they are before the calls, `te`, whether they are after them; `I` is what holds for every particle before, `J` after. -/
def Fit : List (Op (Particle (i + 1))) → Bool → (Particle (i + 1) → Prop) → Bool → (Particle (i + 1) → Prop) → Prop
  | [], t, I, te, J => (te = true → t = true) ∧ ∀ a, I a → J a
  | .all f :: ops, t, I, te, J => (∀ a x, f a = some x → x.id = a.id) ∧ ∃ t' I', (t' = true → t = true ∧ ∀ a x, f a = some x → bodyOf x = bodyOf a) ∧ (∀ a x, I a → f a = some x → I' x) ∧ Fit ops t' I' te J
  | .pass _ f :: ops, t, I, te, J => t = true ∧ (∀ a, I a → Sized a) ∧ (∀ a l x, f a l = some x → x.id = a.id ∧ bodyOf x = bodyOf a) ∧ ∃ I' : Particle (i + 1) → Prop, (∀ a l x, I a → f a l = some x → I' x) ∧
      Fit ops true I' te J
  | .reset :: ops, t, I, te, J => t = true ∧ Fit ops true I te J
  | .update :: ops, _, I, te, J => (∀ a, I a → Sized a) ∧ Fit ops true I te J
  | .mean g set :: ops, _, I, te, J => (∀ a, I a → 0 < g a) ∧ (∀ x a, (set x a).id = a.id) ∧ ∃ I' : Particle (i + 1) → Prop, (∀ x a, 0 < x → I a → I' (set x a)) ∧ Fit ops false I' te J

theorem Fit.split {b : List (Op (Particle (i + 1)))} {te : Bool} {J : Particle (i + 1) → Prop} : ∀ {a : List (Op (Particle (i + 1)))} {t : Bool} {I : Particle (i + 1) → Prop}, Fit (a ++ b) t I te J →
    ∃ t' I', Fit a t I t' I' ∧ Fit b t' I' te J := by
  intro a
  induction a with
  | nil => intro t I h; exact ⟨t, I, ⟨id, fun _ h => h⟩, h⟩
  | cons o a ih =>
    intro t I h
    cases o with
    | all f =>
      obtain ⟨h1, t', I', h2, h3, h4⟩ := h
      obtain ⟨t2, I2, h5, h6⟩ := ih h4
      exact ⟨t2, I2, ⟨h1, t', I', h2, h3, h5⟩, h6⟩
    | pass k f =>
      obtain ⟨h1, h2, h3, I', h4, h5⟩ := h
      obtain ⟨t2, I2, h6, h7⟩ := ih h5
      exact ⟨t2, I2, ⟨h1, h2, h3, I', h4, h6⟩, h7⟩
    | reset =>
      obtain ⟨t2, I2, h6, h7⟩ := ih h.2
      exact ⟨t2, I2, ⟨h.1, h6⟩, h7⟩
    | update =>
      obtain ⟨t2, I2, h6, h7⟩ := ih h.2
      exact ⟨t2, I2, ⟨h.1, h6⟩, h7⟩
    | mean g set =>
      obtain ⟨h1, h2, I', h4, h5⟩ := h
      obtain ⟨t2, I2, h6, h7⟩ := ih h5
      exact ⟨t2, I2, ⟨h1, h2, I', h4, h6⟩, h7⟩

theorem disc_prefix {P : Type} {er : P → P} {near : (Fin n → P) → (Fin n → List (Fin n)) → Prop} {Pre J : P → Prop} {b : List (Op P)} : ∀ {a : List (Op P)} {V : (P → P) → Prop} {I : P → Prop},
    Disciplined er near Pre J (a ++ b) V I → Disciplined er near Pre (fun _ => True) a V I := by
  intro a
  induction a with
  | nil => intro V I _ _ _; trivial
  | cons o a ih =>
    intro V I h
    cases o with
    | all f => exact ⟨h.1, h.2.choose, h.2.choose_spec.1, ih h.2.choose_spec.2⟩
    | pass k f =>
      obtain ⟨h1, h3, h4, h5, I', h6, h7⟩ := h
      exact ⟨h1, h3, h4, h5, I', h6, ih h7⟩
    | reset => exact ih h
    | update => exact ih h
    | mean g set =>
      obtain ⟨h1, h2, h3, I', h4, h5⟩ := h
      exact ⟨h1, h2, h3, I', h4, ih h5⟩

theorem pexec_append {g : Settings} {b : List (Op (Particle (i + 1)))} : ∀ {a : List (Op (Particle (i + 1)))} {T : Trees i n m} {d : DState (Particle (i + 1)) n} {r : Result i n m}, PExec g (a ++ b) T d r →
    (r = .failed ∧ PExec g a T d .failed) ∨ (r = .clash ∧ PExec g a T d .clash) ∨ ∃ T' d', PExec g a T d (.ended T' d') ∧ PExec g b T' d' r := by
  intro a
  induction a with
  | nil => intro T d r h; exact .inr (.inr ⟨T, d, .nil, h⟩)
  | cons o a ih =>
    intro T d r h
    cases h with
    | all v hv h =>
      rcases ih h with ⟨h1, h2⟩ | ⟨h1, h2⟩ | ⟨T', d', h1, h2⟩
      exacts [.inl ⟨h1, .all v hv h2⟩, .inr (.inl ⟨h1, .all v hv h2⟩), .inr (.inr ⟨T', d', .all v hv h1, h2⟩)]
    | allFail a ha => exact .inl ⟨rfl, .allFail a ha⟩
    | pass nbs order g1 g2 g3 g4 h =>
      rcases ih h with ⟨h1, h2⟩ | ⟨h1, h2⟩ | ⟨T', d', h1, h2⟩
      exacts [.inl ⟨h1, .pass nbs order g1 g2 g3 g4 h2⟩, .inr (.inl ⟨h1, .pass nbs order g1 g2 g3 g4 h2⟩), .inr (.inr ⟨T', d', .pass nbs order g1 g2 g3 g4 h1, h2⟩)]
    | passFail nbs order g1 g2 g3 g4 => exact .inl ⟨rfl, .passFail nbs order g1 g2 g3 g4⟩
    | reset g1 g2 h =>
      rcases ih h with ⟨h1, h2⟩ | ⟨h1, h2⟩ | ⟨T', d', h1, h2⟩
      exacts [.inl ⟨h1, .reset g1 g2 h2⟩, .inr (.inl ⟨h1, .reset g1 g2 h2⟩), .inr (.inr ⟨T', d', .reset g1 g2 h1, h2⟩)]
    | update g1 g2 g3 h =>
      rcases ih h with ⟨h1, h2⟩ | ⟨h1, h2⟩ | ⟨T', d', h1, h2⟩
      exacts [.inl ⟨h1, .update g1 g2 g3 h2⟩, .inr (.inl ⟨h1, .update g1 g2 g3 h2⟩), .inr (.inr ⟨T', d', .update g1 g2 g3 h1, h2⟩)]
    | clash g1 => exact .inr (.inl ⟨rfl, .clash g1⟩)
    | mean h =>
      rcases ih h with ⟨h1, h2⟩ | ⟨h1, h2⟩ | ⟨T', d', h1, h2⟩
      exacts [.inl ⟨h1, .mean h2⟩, .inr (.inl ⟨h1, .mean h2⟩), .inr (.inr ⟨T', d', .mean h1, h2⟩)]

/-- What an execution with trees is without them. -/
def Simulates (g : Settings) (ops : List (Op (Particle (i + 1)))) (T : Trees i n m) (d : DState (Particle (i + 1)) n) (te : Bool) (J : Particle (i + 1) → Prop) : Result i n m → Prop
  | .ended T' d' => DExec NearLists (2 ^ m) ops (homeOf T.vec) d (some (homeOf T'.vec, d')) ∧ (∀ a, J (d'.val a)) ∧ Division n (2 ^ m) T'.vec ∧ (te = true → Good g T' d'.val) ∧ ∀ a, (d'.val a).id = (d.val a).id
  | .failed => DExec NearLists (2 ^ m) ops (homeOf T.vec) d none
  | .clash => ∃ pre post home1 d1, ops = pre ++ .update :: post ∧ DExec NearLists (2 ^ m) pre (homeOf T.vec) d (some (home1, d1)) ∧ ¬Apart g d1.val

theorem Simulates.cons {g : Settings} {o : Op (Particle (i + 1))} {ops : List (Op (Particle (i + 1)))} {T T1 : Trees i n m} {d d1 : DState (Particle (i + 1)) n} {te : Bool} {J : Particle (i + 1) → Prop} {r : Result i n m}
    (hs : ∀ ops' x, DExec NearLists (2 ^ m) ops' (homeOf T1.vec) d1 x → DExec NearLists (2 ^ m) (o :: ops') (homeOf T.vec) d x) (hid : ∀ a, (d1.val a).id = (d.val a).id)
    (h : Simulates g ops T1 d1 te J r) : Simulates g (o :: ops) T d te J r := by
  cases r with
  | ended T' d' =>
    obtain ⟨h1, h2, h3, h4, h5⟩ := h
    exact ⟨hs _ _ h1, h2, h3, h4, fun a => (h5 a).trans (hid a)⟩
  | failed => exact hs _ _ h
  | clash =>
    obtain ⟨pre, post, home1, d2, rfl, h1, h2⟩ := h
    exact ⟨o :: pre, post, home1, d2, rfl, hs _ _ h1, h2⟩

theorem Distinct.of_ids {v v' : Fin n → Particle (i + 1)} (h : Distinct v) (e : ∀ a, (v' a).id = (v a).id) : Distinct v' := fun a b hab => h a b (by rw [← e, ← e, hab])

section
variable {g : Settings} (hbits : i.val + 1 < g.bits) (hn : 2 ≤ n) (htol : 0 ≤ g.tol)
include hbits hn htol

theorem sim {ops : List (Op (Particle (i + 1)))} {T : Trees i n m} {d : DState (Particle (i + 1)) n} {r : Result i n m} (h : PExec g ops T d r) : ∀ {t : Bool} {I : Particle (i + 1) → Prop} {te : Bool}
    {J : Particle (i + 1) → Prop}, Fit ops t I te J → (∀ a, I (d.val a)) → Distinct d.val → Division n (2 ^ m) T.vec → (t = true → Good g T d.val) → Simulates g ops T d te J r := by
  induction h with
  | nil => intro t I te J hF hI hid hdiv hg; exact ⟨.nil, fun a => hF.2 _ (hI a), hdiv, fun h => hg (hF.1 h), fun _ => rfl⟩
  | @all f ops T d r v hv _ ih =>
    rintro t I te J ⟨h1, t', I', h2, h3, h4⟩ hI hid hdiv hg
    have e : ∀ a, (v a).id = (d.val a).id := fun a => h1 _ _ (hv a)
    refine Simulates.cons (T1 := T) (d1 := { d with val := v }) (fun _ _ h => .all v hv h) e (ih h4 (fun a => h3 _ _ (hI a) (hv a)) (hid.of_ids e) hdiv fun ht => ?_)
    exact (hg (h2 ht).1).congr fun a => ⟨(h2 ht).2 _ _ (hv a), e a⟩
  | allFail a ha => intro t I te J _ _ _ _ _; exact .allFail a ha
  | @pass k f ops T T' d d' r nbs order hs ho hall hp _ ih =>
    rintro t I te J ⟨rfl, h1, h2, I', h3, h4⟩ hI hid hdiv hg
    obtain ⟨hnear, hgood⟩ := good_search hbits (fun a => h1 _ (hI a)) hn htol (hg rfl) hs
    have e : ∀ a, (d'.val a).id = (d.val a).id := dpass_val (g := Particle.id) (fun a l x hx => (h2 a l x hx).1) hp _ rfl
    have e' : ∀ a, bodyOf (d'.val a) = bodyOf (d.val a) := dpass_val (g := bodyOf) (fun a l x hx => (h2 a l x hx).2) hp _ rfl
    have ev : T'.vec = T.vec := by obtain ⟨_, _, _, -, -, -, -, -, e, -⟩ := hs; exact e
    refine Simulates.cons (T1 := T') (d1 := d') (fun _ _ h => ?_) e (ih h4 (dpass_inv h3 hp ho (fun a _ => hI a) (fun a ha => absurd (hall a) ha) d' rfl) (hid.of_ids e) hgood.division fun _ => hgood.congr fun a => ⟨e' a, e a⟩)
    rw [ev] at h
    exact .pass nbs order hnear ho hall hp h
  | @passFail k f ops T T' d nbs order hs ho hall hp =>
    rintro t I te J ⟨rfl, h1, h2, I', h3, h4⟩ hI hid hdiv hg
    obtain ⟨hnear, hgood⟩ := good_search hbits (fun a => h1 _ (hI a)) hn htol (hg rfl) hs
    exact .passFail nbs order hnear ho hall hp
  | @reset ops T T' d d' r ha hb _ ih =>
    rintro t I te J ⟨rfl, h1⟩ hI hid hdiv hg
    have hgood := good_again (hg rfl) ha
    have e : ∀ a, (d'.val a).id = (d.val a).id := fun a => by rw [hb.val]
    refine Simulates.cons (T1 := T') (d1 := d') (fun _ _ h => ?_) e (ih h1 (fun a => by rw [hb.val]; exact hI a) (hid.of_ids e) hgood.division fun _ => by rw [hb.val]; exact hgood)
    rw [ha.1] at h
    exact .reset hb h
  | @update ops T T' d d' r hap hu hb _ ih =>
    rintro t I te J ⟨h1, h2⟩ hI hid hdiv hg
    have hgood := good_update hbits (fun a => h1 _ (hI a)) hid hdiv hap hu
    have e : ∀ a, (d'.val a).id = (d.val a).id := fun a => by rw [hb.val]
    exact Simulates.cons (T1 := T') (d1 := d') (fun _ _ h => .update (home_mem hgood.division) hb h) e (ih h2 (fun a => by rw [hb.val]; exact hI a) (hid.of_ids e) hgood.division fun _ => by rw [hb.val]; exact hgood)
  | @clash ops T d hap => intro t I te J _ _ _ _ _; exact ⟨[], ops, _, d, rfl, .nil, hap⟩
  | @mean h set ops T d r _ ih =>
    rintro t I te J ⟨h1, h2, I', h3, h4⟩ hI hid hdiv hg
    exact Simulates.cons (T1 := T) (fun _ _ h => .mean (home_mem hdiv) h) (fun a => h2 _ _)
      (ih h4 (fun a => h3 _ _ (mean_pos (home_mem hdiv) (fun b => h1 _ (hI b)) a) (hI a)) (hid.of_ids fun a => h2 _ _) hdiv fun h => by cases h)

/-- Two results agree. -/
def Same {m' : Nat} : Result i n m → Result i n m' → Prop
  | .ended _ d, .ended _ d' => ∀ a, er (d.val a) = er (d'.val a)
  | .failed, .failed => True
  | .clash, .clash => True
  | _, _ => False

omit hbits hn htol in
theorem body_er {v v' : Fin n → Particle (i + 1)} (e : ∀ a, er (v a) = er (v' a)) : ∀ a, bodyOf (v a) = bodyOf (v' a) := fun a => by
  have := congrArg bodyOf (e a)
  exact this

omit hbits hn htol in
theorem apart_er {v v' : Fin n → Particle (i + 1)} (e : ∀ a, er (v a) = er (v' a)) (h : Apart g v) : Apart g v' := by
  have : (fun a => bodyOf (v a)) = fun a => bodyOf (v' a) := funext (body_er e)
  unfold Apart at h ⊢
  rw [← this]; exact h

omit hbits hn htol in
theorem ids_er {v v' : Fin n → Particle (i + 1)} (e : ∀ a, er (v a) = er (v' a)) : ∀ a, (v' a).id = (v a).id := fun a => by
  have := congrArg Particle.id (e a)
  exact this.symm

/-- One execution ends at two particles in one cell, the other cannot go on. -/
theorem agree_clash {m' : Nat} {ops : List (Op (Particle (i + 1)))} {T : Trees i n m} {T' : Trees i n m'} {d d' : DState (Particle (i + 1)) n} {y : Result i n m'} (h : PExec g ops T d .clash)
    (h' : PExec g ops T' d' y) {t te : Bool} {I J J' : Particle (i + 1) → Prop} {V : (Particle (i + 1) → Particle (i + 1)) → Prop} (hF : Fit ops t I te J) (hD : Disc n ops V I J') (c1 : ∀ v, V v → Consistent v d)
    (c2 : ∀ v, V v → Consistent v d') (i1 : ∀ a, I (d.val a)) (i2 : ∀ a, I (d'.val a)) (he : ∀ a, er (d.val a) = er (d'.val a)) (hid : Distinct d.val) (hd : Division n (2 ^ m) T.vec)
    (hd' : Division n (2 ^ m') T'.vec) (hg : t = true → Good g T d.val) (hg' : t = true → Good g T' d'.val) : y = .clash := by
  obtain ⟨pre, post, home1, d1, rfl, e1, hap⟩ := sim hbits hn htol h hF i1 hid hd hg
  obtain ⟨t1, I1, f1, -⟩ := hF.split
  have hid' := hid.of_ids (ids_er he)
  rcases pexec_append h' with ⟨-, h2⟩ | ⟨h1, -⟩ | ⟨T2, d2, h2, h3⟩
  · have := exec_agree near_er e1 (disc_prefix hD) c1 c2 i1 i2 he (sim hbits hn htol h2 f1 i2 hid' hd' hg')
    cases this
  · exact h1
  · obtain ⟨k1, -⟩ := sim hbits hn htol h2 f1 i2 hid' hd' hg'
    have := exec_agree near_er e1 (disc_prefix hD) c1 c2 i1 i2 he k1
    have e2 : ∀ a, er (d1.val a) = er (d2.val a) := fun a => congrFun (Option.some.inj this) a
    cases h3 with
    | update hap2 => exact absurd (apart_er (fun a => (e2 a).symm) hap2) hap
    | clash => rfl

theorem agree {m' : Nat} {ops : List (Op (Particle (i + 1)))} {T : Trees i n m} {T' : Trees i n m'} {d d' : DState (Particle (i + 1)) n} {x : Result i n m} {y : Result i n m'} (h : PExec g ops T d x)
    (h' : PExec g ops T' d' y) {t te : Bool} {I J J' : Particle (i + 1) → Prop} {V : (Particle (i + 1) → Particle (i + 1)) → Prop} (hF : Fit ops t I te J) (hD : Disc n ops V I J') (c1 : ∀ v, V v → Consistent v d)
    (c2 : ∀ v, V v → Consistent v d') (i1 : ∀ a, I (d.val a)) (i2 : ∀ a, I (d'.val a)) (he : ∀ a, er (d.val a) = er (d'.val a)) (hid : Distinct d.val) (hd : Division n (2 ^ m) T.vec)
    (hd' : Division n (2 ^ m') T'.vec) (hg : t = true → Good g T d.val) (hg' : t = true → Good g T' d'.val) : Same x y := by
  have hid' := hid.of_ids (ids_er he)
  have s1 := sim hbits hn htol h hF i1 hid hd hg
  have s2 := sim hbits hn htol h' hF i2 hid' hd' hg'
  have key : ∀ {r r'}, DExec NearLists (2 ^ m) ops (homeOf T.vec) d r → DExec NearLists (2 ^ m') ops (homeOf T'.vec) d' r' → (r.map fun x a => er (x.2.val a)) = r'.map fun x a => er (x.2.val a) :=
    fun k k' => exec_agree near_er k hD c1 c2 i1 i2 he k'
  have side1 : x = .clash → y = .clash := by
    rintro rfl
    exact agree_clash hbits hn htol h h' hF hD c1 c2 i1 i2 he hid hd hd' hg hg'
  have side2 : y = .clash → x = .clash := by
    rintro rfl
    exact agree_clash hbits hn htol h' h hF hD c2 c1 i2 i1 (fun a => (he a).symm) hid' hd' hd hg' hg
  cases x with
  | clash => rw [side1 rfl]; trivial
  | failed =>
    cases y with
    | clash => cases side2 rfl
    | failed => trivial
    | ended T2 d2 => cases key s1 s2.1
  | ended T1 d1 =>
    cases y with
    | clash => cases side2 rfl
    | failed => cases key s1.1 s2
    | ended T2 d2 => exact fun a => congrFun (Option.some.inj (key s1.1 s2.1)) a

/-- Executions exist. -/
theorem pexec_exists : ∀ {ops : List (Op (Particle (i + 1)))} {t te : Bool} {I J : Particle (i + 1) → Prop} {T : Trees i n m} {d : DState (Particle (i + 1)) n}, Fit ops t I te J → (∀ a, I (d.val a)) → Distinct d.val →
    Division n (2 ^ m) T.vec → (t = true → Good g T d.val) → Full d → d.flight = [] → ∃ r, PExec g ops T d r ∧ ∀ T' d', r = .ended T' d' → Full d' ∧ d'.flight = [] := by
  intro ops
  induction ops with
  | nil => intro t te I J T d _ _ _ _ _ hFl hfl; exact ⟨_, .nil, fun T' d' h => by cases h; exact ⟨hFl, hfl⟩⟩
  | cons o ops ih =>
    intro t te I J T d hF hI hid hdiv hg hFl hfl
    cases o with
    | all f =>
      obtain ⟨h1, t', I', h2, h3, h4⟩ := hF
      by_cases hs : ∃ a, f (d.val a) = none
      · obtain ⟨a, ha⟩ := hs
        exact ⟨_, .allFail a ha, fun _ _ h => by cases h⟩
      · push Not at hs
        have hs' : ∀ a, ∃ x, f (d.val a) = some x := fun a => Option.ne_none_iff_exists'.mp (hs a)
        choose v hv using hs'
        have e : ∀ a, (v a).id = (d.val a).id := fun a => h1 _ _ (hv a)
        obtain ⟨r, hr, hx⟩ := ih (T := T) (d := { d with val := v }) h4 (fun a => h3 _ _ (hI a) (hv a)) (hid.of_ids e) hdiv (fun ht => (hg (h2 ht).1).congr fun a => ⟨(h2 ht).2 _ _ (hv a), e a⟩) hFl hfl
        exact ⟨r, .all v hv hr, hx⟩
    | pass k f =>
      obtain ⟨rfl, h1, h2, I', h3, h4⟩ := hF
      obtain ⟨T', nbs, hs⟩ := search_exists hbits (fun a => h1 _ (hI a)) hn htol (hg rfl)
      obtain ⟨-, hgood⟩ := good_search hbits (fun a => h1 _ (hI a)) hn htol (hg rfl) hs
      rcases dpass_exists (homeOf T.vec) f nbs (List.finRange n) d hFl hfl with hp | ⟨d', hp, hFl'⟩
      · exact ⟨_, .passFail nbs _ hs (List.nodup_finRange n) List.mem_finRange hp, fun _ _ h => by cases h⟩
      · have e : ∀ a, (d'.val a).id = (d.val a).id := dpass_val (g := Particle.id) (fun a l x hx => (h2 a l x hx).1) hp _ rfl
        have e' : ∀ a, bodyOf (d'.val a) = bodyOf (d.val a) := dpass_val (g := bodyOf) (fun a l x hx => (h2 a l x hx).2) hp _ rfl
        obtain ⟨r, hr, hx⟩ := ih (T := T') (d := d') h4 (dpass_inv h3 hp (List.nodup_finRange n) (fun a _ => hI a) (fun a ha => absurd (List.mem_finRange a) ha) d' rfl) (hid.of_ids e) hgood.division
          (fun _ => hgood.congr fun a => ⟨e' a, e a⟩) hFl' (dpass_flight hp _ rfl)
        exact ⟨r, .pass nbs _ hs (List.nodup_finRange n) List.mem_finRange hp hr, hx⟩
    | reset =>
      obtain ⟨rfl, h1⟩ := hF
      obtain ⟨T', ha⟩ := again_exists (hg rfl)
      have hgood := good_again (hg rfl) ha
      obtain ⟨r, hr, hx⟩ := ih (T := T') (d := fresh d) h1 hI hid hgood.division (fun _ => hgood) (fun _ _ => rfl) rfl
      exact ⟨r, .reset ha (fresh_rebuilt d) hr, hx⟩
    | update =>
      obtain ⟨h1, h2⟩ := hF
      by_cases hap : Apart g d.val
      · obtain ⟨T', hu⟩ := update_exists hbits (fun a => h1 _ (hI a)) hid hdiv hap
        have hgood := good_update hbits (fun a => h1 _ (hI a)) hid hdiv hap hu
        obtain ⟨r, hr, hx⟩ := ih (T := T') (d := fresh d) h2 hI hid hgood.division (fun _ => hgood) (fun _ _ => rfl) rfl
        exact ⟨r, .update hap hu (fresh_rebuilt d) hr, hx⟩
      · exact ⟨_, .clash hap, fun _ _ h => by cases h⟩
    | mean h set =>
      obtain ⟨h1, h2, I', h3, h4⟩ := hF
      obtain ⟨r, hr, hx⟩ := ih (T := T) (d := { d with val := _ }) h4 (fun a => h3 _ _ (mean_pos (home_mem hdiv) (fun b => h1 _ (hI b)) a) (hI a)) (hid.of_ids fun a => h2 _ _) hdiv (fun h => by cases h) hFl hfl
      exact ⟨r, .mean hr, hx⟩

end

end FleCSPH.Program
