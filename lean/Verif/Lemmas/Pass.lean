import Verif.Lemmas.SphSum
/-! Passes whose function has assertions. -/
namespace FleCSPH.Sph
open FleCSPH.Geometry FleCSPH.Kernels FleCSPH.Spec

theorem passM_cons {P : Type} {n : Nat} (f : P → List P → Option P) (nbs : Fin n → List (Fin n)) (c : Fin n) (l : List (Fin n)) (s : Fin n → P) :
    passM f nbs (c :: l) s = (f (s c) ((nbs c).map s)).bind fun x => passM f nbs l (Function.update s c x) := by
  simp only [passM, List.foldlM_cons]
  cases f (s c) ((nbs c).map s) <;> rfl

/-- A pass whose function reads from the neighbours only what it does not write gives every particle the result
the function has on the initial state. -/
theorem passM_iff {P V : Type} {n : Nat} (f : P → List P → Option P) (view : P → V) (g : P → List V → Option P)
    (hg : ∀ a l, f a l = g a (l.map view)) (hv : ∀ a l x, f a l = some x → view x = view a)
    (nbs : Fin n → List (Fin n)) (order : List (Fin n)) (hall : VisitsAll order) (s t : Fin n → P) :
    passM f nbs order s = some t ↔ ∀ a, f (s a) ((nbs a).map s) = some (t a) := by
  have key : ∀ (l : List (Fin n)) (t0 : Fin n → P), l.Nodup → (∀ a, view (t0 a) = view (s a)) → (∀ a ∈ l, t0 a = s a) →
      (passM f nbs l t0 = some t ↔ (∀ a ∈ l, f (s a) ((nbs a).map s) = some (t a)) ∧ ∀ a, a ∉ l → t a = t0 a) := by
    intro l
    induction l with
    | nil =>
      intro t0 _ _ _
      simp only [passM, List.foldlM_nil, List.not_mem_nil, false_implies, implies_true, true_and, not_false_eq_true, true_implies]
      show some t0 = some t ↔ _
      rw [Option.some_inj]
      exact ⟨fun h a => by rw [h], fun h => funext fun a => (h a).symm⟩
    | cons c l ih =>
      intro t0 hn hv1 he
      have hc : f (t0 c) ((nbs c).map t0) = f (s c) ((nbs c).map s) := by
        rw [hg, hg (s c), he c (List.mem_cons_self ..), List.map_map, List.map_map]
        congr 1
        exact List.map_congr_left fun b _ => hv1 b
      have hn' := List.nodup_cons.mp hn
      rw [passM_cons, hc]
      rcases hx : f (s c) ((nbs c).map s) with _ | x
      · refine ⟨fun h => absurd h (by simp), ?_⟩
        rintro ⟨h1, _⟩
        have := h1 c (List.mem_cons_self ..)
        rw [hx] at this; cases this
      · rw [Option.bind_some, ih (Function.update t0 c x) hn'.2]
        · constructor
          · rintro ⟨h1, h2⟩
            have hcx : t c = x := by rw [h2 c hn'.1, Function.update_self]
            refine ⟨fun a ha => ?_, fun a ha => ?_⟩
            · rcases List.mem_cons.mp ha with rfl | ha
              · rw [hx, hcx]
              · exact h1 a ha
            · have h3 : a ≠ c := fun h => ha (h ▸ List.mem_cons_self ..)
              rw [h2 a fun h => ha (List.mem_cons_of_mem _ h), Function.update_of_ne h3]
          · rintro ⟨h1, h2⟩
            have hcx : t c = x := by
              have := h1 c (List.mem_cons_self ..)
              rw [hx] at this; exact (Option.some_inj.mp this).symm
            refine ⟨fun a ha => h1 a (List.mem_cons_of_mem _ ha), fun a ha => ?_⟩
            by_cases h3 : a = c
            · subst h3; rw [Function.update_self, hcx]
            · rw [Function.update_of_ne h3]
              exact h2 a (by simp [h3, ha])
        · intro b
          by_cases h2 : b = c
          · subst h2
            rw [Function.update_self, hv _ _ _ hx]
          · rw [Function.update_of_ne h2, hv1]
        · intro b hb
          have : b ≠ c := fun h => hn'.1 (h ▸ hb)
          rw [Function.update_of_ne this]
          exact he b (List.mem_cons_of_mem _ hb)
  rw [key order s hall.nodup (fun _ => rfl) (fun _ _ => rfl)]
  exact ⟨fun h a => h.1 a (hall.all a), fun h => ⟨fun a _ => h a, fun a ha => absurd (hall.all a) ha⟩⟩

/-- Hence the order does not matter. -/
theorem passM_order {P V : Type} {n : Nat} (f : P → List P → Option P) (view : P → V) (g : P → List V → Option P)
    (hg : ∀ a l, f a l = g a (l.map view)) (hv : ∀ a l x, f a l = some x → view x = view a)
    (nbs : Fin n → List (Fin n)) (order order' : List (Fin n)) (hall : VisitsAll order) (hall' : VisitsAll order') (s : Fin n → P) :
    passM f nbs order s = passM f nbs order' s := by
  ext t
  rw [passM_iff f view g hg hv nbs order hall, passM_iff f view g hg hv nbs order' hall']

/-- A pass commutes with forgetting part of the particles. -/
theorem passM_map {P Q : Type} {n : Nat} (f : P → List P → Option P) (g : Q → List Q → Option Q) (er : P → Q)
    (h : ∀ a l, (f a l).map er = g (er a) (l.map er)) (nbs : Fin n → List (Fin n)) (order : List (Fin n)) (s : Fin n → P) :
    (passM f nbs order s).map (fun t a => er (t a)) = passM g nbs order (fun a => er (s a)) := by
  induction order generalizing s with
  | nil => rfl
  | cons c l ih =>
    rw [passM_cons, passM_cons]
    have hc := h (s c) ((nbs c).map s)
    rw [List.map_map] at hc
    have e : ((nbs c).map fun a => er (s a)) = (nbs c).map (er ∘ s) := rfl
    rw [e, ← hc]
    rcases f (s c) ((nbs c).map s) with _ | x
    · rfl
    · simp only [Option.bind_some, Option.map_some]
      rw [ih]
      congr 1
      funext a
      by_cases h2 : a = c
      · subst h2; simp
      · simp [h2]

end FleCSPH.Sph
