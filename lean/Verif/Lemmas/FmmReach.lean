import Mathlib.Logic.Relation
import Verif.Lemmas.GhostCover
/-! Which pair of cells of the tree acts between two leaves, independently of processes and messages. -/
namespace FleCSPH.Ghosts

section
variable {nch : Nat} {G : Key → Option GCell} {cells : Finset Key} {mac bigger : Key → Key → Bool} {O : Key → Prop}

/-- Both cells are entities, or they are different and far enough apart. -/
def Final2 (G : Key → Option GCell) (mac : Key → Key → Bool) (x : Key × Key) : Prop :=
  ((∃ g, G x.1 = some g ∧ g.ent = true) ∧ ∃ g, G x.2 = some g ∧ g.ent = true) ∨ (x.1 ≠ x.2 ∧ mac x.1 x.2 = true)

/-- The pairs a pair is replaced by. -/
inductive Child (G : Key → Option GCell) (mac bigger : Key → Key → Bool) : Key × Key → Key × Key → Prop
  | self {k g i j} (hf : ¬ Final2 G mac (k, k)) (h : G k = some g) (hi : i ∈ g.kids) (hj : j ∈ g.kids) : Child G mac bigger (k, k) (i :: k, j :: k)
  | first {k1 k2 g i} (hf : ¬ Final2 G mac (k1, k2)) (hne : k1 ≠ k2) (hb : bigger k1 k2 = true) (h : G k1 = some g) (hi : i ∈ g.kids) : Child G mac bigger (k1, k2) (i :: k1, k2)
  | second {k1 k2 g i} (hf : ¬ Final2 G mac (k1, k2)) (hne : k1 ≠ k2) (hb : bigger k1 k2 = false) (h : G k2 = some g) (hi : i ∈ g.kids) : Child G mac bigger (k1, k2) (k1, i :: k2)

/-- The pairs that are reached from the root. -/
def Reach (G : Key → Option GCell) (mac bigger : Key → Key → Bool) (x : Key × Key) : Prop := Relation.ReflTransGen (Child G mac bigger) ([], []) x

theorem Child.up {x y : Key × Key} (h : Child G mac bigger x y) : x.1 <:+ y.1 ∧ x.2 <:+ y.2 := by
  cases h with
  | self => exact ⟨List.suffix_cons _ _, List.suffix_cons _ _⟩
  | first => exact ⟨List.suffix_cons _ _, List.suffix_rfl⟩
  | second => exact ⟨List.suffix_rfl, List.suffix_cons _ _⟩

theorem Child.notFinal {x y : Key × Key} (h : Child G mac bigger x y) : ¬ Final2 G mac x := by
  cases h <;> assumption

theorem child_unique {x y y' : Key × Key} {e f : Key} (h : Child G mac bigger x y) (h' : Child G mac bigger x y') (hy : y.1 <:+ e ∧ y.2 <:+ f) (hy' : y'.1 <:+ e ∧ y'.2 <:+ f) : y = y' := by
  cases h with
  | self hf h hi hj =>
    cases h' with
    | self => exact Prod.ext (suffix_unique hy.1 hy'.1 rfl) (suffix_unique hy.2 hy'.2 rfl)
    | first _ hne => exact absurd rfl hne
    | second _ hne => exact absurd rfl hne
  | first hf hne hb h hi =>
    cases h' with
    | self => exact absurd rfl hne
    | first => exact Prod.ext (suffix_unique hy.1 hy'.1 rfl) rfl
    | second _ _ hb' => rw [hb] at hb'; cases hb'
  | second hf hne hb h hi =>
    cases h' with
    | self => exact absurd rfl hne
    | first _ _ hb' => rw [hb] at hb'; cases hb'
    | second => exact Prod.ext rfl (suffix_unique hy.2 hy'.2 rfl)

/-- Two leaves are treated by one pair only. -/
theorem reach_unique {x y : Key × Key} {e f : Key} (hx : Reach G mac bigger x) (hy : Reach G mac bigger y) (fx : Final2 G mac x) (fy : Final2 G mac y) (cx : x.1 <:+ e ∧ x.2 <:+ f)
    (cy : y.1 <:+ e ∧ y.2 <:+ f) : x = y := by
  have key : ∀ z, Reach G mac bigger z → z.1 <:+ e ∧ z.2 <:+ f → Relation.ReflTransGen (fun a b => Child G mac bigger a b ∧ b.1 <:+ e ∧ b.2 <:+ f) ([], []) z := by
    intro z hz
    induction hz with
    | refl => intro _; exact .refl
    | tail _ hc ih =>
      intro hz
      exact .tail (ih ⟨hc.up.1.trans hz.1, hc.up.2.trans hz.2⟩) ⟨hc, hz⟩
  have hu : Relator.RightUnique (fun a b => Child G mac bigger a b ∧ b.1 <:+ e ∧ b.2 <:+ f) := fun a b c h h' => child_unique h.1 h'.1 h.2 h'.2
  rcases Relation.ReflTransGen.total_of_right_unique hu (key x hx cx) (key y hy cy) with h | h
  · rcases Relation.ReflTransGen.cases_head h with h | ⟨z, h, _⟩
    · exact h
    · exact absurd fx h.1.notFinal
  · rcases Relation.ReflTransGen.cases_head h with h | ⟨z, h, _⟩
    · exact h.symm
    · exact absurd fy h.1.notFinal

/-- The two cells of a pair are the same or have nothing in common. -/
theorem reach_apart {x : Key × Key} (hx : Reach G mac bigger x) : x.1 = x.2 ∨ ∀ e, ¬ (x.1 <:+ e ∧ x.2 <:+ e) := by
  induction hx with
  | refl => exact Or.inl rfl
  | @tail y z _ hc ih =>
    cases hc with
    | @self k g i j hf h hi hj =>
      by_cases hij : i = j
      · rw [hij]; exact Or.inl rfl
      · refine Or.inr fun e he => hij ?_
        have := suffix_unique he.1 he.2 rfl
        exact (List.cons.inj this).1
    | first hf hne hb h hi =>
      refine Or.inr fun e he => ?_
      rcases ih with h | h
      · exact hne h
      · exact h e ⟨(List.suffix_cons _ _).trans he.1, he.2⟩
    | second hf hne hb h hi =>
      refine Or.inr fun e he => ?_
      rcases ih with h | h
      · exact hne h
      · exact h e ⟨he.1, (List.suffix_cons _ _).trans he.2⟩

/-- The pairs come in two directions if the test is symmetric and of two different cells exactly one is the larger. -/
theorem reach_swap (hmac : ∀ a b, mac a b = mac b a) (hb : ∀ x, Reach G mac bigger x → ¬ Final2 G mac x → x.1 ≠ x.2 → bigger x.1 x.2 = !bigger x.2 x.1) {x : Key × Key} (hx : Reach G mac bigger x) :
    Reach G mac bigger x.swap := by
  have hfin : ∀ {a b : Key}, ¬ Final2 G mac (a, b) → ¬ Final2 G mac (b, a) := by
    rintro a b h (⟨h1, h2⟩ | ⟨h1, h2⟩)
    · exact h (Or.inl ⟨h2, h1⟩)
    · exact h (Or.inr ⟨h1.symm, by rw [hmac]; exact h2⟩)
  induction hx with
  | refl => exact .refl
  | @tail y z hy hc ih =>
    cases hc with
    | self hf h hi hj => exact .tail ih (.self hf h hj hi)
    | first hf hne hb' h hi =>
      refine .tail ih (.second (hfin hf) hne.symm ?_ h hi)
      have := hb _ hy hf hne
      simp only at this
      rw [hb'] at this
      simpa using this.symm
    | second hf hne hb' h hi =>
      refine .tail ih (.first (hfin hf) hne.symm ?_ h hi)
      have := hb _ hy hf hne
      simp only at this
      rw [hb'] at this
      simpa using this.symm

theorem final_swap (hmac : ∀ a b, mac a b = mac b a) {x : Key × Key} (h : Final2 G mac x) : Final2 G mac x.swap := by
  rcases h with ⟨h1, h2⟩ | ⟨h1, h2⟩
  · exact Or.inl ⟨h2, h1⟩
  · exact Or.inr ⟨h1.symm, by show mac x.2 x.1 = true; rw [hmac]; exact h2⟩

theorem PairDone.reach {k1 k2 : Key} {next : List (Key × Key)} {out : List Call} (h : PairDone G mac bigger O k1 k2 next out) (hr : Reach G mac bigger (k1, k2)) :
    (∀ x ∈ next, Reach G mac bigger x) ∧ ∀ c ∈ out, Reach G mac bigger (c.sink, c.source) ∧ Final2 G mac (c.sink, c.source) := by
  have hnf : ∀ {g1 g2 : GCell}, G k1 = some g1 → G k2 = some g2 → ¬ (g1.ent = true ∧ g2.ent = true) → mac k1 k2 = false → ¬ Final2 G mac (k1, k2) := by
    rintro g1 g2 h1 h2 he ha (⟨⟨a, ha1, ha2⟩, ⟨b, hb1, hb2⟩⟩ | ⟨_, h⟩)
    · rw [h1] at ha1; cases ha1
      rw [h2] at hb1; cases hb1
      exact he ⟨ha2, hb2⟩
    · rw [ha] at h; cases h
  cases h with
  | near h1 h2 => exact ⟨by simp, by intro c hc; rw [List.mem_singleton] at hc; subst hc; exact ⟨hr, Or.inl ⟨h1, h2⟩⟩⟩
  | far h1 h2 he hne ha => exact ⟨by simp, by intro c hc; rw [List.mem_singleton] at hc; subst hc; exact ⟨hr, Or.inr ⟨hne, ha⟩⟩⟩
  | self hg he h _ hn hm =>
    subst h
    refine ⟨fun x hx => ?_, by simp⟩
    obtain ⟨i, hi, j, hj, rfl, _⟩ := (hm x).1 hx
    refine .tail hr (.self ?_ hg hi hj)
    rintro (⟨⟨a, ha1, ha2⟩, _⟩ | ⟨h, _⟩)
    · rw [hg] at ha1; cases ha1
      rw [he] at ha2; cases ha2
    · exact h rfl
  | split1 h1 h2 he hne ha hb _ hn hm =>
    refine ⟨fun x hx => ?_, by simp⟩
    obtain ⟨i, hi, rfl, _⟩ := (hm x).1 hx
    exact .tail hr (.first (hnf h1 h2 he ha) hne hb h1 hi)
  | split2 h1 h2 he hne ha hb _ hn hm =>
    refine ⟨fun x hx => ?_, by simp⟩
    obtain ⟨i, hi, rfl⟩ := (hm x).1 hx
    exact .tail hr (.second (hnf h1 h2 he ha) hne hb h2 hi)

/-- All calls are for pairs that are reached. -/
theorem hist_reach {ts tasks : List (Key × Key)} {rs : List Call} (h : Hist (fun x next out => PairDone G mac bigger O x.1 x.2 next out ∧ O x.1) ts tasks rs) (hts : ∀ x ∈ ts, Reach G mac bigger x) :
    (∀ x ∈ tasks, Reach G mac bigger x) ∧ ∀ c ∈ rs, Reach G mac bigger (c.sink, c.source) ∧ Final2 G mac (c.sink, c.source) := by
  induction h with
  | start => exact ⟨hts, by simp⟩
  | @step l1 a l2 rs next out h hd ih =>
    obtain ⟨e1, e2⟩ := hd.1.reach (ih.1 a (by simp))
    constructor
    · intro x hx
      rw [List.mem_append, List.mem_append] at hx
      rcases hx with (hx | hx) | hx
      · exact ih.1 x (by simp [hx])
      · exact e1 x hx
      · exact ih.1 x (by simp [hx])
    · intro c hc
      rcases List.mem_append.1 hc with hc | hc
      · exact ih.2 c hc
      · exact e2 c hc

end

end FleCSPH.Ghosts
