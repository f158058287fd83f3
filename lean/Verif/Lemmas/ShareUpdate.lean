import Verif.Lemmas.ShareFind
import Verif.Lemmas.Tree
import Mathlib.Tactic.Ring
/-! `cofm_update_` before and after the last stage. -/
namespace FleCSPH.ShareTable
open FleCSPH.Ghosts

variable {V : Type} {G : Key → Option GCell} {cells : Finset Key} {own : Key → Nat} {Val : Key → V} {r : Nat} {L : Key → Prop} {t : Table V} {D dim : Nat}

/-! ### Bounds of a cell -/

theorem boundLoop_spec (stop : Nat) : ∀ (m fuel a b : Nat), (∀ i < m, a * 2 ^ (i * dim) < stop) → stop ≤ a * 2 ^ (m * dim) → m < fuel + 1 →
    boundLoop dim stop fuel a b = some (a * 2 ^ (m * dim), (b + 1) * 2 ^ (m * dim) - 1) := by
  intro m
  induction m with
  | zero =>
    intro fuel a b h1 h2 h3
    have h2 : stop ≤ a := by simpa using h2
    cases fuel with
    | zero => simp [boundLoop, Nat.not_lt.mpr h2]
    | succ fuel => simp [boundLoop, Nat.not_lt.mpr h2]
  | succ m ih =>
    intro fuel a b h1 h2 h3
    have h4 : a < stop := by simpa using h1 0 (by omega)
    cases fuel with
    | zero => omega
    | succ fuel =>
      rw [boundLoop, if_pos h4, ih]
      · have e : 2 ^ ((m + 1) * dim) = 2 ^ dim * 2 ^ (m * dim) := by rw [← pow_add]; congr 1; ring
        have hp : 0 < 2 ^ dim := Nat.two_pow_pos dim
        have e2 : b * 2 ^ dim + (2 ^ dim - 1) + 1 = (b + 1) * 2 ^ dim := by rw [Nat.add_mul]; omega
        rw [e, e2, Nat.mul_assoc, Nat.mul_assoc]
      · intro i hi
        have := h1 (i + 1) (by omega)
        have e : 2 ^ ((i + 1) * dim) = 2 ^ dim * 2 ^ (i * dim) := by rw [← pow_add]; congr 1; ring
        rw [e, ← Nat.mul_assoc] at this
        exact this
      · have e : 2 ^ ((m + 1) * dim) = 2 ^ dim * 2 ^ (m * dim) := by rw [← pow_add]; congr 1; ring
        rw [e, ← Nat.mul_assoc] at h2
        exact h2
      · omega

theorem code_bounds : ∀ (k : Key), (∀ j ∈ k, j < 2 ^ dim) → 2 ^ (k.length * dim) ≤ code dim k ∧ code dim k + 1 ≤ 2 * 2 ^ (k.length * dim) := by
  intro k
  induction k with
  | nil => intro _; simp [code]
  | cons j k ih =>
    intro h
    obtain ⟨h1, h2⟩ := ih (fun x hx => h x (List.mem_cons_of_mem _ hx))
    have hj := h j List.mem_cons_self
    have e : 2 ^ ((j :: k).length * dim) = 2 ^ (k.length * dim) * 2 ^ dim := by rw [← pow_add, List.length_cons]; congr 1; ring
    rw [e, code]
    constructor
    · have := Nat.mul_le_mul_right (2 ^ dim) h1
      omega
    · have := Nat.mul_le_mul_right (2 ^ dim) h2
      rw [Nat.add_mul, ← Nat.mul_assoc] at *
      omega

theorem keyBoundary_spec {k : Key} (hdim : 0 < dim) (hk : ∀ j ∈ k, j < 2 ^ dim) (hl : k.length ≤ D) :
    ∃ mn mx, keyBoundary D dim k = some (mn, mx) ∧ 2 ^ (D * dim) ≤ mn ∧ mx + 1 ≤ 2 * 2 ^ (D * dim) := by
  obtain ⟨h1, h2⟩ := code_bounds k hk
  have e : 2 ^ (D * dim) = 2 ^ (k.length * dim) * 2 ^ ((D - k.length) * dim) := by
    rw [← pow_add, ← Nat.add_mul]; congr 2; omega
  have h3 := Nat.mul_le_mul_right (2 ^ ((D - k.length) * dim)) h1
  have h4 := Nat.mul_le_mul_right (2 ^ ((D - k.length) * dim)) h2
  refine ⟨_, _, boundLoop_spec (2 ^ (D * dim)) (D - k.length) (D + 1) _ _ ?_ ?_ (by omega), ?_, ?_⟩
  · intro i hi
    have h5 : (i + 1) * dim ≤ (D - k.length) * dim := Nat.mul_le_mul_right _ hi
    calc code dim k * 2 ^ (i * dim) < 2 * 2 ^ (k.length * dim) * 2 ^ (i * dim) := by
          apply Nat.mul_lt_mul_of_pos_right (by omega) (Nat.two_pow_pos _)
      _ = 2 ^ (k.length * dim) * 2 ^ (i * dim + 1) := by rw [pow_succ]; ring
      _ ≤ 2 ^ (k.length * dim) * 2 ^ ((D - k.length) * dim) := by
          apply Nat.mul_le_mul_left
          apply Nat.pow_le_pow_right (by omega)
          rw [Nat.add_mul] at h5
          omega
      _ = 2 ^ (D * dim) := e.symm
  · rw [e]; exact h3
  · rw [e]; exact h3
  · have hpos : 0 < (code dim k + 1) * 2 ^ ((D - k.length) * dim) := Nat.mul_pos (by omega) (Nat.two_pow_pos _)
    rw [e, ← Nat.mul_assoc]
    omega

theorem keyBoundary_root (hdim : 0 < dim) : keyBoundary D dim [] = some (2 ^ (D * dim), 2 * 2 ^ (D * dim) - 1) := by
  have := boundLoop_spec (dim := dim) (2 ^ (D * dim)) D (D + 1) 1 1 (by
    intro i hi
    rw [Nat.one_mul]
    apply Nat.pow_lt_pow_right (by omega)
    exact Nat.mul_lt_mul_of_pos_right hi hdim) (by rw [Nat.one_mul]) (by omega)
  rw [Nat.one_mul] at this
  exact this

/-- Before the last stage nothing happens. -/
theorem cofmUpdate_skip (hdim : 0 < dim) {lo hi : Nat} (f : Key → List V → List V → V) (fuel : Nat) (t : Table V) (h : (t []).isSome) (hb : 2 ^ (D * dim) < lo ∨ hi < 2 * 2 ^ (D * dim) - 1) :
    cofmUpdate D dim (2 ^ dim) lo hi f (fuel + 1) t [] = some t := by
  obtain ⟨c, hc⟩ := Option.isSome_iff_exists.mp h
  rw [cofmUpdate, hc, keyBoundary_root hdim]
  simp only
  rw [if_neg]
  rintro ⟨h1, h2⟩
  rcases hb with hb | hb
  · omega
  · omega

/-! ### After the last stage -/

open Classical in
/-- The table with the unset cells in `S` computed. -/
noncomputable def doneIf (Val : Key → V) (S : Key → Prop) (t : Table V) : Table V := fun k =>
  (t k).map fun c => if S k ∧ unset c = true then { c with shared := true, node := true, data := some (Val k) } else c

/-- The data of a node is computed from the data of its children, entities first, in the order of their numbers. -/
def ValOk (nch : Nat) (G : Key → Option GCell) (f : Key → List V → List V → V) (Val : Key → V) : Prop :=
  ∀ k g, G k = some g → g.ent = false → Val k = f k
    (((List.range nch).filter fun j => decide ((G (j :: k)).map GCell.ent = some true)).map fun j => Val (j :: k))
    (((List.range nch).filter fun j => decide ((G (j :: k)).map GCell.ent = some false)).map fun j => Val (j :: k))

theorem doneIf_none {S : Key → Prop} {k : Key} (h : t k = none) : doneIf Val S t k = none := by
  unfold doneIf
  rw [h]; rfl

theorem doneIf_pos {S : Key → Prop} {k : Key} {c : Cell V} (h : t k = some c) (hS : S k) (hu : unset c = true) :
    doneIf Val S t k = some { c with shared := true, node := true, data := some (Val k) } := by
  unfold doneIf
  rw [h, Option.map_some, if_pos ⟨hS, hu⟩]

theorem doneIf_neg {S : Key → Prop} {k : Key} {c : Cell V} (h : t k = some c) (hS : ¬ (S k ∧ unset c = true)) : doneIf Val S t k = some c := by
  unfold doneIf
  rw [h, Option.map_some, if_neg hS]

theorem doneIf_congr_at {S S' : Key → Prop} {k : Key} (h : ∀ c, t k = some c → unset c = true → (S k ↔ S' k)) : doneIf Val S t k = doneIf Val S' t k := by
  cases hk : t k with
  | none => rw [doneIf_none hk, doneIf_none hk]
  | some c =>
    by_cases hu : unset c = true
    · by_cases hS : S k
      · rw [doneIf_pos hk hS hu, doneIf_pos hk ((h c hk hu).mp hS) hu]
      · rw [doneIf_neg hk (fun h1 => hS h1.1), doneIf_neg hk (fun h1 => hS ((h c hk hu).mpr h1.1))]
    · rw [doneIf_neg hk (fun h1 => hu h1.2), doneIf_neg hk (fun h1 => hu h1.2)]

theorem doneIf_congr {S S' : Key → Prop} (h : ∀ k c, t k = some c → unset c = true → (S k ↔ S' k)) : doneIf Val S t = doneIf Val S' t := by
  funext k
  exact doneIf_congr_at (fun c => h k c)

theorem classify_spec {t : Table V} (E : Key → Bool) : ∀ ds : List Key, (∀ d ∈ ds, ∃ c, t d = some c ∧ unset c = false ∧ c.node = !(E d) ∧ c.data = some (Val d)) →
    classify t ds = some ((ds.filter fun d => E d).map Val, (ds.filter fun d => !(E d)).map Val) := by
  intro ds
  induction ds with
  | nil => intro _; rfl
  | cons d ds ih =>
    intro h
    obtain ⟨c, h1, h2, h3, h4⟩ := h d List.mem_cons_self
    rw [classify, ih (fun x hx => h x (List.mem_cons_of_mem _ hx)), h1]
    simp only [Option.bind_some, h2, h4, h3]
    cases hE : E d <;> simp [hE]

/-- The children of a cell of several processes are all there when all tops were loaded. -/
theorem Tab.full {nch : Nat} (hT : IsTree nch G cells) (h : Tab G own Val r L t) (hL : ∀ s l, s ≠ r → Top G own s l → L l) {k : Key} (hk : NP G own k) (hg : (G k).isSome) : (t k).isSome := by
  rw [h.mem]
  by_cases hs : Single G own k
  · obtain ⟨s, hs⟩ := hs
    by_cases e : s = r
    · subst e; exact Or.inl (hs.someOf hT hg)
    · exact Or.inr ⟨k, hL s k e ⟨hg, hs, hk⟩, List.suffix_refl _⟩
  · obtain ⟨e, he, h1⟩ := exists_ent hT hg
    obtain ⟨l, h2, h3, h4⟩ := top_above hT hs he h1
    by_cases e' : own e = r
    · exact Or.inl ⟨e, he, h1, e'⟩
    · exact Or.inr ⟨l, hL _ l e' h4, h2⟩

theorem cofmUpdate_all (hdim : 0 < dim) (hT : IsTree (2 ^ dim) G cells) (hD : ∀ k ∈ cells, k.length ≤ D) (h : Tab G own Val r L t) (hL : ∀ s l, s ≠ r → Top G own s l → L l)
    {f : Key → List V → List V → V} (hV : ValOk (2 ^ dim) G f Val) {lo hi : Nat} (hlo : lo ≤ 2 ^ (D * dim)) (hhi : 2 * 2 ^ (D * dim) - 1 ≤ hi) :
    ∀ (fuel : Nat) (k : Key) (S : Key → Prop), (t k).isSome → D + 1 < fuel + k.length → (∀ a b, S a → a <:+ b → S b) →
      cofmUpdate D dim (2 ^ dim) lo hi f fuel (doneIf Val S t) k = some (doneIf Val (fun k' => S k' ∨ k <:+ k') t) := by
  have hlen : ∀ k, (t k).isSome → k.length ≤ D := by
    intro k hk
    obtain ⟨c, hc⟩ := Option.isSome_iff_exists.mp hk
    obtain ⟨g, hg, -⟩ := h.ent _ _ hc
    exact hD k ((hT.mem k).mpr (by rw [hg]; rfl))
  have hdig : ∀ k, (G k).isSome → ∀ j ∈ k, j < 2 ^ dim := by
    intro k
    induction k with
    | nil => intro _ j hj; simp at hj
    | cons a k ih =>
      intro hk j hj
      obtain ⟨g, hg, ha⟩ := (hT.child a k).mp hk
      rcases List.mem_cons.mp hj with rfl | hj
      · exact hT.slots _ _ hg _ ha
      · exact ih (by rw [hg]; rfl) j hj
  intro fuel
  induction fuel with
  | zero =>
    intro k S hk hf _
    have := hlen k hk
    omega
  | succ fuel ih =>
    intro k S hk hf hS
    obtain ⟨c, hc⟩ := Option.isSome_iff_exists.mp hk
    obtain ⟨g, hg, hge⟩ := h.ent _ _ hc
    obtain ⟨mn, mx, hb, hmn, hmx⟩ := keyBoundary_spec (D := D) hdim (hdig k (by rw [hg]; rfl)) (hlen k hk)
    have hin : lo ≤ mn ∧ mx ≤ hi := ⟨by omega, by omega⟩
    by_cases hSk : S k
    · -- done before
      have e1 : doneIf Val (fun k' => S k' ∨ k <:+ k') t = doneIf Val S t := by
        apply doneIf_congr
        intro k' c' _ _
        exact ⟨fun h1 => h1.elim id (fun h2 => hS _ _ hSk h2), Or.inl⟩
      rw [e1, cofmUpdate]
      have hd : ∃ c', doneIf Val S t k = some c' ∧ unset c' = false := by
        unfold doneIf
        rw [hc]
        by_cases hu : unset c = true
        · rw [Option.map_some, if_pos ⟨hSk, hu⟩]
          exact ⟨_, rfl, by simp [unset]⟩
        · rw [Option.map_some, if_neg (fun h1 => hu h1.2)]
          exact ⟨_, rfl, by simpa using hu⟩
      obtain ⟨c', hc', hu'⟩ := hd
      rw [hc', hb]
      simp only
      rw [if_pos hin, hu']
      rfl
    · have hck : doneIf Val S t k = some c := by
        unfold doneIf
        rw [hc]
        simp [hSk]
      rw [cofmUpdate, hck, hb]
      simp only
      rw [if_pos hin]
      by_cases hu : unset c = true
      · rw [if_pos hu]
        have hns : ¬ Single G own k := by
          intro hs
          rw [(h.set_ k c hc).mpr hs] at hu; cases hu
        have hgf : g.ent = false := by
          rw [← hge]
          unfold unset at hu
          simp at hu
          exact hu.1
        have hsome : ∀ k', (doneIf Val S t k').isSome = (t k').isSome := by
          intro k'; unfold doneIf; rw [Option.isSome_map]
        have hkid : ∀ j, j ∈ c.kids ↔ (G (j :: k)).isSome := by
          intro j
          rw [h.kids k c j hc]
          constructor
          · intro h1
            obtain ⟨c', hc'⟩ := Option.isSome_iff_exists.mp h1
            obtain ⟨g', hg', -⟩ := h.ent _ _ hc'
            rw [hg']; rfl
          · intro h1
            apply h.full hT hL _ h1
            intro j' k' e
            cases e
            exact hns
        have hds : daughterKeys (2 ^ dim) (doneIf Val S t) k c = some (((List.range (2 ^ dim)).filter fun j => decide (j ∈ c.kids)).map (· :: k)) := by
          apply mapM_some_of
          intro j hj
          have hj := (List.mem_filter.mp hj).2
          have hj := (h.kids k c j hc).mp (by simpa using hj)
          rw [← hsome] at hj
          obtain ⟨c', hc'⟩ := Option.isSome_iff_exists.mp hj
          rw [hc']; rfl
        rw [hds]
        simp only
        obtain ⟨ds, hdsd⟩ : ∃ ds, ds = ((List.range (2 ^ dim)).filter fun j => decide (j ∈ c.kids)).map (· :: k) := ⟨_, rfl⟩
        rw [← hdsd]
        have hdm : ∀ d ∈ ds, ∃ j, d = j :: k ∧ (t d).isSome := by
          intro d hd
          rw [hdsd, List.mem_map] at hd
          obtain ⟨j, hj, rfl⟩ := hd
          have hj := (List.mem_filter.mp hj).2
          exact ⟨j, rfl, (h.kids k c j hc).mp (by simpa using hj)⟩
        -- the loop over the daughters
        have hfold : ∀ (l : List Key) (S' : Key → Prop), (∀ d ∈ l, ∃ j, d = j :: k ∧ (t d).isSome) → (∀ a b, S' a → a <:+ b → S' b) →
            l.foldlM (cofmUpdate D dim (2 ^ dim) lo hi f fuel) (doneIf Val S' t) = some (doneIf Val (fun k' => S' k' ∨ ∃ d ∈ l, d <:+ k') t) := by
          intro l
          induction l with
          | nil =>
            intro S' _ _
            have : doneIf Val (fun k' => S' k' ∨ ∃ d ∈ ([] : List Key), d <:+ k') t = doneIf Val S' t := doneIf_congr (by simp)
            rw [this]; rfl
          | cons d l ihl =>
            intro S' hl hS'
            obtain ⟨j, hj, hd⟩ := hl d List.mem_cons_self
            rw [List.foldlM_cons, ih d S' hd (by rw [hj, List.length_cons]; omega) hS']
            show List.foldlM _ (doneIf Val _ t) l = _
            rw [ihl _ (fun x hx => hl x (List.mem_cons_of_mem _ hx))]
            · congr 1
              apply doneIf_congr
              intro k' _ _ _
              simp [or_assoc]
            · rintro a b (h1 | h1) h2
              · exact Or.inl (hS' a b h1 h2)
              · exact Or.inr (h1.trans h2)
        rw [hfold ds S hdm hS]
        simp only
        -- the cell itself is still unset
        have hself : doneIf Val (fun k' => S k' ∨ ∃ d ∈ ds, d <:+ k') t k = some c := by
          unfold doneIf
          rw [hc, Option.map_some, if_neg]
          rintro ⟨h1 | ⟨d, hd, h1⟩, -⟩
          · exact hSk h1
          · obtain ⟨j, rfl, -⟩ := hdm d hd
            exact not_suffix_parent h1
        rw [hself]
        -- the daughters are set
        have hcl := classify_spec (Val := Val) (t := doneIf Val (fun k' => S k' ∨ ∃ d ∈ ds, d <:+ k') t) (fun d => decide ((G d).map GCell.ent = some true)) ds (by
          intro d hd
          obtain ⟨j, hj, hsd⟩ := hdm d hd
          obtain ⟨c', hc'⟩ := Option.isSome_iff_exists.mp hsd
          obtain ⟨g', hg', hge'⟩ := h.ent _ _ hc'
          unfold doneIf
          rw [hc', Option.map_some]
          by_cases hu' : unset c' = true
          · rw [if_pos ⟨Or.inr ⟨d, hd, List.suffix_refl _⟩, hu'⟩]
            refine ⟨_, rfl, by simp [unset], ?_, rfl⟩
            have : c'.ent = false := by
              unfold unset at hu'
              simp at hu'
              exact hu'.1
            rw [hg']
            simp [← hge', this]
          · rw [if_neg (fun h1 => hu' h1.2)]
            have hu' : unset c' = false := by simpa using hu'
            refine ⟨_, rfl, hu', ?_, h.data _ _ hc' ((h.set_ _ _ hc').mp hu')⟩
            rw [hg']
            cases hce : c'.ent with
            | true => rw [h.one _ _ hc' hce]; simp [← hge', hce]
            | false =>
              unfold unset at hu'
              rw [hce] at hu'
              simp [← hge', hce]
              simpa using hu')
        rw [hcl]
        simp only
        have hcent : c.ent = false := by rw [hge]; exact hgf
        rw [hcent]
        simp only [Bool.false_eq_true, if_false]
        congr 1
        -- the value
        have hval : f k ((ds.filter fun d => decide ((G d).map GCell.ent = some true)).map Val) ((ds.filter fun d => !decide ((G d).map GCell.ent = some true)).map Val) = Val k := by
          rw [hV k g hg hgf, hdsd, List.filter_map, List.filter_map, List.map_map, List.map_map, List.filter_filter, List.filter_filter]
          congr 2
          · apply List.filter_congr
            intro j _
            rw [Bool.eq_iff_iff]
            simp only [Function.comp, Bool.and_eq_true, decide_eq_true_eq, hkid]
            constructor
            · rintro ⟨h1, h2⟩; exact h1
            · intro h1
              refine ⟨h1, ?_⟩
              rw [← Option.isSome_map (f := GCell.ent), h1]; rfl
          · apply List.filter_congr
            intro j _
            rw [Bool.eq_iff_iff]
            simp only [Function.comp, Bool.and_eq_true, decide_eq_true_eq, hkid, Bool.not_eq_true', decide_eq_false_iff_not]
            cases hgj : G (j :: k) with
            | none => simp
            | some g' => cases hge' : g'.ent <;> simp [hge']
        rw [hval]
        funext k'
        by_cases e : k' = k
        · subst e
          rw [set_self, doneIf_pos hc (Or.inr (List.suffix_refl _)) hu, hcent]
        · rw [set_ne _ _ e]
          apply doneIf_congr_at
          intro c' hk' _
          have hiff : (S k' ∨ ∃ d ∈ ds, d <:+ k') ↔ (S k' ∨ k <:+ k') := by
            constructor
            · rintro (h1 | ⟨d, hd, h1⟩)
              · exact Or.inl h1
              · obtain ⟨j, rfl, -⟩ := hdm d hd
                exact Or.inr ((List.suffix_cons j k).trans h1)
            · rintro (h1 | h1)
              · exact Or.inl h1
              · right
                obtain ⟨u, hu2⟩ := h1
                rcases List.eq_nil_or_concat u with rfl | ⟨u', x, rfl⟩
                · exact absurd hu2.symm (by simpa using e)
                · have hsx : x :: k <:+ k' := ⟨u', by rw [← hu2]; simp⟩
                  refine ⟨x :: k, ?_, hsx⟩
                  have hp := h.up hsx (by rw [hk']; rfl)
                  have hx := (h.kids k c x hc).mpr hp
                  rw [hdsd, List.mem_map]
                  exact ⟨x, List.mem_filter.mpr ⟨List.mem_range.mpr (h.kids_lt hT hc hx), by simpa using hx⟩, rfl⟩
          exact hiff
      · have hu : unset c = false := by simpa using hu
        rw [if_neg (by rw [hu]; simp)]
        congr 1
        apply doneIf_congr
        intro k' c' hc' hu'
        constructor
        · exact Or.inl
        · rintro (h1 | h1)
          · exact h1
          · exfalso
            have := (h.set_ _ _ hc').mpr (Single.mono ((h.set_ k c hc).mp hu) h1)
            rw [this] at hu'; cases hu'

end FleCSPH.ShareTable
