import Verif.Lemmas.Traversal
/-! The neighbour search of `traversal_sph`. -/
namespace FleCSPH.Traversal
open FleCSPH.HCell FleCSPH.BuildTree FleCSPH.Cofm FleCSPH.Geometry FleCSPH.Spec

variable {d : Nat}

/-! ### Geometry -/

theorem clamp_nearest {bmin bmax c q : Point d} (h : ∀ i, bmin i ≤ q i ∧ q i ≤ bmax i) :
    distance (clamp bmin bmax c) c ≤ distance q c := by
  rw [distance, distance]
  apply Real.sqrt_le_sqrt
  apply Finset.sum_le_sum
  intro i _
  rw [← sq, ← sq, sq_le_sq]
  obtain ⟨h1, h2⟩ := h i
  rw [clamp]
  rcases le_total (c i) (bmax i) with h3 | h3
  · rw [min_eq_left h3]
    rcases le_total (bmin i) (c i) with h4 | h4
    · rw [max_eq_right h4, sub_self, abs_zero]; exact abs_nonneg _
    · rw [max_eq_left h4, abs_of_nonneg (by linarith), abs_of_nonneg (by linarith)]; linarith
  · rw [min_eq_right h3, max_eq_right (by linarith), abs_of_nonpos (by linarith), abs_of_nonpos (by linarith)]; linarith

theorem distance_line (p c : Point d) (t : ℝ) (ht : t ≤ 1) :
    distance (fun i => p i + t * (c i - p i)) c = (1 - t) * distance p c := by
  rw [distance, distance]
  have : ∑ i, (p i + t * (c i - p i) - c i) * (p i + t * (c i - p i) - c i) = (1 - t) ^ 2 * ∑ i, (p i - c i) * (p i - c i) := by
    rw [Finset.mul_sum]
    apply Finset.sum_congr rfl
    intro i _
    ring
  rw [this, Real.sqrt_mul (sq_nonneg _), Real.sqrt_sq (by linarith)]

/-- A particle at most the mean smoothing length away from one inside the box meets the box. -/
theorem sphere_box_near {body : Nat → Body d} {S : Finset Nat} {N : Node d} (hN : Summarises body S N) {j : Nat} (hj : j ∈ S)
    {b : Body d} {tol : ℝ} (htol : 0 ≤ tol) (hb : 0 ≤ b.h) (hh : 0 ≤ (body j).h)
    (hd : distance b.pos (body j).pos ≤ (b.h + (body j).h) / 2) : intersectsSphereBox tol N.bmin N.bmax b.pos b.h := by
  suffices hle : distance (clamp N.bmin N.bmax b.pos) b.pos ≤ b.h by
    unfold intersectsSphereBox
    split_ifs
    · exact (within_iff _ _ hb).mpr hle
    · linarith
  have hbox := hN.box j hj
  obtain ⟨t, ht0, ht1, hta, htb⟩ : ∃ t : ℝ, 0 ≤ t ∧ t ≤ 1 ∧ t * distance b.pos (body j).pos ≤ (body j).h / 2 ∧
      (1 - t) * distance b.pos (body j).pos ≤ b.h := by
    rcases eq_or_lt_of_le (add_nonneg hb hh) with h0 | h0
    · refine ⟨0, le_refl _, by norm_num, by linarith, ?_⟩
      rw [← h0] at hd
      linarith
    · refine ⟨(body j).h / (b.h + (body j).h), by positivity, (div_le_one h0).mpr (by linarith), ?_, ?_⟩
      · calc (body j).h / (b.h + (body j).h) * distance b.pos (body j).pos
            ≤ (body j).h / (b.h + (body j).h) * ((b.h + (body j).h) / 2) := mul_le_mul_of_nonneg_left hd (by positivity)
          _ = (body j).h / 2 := by field_simp
      · have h1 : 1 - (body j).h / (b.h + (body j).h) = b.h / (b.h + (body j).h) := by field_simp; ring
        rw [h1]
        calc b.h / (b.h + (body j).h) * distance b.pos (body j).pos
            ≤ b.h / (b.h + (body j).h) * ((b.h + (body j).h) / 2) := mul_le_mul_of_nonneg_left hd (by positivity)
          _ = b.h / 2 := by field_simp
          _ ≤ b.h := by linarith
  have hq : ∀ i, N.bmin i ≤ (body j).pos i + t * (b.pos i - (body j).pos i) ∧
      (body j).pos i + t * (b.pos i - (body j).pos i) ≤ N.bmax i := by
    intro i
    have h1 := coord_le_distance b.pos (body j).pos i
    have h2 : |t * (b.pos i - (body j).pos i)| ≤ (body j).h / 2 := by
      rw [abs_mul, abs_of_nonneg ht0]
      exact le_trans (mul_le_mul_of_nonneg_left h1 ht0) hta
    obtain ⟨h3, h4⟩ := abs_le.mp h2
    have h5 := hbox i
    constructor <;> linarith
  have h1 := clamp_nearest (c := b.pos) (q := fun i => (body j).pos i + t * (b.pos i - (body j).pos i)) hq
  rw [distance_line _ _ _ ht1, distance_comm (body j).pos] at h1
  linarith

theorem box_box_near {body : Nat → Body d} {S S' : Finset Nat} {N N' : Node d} (hN : Summarises body S N)
    (hN' : Summarises body S' N') {i j : Nat} (hj : j ∈ S) (hi : i ∈ S')
    (hd : distance (body i).pos (body j).pos ≤ ((body i).h + (body j).h) / 2) :
    intersectsBoxBox N.bmin N.bmax N'.bmin N'.bmax := by
  rintro (⟨k, h⟩ | ⟨k, h⟩)
  · have h1 := hN.box j hj k
    have h2 := hN'.box i hi k
    have h3 := coord_le_distance (body i).pos (body j).pos k
    obtain ⟨h4, h5⟩ := abs_le.mp h3
    linarith [h1.2, h2.1]
  · have h1 := hN.box j hj k
    have h2 := hN'.box i hi k
    have h3 := coord_le_distance (body i).pos (body j).pos k
    obtain ⟨h4, h5⟩ := abs_le.mp h3
    linarith [h1.1, h2.2]

theorem leaf_near {body : Nat → Body d} {S : Finset Nat} {N : Node d} (hN : Summarises body S N) {i : Nat} (hi : i ∈ S)
    {e : Body d} (he : 0 ≤ e.h) (hd : distance (body i).pos e.pos ≤ max (body i).h e.h) :
    withinDistance2 e.pos N.coords (max e.h N.lap + N.radius) := by
  have h1 := hN.radius i hi
  have h2 := hN.lap i hi
  have h3 := distance_triangle e.pos (body i).pos N.coords
  rw [distance_comm (body i).pos N.coords, distance_comm e.pos (body i).pos] at h3
  have h4 := distance_nonneg N.coords (body i).pos
  rw [within_iff _ _ (add_nonneg (le_trans he (le_max_left _ _)) (le_trans h4 h1))]
  have h5 : max (body i).h e.h ≤ max e.h N.lap := max_le (le_trans (by linarith) (le_max_right _ _)) (le_max_left _ _)
  linarith

/-! ### The search -/

variable {T : Top d} {rk : Nat → Nat} {B : Nat → Finset Nat} {body : Nat → Body d} {ref : Nat → Bool × Int}

/-- The particles of two cells are different. -/
def Disj (B : Nat → Finset Nat) (e e' : Nat) : Prop := ∀ j, j ∈ B e → j ∉ B e'

theorem Disj.symm {e e' : Nat} (h : Disj B e e') : Disj B e' e := fun j h1 h2 => h j h2 h1

/-- State of the search: `Q` are the cells still to examine, `ms` the cells found missing, `found` the lists so far. -/
structure Inv (T : Top d) (B : Nat → Finset Nat) (body : Nat → Body d) (ref : Nat → Bool × Int) (cur : List (Body d))
    (Q ms : List Nat) (found : List (List (Bool × Int))) : Prop where
  tbl : ∀ e ∈ Q, ∃ c, T.tbl e = some c
  sub : ∀ e ∈ Q, B e ⊆ B 1
  disj : Q.Pairwise (Disj B)
  miss : ∀ m ∈ ms, ∃ c, T.tbl m = some c ∧ isEmptyNode T.dim c = some true
  len : found.length = cur.length
  nodup : ∀ (k : Nat) (b : Body d) (l : List (Bool × Int)), cur[k]? = some b → found[k]? = some l → l.Nodup
  sound : ∀ (k : Nat) (b : Body d) (l : List (Bool × Int)), cur[k]? = some b → found[k]? = some l →
    ∀ a ∈ l, ∃ j ∈ B 1, a = ref j ∧ distance b.pos (body j).pos ≤ max b.h (body j).h ∧ ∀ e ∈ Q, j ∉ B e
  complete : ∀ (k : Nat) (b : Body d) (l : List (Bool × Int)), cur[k]? = some b → found[k]? = some l → ms = [] →
    ∀ j ∈ B 1, distance b.pos (body j).pos ≤ (b.h + (body j).h) / 2 → ref j ∈ l ∨ ∃ e ∈ Q, j ∈ B e

theorem split_pairwise {k : Nat} {ds : List Nat} (h : Split T rk B k ds) : ds.Pairwise (Disj B) := by
  have hn := h.nodup
  rw [List.Nodup] at hn
  apply hn.imp_of_mem
  intro a b ha hb hne
  exact h.disj a ha b hb hne

/-- Replacing a cell by cells that cover it, without finding anything. -/
theorem Inv.replace {cur : List (Body d)} {e : Nat} {Q ms next missing : List Nat} {found : List (List (Bool × Int))}
    (h : Inv T B body ref cur (e :: Q) ms found)
    (h1 : ∀ e' ∈ next, (∃ c, T.tbl e' = some c) ∧ B e' ⊆ B e) (h2 : next.Pairwise (Disj B))
    (h3 : ∀ m ∈ missing, ∃ c, T.tbl m = some c ∧ isEmptyNode T.dim c = some true)
    (h4 : missing = [] → ∀ b ∈ cur, ∀ j ∈ B e, distance b.pos (body j).pos ≤ (b.h + (body j).h) / 2 → ∃ e' ∈ next, j ∈ B e') :
    Inv T B body ref cur (Q ++ next) (ms ++ missing) (appendAll found (cur.map fun _ => [])) := by
  have hf : appendAll found (cur.map fun _ => []) = found := by
    have : ∀ (f : List (List (Bool × Int))) (c : List (Body d)), f.length = c.length →
        List.zipWith (· ++ ·) f (c.map fun _ => []) = f := by
      intro f
      induction f with
      | nil => intro c hc; cases c with | nil => rfl | cons => simp at hc
      | cons x f ih =>
        intro c hc
        cases c with
        | nil => simp at hc
        | cons y c => rw [List.map_cons, List.zipWith_cons_cons, List.append_nil, ih c (by simpa using hc)]
    exact this _ _ h.len
  rw [hf]
  have hd := List.pairwise_cons.mp h.disj
  refine ⟨?_, ?_, ?_, ?_, h.len, h.nodup, ?_, ?_⟩
  · intro e' he'
    rcases List.mem_append.mp he' with h5 | h5
    · exact h.tbl e' (List.mem_cons_of_mem _ h5)
    · exact (h1 e' h5).1
  · intro e' he'
    rcases List.mem_append.mp he' with h5 | h5
    · exact h.sub e' (List.mem_cons_of_mem _ h5)
    · exact (h1 e' h5).2.trans (h.sub e List.mem_cons_self)
  · rw [List.pairwise_append]
    refine ⟨hd.2, h2, ?_⟩
    intro a ha b hb j hja hjb
    exact hd.1 a ha j ((h1 b hb).2 hjb) hja
  · intro m hm
    rcases List.mem_append.mp hm with h5 | h5
    · exact h.miss m h5
    · exact h3 m h5
  · intro k b l hb hl a ha
    obtain ⟨j, hj, h5, h6, h7⟩ := h.sound k b l hb hl a ha
    refine ⟨j, hj, h5, h6, ?_⟩
    intro e' he'
    rcases List.mem_append.mp he' with h8 | h8
    · exact h7 e' (List.mem_cons_of_mem _ h8)
    · intro hje
      exact h7 e List.mem_cons_self ((h1 e' h8).2 hje)
  · intro k b l hb hl hms j hj hd'
    obtain ⟨hm1, hm2⟩ := List.append_eq_nil_iff.mp hms
    rcases h.complete k b l hb hl hm1 j hj hd' with h5 | ⟨e', he', hje⟩
    · exact Or.inl h5
    · rcases List.mem_cons.mp he' with rfl | he'
      · obtain ⟨e'', h6, h7⟩ := h4 hm2 b (List.mem_of_getElem? hb) j hje hd'
        exact Or.inr ⟨e'', List.mem_append_right _ h6, h7⟩
      · exact Or.inr ⟨e', List.mem_append_left _ he', hje⟩

open Classical in
theorem examine_spec (hT : TreeWF T rk B body ref) (hinj : ∀ i ∈ B 1, ∀ j ∈ B 1, ref i = ref j → i = j)
    (hh : ∀ j ∈ B 1, 0 ≤ (body j).h) {tol : ℝ} (htol : 0 ≤ tol) {cur : List (Body d)} {curNode : Option (Node d)} {curkey : Nat}
    (hcurB : B curkey ⊆ B 1) (hcur : ∀ b ∈ cur, ∃ i ∈ B curkey, b = body i)
    (hnode : ∀ n, curNode = some n → Summarises body (B curkey) n)
    {e : Nat} {Q ms : List Nat} {found : List (List (Bool × Int))} (h : Inv T B body ref cur (e :: Q) ms found) :
    ∃ c, examine T tol cur curNode e = some c ∧
      Inv T B body ref cur (Q ++ c.next) (ms ++ c.missing) (appendAll found c.found) ∧ ∀ e' ∈ c.next, rk e' < rk e := by
  obtain ⟨hc, htbl⟩ := h.tbl e List.mem_cons_self
  have hsub := h.sub e List.mem_cons_self
  rw [examine, htbl]
  simp only [Option.bind_eq_bind, Option.bind_some]
  rcases hT.cell e hc htbl with ⟨h1, j, h2, h3, h4⟩ | ⟨h1, ⟨N, h2, h3⟩, h4⟩
  · -- a leaf
    have hj1 : j ∈ B 1 := hsub (by rw [h2]; simp)
    rw [h1]
    simp only [Option.bind_some, Bool.false_eq_true, if_false]
    rw [h4]
    simp only [Option.bind_some]
    by_cases hf : ∃ n, curNode = some n ∧ ¬ withinDistance2 (body j).pos n.coords (max (body j).h n.lap + n.radius)
    · rw [if_pos hf]
      refine ⟨_, rfl, ?_, by simp⟩
      apply Inv.replace h (by simp) (by simp) (by simp)
      intro _ b hb j' hj' hd
      exfalso
      rw [h2, Finset.mem_singleton] at hj'
      subst hj'
      obtain ⟨n, hn, hnw⟩ := hf
      obtain ⟨i, hi, rfl⟩ := hcur b hb
      apply hnw
      apply leaf_near (hnode n hn) hi (hh _ hj1)
      refine le_trans hd ?_
      have := le_max_left (body i).h (body j').h
      have := le_max_right (body i).h (body j').h
      linarith
    · rw [if_neg hf]
      refine ⟨_, rfl, ?_, by simp⟩
      dsimp only
      rw [List.append_nil, List.append_nil]
      have hdq := List.pairwise_cons.mp h.disj
      -- the new lists
      have hget : ∀ (k : Nat) (b : Body d) (l : List (Bool × Int)), cur[k]? = some b →
          (appendAll found (cur.map fun b => if withinDistance2 b.pos (body j).pos (max b.h (body j).h) then [entRef T hc] else []))[k]? = some l →
          ∃ l0, found[k]? = some l0 ∧ l = l0 ++ (if withinDistance2 b.pos (body j).pos (max b.h (body j).h) then [ref j] else []) := by
        intro k b l hb hl
        rw [appendAll, List.getElem?_zipWith, List.getElem?_map, hb] at hl
        cases hf0 : found[k]? with
        | none => rw [hf0] at hl; simp at hl
        | some l0 =>
          rw [hf0] at hl
          simp only [Option.map_some, Option.some.injEq] at hl
          exact ⟨l0, rfl, by rw [← hl, h3]⟩
      have hw : ∀ b ∈ cur, (withinDistance2 b.pos (body j).pos (max b.h (body j).h) ↔ distance b.pos (body j).pos ≤ max b.h (body j).h) :=
        fun b hb => within_iff _ _ (le_trans (hh _ hj1) (le_max_right _ _))
      refine ⟨fun e' he' => h.tbl e' (List.mem_cons_of_mem _ he'), fun e' he' => h.sub e' (List.mem_cons_of_mem _ he'), hdq.2, h.miss,
        ?_, ?_, ?_, ?_⟩
      · rw [appendAll, List.length_zipWith, List.length_map, h.len, Nat.min_self]
      · intro k b l hb hl
        obtain ⟨l0, hl0, rfl⟩ := hget k b l hb hl
        have hn0 := h.nodup k b l0 hb hl0
        split_ifs
        · rw [List.nodup_append]
          refine ⟨hn0, by simp, ?_⟩
          intro a ha b' hb' hab
          rw [List.mem_singleton] at hb'
          subst hab hb'
          obtain ⟨j', hj', hr, -, hq⟩ := h.sound k b l0 hb hl0 _ ha
          have := hinj j hj1 j' hj' hr
          subst this
          exact hq e List.mem_cons_self (by rw [h2]; simp)
        · simpa using hn0
      · intro k b l hb hl a ha
        obtain ⟨l0, hl0, rfl⟩ := hget k b l hb hl
        rcases List.mem_append.mp ha with ha | ha
        · obtain ⟨j', hj', hr, h5, hq⟩ := h.sound k b l0 hb hl0 _ ha
          exact ⟨j', hj', hr, h5, fun e' he' => hq e' (List.mem_cons_of_mem _ he')⟩
        · split_ifs at ha with hc1
          · rw [List.mem_singleton] at ha
            refine ⟨j, hj1, ha, (hw b (List.mem_of_getElem? hb)).mp hc1, ?_⟩
            intro e' he'
            exact hdq.1 e' he' j (by rw [h2]; simp)
          · simp at ha
      · intro k b l hb hl hms j' hj' hd'
        obtain ⟨l0, hl0, rfl⟩ := hget k b l hb hl
        rcases h.complete k b l0 hb hl0 hms j' hj' hd' with h5 | ⟨e', he', hje⟩
        · exact Or.inl (List.mem_append_left _ h5)
        · rcases List.mem_cons.mp he' with rfl | he'
          · rw [h2, Finset.mem_singleton] at hje
            subst hje
            left
            have : withinDistance2 b.pos (body j').pos (max b.h (body j').h) := by
              rw [hw b (List.mem_of_getElem? hb)]
              refine le_trans hd' ?_
              have := le_max_left b.h (body j').h
              have := le_max_right b.h (body j').h
              linarith
            rw [if_pos this]
            simp
          · exact Or.inr ⟨e', he', hje⟩
  · -- a node
    rw [h1]
    simp only [Option.bind_some, if_true]
    rw [h2]
    simp only [Option.bind_some]
    by_cases hf : ∃ n, curNode = some n ∧ ¬ intersectsBoxBox N.bmin N.bmax n.bmin n.bmax
    · rw [if_pos hf]
      refine ⟨_, rfl, ?_, by simp⟩
      apply Inv.replace h (by simp) (by simp) (by simp)
      intro _ b hb j' hj' hd
      exfalso
      obtain ⟨n, hn, hnb⟩ := hf
      obtain ⟨i, hi, rfl⟩ := hcur b hb
      exact hnb (box_box_near h3 (hnode n hn) hj' hi hd)
    · rw [if_neg hf]
      by_cases hs : ∃ b ∈ cur, intersectsSphereBox tol N.bmin N.bmax b.pos b.h
      · rw [if_pos hs]
        rcases h4 with h4 | ⟨h4, ds, h5, h6⟩
        · rw [h4]
          simp only [Option.bind_some, if_true]
          refine ⟨_, rfl, ?_, by simp⟩
          apply Inv.replace h (by simp) (by simp)
          · intro m hm
            rw [List.mem_singleton] at hm
            subst hm
            exact ⟨hc, htbl, h4⟩
          · intro hm; simp at hm
        · rw [h4]
          simp only [Option.bind_some, Bool.false_eq_true, if_false]
          rw [h5]
          refine ⟨_, rfl, ?_, h6.rank⟩
          apply Inv.replace h _ (split_pairwise h6) (by simp)
          · intro _ b hb j' hj' _
            exact (h6.cover j').mp hj'
          · intro e' he'
            exact ⟨h6.some_ e' he', fun j hj => (h6.cover j).mpr ⟨e', he', hj⟩⟩
      · rw [if_neg hs]
        refine ⟨_, rfl, ?_, by simp⟩
        apply Inv.replace h (by simp) (by simp) (by simp)
        intro _ b hb j' hj' hd
        exfalso
        apply hs
        refine ⟨b, hb, sphere_box_near h3 hj' htol ?_ (hh j' (hsub hj')) hd⟩
        obtain ⟨i, hi, rfl⟩ := hcur b hb
        exact hh i (hcurB hi)

theorem pass_spec (hT : TreeWF T rk B body ref) (hinj : ∀ i ∈ B 1, ∀ j ∈ B 1, ref i = ref j → i = j)
    (hh : ∀ j ∈ B 1, 0 ≤ (body j).h) {tol : ℝ} (htol : 0 ≤ tol) {cur : List (Body d)} {curNode : Option (Node d)} {curkey : Nat}
    (hcurB : B curkey ⊆ B 1) (hcur : ∀ b ∈ cur, ∃ i ∈ B curkey, b = body i)
    (hnode : ∀ n, curNode = some n → Summarises body (B curkey) n) (n : Nat) :
    ∀ (q next ms : List Nat) (found : List (List (Bool × Int))), Inv T B body ref cur (q ++ next) ms found →
      (∀ e ∈ q, rk e ≤ n) → (∀ e ∈ next, rk e < n) →
      ∃ nx ms' f', pass T tol cur curNode q next ms found = some (nx, ms', f') ∧ Inv T B body ref cur nx ms' f' ∧
        ∀ e ∈ nx, rk e < n := by
  intro q
  induction q with
  | nil => intro next ms found h _ h2; exact ⟨next, ms, found, rfl, h, h2⟩
  | cons k q ih =>
    intro next ms found h h1 h2
    obtain ⟨c, hc, hI, hr⟩ := examine_spec hT hinj hh htol hcurB hcur hnode h
    rw [pass, hc]
    simp only [Option.bind_eq_bind, Option.bind_some]
    apply ih
    · rw [← List.append_assoc]; exact hI
    · exact fun e he => h1 e (List.mem_cons_of_mem _ he)
    · intro e he
      rcases List.mem_append.mp he with he | he
      · exact h2 e he
      · have := hr e he
        have := h1 k List.mem_cons_self
        omega

theorem search_spec (hT : TreeWF T rk B body ref) (hinj : ∀ i ∈ B 1, ∀ j ∈ B 1, ref i = ref j → i = j)
    (hh : ∀ j ∈ B 1, 0 ≤ (body j).h) {tol : ℝ} (htol : 0 ≤ tol) {cur : List (Body d)} {curNode : Option (Node d)} {curkey : Nat}
    (hcurB : B curkey ⊆ B 1) (hcur : ∀ b ∈ cur, ∃ i ∈ B curkey, b = body i)
    (hnode : ∀ n, curNode = some n → Summarises body (B curkey) n) :
    ∀ (n : Nat) (queue : List Nat) (found : List (List (Bool × Int))), Inv T B body ref cur queue [] found →
      (∀ e ∈ queue, rk e < n) →
      ∃ fuel₀ r, (∀ fuel, fuel₀ ≤ fuel → search T tol cur curNode fuel queue found = some r) ∧
        (∀ f', r = .inr f' → Inv T B body ref cur [] [] f') ∧
        (∀ ms, r = .inl ms → ms ≠ [] ∧ ∀ m ∈ ms, ∃ c, T.tbl m = some c ∧ isEmptyNode T.dim c = some true) := by
  intro n
  induction n with
  | zero =>
    intro queue found h hq
    have : queue = [] := by
      cases queue with
      | nil => rfl
      | cons e q => have := hq e List.mem_cons_self; omega
    subst this
    refine ⟨1, .inr found, ?_, ?_, (by intro ms h; cases h)⟩
    · intro fuel hf
      obtain ⟨f, rfl⟩ : ∃ f, fuel = f + 1 := ⟨fuel - 1, by omega⟩
      rw [search, if_pos rfl]
    · intro f' hf'; cases hf'; exact h
  | succ n ih =>
    intro queue found h hq
    by_cases hne : queue = []
    · subst hne
      refine ⟨1, .inr found, ?_, ?_, (by intro ms h; cases h)⟩
      · intro fuel hf
        obtain ⟨f, rfl⟩ : ∃ f, fuel = f + 1 := ⟨fuel - 1, by omega⟩
        rw [search, if_pos rfl]
      · intro f' hf'; cases hf'; exact h
    · obtain ⟨nx, ms', f', hp, hI, hr⟩ := pass_spec hT hinj hh htol hcurB hcur hnode n queue [] [] found (by rwa [List.append_nil])
        (fun e he => by have := hq e he; omega) (by simp)
      by_cases hm : ms' = []
      · subst hm
        obtain ⟨f₀, r, h1, h2, h3⟩ := ih nx f' hI hr
        refine ⟨f₀ + 1, r, ?_, h2, h3⟩
        intro fuel hf
        obtain ⟨f, rfl⟩ : ∃ f, fuel = f + 1 := ⟨fuel - 1, by omega⟩
        rw [search, if_neg hne, hp]
        simp only [Option.bind_eq_bind, Option.bind_some, ne_eq, not_true_eq_false, if_false]
        exact h1 f (by omega)
      · refine ⟨1, .inl ms', ?_, (by intro f h; cases h), ?_⟩
        · intro fuel hf
          obtain ⟨f, rfl⟩ : ∃ f, fuel = f + 1 := ⟨fuel - 1, by omega⟩
          rw [search, if_neg hne, hp]
          simp only [Option.bind_eq_bind, Option.bind_some, ne_eq, hm, not_false_eq_true, if_true]
        · intro ms h; cases h; exact ⟨hm, hI.miss⟩

end FleCSPH.Traversal
