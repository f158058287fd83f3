import Verif.Lemmas.TimedOutputs
/-! The clock of a run with timed outputs of one interval. -/
namespace FleCSPH.Timestep

/-- One call of `set_adaptive_timestep` with one timed output, when the step it comes to is at most nine tenths of the interval. -/
theorem setAdaptive_short (o : Outputs) (k : Kind) (ho : ∀ k', o.interval k' > 0 ↔ k' = k) (ls : List (List ℝ)) (c : Clock)
    (hL : 0 < smallest ls) (hdt : 0 < c.dt) (hL' : c.dt ≤ 9 / 20 * o.interval k) (hs : c.dtSaved ≤ 9 / 10 * o.interval k)
    (ht : c.totaltime ≤ c.t k) :
    let c' := setAdaptive o ls c
    c'.iteration = c.iteration ∧ c'.totaltime = c.totaltime ∧ c'.t k = (if c.totaltime = c.t k then c.t k + o.interval k else c.t k) ∧
    c'.dtSaved ≤ 9 / 10 * o.interval k ∧ c.totaltime < c'.totaltimeNext ∧ c'.totaltimeNext ≤ c'.t k ∧
    c'.dt = c'.totaltimeNext - c.totaltime ∧ c'.dt ≤ smallest ls + 1 / 10 * o.interval k ∧
    (k ≠ .screen → c'.dt ≤ smallest ls) := by
  have hout : 0 < o.interval k := (ho k).mpr rfl
  obtain ⟨D0, D1, D2⟩ := adapt_spec hL hdt
  intro c'
  have hc' : c' = _ := setAdaptive_one o k ho ls c
  generalize adapt (smallest ls) c.dt = D at *
  clear_value c'
  subst hc'
  simp only [catchUp]
  by_cases he : c.totaltime = c.t k
  · rw [if_pos he]
    simp only [if_pos he]
    have hdv : (if c.dtSaved > 0 then c.dtSaved else D) ≤ 9 / 10 * o.interval k := by split_ifs <;> linarith
    simp only [align, Function.update_self]
    rw [if_neg (by linarith)]
    simp only [Function.update_self]
    refine ⟨trivial, trivial, trivial, hs, by linarith, by linarith, trivial, by linarith, fun _ => by linarith⟩
  · rw [if_neg he]
    simp only [if_neg he]
    have hlt : c.totaltime < c.t k := lt_of_le_of_ne ht he
    simp only [align]
    split_ifs with h1 h2
    · refine ⟨rfl, rfl, rfl, by linarith, hlt, le_rfl, rfl, by simp only; linarith, fun h => absurd h2 h⟩
    · refine ⟨rfl, rfl, rfl, by linarith, lt_min (by linarith) hlt, min_le_right _ _, rfl, ?_, fun _ => ?_⟩ <;>
        simp only <;> have := min_le_left (c.totaltime + D) (c.t k) <;> linarith
    · refine ⟨rfl, rfl, rfl, hs, ?_, ?_, rfl, ?_, fun _ => ?_⟩ <;> simp only <;> linarith

/-- The clock of a run whose outputs come at `t0 + j I`; output `q` is pending. -/
structure Track (o : Outputs) (t0 I : ℝ) (q : Nat) (c : Clock) : Prop where
  dt : 0 < c.dt
  saved : c.dtSaved ≤ 9 / 10 * I
  pending : ∀ j, 0 < o.interval j → c.t j = t0 + q * I
  after : t0 + (q - 1) * I ≤ c.totaltime
  before : c.totaltime ≤ t0 + q * I

/-- The extension of a step which the screen output may ask for. -/
noncomputable def stretch (o : Outputs) : ℝ := if 0 < o.interval .screen then 1 / 10 * o.interval .screen else 0

theorem track_start {o : Outputs} {I : ℝ} (hsame : ∀ j, 0 < o.interval j → o.interval j = I) (hI : 0 < I) (it : Int) {t0 dt0 : ℝ} (ht0 : 0 ≤ t0) (hdt : 0 < dt0) : Track o t0 I 0 (start o it t0 dt0) := by
  refine ⟨hdt, ?_, fun j hj => ?_, ?_, ?_⟩
  · show (0 : ℝ) ≤ _
    positivity
  · show (if o.interval j > 0 then _ else _) = _
    rw [if_pos hj]
    have hq : 0 ≤ t0 / o.interval j := by positivity
    have h1 : o.interval j * truncate (t0 / o.interval j) ≤ t0 := by
      rw [truncate, if_pos hq, mul_comm]
      exact (le_div_iff₀ hj).mp (Int.floor_le _)
    split_ifs with h
    · simp
    · simp only [Nat.cast_zero, zero_mul, add_zero]
      exact le_antisymm h1 (not_lt.mp h)
  · show _ ≤ t0
    push_cast; linarith
  · show t0 ≤ _
    push_cast; linarith

/-- One call of `set_adaptive_timestep`. -/
theorem Track.set {o : Outputs} {I t0 : ℝ} (hsame : ∀ j, 0 < o.interval j → o.interval j = I) {k : Kind} (hk : 0 < o.interval k) {q : Nat} {c : Clock} (h : Track o t0 I q c)
    (hshort : c.dt ≤ 9 / 20 * I) {ls : List (List ℝ)} (hls : ∀ l ∈ ls, ∀ x ∈ l, 0 < x) :
    let c' := setAdaptive o ls c
    ∃ q', Track o t0 I q' c' ∧ q ≤ q' ∧ (∀ j, q ≤ j → j < q' → c.totaltime = t0 + (j : ℕ) * I) ∧ c'.totaltime = c.totaltime ∧ c'.totaltimeNext = c.totaltime + c'.dt ∧ 0 < c'.dt ∧
      c'.totaltimeNext ≤ t0 + q' * I ∧ ∀ l ∈ ls, ∀ x ∈ l, c'.dt ≤ x + stretch o := by
  obtain ⟨m, hm, hmI⟩ := Lead.exists o I hsame k hk
  have hI : 0 < I := by rw [← hmI]; exact hm.active
  have hA : Alike o m c c := ⟨rfl, rfl, rfl, rfl, rfl, fun j hj => by rw [h.pending j hj, h.pending m hm.active]⟩
  have hS := hA.setAdaptive hm ls
  have hi : (only o m).interval m = I := by rw [only_interval, hmI]
  obtain ⟨-, s2, s3, s4, s5, s6, s7, s8, s9⟩ := setAdaptive_short (only o m) m (only_active o m hm.active) ls c (smallest_pos ls hls) h.dt (by rw [hi]; exact hshort) (by rw [hi]; exact h.saved)
    (by rw [h.pending m hm.active]; exact h.before)
  rw [hi] at s3 s4 s8
  intro c'
  rw [← hS.totaltime] at s2
  rw [← hS.t m hm.active, h.pending m hm.active] at s3
  rw [← hS.dtSaved] at s4
  rw [← hS.next] at s5
  rw [← hS.next, ← hS.t m hm.active] at s6
  rw [← hS.next, ← hS.dt] at s7
  rw [← hS.dt] at s8 s9
  change c'.totaltime = c.totaltime at s2
  change c'.t m = _ at s3
  change c'.dtSaved ≤ _ at s4
  change c.totaltime < c'.totaltimeNext at s5
  change c'.totaltimeNext ≤ c'.t m at s6
  change c'.dt = c'.totaltimeNext - c.totaltime at s7
  change c'.dt ≤ _ at s8
  change _ → c'.dt ≤ _ at s9
  have hd : 0 < c'.dt := by linarith
  have hst : c'.dt ≤ smallest ls + stretch o := by
    unfold stretch
    split_ifs with hsc
    · rw [hsame _ hsc]; exact s8
    · rw [add_zero]
      exact s9 fun e => hsc (e ▸ hm.active)
  have hlim : ∀ l ∈ ls, ∀ x ∈ l, c'.dt ≤ x + stretch o := fun l hl x hx => by
    have := smallest_le ls hl hx
    linarith
  have hp : ∀ j, 0 < o.interval j → c'.t j = c'.t m := fun j hj => (hS.t j hj).trans (hS.t m hm.active).symm
  by_cases he : c.totaltime = t0 + q * I
  · rw [if_pos he] at s3
    have s3' : c'.t m = t0 + ((q + 1 : Nat) : ℝ) * I := by rw [s3]; push_cast; ring
    refine ⟨q + 1, ⟨hd, s4, fun j hj => (hp j hj).trans s3', ?_, ?_⟩, by omega, fun j h1 h2 => ?_, s2, by linarith, hd, by rw [← s3']; exact s6, hlim⟩
    · rw [s2, he]; push_cast; linarith
    · rw [s2, he]; push_cast; linarith
    · obtain rfl : j = q := by omega
      exact he
  · rw [if_neg he] at s3
    exact ⟨q, ⟨hd, s4, fun j hj => (hp j hj).trans s3, by rw [s2]; exact h.after, by rw [s2]; exact h.before⟩, le_rfl, fun j h1 h2 => absurd h2 (by omega), s2, by linarith, hd,
      by rw [← s3]; exact s6, hlim⟩

/-- The clocks of the iterations of a run, with the limits the last call of each has seen. -/
inductive Ticks (o : Outputs) : Clock → List (Clock × Clock × List (List ℝ)) → Clock → Prop
  | nil {c} : Ticks o c [] c
  | cons {c c1 ls L c'} : (c1 = c ∨ ∃ ls', (∀ l ∈ ls', ∀ x ∈ l, 0 < x) ∧ c1 = setAdaptive o ls' c) → (∀ l ∈ ls, ∀ x ∈ l, 0 < x) → Ticks o (advance true (setAdaptive o ls c1)) L c' →
      Ticks o c ((c1, advance true (setAdaptive o ls c1), ls) :: L) c'

/-- Over a run whose steps are at most 9/20 of the interval: times increase, no output time is passed over, and output is due exactly at the output times. -/
theorem Ticks.track {o : Outputs} {I t0 : ℝ} (hsame : ∀ j, 0 < o.interval j → o.interval j = I) {k : Kind} (hk : 0 < o.interval k) {c c' : Clock} {L : List (Clock × Clock × List (List ℝ))} (h : Ticks o c L c') :
    ∀ {q : Nat}, Track o t0 I q c → c.dt ≤ 9 / 20 * I → (∀ x ∈ L, x.1.dt ≤ 9 / 20 * I) → (∀ x ∈ L.dropLast, x.2.1.dt ≤ 9 / 20 * I) →
    ∃ q', Track o t0 I q' c' ∧ q ≤ q' ∧ (∀ j, q ≤ j → j < q' → t0 + (j : ℕ) * I ∈ c.totaltime :: L.map fun x => x.2.1.totaltime) ∧
      c'.totaltime = c.totaltime + (L.map fun x => x.2.1.dt).sum ∧ (c.totaltime :: L.map fun x => x.2.1.totaltime).Pairwise (· < ·) ∧
      (∀ x ∈ L, 0 < x.2.1.dt ∧ (∀ l ∈ x.2.2, ∀ y ∈ l, x.2.1.dt ≤ y + stretch o) ∧ ∀ j, 0 < o.interval j → (due o j x.2.1 ↔ ∃ n : Nat, x.2.1.totaltime = t0 + n * I)) ∧
      c'.totaltime ∈ c.totaltime :: L.map fun x => x.2.1.totaltime := by
  have hI : 0 < I := by rw [← hsame k hk]; exact hk
  induction h with
  | nil => intro q hT _ _ _; exact ⟨q, hT, le_rfl, fun j h1 h2 => absurd h2 (by omega), by simp, by simp, by simp, by simp⟩
  | @cons c c1 ls L c' h1 hls hr ih =>
    intro q hT hc hx hy
    -- the call in the middle of the iteration
    obtain ⟨q1, hT1, hq1, hin1, htt1⟩ : ∃ q1, Track o t0 I q1 c1 ∧ q ≤ q1 ∧ (∀ j, q ≤ j → j < q1 → c.totaltime = t0 + (j : ℕ) * I) ∧ c1.totaltime = c.totaltime := by
      rcases h1 with rfl | ⟨ls', hls', rfl⟩
      · exact ⟨q, hT, le_rfl, fun j h1 h2 => absurd h2 (by omega), rfl⟩
      · obtain ⟨q1, a1, a2, a3, a4, -⟩ := hT.set hsame hk hc hls'
        exact ⟨q1, a1, a2, a3, a4⟩
    have hc1 : c1.dt ≤ 9 / 20 * I := hx _ List.mem_cons_self
    obtain ⟨q2, hT2, hq2, hin2, htt2, hn, hd, hle, hlim⟩ := hT1.set hsame hk hc1 hls
    obtain ⟨c2, hc2⟩ : ∃ c2, c2 = advance true (setAdaptive o ls c1) := ⟨_, rfl⟩
    have ett : c2.totaltime = c.totaltime + c2.dt := by
      rw [hc2, ← htt1]; show (setAdaptive o ls c1).totaltimeNext = _; exact hn
    have ed : 0 < c2.dt := by rw [hc2]; exact hd
    have hT3 : Track o t0 I q2 c2 := by
      rw [hc2]
      refine ⟨hT2.dt, hT2.saved, hT2.pending, ?_, hle⟩
      have := hT2.after
      rw [htt2] at this
      show _ ≤ (setAdaptive o ls c1).totaltimeNext
      rw [hn]; linarith
    have hstrict : t0 + ((q2 : ℝ) - 1) * I < c2.totaltime := by
      have := hT2.after
      rw [htt2, htt1] at this
      rw [ett]; linarith
    rw [← hc2] at hr ih hx hy ⊢
    -- the due outputs
    have hdue : ∀ j, 0 < o.interval j → (due o j c2 ↔ ∃ n : Nat, c2.totaltime = t0 + n * I) := by
      intro j hj
      rw [due, if_pos hj, hT3.pending j hj]
      constructor
      · exact fun h => ⟨q2, le_antisymm hT3.before (not_lt.mp h)⟩
      · rintro ⟨n, hn⟩ hlt
        rw [hn] at hstrict hlt
        have a1 : ((q2 : ℝ) - 1) * I < n * I := by linarith
        have a2 : (n : ℝ) * I < q2 * I := by linarith
        have b1 := lt_of_mul_lt_mul_right a1 hI.le
        have b2 : n < q2 := by exact_mod_cast lt_of_mul_lt_mul_right a2 hI.le
        have b3 : (q2 : ℝ) < n + 1 := by linarith
        have b4 : q2 < n + 1 := by exact_mod_cast b3
        omega
    have hfirst : 0 < c2.dt ∧ (∀ l ∈ ls, ∀ y ∈ l, c2.dt ≤ y + stretch o) ∧ ∀ j, 0 < o.interval j → (due o j c2 ↔ ∃ n : Nat, c2.totaltime = t0 + n * I) :=
      ⟨ed, by rw [hc2]; exact hlim, hdue⟩
    have hpast : ∀ j, q ≤ j → j < q2 → t0 + (j : ℕ) * I = c.totaltime := by
      intro j h1 h2
      rcases Nat.lt_or_ge j q1 with h3 | h3
      · exact (hin1 j h1 h3).symm
      · rw [← htt1]; exact (hin2 j h3 h2).symm
    cases hL : L with
    | nil =>
      rw [hL] at hr
      cases hr
      refine ⟨q2, hT3, by omega, fun j h1 h2 => by rw [hpast j h1 h2]; simp, ?_, ?_, ?_, ?_⟩
      · simp [ett]
      · simp; linarith
      · intro x hx
        rw [List.mem_singleton] at hx
        subst hx
        exact hfirst
      · simp
    | cons y L' =>
      have hne : L ≠ [] := by rw [hL]; simp
      rw [List.dropLast_cons_of_ne_nil hne] at hy
      obtain ⟨q3, hT4, hq3, hin3, hsum, hpw, hall, hlast⟩ := ih hT3 (hy _ List.mem_cons_self) (fun x hx' => hx x (List.mem_cons_of_mem _ hx')) (fun x hx' => hy x (List.mem_cons_of_mem _ hx'))
      rw [← hL]
      refine ⟨q3, hT4, by omega, fun j h1 h2 => ?_, ?_, ?_, ?_, ?_⟩
      · rcases Nat.lt_or_ge j q2 with h3 | h3
        · rw [hpast j h1 h3]; simp
        · exact List.mem_cons_of_mem _ (by rw [List.map_cons]; exact hin3 j h3 h2)
      · rw [hsum, ett, List.map_cons, List.sum_cons]; ring
      · rw [List.map_cons]
        refine List.pairwise_cons.mpr ⟨fun x hx => ?_, hpw⟩
        rcases List.mem_cons.mp hx with rfl | hx
        · show c.totaltime < c2.totaltime; linarith
        · exact lt_trans (by linarith) (List.rel_of_pairwise_cons hpw hx)
      · intro x hx
        rcases List.mem_cons.mp hx with rfl | hx
        · exact hfirst
        · exact hall x hx
      · exact List.mem_cons_of_mem _ (by rw [List.map_cons]; exact hlast)

end FleCSPH.Timestep
