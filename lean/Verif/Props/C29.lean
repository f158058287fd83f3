import Verif.Lemmas.Snapshot
/-! C29: names of snapshots. -/
namespace FleCSPH.Io

/-- `name` is the name of snapshot `k` with prefix `pre`: the prefix, an underscore, five digits of value `k`, and the extension. -/
def Snapshot (pre name : List Char) (k : Nat) : Prop :=
  ∃ ds : List Char, name = pre ++ "_".toList ++ ds ++ ".h5part".toList ∧ ds.length = 5 ∧ (∀ c ∈ ds, c.isDigit) ∧ Nat.ofDigitChars 10 ds 0 = k

/-- Up to number 99999, the number of a snapshot is recovered from its name: the file has the directory of the prefix, and in this directory a name from which the number is read. -/
theorem C29_round_trip_partial (dir base : List Char) (step : Nat) (h : step < 100000) (path : List Char) (hp : fileName (dir ++ base) step = some path) :
    ∃ name, path = dir ++ name ∧ isPrefixSnapshot base name = some (some step) := by
  obtain ⟨h1, h2, h3⟩ := pad5_small step h
  unfold fileName at hp
  simp only at hp
  split_ifs at hp with hl
  obtain rfl := Option.some.inj hp
  refine ⟨base ++ '_' :: pad5 step ++ suffix, by simp, ?_⟩
  rw [snapshot_parts base base (pad5 step) suffix '_' h1 suffix_length _ rfl (by simp at hl ⊢; omega)]
  rw [if_pos ⟨by rw [List.append_assoc]; exact isPrefix_infix _ _, List.suffix_append _ _ |>.isInfix, h2, rfl, rfl⟩, h3]

example : fileName "out/sedov".toList 42 = some "out/sedov_00042.h5part".toList ∧ isPrefixSnapshot "sedov".toList "sedov_00042.h5part".toList = some (some 42) := by decide

/-- From number 100000 on the names have six or more digits, and are rejected. -/
theorem C29_large_violated (dir base : List Char) (step : Nat) (h : 100000 ≤ step) (path : List Char) (hp : fileName (dir ++ base) step = some path) :
    ∃ name, path = dir ++ name ∧ isPrefixSnapshot base name = some none := by
  obtain ⟨h1, h2⟩ := pad5_large step h
  unfold fileName at hp
  simp only at hp
  split_ifs at hp with hl
  obtain rfl := Option.some.inj hp
  refine ⟨base ++ '_' :: pad5 step ++ suffix, by simp, ?_⟩
  have hlt : (pad5 step).length - 6 < (pad5 step).length := by omega
  have hn : (base ++ '_' :: pad5 step ++ suffix) = (base ++ '_' :: (pad5 step).take ((pad5 step).length - 6)) ++ (pad5 step)[(pad5 step).length - 6] :: (pad5 step).drop ((pad5 step).length - 6 + 1) ++ suffix := by
    have : pad5 step = (pad5 step).take ((pad5 step).length - 6) ++ (pad5 step)[(pad5 step).length - 6] :: (pad5 step).drop ((pad5 step).length - 6 + 1) := by
      rw [← List.drop_eq_getElem_cons hlt, List.take_append_drop]
    conv_lhs => rw [this]
    simp
  rw [snapshot_parts base _ _ suffix _ (by simp; omega) suffix_length _ hn (by simp at hl ⊢; omega), if_neg]
  rintro ⟨-, -, -, hu, -⟩
  have := h2 _ (List.getElem_mem hlt)
  rw [hu] at this
  revert this; decide

example : fileName "sedov".toList 123456 = some "sedov_123456.h5part".toList := by decide

/-- If the prefix does not contain the extension, only names of snapshots are accepted. -/
theorem C29_accepted_partial (pre name : List Char) (k : Nat) (hp : ¬ ".h5part".toList <:+: pre) (h : isPrefixSnapshot pre name = some (some k)) : Snapshot pre name k := by
  have hlen : name.length < 256 := by
    by_contra hc
    unfold isPrefixSnapshot at h
    simp only [if_neg hc] at h
    split_ifs at h <;> try exact absurd h (by simp)
    split at h <;> try exact absurd h (by simp)
    split at h <;> try exact absurd h (by simp)
  have hge : 13 ≤ name.length := by
    by_contra hc
    have hneg := charAt_neg name ((name.length : Int) - 8 - 5) (by omega)
    unfold isPrefixSnapshot at h
    simp only [hneg] at h
    split_ifs at h <;> try exact absurd h (by simp)
    split at h <;> exact absurd h (by simp)
  obtain ⟨p, u, ds, s, hname, hd, hs⟩ := exists_parts name hge
  rw [snapshot_parts pre p ds s u hd hs name hname hlen] at h
  split_ifs at h with hc
  · obtain ⟨-, h2, h3, rfl, rfl⟩ := hc
    simp only [Option.some.injEq] at h
    rw [hname] at h2
    have := suffix_at_end pre ds s hd h3 hs h2 hp
    refine ⟨ds, ?_, hd, h3, h⟩
    rw [hname, this]
    simp [suffix]
  · exact absurd h (by simp)

/-- The file which the code opens for an accepted name is the file with this name. -/
theorem C29_opened (pre name : List Char) (k : Nat) (h : Snapshot pre name k) (hl : name.length < 128) : fileName pre k = some name := by
  obtain ⟨ds, hname, hd, hdig, hv⟩ := h
  have hk : k < 100000 := by
    have := value_lt ds hdig
    rw [hd, hv] at this
    exact this
  obtain ⟨h1, h2, h3⟩ := pad5_small k hk
  have : pad5 k = ds := value_inj _ _ h2 hdig (h1.trans hd.symm) (h3.trans hv.symm)
  unfold fileName
  have e : pre ++ '_' :: pad5 k ++ suffix = name := by rw [this, hname]; simp [suffix]
  simp only [e]
  rw [if_pos hl]

example : ¬ ".h5part".toList <:+: "sod".toList ∧ isPrefixSnapshot "sod".toList "sod_00317.h5part".toList = some (some 317) := by decide

/-- Other names are accepted when the prefix contains the extension: whatever the last seven characters are. -/
theorem C29_accepted_violated (pre ds s : List Char) (hp : ".h5part".toList <:+: pre) (hd : ds.length = 5) (hdig : ∀ c ∈ ds, c.isDigit) (hs : s.length = 7) (hl : pre.length < 243)
    (hne : s ≠ ".h5part".toList) :
    ∃ k, isPrefixSnapshot pre (pre ++ "_".toList ++ ds ++ s) = some (some k) ∧ ¬ ∃ k', Snapshot pre (pre ++ "_".toList ++ ds ++ s) k' := by
  have e : pre ++ "_".toList ++ ds ++ s = pre ++ '_' :: ds ++ s := by simp
  refine ⟨Nat.ofDigitChars 10 ds 0, ?_, ?_⟩
  · rw [e, snapshot_parts pre pre ds s '_' hd hs _ rfl (by simp; omega), if_pos]
    have hpre : pre <:+: pre ++ '_' :: ds ++ s := by rw [List.append_assoc]; exact isPrefix_infix _ _
    exact ⟨hpre, hp.trans hpre, hdig, rfl, rfl⟩
  · rintro ⟨k', ds', h, -⟩
    exact hne (List.append_inj' h (by rw [hs]; rfl)).2

example : isPrefixSnapshot "x.h5part".toList "x.h5part_00012.backup".toList = some (some 12) := by decide

/-- The parser reads inside the name if the name has at least 13 characters (and fewer than 256, as every name in a directory). -/
theorem C29_inside_partial (pre name : List Char) (h : 13 ≤ name.length) (h' : name.length < 256) : isPrefixSnapshot pre name ≠ none := by
  obtain ⟨p, u, ds, s, hname, hd, hs⟩ := exists_parts name h
  rw [snapshot_parts pre p ds s u hd hs name hname h']
  simp

/-- With a prefix of up to five digits, the name of the single-file output of the same prefix makes it read before the beginning. -/
theorem C29_inside_violated (pre : List Char) (h : pre.length ≤ 5) (hdig : ∀ c ∈ pre, c.isDigit) : isPrefixSnapshot pre (pre ++ ".h5part".toList) = none := by
  have hpre : pre <:+: pre ++ ".h5part".toList := isPrefix_infix _ _
  have hsuf : suffix <:+: pre ++ ".h5part".toList := List.suffix_append _ _ |>.isInfix
  unfold isPrefixSnapshot
  rw [if_pos hpre, if_pos hsuf]
  obtain ⟨name, hname⟩ : ∃ name, name = pre ++ ".h5part".toList := ⟨_, rfl⟩
  have hlen : name.length = pre.length + 7 := by rw [hname, List.length_append]; rfl
  rw [← hname]
  have key : ∀ k m snum t, m ≤ pre.length → digitsLoop name k ((m : Int) - 1) snum t = none ∨ ∃ v, digitsLoop name k ((m : Int) - 1) snum t = some (some v) := by
    intro k
    induction k with
    | zero => intro m snum t _; exact Or.inr ⟨snum, rfl⟩
    | succ k ih =>
      intro m snum t hm
      cases m with
      | zero => left; unfold digitsLoop; rw [charAt_neg _ _ (by simp)]
      | succ m =>
        have hm' : m < pre.length := by omega
        have hc : charAt name (((m + 1 : Nat) : Int) - 1) = some pre[m] := by
          have e : ((m + 1 : Nat) : Int) - 1 = m := by push_cast; ring
          rw [e]
          unfold charAt
          rw [if_neg (by omega), if_neg (by omega), hname, Int.toNat_natCast, List.getElem?_append_left hm', List.getElem?_eq_getElem hm']
        have hd : isDig pre[m] = true := hdig _ (List.getElem_mem hm')
        have e : ((m + 1 : Nat) : Int) - 1 - 1 = (m : Int) - 1 := by push_cast; ring
        unfold digitsLoop
        simp only [hc, hd, if_true, e]
        exact ih m _ _ (by omega)
  have e : (name.length : Int) - 8 = (pre.length : Int) - 1 := by rw [hlen]; push_cast; ring
  have hneg := charAt_neg name ((pre.length : Int) - 1 - 5) (by omega)
  simp only [e, hneg]
  rcases key 5 pre.length 0 1 le_rfl with hk | ⟨v, hk⟩ <;> rw [hk]

example : "2020".toList.length ≤ 5 ∧ (∀ c ∈ "2020".toList, c.isDigit) ∧ isPrefixSnapshot "2020".toList "2020.h5part".toList = none := by decide

end FleCSPH.Io
