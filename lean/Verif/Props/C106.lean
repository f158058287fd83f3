import Verif.Model.SnapshotTools
import Mathlib.Data.List.Basic
import Mathlib.Tactic.SplitIfs
import Mathlib.Tactic.NormNum
import Mathlib.Tactic.FinCases
import Mathlib.Algebra.BigOperators.Fin
import Mathlib.Tactic.Tauto
/-! C106: the tools which cut and join files of snapshots and print trajectories. -/
namespace FleCSPH.SnapshotTools

/-- Looking up in a numbered list. -/
private theorem lookup_number {α : Type} (l : List α) (s k : ℕ) : ((l.zipIdx s).map fun p => (p.2, p.1)).lookup k = if s ≤ k then l[k - s]? else none := by
  induction l generalizing s with
  | nil => simp
  | cons a l ih =>
    rw [List.zipIdx_cons, List.map_cons, List.lookup_cons, ih]
    by_cases h : k = s
    · subst h; simp
    · rw [beq_false_of_ne h]
      by_cases h1 : s ≤ k
      · have h2 : s + 1 ≤ k := by omega
        rw [if_pos h1, if_pos h2, show k - s = k - (s + 1) + 1 by omega, List.getElem?_cons_succ]
      · rw [if_neg h1, if_neg (by omega)]

private theorem single_step (dim : ℕ) (os : List Output) (k : ℕ) : (singleFile dim os).step k = os[k]?.map group := by
  have := lookup_number (os.map group) 0 k
  rw [if_pos (Nat.zero_le _), Nat.sub_zero, List.getElem?_map, List.zipIdx_map, List.map_map] at this
  exact this

private theorem data_of (o : Output) {nm : String} (h : nm ∈ written) : (group o).data nm = some (o.field nm) := if_pos h

/-- What a group has after a tool copied the step of an output with the names the output has. -/
private theorem copy_written {names : List String} (h : ∀ nm ∈ names, nm ∈ written) (o : Output) :
    copy names (group o) = some ⟨fun nm => if nm ∈ names then some (o.field nm) else none, none, none, none⟩ := by
  unfold copy
  rw [if_pos fun nm hn => by simp [group, h nm hn]]
  congr 2
  funext nm
  split_ifs with hn
  · simp [group, h nm hn]
  · rfl

private theorem extract_names : ∀ nm ∈ extractNames, nm ∈ written := by decide

/-- The file cut out for an output: one step, numbered 0, with these data sets of the output and no attribute. -/
def IsCut (o : Output) (f : File) : Prop :=
  f.dimension = none ∧ ∃ g, f.steps = [(0, g)] ∧ g.time = none ∧ g.iteration = none ∧ g.timestep = none ∧
    (∀ nm ∈ ["x", "y", "z", "vx", "vy", "vz", "ax", "ay", "az", "rho", "m", "h", "P", "u", "type", "id"], g.data nm = some (o.field nm)) ∧
    ∀ nm ∉ ["x", "y", "z", "vx", "vy", "vz", "ax", "ay", "az", "rho", "m", "h", "P", "u", "type", "id"], g.data nm = none

private theorem cut (o : Output) : IsCut o ⟨none, [(0, ⟨fun nm => if nm ∈ extractNames then some (o.field nm) else none, none, none, none⟩)]⟩ := by
  have e : ∀ nm, nm ∈ extractNames ↔ nm ∈ ["x", "y", "z", "vx", "vy", "vz", "ax", "ay", "az", "rho", "m", "h", "P", "u", "type", "id"] := by
    intro nm
    simp only [extractNames, List.mem_cons, List.not_mem_nil, or_false]
    tauto
  exact ⟨rfl, _, rfl, rfl, rfl, rfl, fun nm hn => if_pos ((e nm).2 hn), fun nm hn => if_neg fun h => hn ((e nm).1 h)⟩

/-- Cutting a step out of the single file of a run works for every step written and for no other; `--last` takes the last one. -/
theorem C106_extract (dim : ℕ) (os : List Output) :
    (∀ k (h : k < os.length), ∃ f, extract (singleFile dim os) (some k) = some f ∧ IsCut os[k] f) ∧
    (∀ k, os.length ≤ k → extract (singleFile dim os) (some k) = none) ∧
    (∀ h : os ≠ [], ∃ f, extract (singleFile dim os) none = some f ∧ IsCut (os.getLast h) f) := by
  have hk : ∀ k (h : k < os.length), extract (singleFile dim os) (some k) = some ⟨none, [(0, ⟨fun nm => if nm ∈ extractNames then some (os[k].field nm) else none, none, none, none⟩)]⟩ := by
    intro k h
    simp only [extract]
    rw [single_step, List.getElem?_eq_getElem h, Option.map_some, Option.bind_some, copy_written extract_names, Option.map_some]
  refine ⟨fun k h => ⟨_, hk k h, cut _⟩, fun k h => ?_, fun h => ?_⟩
  · simp only [extract]
    rw [single_step, List.getElem?_eq_none h, Option.map_none, Option.bind_none, Option.map_none]
  · have hl : 0 < os.length := List.length_pos_of_ne_nil h
    have e : extract (singleFile dim os) none = extract (singleFile dim os) (some (os.length - 1)) := by
      simp only [extract, singleFile, List.length_map, List.length_zipIdx]
    rw [e, hk _ (by omega), ← List.getLast_eq_getElem h]
    exact ⟨_, rfl, cut _⟩

/-- A new run (`initial_iteration` 0) starts from the file cut out with the particles of that step: positions, velocities, masses, densities, smoothing lengths, pressures, energies, identifiers and types. Missing: the
time steps of the particles and their states, which are zero. -/
theorem C106_start_partial {dim : ℕ} {o : Output} {f : File} (hf : IsCut o f) :
    ∃ p, start dim f = some p ∧ (∀ nm ∈ readNames dim, nm ≠ "dt" → nm ≠ "state" → p nm = o.field nm) ∧
      p "dt" = List.replicate (o.field "x").length 0 ∧ p "state" = List.replicate (o.field "x").length 0 := by
  obtain ⟨h0, g, h1, -, -, -, h2, h3⟩ := hf
  have hs : f.step 0 = some g := by unfold File.step; rw [h1]; rfl
  have hx : g.data "x" = some (o.field "x") := h2 _ (by decide)
  have hr : ∀ nm ∈ readNames dim, nm ≠ "dt" → nm ≠ "state" → nm ∈ ["x", "y", "z", "vx", "vy", "vz", "ax", "ay", "az", "rho", "m", "h", "P", "u", "type", "id"] := by
    unfold readNames
    split_ifs <;> decide
  have hdt : "dt" ∈ readNames dim ∧ "state" ∈ readNames dim := by unfold readNames; exact ⟨by simp, by simp⟩
  unfold start
  rw [if_pos (Or.inl h0), hs, Option.bind_some, hx, Option.map_some]
  refine ⟨_, rfl, fun nm hn n1 n2 => ?_, ?_, ?_⟩
  · rw [if_pos hn, h2 nm (hr nm hn n1 n2), Option.getD_some]
  · rw [if_pos hdt.1, h3 "dt" (by decide), Option.getD_none, if_neg (by decide)]
  · rw [if_pos hdt.2, h3 "state" (by decide), Option.getD_none, if_neg (by decide)]

/-- No run can be continued from a file cut out: the search for the iteration stops, as the attribute is lost. -/
theorem C106_restart_violated {o : Output} {f : File} (hf : IsCut o f) (iteration : Int) : Io.findStep (stepIn f) iteration = none := by
  obtain ⟨-, g, h1, -, h2, -⟩ := hf
  have hs : f.step 0 = some g := by unfold File.step; rw [h1]; rfl
  have : stepIn f 0 = .malformed := by unfold stepIn; rw [hs]; simp only; rw [h2]
  unfold Io.findStep
  rw [show Io.maxstep = 999999 + 1 from rfl, Io.findStepLoop, this]

private theorem separate_get (dim : ℕ) (os : List Output) (k : ℕ) (h : k < os.length) (h' : k < (separateFiles dim os).length) : (separateFiles dim os)[k] = ⟨some dim, [(k, group os[k])]⟩ := by
  simp [separateFiles]

/-- With a file for each output the step has to be given by its number: without it and with `--last` the tool finds nothing in any file but the first. -/
theorem C106_separate_violated (dim : ℕ) (os : List Output) (k : ℕ) (h : k < os.length) : ∃ f, (separateFiles dim os)[k]? = some f ∧ (∃ x, extract f (some k) = some x ∧ IsCut os[k] x) ∧
    (k ≠ 0 → extract f (some 0) = none ∧ extract f none = none) := by
  have h' : k < (separateFiles dim os).length := by simp [separateFiles, h]
  refine ⟨_, List.getElem?_eq_getElem h', ?_, fun hk => ?_⟩
  · rw [separate_get dim os k h h']
    simp only [extract, File.step, List.lookup_cons, beq_self_eq_true, Option.bind_some]
    rw [copy_written extract_names, Option.map_some]
    exact ⟨_, rfl, cut _⟩
  · rw [separate_get dim os k h h']
    have : (0 == k) = false := beq_false_of_ne (Ne.symm hk)
    simp [extract, File.step, List.lookup_cons, this]

/-- A file whose steps are numbered from 0 and have the data sets the tool asks for. -/
def Mergeable (f : File) (gs : List Group) : Prop :=
  (∀ k, f.step k = gs[k]?) ∧ ∀ g ∈ gs, ∀ nm ∈ ["P", "x", "y", "z", "vx", "vy", "vz", "ax", "ay", "az", "density", "mass", "h", "u", "id"], (g.data nm).isSome

/-- The copy the tool makes of a group. -/
def Copied (g g' : Group) : Prop := ∀ nm ∈ ["P", "x", "y", "z", "vx", "vy", "vz", "ax", "ay", "az", "density", "mass", "h", "u", "id"], g'.data nm = g.data nm

private def cp (g : Group) : Group := ⟨fun nm => if nm ∈ mergeNames then g.data nm else none, none, none, none⟩

private theorem loop_ok {f : File} {gs : List Group} (h : Mergeable f gs) {fuel k : ℕ} (hf : gs.length < k + fuel) (out : List Group) : mergeLoop f fuel k out = some (out ++ (gs.drop k).map cp) ∨ gs.length < k := by
  induction fuel generalizing k out with
  | zero => right; omega
  | succ fuel ih =>
    rw [mergeLoop, h.1 k]
    rcases Nat.lt_trichotomy k gs.length with hk | hk | hk
    · left
      rw [List.getElem?_eq_getElem hk]
      simp only
      rw [copy, if_pos (show ∀ nm ∈ mergeNames, _ from h.2 _ (List.getElem_mem hk)), Option.bind_some]
      rcases ih (k := k + 1) (by omega) (out ++ [cp gs[k]]) with h1 | h1
      · rw [List.drop_eq_getElem_cons hk, List.map_cons]
        rw [List.append_assoc, List.singleton_append] at h1
        exact h1
      · omega
    · left
      rw [List.getElem?_eq_none hk.ge, List.drop_eq_nil_of_le hk.ge, List.map_nil, List.append_nil]
    · right; exact hk

/-- Files with the data sets the tool asks for: the file made has the steps of all of them, one after the other, with their data. The attributes are lost. -/
theorem C106_merge_partial {fuel : ℕ} {fs : List (File × List Group)} (h : ∀ p ∈ fs, Mergeable p.1 p.2) (hfuel : ∀ p ∈ fs, p.2.length < fuel) :
    ∃ f, merge fuel (fs.map Prod.fst) = some f ∧ f.steps.length = (fs.map Prod.snd).flatten.length ∧
      ∀ k (hk : k < (fs.map Prod.snd).flatten.length), ∃ g, f.step k = some g ∧ Copied ((fs.map Prod.snd).flatten[k]) g := by
  have key : ∀ (fs : List (File × List Group)) (out : List Group), (∀ p ∈ fs, Mergeable p.1 p.2) → (∀ p ∈ fs, p.2.length < fuel) →
      mergeFiles fuel (fs.map Prod.fst) out = some (out ++ (fs.map Prod.snd).flatten.map cp) := by
    intro fs
    induction fs with
    | nil => intro out _ _; simp [mergeFiles]
    | cons p fs ih =>
      intro out h1 h2
      rw [List.map_cons, mergeFiles]
      rcases loop_ok (h1 p List.mem_cons_self) (fuel := fuel) (k := 0) (by have := h2 p List.mem_cons_self; omega) out with h3 | h3
      · rw [h3, Option.bind_some, ih _ (fun q hq => h1 q (List.mem_cons_of_mem _ hq)) fun q hq => h2 q (List.mem_cons_of_mem _ hq)]
        simp
      · omega
  unfold merge
  rw [key fs [] h hfuel, Option.map_some, List.nil_append]
  refine ⟨_, rfl, by rw [List.length_map, List.length_zipIdx, List.length_map], fun k hk => ⟨cp ((fs.map Prod.snd).flatten[k]), ?_, fun nm hn => if_pos hn⟩⟩
  simp only [File.step]
  rw [lookup_number, if_pos (Nat.zero_le _), Nat.sub_zero, List.getElem?_map, List.getElem?_eq_getElem hk, Option.map_some]

private theorem no_copy (o : Output) : copy mergeNames (group o) = none := by
  unfold copy
  exact if_neg fun h => by simpa [group, written] using h "density" (by decide)

/-- The files a run writes cannot be merged: with the file of the first output, or with a single file, the tool stops; without it, it makes a file without any step. -/
theorem C106_merge_violated (dim : ℕ) (os : List Output) (fuel : ℕ) :
    (os ≠ [] → merge fuel [singleFile dim os] = none ∧ merge fuel (separateFiles dim os) = none) ∧
    (∀ fs : List File, (∀ f ∈ fs, ∃ k, k ≠ 0 ∧ ∃ o : Output, f = ⟨some dim, [(k, group o)]⟩) → 0 < fuel → merge fuel fs = some ⟨none, []⟩) := by
  refine ⟨fun h => ?_, fun fs h hfuel => ?_⟩
  · obtain ⟨o, os, rfl⟩ := List.exists_cons_of_ne_nil h
    have stop : ∀ (f : File) (fs : List File), f.step 0 = some (group o) → merge fuel (f :: fs) = none := by
      intro f fs hf
      have : mergeLoop f fuel 0 [] = none := by
        cases fuel with
        | zero => rfl
        | succ n => rw [mergeLoop, hf]; simp only; rw [no_copy, Option.bind_none]
      rw [merge, mergeFiles, this]; rfl
    refine ⟨stop _ _ (by rw [single_step]; rfl), ?_⟩
    rw [separateFiles, List.zipIdx_cons, List.map_cons]
    exact stop _ _ rfl
  · obtain ⟨n, rfl⟩ : ∃ n, fuel = n + 1 := ⟨fuel - 1, by omega⟩
    have : mergeFiles (n + 1) fs [] = some [] := by
      induction fs with
      | nil => rfl
      | cons f fs ih =>
        obtain ⟨k, hk, o, rfl⟩ := h f List.mem_cons_self
        have h0 : (⟨some dim, [(k, group o)]⟩ : File).step 0 = none := by
          simp [File.step, List.lookup_cons, beq_false_of_ne (Ne.symm hk)]
        rw [mergeFiles, mergeLoop, h0]
        exact ih fun f hf => h f (List.mem_cons_of_mem _ hf)
    rw [merge, this]; rfl

private theorem mapM_get {α β : Type} (F : α → Option β) (G : α → β) (l : List α) (h : ∀ a ∈ l, F a = some (G a)) : l.mapM F = some (l.map G) := by
  induction l with
  | nil => rfl
  | cons a l ih =>
    rw [List.mapM_cons, h a List.mem_cons_self, ih fun b hb => h b (List.mem_cons_of_mem _ hb)]; rfl

/-- The line printed for a particle: iteration and time of the output, and its values in the arrays, found by its identifier. -/
def IsLine (o : Output) (pid : Int) (r : Row) : Prop :=
  r.iteration = o.iteration ∧ r.time = o.time ∧ (o.field "id")[r.pnum]? = some (pid : ℝ) ∧
    r.values.map some = ["x", "y", "z", "rho", "P", "u", "vx", "vy", "vz", "ax", "ay", "az", "h", "m", "dt", "rank", "type"].map fun nm => (o.field nm)[r.pnum]?

private theorem row_ok {n : ℕ} {pid : Int} {o : Output} (hlen : ∀ nm, (o.field nm).length = n) (hid : (pid : ℝ) ∈ o.field "id") : ∃ r, row n pid (group o) = some r ∧ IsLine o pid r := by
  classical
  obtain ⟨j, hj⟩ : ∃ j, (o.field "id").findIdx? (fun x => decide (x = (pid : ℝ))) = some j := by
    rw [← Option.isSome_iff_exists, List.findIdx?_isSome, List.any_eq_true]
    exact ⟨_, hid, by simp⟩
  obtain ⟨hj1, hj2, -⟩ := List.findIdx?_eq_some_iff_getElem.1 hj
  have hj2 : (o.field "id")[j] = (pid : ℝ) := by simpa using hj2
  have hn : j < n := by rw [← hlen "id"]; exact hj1
  have hw : ∀ nm ∈ rowNames, nm ∈ written := by decide
  have hv : (rowNames.mapM fun nm => ((group o).data nm).bind fun l => if l.length = n then l[j]? else none) = some (rowNames.map fun nm => ((o.field nm)[j]?).getD 0) := by
    refine mapM_get _ _ _ fun nm hm => ?_
    simp only [group]
    rw [if_pos (hw nm hm), Option.bind_some, if_pos (hlen nm), List.getElem?_eq_getElem (by rw [hlen]; exact hn), Option.getD_some]
  refine ⟨⟨o.iteration, o.time, rowNames.map fun nm => ((o.field nm)[j]?).getD 0, j⟩, ?_, rfl, rfl, ?_, ?_⟩
  · unfold row
    rw [show (group o).time = some o.time from rfl, show (group o).iteration = some o.iteration from rfl, show (group o).data "id" = some (o.field "id") from data_of o (by decide)]
    simp only [Option.bind_eq_bind, Option.bind_some]
    rw [if_pos (hlen "id")]
    have hj' : (o.field "id").findIdx? (fun x => @decide (x = (pid : ℝ)) (Classical.propDecidable _)) = some j := by rw [← hj]
    rw [hj', Option.bind_some, hv]; rfl
  · simp only
    rw [List.getElem?_eq_getElem hj1, hj2]
  · rw [List.map_map]
    refine List.map_congr_left fun nm _ => ?_
    simp only [Function.comp]
    rw [List.getElem?_eq_getElem (by rw [hlen]; exact hn), Option.getD_some]

/-- The trajectory of a particle whose identifier lies between 1 and the number of particles: one line for each output. Missing: the first particle of the data the generators make (`C106_first_violated`). -/
theorem C106_trajectory_partial {dim n : ℕ} {os : List Output} (hos : os ≠ []) {pid : Int} (hlen : ∀ o ∈ os, ∀ nm, (o.field nm).length = n) (hid : ∀ o ∈ os, (pid : ℝ) ∈ o.field "id")
    (h1 : 1 ≤ pid) (h2 : pid ≤ n) :
    ∃ rows, trajectory (singleFile dim os) pid = some rows ∧ ∃ h : rows.length = os.length, ∀ k (hk : k < os.length), IsLine os[k] pid rows[k] := by
  obtain ⟨o, os', e⟩ := List.exists_cons_of_ne_nil hos
  have hhead : (singleFile dim os).steps.head? = some (0, group o) := by rw [e]; rfl
  have hx : (group o).data "x" = some (o.field "x") := data_of o (by decide)
  have hn : (o.field "x").length = n := hlen o (by rw [e]; exact List.mem_cons_self) _
  choose G hG1 hG2 using fun o : {o // o ∈ os} => row_ok (pid := pid) (hlen o.1 o.2) (hid o.1 o.2)
  have hl : (singleFile dim os).steps.length = os.length := by simp [singleFile]
  have hm : ((List.range os.length).mapM fun k => ((singleFile dim os).step k).bind (row n pid)) = some (os.attach.map G) := by
    have : List.range os.length = (List.finRange os.length).map Fin.val := by simp
    rw [this, List.mapM_map]
    rw [mapM_get _ (fun k : Fin os.length => G ⟨os[k], List.getElem_mem k.2⟩) _ fun k _ => ?_]
    · congr 1
      apply List.ext_getElem
      · simp
      · intro k _ _; simp
    · simp only [Function.comp]
      rw [single_step, List.getElem?_eq_getElem k.2, Option.map_some, Option.bind_some]
      exact hG1 ⟨os[k], List.getElem_mem k.2⟩
  refine ⟨os.attach.map G, ?_, ?_⟩
  · unfold trajectory
    rw [hhead, show (singleFile dim os).dimension = some dim from rfl]
    simp only [Option.bind_eq_bind, Option.bind_some]
    rw [hx, Option.bind_some, hn, if_neg (by omega), hl, hm]
  · refine ⟨by simp, fun k _ => ?_⟩
    simp only [List.getElem_map, List.getElem_attach]
    exact hG2 _

/-- The generators number the particles from 0: particle 0 is refused, and the number of particles is accepted as an identifier and fails for want of such a particle. -/
theorem C106_first_violated {dim n : ℕ} {os : List Output} (hos : os ≠ []) (hid : ∀ o ∈ os, (o.field "id").Perm ((List.range n).map fun j : ℕ => (j : ℝ))) :
    trajectory (singleFile dim os) 0 = none ∧ trajectory (singleFile dim os) n = none := by
  classical
  obtain ⟨o, os', rfl⟩ := List.exists_cons_of_ne_nil hos
  have hhead : (singleFile dim (o :: os')).steps.head? = some (0, group o) := rfl
  have hx : (group o).data "x" = some (o.field "x") := data_of o (by decide)
  have hr : ∀ m, row m n (group o) = none := by
    intro m
    unfold row
    rw [show (group o).time = some o.time from rfl, show (group o).iteration = some o.iteration from rfl, show (group o).data "id" = some (o.field "id") from data_of o (by decide)]
    simp only [Option.bind_eq_bind, Option.bind_some]
    have : (o.field "id").findIdx? (fun x => @decide (x = ((n : Int) : ℝ)) (Classical.propDecidable _)) = none := by
      rw [List.findIdx?_eq_none_iff]
      intro x hx
      have := (hid o List.mem_cons_self).mem_iff.1 hx
      obtain ⟨j, hj, rfl⟩ := List.mem_map.1 this
      rw [List.mem_range] at hj
      simp only [decide_eq_false_iff_not]
      intro e
      rw [Int.cast_natCast, Nat.cast_inj] at e
      omega
    rw [this]
    split_ifs <;> rfl
  have hl : (singleFile dim (o :: os')).steps.length = os'.length + 1 := by simp [singleFile]
  constructor
  · unfold trajectory
    rw [hhead, show (singleFile dim (o :: os')).dimension = some dim from rfl]
    simp only [Option.bind_eq_bind, Option.bind_some]
    rw [hx, Option.bind_some, if_pos (Or.inl (by decide))]
  · unfold trajectory
    rw [hhead, show (singleFile dim (o :: os')).dimension = some dim from rfl]
    simp only [Option.bind_eq_bind, Option.bind_some]
    rw [hx, Option.bind_some]
    split_ifs with h
    · rfl
    · rw [hl, List.range_succ_eq_map, List.mapM_cons, single_step]
      simp only [List.getElem?_cons_zero, Option.map_some, Option.bind_some, hr]
      rfl

/-! ### Slices -/

/-- The axes an option asks for (all of them for the radius). -/
def Mode.axes : Mode → List (Fin 3)
  | .x => [0] | .y => [1] | .z => [2] | .r => [0, 1, 2] | .xy => [0, 1] | .yz => [1, 2] | .xz => [0, 2]

/-- The name of the data set of a coordinate. -/
def axisName : Fin 3 → String := !["x", "y", "z"]

/-- The option fits to the dimension: it asks for no axis beyond it. -/
def Fits (dim : ℕ) (m : Mode) : Prop := m = .r ∨ ∀ j ∈ m.axes, j.val < dim

/-- Number `i` of the array `nm`. -/
noncomputable def entry (o : Output) (nm : String) (i : ℕ) : ℝ := (o.field nm).getD i 0

/-- The particle lies in the slice: within `d` of the given point along each axis of the space which is not asked for; all particles if no thickness is given. -/
def InSlice (dim : ℕ) (a : SliceArgs) (o : Output) (i : ℕ) : Prop := a.d = 0 ∨ ∀ j : Fin 3, j.val < dim → j ∉ a.mode.axes → |entry o (axisName j) i - ![a.x0, a.y0, a.z0] j| < a.d

/-- The line of a particle: the coordinates asked for, or the distance from the origin, and the two variables. -/
noncomputable def sliceLine (dim : ℕ) (a : SliceArgs) (o : Output) (i : ℕ) : List ℝ :=
  (if a.mode = .r then [√(∑ j : Fin 3, if j.val < dim then entry o (axisName j) i ^ 2 else 0)] else a.mode.axes.map fun j => entry o (axisName j) i) ++ [entry o a.var1 i, entry o a.var2 i]

open Classical in
/-- A slice has one line for each particle in it, in the order of the arrays; an option which does not fit to the dimension is refused. -/
theorem C106_slice {dim n : ℕ} (h1 : 1 ≤ dim) (h3 : dim ≤ 3) {os : List Output} {a : SliceArgs} (hstep : a.step < os.length) (hlen : ∀ nm, (os[a.step].field nm).length = n) (hv1 : a.var1 ∈ written)
    (hv2 : a.var2 ∈ written) :
    (Fits dim a.mode → slice (singleFile dim os) a = some (((List.range n).filter fun i => decide (InSlice dim a os[a.step] i)).map (sliceLine dim a os[a.step]))) ∧
      (¬Fits dim a.mode → slice (singleFile dim os) a = none) := by
  obtain ⟨o, ho⟩ : ∃ o, o = os[a.step] := ⟨_, rfl⟩
  rw [← ho] at hlen ⊢
  have hs : (singleFile dim os).step a.step = some (group o) := by rw [single_step, List.getElem?_eq_getElem hstep, ho]; rfl
  have hread : ∀ nm ∈ written, readArray n (group o) nm = some (o.field nm) := by
    intro nm hm
    unfold readArray
    rw [data_of o hm, Option.bind_some, if_pos (hlen nm)]
  have hx : (group o).data "x" = some (o.field "x") := data_of o (by decide)
  have hy := hread "y" (by decide)
  have hz := hread "z" (by decide)
  have keep : ∀ (p : ℕ → Prop) (l1 l2 : ℕ → List ℝ), (∀ i, p i) → (∀ i, l1 i = l2 i) → (List.range n).map l1 = ((List.range n).filter fun i => decide (p i)).map l2 := by
    intro p l1 l2 hp hl
    rw [List.filter_eq_self.2 fun i _ => by simpa using hp i, funext hl]
  have part : ∀ (b : ℕ → Bool) (q : ℕ → Prop) (l1 l2 : ℕ → List ℝ), (∀ i, b i = decide (q i)) → (∀ i, l1 i = l2 i) →
      ((List.range n).filter b).map l1 = ((List.range n).filter fun i => decide (q i)).map l2 := by
    intro b q l1 l2 hp hl
    rw [funext hl, funext hp]
  obtain ⟨m, st, d, x0, y0, z0, w1, w2⟩ := a
  simp only at hs hv1 hv2
  have hd : dim = 1 ∨ dim = 2 ∨ dim = 3 := by omega
  unfold slice
  rw [show (singleFile dim os).dimension = some dim from rfl]
  simp only [Option.bind_eq_bind, Option.bind_some, hs, hx, hlen, hread _ hv1, hread _ hv2]
  constructor
  · intro hfit
    rcases hd with rfl | rfl | rfl <;> cases m <;> simp [Fits, Mode.axes] at hfit <;> by_cases d0 : d = 0 <;> simp [Mode.out1d, hy, hz, d0] <;>
      first
      | refine keep _ _ _ (fun i => ?_) fun i => ?_
        · simp [InSlice, Mode.axes, Fin.forall_fin_succ]
        · simp [sliceLine, entry, Mode.axes, axisName, Fin.sum_univ_three, Real.sqrt_sq_eq_abs]
      | refine part _ _ _ _ (fun i => ?_) fun i => ?_
        · simp [InSlice, Mode.axes, Fin.forall_fin_succ, entry, axisName, d0]
        · simp [sliceLine, entry, Mode.axes, axisName, Fin.sum_univ_three]
  · intro hfit
    rcases hd with rfl | rfl | rfl <;> cases m <;> simp [Fits, Mode.axes] at hfit <;> simp [Mode.out1d]

/-- A file made by the other tools has no attribute `dimension`: it can neither be sliced nor followed. -/
theorem C106_cut_violated {f : File} (h : (∃ o, IsCut o f) ∨ ∃ fuel fs, merge fuel fs = some f) (a : SliceArgs) (pid : Int) : slice f a = none ∧ trajectory f pid = none := by
  have : f.dimension = none := by
    rcases h with ⟨o, h, -⟩ | ⟨fuel, fs, h⟩
    · exact h
    · rw [merge, Option.map_eq_some_iff] at h
      obtain ⟨gs, -, rfl⟩ := h
      rfl
  unfold slice trajectory
  rw [this]
  exact ⟨rfl, rfl⟩

/-! ### Non-vacuity -/

/-- Two outputs of three particles, which change places. -/
def sample (base : ℕ) : List Output :=
  [⟨0, 0, 1, fun nm => if nm = "id" then [(base : ℝ), base + 1, base + 2] else [4, 5, 6]⟩, ⟨1, 10, 1, fun nm => if nm = "id" then [(base : ℝ) + 2, base, base + 1] else [7, 8, 9]⟩]

example : ∃ f, extract (singleFile 2 (sample 0)) none = some f ∧ IsCut ⟨1, 10, 1, fun nm => if nm = "id" then [((0 : ℕ) : ℝ) + 2, (0 : ℕ), (0 : ℕ) + 1] else [7, 8, 9]⟩ f ∧ (∃ p, start 2 f = some p ∧ p "vy" = [7, 8, 9]) ∧
    Io.findStep (stepIn f) 10 = none := by
  obtain ⟨f, h1, h2⟩ := (C106_extract 2 (sample 0)).2.2 (by simp [sample])
  obtain ⟨p, h3, h4, -⟩ := C106_start_partial (dim := 2) h2
  exact ⟨f, h1, h2, ⟨p, h3, h4 "vy" (by decide) (by decide) (by decide)⟩, C106_restart_violated h2 10⟩

example : ∃ rows, trajectory (singleFile 2 (sample 1)) 2 = some rows ∧ ∃ h : rows.length = 2, IsLine ((sample 1)[0]) 2 rows[0] ∧ IsLine ((sample 1)[1]) 2 rows[1] := by
  obtain ⟨rows, h1, h2, h3⟩ := C106_trajectory_partial (dim := 2) (n := 3) (os := sample 1) (by simp [sample]) (pid := 2)
    (by intro o ho nm; simp only [sample, List.mem_cons, List.not_mem_nil, or_false] at ho; rcases ho with rfl | rfl <;> simp only <;> split_ifs <;> rfl)
    (by intro o ho; simp only [sample, List.mem_cons, List.not_mem_nil, or_false] at ho; rcases ho with rfl | rfl <;> norm_num) (by decide) (by decide)
  exact ⟨rows, h1, h2, h3 0 (by simp [sample]), h3 1 (by simp [sample])⟩

example : trajectory (singleFile 2 (sample 0)) 0 = none ∧ trajectory (singleFile 2 (sample 0)) (3 : ℕ) = none := by
  refine C106_first_violated (by simp [sample]) fun o ho => ?_
  simp only [sample, List.mem_cons, List.not_mem_nil, or_false] at ho
  have e : (List.range 3).map (fun j : ℕ => (j : ℝ)) = [0, 1, 2] := by simp [List.range_succ]
  rw [e]
  rcases ho with rfl | rfl
  · norm_num
  · norm_num
    exact (List.Perm.swap (0 : ℝ) 2 [1]).trans ((List.Perm.swap (1 : ℝ) 2 []).cons 0)

/-- A file with the names the tool asks for. -/
def oldFile (N : ℕ) : File := ⟨none, (List.range N).zipIdx.map fun p => (p.2, ⟨fun _ => some [(p.1 : ℝ)], none, none, none⟩)⟩

example : ∃ f, merge 10 [oldFile 2, oldFile 3] = some f ∧ f.steps.length = 5 ∧ ∃ g, f.step 4 = some g ∧ g.data "x" = some [2] := by
  have hm : ∀ N, Mergeable (oldFile N) ((List.range N).map fun j : ℕ => ⟨fun _ => some [(j : ℝ)], none, none, none⟩) := by
    intro N
    refine ⟨fun k => ?_, fun g hg nm _ => ?_⟩
    · have := lookup_number ((List.range N).map fun j : ℕ => (⟨fun _ => some [(j : ℝ)], none, none, none⟩ : Group)) 0 k
      rw [if_pos (Nat.zero_le _), Nat.sub_zero, List.zipIdx_map, List.map_map] at this
      exact this
    · obtain ⟨j, _, rfl⟩ := List.mem_map.1 hg
      rfl
  obtain ⟨f, h1, h2, h3⟩ := C106_merge_partial (fuel := 10) (fs := [(oldFile 2, _), (oldFile 3, _)]) (fun p hp => by
      simp only [List.mem_cons, List.not_mem_nil, or_false] at hp
      rcases hp with rfl | rfl
      · exact hm 2
      · exact hm 3) (fun p hp => by
      simp only [List.mem_cons, List.not_mem_nil, or_false] at hp
      rcases hp with rfl | rfl <;> simp)
  refine ⟨f, h1, by rw [h2]; simp, ?_⟩
  obtain ⟨g, h4, h5⟩ := h3 4 (by simp)
  refine ⟨g, h4, (h5 "x" (by decide)).trans ?_⟩
  simp [List.range_succ]

/-- A slice along x through y = 5. -/
example : slice (singleFile 2 (sample 0)) ⟨.x, 0, 1 / 2, 0, 5, 0, "rho", "P"⟩ = some [[5, 5, 5]] := by
  classical
  have s1 : "y" ≠ "id" ∧ "x" ≠ "id" ∧ "rho" ≠ "id" ∧ "P" ≠ "id" := by decide
  have h := (C106_slice (dim := 2) (n := 3) (by decide) (by decide) (os := sample 0) (a := ⟨.x, 0, 1 / 2, 0, 5, 0, "rho", "P"⟩) (by simp [sample])
    (by intro nm; simp only [sample, List.getElem_cons_zero]; split_ifs <;> rfl) (by decide) (by decide)).1 (Or.inr (by decide))
  rw [h]
  have i0 : ¬InSlice 2 ⟨.x, 0, 1 / 2, 0, 5, 0, "rho", "P"⟩ (sample 0)[0] 0 := by norm_num [InSlice, Mode.axes, Fin.forall_fin_succ, entry, axisName, sample, s1, abs_lt]
  have i1 : InSlice 2 ⟨.x, 0, 1 / 2, 0, 5, 0, "rho", "P"⟩ (sample 0)[0] 1 := by norm_num [InSlice, Mode.axes, Fin.forall_fin_succ, entry, axisName, sample, s1]
  have i2 : ¬InSlice 2 ⟨.x, 0, 1 / 2, 0, 5, 0, "rho", "P"⟩ (sample 0)[0] 2 := by norm_num [InSlice, Mode.axes, Fin.forall_fin_succ, entry, axisName, sample, s1, abs_lt]
  rw [show List.range 3 = [0, 1, 2] from rfl]
  simp only [List.filter_cons, i0, i1, i2, decide_false, decide_true, List.filter_nil]
  norm_num [sliceLine, entry, Mode.axes, axisName, sample, s1]
  rw [if_neg (by decide)]; rfl

end FleCSPH.SnapshotTools
