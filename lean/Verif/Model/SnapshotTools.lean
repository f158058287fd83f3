import Mathlib.Data.Real.Sqrt
import Verif.Model.Io
/-!
Model of the files of snapshots as they are in HDF5 (groups `/Step#k` with attributes and data sets) and of the tools which read them: tools/combine_H5part_iterations.py, tools/extract_h5part_iteration.py,
tools/extract_particle.py and tools/h5part_ascii_slicer.py. Data sets are lists of numbers; integers are taken as real numbers. The file names, the question before a file is overwritten and the format of the printed numbers are left out.
-/
namespace FleCSPH.SnapshotTools

/-- A group `/Step#k`: its data sets and the three attributes io.h knows. -/
structure Group where
  data : String → Option (List ℝ)
  time : Option ℝ
  iteration : Option Int
  timestep : Option ℝ

/-- A file: the attribute `dimension` and the groups with their numbers. -/
structure File where
  dimension : Option ℕ
  steps : List (ℕ × Group)

/-- The group `/Step#k`. -/
def File.step (f : File) (k : ℕ) : Option Group := f.steps.lookup k

/-- The data sets written by `outputDataHDF5`, io.h:945-1070 (with `INTERNAL_ENERGY`). -/
def written : List String :=
  ["x", "y", "z", "vx", "vy", "vz", "ax", "ay", "az", "gradV", "h", "rho", "u", "P", "m", "dt", "traceSS", "id", "type", "alpha", "divergenceV", "dDivVdt", "trigger", "xi", "state", "rank", "neighbors"]

/-- What one call of `outputDataHDF5` is to write. -/
structure Output where
  time : ℝ
  iteration : Int
  timestep : ℝ
  field : String → List ℝ

/-- The group of one call, io.h:911-1070. -/
def group (o : Output) : Group := ⟨fun nm => if nm ∈ written then some (o.field nm) else none, some o.time, some o.iteration, some o.timestep⟩

/-- The file after the calls `os` with `out_h5data_separate_iterations` off, io.h:882, 895-911: the steps are numbered from 0. -/
def singleFile (dim : ℕ) (os : List Output) : File := ⟨some dim, os.zipIdx.map fun p => (p.2, group p.1)⟩

/-- The files after the calls `os` with `out_h5data_separate_iterations` on, io.h:882, 893-911: the file of the call `k` has the group `/Step#k`. -/
def separateFiles (dim : ℕ) (os : List Output) : List File := os.zipIdx.map fun p => ⟨some dim, [(p.2, group p.1)]⟩

/-- Copying data sets into a new group without attributes; `none`: one is missing (`KeyError`). combine_H5part_iterations.py:36-66, extract_h5part_iteration.py:66-98. -/
def copy (names : List String) (g : Group) : Option Group :=
  if ∀ nm ∈ names, (g.data nm).isSome then some ⟨fun nm => if nm ∈ names then g.data nm else none, none, none, none⟩ else none

/-- The names in combine_H5part_iterations.py:37-66. -/
def mergeNames : List String := ["P", "x", "y", "z", "vx", "vy", "vz", "ax", "ay", "az", "density", "mass", "h", "u", "id"]

/-- The loop over the steps of one file, combine_H5part_iterations.py:31-69, from `in_step` on; `out` are the groups written. `none`: a `KeyError`, or not ended after `fuel` rounds. -/
def mergeLoop (f : File) : ℕ → ℕ → List Group → Option (List Group)
  | 0, _, _ => none
  | fuel + 1, k, out =>
    match f.step k with
    | none => some out
    | some g => (copy mergeNames g).bind fun g' => mergeLoop f fuel (k + 1) (out ++ [g'])

/-- The loop over the files, combine_H5part_iterations.py:24-71. -/
def mergeFiles (fuel : ℕ) : List File → List Group → Option (List Group)
  | [], out => some out
  | f :: fs, out => (mergeLoop f fuel 0 out).bind fun out => mergeFiles fuel fs out

/-- combine_H5part_iterations.py:20-74. -/
def merge (fuel : ℕ) (fs : List File) : Option File := (mergeFiles fuel fs []).map fun gs => ⟨none, gs.zipIdx.map fun p => (p.2, p.1)⟩

/-- The names in extract_h5part_iteration.py:67-98. -/
def extractNames : List String := ["P", "x", "y", "z", "vx", "vy", "vz", "ax", "ay", "az", "rho", "m", "h", "u", "type", "id"]

/-- extract_h5part_iteration.py:40-101; `none` for the step is `--last`. (For a file without groups the tool looks for `Step#-1`, here for 0, both are not there.) -/
def extract (f : File) (step : Option ℕ) : Option File :=
  let k := match step with
    | none => f.steps.length - 1
    | some k => k
  ((f.step k).bind (copy extractNames)).map fun g => ⟨none, [(0, g)]⟩

/-- The data sets read by `inputDataHDF5`, io.h:376-422 and 845-860. -/
def readNames (dim : ℕ) : List String :=
  ["x"] ++ (if 1 < dim then ["y"] else []) ++ (if 2 < dim then ["z"] else []) ++ ["vx"] ++ (if 1 < dim then ["vy"] else []) ++ (if 2 < dim then ["vz"] else []) ++
    ["m", "rho", "h", "P", "u", "id", "dt", "type", "state"]

/-- `inputDataHDF5` on one process with `startIteration` 0, io.h:657-660, 785-860: data sets which are missing are zero (312), identifiers which are missing are numbered from 1 (337). `none`: no step, no positions,
or another dimension (809). -/
def start (dim : ℕ) (f : File) : Option (String → List ℝ) :=
  if f.dimension = none ∨ f.dimension = some dim then
    (f.step 0).bind fun g => (g.data "x").map fun x nm =>
      if nm ∈ readNames dim then (g.data nm).getD (if nm = "id" then (List.range x.length).map fun j : ℕ => (j : ℝ) + 1 else List.replicate x.length 0) else []
  else none

/-- What the search for an iteration sees in a step of a single file, io.h:679-689. -/
def stepIn (f : File) (k : ℕ) : Io.StepIn :=
  match f.step k with
  | none => .absent
  | some g => match g.iteration with
    | none => .malformed
    | some it => .iteration it

/-- A line printed by extract_particle.py:90-94: iteration, time, the numbers of `rowNames`, place in the arrays. -/
structure Row where
  iteration : Int
  time : ℝ
  values : List ℝ
  pnum : ℕ

/-- extract_particle.py:67-88. -/
def rowNames : List String := ["x", "y", "z", "rho", "P", "u", "vx", "vy", "vz", "ax", "ay", "az", "h", "m", "dt", "rank", "type"]

open Classical in
/-- The body of the loop, extract_particle.py:61-94, with arrays of length `n` (`read_direct` fails for data of another length). -/
noncomputable def row (n : ℕ) (pid : Int) (g : Group) : Option Row := do
  let tm ← g.time
  let it ← g.iteration
  let ids ← g.data "id"
  let pn ← if ids.length = n then ids.findIdx? (fun x => decide (x = (pid : ℝ))) else none
  let values ← rowNames.mapM fun nm => (g.data nm).bind fun l => if l.length = n then l[pn]? else none
  return ⟨it, tm, values, pn⟩

/-- extract_particle.py:33-94. The first key is the first group. (`dimension` must be there, `ndim` is never written.) -/
noncomputable def trajectory (f : File) (pid : Int) : Option (List Row) := do
  let _ ← f.dimension
  let g ← f.steps.head?
  let x ← g.2.data "x"
  if pid < 1 ∨ (x.length : Int) < pid then none
  else (List.range f.steps.length).mapM fun k => (f.step k).bind (row x.length pid)

/-- The options `-x`, `-y`, `-z`, `-r`, `-xy`, `-yz`, `-xz`, of which one is given, h5part_ascii_slicer.py:60-61. -/
inductive Mode | x | y | z | r | xy | yz | xz
  deriving DecidableEq

/-- The other options. -/
structure SliceArgs where
  mode : Mode
  step : ℕ
  d : ℝ
  x0 : ℝ
  y0 : ℝ
  z0 : ℝ
  var1 : String
  var2 : String

/-- `out1d`, h5part_ascii_slicer.py:64. -/
def Mode.out1d : Mode → Bool
  | .x | .y | .z | .r => true
  | _ => false

/-- `read_direct` into an array of length `n`. -/
def readArray (n : ℕ) (g : Group) (nm : String) : Option (List ℝ) := (g.data nm).bind fun l => if l.length = n then some l else none

open Classical in
/-- The lines printed, h5part_ascii_slicer.py:72-232; `none`: an error message or a missing data set. -/
noncomputable def slice (f : File) (a : SliceArgs) : Option (List (List ℝ)) := do
  let ndim ← f.dimension
  if ndim = 1 ∧ (a.mode = .y ∨ a.mode = .z) then none
  else if ndim = 2 ∧ a.mode = .z then none
  else if ndim = 1 ∧ a.mode.out1d = false then none
  else if ndim = 2 ∧ (a.mode = .yz ∨ a.mode = .xz) then none
  else
    let g ← f.step a.step
    let x ← g.data "x"
    let n := x.length
    let y ← if ndim > 1 then readArray n g "y" else some []
    let z ← if ndim > 2 then readArray n g "z" else some []
    let var1 ← readArray n g a.var1
    let var2 ← readArray n g a.var2
    let X := fun i => x.getD i 0
    let Y := fun i => y.getD i 0
    let Z := fun i => z.getD i 0
    let v := fun i => [var1.getD i 0, var2.getD i 0]
    let all := fun (line : ℕ → List ℝ) => (List.range n).map fun i => line i ++ v i
    let only := fun (p : ℕ → Prop) (line : ℕ → List ℝ) => ((List.range n).filter fun i => decide (p i)).map fun i => line i ++ v i
    match a.mode with
    | .r =>
      if ndim = 1 then return all fun i => [|X i|]
      else if ndim = 2 then return all fun i => [√(X i ^ 2 + Y i ^ 2)]
      else if ndim = 3 then return all fun i => [√(X i ^ 2 + Y i ^ 2 + Z i ^ 2)]
      else return []
    | .x =>
      if a.d = 0 ∨ ndim = 1 then return all fun i => [X i]
      else if ndim = 2 then return only (fun i => |Y i - a.y0| < a.d) fun i => [X i]
      else return only (fun i => |Y i - a.y0| < a.d ∧ |Z i - a.z0| < a.d) fun i => [X i]
    | .y =>
      if a.d = 0 ∨ ndim = 1 then return all fun i => [Y i]
      else if ndim = 2 then return only (fun i => |X i - a.x0| < a.d) fun i => [Y i]
      else return only (fun i => |X i - a.x0| < a.d ∧ |Z i - a.z0| < a.d) fun i => [Y i]
    | .z =>
      if a.d = 0 ∨ ndim = 1 then return all fun i => [Z i]
      else return only (fun i => |X i - a.x0| < a.d ∧ |Y i - a.y0| < a.d) fun i => [Z i]
    | .xy =>
      if a.d = 0 ∨ ndim = 2 then return all fun i => [X i, Y i]
      else return only (fun i => |Z i - a.z0| < a.d) fun i => [X i, Y i]
    | .yz =>
      if a.d = 0 ∨ ndim = 2 then return all fun i => [Y i, Z i]
      else return only (fun i => |X i - a.x0| < a.d) fun i => [Y i, Z i]
    | .xz =>
      if a.d = 0 ∨ ndim = 2 then return all fun i => [X i, Z i]
      else return only (fun i => |Y i - a.y0| < a.d) fun i => [X i, Z i]

end FleCSPH.SnapshotTools
