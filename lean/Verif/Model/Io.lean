import Mathlib.Data.List.Basic
import Mathlib.Data.List.Infix
/-!
Model of input and output of particles, mpisph/io.h. A dataset is the list of its values; the collective operations are modelled by their results on all processes. Names of files are lists of
characters. Undefined behaviour (index outside a string, overflow of a buffer), a failed assertion and `FULLSTOP` are `none`. Integers are exact.
-/
namespace FleCSPH.Io

/-- `nparticlesproc` on input, io.h:793-797. -/
def share (n size rank : Nat) : Nat := if rank < n % size then n / size + 1 else n / size

/-- The offsets of `H5P_setNumParticles`, io.h:436-446: `offcount` after the insertion of the leading zero, without the last entry of the array (`offcount[size + 1]`), which is
not read; the first `size` entries are the offsets and the next one is the total. -/
def offcount (counts : List Nat) : List Nat := (counts.scanl (· + ·) 0)

/-- `IO_nparticles`, io.h:445. -/
def total (counts : List Nat) : Nat := (offcount counts).getD counts.length 0

/-- `IO_offset`, io.h:446. -/
def offset (counts : List Nat) (rank : Nat) : Nat := (offcount counts).getD rank 0

/-- What `H5P_readDataset` gives a process, io.h:255-292: the hyperslab of `IO_count` values from `IO_offset`. -/
def readSlab {α : Type} (file : List α) (counts : List Nat) (rank : Nat) : List α := (file.drop (offset counts rank)).take (counts.getD rank 0)

/-- All processes read a dataset, io.h:791-799, 844-858. -/
def readAll {α : Type} (file : List α) (size : Nat) : List (List α) :=
  let counts := (List.range size).map (share file.length size)
  (List.range size).map (readSlab file counts)

/-- A process writes its hyperslab, io.h:158-167. Values not yet written are `none`. -/
def writeSlab {α : Type} (file : List (Option α)) (off : Nat) (data : List α) : List (Option α) :=
  file.take off ++ data.map some ++ file.drop (off + data.length)

/-- `H5P_writeDataset` by all processes, in some order, io.h:136-176: the dataset is created with `IO_nparticles` values. -/
def writeAll {α : Type} (ranks : List (List α)) (order : List Nat) : List (Option α) :=
  let counts := ranks.map List.length
  order.foldl (fun f r => writeSlab f (offset counts r) (ranks.getD r [])) (List.replicate (total counts) none)

/-- The ids generated when the file has none, io.h:336-343, without the assertion. -/
def genIds (n size rank : Nat) : List Nat := (List.range (share n size rank)).map fun i => n / size * rank + 1 + i

/-- With the assertion of the last process, io.h:342-343; `back()` of an empty vector is undefined. -/
def readIds (n size rank : Nat) : Option (List Nat) :=
  if rank + 1 = size then
    match (genIds n size rank).getLast? with
    | none => none
    | some b => if n = b then some (genIds n size rank) else none
  else some (genIds n size rank)

/-- All processes. -/
def readAllIds (n size : Nat) : Option (List (List Nat)) := (List.range size).mapM (readIds n size)

/-- The decimal digits of a number, most significant first. -/
def decimal (n : Nat) : List Char := Nat.toDigits 10 n

/-- `%05d` of a number which is not negative. -/
def pad5 (n : Nat) : List Char := List.replicate (5 - (decimal n).length) '0' ++ decimal n

def suffix : List Char := ".h5part".toList

/-- `sprintf(filename, "%s_%05d.h5part", fileprefix, step)` with a buffer of 128 characters, io.h:891-893, 716-717. -/
def fileName (pre : List Char) (step : Nat) : Option (List Char) :=
  let name := pre ++ '_' :: pad5 step ++ suffix
  if name.length < 128 then some name else none

/-- `filename[i]` for an `int` index; reading the final zero is allowed. -/
def charAt (name : List Char) (i : Int) : Option Char := if i < 0 then none else if i = name.length then some '\x00' else name[i.toNat]?

def isDig (c : Char) : Bool := decide ('0' ≤ c) && decide (c ≤ '9')

/-- The loop over the five digits, io.h:487-494: `k` passes left, at index `i`. `some none` is `return -1`. -/
def digitsLoop (name : List Char) : Nat → Int → Nat → Nat → Option (Option Nat)
  | 0, _, snum, _ => some (some snum)
  | k + 1, i, snum, t =>
    match charAt name i with
    | none => none
    | some c => if isDig c then digitsLoop name k (i - 1) (snum + t * (c.toNat - '0'.toNat)) (t * 10) else some none

/-- `H5P_isPrefixSnapshot`, io.h:479-504; -1 is `some none`. `MAX_FNAME_LEN` is 256. -/
def isPrefixSnapshot (pre name : List Char) : Option (Option Nat) :=
  if pre <:+: name then
    if suffix <:+: name then
      let imx : Int := (name.length : Int) - 8
      let imn : Int := imx - 5
      match digitsLoop name 5 imx 0 1 with
      | none => none
      | some none => some none
      | some (some snum) =>
        match charAt name imn with
        | none => none
        | some c =>
          if c = '_' then
            if name.length < 256 then (if pre = name.take imn.toNat then some (some snum) else some none) else none
          else some none
    else some none
  else some none

/-- The loop of `H5P_findIterationSnapshot`, io.h:543-577, over the names of a directory in the order of `readdir`; `step` is the variable of the code. `iterationOf` is the attribute found in the
file of a step (`none`: the file is malformed, which stops the program). -/
def findLoop (pre : List Char) (iterationOf : Nat → Option Int) (iteration : Int) : List (List Char) → Int → Option Int
  | [], step => some step
  | name :: names, _ =>
    match isPrefixSnapshot pre name with
    | none => none
    | some none => findLoop pre iterationOf iteration names (-1)
    | some (some s) =>
      match iterationOf s with
      | none => none
      | some it => if it = iteration then some s else findLoop pre iterationOf iteration names s

/-- `H5P_findIterationSnapshot`, io.h:522-578, in an existing directory. -/
def findIteration (pre : List Char) (iterationOf : Nat → Option Int) (iteration : Int) (names : List (List Char)) : Option Int :=
  findLoop pre iterationOf iteration names (-1)

/-- A step of a single file: absent, or present with or without its attribute `iteration`. -/
inductive StepIn | absent | malformed | iteration (k : Int)

/-- The search in a single file, io.h:676-699: from step `s` on, `k` steps left; `none` is `FULLSTOP`. -/
def findStepLoop (file : Nat → StepIn) (iteration : Int) : Nat → Nat → Option Nat
  | 0, _ => none
  | k + 1, s =>
    match file s with
    | .absent => findStepLoop file iteration k (s + 1)
    | .malformed => none
    | .iteration it => if it = iteration then some s else findStepLoop file iteration k (s + 1)

/-- `maxstep`, io.h:677. -/
def maxstep : Nat := 1000000

def findStep (file : Nat → StepIn) (iteration : Int) : Option Nat := findStepLoop file iteration maxstep 0

/-- A file system: the names in each directory. Directories are of any type. -/
abbrev Files (D : Type) := D → List (List Char)

/-- `remove` of a name, which is relative to the working directory. -/
def Files.remove {D : Type} [DecidableEq D] (fs : Files D) (d : D) (name : List Char) : Files D := fun d' => if d' = d then (fs d').filter (· ≠ name) else fs d'

/-- The loop of `H5P_removePrefix`, io.h:613-625, on process 0, over the names listed in the directory of the prefix; the removal uses `dir->d_name`, without this directory. Simplification: the
listing is that of the beginning, although the loop removes files while it lists them. -/
def removeLoop {D : Type} [DecidableEq D] (cwd : D) (base : List Char) (threshold : Int) : List (List Char) → Files D → Option (Files D)
  | [], fs => some fs
  | name :: names, fs =>
    match isPrefixSnapshot base name with
    | none => none
    | some none => removeLoop cwd base threshold names fs
    | some (some k) => removeLoop cwd base threshold names (if (k : Int) > threshold then fs.remove cwd name else fs)

/-- `H5P_removePrefix` with separate files, io.h:602-626; `dir` and `base` are the directory and the name of the prefix. (-1 is never above the thresholds used, which are -1 and the number of a
step, so names which are not snapshots are skipped.) -/
def removePrefix {D : Type} [DecidableEq D] (cwd dir : D) (base : List Char) (threshold : Int) (fs : Files D) : Option (Files D) := removeLoop cwd base threshold (fs dir) fs

end FleCSPH.Io
