import Mathlib.Analysis.SpecialFunctions.Complex.Arg
/-!
Model of tools/starID_tools/make_binary_system.py, which makes the initial data of a binary system out of the files of one or two stars. The rows of the arrays are records, numbers are real numbers; the printed messages, the removal of
an old output file and the search for the last step of the file are left out. `none` is a Python exception: the script ends in the middle, and the output file has not got all its data sets.
-/
namespace FleCSPH.BinaryTool

/-- One particle of a file of a star: the data sets which are used, make_binary_system.py:77-90, 106-119. -/
structure Row where
  x : ℝ
  y : ℝ
  z : ℝ
  vx : ℝ
  vy : ℝ
  vz : ℝ
  m : ℝ
  rho : ℝ
  P : ℝ
  h : ℝ

/-- The file of a star: its particles, and whether it has a data set `type` (make_binary_system.py:93-96, 120). The energies `u` are opened (lines 90, 119) and not used. -/
structure Star where
  rows : List Row
  hasType : Bool

/-- The options of the command, make_binary_system.py:35-44. -/
structure Options where
  ident : Bool
  pm : ℝ
  orbsep : ℝ
  pmd : ℝ
  pmh : ℝ
  pmu : ℝ
  pmp : ℝ
  dir2 : ℤ

/-- The file which is written: the particles without energies (make_binary_system.py:168-210), the data sets `u`, `id` and `state`. The accelerations and types are left out. -/
structure Binary where
  rows : List Row
  u : List ℝ
  id : List ℕ
  state : List ℕ

/-- `sum(dsetM[()])`, make_binary_system.py:98, 127. -/
noncomputable def total (s : List Row) : ℝ := (s.map Row.m).sum

/-- `omega`, make_binary_system.py:151, 259. -/
noncomputable def omega (G M sep : ℝ) : ℝ := Real.sqrt (G * M / sep ^ 3)

/-- `np.arctan2(y, x)`. -/
noncomputable def arctan2 (y x : ℝ) : ℝ := Complex.arg ⟨x, y⟩

/-- A particle moved to `(X, Y)`, with the velocity of the star `(vx, vy)` and that of the orbit, make_binary_system.py:160-165, 269-274, 345-349. -/
noncomputable def orbit (w X Y vx vy : ℝ) (p : Row) : Row :=
  let R := Real.sqrt (X * X + Y * Y)
  let O := arctan2 Y X
  { p with x := X, y := Y, vx := vx - w * R * Real.sin O, vy := vy + w * R * Real.cos O }

/-- A particle of the first star, make_binary_system.py:155, 157, 162, 164. -/
noncomputable def first (w off : ℝ) (p : Row) : Row := orbit w (p.x - off) p.y p.vx p.vy p

/-- A particle of the second star, with `orient2` (−1 for an identical star), make_binary_system.py:156, 158, 163, 165; 265, 267, 272, 274. -/
noncomputable def second (w off dir : ℝ) (p : Row) : Row := orbit w (dir * p.x + off) p.y (dir * p.vx) p.vy p

/-- `3./2.*tempP*tempM/tempD` of three arrays, make_binary_system.py:218, 327, 401. -/
noncomputable def energies (P M D : List ℝ) : List ℝ := List.zipWith (fun pm d => pm / d) (List.zipWith (fun p m => 3 / 2 * p * m) P M) D

/-- The script, make_binary_system.py:98-411: `s` is the first file, `s2` the second if there is one, `G` is `G_newt`. The variables `dsetP2`, `dsetM2`, `dsetD2` are bound if there is a second file; without one, line 322 reads `dsetP2`
which is not bound, and raises. -/
noncomputable def make (G : ℝ) (a : Options) (s : Star) (s2 : Option Star) : Option Binary :=
  let M := total s.rows
  let dsetP2 := s2.map fun t => t.rows.map Row.P
  let dsetM2 := s2.map fun t => t.rows.map Row.m
  let dsetD2 := s2.map fun t => t.rows.map Row.rho
  if a.orbsep = -1 then none
  else match s2 with
  | some t =>
    if !s.hasType then none
    else
      let M2 := total t.rows
      let w := omega G (M + M2) a.orbsep
      dsetP2.bind fun P2 => dsetM2.bind fun m2 => dsetD2.bind fun D2 =>
        some
          { rows := s.rows.map (first w (a.orbsep * M2 / (M + M2))) ++ t.rows.map (second w (a.orbsep * M / (M + M2)) a.dir2)
            u := energies (s.rows.map Row.P ++ P2) (s.rows.map Row.m ++ m2) (s.rows.map Row.rho ++ D2)
            id := List.range (s.rows.length + t.rows.length)
            state := List.replicate s.rows.length 1 ++ List.replicate t.rows.length 2 }
  | none =>
    if a.ident then
      let M2 := M
      let w := omega G (M + M2) a.orbsep
      dsetP2.bind fun P2 => dsetM2.bind fun m2 => dsetD2.bind fun D2 =>
        some
          { rows := s.rows.map (first w (a.orbsep * M2 / (M + M2))) ++ s.rows.map (second w (a.orbsep * M / (M + M2)) (-1))
            u := energies (s.rows.map Row.P ++ P2) (s.rows.map Row.m ++ m2) (s.rows.map Row.rho ++ D2)
            id := List.range (2 * s.rows.length)
            state := List.replicate s.rows.length 1 ++ List.replicate s.rows.length 2 }
    else
      let M2 := a.pm
      let w := omega G (M + M2) a.orbsep
      let X := a.orbsep * M / (M + M2)
      some
        { rows := s.rows.map (first w (a.orbsep * M2 / (M + M2))) ++ [⟨X, 0, 0, 0, w * X, 0, M2, a.pmd, a.pmp, a.pmh⟩]
          u := energies (s.rows.map Row.P) (s.rows.map Row.m) (s.rows.map Row.rho) ++ [a.pmu]
          id := List.range (s.rows.length + 1)
          state := List.replicate s.rows.length 1 ++ List.replicate s.rows.length 3 }

end FleCSPH.BinaryTool
