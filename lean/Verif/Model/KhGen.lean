import Mathlib.Analysis.SpecialFunctions.Pow.Real
import Mathlib.Analysis.SpecialFunctions.Trigonometric.Basic
import Verif.Model.Lattice
/-!
Model of the generator of Kelvin-Helmholtz initial data, app/id_generators/KH/main.cc, in two dimensions and with its three blocks, their adjustment to the periodic box, the lattice loops (`Lattice`), the
stretching and the fields of the particles. Numbers are real numbers. Left out: `equal_mass` switched off (the program stops, 63-69), the suggested time step, the smoothing lengths, the calls of HDF5.
-/
namespace FleCSPH.KhGen
noncomputable section
open FleCSPH.Lattice

/-- The parameters read by the generator; `nx` is `lattice_nx`. -/
structure Params where
  box_length : ℝ
  box_width : ℝ
  box_height : ℝ
  nx : ℕ
  lattice_type : Int
  density_ratio : ℝ
  rho_initial : ℝ
  pressure_initial : ℝ
  flow_velocity : ℝ
  poly_gamma : ℝ
  KH_A : ℝ
  KH_lambda : ℝ

variable (P : Params)

/-- `sph_separation`, `sph_sep_t`, KH/main.cc:109, 120. -/
def sep : ℝ := P.box_length / P.nx
def sepT : ℝ := sep P * √P.density_ratio

/-- `rho_t`, `rho_m`, KH/main.cc:91, 95. -/
def rhoT : ℝ := P.rho_initial
def rhoM : ℝ := rhoT P * P.density_ratio

/-- `pmass` before the stretching, KH/main.cc:117-119. -/
def pmass0 : ℝ := rhoM P * sep P * sep P * if P.lattice_type = 1 ∨ P.lattice_type = 2 then √3 / 2 else 1

/-- `dy` and `dY` of a block with separation `s`, KH/main.cc:125-165: the distance of rows and the period in `y`. -/
def dy (s : ℝ) : ℝ := if P.lattice_type = 1 ∨ P.lattice_type = 2 then s * (√3 / 2) else s
def dY (s : ℝ) : ℝ := if P.lattice_type = 1 ∨ P.lattice_type = 2 then 2 * dy P s else s

/-- `w_m`, KH/main.cc:168. -/
def wM : ℝ := ⌊P.box_width / (3 * dY P (sep P))⌋ * dY P (sep P)

/-- `gap`, KH/main.cc:173. -/
def gap : ℝ := min (dY P (sep P)) (dY P (sepT P)) / 2

/-- `w_t`, KH/main.cc:174. -/
def wT : ℝ := ⌊(P.box_width / 2 - wM P / 2 - gap P) / dY P (sepT P)⌋ * dY P (sepT P)

/-- `Nx_t`, KH/main.cc:181. -/
def nxT : Int := ⌊P.box_length / sepT P + 1 / 10⌋

/-- The share of a separation which is left free at the lower end of a block in `x`, KH/main.cc:182-197. -/
def margin : ℝ := if P.lattice_type = 0 then 1 / 2 else 1 / 4

/-- `mbox_min`, `mbox_max`, KH/main.cc:169-170, 183-184, 191-192. -/
def mLo : Pos := ⟨-P.box_length / 2 + sep P * margin P, -(1 / 2) * wM P, 0⟩
def mHi : Pos := ⟨P.box_length / 2, 1 / 2 * wM P + 1 / 100 * dy P (sep P), 0⟩
/-- `tbox_min`, `tbox_max`, KH/main.cc:175-176, 187-188, 195-196. -/
def tLo : Pos := ⟨-nxT P * sepT P / 2 + sepT P * margin P, 1 / 2 * wM P + gap P, 0⟩
def tHi : Pos := ⟨nxT P * sepT P / 2, 1 / 2 * wM P + gap P + wT P, 0⟩
/-- `bbox_min`, `bbox_max`, KH/main.cc:177-178, 185-186, 193-194. -/
def bLo : Pos := ⟨-nxT P * sepT P / 2 + sepT P * margin P, -(1 / 2) * wM P - gap P - wT P, 0⟩
def bHi : Pos := ⟨nxT P * sepT P / 2, -(1 / 2) * wM P - gap P + 1 / 100 * dy P (sepT P), 0⟩

/-- What is known after the lattices are generated: `np_middle`, `np_top`, `np_bottom` and the arrays `x`, `y`, `z`. -/
structure Blocks where
  middle : ℕ
  top : ℕ
  bottom : ℕ
  pos : ℕ → Pos

/-- Counting (KH/main.cc:216-223) and generating (289-295) the three blocks; a failing assertion (296) is `none`. The three calls in `make_tuple` may be made in any order, they write to different entries. -/
def blocks (fuel : ℕ) : Option Blocks := do
  let zero : ℕ → Pos := fun _ => ⟨0, 0, 0⟩
  let gen := fun c lo hi s n pos => generate2 fuel c P.lattice_type 0 lo hi s ⟨n, pos⟩
  let cm ← gen true (mLo P) (mHi P) (sep P) 0 zero
  let npm := cm.posid
  let ct ← gen true (tLo P) (tHi P) (sepT P) npm zero
  let npt := ct.posid - npm
  let cb ← gen true (bLo P) (bHi P) (sepT P) (npm + npt) zero
  let npb := cb.posid - (npm + npt)
  let n := npm + npb + npt
  let gm ← gen false (mLo P) (mHi P) (sep P) 0 zero
  let gt ← gen false (tLo P) (tHi P) (sepT P) npm gm.pos
  let gb ← gen false (bLo P) (bHi P) (sepT P) (n - npb) gt.pos
  if npm = gm.posid ∧ npt = gt.posid - npm ∧ npb = gb.posid - (n - npb) then some ⟨npm, npt, npb, gb.pos⟩ else none

/-- `yx_stretch` and `yz_stretch`, KH/main.cc:299-300; in two dimensions `h_t = h_m = box_height` (200). -/
def yxStretch : ℝ := ⌊P.box_length / sepT P + 1 / 10⌋ * sepT P / P.box_length
def yzStretch : ℝ := P.box_height / P.box_height

/-- The first stretching of one particle of the outer blocks, KH/main.cc:301-310. -/
def stretchOuter (p : Pos) : Pos :=
  let y0 := wM P / 2 + gap P
  ⟨p.x / yxStretch P, if p.y > 0 then y0 + yxStretch P * yzStretch P * (p.y - y0) else -y0 + yxStretch P * yzStretch P * (p.y + y0), p.z⟩

/-- All stretching, KH/main.cc:298-323, and the positions afterwards. `none`: the first particle of the bottom block, whose `y` is read at 319, does not exist. The second component is `y_stretch`. -/
def stretched (b : Blocks) : Option ((ℕ → Pos) × ℝ) :=
  let pos1 := fun i => if b.middle ≤ i ∧ i < b.middle + b.bottom + b.top then stretchOuter P (b.pos i) else b.pos i
  if b.bottom = 0 then none
  else
    let ys := 1 / 2 * P.box_width / |(pos1 (b.middle + b.top)).y|
    some (fun i => ⟨(pos1 i).x, (pos1 i).y * ys, (pos1 i).z⟩, ys)

/-- The fields of a particle in the file. -/
structure Particle where
  x : ℝ
  y : ℝ
  vx : ℝ
  vy : ℝ
  rho : ℝ
  P : ℝ
  u : ℝ
  m : ℝ

open Classical in
/-- `vy` with the perturbation, KH/main.cc:359-365. -/
def perturbation (x y : ℝ) : ℝ :=
  let vy := 0
  let vy := if y < 1 / 4 ∧ y > 1 / 4 - 25 / 1000 then P.KH_A * Real.sin (-2 * Real.pi * (x + 1 / 2) / P.KH_lambda) else vy
  if y > -(1 / 4) ∧ y < -(1 / 4) + 25 / 1000 then P.KH_A * Real.sin (2 * Real.pi * (x + 1 / 2) / P.KH_lambda) else vy

/-- The body of the loop over the particles, KH/main.cc:343-375, with the states of the blocks from 91-97; the masses of 350 and 356 are overwritten in 371. -/
def particle (b : Blocks) (pos : ℕ → Pos) (ys : ℝ) (part : ℕ) : Particle :=
  let rho := if part < b.middle then rhoM P else rhoT P
  let p := P.pressure_initial
  { x := (pos part).x
    y := (pos part).y
    vx := if part < b.middle then P.flow_velocity / 2 else -P.flow_velocity / 2
    vy := perturbation P (pos part).x (pos part).y
    rho := rho
    P := p
    u := p / (P.poly_gamma - 1) / rho
    m := pmass0 P * ys }

/-- The generator: the particles in the order of the file. -/
def generate (fuel : ℕ) : Option (List Particle) := do
  let b ← blocks P fuel
  let (pos, ys) ← stretched P b
  return (List.range (b.middle + b.bottom + b.top)).map (particle P b pos ys)

end
end FleCSPH.KhGen
