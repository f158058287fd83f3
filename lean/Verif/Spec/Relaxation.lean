import Verif.Model.WvtForces
import Verif.Lemmas.Kernels
/-! What the pseudo-accelerations of a relaxation should be: a specification in terms of lengths and unit vectors. -/
namespace FleCSPH.Spec
open FleCSPH.Geometry FleCSPH.Kernels FleCSPH.Wvt
open FleCSPH.Sph (Particle)
noncomputable section

/-- Euclidean length. -/
def length {d : Nat} (x : Point d) : ℝ := √(∑ j, x j ^ 2)

/-- The unit vector along `x`; the zero vector for `x = 0`. -/
def unit {d : Nat} (x : Point d) : Point d := fun j => x j / length x

/-- The image of a point `y` other than the centre by reflection in the sphere of radius `b`: on the same ray, as far beyond the sphere as `y` is before it. -/
def image {d : Nat} (b : ℝ) (y : Point d) : Point d := fun j => (2 * b - length y) * unit y j

/-- Diehl et al. 2015: an inverse square law, softened at small distances, and shifted so that it vanishes at distance `h`. -/
def diehlLaw (h r : ℝ) : ℝ := max ((h / (r + 3 / 10 * h)) ^ 2 - (1 / (1 + 3 / 10)) ^ 2) 0

/-- The splines and the Wendland kernels; the kernel is used by one of the two methods only. -/
def Usable (p : Forces) : Prop := p.method = .arth → Poly p.kernel

/-- How hard a neighbour at distance `r` pushes. -/
def weight (m : Method) (κ : Kernel) (i : Fin 3) (ha hb r : ℝ) : ℝ :=
  match m with
  | .diehl => ha * diehlLaw ((ha + hb) / 2) r
  | .arth => ((ha + hb) / 2) ^ (i + 2 : ℕ) * kernel κ i r ((ha + hb) / 2)

/-- How hard the image of a neighbour at distance `r` pushes. -/
def imageWeight (m : Method) (κ : Kernel) (i : Fin 3) (ha hb r : ℝ) : ℝ :=
  match m with
  | .diehl => ha * diehlLaw ha r
  | .arth => ha ^ (i + 2 : ℕ) * kernel κ i r ((ha + hb) / 2)

/-- The sum of the pushes of the neighbours. -/
def pushes (m : Method) (κ : Kernel) (i : Fin 3) (a : Particle (i + 1)) (nbs : List (Particle (i + 1))) : Point (i + 1) :=
  (nbs.map fun nb j => weight m κ i a.h nb.h (length fun k => a.pos k - nb.pos k) * unit (fun k => a.pos k - nb.pos k) j).sum

/-- The push of the image of a neighbour which is at `y` and has smoothing length `hb`. -/
def imagePush (m : Method) (κ : Kernel) (i : Fin 3) (b : ℝ) (a : Particle (i + 1)) (y : Point (i + 1)) (hb : ℝ) : Point (i + 1) :=
  fun j => imageWeight m κ i a.h hb (length fun k => a.pos k - image b y k) * unit (fun k => a.pos k - image b y k) j

open Classical in
/-- The sum of the pushes of the images of the neighbours in the sphere. -/
def imagePushes (m : Method) (κ : Kernel) (i : Fin 3) (b : ℝ) (a : Particle (i + 1)) (nbs : List (Particle (i + 1))) : Point (i + 1) :=
  ((nbs.filter fun nb => length nb.pos < b).map fun nb => imagePush m κ i b a nb.pos nb.h).sum

/-- The part of `v` orthogonal to `x`. -/
def tangential {d : Nat} (x v : Point d) : Point d := fun j => v j - (∑ k, unit x k * v k) * unit x j

end
end FleCSPH.Spec
