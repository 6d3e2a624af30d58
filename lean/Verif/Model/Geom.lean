import Mathlib.LinearAlgebra.Matrix.NonsingularInverse
import Mathlib.LinearAlgebra.CrossProduct
import Mathlib.Analysis.SpecialFunctions.Trigonometric.Inverse
/-!
# Geometry at extraordinary vertices: rotations and the enclosing triangle

Scalars are real (no rounding); the tolerances of the assertions (`1e-14`, `1e-12`) become equalities. A failing assertion or a read of a matrix
that was never assigned is the outcome `none`.
-/
set_option autoImplicit false
noncomputable section
namespace Verif.Geom
open Matrix

abbrev V3 := Fin 3 → ℝ
abbrev M3 := Matrix (Fin 3) (Fin 3) ℝ

/-- Eigen `norm()`. -/
def nrm (v : V3) : ℝ := Real.sqrt (v ⬝ᵥ v)
/-- Eigen `normalized()` / `normalize()`: a zero vector is left unchanged. -/
def unit (v : V3) : V3 := if nrm v = 0 then v else (1 / nrm v) • v

/-- The matrix `vx` of `gsAlmostC1.hpp:240-242`. -/
def skew (v : V3) : M3 := !![0, -v 2, v 1; v 2, 0, -v 0; -v 1, v 0, 0]

/-- The matrix assembled by `_getRotationMatrix`, `gsAlmostC1.hpp:230-249`. -/
def rotMat (a b : V3) : M3 :=
  let v := unit (a ⨯₃ b)
  let theta := Real.arccos (a ⬝ᵥ b / (nrm a * nrm b))
  Real.cos theta • (1 : M3) + Real.sin theta • skew v + (1 - Real.cos theta) • vecMulVec v v

open Classical in
/-- `gsAlmostC1::_getRotationMatrix(a,b)`, `gsAlmostC1.hpp:224-253`, with its three assertions. -/
def rot (a b : V3) : Option M3 :=
  if nrm a = 1 ∧ nrm b = 1 then
    if rotMat a b *ᵥ a = b then some (rotMat a b) else none
  else none

def ex : V3 := ![1, 0, 0]
def ez : V3 := ![0, 0, 1]

/-- `row(2).setZero()`. -/
def flat (v : V3) : V3 := ![v 0, v 1, 0]

open Classical in
/-- The loop of `gsAlmostC1.hpp:157-166`: largest distance and the first point attaining it (`none`: `umax` never assigned). -/
def farthest (up : List V3) : ℝ × Option V3 :=
  up.foldl (fun acc p => if nrm p > acc.1 then (nrm p, some p) else acc) (0, none)

/-- Step 4, `gsAlmostC1.hpp:130-151`, first part: the rotation of the average normal to the z axis; `none` as argument: planar
target (`targetDim()==2`, identity). The argument of `some` is the average normal. -/
def normalRot : Option V3 → Option M3
  | none => some 1
  | some n => rot (unit n) ez

/-- Step 4, second part: the points in the coordinate system of the tangent plane. -/
def toPlane (normal : Option V3) (Rn : M3) (up : List V3) : List V3 :=
  match normal with
  | none => up
  | some _ => up.map fun p => flat (Rn *ᵥ p)

/-- Step 7, `gsAlmostC1.hpp:178-185`: the triangle enclosing the circle of radius `r`, as columns. -/
def corners (r : ℝ) : Fin 3 → ℝ × ℝ :=
  let a := 1 / (1 / 6 * Real.sqrt 3) * r
  let rr := 1 / 3 * Real.sqrt 3 * a
  ![(rr, 0), (-r, 1 / 2 * a), (-r, -(1 / 2) * a)]

/-- The matrix `A` of step 8, `gsAlmostC1.hpp:190-192`. -/
def baryMat (r : ℝ) : M3 := fun i j => if i = 0 then (corners r j).1 else if i = 1 then (corners r j).2 else 1

/-- Step 8, `gsAlmostC1.hpp:188-198`: barycentric coordinates of a point; `up.row(2).setOnes()`, the exact solution stands for
the Householder solver. -/
def bary (r : ℝ) (p : V3) : V3 := (baryMat r)⁻¹ *ᵥ ![p 0, p 1, 1]

/-- Step 9, `gsAlmostC1.hpp:201-210`: corners of the triangle in physical coordinates. -/
def physical (Rn Rx : M3) (mid : V3) (r : ℝ) (k : Fin 3) : V3 :=
  Rnᵀ *ᵥ (Rxᵀ *ᵥ ![(corners r k).1, (corners r k).2, 0]) + mid

/-- `_makeTriangle`, `gsAlmostC1.hpp:86-222`, for midpoint `mid` and control points `us` (evaluation of the patches and collection of the
control points are G+Smo); returns the corners `Cg` and the barycentric coordinates `ub` of the points. For planar targets the third
coordinate of all vectors is zero. -/
def makeTriangle (normal : Option V3) (mid : V3) (us : List V3) : Option ((Fin 3 → V3) × List V3) := do
  let Rn ← normalRot normal
  let up := toPlane normal Rn (us.map fun u => u - mid)
  let umax ← (farthest up).2
  let r := (farthest up).1
  let Rx ← rot (unit umax) ex
  let up' := up.map fun p => Rx *ᵥ p
  pure (physical Rn Rx mid r, up'.map (bary r))

/-! ## The rotation of `gsApproxC1Vertex` / `gsC1SurfVertex` -/

/-- The matrix `R` of `gsApproxC1Vertex.h:94-127` and `gsC1SurfVertex.h:638-669` for the normal `n` (not normalised) and the z axis. -/
def surfRot (n : V3) : M3 :=
  let rv := n ⨯₃ ez
  let c := n ⬝ᵥ ez / (nrm n * nrm ez)
  let s := nrm rv / (nrm n * nrm ez)
  !![c + rv 0 * rv 0 * (1 - c), rv 0 * rv 1 * (1 - c) - rv 2 * s, rv 0 * rv 2 * (1 - c) + rv 1 * s;
     rv 0 * rv 1 * (1 - c) + rv 2 * s, c + rv 1 * rv 1 * (1 - c), rv 1 * rv 2 * (1 - c) - rv 0 * s;
     rv 0 * rv 2 * (1 - c) - rv 1 * s, rv 1 * rv 2 * (1 - c) + rv 0 * s, c + rv 2 * rv 2 * (1 - c)]

end Verif.Geom
end
