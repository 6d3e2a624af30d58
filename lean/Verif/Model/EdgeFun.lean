import Verif.Model.BSpline
import Mathlib.Data.Matrix.Mul
import Mathlib.Data.Fin.VecNotation
import Mathlib.LinearAlgebra.Matrix.Determinant.Basic
import Mathlib.LinearAlgebra.Matrix.Notation
import Mathlib.Analysis.Real.Sqrt
/-!
# The functions at an interface

`gsAlpha`, `gsBeta`, `gsTraceBasis`, `gsNormalDerivBasis` of `gsApproxC1Utils.h` and the right-hand sides of `gsC1SurfVisitorBasisEdge.h`, as functions of the two parameters, before
they are projected to the spline space. Over ℝ. `uv` is the direction along the interface: `1` on the first patch (interface at `u = 0`), `0` on the second (interface at `v = 0`).
Parameters: the spline of the gluing data, the function `n` of the plus space with derivative `dn`, the function `m` of the minus space (all along the interface), knots and degree of the
component across the interface. The functions of that component are evaluated by their polynomials on the first element.
-/
set_option autoImplicit false
namespace Verif.EdgeFun
open Verif.BSpline Polynomial

/-- `ev.determinant()`, the planar case of `gsAlpha::eval_into` (`gsApproxC1Utils.h:84-98`); `du`, `dv` are the columns of the Jacobian matrix. -/
def alphaPlanar (du dv : Fin 2 → ℝ) : ℝ := Matrix.det !![du 0, dv 0; du 1, dv 1]

/-- Surface case of `gsAlpha::eval_into` (`gsApproxC1Utils.h:99-139`). The rows of `ev` are the derivatives of the three components, first by `u`, then by `v`. -/
noncomputable def alphaSurface (uv : ℕ) (du dv : Fin 3 → ℝ) : ℝ :=
  let ev : Fin 6 → ℝ := ![du 0, dv 0, du 1, dv 1, du 2, dv 2]
  let n0 := ev 2 * ev 5 - ev 4 * ev 3
  let n1 := ev 4 * ev 1 - ev 0 * ev 5
  let n2 := ev 0 * ev 3 - ev 2 * ev 1
  let duv : Fin 3 → ℝ := if uv = 0 then ![ev 0, ev 2, ev 4] else ![ev 1, ev 3, ev 5]
  let d0 : Matrix (Fin 3) (Fin 3) ℝ :=
    if uv = 0 then !![duv 0, ev 1, n0; duv 1, ev 3, n1; duv 2, ev 5, n2]
    else !![ev 0, duv 0, n0; ev 2, duv 1, n1; ev 4, duv 2, n2]
  1 / Real.sqrt (duv ⬝ᵥ duv) * Real.sqrt (d0.det)

/-- `gsBeta::eval_into` (`gsApproxC1Utils.h:187-229`); both cases are equal. -/
noncomputable def betaGeo {k : ℕ} (uv : ℕ) (du dv : Fin k → ℝ) : ℝ :=
  let d0 := if uv = 0 then du else dv
  let d1 := 1 / Real.sqrt (d0 ⬝ᵥ d0);
  -1 * d1 * d1 * (dv ⬝ᵥ du)

/-- Knots and degree of the component across the interface (`m_basis.component(1-m_uv)`, `basis_geo`). -/
structure Comp where
  t : ℕ → ℝ
  p : ℕ

/-- `evalSingle_into(i, ·)` on the first element. -/
noncomputable def Comp.eval (b : Comp) (i : ℕ) (x : ℝ) : ℝ := (N b.t b.p i).eval x

/-- `gsTraceBasis::eval_into` (`gsApproxC1Utils.h:292-317`). -/
noncomputable def traceBasis (uv : ℕ) (isBoundary : Bool) (b : Comp) (beta n dn : ℝ → ℝ) (u v : ℝ) : ℝ :=
  let along := if uv = 0 then u else v
  let across := if uv = 0 then v else u
  let tau1 := b.t (b.p + 1)
  let be := if isBoundary then 0 else beta along
  let temp := be * dn along
  n along * (b.eval 0 across + b.eval 1 across) - temp * b.eval 1 across * tau1 / b.p

/-- `gsNormalDerivBasis::eval_into` (`gsApproxC1Utils.h:380-405`). -/
noncomputable def normalDerivBasis (uv : ℕ) (isBoundary : Bool) (b : Comp) (alpha m : ℝ → ℝ) (u v : ℝ) : ℝ :=
  let along := if uv = 0 then u else v
  let across := if uv = 0 then v else u
  let tau1 := b.t (b.p + 1)
  let al := if isBoundary then 1 else alpha along
  let sign : ℝ := if uv = 0 then -1 else 1
  if isBoundary then sign * (al * (m along * b.eval 1 across))
  else sign * (al * (m along * b.eval 1 across)) * tau1 / b.p

/-- `"plus"` of `gsC1SurfVisitorBasisEdge::evaluate` (`gsC1SurfVisitorBasisEdge.h:71-101`, `:120-139`): here the knot is `knots().at(p + 2)`. -/
noncomputable def surfPlus (uv : ℕ) (isBoundary : Bool) (b : Comp) (beta n dn : ℝ → ℝ) (u v : ℝ) : ℝ :=
  let along := if uv = 0 then u else v
  let across := if uv = 0 then v else u
  let tau1 := b.t (b.p + 2)
  let be := if isBoundary then 0 else beta along
  let temp := be * b.eval 1 across
  n along * (b.eval 0 across + b.eval 1 across) - temp * dn along * tau1 / b.p

/-- `"minus"` (`gsC1SurfVisitorBasisEdge.h:107-116`, `:145-154`): without the factor `tau_1 / p`. -/
noncomputable def surfMinus (uv : ℕ) (isBoundary : Bool) (b : Comp) (alpha m : ℝ → ℝ) (u v : ℝ) : ℝ :=
  let along := if uv = 0 then u else v
  let across := if uv = 0 then v else u
  let al := if isBoundary then 1 else alpha along
  if uv = 0 then -(al * (m along * b.eval 1 across)) else al * (m along * b.eval 1 across)

/-- Matrix and right-hand side of the projection to the spline space (`gsApproxC1Edge.hpp:95-140`, `gsApproxC1Vertex.h:275-325`, `gsC1SurfVisitorBasisEdge.h:161-178`): `B` are the functions that are
not eliminated (`markBoundary`; the eliminated ones get the coefficient zero), `q` the quadrature points, `w` the weights times the measure. -/
def projMat {ι κ : Type} [Fintype κ] (B : ι → κ → ℝ) (w : κ → ℝ) (i j : ι) : ℝ := ∑ q, w q * (B i q * B j q)
def projRhs {ι κ : Type} [Fintype κ] (B : ι → κ → ℝ) (w : κ → ℝ) (f : κ → ℝ) (i : ι) : ℝ := ∑ q, w q * (B i q * f q)

end Verif.EdgeFun
