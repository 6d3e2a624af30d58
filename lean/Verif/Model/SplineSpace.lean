import Verif.Model.Spaces
import Verif.Model.BSpline
import Verif.Model.VertexFun
/-!
# Knots and B-splines of a space on a grid

The bases of `gsApproxC1Utils.cpp:21-306` as they are evaluated: `gsBSplineBasis` of the knot vector that has the first and the last point of the grid degree plus one times and the inner points with their multiplicities. G+Smo, assumed
as in `Model/BSpline.lean`: the functions are those of Cox and de Boor.
-/
set_option autoImplicit false
namespace Verif.Spaces
open Polynomial

/-- Number of the last knot at the point `i` or, if there is none, before it; the element that begins at the point `i` lies in the knot span that begins there. -/
def pos (k : Kv) : ℕ → ℕ
  | 0 => k.deg
  | i + 1 => pos k i + k.mult (i + 1)

/-- The point of the grid where the knot `j` lies. -/
def knotPt (k : Kv) : ℕ → ℕ → ℕ
  | 0, _ => 0
  | n + 1, j => if j ≤ pos k n then knotPt k n j else n + 1

/-- Knot `j` of the knot vector. -/
def knots (z : ℕ → ℝ) (n : ℕ) (k : Kv) (j : ℕ) : ℝ := z (knotPt k n j)

/-- Number of functions, `size()`. -/
def dim (n : ℕ) (k : Kv) : ℕ := pos k (n - 1) + 1

/-- The `j`-th function on the element `e`. -/
noncomputable def spl (z : ℕ → ℝ) (n : ℕ) (k : Kv) (j e : ℕ) : ℝ[X] := BSpline.bs (knots z n k) (pos k e) k.deg j

/-- The element of the grid in which a basis of G+Smo looks up a parameter: the last one that does not begin behind it. `eltAt z (n - 1)` for a grid with `n` elements. -/
noncomputable def eltAt (z : ℕ → ℝ) : ℕ → ℝ → ℕ
  | 0, _ => 0
  | n + 1, t => if z (n + 1) ≤ t then n + 1 else eltAt z n t

/-- Value of a function that is given by its polynomials on the elements. -/
noncomputable def val (z : ℕ → ℝ) (n : ℕ) (f : ℕ → ℝ[X]) (t : ℝ) : ℝ := (f (eltAt z (n - 1) t)).eval t

/-- `evalSingle_into(j, ·)`. -/
noncomputable def splVal (z : ℕ → ℝ) (n : ℕ) (k : Kv) (j : ℕ) : ℝ → ℝ := val z n (spl z n k j)

/-! ## The functions at a vertex on the whole patch

`gsVertexBasis::eval_into` (`gsApproxC1Utils.h:474-805`) for all parameters. In `Model/VertexFun.lean` the functions of the bases are taken on the first element only. The factors come from the derivatives at zero, i.e. from the first element. -/

open VertexFun (d0 dd0)

/-- `c_0`, `c_1`, `c_0_minus`, `c_1_minus` (`gsApproxC1Utils.h:513-539`). -/
noncomputable def e_0 (z : ℕ → ℝ) (n : ℕ) (k : Kv) (e : ℕ) : ℝ[X] := spl z n k 0 e + spl z n k 1 e
noncomputable def e_1 (z : ℕ → ℝ) (n : ℕ) (k : Kv) (e : ℕ) : ℝ[X] := C (1 / d0 (spl z n k 1 0)) * spl z n k 1 e

/-- `c_0_plus`, `c_1_plus`, `c_2_plus` (`gsApproxC1Utils.h:541-552`); their derivatives (`:554-556`) are computed from those of the functions of the basis. -/
noncomputable def e_0_plus (z : ℕ → ℝ) (n : ℕ) (k : Kv) (e : ℕ) : ℝ[X] := spl z n k 0 e + spl z n k 1 e + spl z n k 2 e
noncomputable def e_1_plus (z : ℕ → ℝ) (n : ℕ) (k : Kv) (e : ℕ) : ℝ[X] :=
  C (1 / d0 (spl z n k 1 0)) * spl z n k 1 e + C (-dd0 (spl z n k 1 0) / (d0 (spl z n k 1 0) * dd0 (spl z n k 2 0))) * spl z n k 2 e
noncomputable def e_2_plus (z : ℕ → ℝ) (n : ℕ) (k : Kv) (e : ℕ) : ℝ[X] := C (1 / dd0 (spl z n k 2 0)) * spl z n k 2 e
noncomputable def e_0_plus_deriv (z : ℕ → ℝ) (n : ℕ) (k : Kv) (e : ℕ) : ℝ[X] := derivative (spl z n k 0 e) + derivative (spl z n k 1 e) + derivative (spl z n k 2 e)
noncomputable def e_1_plus_deriv (z : ℕ → ℝ) (n : ℕ) (k : Kv) (e : ℕ) : ℝ[X] :=
  C (1 / d0 (spl z n k 1 0)) * derivative (spl z n k 1 e) + C (-dd0 (spl z n k 1 0) / (d0 (spl z n k 1 0) * dd0 (spl z n k 2 0))) * derivative (spl z n k 2 e)
noncomputable def e_2_plus_deriv (z : ℕ → ℝ) (n : ℕ) (k : Kv) (e : ℕ) : ℝ[X] := C (1 / dd0 (spl z n k 2 0)) * derivative (spl z n k 2 e)

/-- One direction: the grid, `m_basis.component(i)`, `m_basis_plus[i]`, `m_basis_minus[i]`, `m_kindOfEdge[i]` and the gluing data, which are splines. -/
structure Dir where
  z : ℕ → ℝ
  n : ℕ
  basis : Kv
  plus : Kv
  minus : Kv
  kind : Bool
  alpha : ℕ → ℝ[X]
  beta : ℕ → ℝ[X]

/-- The gluing data that are used (`gsApproxC1Utils.h:559-629`): one and zero if the edge is no interface. -/
noncomputable def Dir.al (d : Dir) (e : ℕ) : ℝ[X] := if d.kind then d.alpha e else 1
noncomputable def Dir.be (d : Dir) (e : ℕ) : ℝ[X] := if d.kind then d.beta e else 0

/-- The same as functions, with the derivatives at zero. -/
noncomputable def Dir.glue (d : Dir) : VertexFun.Glue := ⟨val d.z d.n d.al, val d.z d.n d.be, d0 (d.al 0), d0 (d.be 0)⟩

/-- `result` (`gsApproxC1Utils.h:779-801`) at the parameters `u`, `v`. -/
noncomputable def vertexVal {k : ℕ} (du dv : Dir) (geo : VertexFun.Geo k) (D : VertexFun.Data k) (u v : ℝ) : ℝ :=
  let m := VertexFun.dMinus geo du.glue D
  let p := VertexFun.dPlus geo dv.glue D
  let d := VertexFun.dIk geo D
  let U := fun (k : Kv) (f : (ℕ → ℝ) → ℕ → Kv → ℕ → ℝ[X]) => val du.z du.n (f du.z du.n k) u
  let V := fun (k : Kv) (f : (ℕ → ℝ) → ℕ → Kv → ℕ → ℝ[X]) => val dv.z dv.n (f dv.z dv.n k) v
  (m 0 * (U du.plus e_0_plus * V dv.basis e_0 - du.glue.beta u * (U du.plus e_0_plus_deriv * V dv.basis e_1))
    + m 1 * (U du.plus e_1_plus * V dv.basis e_0 - du.glue.beta u * (U du.plus e_1_plus_deriv * V dv.basis e_1))
    + m 2 * (U du.plus e_2_plus * V dv.basis e_0 - du.glue.beta u * (U du.plus e_2_plus_deriv * V dv.basis e_1))
    - m 3 * (du.glue.alpha u * (U du.minus e_0 * V dv.basis e_1))
    - m 4 * (du.glue.alpha u * (U du.minus e_1 * V dv.basis e_1)))
  + (p 0 * (V dv.plus e_0_plus * U du.basis e_0 - dv.glue.beta v * (V dv.plus e_0_plus_deriv * U du.basis e_1))
    + p 1 * (V dv.plus e_1_plus * U du.basis e_0 - dv.glue.beta v * (V dv.plus e_1_plus_deriv * U du.basis e_1))
    + p 2 * (V dv.plus e_2_plus * U du.basis e_0 - dv.glue.beta v * (V dv.plus e_2_plus_deriv * U du.basis e_1))
    + p 3 * (dv.glue.alpha v * (V dv.minus e_0 * U du.basis e_1))
    + p 4 * (dv.glue.alpha v * (V dv.minus e_1 * U du.basis e_1)))
  - (d 0 * (U du.basis e_0 * V dv.basis e_0) + d 2 * (U du.basis e_0 * V dv.basis e_1)
    + d 1 * (U du.basis e_1 * V dv.basis e_0) + d 3 * (U du.basis e_1 * V dv.basis e_1))

/-- `createVertexSpace` (`gsApproxC1Utils.cpp:226-306`) for one direction: `kind` says whether the edge is an interface. -/
def vertexSpace (kind : Bool) (n : ℕ) (geo basis : Kv) (pt rt : ℤ) : Option Kv := if kind then vertexIface n geo basis pt rt else vertexBdy n geo basis

/-! ## The functions of an edge on the whole patch -/

/-- `gsTraceBasis::eval_into` (`gsApproxC1Utils.h:292-317`) for all parameters: function `i` of the plus space, `d` is the direction along the edge, `zc`, `nc`, `b` are the grid and the basis across. The arguments are the parameters along and across the edge. -/
noncomputable def traceVal (d : Dir) (zc : ℕ → ℝ) (nc : ℕ) (b : Kv) (i : ℕ) (s r : ℝ) : ℝ :=
  let tau1 := knots zc nc b (b.deg + 1)
  let temp := val d.z d.n d.be s * val d.z d.n (fun e => derivative (spl d.z d.n d.plus i e)) s
  splVal d.z d.n d.plus i s * (splVal zc nc b 0 r + splVal zc nc b 1 r) - temp * splVal zc nc b 1 r * tau1 / b.deg

/-- `gsNormalDerivBasis::eval_into` (`gsApproxC1Utils.h:380-405`) for all parameters. -/
noncomputable def normalVal (uv : ℕ) (d : Dir) (zc : ℕ → ℝ) (nc : ℕ) (b : Kv) (i : ℕ) (s r : ℝ) : ℝ :=
  let tau1 := knots zc nc b (b.deg + 1)
  let sign : ℝ := if uv = 0 then -1 else 1
  if d.kind then sign * (val d.z d.n d.al s * (splVal d.z d.n d.minus i s * splVal zc nc b 1 r)) * tau1 / b.deg
  else sign * (val d.z d.n d.al s * (splVal d.z d.n d.minus i s * splVal zc nc b 1 r))

/-- The space of an edge, component along it (`createEdgeSpace`, `gsApproxC1Utils.cpp:137-224`, called in `gsApproxC1Spline.hpp:103-160`). -/
def edgeSpace (kind : Bool) (n : ℕ) (geo basis : Kv) (pt rt : ℤ) : Option Kv :=
  if kind then (interfaceSpaces n geo basis pt rt).map fun s => s.2.2.2
  else do
    let kp ← plus n geo basis
    let km ← minus n geo basis
    edgeBdy n geo basis kp km

end Verif.Spaces
