import Verif.Model.EdgeFun
/-!
# The functions at a vertex

`gsVertexBasis::eval_into` of `gsApproxC1Utils.h:474-805` and the right-hand sides of `gsC1SurfVisitorBasisVertex.h:53-346`, as functions of the two parameters, before they are projected to
the spline space. Over ℝ. The vertex is at the parameter `(0,0)`; direction `0` is `u`, direction `1` is `v`. Parameters: Jacobian matrix and second derivatives of the patch at the vertex, the
gluing data of both edges (`Model/Gluing.lean` for the linear ones), knots and degrees of the three pairs of bases. The functions of the bases are evaluated by their polynomials on the first element.
-/
set_option autoImplicit false
namespace Verif.VertexFun
open Verif.BSpline Verif.EdgeFun Polynomial

/-- `evalSingle_into(i, ·)` and `derivSingle_into(i, ·)`, `deriv2Single_into(i, ·)` on the first element. -/
noncomputable def Bf (b : Comp) (i : ℕ) : ℝ[X] := N b.t b.p i
noncomputable def d0 (f : ℝ[X]) : ℝ := (derivative f).eval 0
noncomputable def dd0 (f : ℝ[X]) : ℝ := (derivative (derivative f)).eval 0

/-- `c_0` and `c_1` (`gsApproxC1Utils.h:513-534`); with the minus basis also `c_0_minus` and `c_1_minus` (`:537-539`). -/
noncomputable def c_0 (b : Comp) : ℝ[X] := Bf b 0 + Bf b 1
noncomputable def c_1 (b : Comp) : ℝ[X] := C (1 / d0 (Bf b 1)) * Bf b 1

/-- `c_0_plus`, `c_1_plus`, `c_2_plus` (`gsApproxC1Utils.h:541-552`). -/
noncomputable def c_0_plus (b : Comp) : ℝ[X] := Bf b 0 + Bf b 1 + Bf b 2
noncomputable def c_1_plus (b : Comp) : ℝ[X] := C (1 / d0 (Bf b 1)) * Bf b 1 + C (-dd0 (Bf b 1) / (d0 (Bf b 1) * dd0 (Bf b 2))) * Bf b 2
noncomputable def c_2_plus (b : Comp) : ℝ[X] := C (1 / dd0 (Bf b 2)) * Bf b 2

/-- `c_0_plus_deriv`, `c_1_plus_deriv`, `c_2_plus_deriv` (`gsApproxC1Utils.h:554-556`). -/
noncomputable def c_0_plus_deriv (b : Comp) : ℝ[X] := derivative (Bf b 0) + derivative (Bf b 1) + derivative (Bf b 2)
noncomputable def c_1_plus_deriv (b : Comp) : ℝ[X] :=
  C (1 / d0 (Bf b 1)) * derivative (Bf b 1) + C (-dd0 (Bf b 1) / (d0 (Bf b 1) * dd0 (Bf b 2))) * derivative (Bf b 2)
noncomputable def c_2_plus_deriv (b : Comp) : ℝ[X] := C (1 / dd0 (Bf b 2)) * derivative (Bf b 2)

/-- The bases of one direction: `m_basis.component(i)`, `m_basis_plus[i]`, `m_basis_minus[i]`. -/
structure Bases where
  geo : Comp
  plus : Comp
  minus : Comp

/-- `alpha`, `beta` of one edge with their derivatives at zero. -/
structure Glue where
  alpha : ℝ → ℝ
  beta : ℝ → ℝ
  dalpha : ℝ
  dbeta : ℝ

/-- The gluing data of an edge: one and zero if the edge is no interface (`gsApproxC1Utils.h:559-629`). -/
def edgeGlue (kindOfEdge : Bool) (g : Glue) : Glue := if kindOfEdge then g else ⟨fun _ => 1, fun _ => 0, 0, 0⟩

/-- The gluing data of an edge in `gsC1SurfVisitorBasisVertex.h:190-207`: linear functions with coefficients in column `dir` of `gluingData`. -/
def surfGlue (gluingData : ℕ → ℕ → ℝ) (dir : ℕ) : Glue where
  alpha x := gluingData 0 dir * (1 - x) + gluingData 1 dir * x
  beta x := gluingData 2 dir * (1 - x) + gluingData 3 dir * x
  dalpha := gluingData 1 dir - gluingData 0 dir
  dbeta := gluingData 3 dir - gluingData 2 dir

/-- Jacobian matrix (columns `u`, `v`) and second derivatives (for every component three rows: `uu`, `vv`, `uv`) of the patch at the vertex. -/
structure Geo (k : ℕ) where
  jac : Fin k → Fin 2 → ℝ
  der2 : ℕ → ℝ

variable {k : ℕ}

/-- `geo_jac.col(0)`, `geo_jac.col(1)`. -/
def Geo.u (g : Geo k) (i : Fin k) : ℝ := g.jac i 0
def Geo.v (g : Geo k) (i : Fin k) : ℝ := g.jac i 1
/-- `geo_deriv2_11`, `geo_deriv2_12`, `geo_deriv2_22` (`gsApproxC1Utils.h:645-658`). -/
def Geo.uu (g : Geo k) (i : Fin k) : ℝ := g.der2 (3 * i)
def Geo.uv (g : Geo k) (i : Fin k) : ℝ := g.der2 (3 * i + 2)
def Geo.vv (g : Geo k) (i : Fin k) : ℝ := g.der2 (3 * i + 1)

/-- `dd_ik_minus`, `dd_ik_plus` (`gsApproxC1Utils.h:639-643`). -/
noncomputable def ddMinus (geo : Geo k) (gu : Glue) (i : Fin k) : ℝ := -1 / gu.alpha 0 * (geo.v i + gu.beta 0 * geo.u i)
noncomputable def ddPlus (geo : Geo k) (gv : Glue) (i : Fin k) : ℝ := 1 / gv.alpha 0 * (geo.u i + gv.beta 0 * geo.v i)

/-- `dd_ik_minus_deriv`, `dd_ik_plus_deriv` (`gsApproxC1Utils.h:660-673`). -/
noncomputable def ddMinusDeriv (geo : Geo k) (gu : Glue) (i : Fin k) : ℝ :=
  -1 / (gu.alpha 0 * gu.alpha 0) * ((geo.uv i + (gu.dbeta * geo.u i + gu.beta 0 * geo.uu i)) * gu.alpha 0 - (geo.v i + gu.beta 0 * geo.u i) * gu.dalpha)
noncomputable def ddPlusDeriv (geo : Geo k) (gv : Glue) (i : Fin k) : ℝ :=
  1 / (gv.alpha 0 * gv.alpha 0) * ((geo.uv i + (gv.dbeta * geo.v i + gv.beta 0 * geo.vv i)) * gv.alpha 0 - (geo.u i + gv.beta 0 * geo.v i) * gv.dalpha)

/-- The ways in which the code combines `m_Phi` with vectors, for one `m_bfID`. -/
structure Data (k : ℕ) where
  /-- `m_Phi.col(0)` -/
  value : ℝ
  /-- `m_Phi.block(1, 0, targetDim, 6).transpose() * z` -/
  first : (Fin k → ℝ) → ℝ
  /-- the sums of second derivatives -/
  second : (Fin k → ℝ) → (Fin k → ℝ) → (Fin k → ℝ) → ℝ

/-- Planar patches (`gsApproxC1Utils.h:676-679`, `:694-697` and the same expressions below). -/
noncomputable def dataPlanar (Phi : ℕ → ℕ → ℝ) (bfID : ℕ) : Data 2 where
  value := Phi bfID 0
  first z := ∑ i : Fin 2, Phi (1 + i) bfID * z i
  second x y w := (x 0 * Phi bfID 3 + x 1 * Phi bfID 4) * y 0 + (x 0 * Phi bfID 4 + x 1 * Phi bfID 5) * y 1 + Phi bfID 1 * w 0 + Phi bfID 2 * w 1

/-- Surface patches (`gsApproxC1Utils.h:676-679`, `:683-688` and the same expressions below). -/
noncomputable def dataSurface (Phi : ℕ → ℕ → ℝ) (bfID : ℕ) : Data 3 where
  value := Phi bfID 0
  first z := ∑ i : Fin 3, Phi (1 + i) bfID * z i
  second x y w := (x 0 * Phi 4 bfID + x 1 * Phi 7 bfID + x 2 * Phi 10 bfID) * y 0 + (x 0 * Phi 5 bfID + x 1 * Phi 8 bfID + x 2 * Phi 11 bfID) * y 1
    + (x 0 * Phi 6 bfID + x 1 * Phi 9 bfID + x 2 * Phi 12 bfID) * y 2 + Phi 1 bfID * w 0 + Phi 2 bfID * w 1 + Phi 3 bfID * w 2

/-- `gsC1SurfVisitorBasisVertex.h:252` reads the value from row 0 instead of column 0, everything else is equal (`:254-346`). -/
noncomputable def dataPlanar' (Phi : ℕ → ℕ → ℝ) (bfID : ℕ) : Data 2 := { dataPlanar Phi bfID with value := Phi 0 bfID }
noncomputable def dataSurface' (Phi : ℕ → ℕ → ℝ) (bfID : ℕ) : Data 3 := { dataSurface Phi bfID with value := Phi 0 bfID }

/-- `Phi` for planar patches (`gsApproxC1Vertex.h:70-77`, `gsC1SurfVertex.h:595-602`). -/
def phiPlanar (sigma : ℝ) (r c : ℕ) : ℝ :=
  if r = c then (if c = 1 ∨ c = 2 then sigma else if c = 3 ∨ c = 4 ∨ c = 5 then sigma * sigma else 1) else 0

/-- `Phi` for surfaces (`gsApproxC1Vertex.h:143-151`, `gsC1SurfVertex.h:685-693`). -/
def phiSurface (sigma : ℝ) (r c : ℕ) : ℝ :=
  if (r, c) = (0, 0) then 1 else if (r, c) = (1, 1) ∨ (r, c) = (2, 2) then sigma
  else if (r, c) = (4, 3) ∨ (r, c) = (5, 4) ∨ (r, c) = (7, 4) ∨ (r, c) = (8, 5) then sigma * sigma else 0

/-- `d_ik` (`gsApproxC1Utils.h:675-698`). -/
def dIk (geo : Geo k) (D : Data k) : Fin 4 → ℝ := ![D.value, D.first geo.u, D.first geo.v, D.second geo.u geo.v geo.uv]

/-- `d_ilik_minus` (`gsApproxC1Utils.h:701-738`). -/
noncomputable def dMinus (geo : Geo k) (gu : Glue) (D : Data k) : Fin 5 → ℝ :=
  ![D.value, D.first geo.u, D.second geo.u geo.u geo.uu, D.first (ddMinus geo gu), D.second geo.u (ddMinus geo gu) (ddMinusDeriv geo gu)]

/-- `d_ilik_plus` (`gsApproxC1Utils.h:740-776`). -/
noncomputable def dPlus (geo : Geo k) (gv : Glue) (D : Data k) : Fin 5 → ℝ :=
  ![D.value, D.first geo.v, D.second geo.v geo.v geo.vv, D.first (ddPlus geo gv), D.second geo.v (ddPlus geo gv) (ddPlusDeriv geo gv)]

/-- `result` (`gsApproxC1Utils.h:779-801`, `gsC1SurfVisitorBasisVertex.h:349-372`). -/
noncomputable def vertexFun (bu bv : Bases) (gu gv : Glue) (geo : Geo k) (D : Data k) (u v : ℝ) : ℝ :=
  let m := dMinus geo gu D
  let p := dPlus geo gv D
  let d := dIk geo D
  (m 0 * ((c_0_plus bu.plus).eval u * (c_0 bv.geo).eval v - gu.beta u * ((c_0_plus_deriv bu.plus).eval u * (c_1 bv.geo).eval v))
    + m 1 * ((c_1_plus bu.plus).eval u * (c_0 bv.geo).eval v - gu.beta u * ((c_1_plus_deriv bu.plus).eval u * (c_1 bv.geo).eval v))
    + m 2 * ((c_2_plus bu.plus).eval u * (c_0 bv.geo).eval v - gu.beta u * ((c_2_plus_deriv bu.plus).eval u * (c_1 bv.geo).eval v))
    - m 3 * (gu.alpha u * ((c_0 bu.minus).eval u * (c_1 bv.geo).eval v))
    - m 4 * (gu.alpha u * ((c_1 bu.minus).eval u * (c_1 bv.geo).eval v)))
  + (p 0 * ((c_0_plus bv.plus).eval v * (c_0 bu.geo).eval u - gv.beta v * ((c_0_plus_deriv bv.plus).eval v * (c_1 bu.geo).eval u))
    + p 1 * ((c_1_plus bv.plus).eval v * (c_0 bu.geo).eval u - gv.beta v * ((c_1_plus_deriv bv.plus).eval v * (c_1 bu.geo).eval u))
    + p 2 * ((c_2_plus bv.plus).eval v * (c_0 bu.geo).eval u - gv.beta v * ((c_2_plus_deriv bv.plus).eval v * (c_1 bu.geo).eval u))
    + p 3 * (gv.alpha v * ((c_0 bv.minus).eval v * (c_1 bu.geo).eval u))
    + p 4 * (gv.alpha v * ((c_1 bv.minus).eval v * (c_1 bu.geo).eval u)))
  - (d 0 * ((c_0 bu.geo).eval u * (c_0 bv.geo).eval v) + d 2 * ((c_0 bu.geo).eval u * (c_1 bv.geo).eval v)
    + d 1 * ((c_1 bu.geo).eval u * (c_0 bv.geo).eval v) + d 3 * ((c_1 bu.geo).eval u * (c_1 bv.geo).eval v))

end Verif.VertexFun
