import Verif.Model.VertexFun
/-!
# All functions of the approximate C1 basis near a corner of a patch

The functions of `gsApproxC1Spline` that reach the element at a corner, before they are projected: six functions of the vertex (`Model/VertexFun.lean`), the trace and derivative functions of
the two edges (`Model/EdgeFun.lean`), the functions of the interior. The corner is at the parameter `(0,0)`, edge `u` is `v = 0`, edge `v` is `u = 0`. All indices are counted from the corner.
Simplifications: the bases have so many elements that functions of the other corners and edges do not reach the element; the functions along an edge counted from this corner are the B-splines
of an open knot vector that starts at the corner (for knots that are not symmetric the code does not turn the bases around, C57).
-/
set_option autoImplicit false
namespace Verif.C1Corner
open Verif.BSpline Verif.EdgeFun Verif.VertexFun Polynomial

/-- The two edges at the corner: bases, whether the edge is an interface (`kindOfEdge`, `!isBoundary`), gluing data, and the direction `uv` of the edge on the rotated patch on which its
functions are computed (`gsApproxC1Edge.hpp:57`: `1` on the first patch, `0` on the second). -/
structure Corner where
  bu : Bases
  bv : Bases
  ku : Bool
  kv : Bool
  gu : Glue
  gv : Glue
  su : ℕ
  sv : ℕ

/-- `bfID_init` of the trace functions (`gsApproxC1Edge.hpp:117-118`): the first three functions of the plus space belong to the vertex. -/
def firstPlus : ℕ := 3
/-- `bfID_init` of the derivative functions (`gsApproxC1Edge.hpp:148-149`). -/
def firstMinus : ℕ := 2
/-- The functions of the interior begin with the third in both directions (`gsApproxC1Spline.hpp:276-288`). -/
def firstInner : ℕ := 2

/-- A function of one edge at the parameters along and across the edge, for both values of `uv`. -/
def onEdge (uv : ℕ) (f : ℝ → ℝ → ℝ) (along across : ℝ) : ℝ := if uv = 0 then f along across else f across along

/-- The trace function with trace `n` and the derivative function with derivative `m` (`gsApproxC1Edge.hpp:112-176`); `c` is the basis across the edge. -/
noncomputable def tracePoly (uv : ℕ) (inter : Bool) (n : ℝ[X]) (c : Comp) (g : Glue) (along across : ℝ) : ℝ :=
  onEdge uv (traceBasis uv (!inter) c g.beta (fun x => n.eval x) (fun x => (derivative n).eval x)) along across
noncomputable def normalPoly (uv : ℕ) (inter : Bool) (m : ℝ[X]) (c : Comp) (g : Glue) (along across : ℝ) : ℝ :=
  onEdge uv (normalDerivBasis uv (!inter) c g.alpha (fun x => m.eval x)) along across

/-- Trace function `i` and derivative function `j` of an edge on its first element; `b` are the bases along the edge. -/
noncomputable def traceFun (uv : ℕ) (inter : Bool) (b : Bases) (c : Comp) (g : Glue) (i : ℕ) (along across : ℝ) : ℝ := tracePoly uv inter (Bf b.plus i) c g along across
noncomputable def normalFun (uv : ℕ) (inter : Bool) (b : Bases) (c : Comp) (g : Glue) (j : ℕ) (along across : ℝ) : ℝ := normalPoly uv inter (Bf b.minus j) c g along across

/-- Function `bf` of the vertex (`gsApproxC1Vertex.h:275-325`). -/
noncomputable def Corner.vertexF {k : ℕ} (c : Corner) (geo : Geo k) (D : Data k) (u v : ℝ) : ℝ :=
  vertexFun c.bu c.bv (edgeGlue c.ku c.gu) (edgeGlue c.kv c.gv) geo D u v

/-- A function of the interior: a tensor product of functions of the basis of the patch (`gsApproxC1Spline.hpp:276-288`). -/
noncomputable def Corner.innerF (c : Corner) (i j : ℕ) (u v : ℝ) : ℝ := c.bu.geo.eval i u * c.bv.geo.eval j v

/-- Coefficients of all functions near the corner. -/
structure Coefs where
  vertex : Fin 6 → ℝ
  traceU : ℕ → ℝ
  normalU : ℕ → ℝ
  traceV : ℕ → ℝ
  normalV : ℕ → ℝ
  inner : ℕ → ℕ → ℝ

/-- The combination on the element at the corner; B-splines with an index larger than the degree vanish there. -/
noncomputable def Corner.comb {k : ℕ} (c : Corner) (geo : Geo k) (D : Fin 6 → Data k) (x : Coefs) (u v : ℝ) : ℝ :=
  ∑ bf : Fin 6, x.vertex bf * c.vertexF geo (D bf) u v
  + (∑ i ∈ Finset.Ico firstPlus (c.bu.plus.p + 1), x.traceU i * traceFun c.su c.ku c.bu c.bv.geo c.gu i u v
    + ∑ j ∈ Finset.Ico firstMinus (c.bu.minus.p + 1), x.normalU j * normalFun c.su c.ku c.bu c.bv.geo c.gu j u v)
  + (∑ i ∈ Finset.Ico firstPlus (c.bv.plus.p + 1), x.traceV i * traceFun c.sv c.kv c.bv c.bu.geo c.gv i v u
    + ∑ j ∈ Finset.Ico firstMinus (c.bv.minus.p + 1), x.normalV j * normalFun c.sv c.kv c.bv c.bu.geo c.gv j v u)
  + ∑ i ∈ Finset.Ico firstInner (c.bu.geo.p + 1), ∑ j ∈ Finset.Ico firstInner (c.bv.geo.p + 1), x.inner i j * c.innerF i j u v

/-- The functions of an edge on element `ℓp` of the plus space, which is element `ℓm` of the minus space; `pl`, `mi` are knots and degree of the two spaces. -/
noncomputable def edgeComb (uv : ℕ) (inter : Bool) (pl mi : Comp) (ℓp ℓm : ℕ) (c : Comp) (g : Glue) (a e : ℕ → ℝ) (along across : ℝ) : ℝ :=
  ∑ i ∈ Finset.Icc (ℓp - pl.p) ℓp, a i * tracePoly uv inter (bs pl.t ℓp pl.p i) c g along across
    + ∑ j ∈ Finset.Icc (ℓm - mi.p) ℓm, e j * normalPoly uv inter (bs mi.t ℓm mi.p j) c g along across

/-- The functions of the interior on element `(ℓu, ℓv)`. -/
noncomputable def innerComb (bu bv : Comp) (ℓu ℓv : ℕ) (x : ℕ → ℕ → ℝ) (u v : ℝ) : ℝ :=
  ∑ i ∈ Finset.Icc (ℓu - bu.p) ℓu, ∑ j ∈ Finset.Icc (ℓv - bv.p) ℓv, x i j * ((bs bu.t ℓu bu.p i).eval u * (bs bv.t ℓv bv.p j).eval v)

end Verif.C1Corner
