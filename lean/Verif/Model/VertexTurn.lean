import Verif.Model.VertexFun
import Verif.Model.Geom
/-!
# The patches of a surface at a vertex, turned so that the tangent plane is horizontal

`gsApproxC1Vertex` (`gsApproxC1Vertex.h:78-155`) multiplies all control points around a vertex of a surface with one matrix, computed from the first patch, and then uses the first two coordinates
only. Control points enter the functions at the vertex through the derivatives of the patches; these are linear in the control points, so the matrix acts on them.
-/
set_option autoImplicit false
namespace Verif.VertexTurn
open Verif.VertexFun Verif.EdgeFun Matrix

variable {k : ℕ}

/-- The patch with all coordinates mapped by `L`: component `n / 3` of the derivatives number `n % 3` (`gsApproxC1Vertex.h:129-141`: `(row(i) - row(0)) * R.transpose() + row(0)`). -/
def mapGeo (L : Matrix (Fin k) (Fin k) ℝ) (g : Geo k) : Geo k where
  jac i j := ∑ m, L i m * g.jac m j
  der2 n := if h : n / 3 < k then ∑ m : Fin k, L ⟨n / 3, h⟩ m * g.der2 (3 * m + n % 3) else 0

/-- `n` (`gsApproxC1Vertex.h:92-97`). -/
def normal (g : Geo 3) : Geom.V3 :=
  ![g.jac 1 0 * g.jac 2 1 - g.jac 2 0 * g.jac 1 1, g.jac 2 0 * g.jac 0 1 - g.jac 0 0 * g.jac 2 1, g.jac 0 0 * g.jac 1 1 - g.jac 1 0 * g.jac 0 1]

/-- `rotPatch` (`gsApproxC1Vertex.h:128-141`): `first` is patch 0 of the patches around the vertex. -/
noncomputable def rotGeo (first g : Geo 3) : Geo 3 := mapGeo (Geom.surfRot (normal first)) g

/-- One function at the vertex on all patches `p` around it (`gsApproxC1Vertex.h:162-330`). -/
noncomputable def vertexTuple {ι : Type} (bu bv : ι → Bases) (gu gv : ι → Glue) (geo : ι → Geo k) (D : Data k) : ι → ℝ → ℝ → ℝ :=
  fun p => vertexFun (bu p) (bv p) (gu p) (gv p) (geo p) D

/-- The six functions of a surface at a vertex; `o` is the first patch. -/
noncomputable def surfaceFuns {ι : Type} (o : ι) (bu bv : ι → Bases) (gu gv : ι → Glue) (geo : ι → Geo 3) (sigma : ℝ) (bf : Fin 6) : ι → ℝ → ℝ → ℝ :=
  vertexTuple bu bv gu gv (fun p => rotGeo (geo o) (geo p)) (dataSurface (phiSurface sigma) bf)

end Verif.VertexTurn
