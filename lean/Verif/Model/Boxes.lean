import Verif.Model.Repair
/-!
# Refinement of a patch of a B-spline multi-patch basis by boxes (C66)

`gsMPBESBSplineBasis.hpp:193-207` (`refine`, `refineElements`), `:257-278` (`refineElements_withCoefs`, `_boxesVectorToMatrix`); `_boxToRefineKnots` is `midpoints` of `Model/Repair.lean`.
-/
set_option autoImplicit false
namespace Verif.Boxes
open Repair

/-- `_boxesVectorToMatrix`, `gsMPBESBSplineBasis.hpp:266-278`, for `d = 2`: five numbers (level, lower corner, upper corner) give two columns of the matrix, written here as the intervals in the directions u and v. The numbers are copied, the level
is not read. `none`: the number of entries is not a multiple of five (`GISMO_ASSERT`). -/
def boxMatrix : List ℤ → Option (List ((ℚ × ℚ) × (ℚ × ℚ)))
  | [] => some []
  | _ :: u0 :: v0 :: u1 :: v1 :: l => (boxMatrix l).map ((((u0 : ℚ), (u1 : ℚ)), ((v0 : ℚ), (v1 : ℚ))) :: ·)
  | _ => none

/-- The knots after `basis(patch).insertKnots(refineKnots)`, `gsMPBESBSplineBasis.hpp:185` with `:196-198`: refinement of patch `p` by boxes before the repair of the patches. -/
def insertBoxes (K : Knots) (p : ℕ) (boxes : List ((ℚ × ℚ) × (ℚ × ℚ))) : Knots := insertKnots K p fun d => midpoints (boxes.map fun b => if d then b.2 else b.1) (K p d)

/-- `refineElements(patch,boxes,false)`, `gsMPBESBSplineBasis.hpp:202-207`. -/
def insertElements (K : Knots) (p : ℕ) (boxes : List ℤ) : Option Knots := (boxMatrix boxes).map (insertBoxes K p)

/-- `refineElements(patch,boxes,true)`, `gsMPBESBSplineBasis.hpp:202-207`. -/
def refineElements (T : Topo) (eps : ℚ) (turns : ℕ) (K : Knots) (p : ℕ) (boxes : List ℤ) : Outcome :=
  match boxMatrix boxes with
  | none => .undefined
  | some b => refineBoxes T eps turns K p b

end Verif.Boxes
