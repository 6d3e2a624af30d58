import Verif.Model.HRepair
import Verif.Model.Index
import Mathlib.Data.Real.Basic
/-!
# Coefficients that are carried along when a hierarchical multi-patch basis is refined (C65)

`gsMPBESHSplineBasis.hpp:245-277` (`refine_withCoefs`), `:280-312` (`refineElements_withCoefs`), `:215-241` (`refine`, `refineElements`), `:331-371` (`repairPatches(coefs,startFromPatch)`).

The bases of the patches are those of `Model/HRepair.lean`. Rows of a coefficient matrix are control points; every step acts on all columns in the same way, so that one column is modelled, with real entries and
exact arithmetic. `refine_withCoefs` and `refineElements_withCoefs` of the basis of a single patch are part of G+Smo; what they do to the coefficients is a parameter `R` of the model.
-/
set_option autoImplicit false
namespace Verif.HCarry
open HRepair
open Index (splitLoop)

/-- The break points of level `l` (G+Smo): every level halves the cells of the level before. -/
def br (b : ℕ → ℚ) : ℕ → ℕ → ℚ
  | 0, e => b e
  | l + 1, e => if e % 2 = 0 then br b l (e / 2) else (br b l (e / 2) + br b l (e / 2 + 1)) / 2

/-- The open knot vector of degree `p` with the given `N` cells and simple inner knots. -/
def openKnots (p N : ℕ) (β : ℕ → ℚ) : List ℚ := List.replicate p (β 0) ++ (List.range (N + 1)).map β ++ List.replicate p (β N)

/-- The functions of the hierarchical basis of a patch in the order of their numbers (G+Smo): by level, then by tensor index. -/
def funs (G : Geo) (st : St) (p : ℕ) : List (ℕ × ℕ × ℕ) :=
  (List.range (G.L + 1)).flatMap fun l => (List.range (numFun G p l true)).flatMap fun j =>
    ((List.range (numFun G p l false)).filter fun i => active G st p l i j).map fun i => (l, i, j)

/-- `basis(p).size()` (G+Smo). -/
def size (G : Geo) (st : St) (p : ℕ) : ℕ := (funs G st p).length

/-- What `refineElements_withCoefs(coefs,boxes)` of a single basis does to a column of coefficients. -/
abbrev Carrier := St → ℕ → List Box → List ℝ → List ℝ

/-- The coefficients of all patches, `coefs`; `none` is `NULL`. -/
abbrev Coefs := ℕ → Option (List ℝ)

/-- The coefficients of patch `p` are refined, `gsMPBESHSplineBasis.hpp:352-353`, `:362-363`; a null pointer stays null (`:354-355`, `:364-365`). -/
def carry (R : Carrier) (st : St) (p : ℕ) (b : List Box) (C : Coefs) : Coefs := fun q => if q = p then (C q).map (R st p b) else C q

/-- One turn of the loop of `repairPatches`, `gsMPBESHSplineBasis.hpp:340-370`, with coefficients. -/
def turnC (G : Geo) (R : Carrier) (leaves : List Box) (st : St) (C : Coefs) : List ℕ → Option (St × Coefs × List ℕ)
  | [] => none
  | p :: q => do
    let b ← innerBoxes G st p leaves
    if b ≠ [] then pure (refine G st p b, carry R st p b C, q ++ [p])
    else
      let (b, c) ← matchNeighbours G st p
      if b ≠ [] then pure (refine G st p b, carry R st p b C, pushAll q c)
      else pure (st, C, pushAll q c)

/-- Sizes of all patches. -/
def sizes (G : Geo) (st : St) : List ℕ := (List.range G.T.n).map fun p => size G st p

/-- The matrix is cut into the coefficients of the patches, `gsMPBESHSplineBasis.hpp:248-257`, `:282-291`. -/
def split (G : Geo) (st : St) (l : List ℝ) : Coefs := fun p => (splitLoop l (-1) (sizes G st))[p]?

/-- The coefficients are put together, `gsMPBESHSplineBasis.hpp:261-273`, `:295-307`: blocks as large as the bases, starting with patch `p`. `none`: a block is not filled, or the pointer is null. -/
def joinFrom (C : Coefs) : ℕ → List ℕ → Option (List ℝ)
  | _, [] => some []
  | p, n :: sz => (C p).bind fun b => if b.length = n then (joinFrom C (p + 1) sz).map (b ++ ·) else none

def join (G : Geo) (st : St) (C : Coefs) : Option (List ℝ) := joinFrom C 0 (sizes G st)

/-- The first part of `refineElements_withCoefs(localCoef,patch,boxes,updateBasis)`, `gsMPBESHSplineBasis.hpp:280-294`: basis, coefficients and the list of patches to check at the start of the repair loop. -/
def start (G : Geo) (R : Carrier) (st : St) (p : ℕ) (b : List Box) (updateBasis : Bool) (l : List ℝ) : St × Coefs × List ℕ :=
  (refine G st p b, carry R st p b (split G st l), if updateBasis then [p] else [])

end Verif.HCarry
