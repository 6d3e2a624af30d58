import Verif.Model.Basic
import Mathlib.Data.Int.Notation
/-!
# Container basis (`gsContainerBasis.h`)
-/
namespace Verif.Container
open Verif

/-- One tensor-product piece (`gsTensorBSplineBasis`, G+Smo), seen through the queries the container makes:
number of functions, active functions at a fixed point and their values there, functions at a distance from a side,
function at a corner, support of a function (`none`: out-of-range index). -/
structure Piece where
  size : ℕ
  active : List ℕ
  value : List ℤ
  bnd : Side → ℕ → List ℕ
  atCorner : Corner → ℕ
  supp : ℕ → Option ℤ

/-- Assumed behaviour of the G+Smo piece. -/
structure Piece.Ok (b : Piece) : Prop where
  active_lt : ∀ a ∈ b.active, a < b.size
  active_nodup : b.active.Nodup
  value_len : b.value.length = b.active.length
  bnd_lt : ∀ s o, ∀ a ∈ b.bnd s o, a < b.size
  bnd_nodup : ∀ s o, (b.bnd s o).Nodup
  corner_lt : ∀ c, b.atCorner c < b.size
  supp_ok : ∀ i, i < b.size → (b.supp i).isSome

/-- `size()`, `gsContainerBasis.h:96-101`. -/
def size (ps : List Piece) : ℕ := ps.foldl (fun sz b => sz + b.size) 0

/-- The loop of `active_into`, `gsContainerBasis.h:209-218`, with the running `shift`. -/
def activeLoop : ℕ → List Piece → List ℕ
  | _, [] => []
  | shift, b :: ps => b.active.map (fun a => a + shift) ++ activeLoop (shift + b.size) ps

/-- `active_into`, `gsContainerBasis.h:192-219`, one column of the result. -/
def active (ps : List Piece) : List ℕ := activeLoop 0 ps

/-- `eval_into` (and, with other values, `deriv_into`, `deriv2_into`), `gsContainerBasis.h:221-258`: rows appended at the
bottom piece by piece. -/
def eval (ps : List Piece) : List ℤ := ps.foldl (fun r b => r ++ b.value) []

/-- The repeated loop `for i < k: shift += basisContainer[i].size()`, e.g. `gsContainerBasis.h:312-314`; `none`: access
past the end of the container. -/
def shiftTo (ps : List Piece) (k : ℕ) : Option ℕ :=
  (List.range k).foldl (fun a i => a.bind fun s => (ps[i]?).map fun b => s + b.size) (some 0)

/-- `boxSide::getContainedCorners` (G+Smo). -/
def containedCorners : Side → List Corner
  | .west => [.sw, .nw] | .east => [.se, .ne] | .south => [.sw, .se] | .north => [.nw, .ne]

/-- Numbers contributed by piece `k` to `boundaryOffset`. -/
def bndOf (ps : List Piece) (k : ℕ) (s : Side) (o : ℕ) : Option (List ℕ) :=
  (ps[k]?).bind fun b => (shiftTo ps k).map fun sh => (b.bnd s o).map fun a => a + sh

/-- `boundaryOffset`, `gsContainerBasis.h:290-352`. -/
def boundaryOffset (ps : List Piece) (s : Side) (o : ℕ) : Option (List ℕ) :=
  if ps.length = 1 then (ps[0]?).map fun b => b.bnd s o
  else
    (containedCorners s).foldl
      (fun r c => r.bind fun l => (bndOf ps (c.idx + 4) s o).map fun l' => l ++ l') (bndOf ps s.idx s o)

/-- `functionAtCorner`, `gsContainerBasis.h:354-367`. -/
def functionAtCorner (ps : List Piece) (c : Corner) : Option ℕ :=
  if ps.length = 1 then (ps[0]?).map fun b => b.atCorner c
  else (ps[c.idx + 4]?).bind fun b => (shiftTo ps (c.idx + 4)).map fun sh => b.atCorner c + sh

/-- `support(i)`, `gsContainerBasis.h:170-173`: piece 0 is asked whatever `i` is. -/
def support (ps : List Piece) (i : ℕ) : Option ℤ := (ps[0]?).bind fun b => b.supp i

end Verif.Container
