import Mathlib.Data.Real.Basic
import Mathlib.Algebra.BigOperators.Group.List.Basic
import Mathlib.Algebra.BigOperators.Intervals
/-!
# Rows of the basis matrix of `gsApproxC1Spline` and `gsC1SurfSpline`

Both classes count the rows in `init` and fill them in `compute`, in four loops (patches, interfaces, boundary edges, vertices). The two
versions differ in the number of pieces per patch, the thresholds, the counting formula and how the matrix is written.
The coefficients of the edge and vertex functions are arbitrary inputs. Geometries have one element per direction (the
code warns otherwise, `gsApproxC1Spline.hpp:39-50`), so the loops headed "Geometry check" of `gsApproxC1Utils.cpp` do nothing.
-/
set_option autoImplicit false
noncomputable section
namespace Verif.C1Rows

/-! ## Spline spaces along an edge -/

/-- A univariate spline space: degree and multiplicities of the interior knots. -/
structure Space where
  p : ℕ
  mult : List ℕ

/-- Number of functions (G+Smo: knots minus degree minus one, open knot vector). -/
def Space.size (s : Space) : ℕ := s.p + 1 + s.mult.sum

/-- `elevateContinuity(1)` (G+Smo): every interior multiplicity goes down by one; at zero the knot vanishes. -/
def elevate (l : List ℕ) : List ℕ := l.map (· - 1)

/-- `knots().multiplicityIndex(p+1)`: multiplicity of the knot at position `p+1`: the first interior knot, without interior knots the
last knot (`p+1`). -/
def Space.firstMult (s : Space) : ℕ := s.mult.headD (s.p + 1)

/-- `createPlusSpace`, `gsApproxC1Utils.cpp:59-94`. -/
def plusApprox (s : Space) : Space := if s.firstMult ≠ 1 then ⟨s.p, elevate s.mult⟩ else s
/-- `createMinusSpace`, `gsApproxC1Utils.cpp:96-135`; `degreeDecrease` (G+Smo) keeps the multiplicities. -/
def minusApprox (s : Space) : Space := if s.firstMult ≠ 1 then ⟨s.p - 1, elevate s.mult⟩ else ⟨s.p - 1, s.mult⟩
/-- `gsC1SurfSpline.hpp:87-88`, `:108-109`, `gsC1SurfBasisEdge.h:39-41`. -/
def plusSurf (s : Space) : Space := ⟨s.p, elevate s.mult⟩
/-- `gsC1SurfSpline.hpp:90-91`, `:111-112`, `gsC1SurfBasisEdge.h:45-47`; `degreeReduce` (G+Smo) keeps the smoothness. -/
def minusSurf (s : Space) : Space := ⟨s.p - 1, elevate s.mult⟩

/-- Number of functions produced for an edge: the loops `bfID = 3 … n_plus-4` and `bfID = 2 … n_minus-3` of
`gsApproxC1Edge.hpp:117-178` and `gsC1SurfBasisEdge.h:116-152`. -/
def edgeFuns (nPlus nMinus : ℕ) : ℕ := (List.range' 3 (nPlus - 3 - 3)).length + (List.range' 2 (nMinus - 2 - 2)).length

/-! ## Input -/

/-- A boundary edge or one side of an interface: patch and side (1 west, 2 east, 3 south, 4 north). -/
abbrev PS := ℕ × ℕ

structure Iface where
  first : PS
  second : PS
  /-- space along the interface (that of the coarser patch) -/
  space : Space
  /-- coefficients of the functions: `false` first patch, `true` second -/
  coef : Bool → ℕ → ℕ → ℝ

structure Bdy where
  side : PS
  space : Space
  coef : ℕ → ℕ → ℝ

structure Vert where
  /-- corners (patch, corner 1…4) around the vertex with the coefficients of the functions there -/
  corners : List (PS × (ℕ → ℕ → ℝ))

/-- The multi-patch as seen by `init` and `compute`. -/
structure Data where
  np : ℕ
  du : ℕ → ℕ
  dv : ℕ → ℕ
  /-- number of functions of the pieces of the container of a patch -/
  piece : ℕ → ℕ → ℕ
  ifaces : List Iface
  bdys : List Bdy
  verts : List Vert

/-- What differs between the two classes. -/
structure Cls where
  /-- pieces per patch -/
  nPieces : ℕ
  /-- piece holding the functions of a side / of a corner -/
  sidePiece : ℕ → ℕ
  cornerPiece : ℕ → ℕ
  plus : Space → Space
  minus : Space → Space
  /-- rows reserved for an edge -/
  edgeRows : ℕ → ℕ → ℤ
  /-- coefficients with square up to this value are dropped (interfaces, boundary edges, vertices) -/
  epsI : ℝ
  epsB : ℝ
  epsV : ℝ

/-- `gsApproxC1Spline`: nine pieces, `max` in the count (`gsApproxC1Spline.hpp:150`, `:175`), thresholds (`:320`, `:338`, `:369`, `:409`). -/
def approx : Cls where
  nPieces := 9
  sidePiece s := s
  cornerPiece c := c + 4
  plus := plusApprox
  minus := minusApprox
  edgeRows a b := max ((a : ℤ) + b - 10) 0
  epsI := 1e-25
  epsB := 1e-20
  epsV := 1e-20

/-- `gsC1SurfSpline`: one piece, no `max` (`gsC1SurfSpline.hpp:93`, `:114`), thresholds (`:188`, `:202`, `:231`, `:264`). -/
def surf : Cls where
  nPieces := 1
  sidePiece _ := 0
  cornerPiece _ := 0
  plus := plusSurf
  minus := minusSurf
  edgeRows a b := (a : ℤ) + b - 10
  epsI := 1e-25
  epsB := 1e-25
  epsV := 1e-25

/-! ## `init` -/

/-- The counter `row_dofs` (`gsApproxC1Spline.hpp:64-234`, `gsC1SurfSpline.hpp:72-122`), a signed integer. -/
def rowDofs (K : Cls) (D : Data) : ℤ :=
  ((List.range D.np).map fun p => ((D.du p : ℤ) - 4) * ((D.dv p : ℤ) - 4)).sum +
  (D.ifaces.map fun i => K.edgeRows (K.plus i.space).size (K.minus i.space).size).sum +
  (D.bdys.map fun b => K.edgeRows (K.plus b.space).size (K.minus b.space).size).sum +
  (D.verts.map fun _ => (6 : ℤ)).sum

/-- `m_bases[np].size()`. -/
def patchCols (K : Cls) (D : Data) (p : ℕ) : ℕ := ∑ s ∈ Finset.range K.nPieces, D.piece p s
/-- `dim_col` (`gsApproxC1Spline.hpp:238-242`, `gsC1SurfSpline.hpp:126-130`). -/
def dimCol (K : Cls) (D : Data) : ℕ := ∑ p ∈ Finset.range D.np, patchCols K D p
/-- `shift_col + begin_col + jj`: loops over the preceding patches and pieces. -/
def colOf (K : Cls) (D : Data) (p s k : ℕ) : ℕ := (∑ q ∈ Finset.range p, patchCols K D q) + (∑ t ∈ Finset.range s, D.piece p t) + k

/-! ## `compute` -/

/-- An entry: row, column, value. -/
abbrev Entry := ℕ × ℕ × ℝ

/-- The inner loops over `j`, `i` with the counter `row_i` (`gsApproxC1Spline.hpp:279-288`, `gsC1SurfSpline.hpp:151-160`). -/
def innerPairs (du dv : ℕ) : List (ℕ × ℕ) :=
  (List.range' 2 (dv - 2 - 2)).flatMap fun j => (List.range' 2 (du - 2 - 2)).map fun i => (j, i)
def innerEntries (K : Cls) (D : Data) (shift p : ℕ) : List Entry :=
  (innerPairs (D.du p) (D.dv p)).zipIdx.map fun x => (shift + x.2, colOf K D p 0 (x.1.1 * D.du p + x.1.2), 1)

open Classical in
/-- The loops over `ii` and `j` (e.g. `gsApproxC1Spline.hpp:316-323`) for `n` functions on piece `s` of patch `p`. -/
def coefEntries (K : Cls) (D : Data) (eps : ℝ) (shift n : ℕ) (p s : ℕ) (coef : ℕ → ℕ → ℝ) : List Entry :=
  (List.range n).flatMap fun ii => (List.range (D.piece p s)).filterMap fun jj =>
    if coef ii jj * coef ii jj > eps then some (shift + ii, colOf K D p s jj, coef ii jj) else none

/-- State of `compute`: `shift_row` and the entries written so far. -/
abbrev St := ℕ × List Entry

def patchStep (K : Cls) (D : Data) (st : St) (p : ℕ) : St :=
  (st.1 + (innerPairs (D.du p) (D.dv p)).length, st.2 ++ innerEntries K D st.1 p)
def ifaceFuns (K : Cls) (s : Space) : ℕ := edgeFuns (K.plus s).size (K.minus s).size
/-- Interfaces, `gsApproxC1Spline.hpp:294-344`, `gsC1SurfSpline.hpp:165-208`. -/
def ifaceStep (K : Cls) (D : Data) (st : St) (i : Iface) : St :=
  let n := ifaceFuns K i.space
  (st.1 + n, st.2 ++ coefEntries K D K.epsI st.1 n i.first.1 (K.sidePiece i.first.2) (i.coef false)
    ++ coefEntries K D K.epsI st.1 n i.second.1 (K.sidePiece i.second.2) (i.coef true))
/-- Boundary edges, `gsApproxC1Spline.hpp:346-374`, `gsC1SurfSpline.hpp:209-236`. -/
def bdyStep (K : Cls) (D : Data) (st : St) (b : Bdy) : St :=
  let n := ifaceFuns K b.space
  (st.1 + n, st.2 ++ coefEntries K D K.epsB st.1 n b.side.1 (K.sidePiece b.side.2) b.coef)
/-- Vertices, `gsApproxC1Spline.hpp:376-417`, `gsC1SurfSpline.hpp:237-269`; six functions each (`gsApproxC1Vertex.h:303`, `gsC1SurfBasisVertex.h`). -/
def vertStep (K : Cls) (D : Data) (st : St) (v : Vert) : St :=
  (st.1 + 6, st.2 ++ v.corners.flatMap fun c => coefEntries K D K.epsV st.1 6 c.1.1 (K.cornerPiece c.1.2) c.2)

/-- All four loops. -/
def run (K : Cls) (D : Data) : St :=
  let st := (List.range D.np).foldl (patchStep K D) (0, [])
  let st := D.ifaces.foldl (ifaceStep K D) st
  let st := D.bdys.foldl (bdyStep K D) st
  D.verts.foldl (vertStep K D) st

open Classical in
/-- Writing the entries into a matrix with `R` rows (Eigen: a negative number is an error, as is a position outside) and `C` columns; `m_matrix.insert` must not
meet an existing entry. Result: the matrix; `none` on any of these errors. -/
def insertAll (R : ℤ) (C : ℕ) (l : List Entry) : Option (ℕ → ℕ → ℝ) :=
  if 0 ≤ R ∧ (∀ e ∈ l, (e.1 : ℤ) < R ∧ e.2.1 < C) ∧ (l.map fun e => (e.1, e.2.1)).Nodup then
    some fun r c => ((l.find? fun e => e.1 = r ∧ e.2.1 = c).map fun e => e.2.2).getD 0
  else none

/-- `setFromTriplets`: positions outside are an error, entries at the same position are added. -/
def tripletAll (R : ℤ) (C : ℕ) (l : List Entry) : Option (ℕ → ℕ → ℝ) :=
  open Classical in
  if 0 ≤ R ∧ (∀ e ∈ l, (e.1 : ℤ) < R ∧ e.2.1 < C) then
    some fun r c => ((l.filter fun e => e.1 = r ∧ e.2.1 = c).map fun e => e.2.2).sum
  else none

/-- `gsApproxC1Spline`: `init` and `compute`. -/
def approxMatrix (D : Data) : Option (ℕ → ℕ → ℝ) := insertAll (rowDofs approx D) (dimCol approx D) (run approx D).2
/-- `gsC1SurfSpline`: `init` (with the check on the number of interior knots, `gsC1SurfSpline.hpp:37-49`, made by the caller) and `compute`. -/
def surfMatrix (D : Data) : Option (ℕ → ℕ → ℝ) := tripletAll (rowDofs surf D) (dimCol surf D) (run surf D).2

/-- The check of `gsC1SurfSpline::init`: at least `5 - p` interior knots in every direction. -/
def surfCheck (s : Space) : Prop := (5 : ℤ) - s.p ≤ s.mult.sum

end Verif.C1Rows
end
