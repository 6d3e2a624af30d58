import Mathlib.Data.List.Range
import Mathlib.Data.Int.Order.Basic
/-!
# Spline spaces along an edge

`gsApproxC1Utils.cpp:21-306`: the spaces of the gluing data, of the traces (`plus`), of the derivatives (`minus`), and the spaces the functions of edges and vertices are projected to. All knot vectors
are open and their knots lie on one grid with `n` elements (the knots of the bases and of the geometry together), whose points are numbered `0 … n`; so a knot vector is its degree and the multiplicities of
the inner points `1 … n - 1`, zero where there is no knot. The values of the knots play no role for the code.

G+Smo, assumed: `multiplicityIndex(p+1)` is the multiplicity of the first inner knot (of the last knot if there are no inner ones); `elevateContinuity`, `reduceContinuity` lower and raise the multiplicity of all inner
knots, and a knot with multiplicity zero is gone; `degreeDecrease` and `setDegreePreservingMultiplicity` keep the multiplicities; `uFind(x)` is the last knot that is not greater than `x`; `remove` takes away as many copies
as there are.
-/
set_option autoImplicit false
namespace Verif.Spaces

/-- An open knot vector on the grid. -/
structure Kv where
  deg : ℕ
  mult : ℕ → ℕ

/-- The inner points of a grid with `n` elements. -/
def inner (n : ℕ) : List ℕ := List.range' 1 (n - 1)

/-- `knots().multiplicityIndex(degree+1)`. -/
def firstMult (n : ℕ) (k : Kv) : ℕ :=
  match (inner n).find? fun i => decide (0 < k.mult i) with
  | some i => k.mult i
  | none => k.deg + 1

/-- `degree() - knots().multiplicityIndex(degree()+1)`. -/
def reg (n : ℕ) (k : Kv) : ℤ := (k.deg : ℤ) - firstMult n k

/-- `elevateContinuity(i)`. -/
def elevate (i : ℕ) (k : Kv) : Kv := { k with mult := fun j => k.mult j - i }

/-- `reduceContinuity(i)`. -/
def reduce (i : ℕ) (k : Kv) : Kv := { k with mult := fun j => if k.mult j = 0 then 0 else k.mult j + i }

/-- `uFind` of the point `i`: the last knot that is not greater; `0` is the first knot. -/
def uFind (k : Kv) (i : ℕ) : ℕ := ((List.range' 1 i).filter fun j => decide (0 < k.mult j)).getLast?.getD 0

/-- `insert(knot, c)`. -/
def insert (k : Kv) (i : ℕ) (c : ℤ) : Kv := { k with mult := fun j => if j = i then k.mult j + c.toNat else k.mult j }

/-- `remove(knot, c)`. `none`: copies of the first knot are taken away, after that the knot vector is not open any more. -/
def remove (k : Kv) (i : ℕ) (c : ℤ) : Option Kv :=
  if i = 0 then none else some { k with mult := fun j => if j = i then k.mult j - c.toNat else k.mult j }

/-- A turn of the loops headed "Geometry check" in `createPlusSpace` (`:79-91`), `createMinusSpace` (`:116-131`; here `off = 1` and `zero = true`: the third case), `createEdgeSpace` (`:165-175`, `:211-221`) and
`createVertexSpace` (`:263-273`, `:292-302`). -/
def fixTurn (off : ℤ) (zero : Bool) (geo : Kv) (k : Kv) (i : ℕ) : Option Kv :=
  let rGeo : ℤ := (geo.deg : ℤ) - geo.mult i - off
  let j := uFind k i
  let rBasis : ℤ := (k.deg : ℤ) - (if j = 0 then k.deg + 1 else k.mult j : ℕ)
  if rBasis > rGeo then some (insert k i (rBasis - rGeo))
  else if rBasis < rGeo then remove k j (rGeo - rBasis)
  else if zero && decide (rBasis = 0) && decide (rGeo = 0) then remove k j 1
  else some k

/-- The inner knots of the geometry (`unique_geo` without first and last, `:78-80`). -/
def geoKnots (n : ℕ) (geo : Kv) : List ℕ := (inner n).filter fun i => decide (0 < geo.mult i)

/-- The loop. -/
def fix (n : ℕ) (off : ℤ) (zero : Bool) (geo k : Kv) : Option Kv := (geoKnots n geo).foldlM (fixTurn off zero geo) k

/-- A turn of the loop of `createGluingDataSpace`, `:39-54`. The smoothness of the basis at the knot is not looked up but taken to be `r`. -/
def gluingTurn (r : ℤ) (geo k : Kv) (i : ℕ) : Option Kv :=
  let rGeo : ℤ := (geo.deg : ℤ) - geo.mult i - 1
  let rGeo := if rGeo = 0 then 1 else rGeo
  if r > rGeo then some (insert k i (r - rGeo))
  else if r < rGeo then remove k (uFind k i) (rGeo - r)
  else some k

/-- Degree and smoothness of the gluing data from the options, `:26-29`. -/
def gdDegree (basis : Kv) (pt : ℤ) : ℤ := if pt = -1 then (basis.deg : ℤ) - 1 else pt
def gdSmooth (basis : Kv) (pt rt : ℤ) : ℤ := if rt = -1 then gdDegree basis pt - 1 else rt

/-- `kv_gluingData` before the loop (`:31`): all knots of the basis, each with multiplicity degree minus smoothness. -/
def gluing0 (basis : Kv) (pt rt : ℤ) : Kv :=
  ⟨(gdDegree basis pt).toNat, fun i => if basis.mult i = 0 then 0 else (gdDegree basis pt - gdSmooth basis pt rt).toNat⟩

/-- `createGluingDataSpace`, `:21-57`. -/
def gluing (n : ℕ) (geo basis : Kv) (pt rt : ℤ) : Option Kv :=
  (geoKnots n geo).foldlM (gluingTurn (gdSmooth basis pt rt) geo) (gluing0 basis pt rt)

/-- `createPlusSpace`, `:59-94`. -/
def plus (n : ℕ) (geo basis : Kv) : Option Kv :=
  let m := firstMult n basis
  let k := if m ≠ 1 then elevate 1 basis else basis
  fix n 0 false geo k

/-- `createMinusSpace`, `:96-135`. -/
def minus (n : ℕ) (geo basis : Kv) : Option Kv :=
  let m := firstMult n basis
  let k : Kv := { basis with deg := basis.deg - 1 }
  let k := if m ≠ 1 then elevate 1 k else k
  fix n 1 true geo k

/-- The part of `createEdgeSpace` and `createVertexSpace` that sets the smoothness to `r` (`:152-155`, `:198-201`, `:250-253`). -/
def setReg (n : ℕ) (r : ℤ) (k : Kv) : Kv :=
  if reg n k > r then reduce (reg n k - r).toNat k
  else if reg n k < r then elevate (r - reg n k).toNat k
  else k

/-- `createEdgeSpace` for interfaces, `:137-179`, component along the interface; the other one stays as it is. -/
def edge (n : ℕ) (geo basis kp km kg : Kv) : Option Kv :=
  let k : Kv := { basis with deg := kp.deg + kg.deg - 1 }
  let r := min (reg n kg) (min (reg n kp - 1) (reg n km))
  fix n 0 false geo (setReg n r k)

/-- `createEdgeSpace` for boundary edges, `:181-224`. -/
def edgeBdy (n : ℕ) (geo basis kp km : Kv) : Option Kv :=
  let k : Kv := { basis with deg := kp.deg }
  let r := min (reg n kp - 1) (reg n km)
  fix n 0 false geo (setReg n r k)

/-- `createVertexSpace` in a direction that lies on an interface, `:234-276`. -/
def vertexIface (n : ℕ) (geo basis : Kv) (pt rt : ℤ) : Option Kv := do
  let kg ← gluing n geo basis pt rt
  let kp ← plus n geo basis
  let km ← minus n geo basis
  let k : Kv := { basis with deg := kp.deg + kg.deg - 1 }
  let r := min (reg n kg) (min (reg n kp) (reg n km))
  fix n 0 false geo (setReg n r k)

/-- `createVertexSpace` in a direction that lies on the boundary, `:277-305`. -/
def vertexBdy (n : ℕ) (geo basis : Kv) : Option Kv :=
  let k := if reg n basis = (basis.deg : ℤ) - 1 then reduce 1 basis else basis
  fix n 0 false geo k

/-- All spaces of an interface for equal bases on both sides (`gsApproxC1Spline.hpp:103-147`): plus, minus, gluing data, edge. -/
def interfaceSpaces (n : ℕ) (geo basis : Kv) (pt rt : ℤ) : Option (Kv × Kv × Kv × Kv) := do
  let kp ← plus n geo basis
  let km ← minus n geo basis
  let kg ← gluing n geo basis pt rt
  let ke ← edge n geo basis kp km kg
  return (kp, km, kg, ke)

end Verif.Spaces
