import Verif.Model.MPBES
/-!
# Distances from special vertices: the records of the interfaces, `setC0`, and the parameters of a hierarchical basis

`gsMPBESBasis.h:341-383`, `gsMPBESBasis.hpp:206-236, 332-394, 424-468`, `gsMPBESHSplineBasis.hpp:562-597`, `gsMPBESMapHB2D.h:111-134`.
-/
set_option autoImplicit false
namespace Verif.Distances
open Verif MPBES

/-- `patchCorner`: patch and number of the corner. -/
abbrev PCorner := ℕ × ℕ

/-- `patchSide`: patch and number of the side. -/
abbrev PSide := ℕ × ℕ

/-- The struct `distances`, `gsMPBESBasis.h:341-372`. `iface` is the position of the interface in the topology. The values are the
results of `findParameter`, `none` for a read past the end. -/
structure Rec where
  iface : ℕ
  c1 : PCorner
  p1 : Option ℚ
  c2 : PCorner
  p2 : Option ℚ
deriving DecidableEq

/-- What the functions below ask the topology and the bases.
`iface`: `m_topol.getInterface` (G+Smo), `none` for a side on the boundary; `isDistancesOfInterface` (`gsMPBESBasis.h:355-358`) accepts an
interface in both directions, so both sides of an interface have the same number.
`first`: `interface.first()`. The corners of a record are made from this side (`gsMPBESBasis.hpp:318-327`), so the branches of
`setParamDist` with `interface.second()` are never taken.
`cls`: `m_topol.getCornerList` (G+Smo), the corners at the same vertex.
`sides`: `patchCorner::getContainingSides` (G+Smo).
`param`: `findParameter`, a virtual function.
`minDist`: `m_minDist`; `deg`: the degree used for ordinary vertices. -/
structure Env where
  iface : PSide → Option ℕ
  first : ℕ → PSide
  cls : PCorner → List PCorner
  sides : PCorner → List PSide
  param : PSide → PCorner → ℕ → Option ℚ
  minDist : ℕ
  deg : PCorner → PSide → ℕ

/-- `distances::setParamDist`, `gsMPBESBasis.hpp:424-451`; `verts` is `m_vertices`. -/
def setParamDist (E : Env) (verts : List (PCorner × Bool)) (val : ℕ) (pc : PCorner) (r : Rec) : Rec :=
  if pc ∈ E.cls r.c1 then
    if isSpecial verts pc then { r with p1 := E.param (E.first r.iface) r.c1 val } else r
  else if pc ∈ E.cls r.c2 then
    if isSpecial verts pc then { r with p2 := E.param (E.first r.iface) r.c2 val } else r
  else r

/-- `distances::getParamDist`, `gsMPBESBasis.hpp:453-468`. -/
def getParamDist (E : Env) (pc : PCorner) (r : Rec) : Option ℚ :=
  if pc ∈ E.cls r.c1 then r.p1 else if pc ∈ E.cls r.c2 then r.p2 else some (-1)

/-- The loop over `m_distances` in `setC0` (`gsMPBESBasis.hpp:352-357`) and `smoothCornerEdge` (210-216) for one side. -/
def setSide (E : Env) (verts : List (PCorner × Bool)) (pc : PCorner) (recs : List Rec) (s : PSide) : List Rec :=
  match E.iface s with
  | none => recs
  | some i => recs.map fun r => if r.iface = i then setParamDist E verts E.minDist pc r else r

/-- The members changed by `setC0`: `m_vertices`, `m_distances`. -/
structure Marks where
  verts : List (PCorner × Bool)
  recs : List Rec

/-- `setC0`, `gsMPBESBasis.hpp:332-358`: the marks are set for all corners of the vertex, the distances for the sides of `pc`. -/
def setC0 (E : Env) (m : Marks) (pc : PCorner) : Marks :=
  let v := MPBES.setC0 m.verts (E.cls pc)
  { verts := v, recs := (E.sides pc).foldl (setSide E v pc) m.recs }

/-- `smoothCornerEdge`, `gsMPBESBasis.hpp:206-219`, without the update of the mapping. -/
def smoothCornerEdge (E : Env) (m : Marks) (pc : PCorner) (s : PSide) : Marks :=
  if isSpecial m.verts pc then { m with recs := setSide E m.verts pc m.recs s } else m

/-- `smoothEverything`, `gsMPBESBasis.hpp:221-236`, without the update of the mapping; `evs` are the corners at extraordinary vertices (`getEVs`, G+Smo). -/
def smoothEverything (E : Env) (evs : List PCorner) (m : Marks) : Marks :=
  (evs.flatMap fun c => (E.sides c).map fun s => (c, s)).foldl (fun m x => smoothCornerEdge E m x.1 x.2) m

/-- `getParametricDistanceOfVertex`, `gsMPBESBasis.hpp:371-394`: the loops keep the last match. -/
def paramDistance (E : Env) (m : Marks) (pc : PCorner) (ps : PSide) : Option ℚ :=
  if isSpecial m.verts pc then
    match E.iface ps with
    | some i => m.recs.foldl (fun x r => if r.iface = i then getParamDist E pc r else x) (some 0)
    | none => E.param ps pc E.minDist
  else m.verts.foldl (fun x v => if v.1 = pc then E.param ps pc (E.deg pc ps) else x) (some 0)

/-! ## Hierarchical bases -/

/-- `_endpointsOfActiveBoundaryFunctions`, `gsMPBESHSplineBasis.hpp:562-582`, before sorting: `levels` are the knots along the side and the flags
of `activeBoundaryFunctionsOfLevel` (G+Smo) for the levels `0 … maxLevel`. A knot vector has `deg + 1` knots more than there are functions, so
`knots.at(i+deg+1)` is never out of range; the pairing below drops nothing. -/
def ends (deg : ℕ) (orient : Bool) (levels : List (List ℚ × List Bool)) : List ℚ :=
  levels.flatMap fun l =>
    let ks := if orient then reverseKnots l.1 else l.1
    let act := if orient then l.2.reverse else l.2
    (((ks.drop (deg + 1)).zip act).filter fun x => x.2).map fun x => x.1

/-- `findParameter`, `gsMPBESHSplineBasis.hpp:584-595`. `low`: the corner is at the lower end of the side; the knots are reversed for a corner at the
upper end (in `gsMPBESBSplineBasis.hpp:434-449` and `gsMPBESMapHB2D.h:111-134` for a corner at the lower end). `none`: read past the end. -/
def hFindParameter (deg : ℕ) (levels : List (List ℚ × List Bool)) (low : Bool) (n : ℕ) : Option ℚ :=
  if n = 0 then some 0 else ((ends deg (!low) levels).mergeSort (· ≤ ·))[n - 1]?

/-- `getDistanceOfVertex`, `gsMPBESMapHB2D.h:111-134`: as for tensor-product bases (`getDistance`), with the knots of the level. -/
def hGetDistance (deg : ℕ) (levels : List (List ℚ × List Bool)) (low : Bool) (x : ℚ) (l : ℕ) : ℕ :=
  getDistance deg (levels.getD l ([], [])).1 low x

end Verif.Distances
