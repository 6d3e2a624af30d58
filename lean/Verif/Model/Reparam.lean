import Verif.Model.Basic
import Mathlib.Data.Rat.Defs
import Mathlib.Algebra.Order.Ring.Rat
/-!
# Reparametrisation of patches

Models `gsPatchReparameterized.h` (Approx-C1) and `gsG1AuxiliaryPatch.h` (C1-surf).
-/
namespace Verif.Reparam
open Verif

/-- A tensor-product control net: sizes `nu × nv` (`component(0/1).size()`), the knot vectors of the two
directions, and the coefficient matrix as a partial function from row number to row.
`none` models a row that does not exist or was never written (Eigen leaves fresh matrices uninitialised).
Models the data of `gsTensorBSpline` used in `gsPatchReparameterized.h:68-89`. The NURBS branch (94-112) permutes
the weights with the same formula, so it is covered by taking `α` to be pairs (row, weight). -/
structure Net (α : Type) where
  nu : ℕ
  nv : ℕ
  ku : List ℚ
  kv : List ℚ
  c : ℕ → Option α

/-- The control point in column `i` (u-direction) and line `j` (v-direction); tensor index `i + nu*j`. -/
def Net.at' {α : Type} (N : Net α) (i j : ℕ) : Option α := N.c (i + N.nu * j)

/-- All rows `0 .. nu*nv-1` hold a value and no other row exists. -/
def Net.WF {α : Type} (N : Net α) : Prop := ∀ k, (N.c k).isSome ↔ k < N.nu * N.nv

/-- A loop of row assignments `mpar.row(w.1) = old.row(w.2)` into a fresh matrix. -/
def writeAll {α : Type} (src : ℕ → Option α) (ws : List (ℕ × ℕ)) : ℕ → Option α :=
  ws.foldl (fun m w => Function.update m w.1 (src w.2)) (fun _ => none)

/-- `gsKnotVector::reverse()` (G+Smo): mirror the knots in the interval and reverse their order. -/
def revK (k : List ℚ) : List ℚ := (k.map (fun x => k.headD 0 + k.getLastD 0 - x)).reverse

/-- The assignments of the axis swap, `gsPatchReparameterized.h:77-79` (also 552-558, `gsG1AuxiliaryPatch.h:256-262`). -/
def swapWrites (dimU dimV : ℕ) : List (ℕ × ℕ) :=
  (List.range dimU).flatMap fun j => (List.range dimV).map fun i => (i + j * dimV, j + dimU * i)

/-- The assignments of the anticlockwise quarter turn, `gsPatchReparameterized.h:167-169`
(also 488-494, `gsG1AuxiliaryPatch.h:58-64`). -/
def acWrites (dimU dimV : ℕ) : List (ℕ × ℕ) :=
  (List.range dimU).flatMap fun j => (List.range dimV).map fun i => (i + j * dimV, (dimU - 1 - j) + dimU * i)

/-- The assignments of the clockwise quarter turn, `gsPatchReparameterized.h:253-255` (loop `j` downwards;
also 520-527, `gsG1AuxiliaryPatch.h:125-131`). -/
def cwWrites (dimU dimV : ℕ) : List (ℕ × ℕ) :=
  (List.range dimU).reverse.flatMap fun j => (List.range dimV).map fun i =>
    (i + (dimU - j - 1) * dimV, (dimV * dimU - 1 - j) - dimU * i)

/-- The assignments of the half turn, `gsPatchReparameterized.h:355-356` (also 459-462, `gsG1AuxiliaryPatch.h:196-199`). -/
def twWrites (dimU dimV : ℕ) : List (ℕ × ℕ) :=
  (List.range (dimU * dimV)).map fun i => (i, (dimU * dimV - 1) - i)

/-- `swapAxis` on the geometry, `gsPatchReparameterized.h:68-89`: knots are exchanged. -/
def swapNet {α : Type} (N : Net α) : Net α :=
  { nu := N.nv, nv := N.nu, ku := N.kv, kv := N.ku, c := writeAll N.c (swapWrites N.nu N.nv) }

/-- `rotateParamAntiClock` on the geometry, `gsPatchReparameterized.h:158-179`: `knots(0)` is reversed, then exchanged. -/
def acNet {α : Type} (N : Net α) : Net α :=
  { nu := N.nv, nv := N.nu, ku := N.kv, kv := revK N.ku, c := writeAll N.c (acWrites N.nu N.nv) }

/-- `rotateParamClock` on the geometry, `gsPatchReparameterized.h:244-266`: `knots(1)` is reversed, then exchanged. -/
def cwNet {α : Type} (N : Net α) : Net α :=
  { nu := N.nv, nv := N.nu, ku := revK N.kv, kv := N.ku, c := writeAll N.c (cwWrites N.nu N.nv) }

/-- `rotateParamAntiClockTwice` on the geometry, `gsPatchReparameterized.h:346-367`: both knot vectors reversed. -/
def twNet {α : Type} (N : Net α) : Net α :=
  { nu := N.nu, nv := N.nv, ku := revK N.ku, kv := revK N.kv, c := writeAll N.c (twWrites N.nu N.nv) }

/-- `rotateBasisAntiClock` (`gsPatchReparameterized.h:471-502`): knots exchanged but NOT reversed.
`gsG1AuxiliaryPatch::rotateParamAntiClock` (46-79) has the same effect on the geometry. -/
def acBasis {α : Type} (N : Net α) : Net α :=
  { nu := N.nv, nv := N.nu, ku := N.kv, kv := N.ku, c := writeAll N.c (acWrites N.nu N.nv) }

/-- `rotateBasisClock` (`gsPatchReparameterized.h:504-535`; `gsG1AuxiliaryPatch.h:114-147`). -/
def cwBasis {α : Type} (N : Net α) : Net α :=
  { nu := N.nv, nv := N.nu, ku := N.kv, kv := N.ku, c := writeAll N.c (cwWrites N.nu N.nv) }

/-- `rotateBasisAntiClockTwice` (`gsPatchReparameterized.h:443-469`; `gsG1AuxiliaryPatch.h:185-214`). -/
def twBasis {α : Type} (N : Net α) : Net α :=
  { nu := N.nu, nv := N.nv, ku := N.ku, kv := N.kv, c := writeAll N.c (twWrites N.nu N.nv) }

/-- `swapBasisAxis` (`gsPatchReparameterized.h:537-566`). -/
def swapBasis {α : Type} (N : Net α) : Net α := swapNet N

/-- The public reparametrisation calls. -/
inductive Op | swap | ac | cw | tw
deriving DecidableEq, Repr

/-- Effect of a call on the geometry held by `gsPatchReparameterized`. -/
def Op.net {α : Type} : Op → Net α → Net α
  | .swap => swapNet
  | .ac => acNet
  | .cw => cwNet
  | .tw => twNet

/-- Effect of a call on the geometry held by `gsG1AuxiliaryPatch` (no knot reversal, `gsG1AuxiliaryPatch.h:46-276`). -/
def Op.netAux {α : Type} : Op → Net α → Net α
  | .swap => swapNet
  | .ac => acBasis
  | .cw => cwBasis
  | .tw => twBasis

/-- The bookkeeping state: `rotationNum`, `axisOrientation`, `mapIndex` (`gsPatchReparameterized.h:602-611`). -/
structure Book where
  rot : ℤ
  axis : Bool
  map : Side → Side

/-- Initial bookkeeping, `gsPatchReparameterized.h:32-39`. -/
def Book.init : Book := { rot := 0, axis := false, map := id }

/-- `checkRotation`, `gsPatchReparameterized.h:574-578`. -/
def checkRot (r : ℤ) : ℤ := if r = 4 then 0 else r

/-- Absolute side map written by `swapAxis` (122-125). -/
def mapSwap : Side → Side | .west => .south | .east => .north | .south => .west | .north => .east
/-- Absolute side map written by `rotateParamAntiClock` (214-227). -/
def mapAc (orient : Bool) : Side → Side :=
  if orient = false then fun | .west => .north | .east => .south | .south => .west | .north => .east
  else fun | .west => .west | .east => .east | .south => .north | .north => .south
/-- Absolute side map written by `rotateParamClock` (300-313). -/
def mapCw (orient : Bool) : Side → Side :=
  if orient = false then fun | .west => .south | .east => .north | .south => .east | .north => .west
  else fun | .west => .east | .east => .west | .south => .south | .north => .north
/-- Absolute side map written by `rotateParamAntiClockTwice` (395-408). -/
def mapTw (orient : Bool) : Side → Side :=
  if orient = false then fun | .west => .east | .east => .west | .south => .north | .north => .south
  else fun | .west => .north | .east => .south | .south => .east | .north => .west

/-- Bookkeeping updates of the four calls (`gsPatchReparameterized.h:121-127, 213-231, 299-317, 394-412`).
Note that the anticlockwise turn does not call `checkRotation`. -/
def Book.step (b : Book) : Op → Book
  | .swap => { b with map := mapSwap, axis := true }
  | .ac => { b with map := mapAc b.axis, rot := b.rot + 1 }
  | .cw => { b with map := mapCw b.axis, rot := checkRot (b.rot - 1) }
  | .tw => { b with map := mapTw b.axis, rot := checkRot (b.rot + 2) }

/-- Bookkeeping after a history of calls. -/
def Book.run (h : List Op) : Book := h.foldl Book.step Book.init

/-- Geometry after a history of calls. -/
def runNet {α : Type} (h : List Op) (N : Net α) : Net α := h.foldl (fun M o => o.net M) N

/-- Geometry held by `gsG1AuxiliaryPatch` after a history of calls. -/
def runAux {α : Type} (h : List Op) (N : Net α) : Net α := h.foldl (fun M o => o.netAux M) N

/-- `parametrizeBasisBack`, `gsPatchReparameterized.h:415-441` and `gsG1AuxiliaryPatch.h:311-337`. -/
def back {α : Type} (b : Book) (N : Net α) : Net α :=
  let N1 := if b.rot = 2 then twBasis N
    else if b.rot = -1 then acBasis N
    else if b.rot = 1 then cwBasis N
    else N
  if b.axis then swapBasis N1 else N1

/-- Geometric positions used by the tables: the two canonical interface sides. The tables below model
`gsApproxC1Edge.hpp:210-222` / `gsC1SurfEdge.hpp:45-57` (patch 0, interface goes to the west side). -/
def edgeTable0 : Side → List Op
  | .west => [] | .north => [.cw] | .south => [.ac] | .east => [.tw]

/-- `gsApproxC1Edge.hpp:225-237` / `gsC1SurfEdge.hpp:60-72` (patch 1, interface goes to the south side). -/
def edgeTable1 : Side → List Op
  | .south => [] | .north => [.tw] | .east => [.ac] | .west => [.cw]

/-- `reparametrizeSinglePatch`, `gsApproxC1Edge.hpp:246-279` / `gsC1SurfEdge.hpp:82-113`. -/
def singleTable (orient : Bool) : Side → List Op :=
  if orient then fun | .south => [] | .east => [.cw] | .north => [.tw] | .west => [.ac]
  else fun | .west => [] | .north => [.cw] | .east => [.tw] | .south => [.ac]

/-- `reparametrizeVertexPatches`, `gsApproxC1Vertex.hpp:29-66`. -/
def vertexTable (orient : Bool) : Corner → List Op :=
  if orient = false then fun | .sw => [] | .ne => [.tw] | .se => [.ac] | .nw => [.cw]
  else fun | .sw => [] | .ne => [.tw] | .nw => [.ac] | .se => [.cw]

/-- `computeAuxTopology` / `checkOrientation`: swap the axes when the patch orientation is −1
(`gsApproxC1Edge.hpp:188-195`, `gsApproxC1Vertex.hpp:105-112`). -/
def fixOrient (neg : Bool) : List Op := if neg then [.swap] else []

/-- `reparametrizeInterfacePatches` for the first patch (`gsApproxC1Edge.hpp:199-222`): the table ignores the swap. -/
def ifaceHist0 (neg : Bool) (s : Side) : List Op := fixOrient neg ++ edgeTable0 s
/-- `reparametrizeInterfacePatches` for the second patch (`gsApproxC1Edge.hpp:199-201, 224-237`). -/
def ifaceHist1 (neg : Bool) (s : Side) : List Op := fixOrient neg ++ edgeTable1 s
/-- `reparametrizeSinglePatch` (`gsApproxC1Edge.hpp:242-280`). -/
def singleHist (neg : Bool) (s : Side) : List Op := fixOrient neg ++ singleTable neg s
/-- `reparametrizeVertexPatches` for one patch (`gsApproxC1Vertex.hpp:22-68`). -/
def vertexHist (neg : Bool) (c : Corner) : List Op := fixOrient neg ++ vertexTable neg c

/-- `gsC1SurfVertex::checkOrientation` (93-107) renumbers the corner after a swap. -/
def surfCorner (neg : Bool) : Corner → Corner
  | .se => if neg then .nw else .se
  | .nw => if neg then .se else .nw
  | c => c

/-- `gsC1SurfVertex::reparametrizeG1Vertex` (57-78): swap if negative, then rotate by the renumbered corner. -/
def surfVertexHist (neg : Bool) (c : Corner) : List Op := fixOrient neg ++ vertexTable false (surfCorner neg c)

/-- `gsC1SurfVertex::checkBoundary` (135-156): the two sides recorded for a corner, (right, left). -/
def surfSides : Corner → Side × Side
  | .sw => (.south, .west) | .se => (.east, .south) | .nw => (.west, .north) | .ne => (.north, .east)

/-- `checkBoundary` followed by `swapBdy` (93-98, 158-163). -/
def surfSidesAfter (neg : Bool) (c : Corner) : Side × Side :=
  if neg then ((surfSides c).2, (surfSides c).1) else surfSides c

end Verif.Reparam
