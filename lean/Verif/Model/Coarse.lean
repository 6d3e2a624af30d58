import Verif.Model.Spaces
/-!
# Choice of the coarser basis at an interface of the approximate C1 construction (C67)

The same choice is made at four places: `gsApproxC1Spline.hpp:98-147` (spaces of the edges), `:175-232` (spaces of the vertices), `gsApproxC1Edge.hpp:30-63` (functions of the edges) with `gsApproxC1GluingData.h:97-118`, and `gsApproxC1Vertex.h:163-262`
(functions of the vertices).

Knot vectors as in `Model/Spaces.lean`, on one grid for both patches that has with every point its mirror image. The functions are computed on rotated patches whose parameters run along the interface from the same end. The rotation turns the geometry around, but not the knots
of the bases (`gsContainerBasis.h:105-132`, `gsPatchReparameterized.h:118-119`; see C57): the bases are read in the order in which they are stored at all four places. The geometry is given in the direction of the rotated patch; `gsApproxC1Spline.hpp` reads
the geometry before rotation, which runs against it if `rev`.
-/
set_option autoImplicit false
namespace Verif.Coarse
open Spaces

/-- Basis and geometry of a patch along the interface. -/
structure Side where
  basis : Kv
  geo : Kv
  rev : Bool

/-- An interface. -/
structure Iface where
  a : Side
  b : Side

/-- `component(dir).numElements()`. -/
def elements (n : ℕ) (k : Kv) : ℕ := ((inner n).filter fun i => decide (0 < k.mult i)).length + 1

/-- The same knots in the other direction. -/
def mirror (n : ℕ) (k : Kv) : Kv := { k with mult := fun i => k.mult (n - i) }

/-- The geometry before rotation. -/
def Side.stored (n : ℕ) (s : Side) : Kv := if s.rev then mirror n s.geo else s.geo

/-- `gsApproxC1Vertex.h:215-216`, `gsApproxC1GluingData.h:111-112`: the own component unless the other one has fewer elements. -/
def coarser (n : ℕ) (me other : Kv) : Kv := if elements n me > elements n other then other else me

/-- Plus and minus space of the functions of an edge, `gsApproxC1Edge.hpp:30-63`; the same spaces are used for both patches. -/
def edgeFunctions (n : ℕ) (I : Iface) : Option (Kv × Kv) := do
  let s := if elements n I.a.basis > elements n I.b.basis then I.b else I.a
  let kp ← plus n s.geo s.basis
  let km ← minus n s.geo s.basis
  return (kp, km)

/-- Space of the gluing data of a patch, `gsApproxC1GluingData.h:104-118`. -/
def gluingSpace (n : ℕ) (me other : Side) (pt rt : ℤ) : Option Kv := gluing n me.geo (coarser n me.basis other.basis) pt rt

/-- Spaces of a patch along the interface for the functions of a vertex, `gsApproxC1Vertex.h:198-262` and `gsApproxC1GluingData.h:54-62`: plus, minus and gluing data. -/
def vertexFunctions (n : ℕ) (me other : Side) (pt rt : ℤ) : Option (Kv × Kv × Kv) := do
  let k := coarser n me.basis other.basis
  let kg ← gluing n me.geo k pt rt
  let kp ← plus n me.geo k
  let km ← minus n me.geo k
  return (kp, km, kg)

/-- The spaces that the functions of the edge are projected to in the two patches, `gsApproxC1Spline.hpp:98-147`; the knots of the coarser patch are copied as they are. -/
def edgeSpaces (n : ℕ) (I : Iface) (pt rt : ℤ) : Option (Kv × Kv) := do
  let s := if elements n I.a.basis > elements n I.b.basis then I.b else I.a
  let kp ← plus n (s.stored n) s.basis
  let km ← minus n (s.stored n) s.basis
  let kg ← gluing n (s.stored n) s.basis pt rt
  let k0 ← edge n (I.a.stored n) s.basis kp km kg
  let k1 ← edge n (I.b.stored n) s.basis kp km kg
  return (k0, k1)

/-- The space of a patch along the interface that the functions of a vertex are projected to, `gsApproxC1Spline.hpp:189-229`. -/
def vertexSpace (n : ℕ) (me other : Side) (pt rt : ℤ) : Option Kv := vertexIface n (me.stored n) (coarser n me.basis other.basis) pt rt

end Verif.Coarse
