import Verif.Model.Repair
/-!
# Repair of a multi-patch hierarchical basis

`repairPatches`, `_innerBoxesAreSuitable`, `_boxesMatchNeighbours`, `_addBoundaryBox`, `_addFunBox`, `_addBox` of `gsMPBESHSplineBasis.hpp:330-561`.

The hierarchical bases (G+Smo) are modelled by the level of every cell of the finest grid. Inner knots of every level are simple, knot vectors are open, and every level halves the cells of the level before.
-/
set_option autoImplicit false
namespace Verif.HRepair
open Verif Repair

/-- Topology, highest level, number of cells of level 0 and degree in the directions u (`false`) and v (`true`), and `m_incrSmoothnessDegree`. -/
structure Geo where
  T : Topo
  L : ℕ
  n0 : ℕ → Bool → ℕ
  deg : ℕ → Bool → ℕ
  incr : ℕ

/-- Number of cells of level `l`. -/
def numCells (G : Geo) (p l : ℕ) (d : Bool) : ℕ := G.n0 p d * 2 ^ l

/-- Number of functions of level `l`. -/
def numFun (G : Geo) (p l : ℕ) (d : Bool) : ℕ := numCells G p l d + G.deg p d

/-- `dist_u`, `dist_v`, `gsMPBESHSplineBasis.hpp:378-379`, `:486-487`. -/
def dist (G : Geo) (p : ℕ) (d : Bool) : ℕ := 2 * min (G.deg p d) (G.incr + 1)

/-- The levels of the finest cells of every patch; cell `(u,v)` is entry `u + N * v`. -/
abbrev St := List (List ℕ)

def lev (G : Geo) (st : St) (p u v : ℕ) : ℕ := (st.getD p []).getD (u + numCells G p G.L false * v) 0

/-- First cell in the support of function `i`; `supportIndex_into` (G+Smo). -/
def supLo (G : Geo) (p : ℕ) (d : Bool) (i : ℕ) : ℕ := i - G.deg p d

/-- End of the support of function `i` of level `l`. -/
def supHi (G : Geo) (p l : ℕ) (d : Bool) (i : ℕ) : ℕ := min (i + 1) (numCells G p l d)

/-- A box in cells of its level. -/
structure Box where
  l : ℕ
  u0 : ℕ
  v0 : ℕ
  u1 : ℕ
  v1 : ℕ
  deriving DecidableEq

/-- Is the cell `(u,v)` of the finest grid in the box? -/
def inBox (G : Geo) (b : Box) (u v : ℕ) : Bool :=
  decide (b.u0 * 2 ^ (G.L - b.l) ≤ u) && decide (u < b.u1 * 2 ^ (G.L - b.l)) && decide (b.v0 * 2 ^ (G.L - b.l) ≤ v) && decide (v < b.v1 * 2 ^ (G.L - b.l))

/-- All cells of the box have at least level `m`. -/
def inside (G : Geo) (st : St) (p m : ℕ) (b : Box) : Bool :=
  (List.range' (b.u0 * 2 ^ (G.L - b.l)) (b.u1 * 2 ^ (G.L - b.l) - b.u0 * 2 ^ (G.L - b.l))).all fun u =>
    (List.range' (b.v0 * 2 ^ (G.L - b.l)) (b.v1 * 2 ^ (G.L - b.l) - b.v0 * 2 ^ (G.L - b.l))).all fun v => decide (m ≤ lev G st p u v)

/-- Support of function `(i,j)` of level `l`. -/
def supp (G : Geo) (p l i j : ℕ) : Box := ⟨l, supLo G p false i, supLo G p true j, supHi G p l false i, supHi G p l true j⟩

/-- Function `(i,j)` of level `l` is in the hierarchical basis (G+Smo). -/
def active (G : Geo) (st : St) (p l i j : ℕ) : Bool := inside G st p l (supp G p l i j) && !inside G st p (l + 1) (supp G p l i j)

/-- Number `k` along side `s` of a patch, in layer `m` from the side, as function `(i,j)`. -/
def layerFun (G : Geo) (p l : ℕ) : Side → ℕ → ℕ → ℕ × ℕ
  | .west, m, k => (m, k)
  | .east, m, k => (numFun G p l false - 1 - m, k)
  | .south, m, k => (k, m)
  | .north, m, k => (k, numFun G p l true - 1 - m)

/-- `activeBoundaryFunctionsOfLevel` (G+Smo). -/
def actives (G : Geo) (st : St) (p l : ℕ) (s : Side) : List Bool :=
  (List.range (numFun G p l (!s.dir))).map fun k => active G st p l (layerFun G p l s 0 k).1 (layerFun G p l s 0 k).2

/-- `refineElements` (G+Smo): the cells in a box get at least its level. -/
def refine (G : Geo) (st : St) (p : ℕ) (bs : List Box) : St :=
  st.set p ((List.range (numCells G p G.L false * numCells G p G.L true)).map fun c =>
    bs.foldl (fun m b => if inBox G b (c % numCells G p G.L false) (c / numCells G p G.L false) then max m b.l else m)
      (lev G st p (c % numCells G p G.L false) (c / numCells G p G.L false)))

/-- `_addBox`, `gsMPBESHSplineBasis.hpp:544-561`; `query3` (G+Smo) is the lowest level in the box. -/
def addBox (G : Geo) (st : St) (p : ℕ) (b : Box) : List Box :=
  if b.u0 < b.u1 ∧ b.v0 < b.v1 ∧ inside G st p b.l b = false then [b] else []

/-- Is the side an interface? -/
def iface (G : Geo) (p : ℕ) (s : Side) : Bool := (G.T.nb p s).isSome

/-- Turn of the loop in `_innerBoxesAreSuitable`, `gsMPBESHSplineBasis.hpp:392-414`, for a box `b` of the tree. `none`: a box that does not fit in the patch. -/
def innerBox (G : Geo) (st : St) (p : ℕ) (b : Box) : Option (List Box) :=
  let nu := numCells G p b.l false
  let nv := numCells G p b.l true
  if b.l = 0 then some []
  else if 0 < b.u0 ∧ b.u1 < nu ∧ 0 < b.v0 ∧ b.v1 < nv then some []
  else if nu < dist G p false ∨ nv < dist G p true then none
  else some (
    (if iface G p .west ∧ b.u0 = 0 ∧ b.u1 < dist G p false then addBox G st p { b with u1 := dist G p false } else []) ++
    (if iface G p .east ∧ b.u1 = nu ∧ nu - dist G p false < b.u0 then addBox G st p { b with u0 := nu - dist G p false } else []) ++
    (if iface G p .south ∧ b.v0 = 0 ∧ b.v1 < dist G p true then addBox G st p { b with v1 := dist G p true } else []) ++
    (if iface G p .north ∧ b.v1 = nv ∧ nv - dist G p true < b.v0 then addBox G st p { b with v0 := nv - dist G p true } else []))

/-- `_innerBoxesAreSuitable`, `gsMPBESHSplineBasis.hpp:373-416`, for the boxes `leaves` of the tree of the patch. -/
def innerBoxes (G : Geo) (st : St) (p : ℕ) : List Box → Option (List Box)
  | [] => some []
  | b :: bs => do
    let x ← innerBox G st p b
    let y ← innerBoxes G st p bs
    pure (x ++ y)

/-- First and last index of every maximal run of `true`; the loop `gsMPBESHSplineBasis.hpp:454-469`. `k` is the index of the head of the list, `cur` the start of the current run. -/
def runs : ℕ → Option ℕ → List Bool → List (ℕ × ℕ)
  | k, some a, [] => [(a, k - 1)]
  | _, none, [] => []
  | k, some a, true :: l => runs (k + 1) (some a) l
  | k, some a, false :: l => (a, k - 1) :: runs (k + 1) none l
  | k, none, true :: l => runs (k + 1) (some k) l
  | k, none, false :: l => runs (k + 1) none l

/-- `_addBoundaryBox`, `gsMPBESHSplineBasis.hpp:481-527`, and `_addFunBox`, `gsMPBESHSplineBasis.hpp:529-542`: the box for the functions `start` to `end` along a side, and the sides marked in `sideToCheck`.
`none`: function numbers that do not exist. -/
def addBoundaryBox (G : Geo) (p : ℕ) (s : Side) (l start last : ℕ) : Option (Box × List Side) :=
  let um := numFun G p l false - 1
  let vm := numFun G p l true - 1
  let du := dist G p false
  let dv := dist G p true
  match s with
  | .west => if um < du - 1 then none else some (⟨l, supLo G p false 0, supLo G p true start, supHi G p l false (du - 1), supHi G p l true last⟩,
      (if um ≤ du then [.east] else []) ++ (if start = 0 then [.south] else []) ++ (if vm ≤ last + 1 then [.north] else []))
  | .east => if um < du - 1 then none else some (⟨l, supLo G p false (um - (du - 1)), supLo G p true start, supHi G p l false um, supHi G p l true last⟩,
      (if um ≤ du then [.west] else []) ++ (if start = 0 then [.south] else []) ++ (if vm ≤ last + 1 then [.north] else []))
  | .south => if vm < dv - 1 then none else some (⟨l, supLo G p false start, supLo G p true 0, supHi G p l false last, supHi G p l true (dv - 1)⟩,
      (if vm ≤ dv then [.north] else []) ++ (if start = 0 then [.west] else []) ++ (if um ≤ last + 1 then [.east] else []))
  | .north => if vm < dv - 1 then none else some (⟨l, supLo G p false start, supLo G p true (vm - (dv - 1)), supHi G p l false last, supHi G p l true vm⟩,
      (if vm ≤ dv then [.south] else []) ++ (if start = 0 then [.west] else []) ++ (if um ≤ last + 1 then [.east] else []))

/-- The functions of a level along a side: active in the patch, active in the neighbour; `gsMPBESHSplineBasis.hpp:439-446`. `none`: `s_neigh` is read past its end. -/
def pairs (G : Geo) (st : St) (p l : ℕ) (s : Side) (x : ℕ × Side × Bool) : Option (List (Bool × Bool)) :=
  let sp := actives G st p l s
  let sn := if x.2.2 then actives G st x.1 l x.2.1 else (actives G st x.1 l x.2.1).reverse
  if sn.length < sp.length then none else some (sp.zip sn)

/-- One level of one side, `gsMPBESHSplineBasis.hpp:437-469`: boxes and sides marked in `sideToCheck`. -/
def matchLevel (G : Geo) (st : St) (p : ℕ) (s : Side) (x : ℕ × Side × Bool) (l : ℕ) : Option (List Box × List Side) := do
  let z ← pairs G st p l s x
  let r ← (runs 0 none (z.map fun y => y.2 && !y.1)).mapM fun y => addBoundaryBox G p s l y.1 y.2
  pure (r.map (·.1), (if z.any fun y => y.1 && !y.2 then [s] else []) ++ r.flatMap (·.2))

/-- One side, `gsMPBESHSplineBasis.hpp:429-471`. In the code the levels go up to the highest level of the two patches; there are no active functions above it. -/
def matchSide (G : Geo) (st : St) (p : ℕ) (s : Side) : Option (List Box × List Side) :=
  match G.T.nb p s with
  | none => some ([], [])
  | some x => do
    let r ← (List.range' 1 G.L).mapM (matchLevel G st p s x)
    pure (r.flatMap (·.1), r.flatMap (·.2))

/-- `_boxesMatchNeighbours`, `gsMPBESHSplineBasis.hpp:418-479`: the boxes and `checkPatches`. The result `matched` says that there are no boxes. -/
def matchNeighbours (G : Geo) (st : St) (p : ℕ) : Option (List Box × List ℕ) := do
  let r ← Side.all.mapM (matchSide G st p)
  let flags := r.flatMap (·.2)
  pure (r.flatMap (·.1), Side.all.filterMap fun s => if s ∈ flags then (G.T.nb p s).map (·.1) else none)

/-- `std::find` and `push_back`, `gsMPBESHSplineBasis.hpp:367-369`. -/
def pushAll (q : List ℕ) (c : List ℕ) : List ℕ := c.foldl (fun q x => if x ∈ q then q else q ++ [x]) q

/-- One turn of the loop of `repairPatches`, `gsMPBESHSplineBasis.hpp:340-370`; `leaves` are the boxes of the tree of the patch. The coefficients are not modelled. -/
def turn (G : Geo) (leaves : List Box) (st : St) : List ℕ → Option (St × List ℕ)
  | [] => none
  | p :: q => do
    let b ← innerBoxes G st p leaves
    if b ≠ [] then pure (refine G st p b, q ++ [p])
    else
      let (b, c) ← matchNeighbours G st p
      pure (refine G st p b, pushAll q c)

end Verif.HRepair
