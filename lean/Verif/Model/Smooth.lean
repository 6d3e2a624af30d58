import Verif.Model.Basic
import Mathlib.Data.Rat.Defs
import Mathlib.Logic.Relation
/-!
# Construction of the smoothing matrix (`gsDPatchBase`, `gsSmoothInterfaces`)

Local functions are identified by their patch and their position in the tensor grid (the flat number and the position
determine each other, see C05, C30). Smooth functions (matrix rows) are identified by the local function whose number
`m_mapModified.index` is used for the row: the G+Smo dof mapper numbers the non-eliminated functions injectively.
-/
set_option autoImplicit false
namespace Verif

namespace Corner
/-- The corner with given parameters. -/
def mk (u v : Bool) : Corner := if v then (if u then ne else nw) else (if u then se else sw)
/-- The west/east side through a corner. -/
def uside (c : Corner) : Side := if c.pu then .east else .west
/-- The south/north side through a corner. -/
def vside (c : Corner) : Side := if c.pv then .north else .south
/-- `getContainingSides(2,·)` (G+Smo): direction 0 first. -/
def sides (c : Corner) : List Side := [c.uside, c.vside]
/-- Position of a corner along a side (at its lower or upper end). -/
def tang (c : Corner) (s : Side) : Bool := if s.dir then c.pu else c.pv
end Corner

namespace Side
/-- The corner at the lower/upper end of a side. -/
def corner (s : Side) (t : Bool) : Corner := if s.dir then Corner.mk t s.par else Corner.mk s.par t
/-- `getContainedCorners(2,·)` (G+Smo). -/
def corners (s : Side) : List Corner := [s.corner false, s.corner true]
end Side

namespace Smooth

/-- `gsBoxTopology` with the basis sizes and the sharp-corner flags: `nb` the neighbour across a side, `flip` whether the
direction along the side is reversed, `cl` the corner list of a vertex and `interior` the flag returned with it,
`c0` the flags `m_C0s`. -/
structure Topo (P : Type) where
  n0 : P → ℕ
  n1 : P → ℕ
  nb : P × Side → Option (P × Side)
  flip : P × Side → Bool
  cl : P × Corner → List (P × Corner)
  interior : P × Corner → Bool
  c0 : P × Corner → Bool

/-- A local function: patch and grid position. -/
abbrev Dof (P : Type) := P × ℕ × ℕ

/-- `patchCorner`, `patchSide`. -/
abbrev PC (P : Type) := P × Corner
abbrev PS (P : Type) := P × Side

/-- A matrix entry `(row, column, weight)`. -/
abbrev Entry (P : Type) := Dof P × Dof P × ℚ

variable {P : Type} [DecidableEq P]

/-- Position `k` counted from the lower or the upper end of `n` positions. -/
def fromEnd (n : ℕ) (far : Bool) (k : ℕ) : ℕ := if far then n - 1 - k else k

/-- Number of functions along a side. -/
def len (T : Topo P) (s : PS P) : ℕ := if s.2.dir then T.n0 s.1 else T.n1 s.1

/-- Function at distance `off` from a side and position `m` along it: entry `m` of `boundaryOffset(side,off)` (G+Smo). -/
def sideDof (T : Topo P) (s : PS P) (off m : ℕ) : Dof P :=
  if s.2.dir then (s.1, m, fromEnd (T.n1 s.1) s.2.par off) else (s.1, fromEnd (T.n0 s.1) s.2.par off, m)

/-- `_indexFromVert(k,corner,side,l)`, `gsDPatchBase.hpp:265-368` (see C05 for the address itself). -/
def vert (T : Topo P) (c : PC P) (s : Side) (k l : ℕ) : Dof P :=
  sideDof T (c.1, s) l (fromEnd (len T (c.1, s)) (c.2.tang s) k)

/-- `boundaryInterface::mapCorner` for a corner on side `s` (G+Smo). -/
def cross (T : Topo P) (c : PC P) (s : Side) : Option (PC P) :=
  (T.nb (c.1, s)).map fun t => (t.1, t.2.corner (xor (c.2.tang s) (T.flip (c.1, s))))

/-- All local functions. -/
def valid (T : Topo P) (d : Dof P) : Prop := d.2.1 < T.n0 d.1 ∧ d.2.2 < T.n1 d.1
instance (T : Topo P) (d : Dof P) : Decidable (valid T d) := by unfold valid; infer_instance

/-- Two patch corners glued across one side. -/
def Step (T : Topo P) (c d : PC P) : Prop := ∃ s ∈ c.2.sides, cross T c s = some d

/-- Assumed behaviour of `gsBoxTopology` and of the matching of the bases (not part of this repository), and the
restrictions under which the construction is meant to be used: at least four functions in each direction (so that the
2×2 blocks of the four corners of a patch are disjoint), matching numbers of functions along interfaces, and no
interface folding a patch onto itself along two adjacent sides. -/
structure Ok (T : Topo P) : Prop where
  n0_ge : ∀ p, 4 ≤ T.n0 p
  n1_ge : ∀ p, 4 ≤ T.n1 p
  nb_symm : ∀ s t, T.nb s = some t → T.nb t = some s
  flip_symm : ∀ s t, T.nb s = some t → T.flip t = T.flip s
  nb_len : ∀ s t, T.nb s = some t → len T t = len T s
  no_fold : ∀ p s t, T.nb (p, s) = some (p, t) → t.dir = s.dir ∧ t ≠ s
  cl_self : ∀ c, c ∈ T.cl c
  cl_nodup : ∀ c, (T.cl c).Nodup
  cl_same : ∀ c d, d ∈ T.cl c → ∀ x, x ∈ T.cl d ↔ x ∈ T.cl c
  cl_cross : ∀ c s d, s ∈ c.2.sides → cross T c s = some d → d ∈ T.cl c
  cl_conn : ∀ c d, d ∈ T.cl c → Relation.ReflTransGen (Step T) c d
  interior_iff : ∀ c, T.interior c = true ↔ ∀ d ∈ T.cl c, ∀ s ∈ d.2.sides, (T.nb (d.1, s)).isSome = true
  c0_same : ∀ c d, d ∈ T.cl c → T.c0 d = T.c0 c

/-- The lists the loops of `_computeMapper` and `_computeSmoothMatrix` run over: every interface is listed in one of its two orientations, the listed boundary sides are the
sides without neighbour, every corner is listed. -/
structure Lists (T : Topo P) (il : List (PS P × PS P)) (bl : List (PS P)) (vl : List (PC P)) : Prop where
  il_sound : ∀ i ∈ il, T.nb i.1 = some i.2
  il_complete : ∀ s t, T.nb s = some t → (s, t) ∈ il ∨ (t, s) ∈ il
  bl_iff : ∀ s, s ∈ bl ↔ T.nb s = none
  vl_all : ∀ c, c ∈ vl

/-! ## The dof mapper: which functions are eliminated -/

/-- State of the mapper phase: eliminated functions, `m_sideCheck`, `m_vertCheck`. -/
structure MapSt (P : Type) where
  elim : Dof P → Bool
  schk : PS P → Bool
  vchk : PC P → Bool

/-- `eliminateDof` / `markBoundary` for a list of functions. -/
def elimList (e : Dof P → Bool) (l : List (Dof P)) : Dof P → Bool := fun d => e d || decide (d ∈ l)

/-- The functions at the ends of a side (`selectedIndices`), `gsDPatchBase.hpp:1036-1040, 1308-1312`. -/
def selected (T : Topo P) (s : PS P) (off : ℕ) : List (Dof P) :=
  s.2.corners.flatMap fun c => [vert T (s.1, c) s.2 0 off, vert T (s.1, c) s.2 1 off]

/-- The functions along a side without the selected ones. `std::set_difference` on sorted lists and `std::copy_if`
(`gsDPatchBase.hpp:1044-1062, 1125-1131, 1314-1321`) are both the filter. -/
def withoutEnds (T : Topo P) (s : PS P) (off : ℕ) (l : List (Dof P)) : List (Dof P) :=
  l.filter fun d => decide (d ∉ selected T s off)

/-- Functions of `boundary(side)` in increasing order (G+Smo). -/
def sideList (T : Topo P) (s : PS P) (off : ℕ) : List (Dof P) := (List.range (len T s)).map (sideDof T s off)

/-- One pass `p` of `_computeInterfaceMapper`, `gsDPatchBase.hpp:1285-1329`. -/
def ifaceMapSide (T : Topo P) (st : MapSt P) (s : PS P) : MapSt P :=
  if st.schk s then st
  else { st with elim := elimList st.elim (withoutEnds T s 0 (sideList T s 0)), schk := fun x => x = s || st.schk x }

/-- `_computeInterfaceMapper`, `gsDPatchBase.hpp:1267-1331`. -/
def ifaceMap (T : Topo P) (st : MapSt P) (i : PS P × PS P) : MapSt P :=
  if st.schk i.2 then st else ifaceMapSide T (ifaceMapSide T st i.1) i.2

/-- `_computeBoundaryMapper`, `gsDPatchBase.hpp:1333-1338`. -/
def bdryMap (st : MapSt P) (s : PS P) : MapSt P := { st with schk := fun x => x = s || st.schk x }

/-- Is the side an interface (`m_topology.isInterface`). -/
def isIface (T : Topo P) (p : P) (s : Side) : Bool := (T.nb (p, s)).isSome

/-- The functions eliminated at a corner: `_computeVertexMapper` and the rules it dispatches to,
`gsDPatchBase.hpp:1340-1530`. -/
def vertElim (T : Topo P) (c : PC P) : List (Dof P) :=
  let v := (T.cl c).length
  if T.interior c then c.2.sides.flatMap fun s => [vert T c s 0 0, vert T c s 1 0]
  else if v = 1 then []
  else if v = 2 ∧ ¬ T.c0 c then
    c.2.sides.flatMap fun s => if isIface T c.1 s then [vert T c s 0 0, vert T c s 1 0] else []
  else c.2.sides.flatMap fun s => if isIface T c.1 s then [vert T c s 1 0] else []

/-- `_computeVertexMapper`, `gsDPatchBase.hpp:1340-1370`. -/
def vertMap (T : Topo P) (st : MapSt P) (c : PC P) : MapSt P :=
  if st.vchk c then st
  else { st with elim := elimList st.elim (vertElim T c), vchk := fun x => x = c || st.vchk x }

/-- `_computeMapper`, `gsDPatchBase.hpp:1217-1262`, looping over interfaces `il`, boundary sides `bl` and corners `vl`. -/
def computeMapper (T : Topo P) (il : List (PS P × PS P)) (bl : List (PS P)) (vl : List (PC P)) : MapSt P :=
  let st : MapSt P := { elim := fun _ => false, schk := fun _ => false, vchk := fun _ => false }
  let st := il.foldl (ifaceMap T) st
  let st := bl.foldl bdryMap st
  vl.foldl (vertMap T) st

/-! ## The matrix -/

/-- State of the matrix phase: `m_matrix`, `m_basisCheck` (by row), `m_vertCheck`, `m_sideCheck`. -/
structure St (P : Type) where
  M : Dof P → Dof P → ℚ
  bchk : Dof P → Bool
  vchk : PC P → Bool
  schk : PS P → Bool

/-- One iteration of `_pushAndCheck`, `gsDPatchBase.h:332-342`: entries are assigned, not added. -/
def push1 (st : St P) (e : Entry P) : St P :=
  { st with
    M := fun r c => if r = e.1 ∧ c = e.2.1 then e.2.2 else st.M r c
    bchk := fun r => r = e.1 || st.bchk r }

/-- `_pushAndCheck`. -/
def push (st : St P) (l : List (Entry P)) : St P := l.foldl push1 st

/-- `_handleInteriorVertex`, `gsDPatchBase.hpp:904-965`. `none`: `GISMO_ENSURE` fails (side is no interface). -/
def interiorEntries (T : Topo P) (c : PC P) : Option (List (Entry P)) := do
  let b11 := vert T c c.2.uside 1 1
  let v := (T.cl c).length
  let own : List (Entry P) := [(b11, b11, 1)]
  let b00s : List (Entry P) := (T.cl c).map fun d => (b11, vert T d d.2.uside 0 0, 1 / (v : ℚ))
  let side : Side → Option (List (Entry P)) := fun s => do
    let t ← T.nb (c.1, s)
    let d ← cross T c s
    pure [(b11, vert T c s 1 0, 1 / 2), (b11, vert T d t.2 1 0, 1 / 2)]
  let e1 ← side c.2.uside
  let e2 ← side c.2.vside
  pure (own ++ b00s ++ e1 ++ e2)

/-- `_handleRegularCorner`, `gsDPatchBase.hpp:1533-1563`. -/
def cornerEntries (T : Topo P) (c : PC P) : List (Entry P) :=
  [vert T c c.2.uside 0 0, vert T c c.2.uside 1 0, vert T c c.2.vside 1 0, vert T c c.2.vside 1 1].map fun d => (d, d, 1)

/-- The loop body of `_handleRegularBoundaryVertexSmooth` / `…NonSmooth` for one `k`, `gsDPatchBase.hpp:1593-1610, 1653-1670`. -/
def regularRow (T : Topo P) (c : PC P) (s : Side) (t : PS P) (d : PC P) (k : ℕ) : List (Entry P) :=
  let bk1 := vert T c s k 1
  [(bk1, bk1, 1), (bk1, vert T c s k 0, 1 / 2), (bk1, vert T d t.2 k 0, 1 / 2)]

/-- The interface chosen at a regular boundary vertex, `gsDPatchBase.hpp:1584-1586`. -/
def regularSide (T : Topo P) (c : PC P) : Side := if isIface T c.1 c.2.uside then c.2.uside else c.2.vside

/-- `_handleRegularBoundaryVertexSmooth` (`ks = [0,1]`, lines 1566-1617) and `…NonSmooth` (`ks = [1]`, lines 1620-1677). -/
def regularEntries (T : Topo P) (c : PC P) (ks : List ℕ) : Option (List (Entry P)) := do
  let s := regularSide T c
  let t ← T.nb (c.1, s)
  let d ← cross T c s
  pure (ks.flatMap fun k => regularRow T c s t d k)

/-- One side at an irregular boundary vertex, `gsDPatchBase.hpp:1703-1757`. -/
def irregularSide (T : Topo P) (c : PC P) (s : Side) : List (Entry P) :=
  let b11 := vert T c c.2.uside 1 1
  match T.nb (c.1, s), cross T c s with
  | some t, some d => [(b11, vert T c s 1 0, 1 / 2), (b11, vert T d t.2 1 0, 1 / 2)]
  | _, _ => [(vert T c s 1 0, vert T c s 1 0, 1)]

/-- `_handleIrregularBoundaryVertexNonSmooth` (and `…Smooth`, which forwards to it), `gsDPatchBase.hpp:1680-1769`. -/
def irregularEntries (T : Topo P) (c : PC P) : List (Entry P) :=
  let b11 := vert T c c.2.uside 1 1
  let b00 := vert T c c.2.uside 0 0
  [(b11, b11, 1)] ++ irregularSide T c c.2.uside ++ irregularSide T c c.2.vside ++ [(b00, b00, 1)]

/-- The dispatch of `_handleVertex`, `gsDPatchBase.hpp:968-998`. -/
def vertEntries (T : Topo P) (c : PC P) : Option (List (Entry P)) :=
  let v := (T.cl c).length
  if T.interior c then interiorEntries T c
  else if v = 1 then some (cornerEntries T c)
  else if v = 2 ∧ ¬ T.c0 c then regularEntries T c [0, 1]
  else if v = 2 then regularEntries T c [1]
  else if 2 < v then some (irregularEntries T c)
  else none

/-- `_handleVertex`. -/
def handleVertex (T : Topo P) (st : St P) (c : PC P) : Option (St P) :=
  if st.vchk c then some st
  else (vertEntries T c).map fun l => { push st l with vchk := fun x => x = c || st.vchk x }

/-- `matchWith(iface,other,·,·,offset)` (G+Smo): the functions at distance `off` on both sides, in matching order. -/
def matchWith (T : Topo P) (i : PS P × PS P) (off : ℕ) : List (Dof P) × List (Dof P) :=
  (sideList T i.1 off,
   (List.range (len T i.1)).map fun m => sideDof T i.2 off (if T.flip i.1 then len T i.1 - 1 - m else m))

/-- The coupling loop of `_handleInterface` for one `p`, `gsDPatchBase.hpp:1073-1095`. -/
def ifaceRows (o a b : List (Dof P)) : List (Entry P) :=
  (o.zip (a.zip b)).flatMap fun x => [(x.1, x.1, 1), (x.1, x.2.1, 1 / 2), (x.1, x.2.2, 1 / 2)]

/-- Entries of `_handleInterface`, `gsDPatchBase.hpp:1010-1098`. -/
def ifaceEntries (T : Topo P) (i : PS P × PS P) : List (Entry P) :=
  let a := withoutEnds T i.1 0 (matchWith T i 0).1
  let b := withoutEnds T i.2 0 (matchWith T i 0).2
  let oa := withoutEnds T i.1 1 (matchWith T i 1).1
  let ob := withoutEnds T i.2 1 (matchWith T i 1).2
  ifaceRows oa a b ++ ifaceRows ob b a

/-- `_handleInterface`, `gsDPatchBase.hpp:1001-1107`. -/
def handleIface (T : Topo P) (st : St P) (i : PS P × PS P) : St P :=
  if st.schk i.1 || st.schk i.2 then st
  else { push st (ifaceEntries T i) with schk := fun x => x = i.1 || x = i.2 || st.schk x }

/-- `_handleBoundary`, `gsDPatchBase.hpp:1110-1155`. -/
def handleBdry (T : Topo P) (st : St P) (s : PS P) : St P :=
  { push st ((withoutEnds T s 0 (sideList T s 0)).map fun d => (d, d, 1)) with schk := fun x => x = s || st.schk x }

/-- One iteration of `_handleInterior`, `gsDPatchBase.hpp:1164-1178`. -/
def interior1 (elim : Dof P → Bool) (st : St P) (d : Dof P) : St P :=
  if elim d || st.bchk d then st else push1 st (d, d, 1)

/-- `_computeSmoothMatrix`, `gsDPatchBase.hpp:1182-1215`: corners `vl`, interfaces `il`, boundary sides `bl`, then all local
functions `dl`. -/
def smoothMatrix (T : Topo P) (elim : Dof P → Bool) (il : List (PS P × PS P)) (bl : List (PS P)) (vl : List (PC P))
    (dl : List (Dof P)) : Option (St P) :=
  let st : St P := { M := fun _ _ => 0, bchk := fun _ => false, vchk := fun _ => false, schk := fun _ => false }
  (vl.foldlM (handleVertex T) st).map fun st =>
    let st := il.foldl (handleIface T) st
    let st := bl.foldl (handleBdry T) st
    dl.foldl (interior1 elim) st

/-- `_performChecks(true)`, `gsDPatchBase.hpp:860-873`, over the given sides, corners and smooth functions. -/
def performChecks (st : St P) (sl : List (PS P)) (vl : List (PC P)) (rows : List (Dof P)) : Bool :=
  sl.all st.schk && vl.all st.vchk && rows.all st.bchk

/-! ## Counting (`gsSmoothInterfaces.hpp`) -/

/-- Functions of one vertex counted by `_countDoFs`, `gsSmoothInterfaces.hpp:180-193`. -/
def vertexCount (T : Topo P) (c : PC P) : ℤ :=
  let v : ℤ := (T.cl c).length
  if ¬ T.interior c ∧ v = 1 then 4
  else if ¬ T.interior c ∧ v = 2 ∧ ¬ T.c0 c then 4
  else if ¬ T.interior c ∧ v > 2 ∧ ¬ T.c0 c then 2 * v + 2
  else if ¬ T.interior c ∧ v = 2 ∧ T.c0 c then 6
  else if ¬ T.interior c ∧ v > 2 ∧ T.c0 c then 2 * v + 2
  else v

/-- The vertex loop of `_countDoFs`, `gsSmoothInterfaces.hpp:164-196`: `passed` marks all corners of a counted vertex. -/
def countVertices (T : Topo P) : List (PC P) → List (PC P) → ℤ
  | [], _ => 0
  | c :: vl, passed =>
    if c ∈ passed then countVertices T vl passed else vertexCount T c + countVertices T vl (T.cl c ++ passed)

/-- `_countDoFs`, `gsSmoothInterfaces.hpp:110-201`, over ℤ (the `size_t` computation is this value modulo 2⁶⁴): patches `pl`,
interfaces `il`, boundary sides `bl`, corners `vl`. -/
def countDofs (T : Topo P) (pl : List P) (il : List (PS P × PS P)) (bl : List (PS P)) (vl : List (PC P)) : ℤ :=
  (pl.map fun p => (T.n0 p * T.n1 p : ℤ) - 2 * (T.n1 p + T.n1 p + (T.n0 p - 4) + (T.n0 p - 4))).sum
  + (il.map fun i => ((len T i.1 : ℤ) - 4) + ((len T i.2 : ℤ) - 4)).sum
  + (bl.map fun s => ((len T s : ℤ) - 4) + ((len T s : ℤ) - 4)).sum
  + countVertices T vl []

/-- The additions and subtractions of the first loop of `_countDoFs`, in order (`gsSmoothInterfaces.hpp:115-126`): the
`size_t` variable wraps around if a partial sum is negative. -/
def sizeSteps (T : Topo P) (pl : List P) : List ℤ :=
  pl.flatMap fun p => (T.n0 p * T.n1 p : ℤ) :: [0, 1].flatMap fun _k : ℕ =>
    [-(T.n1 p : ℤ), -(T.n1 p : ℤ), -((T.n0 p : ℤ) - 4), -((T.n0 p : ℤ) - 4)]

end Smooth
end Verif
