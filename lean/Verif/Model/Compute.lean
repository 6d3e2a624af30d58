import Verif.Model.Basic
/-!
# The state of a construction during `compute()`

`gsDPatchBase.hpp:26-37` (`compute`), `:791-855` (`_initialize` and its parts), `:890-903` (`_resetChecks`), `:1176-1258` (`_computeSmoothMatrix`,
`_computeMapper`), and the overrides in `gsDPatch.hpp:143-181`, `:270-330`, `gsAlmostC1.hpp:399-425`, `:504-555`, `:591-683`, `gsSmoothInterfaces.hpp:87-108`.

Only the flow of data is modelled: which members every step reads, and which it assigns, appends to or leaves as they are. What is computed from the members that are
read is an arbitrary function (`Parts`); for many of these functions there are separate models (`Smooth`, `RefBox`, `EV`). Assertions are left out.
-/
set_option autoImplicit false

namespace Verif.Compute

/-- Geometry, options and topology, one basis, matrices, mappers. -/
structure Types where
  Patches : Type
  Options : Type
  Topology : Type
  Basis : Type
  Matrix : Type
  Mapper : Type

/-- The members `m_sideCheck`, `m_vertCheck`, `m_basisCheck`, `m_nSides`, `m_nVerts`, `gsDPatchBase.h`. -/
structure Checks where
  nSides : ℕ
  nVerts : ℕ
  side : List Bool
  vert : List Bool
  basis : List Bool

/-- The members of `gsDPatchBase`, and `m_bases0`, `m_tMatrices` of `gsDPatch`, `m_RefPatches` of `gsAlmostC1`. The first four are set by the constructor and `options()`. -/
structure State (Y : Types) where
  patches : Y.Patches
  bbases : List Y.Basis
  topology : Y.Topology
  options : Y.Options
  checks : Checks
  c0s : List Bool
  bases0 : List Y.Basis
  bases : List Y.Basis
  refPatches : Y.Patches
  size : ℕ
  mapModified : Y.Mapper
  mapOriginal : Y.Mapper
  matrix : Y.Matrix
  tMatrices : List Y.Matrix
  tMatrix : Y.Matrix
  computed : Bool

/-- What the steps compute from the members they read. -/
structure Parts (Y : Types) where
  /-- `2*nInterfaces() + nBoundary()`, `gsDPatchBase.hpp:813` -/
  nSides : Y.Topology → ℕ
  /-- switch `SharpCorners`, `:797` -/
  sharp : Y.Options → Bool
  /-- `getSharpCorners`, `:47-125`; the second result is `m_vertCheck` -/
  sharpCorners : Y.Options → Y.Patches → List Y.Basis → Y.Topology → ℕ → List Bool × List Bool
  /-- `_countDoFs` -/
  count : List Y.Basis → Y.Topology → List Bool → ℕ
  /-- `gsDofMapper(bases)` -/
  mapper : List Y.Basis → Y.Mapper
  /-- `resize` of a sparse matrix to `size x totalSize()`, without entries -/
  zero : ℕ → List Y.Basis → Y.Matrix
  /-- `resize` of a sparse matrix to `size x freeSize()`, without entries -/
  zeroFree : ℕ → Y.Mapper → Y.Matrix
  /-- `_computeMapper`: both mappers and the checks after the loops -/
  mappers : List Y.Basis → Y.Topology → List Bool → Checks → Y.Mapper → Y.Mapper → Y.Mapper × Y.Mapper × Checks
  /-- `_computeSmoothMatrix`: the matrix and the checks after the loops -/
  smooth : List Y.Basis → Y.Topology → List Bool → Checks → Y.Mapper → Y.Mapper → Y.Matrix → Y.Matrix × Checks
  /-- `gsDPatch::_initTHB` for one patch: a THB basis with three levels, `gsDPatch.hpp:148-175` -/
  thb : Y.Basis → Y.Basis
  /-- `gsDPatch::_initBasis`: the refined bases and transfer matrices, `gsDPatch.hpp:273-287` -/
  refine : List Y.Basis → Y.Topology → Y.Options → List (Y.Basis × Y.Matrix)
  /-- `gsDPatch::_makeTHB`: the bases and the transfer matrix, `gsDPatch.hpp:294-323` -/
  refineAgain : List Y.Basis → List Y.Basis → Y.Topology → Y.Options → List Y.Basis × Y.Matrix
  /-- `gsDPatch::_computeEVs`: the matrix -/
  evs : List Y.Basis → Y.Topology → Y.Options → Y.Mapper → Y.Mapper → Y.Matrix → Y.Matrix → Y.Matrix
  /-- `gsAlmostC1::_initTHB`: the patches as THB splines, `gsAlmostC1.hpp:408-424` -/
  thbPatches : Y.Patches → Y.Patches
  /-- bases of the patches, `gsMultiBasis(mp)` -/
  basesOf : Y.Patches → List Y.Basis
  /-- `_getSpecialCornerLists(m_RefPatches).size()!=0`, `gsAlmostC1.hpp:559-588` -/
  special : Y.Patches → List Bool → Bool
  /-- `gsAlmostC1::_makeTHB`: the refined patches and the transfer matrix, `gsAlmostC1.hpp:511-547` -/
  refinePatches : Y.Patches → Y.Patches → Y.Topology → List Bool → Y.Mapper → Y.Matrix → Y.Patches × Y.Matrix
  /-- `gsAlmostC1::_computeEVs`: the matrix and `m_vertCheck`, `gsAlmostC1.hpp:603-682` -/
  triangles : Y.Patches → Y.Patches → List Y.Basis → List Y.Basis → Y.Topology → List Bool → ℕ → Y.Mapper → Y.Mapper → Y.Matrix → Y.Matrix → Y.Matrix × List Bool

variable {Y : Types}

/-- `_initChecks`, `gsDPatchBase.hpp:809-820`. -/
def initChecks (F : Parts Y) (s : State Y) : State Y :=
  { s with checks := { s.checks with
      nSides := F.nSides s.topology, nVerts := 4 * s.bbases.length,
      side := List.replicate (F.nSides s.topology) false, vert := List.replicate (4 * s.bbases.length) false } }

/-- Sharp corners, `gsDPatchBase.hpp:796-800`. -/
def initSharp (F : Parts Y) (s : State Y) : State Y :=
  if F.sharp s.options then
    let r := F.sharpCorners s.options s.patches s.bbases s.topology s.checks.vert.length
    { s with c0s := r.1, checks := { s.checks with vert := r.2 } }
  else { s with c0s := List.replicate s.checks.nVerts false }

/-- `_initMappers` and `_initMatrix`, `gsDPatchBase.hpp:843-854`. -/
def initMappers (F : Parts Y) (s : State Y) : State Y :=
  { s with mapModified := F.mapper s.bases, mapOriginal := F.mapper s.bases, matrix := F.zero s.size s.bases }

/-- `_countDoFs`, `gsDPatch.hpp:642-729`, `gsAlmostC1.hpp:685-784`, `gsSmoothInterfaces.hpp:111-198`: starts with `m_size = 0`. -/
def countDoFs (F : Parts Y) (s : State Y) : State Y := { s with size := F.count s.bases s.topology s.c0s }

/-- `_resetChecks`, `gsDPatchBase.hpp:890-903`. -/
def resetChecks (basis : Bool) (s : State Y) : State Y :=
  { s with checks := { s.checks with
      side := List.replicate s.checks.nSides false, vert := List.replicate s.checks.nVerts false,
      basis := if basis then List.replicate s.size false else s.checks.basis } }

/-- `_computeMapper`, `gsDPatchBase.hpp:1209-1258`; the checks of basis functions are not used in it. -/
def computeMapper (F : Parts Y) (s : State Y) : State Y :=
  let t := resetChecks false s
  let r := F.mappers t.bases t.topology t.c0s { t.checks with basis := [] } t.mapModified t.mapOriginal
  { t with mapModified := r.1, mapOriginal := r.2.1, checks := { r.2.2 with nSides := t.checks.nSides, nVerts := t.checks.nVerts, basis := t.checks.basis },
           matrix := F.zeroFree t.size r.2.1 }

/-- `_computeSmoothMatrix`, `gsDPatchBase.hpp:1176-1206`. -/
def computeSmoothMatrix (F : Parts Y) (s : State Y) : State Y :=
  let t := resetChecks true s
  let r := F.smooth t.bases t.topology t.c0s t.checks t.mapModified t.mapOriginal t.matrix
  { t with matrix := r.1, checks := r.2 }

/-- The steps that the classes override. -/
structure Class (Y : Types) where
  initTHB : State Y → State Y
  initBasis : State Y → State Y
  makeTHB : State Y → State Y
  computeEVs : State Y → State Y

/-- `_initialize`, `gsDPatchBase.hpp:791-806`. -/
def initializeAll (F : Parts Y) (C : Class Y) (s : State Y) : State Y :=
  initMappers F (countDoFs F (C.initBasis (C.initTHB (initSharp F (initChecks F s)))))

/-- `compute`, `gsDPatchBase.hpp:26-37`. -/
def compute (F : Parts Y) (C : Class Y) (s : State Y) : State Y :=
  { C.computeEVs (C.makeTHB (computeSmoothMatrix F (computeMapper F (initializeAll F C s)))) with computed := true }

/-- `gsSmoothInterfaces`, `gsSmoothInterfaces.hpp:87-108`. -/
def smoothInterfaces : Class Y where
  initTHB s := s
  initBasis s := { s with bases := s.bbases }
  makeTHB s := s
  computeEVs s := s

/-- `gsDPatch`, `gsDPatch.hpp:143-181`, `:270-330`, `:331-`. `_initTHB` adds the new bases to `m_bases0`. -/
def dPatch (F : Parts Y) : Class Y where
  initTHB s := { s with bases0 := s.bases0 ++ s.bbases.map F.thb, bases := s.bases0 ++ s.bbases.map F.thb }
  initBasis s :=
    let r := F.refine s.bases0 s.topology s.options
    { s with bases0 := r.map (·.1), tMatrices := r.map (·.2), bases := r.map (·.1) }
  makeTHB s :=
    let r := F.refineAgain s.bases s.bases0 s.topology s.options
    { s with bases := r.1, tMatrix := r.2, mapOriginal := F.mapper r.1 }
  computeEVs s := { s with matrix := F.evs s.bases s.topology s.options s.mapModified s.mapOriginal s.matrix s.tMatrix }

/-- `gsAlmostC1`, `gsAlmostC1.hpp:399-425`, `:504-555`, `:591-683`. -/
def almostC1 (F : Parts Y) : Class Y where
  initTHB s := { s with refPatches := F.thbPatches s.patches }
  initBasis s := { s with bases := F.basesOf s.patches }
  makeTHB s :=
    let t := if F.special s.refPatches s.c0s then
        let r := F.refinePatches s.patches s.refPatches s.topology s.c0s s.mapModified s.matrix
        { s with refPatches := r.1, tMatrix := r.2, bases := F.basesOf r.1 }
      else s
    { t with mapOriginal := F.mapper t.bases }
  computeEVs s :=
    if F.special s.refPatches s.c0s then
      let r := F.triangles s.patches s.refPatches s.bbases s.bases s.topology s.c0s s.checks.nVerts s.mapModified s.mapOriginal s.matrix s.tMatrix
      { s with matrix := r.1, checks := { s.checks with vert := r.2 } }
    else { s with checks := { s.checks with vert := List.replicate s.checks.vert.length false } }

end Verif.Compute
