import Verif.Model.SmoothGen
import Verif.Model.Geom
import Mathlib.Data.Prod.Lex
import Mathlib.Data.List.Sort
import Mathlib.Algebra.Field.Defs
import Mathlib.Algebra.CharZero.Defs
import Mathlib.Algebra.BigOperators.Group.List.Basic
/-!
# `gsAlmostC1`: mapper, smoothing matrix, counting, and the step at special vertices

`gsAlmostC1.hpp:281-371`, `:559-1050`. What is not overridden is in `Model/Smooth.lean` (`gsDPatchBase`). Local functions, rows and topology as there. Patches are linearly
ordered (patch numbers). Index selection (`_getLowestIndices`, `_removeLowestIndices`) is modelled for pairs of numbers in `Model/Index.lean` (C07); here the same on
(patch, position).
-/
set_option autoImplicit false
namespace Verif.AlmostC1
open Verif Smooth

variable {P : Type} [LinearOrder P]

/-- The pair (patch, local index) by which indices are sorted, `gsDPatchBase.hpp:466-476, 489-499`. -/
def key (T : Topo P) (d : Dof P) : P ×ₗ ℕ := toLex (d.1, d.2.1 + T.n0 d.1 * d.2.2)

/-- `_getLowestIndices`, `gsDPatchBase.hpp:462-481`, if there are at least `n`. -/
def getLowest (T : Topo P) (l : List (Dof P)) (n : ℕ) : List (Dof P) := (l.insertionSort fun a b => key T a ≤ key T b).take n

/-- `_removeLowestIndices`, `gsDPatchBase.hpp:483-504`. `none`: the assertion fails. -/
def removeLowest (T : Topo P) (l : List (Dof P)) (n : ℕ) : Option (List (Dof P)) :=
  if n ≤ l.length then some ((l.insertionSort fun a b => key T b ≤ key T a).take (l.length - n)) else none

/-- `_getInterfaceIndices`, `gsDPatchBase.hpp:506-534`. -/
def indices (T : Topo P) (depth : ℕ) (c : PC P) : List (Dof P) :=
  if depth = 0 then [vert T c c.2.uside 0 0]
  else (c.2.sides.filter fun s => isIface T c.1 s).map fun s => vert T c s depth 0

/-- `_getAllInterfaceIndices`, `gsDPatchBase.hpp:536-550`. -/
def allIndices (T : Topo P) (depth : ℕ) (c : PC P) : List (Dof P) := (T.cl c).flatMap (indices T depth)

/-! ## Mapper -/

/-- `_computeMapperRegularBoundaryVertexSmooth_v2`, `gsDPatchBase.hpp:1389-1433`. -/
def elimRegular (T : Topo P) (c : PC P) : List (Dof P) :=
  c.2.sides.flatMap fun s => if isIface T c.1 s then [vert T c s 0 0, vert T c s 1 0] else []

/-- `_computeMapperIrregularBoundaryVertexNonSmooth_v`, `gsDPatchBase.hpp:1500-1514`. -/
def elimIrregular (T : Topo P) (c : PC P) : List (Dof P) :=
  c.2.sides.flatMap fun s => if isIface T c.1 s then [vert T c s 1 0] else []

/-- The rules dispatched to by `gsAlmostC1::_computeVertexMapper`, `gsAlmostC1.hpp:786-899`: the functions eliminated and the further corners marked as passed. -/
def vertElim (T : Topo P) (c : PC P) : Option (List (Dof P) × List (PC P)) :=
  let v := (T.cl c).length
  if ¬ T.interior c ∧ v = 1 then some ([], [])
  else if ¬ T.interior c ∧ v = 2 ∧ T.c0 c then do
    let l ← removeLowest T (allIndices T 1 c) 1
    pure (l, T.cl c)
  else if ¬ T.interior c ∧ v = 2 ∧ ¬ T.c0 c then some (elimRegular T c, [])
  else if ¬ T.interior c ∧ v > 2 ∧ T.c0 c then some (elimIrregular T c, [])
  else if ¬ T.interior c ∧ v > 2 ∧ ¬ T.c0 c then do
    let l ← removeLowest T (allIndices T 0 c) 3
    pure (allIndices T 1 c ++ l, T.cl c)
  else if T.interior c ∧ v = 4 then some (elimRegular T c, [])
  else if T.interior c ∧ (v = 3 ∨ v > 4) then do
    let l ← removeLowest T (allIndices T 0 c) 3
    pure (l ++ allIndices T 1 c, T.cl c)
  else none

/-- `_computeMapper` with these rules. -/
def computeMapper (T : Topo P) (il : List (PS P × PS P)) (bl : List (PS P)) (vl : List (PC P)) : Option (MapSt P) :=
  computeMapperG T (vertElim T) il bl vl

/-! ## Matrix -/

/-- The functions `1,0` next to the corner along its boundary sides, `gsAlmostC1.hpp:974-983`. -/
def bdryRows (T : Topo P) (c : PC P) : List (Dof P) :=
  (c.2.sides.filter fun s => ! isIface T c.1 s).map fun s => vert T c s 1 0

/-- One side in `_handleIrregularBoundaryVertexSmooth`, `gsAlmostC1.hpp:939-957`. -/
def smoothSide (T : Topo P) (c : PC P) (s : Side) : List (Entry P) :=
  let b11 := vert T c c.2.uside 1 1
  match T.nb (c.1, s), cross T c s with
  | some t, some d => [(b11, vert T c s 1 0, 1 / 2), (b11, vert T d t.2 1 0, 1 / 2)]
  | _, _ => []

/-- `gsAlmostC1::_handleIrregularBoundaryVertexSmooth`, `gsAlmostC1.hpp:907-1000`. `none`: the assertion in line 985 fails. -/
def smoothEntries (T : Topo P) (c : PC P) : Option (List (Entry P)) :=
  let b11 := vert T c c.2.uside 1 1
  if (bdryRows T c).length < 2 then
    some ([(b11, b11, 1)] ++ c.2.sides.flatMap (smoothSide T c) ++ (bdryRows T c).map (fun d => ((d, d, 1) : Entry P)) ++
      (if (bdryRows T c).length = 1 then
        (bdryRows T c).flatMap fun r => (T.cl c).map fun d => ((r, vert T d d.2.uside 0 0, 1 / 2) : Entry P)
       else []))
  else none

/-- The dispatch of `_handleVertex`, `gsDPatchBase.hpp:968-998`, with the handlers of `gsAlmostC1`, `gsAlmostC1.hpp:901-1050`. -/
def vertEntries (T : Topo P) (c : PC P) : Option (List (Entry P)) :=
  let v := (T.cl c).length
  if T.interior c then interiorEntries T c
  else if v = 1 then some (cornerEntries T c)
  else if v = 2 ∧ ¬ T.c0 c then regularEntries T c [0, 1]
  else if v = 2 then some (irregularEntries T c)
  else if 2 < v ∧ ¬ T.c0 c then smoothEntries T c
  else if 2 < v then some (irregularEntries T c)
  else none

/-- Rows marked as handled without an entry: the free functions kept for the triangle, `gsAlmostC1.hpp:1002-1009`, `:1020-1030`, `:1038-1048`. (Line 1011 marks once more a row
that is marked already.) -/
def vertMarked (T : Topo P) (elim : Dof P → Bool) (c : PC P) : List (Dof P) :=
  let v := (T.cl c).length
  if T.interior c then (indices T 0 c).filter fun d => ! elim d
  else if 2 ≤ v ∧ T.c0 c then (indices T 1 c).filter fun d => ! elim d
  else if 2 < v then (indices T 0 c).filter fun d => ! elim d
  else []

/-- `_computeSmoothMatrix` with these handlers. -/
def smoothMatrix (T : Topo P) (elim : Dof P → Bool) (il : List (PS P × PS P)) (bl : List (PS P)) (vl : List (PC P))
    (dl : List (Dof P)) : Option (St P) :=
  smoothMatrixG T (vertEntries T) (vertMarked T elim) (fun _ => []) elim il bl vl dl

/-! ## Counting -/

/-- Functions of one vertex, `gsAlmostC1.hpp:750-778`. -/
def vertexCount (T : Topo P) (c : PC P) : ℤ :=
  let v : ℤ := (T.cl c).length
  if ¬ T.interior c ∧ v = 1 then 4
  else if ¬ T.interior c ∧ v = 2 ∧ ¬ T.c0 c then 4
  else if ¬ T.interior c ∧ v > 2 ∧ ¬ T.c0 c then v + 3 + 2
  else if ¬ T.interior c ∧ v = 2 ∧ T.c0 c then 2 * v + 2 + 1
  else if ¬ T.interior c ∧ v > 2 ∧ T.c0 c then 2 * v + 2
  else if T.interior c ∧ v = 4 then 4
  else v + 3

/-- `gsAlmostC1::_countDoFs`, `gsAlmostC1.hpp:684-784`, over ℤ. -/
def countDofs (T : Topo P) (pl : List P) (il : List (PS P × PS P)) (bl : List (PS P)) (vl : List (PC P)) : ℤ :=
  countDofsG T (vertexCount T) pl il bl vl

/-! ## The step at special vertices -/

/-- The condition in `_getSpecialCornerLists`, `gsAlmostC1.hpp:580-585`. -/
def special (T : Topo P) (c : PC P) : Bool :=
  (T.interior c && (T.cl c).length != 4) || (! T.interior c && decide (2 - (T.c0 c).toNat < (T.cl c).length))

/-- `_getSpecialCornerLists`, `gsAlmostC1.hpp:559-589`, over the corners `vl` in the order of the loops. -/
def specialLists (T : Topo P) (vl : List (PC P)) : List (List (PC P)) :=
  (vl.filter fun c => special T c && ! ((T.cl c).any fun d => decide (d.1 < c.1))).map (T.cl ·)

/-- The rows that carry the triangle, `gsAlmostC1.hpp:633-656` and `:311-321`, `:339-351`. `none`: the vector `tmp` is empty. -/
def triangleRows (T : Topo P) (c : PC P) : Option (List (Dof P)) :=
  if (T.cl c).length = 2 then
    match getLowest T (allIndices T 1 c) 1 with
    | d :: _ => some (allIndices T 0 c ++ [d])
    | [] => none
  else some (getLowest T (allIndices T 0 c) 3)

variable {K F : Type} [DecidableEq K] [Field F]

/-- `m_matrix.prune` for every column of the triangle, `gsAlmostC1.hpp:658-667`. -/
def pruneCols (M : Dof P → K → F) (tri : List (K × (Fin 3 → F))) : Dof P → K → F :=
  fun r k => if k ∈ tri.map (·.1) then 0 else M r k

/-- The loops assigning the barycentric coordinates, `gsAlmostC1.hpp:669-675`. `none`: there are fewer than three rows. -/
def assignTri (M : Dof P → K → F) (rows : List (Dof P)) (tri : List (K × (Fin 3 → F))) : Option (Dof P → K → F) :=
  [0, 1, 2].foldlM (fun M (i : Fin 3) => do
    let r ← rows[i.val]?
    pure (tri.foldl (fun M t => fun r' k => if r' = r ∧ k = t.1 then t.2 i else M r' k) M)) M

/-- Matrix and `m_vertCheck`. -/
structure EvSt (P K F : Type) where
  M : Dof P → K → F
  vchk : PC P → Bool

/-- One turn of the loop of `gsAlmostC1::_computeEVs`, `gsAlmostC1.hpp:615-679`. `tri c`: columns and barycentric coordinates returned by `_makeTriangle`; `none` there, or a
row that is not free, is a failed assertion. -/
def evTurn (T : Topo P) (elim : Dof P → Bool) (tri : PC P → Option (List (K × (Fin 3 → F)))) (st : EvSt P K F) (cs : List (PC P)) : Option (EvSt P K F) := do
  let c ← cs.head?
  if st.vchk c then pure st
  else
    let t ← tri c
    let rows ← triangleRows T c
    if rows.all fun d => ! elim d then
      let M ← assignTri (pruneCols st.M t) rows t
      pure { M := M, vchk := fun x => decide (x ∈ cs) || st.vchk x }
    else none

/-- `m_matrix * m_tMatrix.transpose()`, `gsAlmostC1.hpp:606`, over the local functions `dl` before refinement; `tm k d`: the entry of `m_tMatrix` for refined function `k`. -/
def transfer [CharZero F] (dl : List (Dof P)) (M : Dof P → Dof P → ℚ) (tm : K → Dof P → F) : Dof P → K → F :=
  fun r k => (dl.map fun d => (M r d : F) * tm k d).sum

/-- `gsAlmostC1::_computeEVs`, `gsAlmostC1.hpp:591-682`, if there are special vertices (otherwise nothing is done). -/
def computeEVs [CharZero F] (T : Topo P) (elim : Dof P → Bool) (vl : List (PC P)) (dl : List (Dof P)) (tm : K → Dof P → F)
    (tri : PC P → Option (List (K × (Fin 3 → F)))) (M : Dof P → Dof P → ℚ) : Option (EvSt P K F) :=
  (specialLists T vl).foldlM (evTurn T elim tri) { M := transfer dl M tm, vchk := fun _ => false }

/-! ## Coefficients -/

variable {V : Type}

/-- Coefficients and `m_vertCheck`. -/
structure CoefSt (P V : Type) where
  coef : Dof P → V
  vchk : PC P → Bool

/-- `coefs.row(rowIndices[j]) = Cg.col(j)`, `gsAlmostC1.hpp:323-328, 353-358`. -/
def assignRows (coef : Dof P → V) (rows : List (Dof P)) (cg : Fin 3 → V) : Option (Dof P → V) :=
  [0, 1, 2].foldlM (fun f (j : Fin 3) => do
    let r ← rows[j.val]?
    pure fun d => if d = r then cg j else f d) coef

/-- The conditions of `gsAlmostC1::_preCoefficients`, `gsAlmostC1.hpp:305`, `:333`. -/
def corrected (T : Topo P) (c : PC P) : Bool :=
  (decide (2 < (T.cl c).length) && ! ((T.cl c).length == 4 && T.interior c)) || ((T.cl c).length == 2 && T.c0 c)

/-- One turn of the loop of `gsAlmostC1::_preCoefficients`, `gsAlmostC1.hpp:293-369`; `corners c`: the corners of the triangle. -/
def preTurn (T : Topo P) (elim : Dof P → Bool) (corners : PC P → Option (Fin 3 → V)) (st : CoefSt P V) (c : PC P) : Option (CoefSt P V) :=
  if st.vchk c then pure st
  else if corrected T c then do
    let cg ← corners c
    let rows ← triangleRows T c
    if rows.all fun d => ! elim d then
      let f ← assignRows st.coef rows cg
      pure { coef := f, vchk := fun x => decide (x ∈ T.cl c) || st.vchk x }
    else none
  else pure { st with vchk := fun x => x = c || st.vchk x }

/-- `gsAlmostC1::_preCoefficients`, `gsAlmostC1.hpp:281-371`; `free`: the coefficients from `freeCoefficients`. -/
def preCoefficients (T : Topo P) (elim : Dof P → Bool) (corners : PC P → Option (Fin 3 → V)) (vl : List (PC P)) (free : Dof P → V) : Option (CoefSt P V) :=
  vl.foldlM (preTurn T elim corners) { coef := free, vchk := fun _ => false }

/-! ## The triangle of a vertex, and the run -/

noncomputable section

/-- `m_mapOriginal.index` of the refined functions `0,0`, `0,1`, `1,0`, `1,1` at all corners, in the order of `uind`, `gsAlmostC1.hpp:110-130`. `at' d i j`: the function
`_indexFromVert(i,d,csides[0],j)` of the refined basis. -/
def triKeys (T : Topo P) (at' : PC P → ℕ → ℕ → K) (c : PC P) : List K :=
  (T.cl c).flatMap fun d => [at' d 0 0, at' d 0 1, at' d 1 0, at' d 1 1]

/-- `_makeTriangle`, `gsAlmostC1.hpp:86-222`: corners, and columns with their barycentric coordinates. `mid c`: position of the vertex, evaluated on the patch of `c`; `normal c`: the
average normal (`none` for planar targets); `pts`: control points of the refined patches. -/
def triangle (T : Topo P) (at' : PC P → ℕ → ℕ → K) (normal : PC P → Option Geom.V3) (mid : PC P → Geom.V3) (pts : K → Geom.V3) (c : PC P) :
    Option ((Fin 3 → Geom.V3) × List (K × (Fin 3 → ℝ))) := do
  let t ← Geom.makeTriangle (normal c) (mid c) ((triKeys T at' c).map pts)
  pure (t.1, (triKeys T at' c).zip t.2)

/-- `_computeMapper`, `_computeSmoothMatrix`, `_computeEVs` as called by `compute()`, `gsDPatchBase.hpp:26-36`: mapper, matrix before and after the last step. -/
def almost (T : Topo P) (at' : PC P → ℕ → ℕ → K) (normal : PC P → Option Geom.V3) (mid : PC P → Geom.V3) (pts : K → Geom.V3) (tm : K → Dof P → ℝ)
    (il : List (PS P × PS P)) (bl : List (PS P)) (vl : List (PC P)) (dl : List (Dof P)) : Option (MapSt P × St P × EvSt P K ℝ) := do
  let ms ← computeMapper T il bl vl
  let st ← smoothMatrix T ms.elim il bl vl dl
  let ev ← computeEVs T ms.elim vl dl tm (fun c => (triangle T at' normal mid pts c).map Prod.snd) st.M
  pure (ms, st, ev)

/-- The coefficients `_preCoefficients` computes for that run. -/
def almostCoefs (T : Topo P) (at' : PC P → ℕ → ℕ → K) (normal : PC P → Option Geom.V3) (mid : PC P → Geom.V3) (pts : K → Geom.V3)
    (il : List (PS P × PS P)) (bl : List (PS P)) (vl : List (PC P)) (free : Dof P → Geom.V3) : Option (Dof P → Geom.V3) := do
  let ms ← computeMapper T il bl vl
  let st ← preCoefficients T ms.elim (fun c => (triangle T at' normal mid pts c).map Prod.fst) vl free
  pure st.coef

end

end Verif.AlmostC1
