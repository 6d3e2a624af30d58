import Verif.Model.Basic
import Mathlib.Data.List.Sort
/-!
# Addressing of control points and numbering across patches

Models the index helpers of `gsDPatchBase`, `gsMPBESMapTensor`/`gsMPBESMapB2D`, `gsMPBESBasis`.
-/
namespace Verif.Index
open Verif

/-- Tensor-product index `basis->index(i,j)` (G+Smo), first direction fastest. -/
def tidx (n0 i j : ℕ) : ℕ := i + n0 * j

/-- `functionAtCorner` of a tensor basis (G+Smo). -/
def functionAtCorner (n0 n1 : ℕ) (c : Corner) : ℕ :=
  tidx n0 (if c.pu then n0 - 1 else 0) (if c.pv then n1 - 1 else 0)

/-- `_indexFromVert_impl` for a tensor basis, `gsDPatchBase.hpp:309-368`. `none` stands for a failed assertion
(`GISMO_ASSERT`, lines 325-326 etc.) or a raised error (`GISMO_ERROR`, line 332 etc.). -/
def indexFromVertImpl (n0 n1 index : ℕ) (c : Corner) (s : Side) (offset : ℕ) : Option ℕ :=
  match s with
  | .west =>
    if offset < n0 ∧ index < n1 then
      match c with
      | .sw => some (tidx n0 offset index)
      | .nw => some (tidx n0 offset (n1 - 1 - index))
      | _ => none
    else none
  | .east =>
    if offset < n0 ∧ index < n1 then
      match c with
      | .se => some (tidx n0 (n0 - 1 - offset) index)
      | .ne => some (tidx n0 (n0 - 1 - offset) (n1 - 1 - index))
      | _ => none
    else none
  | .south =>
    if offset < n1 ∧ index < n0 then
      match c with
      | .sw => some (tidx n0 index offset)
      | .se => some (tidx n0 (n0 - 1 - index) offset)
      | _ => none
    else none
  | .north =>
    if offset < n1 ∧ index < n0 then
      match c with
      | .nw => some (tidx n0 index (n1 - 1 - offset))
      | .ne => some (tidx n0 (n0 - 1 - index) (n1 - 1 - offset))
      | _ => none
    else none

/-- `_indexFromVert(basis,index,corner,side,offset)`, `gsDPatchBase.hpp:277-302`: the corner function is returned
without looking at the side. -/
def indexFromVert (n0 n1 index : ℕ) (c : Corner) (s : Side) (offset : ℕ) : Option ℕ :=
  if index = 0 ∧ offset = 0 then some (functionAtCorner n0 n1 c) else indexFromVertImpl n0 n1 index c s offset

/-- `boundaryOffset(side,offset)` of a tensor basis (G+Smo): the functions at distance `offset` from the side, in
increasing order. -/
def boundaryOffset (n0 n1 : ℕ) (s : Side) (offset : ℕ) : List ℕ :=
  match s with
  | .west => (List.range n1).map fun j => tidx n0 offset j
  | .east => (List.range n1).map fun j => tidx n0 (n0 - 1 - offset) j
  | .south => (List.range n0).map fun i => tidx n0 i offset
  | .north => (List.range n0).map fun i => tidx n0 i (n1 - 1 - offset)

/-- `_indexFromSides`, `gsDPatchBase.hpp:225-263`. `none`: out-of-range access into the index vector. -/
def indexFromSides (n0 n1 index1 : ℕ) (s1 : Side) (index2 : ℕ) (s2 : Side) : Option ℕ :=
  let ind := boundaryOffset n0 n1 s1 index2
  if s2.par = false then ind[index1]? else
    if index1 < ind.length then ind[ind.length - 1 - index1]? else none

/-- `_vertIndex`, `gsDPatchBase.h` (4*patch + corner − 1). -/
def vertIndex (p : ℕ) (c : Corner) : ℕ := 4 * p + c.idx - 1
/-- `_sideIndex`, `gsDPatchBase.h` (4*patch + side − 1). -/
def sideIndex (p : ℕ) (s : Side) : ℕ := 4 * p + s.idx - 1

/-! ## Numbering across patches (`gsMPBESMapTensor.h`) -/

/-- `_getFirstLocalIndex`, `gsMPBESMapTensor.h` (sum of `localSize(i)` for `i < patch`). -/
def firstLocal (sz : List ℕ) (p : ℕ) : ℕ := (List.range p).foldl (fun a i => a + sz.getD i 0) 0

/-- `_getLocalIndex(patch,patchIndex)`. -/
def localIndex (sz : List ℕ) (p k : ℕ) : ℕ := firstLocal sz p + k

/-- `_getLastLocalIndex`. -/
def lastLocal (sz : List ℕ) (p : ℕ) : ℤ := (firstLocal sz p : ℤ) + sz.getD p 0 - 1

/-- `_getPatch`: subtract sizes while the index is at least the size; running off the end returns the number of
patches. -/
def getPatch : List ℕ → ℕ → ℕ
  | [], _ => 0
  | n :: sz, l => if n ≤ l then 1 + getPatch sz (l - n) else 0

/-- `_getPatchIndex(localIndex)`: subtract the sizes of all patches before `_getPatch(localIndex)`. -/
def patchIndex (sz : List ℕ) (l : ℕ) : ℤ :=
  (List.range (getPatch sz l)).foldl (fun (a : ℤ) i => a - (sz.getD i 0 : ℕ)) l

/-- `_getLocalIndex(patch,u,v)` of `gsMPBESMapB2D.h`: `dims p` are the two sizes of patch `p`. -/
def localIndexUV (dims : List (ℕ × ℕ)) (p u v : ℕ) : ℕ :=
  localIndex (dims.map fun d => d.1 * d.2) p (tidx (dims.getD p (0, 0)).1 u v)

/-- `_getPar(localIndex,par)` of `gsMPBESMapB2D.h` (tensorIndex of the patch index). -/
def getPar (dims : List (ℕ × ℕ)) (l : ℕ) (par : Bool) : ℕ :=
  let sz := dims.map fun d => d.1 * d.2
  let n0 := (dims.getD (getPatch sz l) (0, 0)).1
  let k := (patchIndex sz l).toNat
  if par then k / n0 else k % n0

/-! ## Splitting the coefficient vector (`gsMPBESBasis.hpp`, `gsDPatchBase.hpp`) -/

/-- The first loop of `uniformRefine_withCoefs` (`gsMPBESBasis.hpp:149-159`) and `repairPatches` (230-237), with the running
variable `end` (an `index_t` starting at −1). `coefs.block(start,0,len,…)` is the slice of rows. -/
def splitLoop {α : Type} (coefs : List α) : ℤ → List ℕ → List (List α)
  | _, [] => []
  | e, n :: sz =>
    let start := e + 1
    let e' := start + n - 1
    ((coefs.drop start.toNat).take (e' - start + 1).toNat) :: splitLoop coefs e' sz

/-- Copy a block of rows to position `start` of a row-indexed vector. -/
def writeBlock {α : Type} (v : ℕ → Option α) (start : ℕ) (b : List α) : ℕ → Option α :=
  fun i => if start ≤ i ∧ i < start + b.length then b[i - start]? else v i

/-- The second loop of `uniformRefine_withCoefs` (`gsMPBESBasis.hpp:162-167`) and `repairPatches` (245-251). -/
def joinLoop {α : Type} (v : ℕ → Option α) : ℤ → List (List α) → (ℕ → Option α)
  | _, [] => v
  | e, b :: bs =>
    let start := e + 1
    let e' := start + b.length - 1
    joinLoop (writeBlock v start.toNat b) e' bs

/-- `uniformRefine_withCoefs`: split, refine patch by patch (patch `i` by `f i`), join into a fresh vector.
`none` entries of the result are rows never written. -/
def refineCoefs {α : Type} (f : ℕ → List α → List α) (sz : List ℕ) (coefs : List α) : ℕ → Option α :=
  joinLoop (fun _ => none) (-1) ((splitLoop coefs (-1) sz).mapIdx f)

/-- `exportPatch`, `gsDPatchBase.hpp:203-210`: the block of rows belonging to a patch. -/
def exportBlock {α : Type} (sz : List ℕ) (coefs : List α) (p : ℕ) : List α :=
  (coefs.drop (firstLocal sz p)).take (sz.getD p 0)

/-! ## Selecting lowest corners and indices (`gsDPatchBase.hpp:434-503`) -/

/-- `std::vector::resize(n)`: cut, or fill up with default elements. -/
def resize {α : Type} (dflt : α) (n : ℕ) (l : List α) : List α := l.take n ++ List.replicate (n - l.length) dflt

/-- `_getLowestCorners` (434-446): sort by patch, keep `n`. `sort` is any sorting function for the order by patch;
`std::sort` is not stable, so the order among corners of one patch is unspecified. -/
def getLowestCorners (sort : List (ℕ × Corner) → List (ℕ × Corner)) (l : List (ℕ × Corner)) (n : ℕ) :
    List (ℕ × Corner) := resize (0, Corner.sw) n (sort l)

/-- `_removeLowestCorners` (448-462): assert `n ≤ size`, sort decreasingly by patch, keep `size − n`. -/
def removeLowestCorners (sortGt : List (ℕ × Corner) → List (ℕ × Corner)) (l : List (ℕ × Corner)) (n : ℕ) :
    Option (List (ℕ × Corner)) :=
  if n ≤ l.length then some (resize (0, Corner.sw) (l.length - n) (sortGt l)) else none

/-- Order used by `_getLowestIndices` (470-477). -/
def idxLe (a b : ℕ × ℕ) : Bool := decide (a.1 < b.1) || (decide (a.1 = b.1) && decide (a.2 ≤ b.2))

/-- `_getLowestIndices` (464-483). The order is total on pairs, so every sorting function gives the same list; merge sort
stands for `std::sort`. -/
def getLowestIndices (l : List (ℕ × ℕ)) (n : ℕ) : List (ℕ × ℕ) := resize (0, 0) n (l.mergeSort idxLe)

/-- `_removeLowestIndices` (485-507). -/
def removeLowestIndices (l : List (ℕ × ℕ)) (n : ℕ) : Option (List (ℕ × ℕ)) :=
  if n ≤ l.length then some (resize (0, 0) (l.length - n) (l.mergeSort (fun a b => idxLe b a))) else none

end Verif.Index
