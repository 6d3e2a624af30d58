import Verif.Model.Walk
import Verif.Model.Regions
/-!
# The mapping of a hierarchical multi-patch basis (C55)

`gsMPBESMapHB2D.h`, and the functions of `gsMPBESMapTensor.h` on which it works, here with the running numbers of the code. A number of a function that is not active is `-1` (`flatTensorIndexToHierachicalIndex`), and nothing tests for it
while walking, so running numbers are integers.
-/
set_option autoImplicit false
namespace Verif.HMap
open Verif Walk

/-- A hierarchical basis (`gsHTensorBasis`, G+Smo): sizes of the tensor bases of all levels in both directions (`getBases()[level]->size(dir)`) and, for every level up to `maxLevel()`, the sorted flat indices of the active functions (`m_xmatrix`). -/
structure HB where
  size : ℕ → Bool → ℕ
  cm : List (List ℕ)

/-- `m_xmatrix_offset[level]` (G+Smo). -/
def HB.offset (b : HB) (l : ℕ) : ℕ := ((b.cm.take l).map List.length).sum

/-- `localSize(patch)`: the number of active functions. -/
def HB.total (b : HB) : ℕ := (b.cm.map List.length).sum

/-- `flatTensorIndexToHierachicalIndex(index,level)` (G+Smo): `-1` if the function is not active. -/
def HB.toHier (b : HB) (f l : ℕ) : ℤ := if f ∈ b.cm.getD l [] then ((b.offset l + (b.cm.getD l []).idxOf f : ℕ) : ℤ) else -1

/-- `flatTensorIndexOf(i,level)` (G+Smo): `m_xmatrix[level][i-offset]`; `none`: outside the vector. -/
def HB.flatOf (b : HB) (i : ℤ) (l : ℕ) : Option ℕ := if i < b.offset l then none else (b.cm.getD l [])[(i - b.offset l).toNat]?

/-- `_getFirstLocalIndex`, `gsMPBESMapTensor.h:784-792`. -/
def first (bs : List HB) (p : ℕ) : ℕ := ((bs.take p).map HB.total).sum

/-- `_getPatch`, `gsMPBESMapTensor.h:812-824`. -/
def getPatch : List HB → ℤ → ℕ
  | [], _ => 0
  | b :: bs, x => if x ≥ b.total then getPatch bs (x - b.total) + 1 else 0

/-- `_getPatchIndex(localIndex)`, `gsMPBESMapTensor.h:802-810`. -/
def patchIndex (bs : List HB) (x : ℤ) : ℤ := x - first bs (getPatch bs x)

/-- The basis of a patch. -/
def basis (bs : List HB) (p : ℕ) : HB := bs.getD p ⟨fun _ _ => 0, []⟩

/-- `_getPar(localIndex,0)` and `_getPar(localIndex,1)`, `gsMPBESMapHB2D.h:229-250`, with the patch. `none`: a number that is no function of this level, or a failed assertion. -/
def decode (bs : List HB) (l : ℕ) (x : ℤ) : Option Pos :=
  let p := getPatch bs x
  let b := basis bs p
  match b.flatOf (patchIndex bs x) l with
  | none => none
  | some f => if f / b.size l false < b.size l true ∧ 0 < b.size l false then some ⟨p, f % b.size l false, f / b.size l false⟩ else none

/-- `_getPatchIndex(patch,u,v)`, `gsMPBESMapHB2D.h:215-227`. -/
def hIndex (bs : List HB) (l : ℕ) (y : Pos) : ℤ := (basis bs y.p).toHier (y.u + (basis bs y.p).size l false * y.v) l

/-- `_getLocalIndex(patch,u,v)`, `gsMPBESMapHB2D.h:167-170`. The answer `-1` of `_getPatchIndex` is not looked at. -/
def encode (bs : List HB) (l : ℕ) (y : Pos) : ℤ := first bs y.p + hIndex bs l y

/-- The functions of one level with the topology: `_getParMax`, `gsMPBESMapHB2D.h:146-149`. -/
def net (bs : List HB) (nb : ℕ → Side → Option (ℕ × Side × Bool)) (l : ℕ) : Net := ⟨fun p d => (basis bs p).size l d - 1, nb⟩

/-- `_travelUVSteps`, `gsMPBESMapTensor.h:736-750`, on running numbers: in `_travelInsidePatch` and `_transformToNeighbour` the position is found from the number, and at the end the number from the new position. -/
def travelNum (bs : List HB) (T : Net) (l : ℕ) (x : ℤ) : List Step → Option ℤ
  | [] => some x
  | (k, d) :: rest =>
    match decode bs l x with
    | none => none
    | some y =>
      if h : y.par d ≤ T.parMax y.p d then
        let r := travelInside T y d k
        if r.2 = 0 then travelNum bs T l (encode bs l r.1) rest
        else
          match decode bs l (encode bs l r.1) with
          | none => none
          | some z =>
            match ht : toNeighbour T z (r.2, d) rest with
            | none => none
            | some (w, st, rest') => travelNum bs T l (encode bs l w) (st :: rest')
      else none
termination_by st => (st.length, (st.headD (0, false)).1.natAbs)
decreasing_by
  · exact Prod.Lex.left _ _ (by simp)
  · unfold toNeighbour at ht
    simp only at ht
    split at ht
    · simp at ht
    · split_ifs at ht with hc h5 <;>
      · rw [Option.some.injEq, Prod.mk.injEq, Prod.mk.injEq] at ht
        obtain ⟨-, h2, h3⟩ := ht
        rw [← h3, ← h2]
        have h1 : r.2.natAbs ≤ k.natAbs := natAbs_travelInside T y d k h
        have h4 : r.2 ≠ 0 := hc.2
        simp only [List.length_cons, List.length_map, List.headD_cons]
        apply Prod.Lex.right
        rw [natAbs_stepToNeighbour]
        simp only
        omega

/-- The loop of `_addBlockToMap`, `gsMPBESMapTensor.h:606-618`, on running numbers (see `Walk.blockLoop`). -/
def blockLoopNum (bs : List HB) (T : Net) (l : ℕ) (x : ℤ) (sides : List Side) (lens : List ℕ) : ℕ → List ℕ → Option (List ℤ)
  | 0, _ => none
  | n + 1, pt => do
    let y ← travelNum bs T l x (blockSteps sides pt)
    match nextPoint lens pt with
    | none => some [y]
    | some pt' => (blockLoopNum bs T l x sides lens n pt').map (y :: ·)

/-- The local functions collected by `_addBlockToMap`, `gsMPBESMapTensor.h:571-622`, as running numbers. -/
def blockNums (bs : List HB) (T : Net) (l : ℕ) (x : ℤ) (sides : List Side) (lens : List ℕ) : Option (List ℤ) :=
  blockLoopNum bs T l x sides lens ((lens.map (· + 1)).foldr (· * ·) 1) (lens.map fun _ => 0)

/-- `_addBlockToMap`, `gsMPBESMapTensor.h:571-622`: the running numbers of the new global function; `none` inside: nothing is added. -/
def addBlockNum (bs : List HB) (T : Net) (l : ℕ) (x : ℤ) (sides : List Side) (lens : List ℕ) : Option (Option (List ℤ)) :=
  (blockNums bs T l x sides lens).map fun ns => if ns.any (fun y => decide (getPatch bs y < getPatch bs x)) then none else some ns

/-- `_getPatchIndex(patch,side,flag)`, `gsMPBESMapHB2D.h:172-213`, for the corner at the ends `a` (in u) and `c` (in v): the first level on which the function of the corner is active, with its number in the patch. `none`: the error "did not find the patchindex". -/
def cornerFrom (b : HB) (a c : Bool) : ℕ → ℕ → Option (ℕ × ℤ)
  | 0, _ => none
  | n + 1, l =>
    let f := (if a then b.size l false - 1 else 0) + b.size l false * (if c then b.size l true - 1 else 0)
    if b.toHier f l = -1 then cornerFrom b a c n (l + 1) else some (l, b.toHier f l)

def cornerIndex (b : HB) (a c : Bool) : Option (ℕ × ℤ) := cornerFrom b a c b.cm.length 0

/-- The calls in `_setMappingOfPatch`, `gsMPBESMapHB2D.h:84-93`, with their level: `maxLevel` is the highest level of all patches, `own` that of this patch, `P l` are the data of level `l` that `_setTensorMappingOfPatch` reads. -/
def levelCalls (maxLevel own : ℕ) (P : ℕ → Regions.Patch) : List (ℕ × (ℕ × ℕ) × Regions.Call) :=
  (List.range (maxLevel + 1)).flatMap fun l => if l ≤ own then (Regions.calls (P l)).map fun c => (l, c) else []

end Verif.HMap
