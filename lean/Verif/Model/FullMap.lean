import Verif.Model.Regions
import Verif.Model.Walk

/-!
# The whole map, `gsMPBESMapTensor::makeMapper`, `gsMPBESMapTensor.h:61-75`

The functions added to the map by the calls listed in `Model/Regions.lean`, patch by patch.  A global function is given by the list of its local functions
(`_addToMap`, `gsMPBESMapTensor.h:501-506`, sets one column for each call); the weights are those of C54.
`getCornerList` of G+Smo (all corners of patches at the same vertex) is a parameter.
-/

set_option autoImplicit false

namespace Verif.FullMap
open Verif Verif.Walk Verif.Regions

/-- A corner of a patch (`patchCorner`): patch and the two entries of `parameters`. -/
abbrev PCorner := ℕ × Bool × Bool

/-- `_getPatchIndex(patch,side,flag)` as a position, `gsMPBESMapB2D.h:170-184`; for B-splines. -/
def sideEnd (T : Net) (p : ℕ) (s : Side) (flag : Bool) : Pos :=
  let um := T.parMax p false
  let vm := T.parMax p true
  if s.dir then
    if s.par then ⟨p, if flag then um else 0, vm⟩ else ⟨p, if flag then um else 0, 0⟩
  else
    if s.par then ⟨p, um, if flag then vm else 0⟩ else ⟨p, 0, if flag then vm else 0⟩

/-- `_getLocalIndex(patchCorner)`, `gsMPBESMapTensor.h:765-770`. -/
def cornerPos (T : Net) (c : PCorner) : Pos := sideEnd T c.1 (if c.2.2 then .north else .south) c.2.1

/-- `_findVertexInPatches(ps,flag)`, `gsMPBESMapTensor.h:459-471`. -/
def findVertex (T : Net) (cornerList : PCorner → List PCorner) (p : ℕ) (s : Side) (flag : Bool) : List Pos :=
  (cornerList (if s.dir then (p, flag, s.par) else (p, s.par, flag))).map (cornerPos T)

/-- The choice of side and flag in `_addSingularCornerToMap`, `gsMPBESMapTensor.h:519-532`. -/
def cornerSide (u v : ℕ) : Side × Bool :=
  if u = 0 ∧ v = 0 then (.south, false) else if u = 0 then (.north, false) else if v = 0 then (.east, false) else (.north, true)

/-- `_addSingularCornerToMap`, `gsMPBESMapTensor.h:517-544`, with `_alreadyHandled(ps,flag)`, `442-449`; all weights are 1.  `none`: nothing is added. -/
def addCorner (T : Net) (cornerList : PCorner → List PCorner) (x : Pos) : Option (List Pos) :=
  let r := cornerSide x.u x.v
  let vertices := findVertex T cornerList x.p r.1 r.2
  if vertices.any fun y => decide (y.p < x.p) then none else some vertices

/-- What a call adds to the map: `none` is an error, `some none` adds nothing.  `_addFreeToMap`: `gsMPBESMapTensor.h:508-515`. -/
def addCall (T : Net) (cornerList : PCorner → List PCorner) (x : Pos) : Call → Option (Option (List Pos))
  | .free => some (some [x])
  | .corner => some (addCorner T cornerList x)
  | .line s len _ => addLine T x s len
  | .block s₁ s₂ len₁ len₂ _ _ => addBlock T x s₁ s₂ len₁ len₂

/-- The calls for all patches in order, `gsMPBESMapTensor.h:69-70`. -/
def allCalls (P : ℕ → Patch) (n : ℕ) : List (Pos × Call) :=
  (List.range n).flatMap fun p => (calls (P p)).map fun e => (⟨p, e.1.1, e.1.2⟩, e.2)

/-- `makeMapper`, `gsMPBESMapTensor.h:61-75`: the global functions in the order in which they are numbered. -/
def mapFuns (T : Net) (cornerList : PCorner → List PCorner) (P : ℕ → Patch) (n : ℕ) : Option (List (List Pos)) :=
  ((allCalls P n).mapM fun e => addCall T cornerList e.1 e.2).map (List.filterMap id)

end Verif.FullMap
