import Verif.Model.AlmostC1
/-!
# `gsDPatch`: mapper, smoothing matrix and counting at boundary vertices

`gsDPatch.hpp:641-729`, `:905-1222`. What is not overridden is in `Model/Smooth.lean` (`gsDPatchBase`). `gsDPatch` identifies the corner functions of a boundary vertex with three patches
(`matchDof`): they are one smooth function. Here this smooth function is named by the lowest of them (by patch and index), `matched`; the others count as eliminated. Tensor bases only.
-/
set_option autoImplicit false
namespace Verif.DPatch
open Verif Smooth AlmostC1

variable {P : Type} [LinearOrder P]

/-- Name of the smooth function to which the corner function of `c` belongs after `matchDof`, `gsDPatch.hpp:1176-1178`: the lowest corner function of the vertex. -/
def matched (T : Topo P) (c : PC P) : Option (Dof P) := (getLowest T (allIndices T 0 c) 1).head?

/-- `_computeMapperIrregularBoundaryVertexSmooth_v3`, `gsDPatch.hpp:1146-1202` (`…NonSmooth_v3`, `:1204-1210`, forwards to it): at every corner of the vertex both functions `1,0` are eliminated, and
the corner functions are matched with the one of `pcorners[0]`. (The side `pseudo` given to `_indexFromVert` is not initialised; with index 0 it does not matter which side it is.) -/
def elimV3 (T : Topo P) (c : PC P) : List (Dof P) :=
  (T.cl c).flatMap fun d => [vert T d d.2.uside 1 0, vert T d d.2.vside 1 0] ++
    (if matched T d = some (vert T d d.2.uside 0 0) then [] else [vert T d d.2.uside 0 0])

/-- The rules dispatched to by `gsDPatch::_computeVertexMapper`, `gsDPatch.hpp:1111-1144`: the functions eliminated and the further corners marked as passed. `none`: `GISMO_ERROR`. -/
def vertElim (T : Topo P) (c : PC P) : Option (List (Dof P) × List (PC P)) :=
  let v := (T.cl c).length
  if ¬ T.interior c ∧ v = 1 then some ([], [])
  else if ¬ T.interior c ∧ v = 2 ∧ T.c0 c then some (elimIrregular T c, [])
  else if ¬ T.interior c ∧ v = 2 ∧ ¬ T.c0 c then some (elimRegular T c, [])
  else if ¬ T.interior c ∧ v = 3 then some (elimV3 T c, T.cl c)
  else if ¬ T.interior c ∧ v > 3 then none
  else if T.interior c then some (c.2.sides.flatMap fun s => [vert T c s 0 0, vert T c s 1 0], [])
  else none

/-- `_computeMapper` with these rules. -/
def computeMapper (T : Topo P) (il : List (PS P × PS P)) (bl : List (PS P)) (vl : List (PC P)) : Option (MapSt P) :=
  computeMapperG T (vertElim T) il bl vl

/-- `lowest` in `_handleIrregularBoundaryVertexSmooth`, `gsDPatch.hpp:946-949`. -/
def lowest (T : Topo P) (c : PC P) : Option (PC P) :=
  match T.cl c with
  | [] => none
  | d :: l => some (l.foldl (fun m x => if x.1 < m.1 then x else m) d)

/-- One boundary side of a corner, `gsDPatch.hpp:979-990`. -/
def bdryEntries (T : Topo P) (ex : Dof P) (d : PC P) : List (Entry P) :=
  d.2.sides.flatMap fun s => if isIface T d.1 s then [] else
    [(vert T d s 1 1, vert T d s 1 0, 1 / 2), (ex, vert T d s 1 0, 1 / 2)]

/-- One interface at the vertex, `gsDPatch.hpp:1052-1088`: over the corners of its first side that belong to the vertex. -/
def ifaceEntries (T : Topo P) (c : PC P) (p : P) (s : Side) : List (Entry P) :=
  match T.nb (p, s) with
  | none => []
  | some t =>
    (s.corners.filter fun x => decide ((p, x) ∈ T.cl c)).flatMap fun x =>
      match cross T (p, x) s with
      | none => []
      | some d =>
        let r0 := vert T (p, x) s 1 1
        let r1 := vert T d t.2 1 1
        let c0 := vert T (p, x) s 1 0
        let c1 := vert T d t.2 1 0
        [(r0, c0, 1 / 2), (r0, c1, 1 / 2), (r1, c0, 1 / 2), (r1, c1, 1 / 2)]

/-- `gsDPatch::_handleIrregularBoundaryVertexSmooth`, `gsDPatch.hpp:906-1101` (`…NonSmooth`, `:1103-1109`, forwards to it): all corners of the vertex at once. -/
def v3Entries (T : Topo P) (c : PC P) : Option (List (Entry P)) := do
  let lo ← lowest T c
  let ex ← matched T lo
  let cs := T.cl c
  pure (cs.flatMap (bdryEntries T ex) ++
    cs.map (fun d => ((ex, vert T d d.2.uside 0 0, 1 / 4) : Entry P)) ++
    cs.flatMap (fun d => (vert T d d.2.uside 1 1, vert T d d.2.uside 1 1, 1) ::
      cs.map fun x => ((vert T d d.2.uside 1 1, vert T x x.2.uside 0 0, 1 / 4) : Entry P)) ++
    cs.flatMap (fun d => d.2.sides.flatMap fun s => ifaceEntries T c d.1 s))

/-- The dispatch of `_handleVertex`, `gsDPatchBase.hpp:968-998`, with the handlers of `gsDPatch`. -/
def vertEntries (T : Topo P) (c : PC P) : Option (List (Entry P)) :=
  let v := (T.cl c).length
  if T.interior c then interiorEntries T c
  else if v = 1 then some (cornerEntries T c)
  else if v = 2 ∧ ¬ T.c0 c then regularEntries T c [0, 1]
  else if v = 2 then regularEntries T c [1]
  else if 2 < v then v3Entries T c
  else none

/-- Corners marked as passed besides the handled one, `gsDPatch.hpp:1095-1099`. -/
def passedCorners (T : Topo P) (c : PC P) : List (PC P) := if ¬ T.interior c ∧ 2 < (T.cl c).length then T.cl c else []

/-- `_computeSmoothMatrix` with these handlers. -/
def smoothMatrix (T : Topo P) (elim : Dof P → Bool) (il : List (PS P × PS P)) (bl : List (PS P)) (vl : List (PC P))
    (dl : List (Dof P)) : Option (St P) :=
  smoothMatrixG T (vertEntries T) (fun _ => []) (passedCorners T) elim il bl vl dl

/-- Functions of one vertex, `gsDPatch.hpp:702-716`. -/
def vertexCount (T : Topo P) (c : PC P) : ℤ :=
  let v : ℤ := (T.cl c).length
  if ¬ T.interior c ∧ v = 1 then 4
  else if ¬ T.interior c ∧ v = 2 ∧ ¬ T.c0 c then 4
  else if ¬ T.interior c ∧ v > 2 ∧ ¬ T.c0 c then 4
  else if ¬ T.interior c ∧ v = 2 ∧ T.c0 c then 6
  else if ¬ T.interior c ∧ v > 2 ∧ T.c0 c then 4
  else v

/-- `gsDPatch::_countDoFs`, `gsDPatch.hpp:641-729`, over ℤ. -/
def countDofs (T : Topo P) (pl : List P) (il : List (PS P × PS P)) (bl : List (PS P)) (vl : List (PC P)) : ℤ :=
  countDofsG T (vertexCount T) pl il bl vl

end Verif.DPatch
