import Verif.Model.Smooth
/-!
# The loops of `gsDPatchBase` with other rules for the vertices

`gsAlmostC1` and `gsDPatch` override the virtual functions for vertices; the loops over interfaces, sides and interior functions are those of `gsDPatchBase`
(`Model/Smooth.lean`).
-/
set_option autoImplicit false
namespace Verif.Smooth
open Verif

variable {P : Type} [DecidableEq P]

/-- `_computeVertexMapper` (`gsAlmostC1.hpp:786-817`, `gsDPatch.hpp:1111-1144`) for a rule giving the functions eliminated and the corners marked as passed;
`none`: `GISMO_ERROR` or a failed assertion. -/
def vertMapG (rule : PC P → Option (List (Dof P) × List (PC P))) (st : MapSt P) (c : PC P) : Option (MapSt P) :=
  if st.vchk c then some st
  else (rule c).map fun r => { st with elim := elimList st.elim r.1, vchk := fun x => x = c || decide (x ∈ r.2) || st.vchk x }

/-- `_computeMapper`, `gsDPatchBase.hpp:1217-1262`, with such a rule. -/
def computeMapperG (T : Topo P) (rule : PC P → Option (List (Dof P) × List (PC P))) (il : List (PS P × PS P)) (bl : List (PS P))
    (vl : List (PC P)) : Option (MapSt P) :=
  let st : MapSt P := { elim := fun _ => false, schk := fun _ => false, vchk := fun _ => false }
  let st := il.foldl (ifaceMap T) st
  let st := bl.foldl bdryMap st
  vl.foldlM (vertMapG rule) st

/-- `_handleVertex`, `gsDPatchBase.hpp:968-998`, for handlers writing the entries `ve`, marking further rows `mr` as handled and further corners `mc` as passed. -/
def handleVertexG (ve : PC P → Option (List (Entry P))) (mr : PC P → List (Dof P)) (mc : PC P → List (PC P)) (st : St P) (c : PC P) : Option (St P) :=
  if st.vchk c then some st
  else (ve c).map fun l =>
    let st' := push st l
    { st' with vchk := fun x => x = c || decide (x ∈ mc c) || st.vchk x, bchk := fun r => decide (r ∈ mr c) || st'.bchk r }

/-- `_computeSmoothMatrix`, `gsDPatchBase.hpp:1182-1215`, with such handlers. -/
def smoothMatrixG (T : Topo P) (ve : PC P → Option (List (Entry P))) (mr : PC P → List (Dof P)) (mc : PC P → List (PC P)) (elim : Dof P → Bool)
    (il : List (PS P × PS P)) (bl : List (PS P)) (vl : List (PC P)) (dl : List (Dof P)) : Option (St P) :=
  let st : St P := { M := fun _ _ => 0, bchk := fun _ => false, vchk := fun _ => false, schk := fun _ => false }
  (vl.foldlM (handleVertexG ve mr mc) st).map fun st =>
    let st := il.foldl (handleIface T) st
    let st := bl.foldl (handleBdry T) st
    dl.foldl (interior1 elim) st

/-- The vertex loop of `_countDoFs` (`gsAlmostC1.hpp:734-780`, `gsDPatch.hpp:688-723`) for a number of functions per vertex: `passed` marks all corners of a
counted vertex. -/
def countVerticesG (T : Topo P) (vc : PC P → ℤ) : List (PC P) → List (PC P) → ℤ
  | [], _ => 0
  | c :: vl, passed =>
    if c ∈ passed then countVerticesG T vc vl passed else vc c + countVerticesG T vc vl (T.cl c ++ passed)

/-- `_countDoFs` (`gsAlmostC1.hpp:684-784`, `gsDPatch.hpp:641-729`) over ℤ. -/
def countDofsG (T : Topo P) (vc : PC P → ℤ) (pl : List P) (il : List (PS P × PS P)) (bl : List (PS P)) (vl : List (PC P)) : ℤ :=
  (pl.map fun p => (T.n0 p * T.n1 p : ℤ) - 2 * (T.n1 p + T.n1 p + (T.n0 p - 4) + (T.n0 p - 4))).sum
  + (il.map fun i => ((len T i.1 : ℤ) - 4) + ((len T i.2 : ℤ) - 4)).sum
  + (bl.map fun s => ((len T s : ℤ) - 4) + ((len T s : ℤ) - 4)).sum
  + countVerticesG T vc vl []

end Verif.Smooth
