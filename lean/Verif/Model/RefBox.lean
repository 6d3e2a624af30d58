import Verif.Model.Smooth
/-!
# Refinement boxes around special vertices

`gsDPatch::_refBoxes` (`gsDPatch.hpp:186-268`) and `gsAlmostC1::_refBoxes` (`gsAlmostC1.hpp:427-500`). The list of corner lists is read in
order and grows while it is read, so it is a queue of corners. Parameters: the corner lists (`getEVs` / `_getSpecialCornerLists`, `getCornerList`),
the degrees and the numbers of elements.
-/
set_option autoImplicit false
namespace Verif.RefBox
open Verif Verif.Smooth
variable {P : Type} [DecidableEq P]

/-- The other corner along direction `dim` (`false` first): the chain of comparisons `gsDPatch.hpp:242-251`, `gsAlmostC1.hpp:474-483`, on corner numbers;
`none` is the error branch. -/
def otherIdx (c dim : ℕ) : Option ℕ :=
  if (c = 1 ∧ dim = 0) ∨ (c = 4 ∧ dim = 1) then some 2
  else if (c = 1 ∧ dim = 1) ∨ (c = 4 ∧ dim = 0) then some 3
  else if (c = 2 ∧ dim = 0) ∨ (c = 3 ∧ dim = 1) then some 1
  else if (c = 2 ∧ dim = 1) ∨ (c = 3 ∧ dim = 0) then some 4
  else none

/-- Corner with a given number. -/
def ofIdx : ℕ → Option Corner
  | 1 => some .sw | 2 => some .se | 3 => some .nw | 4 => some .ne | _ => none

/-- `patchCorner otherPCorner(corner.patch, otherCorner.m_index)`. -/
def other (c : PC P) (dim : ℕ) : Option (PC P) := (otherIdx c.2.idx dim).bind fun i => (ofIdx i).map fun d => (c.1, d)

/-- `corner.parameters_into(d, pars)`. -/
def par (c : Corner) (dim : ℕ) : Bool := if dim = 0 then c.pu else c.pv

/-- What the loop reads. -/
structure Inp (P : Type) where
  /-- `m_topology.getCornerList` -/
  ring : PC P → List (PC P)
  /-- `KV.numElements()`; `KV.uSize()` is one more -/
  el : P → ℕ → ℕ
  /-- elements refined at a corner: `gsDPatch.hpp:226-228`, `gsAlmostC1.hpp:464` -/
  n : P → ℕ → ℕ
  /-- `GISMO_ASSERT` active -/
  chk : Bool

/-- `gsDPatch.hpp:226-228`. -/
def nDPatch (degree level : ℕ) : ℕ := (if degree < 4 then 2 else 1) * 2 ^ level

/-- A row of `box`: lower and upper end, `gsDPatch.hpp:232-233`, `gsAlmostC1.hpp:465-466`. `setConstant(par*(uSize-1))`, then entry `!par` moves by
`(1-2*par)*nelements`. -/
def boxRow (I : Inp P) (c : PC P) (dim : ℕ) : ℤ × ℤ :=
  let k : ℤ := if par c.2 dim then I.el c.1 dim else 0
  let s : ℤ := (1 - 2 * (if par c.2 dim then 1 else 0)) * I.n c.1 dim
  if !(par c.2 dim) then (k, k + s) else (k + s, k)

abbrev Box := (ℤ × ℤ) × (ℤ × ℤ)

/-- `cornerLists` still to read, `mask`, `patchBoxes`. -/
structure St (P : Type) where
  queue : List (PC P)
  mask : PC P → Bool
  boxes : P → List Box

/-- The corners appended for direction `dim`, `gsDPatch.hpp:236-261`; `none`: error branch or failed assertion. -/
def spill (I : Inp P) (c : PC P) (dim : ℕ) : Option (List (PC P)) :=
  if I.chk ∧ ¬ I.n c.1 dim ≤ I.el c.1 dim then none
  else if I.el c.1 dim = I.n c.1 dim then (other c dim).map I.ring else some []

/-- One pass of the inner loop. -/
def step (I : Inp P) (st : St P) : Option (St P) :=
  match st.queue with
  | [] => some st
  | c :: q =>
    if st.mask c then some { st with queue := q }
    else do
      let a ← spill I c 0
      let b ← spill I c 1
      return { queue := q ++ a ++ b, mask := fun x => decide (x = c) || st.mask x,
               boxes := fun p => if p = c.1 then st.boxes p ++ [(boxRow I c 0, boxRow I c 1)] else st.boxes p }

/-- `m` passes. -/
def steps (I : Inp P) : ℕ → St P → Option (St P)
  | 0, st => some st
  | m + 1, st => (step I st).bind (steps I m)

/-- State before the loops; `evs` are the corner lists of the special vertices. -/
def init (evs : List (List (PC P))) : St P := ⟨evs.flatten, fun _ => false, fun _ => []⟩

end Verif.RefBox
