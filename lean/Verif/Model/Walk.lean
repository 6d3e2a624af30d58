import Verif.Model.Basic
import Mathlib.Data.Int.Notation
import Mathlib.Algebra.Order.Group.Unbundled.Int
import Mathlib.Tactic.SplitIfs

/-!
# Walking over the control net, `gsMPBESMapTensor.h:546-751`

A local function is given by its patch and its two indices instead of the single number over all patches; the code converts between the two
at every access (`_getPatch`, `_getPar`, `_getLocalIndex`), and C07 shows that these conversions are inverse to each other.
`_getParMax` and the topology are parameters.
-/

set_option autoImplicit false
set_option linter.unusedVariables false

namespace Verif.Walk
open Verif

/-- A local function: patch, `u` index, `v` index. -/
structure Pos where
  p : ℕ
  u : ℕ
  v : ℕ
deriving DecidableEq, Repr

/-- Sizes and topology: `_getParMax(patch,dir)` and, for a side, the neighbouring side with the value of
`bf.dirOrientation(ps,1-ps.direction())` (`none`: no interface). -/
structure Net where
  parMax : ℕ → Bool → ℕ
  nb : ℕ → Side → Option (ℕ × Side × Bool)

/-- An entry of the vector `steps`: number of steps and direction. -/
abbrev Step := ℤ × Bool

/-- `_getPar(localIndex,dir)`. -/
def Pos.par (x : Pos) (d : Bool) : ℕ := if d then x.v else x.u

/-- `_travelInsidePatch`, `gsMPBESMapTensor.h:711-734`: the new position and the remaining steps. -/
def travelInside (T : Net) (x : Pos) (dir : Bool) (k : ℤ) : Pos × ℤ :=
  let par := x.par dir
  let parMax := T.parMax x.p dir
  let fixed := x.par (!dir)
  let r : ℤ × ℤ :=
    if 0 ≤ (par : ℤ) + k ∧ (par : ℤ) + k ≤ parMax then (par + k, 0)
    else if k > 0 then ((parMax : ℤ), k - (parMax - par))
    else (0, k + par)
  (⟨x.p, if dir then fixed else r.1.toNat, if dir then r.1.toNat else fixed⟩, r.2)

/-- `_transformIndexToNeighbour`, `gsMPBESMapTensor.h:668-678`. -/
def indexToNeighbour (T : Net) (q : ℕ) (s : Side) (orient : Bool) (nonFixed : ℕ) : Pos :=
  let um := T.parMax q false
  let vm := T.parMax q true
  if s.dir then ⟨q, if orient then nonFixed else um - nonFixed, if s.par then vm else 0⟩
  else ⟨q, if s.par then um else 0, if orient then nonFixed else vm - nonFixed⟩

/-- Body of the loops of `_transformStepsToNeighbour`, `gsMPBESMapTensor.h:679-709`. -/
def stepToNeighbour (s1 s2 : Side) (orient : Bool) (st : Step) : Step :=
  if s1 = s2 then
    if st.2 = s1.dir then (-st.1, st.2) else if !orient then (-st.1, st.2) else st
  else if (s1 = .west ∧ s2 = .south) ∨ (s1 = .east ∧ s2 = .north) ∨ (s1 = .south ∧ s2 = .west) ∨ (s1 = .north ∧ s2 = .east) then
    (if st.2 = s1.dir then -st.1 else if !orient then -st.1 else st.1, !st.2)
  else if (s1 = .west ∧ s2 = .north) ∨ (s1 = .east ∧ s2 = .south) ∨ (s1 = .south ∧ s2 = .east) ∨ (s1 = .north ∧ s2 = .west) then
    (if ¬ st.2 = s1.dir then if !orient then -st.1 else st.1 else st.1, !st.2)
  else st

/-- The side a step leads to, `gsMPBESMapTensor.h:648-651`. -/
def stepSide (st : Step) : Side :=
  if st.2 = false then if st.1 > 0 then .east else .west else if st.1 > 0 then .north else .south

/-- `_transformToNeighbour`, `gsMPBESMapTensor.h:643-666`, on the position, the current step and the following ones.
`none`: `GISMO_ERROR` or a failed assertion. -/
def toNeighbour (T : Net) (x : Pos) (cur : Step) (rest : List Step) : Option (Pos × Step × List Step) :=
  let s := stepSide cur
  match T.nb x.p s with
  | none => none
  | some (q, s', orient) =>
    if ((s = .west ∧ x.u = 0) ∨ (s = .east ∧ x.u = T.parMax x.p false) ∨ (s = .south ∧ x.v = 0) ∨
        (s = .north ∧ x.v = T.parMax x.p true)) ∧ cur.1 ≠ 0 then
      let nonFixed := if cur.2 then x.u else x.v
      let cur' : Step := (if cur.1 > 0 then cur.1 - 1 else cur.1 + 1, cur.2)
      some (indexToNeighbour T q s' orient nonFixed, stepToNeighbour s s' orient cur', rest.map (stepToNeighbour s s' orient))
    else none

theorem natAbs_stepToNeighbour (s1 s2 : Side) (o : Bool) (st : Step) :
    (stepToNeighbour s1 s2 o st).1.natAbs = st.1.natAbs := by
  unfold stepToNeighbour
  split_ifs <;> simp

theorem natAbs_travelInside (T : Net) (x : Pos) (d : Bool) (k : ℤ) (h : x.par d ≤ T.parMax x.p d) :
    (travelInside T x d k).2.natAbs ≤ k.natAbs := by
  unfold travelInside
  simp only
  split_ifs <;> simp only <;> omega

/-- `_travelUVSteps`, `gsMPBESMapTensor.h:736-750`.  A position outside its patch gives `none`. -/
def travel (T : Net) (x : Pos) : List Step → Option Pos
  | [] => some x
  | (k, d) :: rest =>
    if h : x.par d ≤ T.parMax x.p d then
      let r := travelInside T x d k
      if r.2 = 0 then travel T r.1 rest
      else
        match ht : toNeighbour T r.1 (r.2, d) rest with
        | none => none
        | some (y, st, rest') => travel T y (st :: rest')
    else none
termination_by l => (l.length, (l.headD (0, false)).1.natAbs)
decreasing_by
  · exact Prod.Lex.left _ _ (by simp)
  · unfold toNeighbour at ht
    simp only at ht
    split at ht
    · simp at ht
    · split_ifs at ht with hc h5 <;>
      · rw [Option.some.injEq, Prod.mk.injEq, Prod.mk.injEq] at ht
        obtain ⟨-, h2, h3⟩ := ht
        rw [← h3, ← h2]
        have h1 : r.2.natAbs ≤ k.natAbs := natAbs_travelInside T x d k h
        have h4 : r.2 ≠ 0 := hc.2
        simp only [List.length_cons, List.length_map, List.headD_cons]
        apply Prod.Lex.right
        rw [natAbs_stepToNeighbour]
        simp only
        omega

/-! ## Functions built across interfaces -/

/-- `_nextPoint`, `gsMPBESMapTensor.h:624-636`: the next point of a grid, first coordinate fastest; `none` stands for the return value `false`
(all coordinates are then reset). -/
def nextPoint : List ℕ → List ℕ → Option (List ℕ)
  | l :: ls, p :: ps => if p + 1 ≤ l then some ((p + 1) :: ps) else (nextPoint ls ps).map (0 :: ·)
  | _, _ => none

/-- The steps for one point of the loop of `_addBlockToMap`, `gsMPBESMapTensor.h:608-614`. -/
def blockSteps : List Side → List ℕ → List Step
  | s :: ss, n :: ns => (if s.par then (n : ℤ) else -(n : ℤ), s.dir) :: blockSteps ss ns
  | _, _ => []

/-- The do-while loop of `_addBlockToMap`, `gsMPBESMapTensor.h:606-618`, from the point `pt`; the number of remaining points is the fuel
(`blockLocals` supplies the exact number of grid points, see `C40_points`). -/
def blockLoop (T : Net) (x : Pos) (sides : List Side) (lens : List ℕ) : ℕ → List ℕ → Option (List Pos)
  | 0, _ => none
  | n + 1, pt => do
    let y ← travel T x (blockSteps sides pt)
    match nextPoint lens pt with
    | none => some [y]
    | some pt' => (blockLoop T x sides lens n pt').map (y :: ·)

/-- The local functions collected by `_addBlockToMap`, `gsMPBESMapTensor.h:571-622`. -/
def blockLocals (T : Net) (x : Pos) (sides : List Side) (lens : List ℕ) : Option (List Pos) :=
  blockLoop T x sides lens ((lens.map (· + 1)).foldr (· * ·) 1) (lens.map fun _ => 0)

/-- `_alreadyHandled(local_BFs,startPatch)`, `gsMPBESMapTensor.h:451-457`. -/
def alreadyHandled (l : List Pos) (start : ℕ) : Bool := l.any fun y => decide (y.p < start)

/-- `_addCombinedLineToMap`, `gsMPBESMapTensor.h:546-555`: the local functions of the new global function; `none` inside: nothing is added. -/
def addLine (T : Net) (x : Pos) (s : Side) (len : ℕ) : Option (Option (List Pos)) :=
  (blockLocals T x [s] [len]).map fun l => if alreadyHandled l x.p then none else some l

/-- `_addCombinedBlockToMap`, `gsMPBESMapTensor.h:557-569`: the same for two sides. -/
def addBlock (T : Net) (x : Pos) (su sv : Side) (lu lv : ℕ) : Option (Option (List Pos)) :=
  (blockLocals T x [su, sv] [lu, lv]).map fun l => if alreadyHandled l x.p then none else some l

end Verif.Walk
