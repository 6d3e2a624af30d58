import Verif.Model.Basic
import Mathlib.Algebra.Order.Field.Rat
import Mathlib.Algebra.Order.Group.Abs
import Mathlib.Data.List.Sort
/-!
# Repairing the knot vectors of a multi-patch B-spline basis

`gsMPBESBSplineBasis.hpp:180-199` (`refine`), `:281-315` (`_boxToRefineKnots`), `:338-367` (`repairPatches`), `:370-438` (`_knotsMatchNeighbours`).

Knots are rational numbers and the arithmetic on them is exact; the tolerance `eps` is kept. Iterators that are read at their end are an outcome of its own.
-/
set_option autoImplicit false

namespace Verif.Repair

/-- Patches and interfaces of `m_topol`: `nb p s` is the patch and side glued to side `s` of patch `p` and the value of `dirOrientation` along the side. -/
structure Topo where
  n : ℕ
  nb : ℕ → Side → Option (ℕ × Side × Bool)

/-- The knots of every patch, in direction u (`false`) and v (`true`), with repetitions, in increasing order. -/
abbrev Knots := ℕ → Bool → List ℚ

/-- `gsKnotVector::reverse` (G+Smo): the knots are mirrored in their interval. -/
def reverseKnots (l : List ℚ) : List ℚ := (l.map fun t => l.headD 0 + l.getLastD 0 - t).reverse

/-- The loop over two knot vectors, `gsMPBESBSplineBasis.hpp:400-419`: is there a knot in the first that is not in the second, and the knots of the
second that are not in the first. `none`: `*kv` or `*kvN` is read at the end of its vector. -/
def compare (eps : ℚ) : List ℚ → List ℚ → Option (Bool × List ℚ)
  | [], [] => some (false, [])
  | [], _ :: _ => none
  | _ :: _, [] => none
  | x :: xs, y :: ys =>
    if |x - y| < eps then compare eps xs ys
    else if x < y then (compare eps xs (y :: ys)).map fun r => (true, r.2)
    else (compare eps (x :: xs) ys).map fun r => (r.1, y :: r.2)
termination_by l m => l.length + m.length

/-- Knots of the neighbour over a side, seen from the patch, `gsMPBESBSplineBasis.hpp:390-394`. -/
def neighKnots (K : Knots) (x : ℕ × Side × Bool) : List ℚ :=
  if x.2.2 then K x.1 (!x.2.1.dir) else reverseKnots (K x.1 (!x.2.1.dir))

/-- One turn of the loop over the sides, `gsMPBESBSplineBasis.hpp:385-420`. -/
def sideMatch (T : Topo) (eps : ℚ) (K : Knots) (p : ℕ) (s : Side) : Option (Bool × List ℚ) :=
  match T.nb p s with
  | none => some (false, [])
  | some x => compare eps (K p (!s.dir)) (neighKnots K x)

/-- `side.opposite()` (G+Smo). -/
def opposite : Side → Side | .west => .east | .east => .west | .south => .north | .north => .south

/-- `std::unique` followed by `erase`. -/
def unique : List ℚ → List ℚ
  | x :: y :: l => if x = y then unique (y :: l) else x :: unique (y :: l)
  | l => l

/-- `knotsToInsert[d]` after the loop and the removal of duplicates, `gsMPBESBSplineBasis.hpp:414`, `:421-425`; the sides west and east insert in direction v, south
and north in direction u. -/
def toInsert (r : Side → Bool × List ℚ) (d : Bool) : List ℚ :=
  unique ((if d then (r .west).2 ++ (r .east).2 else (r .south).2 ++ (r .north).2).insertionSort (· ≤ ·))

/-- `sideToCheck[s]` after the loop, `gsMPBESBSplineBasis.hpp:410`, `:417`. -/
def sideToCheck (r : Side → Bool × List ℚ) (s : Side) : Bool := (r s).1 || !(r (opposite s)).2.isEmpty

/-- `checkPatches`, `gsMPBESBSplineBasis.hpp:426-431`. -/
def checkPatches (T : Topo) (r : Side → Bool × List ℚ) (p : ℕ) : List ℕ :=
  Side.all.filterMap fun s => if sideToCheck r s then (T.nb p s).map (·.1) else none

/-- `_knotsMatchNeighbours`, `gsMPBESBSplineBasis.hpp:370-433`: the knots to insert and the patches to check. The result `matched` is `true` if and only if no
knots are to be inserted. -/
def knotsMatchNeighbours (T : Topo) (eps : ℚ) (K : Knots) (p : ℕ) : Option ((Bool → List ℚ) × List ℕ) := do
  let w ← sideMatch T eps K p .west
  let e ← sideMatch T eps K p .east
  let s ← sideMatch T eps K p .south
  let n ← sideMatch T eps K p .north
  let r : Side → Bool × List ℚ := fun x => match x with | .west => w | .east => e | .south => s | .north => n
  pure (toInsert r, checkPatches T r p)

/-- `insertKnots` (G+Smo) of both directions of one patch: the knots are added and the vector remains increasing. -/
def insertKnots (K : Knots) (p : ℕ) (ins : Bool → List ℚ) : Knots :=
  fun q d => if q = p then (K q d ++ ins d).insertionSort (· ≤ ·) else K q d

/-- `std::set<index_t>::insert`; the set is the increasing list of its elements. -/
def insertSet : ℕ → List ℕ → List ℕ
  | x, [] => [x]
  | x, y :: l => if x < y then x :: y :: l else if x = y then y :: l else y :: insertSet x l

/-- What becomes of the loop after a number of turns. -/
inductive Outcome
  | undefined
  | running (K : Knots) (toCheck : List ℕ)
  | done (K : Knots)

/-- The loop of `repairPatches`, `gsMPBESBSplineBasis.hpp:348-366`, for at most the given number of turns. -/
def repairLoop (T : Topo) (eps : ℚ) : ℕ → Knots → List ℕ → Outcome
  | _, K, [] => .done K
  | 0, K, c => .running K c
  | m + 1, K, p :: c =>
    match knotsMatchNeighbours T eps K p with
    | none => .undefined
    | some (ins, chk) =>
      repairLoop T eps m (if ins false = [] ∧ ins true = [] then K else insertKnots K p ins) (chk.foldl (fun l x => insertSet x l) c)

/-- `repairPatches`, `gsMPBESBSplineBasis.hpp:341-346`: the patches checked at first; `none` is the default `startFromPatch == -1`. -/
def startSet (T : Topo) : Option ℕ → List ℕ
  | none => List.range T.n
  | some p => [p]

/-- `repairPatches(coefs,startFromPatch)`, `gsMPBESBSplineBasis.hpp:338-367`; without coefficients, for these see `Model/Carry.lean`. -/
def repairPatches (T : Topo) (eps : ℚ) (turns : ℕ) (K : Knots) (start : Option ℕ) : Outcome := repairLoop T eps turns K (startSet T start)

/-- `_boxToRefineKnots`, `gsMPBESBSplineBasis.hpp:287-311`, in one direction: the midpoints of the knot spans that are strictly inside a box, once for every such box. -/
def midpoints (boxes : List (ℚ × ℚ)) : List ℚ → List ℚ
  | x :: y :: l =>
    (if y - x > 1 / 1000000000 then
      boxes.filterMap fun b => if b.1 < x + (y - x) / 2 ∧ x + (y - x) / 2 < b.2 then some (x + (y - x) / 2) else none
    else []) ++ midpoints boxes (y :: l)
  | _ => []

/-- `refine(patch,boxes,true)`, `gsMPBESBSplineBasis.hpp:194-199`, `:180-191`; a box is given by its intervals in the directions u and v. -/
def refineBoxes (T : Topo) (eps : ℚ) (turns : ℕ) (K : Knots) (p : ℕ) (boxes : List ((ℚ × ℚ) × (ℚ × ℚ))) : Outcome :=
  repairPatches T eps turns
    (insertKnots K p fun d => midpoints (boxes.map fun b => if d then b.2 else b.1) (K p d)) none

end Verif.Repair
