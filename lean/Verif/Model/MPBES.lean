import Verif.Model.Index
import Mathlib.Data.Rat.Defs
/-!
# Bookkeeping of `gsMPBESBasis`: interface weights, vertex distances, control-net connectivity
-/
namespace Verif.MPBES
open Verif

/-! ## Interface weights -/

/-- `getWeight`, `gsMPBESBasis.hpp:268-276`: first match, else one. -/
def getWeight {S W : Type} [DecidableEq S] (one : W) : List (S × W) → S → W
  | [], _ => one
  | (s, w) :: l, q => if s = q then w else getWeight one l q

/-- The loop of `setWeight`, `gsMPBESBasis.hpp:283-288`: overwrite every match, remember whether there was one. -/
def setLoop {S W : Type} [DecidableEq S] (q : S) (w : W) : List (S × W) → List (S × W) × Bool
  | [] => ([], false)
  | (s, v) :: l =>
    let r := setLoop q w l
    if s = q then ((s, w) :: r.1, true) else ((s, v) :: r.1, r.2)

/-- `setWeight`, `gsMPBESBasis.hpp:279-295`. `isI` is `m_topol.isInterface`. -/
def setWeight {S W : Type} [DecidableEq S] (isI : S → Bool) (q : S) (w : W) (l : List (S × W)) : List (S × W) × Bool :=
  let r := setLoop q w l
  if !r.2 && isI q then (r.1 ++ [(q, w)], true) else r

/-! ## Special vertices -/

/-- `isSpecialVertex`, `gsMPBESBasis.hpp:363-370`. -/
def isSpecial {S : Type} [DecidableEq S] (l : List (S × Bool)) (q : S) : Bool := getWeight false l q

/-- The vertex loop of `setC0`, `gsMPBESBasis.hpp:337-349`, `corners` being the corner list of the vertex. -/
def setC0 {S : Type} [DecidableEq S] (l : List (S × Bool)) (corners : List S) : List (S × Bool) :=
  corners.foldl (fun l c => (setWeight (fun _ => true) c true l).1) l

/-! ## Distances -/

/-- `unsigned` arithmetic (32 bit). -/
def U : ℕ := 2 ^ 32
def uadd (a b : ℕ) : ℕ := (a + b) % U
def usub (a b : ℕ) : ℕ := (a + (U - b % U)) % U

/-- `distances::_determineValues`, `gsMPBESBasis.hpp:470-533`; the four flags are `leftSpecialVert`, `rightSpecialVert`,
`leftInter`, `rightInter`; returns `(left,right)`. -/
def determineValues (ls rs li ri : Bool) (dist degree max : ℕ) : ℕ × ℕ :=
  if ls && rs then
    if uadd dist dist ≤ max then (dist, dist) else (max / 2, usub max (max / 2))
  else if ls && ri then
    (if usub max degree < dist then usub max degree else dist, degree)
  else if rs && li then
    (degree, if usub max degree < dist then usub max degree else dist)
  else if rs then (0, if max < dist then max else dist)
  else if ls then (if max < dist then max else dist, 0)
  else (if li then degree else 0, if ri then degree else 0)

/-- The quantities computed in the constructor of `distances`, `gsMPBESBasis.hpp:398-422`: `deg` the spline degree, `incr` the
smoothness increase, `minDist` the user's minimal distance. -/
def distDegree (deg : ℕ) (incr : ℤ) : ℕ := (min (deg : ℤ) (incr + 1)).toNat
def distDist (deg : ℕ) (incr minDist : ℤ) : ℕ := (max (distDegree deg incr : ℤ) minDist).toNat

/-! ## Parameters of reserved functions -/

/-- `gsKnotVector::reverse` (G+Smo): reflect about the middle of the domain. -/
def reverseKnots (k : List ℚ) : List ℚ := k.reverse.map fun x => k.headD 0 + k.getLastD 0 - x

/-- Unique knots (`ubegin`..`uend`). -/
def uknots : List ℚ → List ℚ
  | [] => []
  | [a] => [a]
  | a :: b :: l => if a = b then uknots (b :: l) else a :: uknots (b :: l)

/-- `findParameter`, `gsMPBESBSplineBasis.hpp:434-449`: `low` is true when the corner is at the lower end of the side.
`none`: the iterator is dereferenced at or past the end. -/
def findParameter (knots : List ℚ) (low : Bool) (n : ℕ) : Option ℚ :=
  if n = 0 then some 0 else (uknots (if low then reverseKnots knots else knots))[n]?

/-- First position whose entry is at least `x` (loop of `getDistanceOfVertex`). -/
def firstGe (x : ℚ) : List ℚ → ℕ
  | [] => 0
  | a :: l => if x ≤ a then 0 else 1 + firstGe x l

/-- `getDistanceOfVertex`, `gsMPBESMapB2D.h:113-136`, `par` being the parametric distance. The end points are a tail of the
sorted knot vector, so the `std::sort` is the identity on the intended inputs; it is modelled by `mergeSort`.
`almostEqual` is modelled by equality. -/
def getDistance (deg : ℕ) (knots : List ℚ) (low : Bool) (par : ℚ) : ℕ :=
  if par = 0 then 0
  else
    let ks := if low then reverseKnots knots else knots
    firstGe par ((ks.drop (deg + 1)).mergeSort (· ≤ ·)) + 1

/-- The two parameters stored by the constructor of `distances`, `gsMPBESBasis.hpp:421-422`. Both are computed with the first
corner (`low1`); the second corner (`low2`) is not used. -/
def storedParams (knots : List ℚ) (low1 _low2 : Bool) (val1 val2 : ℕ) : Option ℚ × Option ℚ :=
  (findParameter knots low1 val1, findParameter knots low1 val2)

/-! ## Connectivity of the control net -/

/-- `std::set_intersection`, written out as the merge loop of the standard library. -/
def setInter : List ℕ → List ℕ → List ℕ
  | [], _ => []
  | _ :: _, [] => []
  | a :: l, b :: m =>
    if a < b then setInter l (b :: m)
    else if b < a then setInter (a :: l) m
    else a :: setInter l m
termination_by l m => l.length + m.length

/-- `isConnected`, `gsMPBESBasis.hpp:54-134`, on the two lists returned by `targetToSource`; `lc` is `isLocallyConnected`.
`sz−1` is an unsigned subtraction; `sz_intersect == sz-1` is written `sz_intersect + 1 = sz`, which agrees (also for
`sz = 0`, where the subtraction wraps and never equals the size). -/
def isConnected (lc : ℕ → ℕ → Bool) (li lj : List ℕ) : Bool :=
  if li.length = 1 ∧ lj.length = 1 then lc (li.getD 0 0) (lj.getD 0 0)
  else if li.length = 1 ∨ lj.length = 1 then
    let element := if li.length = 1 then li.getD 0 0 else lj.getD 0 0
    let lookthrough := if li.length = 1 then lj else li
    lookthrough.any fun x => lc element x
  else
    let k := (setInter li lj).length
    if k + 1 = li.length ∨ k + 1 = lj.length then true
    else if k = 0 then
      if li.all fun a => lj.any fun b => lc a b then true
      else lj.all fun b => li.any fun a => lc a b
    else false

/-- `isLocallyConnected`, `gsMPBESBSplineBasis.hpp:151-167`: same patch and grid distance one. `dims` are the sizes of the
patches. -/
def locallyConnected (dims : List (ℕ × ℕ)) (i j : ℕ) : Bool :=
  let sz := dims.map fun d => d.1 * d.2
  if Index.getPatch sz i = Index.getPatch sz j then
    let du := ((Index.getPar dims i false : ℤ) - Index.getPar dims j false).natAbs
    let dv := ((Index.getPar dims i true : ℤ) - Index.getPar dims j true).natAbs
    du + dv == 1
  else false

/-- `isLocallyConnected`, `gsMPBESHSplineBasis.hpp:195-214`, for two functions of the same patch and level with tensor indices
`vi`, `vj`: the loop compares `vec_i[j]` (with the function number `j` instead of the direction) with `vec_j[i2]`.
`none`: access outside the two entries of `vec_i`. -/
def hLocallyConnected (vi vj : ℕ × ℕ) (j : ℕ) : Option Bool :=
  let x := if j = 0 then some vi.1 else if j = 1 then some vi.2 else none
  x.map fun x => (if x ≠ vj.1 then 1 else 0) + (if x ≠ vj.2 then 1 else 0) == 1

end Verif.MPBES
