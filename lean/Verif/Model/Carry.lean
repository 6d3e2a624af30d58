import Verif.Model.Boehm
import Verif.Model.Index
import Verif.Model.Repair
import Verif.Model.MPBESState
/-!
# Coefficients that are carried along when knots are inserted (C61)

`gsMPBESBSplineBasis.hpp:209-246` (`refine_withCoefs`), `:337-367` (`repairPatches(coefs,startFromPatch)`); `gsMPBESBasis.hpp:150-177` (`uniformRefine_withCoefs`),
`:238-266` (`repairPatches(localCoef,startFromPatch)`); `gsMPBESSpline.hpp:31-52`, `:54-83` (constructors).

Coefficients are rational and the arithmetic on them is exact. Rows of a coefficient matrix are control points; every step acts on all columns in the same way, so that one column is modelled. `refine_withCoefs`
and `uniformRefine_withCoefs` of a single tensor-product basis are part of G+Smo and assumed to insert the given knots by Boehm's formula, in direction u and then in direction v.
-/
set_option autoImplicit false
namespace Verif.Carry
open Boehm (insertKnot insertCoefs knotAt)
open Index (tidx splitLoop)
open Repair (Knots Topo knotsMatchNeighbours insertKnots insertSet startSet)
open MPBESState (spanKnots uniformKnots)

/-- The coefficients of a spline of degree `p` in one variable after the insertion of a list of knots. -/
def insertAll (p : ℕ) : List ℚ → List ℚ → (ℕ → ℚ) → ℕ → ℚ
  | [], _, c => c
  | s :: ins, L, c => insertAll p ins (insertKnot L s) (insertCoefs (knotAt L) p s c)

/-- `size()` of a B-spline basis (G+Smo). -/
def size (p : ℕ) (L : List ℚ) : ℕ := L.length - (p + 1)

/-- `size()` of the tensor-product basis of a patch (G+Smo). -/
def patchSize (deg : Bool → ℕ) (K : Bool → List ℚ) : ℕ := size (deg false) (K false) * size (deg true) (K true)

/-- The entry of a column that belongs to the function `(i,j)`. -/
def net (n0 : ℕ) (l : List ℚ) (i j : ℕ) : ℚ := l.getD (tidx n0 i j) 0

/-- The column with the given entries. -/
def column (n0 n1 : ℕ) (c : ℕ → ℕ → ℚ) : List ℚ := (List.range (n0 * n1)).map fun k => c (k % n0) (k / n0)

/-- `refine_withCoefs(coefs,refineKnots)` of a tensor-product basis (G+Smo), called in `gsMPBESBSplineBasis.hpp:227`, `:358`: what becomes of the coefficients. -/
def refineNet (deg : Bool → ℕ) (K ins : Bool → List ℚ) (l : List ℚ) : List ℚ :=
  let n0 := size (deg false) (K false)
  let n1 := size (deg true) (K true)
  let c := fun i j => insertAll (deg false) (ins false) (K false) (fun a => net n0 l a j) i
  column (n0 + (ins false).length) (n1 + (ins true).length) fun i j => insertAll (deg true) (ins true) (K true) (fun b => c i b) j

/-- What becomes of the loop after a number of turns. -/
inductive Outcome
  | undefined
  | running (K : Knots) (C : ℕ → Option (List ℚ)) (toCheck : List ℕ)
  | done (K : Knots) (C : ℕ → Option (List ℚ))

/-- The loop of `repairPatches(coefs,startFromPatch)`, `gsMPBESBSplineBasis.hpp:348-366`, for at most the given number of turns; `C p` is `*coefs[p]`, `none` is `NULL`. -/
def loop (T : Topo) (eps : ℚ) (deg : ℕ → Bool → ℕ) : ℕ → Knots → (ℕ → Option (List ℚ)) → List ℕ → Outcome
  | _, K, C, [] => .done K C
  | 0, K, C, c => .running K C c
  | m + 1, K, C, p :: c =>
    match knotsMatchNeighbours T eps K p with
    | none => .undefined
    | some (ins, chk) =>
      let c' := chk.foldl (fun l x => insertSet x l) c
      if ins false = [] ∧ ins true = [] then loop T eps deg m K C c'
      else loop T eps deg m (insertKnots K p ins) (fun q => if q = p then (C q).map (refineNet (deg p) (K p) ins) else C q) c'

/-- `m_bases[i]->size()` for all patches. -/
def sizes (deg : ℕ → Bool → ℕ) (K : Knots) (n : ℕ) : List ℕ := (List.range n).map fun p => patchSize (deg p) (K p)

/-- The loop that cuts the matrix into the coefficients of the patches, `gsMPBESBasis.hpp:243-251`, `gsMPBESBSplineBasis.hpp:216-226`. -/
def split (deg : ℕ → Bool → ℕ) (K : Knots) (n : ℕ) (l : List ℚ) (p : ℕ) : Option (List ℚ) := (splitLoop l (-1) (sizes deg K n))[p]?

/-- The loop that puts the coefficients of the patches back into one matrix, `gsMPBESBasis.hpp:258-265`, `gsMPBESBSplineBasis.hpp:235-242`, `gsMPBESSpline.hpp:41-49`, `:73-81`: the blocks are as large as the
bases, starting with patch `p`. `none`: the coefficients do not fill their block (the assignment `<<` fails), or the pointer is `NULL`. -/
def joinFrom (C : ℕ → Option (List ℚ)) : ℕ → List ℕ → Option (List ℚ)
  | _, [] => some []
  | p, n :: sz => (C p).bind fun b => if b.length = n then (joinFrom C (p + 1) sz).map (b ++ ·) else none

/-- All patches. -/
def join (deg : ℕ → Bool → ℕ) (K : Knots) (n : ℕ) (C : ℕ → Option (List ℚ)) : Option (List ℚ) := joinFrom C 0 (sizes deg K n)

/-- After the loop, the coefficients are put together. -/
def finish (deg : ℕ → Bool → ℕ) (n : ℕ) : Outcome → Option (Knots × List ℚ)
  | .done K C => (join deg K n C).map fun l => (K, l)
  | _ => none

/-- `repairPatches(localCoef,startFromPatch)`, `gsMPBESBasis.hpp:238-266`. `none`: not finished, or undefined. -/
def repairCoefs (T : Topo) (eps : ℚ) (deg : ℕ → Bool → ℕ) (turns : ℕ) (K : Knots) (start : Option ℕ) (l : List ℚ) : Option (Knots × List ℚ) :=
  finish deg T.n (loop T eps deg turns K (split deg K T.n l) (startSet T start))

/-- `refine_withCoefs(localCoef,patch,knots_u,knots_v,updateBasis)`, `gsMPBESBSplineBasis.hpp:209-246`. -/
def refineCoefs (T : Topo) (eps : ℚ) (deg : ℕ → Bool → ℕ) (turns : ℕ) (K : Knots) (p : ℕ) (ins : Bool → List ℚ) (updateBasis : Bool) (l : List ℚ) : Option (Knots × List ℚ) :=
  let C := split deg K T.n l
  let C' := fun q => if q = p then (C q).map (refineNet (deg p) (K p) ins) else C q
  if updateBasis then finish deg T.n (loop T eps deg turns (insertKnots K p ins) C' [p])
  else finish deg T.n (.done (insertKnots K p ins) C')

/-- The knots that `uniformRefine(numKnots,mul)` (G+Smo) inserts. -/
def uniformIns (nk mul : ℕ) : List ℚ → List ℚ
  | x :: y :: l => spanKnots nk mul x y ++ uniformIns nk mul (y :: l)
  | _ => []

/-- `uniformRefine_withCoefs(coefs,numKnots,mul,updateBasis)`, `gsMPBESBasis.hpp:150-177`: the blocks written are as large as the refined coefficients (`(*it)->rows()`). -/
def uniformCoefs (deg : ℕ → Bool → ℕ) (n : ℕ) (K : Knots) (nk mul : ℕ) (l : List ℚ) : Knots × List ℚ :=
  (fun p d => uniformKnots nk mul (K p d),
    ((List.range n).map fun p => refineNet (deg p) (K p) (fun d => uniformIns nk mul (K p d)) ((split deg K n l p).getD [])).flatten)

/-- The constructor from a multi-patch, `gsMPBESSpline.hpp:31-52`, with `gsMPBESBSplineBasis.hpp:44-64`: knots and local coefficients. `C p` are the coefficients of patch `p`. -/
def construct (T : Topo) (eps : ℚ) (deg : ℕ → Bool → ℕ) (turns : ℕ) (K : Knots) (C : ℕ → List ℚ) : Option (Knots × List ℚ) :=
  finish deg T.n (loop T eps deg turns K (fun p => some (C p)) (startSet T none))

/-- The constructor with a list of corners, `gsMPBESSpline.hpp:54-83`, with `gsMPBESBSplineBasis.hpp:22-42`: the patches are repaired without their coefficients (`gsMPBESBasis.hpp:197-204`), which are put together afterwards as they
were. `setC0` changes no knots. -/
def constructC0 (T : Topo) (eps : ℚ) (deg : ℕ → Bool → ℕ) (turns : ℕ) (K : Knots) (C : ℕ → List ℚ) : Option (Knots × List ℚ) :=
  match loop T eps deg turns K (fun _ => none) (startSet T none) with
  | .done K' _ => finish deg T.n (.done K' fun p => some (C p))
  | _ => none

end Verif.Carry
