import Verif.Model.Index
/-!
# Functions counted from a corner of a hierarchical basis

`gsDPatchBase::_indexFromVert_impl` for `gsHTensorBasis` (`gsDPatchBase.hpp:370-421`) and the levels that `gsDPatch::_initTHB` makes (`gsDPatch.hpp:144-181`). G+Smo, assumed: a knot vector is open; a function of the hierarchical basis is a
function of one of the levels; `flatTensorIndexToHierachicalIndex` gives its number or `-1`; `functionAtCorner` is the function at the corner on the level of the corner.
-/
set_option autoImplicit false
namespace Verif.HIndex
open Verif Verif.Index

/-- A hierarchical basis with two directions. -/
structure HB where
  /-- degrees -/
  p0 : ℕ
  p1 : ℕ
  /-- multiplicities of the inner knots of a level -/
  M0 : ℕ → List ℕ
  M1 : ℕ → List ℕ
  /-- `flatTensorIndexToHierachicalIndex(idx, level)`, `none` is `-1` -/
  hidx : ℕ → ℕ → Option ℕ
  /-- `levelAtCorner` -/
  lvl : Corner → ℕ

/-- Number of functions of a knot vector. -/
def dim (p : ℕ) (M : List ℕ) : ℕ := p + 1 + M.sum

/-- `_indexFromVert(&tbasis,k,corner,side,offset)` on level `l`, then `flatTensorIndexToHierachicalIndex`. The outer `none` is a failed assertion. -/
def at' (B : HB) (c : Corner) (s : Side) (o l k : ℕ) : Option (Option ℕ) :=
  (indexFromVert (dim B.p0 (B.M0 l)) (dim B.p1 (B.M1 l)) k c s o).map (B.hidx l)

/-- The two loops (`:393-400`, `:404-413`): the first number from `k` on whose function is active (`on`) or is not. Numbers that are too large end in a failed assertion, so a loop makes no more turns than there are functions along the side, plus one; `none` if it ends so. -/
def search (f : ℕ → Option (Option ℕ)) (on : Bool) : ℕ → ℕ → Option ℕ
  | 0, _ => none
  | fuel + 1, k => (f k).bind fun r => if r.isSome = on then some k else search f on fuel (k + 1)

/-- `_indexFromVert_impl`, `gsDPatchBase.hpp:370-421`. `none`: an assertion fails (without assertions: an index out of range, or `-1` is returned). -/
def indexFromVertH (B : HB) (k : ℕ) (c : Corner) (s : Side) (o : ℕ) : Option ℕ :=
  let l := B.lvl c
  (at' B c s o l k).bind fun r =>
    match r with
    | some a => some a
    | none =>
      if l = 0 then none
      else
        (search (at' B c s o l) false (dim B.p0 (B.M0 l) + dim B.p1 (B.M1 l) + 1) 0).bind fun nf =>
        (search (at' B c s o (l - 1)) true (dim B.p0 (B.M0 (l - 1)) + dim B.p1 (B.M1 (l - 1)) + 1) 0).bind fun nc =>
        (at' B c s o (l - 1) (k - nf + nc)).bind id

/-! ## The levels of a D-Patch -/

/-- Level 1 (`gsDPatch.hpp:161-166`): `degree - multiplicity - 1` copies are added to every inner knot. `none`: a negative number. -/
def level1 (p : ℕ) (M : List ℕ) : Option (List ℕ) := M.mapM fun m => if m + 1 ≤ p then some (m + (p - m - 1)) else none

/-- Level 2 (`:171-175`): `uniformRefine(1, degree-1)`, a knot with `degree - 1` copies in every element. -/
def level2 (p : ℕ) (M : List ℕ) : List ℕ := (p - 1) :: M.flatMap fun m => [m, p - 1]

end Verif.HIndex
