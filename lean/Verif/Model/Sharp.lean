import Verif.Model.Smooth
import Mathlib.Algebra.BigOperators.Group.Finset.Basic
import Mathlib.Algebra.Order.Group.Abs
import Mathlib.Algebra.Order.Ring.Defs
import Mathlib.Data.Fintype.Basic
/-!
# Detection of sharp corners

`getSharpCorners`, `gsDPatchBase.hpp:47-125`; the result becomes `m_C0s` (`gsDPatchBase.hpp:796-800`).
-/
set_option autoImplicit false
namespace Verif.Sharp
open Verif Smooth

variable {P : Type} [DecidableEq P] {K : Type} [Ring K] [LinearOrder K]

/-- A side of a patch at one of its corners. -/
abbrev Dart (P : Type) := PC P × Side

/-- `boundaries`, `gsDPatchBase.hpp:74-89`: the sides at the corners of the vertex that are not interfaces. -/
def boundaries (T : Topo P) (c : PC P) : List (Dart P) :=
  (T.cl c).flatMap fun d => (d.2.sides.filter fun s => ! isIface T d.1 s).map fun s => (d, s)

/-- `normals[0].transpose() * normals[1]`, `gsDPatchBase.hpp:116`. `n`: unit outer normal of a side at a corner (`gsMapData::outNormal`, normalised; G+Smo), a vector with `m` components. -/
def dot {m : ℕ} (n : Dart P → Fin m → K) (a b : Dart P) : K := ∑ i, n a i * n b i

/-- `result` and `m_vertCheck`. -/
structure SharpSt (P : Type) where
  res : PC P → Bool
  chk : PC P → Bool

/-- One turn of the loop over corners, `gsDPatchBase.hpp:63-122`. `none`: `GISMO_ERROR` because the number of sides is neither 0 nor 2. -/
def turn {m : ℕ} (T : Topo P) (n : Dart P → Fin m → K) (tol : K) (st : SharpSt P) (c : PC P) : Option (SharpSt P) :=
  if st.chk c then some st
  else
    let st' : SharpSt P := { st with chk := fun d => decide (d ∈ T.cl c) || st.chk d }
    match boundaries T c with
    | [] => some st'
    | [a, b] => if |dot n a b - 1| > tol then some { st' with res := fun d => decide (d ∈ T.cl c) || st.res d } else some st'
    | _ => none

/-- `getSharpCorners`, `gsDPatchBase.hpp:47-125`. `vl`: all corners of all patches. -/
def sharpCorners {m : ℕ} (T : Topo P) (n : Dart P → Fin m → K) (tol : K) (vl : List (PC P)) : Option (SharpSt P) :=
  vl.foldlM (turn T n tol) { res := fun _ => false, chk := fun _ => false }

end Verif.Sharp
