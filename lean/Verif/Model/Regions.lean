import Verif.Model.Basic

/-!
# The regions of a patch, `_setTensorMappingOfPatch`, `gsMPBESMapTensor.h:103-331`

The function goes through nine regions of the functions of a patch and calls one of the `_add…` functions for the functions it meets.
The model keeps the list of these calls with their arguments, in order.
The sizes are natural numbers; `u_amount-degree_u` and the like are not negative in the code, since a basis of degree `p` has at least `p+1` functions
and the smoothing degrees are at most `p`.
-/

set_option autoImplicit false

namespace Verif.Regions
open Verif

/-- A call of `_addFreeToMap`, `_addSingularCornerToMap`, `_addCombinedLineToMap(ps,·,length,dist)` or
`_addCombinedBlockToMap(ps_u,ps_v,·,length_u,length_v,dist_u,dist_v)`. -/
inductive Call
  | free
  | corner
  | line (s : Side) (len dist : ℕ)
  | block (s₁ s₂ : Side) (len₁ len₂ dist₁ dist₂ : ℕ)
deriving DecidableEq, Repr

/-- The data the function reads: numbers of functions, smoothing degrees (`degree_u`, `degree_v`), which sides are interfaces, which corners are special,
the results of `getDistanceOfVertex` (first corner, then direction), whether there is one patch only, and which functions exist (`_getLocalIndex_into`,
always true for tensor B-splines). -/
structure Patch where
  nu : ℕ
  nv : ℕ
  du : ℕ
  dv : ℕ
  iface : Side → Bool
  sw : Bool
  se : Bool
  nw : Bool
  ne : Bool
  swu : ℕ
  swv : ℕ
  seu : ℕ
  sev : ℕ
  nwu : ℕ
  nwv : ℕ
  neu : ℕ
  nev : ℕ
  single : Bool
  act : ℕ → ℕ → Bool

/-- The corrections of the distances of two corners of a side, `gsMPBESMapTensor.h:135-154`: if the sum is larger than the number of functions, the
first gets one half. -/
def clip (a b n : ℕ) : ℕ × ℕ := if a + b > n then (n / 2, n - n / 2) else (a, b)

/-- The distances after the corrections, `gsMPBESMapTensor.h:135-154`. -/
def Patch.clipped (P : Patch) : Patch :=
  { P with
    neu := (clip P.neu P.nwu P.nu).1, nwu := (clip P.neu P.nwu P.nu).2
    seu := (clip P.seu P.swu P.nu).1, swu := (clip P.seu P.swu P.nu).2
    sev := (clip P.sev P.nev P.nv).1, nev := (clip P.sev P.nev P.nv).2
    swv := (clip P.swv P.nwv P.nv).1, nwv := (clip P.swv P.nwv P.nv).2 }

/-- Two nested loops over `j0 ≤ j < j1`, `i0 ≤ i < i1` with body `f`. -/
def loop (P : Patch) (j0 j1 i0 i1 : ℕ) (f : ℕ → ℕ → Option Call) : List ((ℕ × ℕ) × Call) :=
  (List.range' j0 (j1 - j0)).flatMap fun j =>
    (List.range' i0 (i1 - i0)).filterMap fun i => if P.act i j then (f i j).map fun c => ((i, j), c) else none

/-- The choice of the call in a corner region, from the special flag, the flags of the two sides, the degrees and the distances of the function to the side
`su` (south or north) and to the side `sv` (west or east), `gsMPBESMapTensor.h:178-193` and the three similar places.  The block gets `degree_u` as
length over the side `su` and `degree_v` over `sv`. -/
def cornerCall (special : Bool) (su sv : Side) (hu hv : Bool) (du dv : ℕ) (a b : ℕ) : Call :=
  if (special ∨ du = 1 ∨ dv = 1) ∧ b = 0 ∧ a = 0 then .corner
  else if special ∧ hv ∧ b = 0 then .line sv 1 0
  else if special ∧ hu ∧ a = 0 then .line su 1 0
  else if ¬ special ∧ hu ∧ hv then .block su sv du dv a b
  else if ¬ special ∧ hu ∧ ¬ hv then .line su dv a
  else if ¬ special ∧ ¬ hu ∧ hv then .line sv du b
  else .free

/-- The calls for distances already corrected, `gsMPBESMapTensor.h:156-331`. -/
def callsOf (P : Patch) : List ((ℕ × ℕ) × Call) :=
  let north := P.iface .north
  let south := P.iface .south
  let east := P.iface .east
  let west := P.iface .west
  let nlv := if north then P.dv else 0
  let slv := if south then P.dv else 0
  let elu := if east then P.du else 0
  let wlu := if west then P.du else 0
  let northSame := P.single && south
  let eastSame := P.single && east
  let nu := P.nu
  let nv := P.nv
  let du := P.du
  let dv := P.dv
  -- south-west
  loop P 0 P.swv 0 P.swu (fun i j =>
    if i ≥ du ∧ j ≥ dv then none
    else some (cornerCall P.sw .south .west south west du dv j i)) ++
  -- south-middle
  loop P 0 slv P.swu (nu - P.seu) (fun _ j => some (if south then .line .south dv j else .free)) ++
  -- south-east
  loop P 0 P.sev (nu - P.seu) nu (fun i j =>
    if i < nu - du ∧ j ≥ dv then none
    else if ¬ P.se ∧ eastSame then none
    else some (cornerCall P.se .south .east south east du dv j (nu - 1 - i))) ++
  -- west-middle
  loop P P.swv (nv - P.nwv) 0 wlu (fun i _ => some (if west then .line .west du i else .free)) ++
  -- middle-middle
  loop P slv (nv - nlv) wlu (nu - elu) (fun i j =>
    if j < P.swv ∧ j < dv ∧ i < P.swu ∧ i < du then none
    else if j < P.sev ∧ j < dv ∧ i ≥ nu - P.seu ∧ i ≥ nu - du then none
    else if j ≥ nv - P.nev ∧ j ≥ nv - dv ∧ i ≥ nu - P.neu ∧ i ≥ nu - du then none
    else if j ≥ nv - P.nwv ∧ j ≥ nv - dv ∧ i < P.nwu ∧ i < du then none
    else some .free) ++
  -- east-middle
  loop P P.sev (nv - P.nev) (nu - elu) nu (fun i _ =>
    if east ∧ eastSame then none else some (if east then .line .east du (nu - 1 - i) else .free)) ++
  -- north-west
  loop P (nv - P.nwv) nv 0 P.nwu (fun i j =>
    if i ≥ du ∧ j < nv - dv then none
    else if ¬ P.nw ∧ northSame then none
    else some (cornerCall P.nw .north .west north west du dv (nv - 1 - j) i)) ++
  -- north-middle
  loop P (nv - nlv) nv P.nwu (nu - P.neu) (fun _ j =>
    if north ∧ northSame then none else some (if north then .line .north dv (nv - 1 - j) else .free)) ++
  -- north-east
  loop P (nv - P.nev) nv (nu - P.neu) nu (fun i j =>
    if i < nu - du ∧ j < nv - dv then none
    else if ¬ P.ne ∧ (northSame ∨ eastSame) then none
    else some (cornerCall P.ne .north .east north east du dv (nv - 1 - j) (nu - 1 - i)))

/-- All calls made for a patch, `gsMPBESMapTensor.h:103-331`. -/
def calls (P : Patch) : List ((ℕ × ℕ) × Call) := callsOf P.clipped

/-- The number of weights computed by `_getBoehmCoefs(…,degree,knot_index,·)`, `gsMPBESMapTensor.h:390-430`: one per function of the merged basis, the one
with number `knot_index` twice. -/
def weightCount (degree knotIndex : ℕ) : ℕ := if degree = 1 then 2 else degree + if knotIndex < degree then 1 else 0

/-- The weights read by `_addBlockToMap` in one direction have numbers `0,…,length` (`gsMPBESMapTensor.h:610-614`, see C40): all of them exist. -/
def weightsExist (len dist : ℕ) : Bool := decide (len < weightCount len dist)

/-- All weights read during a call exist. -/
def Call.inBounds : Call → Bool
  | .free => true
  | .corner => true
  | .line _ len dist => weightsExist len dist
  | .block _ _ l₁ l₂ d₁ d₂ => weightsExist l₁ d₁ && weightsExist l₂ d₂

end Verif.Regions
