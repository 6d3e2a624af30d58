import Verif.Model.FullMap
import Verif.Model.Boehm

/-!
# The whole map with its weights, `gsMPBESMapTensor.h:61-75`, `501-622`

The same calls as in `Model/FullMap.lean`, each giving the column of the matrix of the map that `_addToMap` fills.
Knot vectors and weights of sides are parameters; all knot vectors have the same degree (as in `Model/Boehm.lean`).
-/

set_option autoImplicit false

namespace Verif.FullMap
open Verif Verif.Walk Verif.Regions

variable {K : Type} [Field K] [LinearOrder K]

/-- `_getKnotVector(patch,dir)` and `m_basis->getWeight(ps)`. -/
structure Wts (K : Type) where
  deg : ℕ
  kv : ℕ → Bool → List K
  w : ℕ → Side → K

/-- The weights for one of the sides, `gsMPBESMapTensor.h:582-600`; `none`: `GISMO_ERROR`, no neighbour. -/
def weights1D (W : Wts K) (T : Net) (p : ℕ) (s : Side) (len dist : ℕ) : Option (List K) :=
  match T.nb p s with
  | none => none
  | some (q, s', _) => some (Boehm.weights W.deg (W.kv p s.dir) s.par (W.w p s) (W.kv q s'.dir) s'.par (W.w q s') len dist)

/-- `weight2` at one point of the loop, `gsMPBESMapTensor.h:609-614`; `none`: a weight is read beyond the end. -/
def pointWeight : List (List K) → List ℕ → Option K
  | w :: ws, n :: ns => do
    let a ← w[n]?
    let b ← pointWeight ws ns
    some (a * b)
  | _, _ => some 1

/-- The weights collected in the loop, `gsMPBESMapTensor.h:606-618`, from the point `pt`; fuel as for `blockLoop`, which collects the local functions in the same loop. -/
def weightLoop (ws : List (List K)) (lens : List ℕ) : ℕ → List ℕ → Option (List K)
  | 0, _ => none
  | n + 1, pt => do
    let y ← pointWeight ws pt
    match nextPoint lens pt with
    | none => some [y]
    | some pt' => (weightLoop ws lens n pt').map (y :: ·)

/-- `_addBlockToMap`, `gsMPBESMapTensor.h:571-622`: the entries of the new column; `some none`: nothing is added. -/
def addBlockW (W : Wts K) (T : Net) (x : Pos) (sides : List Side) (lens dists : List ℕ) : Option (Option (List (Pos × K))) := do
  let ws ← (sides.zip (lens.zip dists)).mapM fun e => weights1D W T x.p e.1 e.2.1 e.2.2
  let wts ← weightLoop ws lens ((lens.map (· + 1)).foldr (· * ·) 1) (lens.map fun _ => 0)
  let locals ← blockLocals T x sides lens
  some (if alreadyHandled locals x.p then none else some (locals.zip wts))

/-- The column added by a call, `gsMPBESMapTensor.h:508-569`. -/
def addCallW (W : Wts K) (T : Net) (cornerList : PCorner → List PCorner) (x : Pos) : Call → Option (Option (List (Pos × K)))
  | .free => some (some [(x, 1)])
  | .corner => some ((addCorner T cornerList x).map fun l => l.map fun y => (y, 1))
  | .line s len dist => addBlockW W T x [s] [len] [dist]
  | .block s₁ s₂ l₁ l₂ d₁ d₂ => addBlockW W T x [s₁, s₂] [l₁, l₂] [d₁, d₂]

/-- `makeMapper`, `gsMPBESMapTensor.h:61-75`: the columns of the matrix in the order in which they are numbered. -/
def mapW (W : Wts K) (T : Net) (cornerList : PCorner → List PCorner) (P : ℕ → Patch) (n : ℕ) : Option (List (List (Pos × K))) :=
  ((allCalls P n).mapM fun e => addCallW W T cornerList e.1 e.2).map (List.filterMap id)

/-- The entry of a column for a local function: `setEntry` overwrites (`gsMPBESMapTensor.h:501-506`), entries that are not set are zero. -/
def entry (col : List (Pos × K)) (y : Pos) : K := col.foldl (fun v e => if e.1 = y then e.2 else v) 0

/-- The sum of a row of the matrix. -/
def rowSum (F : List (List (Pos × K))) (y : Pos) : K := (F.map fun col => entry col y).sum

end Verif.FullMap
