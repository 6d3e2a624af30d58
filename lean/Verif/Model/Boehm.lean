import Mathlib.Algebra.Order.Field.Basic
/-!
# Weights of the functions smoothed over an interface (C54)

`gsKnotVector` and `gsBoehm` are part of G+Smo, not of the repository. `reverse`, `addConstant`, `remove`, `append` are assumed to do what the comments below say; `gsBoehm(knots,coefs,val,r,false)` is assumed to be `r` single knot insertions
by Boehm's formula. Numbers are exact. Both knot vectors have the same degree.
-/
set_option autoImplicit false
namespace Verif.Boehm
variable {K : Type} [Field K] [LinearOrder K]

/-- `gsKnotVector::reverse()`: the knots mirrored within their interval. -/
def reverseKnots (L : List K) : List K := (L.map fun x => L.headD 0 + L.getLastD 0 - x).reverse

/-- `gsKnotVector::remove(knot,mult)`: at most `mult` copies of `knot` are removed. -/
def removeKnot (x : K) : ℕ → List K → List K
  | 0, L => L
  | n + 1, L => removeKnot x n (L.erase x)

/-- The knots at position `i`. (Behind the last knot: the last one; the code does not read there.) -/
def knotAt (L : List K) (i : ℕ) : K := L.getD i (L.getLastD 0)

/-- The first knot vector seen from the interface, `gsMPBESMapTensor.h:402-415`: scaled with its weight, the interface at the end. -/
def firstKnots (kv : List K) (dir : Bool) (w : K) : List K := let L := kv.map (· * w); if dir then L else reverseKnots L

/-- The second knot vector, `gsMPBESMapTensor.h:402-418`: scaled, the interface at the beginning, shifted by the last knot `s` of the first one. -/
def secondKnots (kv : List K) (dir : Bool) (w s : K) : List K := (let L := kv.map (· * w); if dir then reverseKnots L else L).map (· + s)

/-- The joined knot vector, `gsMPBESMapTensor.h:419-422`, from the two knot vectors above. -/
def join (p d : ℕ) (L0 L1 : List K) : List K := removeKnot (L0.getLastD 0) d L0 ++ removeKnot (L1.headD 0) (p + 1) L1

/-- The quotient in Boehm's formula for the insertion of `s`. -/
def ratio (t : ℕ → K) (p : ℕ) (s : K) (i : ℕ) : K := if t (i + p) ≤ s then 1 else if s ≤ t i then 0 else (s - t i) / (t (i + p) - t i)

/-- The coefficients after one insertion of `s`. -/
def insertCoefs (t : ℕ → K) (p : ℕ) (s : K) (c : ℕ → K) (i : ℕ) : K := ratio t p s i * c i + (1 - ratio t p s i) * if i = 0 then 0 else c (i - 1)

/-- The knots after one insertion of `s`. -/
def insertKnot (L : List K) (s : K) : List K := L.takeWhile (· ≤ s) ++ s :: L.dropWhile (· ≤ s)

/-- `gsBoehm`: the coefficients after `r` insertions of `s`. -/
def boehm (p : ℕ) (s : K) : ℕ → List K → (ℕ → K) → ℕ → K
  | 0, _, c => c
  | r + 1, L, c => boehm p s r (insertKnot L s) (insertCoefs (knotAt L) p s c)

/-- `_getBoehmCoefs`, `gsMPBESMapTensor.h:390-434`: the weights of the function with distance `a` to the interface, smoothing degree `d`. The subtraction of natural numbers is exact if the patch has more than `a` functions in this direction. -/
def weights (p : ℕ) (kv0 : List K) (dir0 : Bool) (w0 : K) (kv1 : List K) (dir1 : Bool) (w1 : K) (d a : ℕ) : List K :=
  if d = 1 then [1, 1]
  else
    let L0 := firstKnots kv0 dir0 w0
    let s := L0.getLastD 0
    let L1 := secondKnots kv1 dir1 w1 s
    let j := kv0.length - (p + 2) - a
    let c := boehm p s (d - 1) (join p d L0 L1) (fun i => if i = j then 1 else 0)
    (List.range d).flatMap fun i => if i = a then [c (i + j), c (i + j)] else [c (i + j)]

end Verif.Boehm
