import Verif.Model.Kernel
/-!
# Selection of the functions at a boundary vertex, first version

`gsC1SurfVertex::computeBigSystemMatrix`, `computeSmallSystemMatrix`, `checkValues`, `addVertexBasis`, `addSmallKerBasis`, `selectVertexBoundaryBasisFunction`, `gsC1SurfVertex.h:165-221` and `359-444`.
At this commit the calls are commented out (`gsC1SurfVertex.h:756-770`); `computeKernel` (`Model/Kernel.lean`) is used instead. The functions are still members of the class.

Real numbers stand for floating-point numbers. `FullPivLU` is not part of the repository: its kernels are data, and the test `dimensionOfKernel() != 0` of a list of columns is exact. There are six functions
(`getG1Basis().nPatches()`).
-/
set_option autoImplicit false
namespace Verif.Select
open Verif.Kernel

/-- Row and number of the coefficient for each assignment of `computeBigSystemMatrix`, `gsC1SurfVertex.h:177-191`. -/
def bigEntries (dimU dimV : ℕ) : List (ℕ × ℕ) :=
  (List.range (2 * dimU)).map (fun i => (i, i)) ++
    (List.range' 1 (dimV - 2)).flatMap fun i => (List.range' i 2).map fun j => (i + j + 2 * dimU - 2, (i + 1) * dimU + j - i)

/-- The same for `computeSmallSystemMatrix`, `gsC1SurfVertex.h:207-217`. -/
def smallEntries (dimU dimV : ℕ) : List (ℕ × ℕ) :=
  (List.range dimU).map (fun i => (i, i)) ++ (List.range' 1 (dimV - 1)).map fun i => (i + dimU - 1, i * dimU)

/-- `BigMatrix.rows()`, `gsC1SurfVertex.h:173`. -/
def bigSize (dimU dimV : ℕ) : ℕ := 2 * (dimU + dimV - 2)

/-- `SmallMatrix.rows()`, `gsC1SurfVertex.h:203`. -/
def smallSize (dimU dimV : ℕ) : ℕ := dimU + dimV - 1

noncomputable section
open Classical

/-- `m_zero*m_zero`, `gsC1SurfVertex.h:587`. -/
def eps : ℝ := 1 / 10 ^ 20

/-- The matrix after all assignments; `c j n`: coefficient `n` of function `j`. A coefficient is written if its square exceeds `m_zero*m_zero`. -/
def system (c : Fin 6 → ℕ → ℝ) (es : List (ℕ × ℕ)) : ℕ → V :=
  es.foldl (fun A e r j => if r = e.1 ∧ c j e.2 * c j e.2 > eps then c j e.2 else A r j) fun _ _ => 0

/-- `checkValues` for one column, `gsC1SurfVertex.h:359-369`. -/
def checkValues (v : V) : V := fun r => if |v r * v r| < eps then 0 else v r

/-- `addSmallKerBasis`, `gsC1SurfVertex.h:391-406`. The list `small` has the `smallKDim` columns that are read. -/
def addSmallKerBasis (B small : List V) : List V := small.foldl (fun B v => if indep (B ++ [v]) then B ++ [v] else B) B

/-- `addVertexBasis`, `gsC1SurfVertex.h:371-389`: the same loop as in `gsApproxC1Vertex.hpp:306-318`. `none`: column `count` of the identity does not exist. -/
def addVertexBasis (B : List V) : Option (List V) := complete B 0

/-- `selectVertexBoundaryBasisFunction`, `gsC1SurfVertex.h:409-444`, the vectors. `none`: a column is read out of range. -/
def select (big : List V) (bigDim : ℕ) (small : List V) (smallDim : ℕ) : Option (List V) :=
  if bigDim ≠ 0 then
    if smallDim ≤ small.length then addVertexBasis (addSmallKerBasis (big.map checkValues) ((small.map checkValues).take smallDim)) else none
  else if smallDim ≠ 0 then addVertexBasis (small.map checkValues)
  else some ((List.finRange 6).map unit)

/-- `numberPerType`, `gsC1SurfVertex.h:414-416`. -/
def numberPerType (big : List V) (bigDim smallDim : ℕ) : List ℤ := [(bigDim : ℤ), (smallDim : ℤ) - bigDim, (big.length : ℤ) - smallDim]

end
end Verif.Select
