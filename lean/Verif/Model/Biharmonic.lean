import Verif.Model.DofMap
import Mathlib.Analysis.Real.Sqrt

/-!
# The system of the biharmonic solver

`src/gsBiharmonicAssembler2.h:76-145` (`initialize`, `assemble`, `solve`, `computeError`) and `:172-212` (`gsDirichletNeumannValuesL2Projection`).

Expressions are integrated by a quadrature rule (core): a finite number of points with weights.  What is modelled is the matrix and right-hand side as
functions of the values of basis functions and data at the points; the factors `meas(G)` are taken into the weights.  Assumed of the core:
`ilapl`, `igrad` are the derivatives in the physical domain; `nv(G)` is the outer normal whose length is the element of length, so that the
weights of the Laplace sides are the plain quadrature weights; `SimplicialLDLT` returns a solution of a regular system.
Not modelled: rounding, the choice of quadrature points, the solver for a singular matrix.
-/

set_option autoImplicit false

open Finset

namespace Verif.Biharm

open DofMap

/-- A quadrature rule: number of points and weights. -/
structure Rule where
  pts : ℕ
  w : ℕ → ℝ

/-- Values at the quadrature points: rules for the interior and for the sides with Dirichlet, Neumann and Laplace conditions; at point `q`, for
function `g`: the value, the Laplacian, the value on the Dirichlet sides, the derivative along the unit normal on the Neumann sides, the
derivative along the normal `nv` on the Laplace sides; and the data there (`ng`: prescribed gradient times the unit normal). -/
structure Problem where
  inner : Rule
  dir : Rule
  neu : Rule
  lap : Rule
  val : ℕ → ℕ → ℝ
  lapl : ℕ → ℕ → ℝ
  dval : ℕ → ℕ → ℝ
  nder : ℕ → ℕ → ℝ
  lder : ℕ → ℕ → ℝ
  src : ℕ → ℝ
  dg : ℕ → ℝ
  ng : ℕ → ℝ
  lg : ℕ → ℝ

/-- `lambda`, `gsBiharmonicAssembler2.h:197`. -/
noncomputable def lambda : ℝ := 1 / 100000

namespace Problem

/-- System matrix, `ilapl(u, G) * ilapl(u, G).tr() * meas(G)`, `:113`. -/
noncomputable def stiff (P : Problem) (g h : ℕ) : ℝ := ∑ q ∈ range P.inner.pts, P.lapl g q * P.lapl h q * P.inner.w q

/-- Right-hand side, `u * ff * meas(G)`, `:113`, and `(igrad(u, G) * nv(G)) * g_L.tr()`, `:118`. -/
noncomputable def load (P : Problem) (g : ℕ) : ℝ :=
  ∑ q ∈ range P.inner.pts, P.val g q * P.src q * P.inner.w q + ∑ q ∈ range P.lap.pts, P.lder g q * P.lg q * P.lap.w q

/-- Matrix of the projection, `:200` and `:202-204`. -/
noncomputable def bmat (P : Problem) (g h : ℕ) : ℝ :=
  ∑ q ∈ range P.dir.pts, P.dval g q * P.dval h q * P.dir.w q + ∑ q ∈ range P.neu.pts, lambda * P.nder g q * P.nder h q * P.neu.w q

/-- Right-hand side of the projection, `:201` and `:205-206`. -/
noncomputable def bload (P : Problem) (g : ℕ) : ℝ :=
  ∑ q ∈ range P.dir.pts, P.dval g q * P.dg q * P.dir.w q + ∑ q ∈ range P.neu.pts, lambda * P.nder g q * P.ng q * P.neu.w q

end Problem

/-- `assemble` and `solve`, `:86-126`, with the projection `:172-212`: `x` is the vector written to the fixed part, `y` the solution vector. -/
def Run (P : Problem) (np n : ℕ) (bnd bnd1 : ℕ → ℕ → List ℕ) (bc : BC) (x y : ℕ → ℝ) : Prop :=
  let m := setMapper np n bnd bnd1 bc
  (bdyMapper np n m).Solves P.bmat P.bload (fun _ => 0) x ∧ m.Solves P.stiff P.load x y

/-! ## `computeError`, `:128-145` -/

/-- Values for the errors at the points of a rule: the difference of exact and computed solution, its gradient and its Hessian. -/
structure Diff where
  rule : Rule
  d0 : ℕ → ℝ
  d1 : ℕ → Fin 2 → ℝ
  d2 : ℕ → Fin 2 → Fin 2 → ℝ

namespace Diff

/-- `m_ev.integral((u_ex - u_sol).sqNorm() * meas(G))`, `:142`. -/
noncomputable def i0 (D : Diff) : ℝ := ∑ q ∈ range D.rule.pts, D.d0 q ^ 2 * D.rule.w q

/-- The integral of `:143`. -/
noncomputable def i1 (D : Diff) : ℝ := ∑ q ∈ range D.rule.pts, (∑ i, D.d1 q i ^ 2) * D.rule.w q

/-- The integral of `:144`. -/
noncomputable def i2 (D : Diff) : ℝ := ∑ q ∈ range D.rule.pts, (∑ i, ∑ j, D.d2 q i j ^ 2) * D.rule.w q

/-- `l2err`, `:142`. -/
noncomputable def l2err (D : Diff) : ℝ := Real.sqrt D.i0

/-- `h1err`, `:143`. -/
noncomputable def h1err (D : Diff) : ℝ := D.l2err + Real.sqrt D.i1

/-- `h2err`, `:144`. -/
noncomputable def h2err (D : Diff) : ℝ := D.h1err + Real.sqrt D.i2

end Diff

end Verif.Biharm
