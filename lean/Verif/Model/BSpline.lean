import Mathlib.Algebra.Polynomial.Derivative
import Mathlib.Algebra.Polynomial.Eval.Defs
import Mathlib.Data.Real.Basic
/-!
# B-splines near the first knot

`gsBSplineBasis` is part of G+Smo, not of the repository. `evalSingle_into(i, ·)`, `derivSingle_into`, `deriv2Single_into` are assumed to evaluate the B-splines defined by the
recursion of Cox and de Boor. Knots are counted from zero as in `knots().at(i)`. Only the element between the first knot and the first interior knot is modelled,
where the functions are polynomials; the knot vector is open and starts at zero.
-/
set_option autoImplicit false
namespace Verif.BSpline
open Polynomial

/-- Knots of an open knot vector of degree `p` that starts at zero. -/
structure Open (t : ℕ → ℝ) (p : ℕ) : Prop where
  first : ∀ i ≤ p, t i = 0
  pos : 0 < t (p + 1)
  mono : Monotone t

/-- Polynomial of the `i`-th B-spline of degree `q` on the element `[t p, t (p+1))`; quotients with denominator zero are zero. -/
noncomputable def bs (t : ℕ → ℝ) (p : ℕ) : ℕ → ℕ → ℝ[X]
  | 0, i => if i = p then 1 else 0
  | q + 1, i => C (1 / (t (i + q + 1) - t i)) * (X - C (t i)) * bs t p q i
      + C (1 / (t (i + q + 2) - t (i + 1))) * (C (t (i + q + 2)) - X) * bs t p q (i + 1)

/-- The `i`-th function of the basis of degree `p`. -/
noncomputable def N (t : ℕ → ℝ) (p i : ℕ) : ℝ[X] := bs t p p i

end Verif.BSpline
