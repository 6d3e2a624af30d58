import Mathlib.Analysis.Real.Sqrt

/-!
# The operator of the biharmonic surface examples

`examples/biharmonic_surface2_example.cpp:363-709` (`var1_expr`) and `examples/biharmonic_surface_example.cpp:177-336` (`deriv2dot_expr`), with the
expressions assembled from them.

Layout of derivatives in G+Smo (core, assumed): in a column of `values[1]` the rows `2 i`, `2 i + 1` are the derivatives of component `i` in the
first and the second parameter; in a column of `values[2]` the rows `3 i`, `3 i + 1`, `3 i + 2` are its second derivatives, twice in the first,
twice in the second, and mixed.  A column is a function of the row number.
-/

set_option autoImplicit false

namespace Verif.SurfaceOp

/-- `G11`, `biharmonic_surface2_example.cpp:447-449` and `:595-597`. -/
noncomputable def g11 (d1 : ℕ → ℝ) : ℝ := d1 0 * d1 0 + d1 2 * d1 2 + d1 4 * d1 4

/-- `G12`, `:452-454` and `:601-603`. -/
noncomputable def g12 (d1 : ℕ → ℝ) : ℝ := d1 0 * d1 1 + d1 2 * d1 3 + d1 4 * d1 5

/-- `G22`, `:456-458` and `:606-608`. -/
noncomputable def g22 (d1 : ℕ → ℝ) : ℝ := d1 1 * d1 1 + d1 3 * d1 3 + d1 5 * d1 5

/-- `DuG11`, `:461-463` and `:612-614`. -/
noncomputable def duG11 (d1 d2 : ℕ → ℝ) : ℝ := 2 * (d2 0 * d1 0 + d2 3 * d1 2 + d2 6 * d1 4)

/-- `DvG11`, `:466-468` and `:618-620`. -/
noncomputable def dvG11 (d1 d2 : ℕ → ℝ) : ℝ := 2 * (d2 2 * d1 0 + d2 5 * d1 2 + d2 8 * d1 4)

/-- `DuG12`, `:471-476` and `:624-629`. -/
noncomputable def duG12 (d1 d2 : ℕ → ℝ) : ℝ :=
  d2 0 * d1 1 + d2 2 * d1 0 + d2 3 * d1 3 + d2 5 * d1 2 + d2 6 * d1 5 + d2 8 * d1 4

/-- `DvG21`, `:479-484` and `:632-637`. -/
noncomputable def dvG21 (d1 d2 : ℕ → ℝ) : ℝ :=
  d2 2 * d1 1 + d2 1 * d1 0 + d2 5 * d1 3 + d2 4 * d1 2 + d2 8 * d1 5 + d2 7 * d1 4

/-- `DuG22`, `:487-489` and `:640-642`. -/
noncomputable def duG22 (d1 d2 : ℕ → ℝ) : ℝ := 2 * (d2 2 * d1 1 + d2 5 * d1 3 + d2 8 * d1 5)

/-- `DvG22`, `:491-493` and `:644-646`. -/
noncomputable def dvG22 (d1 d2 : ℕ → ℝ) : ℝ := 2 * (d2 1 * d1 1 + d2 4 * d1 3 + d2 7 * d1 5)

/-- `detG`, `:495` and `:652`. -/
noncomputable def detG (d1 : ℕ → ℝ) : ℝ := g11 d1 * g22 d1 - g12 d1 * g12 d1

/-- `sqrtDetG_inv_derivative`, `:514` and `:666`. -/
noncomputable def sqrtDetGInvDerivative (d1 : ℕ → ℝ) : ℝ := 1 / (2 * detG d1 * Real.sqrt (detG d1))

/-- `var1_expr::eval_impl` for a space, row `i` of the result, `:430-562`: `d1`, `d2` the derivatives of the geometry map, `b1`, `b2` those of the
active functions. -/
noncomputable def var1 (d1 d2 b1 b2 : ℕ → ℝ) (i : ℕ) : ℝ :=
  ((g22 d1 * dvG11 d1 d2 - 2 * g12 d1 * dvG21 d1 d2 + g11 d1 * dvG22 d1 d2) * (g12 d1 * b1 (i * 2) - g11 d1 * b1 (i * 2 + 1))
    - (g22 d1 * duG11 d1 d2 - 2 * g12 d1 * duG12 d1 d2 + g11 d1 * duG22 d1 d2) * (g22 d1 * b1 (i * 2) - g12 d1 * b1 (i * 2 + 1))
    + 2 * (g12 d1 * g12 d1 - g11 d1 * g22 d1)
        * (dvG21 d1 d2 * b1 (i * 2) - dvG11 d1 d2 * b1 (i * 2 + 1) - g11 d1 * b2 (i * 3 + 1) + g12 d1 * b2 (i * 3 + 2))
    + 2 * (g12 d1 * g12 d1 - g11 d1 * g22 d1)
        * (duG12 d1 d2 * b1 (i * 2 + 1) - duG22 d1 d2 * b1 (i * 2) + g12 d1 * b2 (i * 3 + 2) - g22 d1 * b2 (i * 3)))
    * sqrtDetGInvDerivative d1

/-- `var1_expr::eval_impl` for a solution, `:564-709`: the same with the derivatives of the solution, times `1 / sqrt(detG)`. -/
noncomputable def var1Sol (d1 d2 f1 f2 : ℕ → ℝ) : ℝ :=
  ((g22 d1 * dvG11 d1 d2 - 2 * g12 d1 * dvG21 d1 d2 + g11 d1 * dvG22 d1 d2) * (g12 d1 * f1 0 - g11 d1 * f1 1)
    - (g22 d1 * duG11 d1 d2 - 2 * g12 d1 * duG12 d1 d2 + g11 d1 * duG22 d1 d2) * (g22 d1 * f1 0 - g12 d1 * f1 1)
    + 2 * (g12 d1 * g12 d1 - g11 d1 * g22 d1) * (dvG21 d1 d2 * f1 0 - dvG11 d1 d2 * f1 1 - g11 d1 * f2 1 + g12 d1 * f2 2)
    + 2 * (g12 d1 * g12 d1 - g11 d1 * g22 d1) * (duG12 d1 d2 * f1 1 - duG22 d1 d2 * f1 0 + g12 d1 * f2 2 - g22 d1 * f2 0))
    * sqrtDetGInvDerivative d1 * (1 / Real.sqrt (detG d1))

/-- `gg = pow(fform(G).det(),0.5)`, `biharmonic_surface2_example.cpp:1218`, `biharmonic_surface_example.cpp:608`. -/
noncomputable def gg (d1 : ℕ → ℝ) : ℝ := Real.sqrt (detG d1)

/-- The form assembled for two functions at a point, `biharmonic_surface2_example.cpp:1238`. -/
noncomputable def energy (d1 d2 b1 b2 : ℕ → ℝ) (i j : ℕ) : ℝ := var1 d1 d2 b1 b2 i * var1 d1 d2 b1 b2 j * (1 / gg d1)

/-- `deriv2dot_expr::eval_impl` for a space, row `i`, `biharmonic_surface_example.cpp:260-300`: the matrix `v` is put in the order `v11, v22, v12`
and the mixed derivative counted twice. -/
noncomputable def deriv2dot (b2 : ℕ → ℝ) (v11 v22 v12 : ℝ) (i : ℕ) : ℝ :=
  b2 (i * 3) * 1 * v11 + b2 (i * 3 + 1) * 1 * v22 + b2 (i * 3 + 2) * 2 * v12

/-- `deriv2(u,G0inv)` with `G0 = 1.0/gg * fform(G)` and `G0inv = G0.inv()`, `biharmonic_surface_example.cpp:608-612`; the inverse of a
2×2 matrix is written out. -/
noncomputable def deriv2 (d1 b2 : ℕ → ℝ) (i : ℕ) : ℝ :=
  let c := 1 / gg d1
  let d := c * g11 d1 * (c * g22 d1) - c * g12 d1 * (c * g12 d1)
  deriv2dot b2 (c * g22 d1 / d) (c * g11 d1 / d) (-(c * g12 d1) / d) i

end Verif.SurfaceOp
