import Mathlib.Analysis.SpecialFunctions.Trigonometric.Basic

/-!
# The built-in problems of the biharmonic solvers

The strings given to `gsFunctionExpr` are read as the functions they denote; `pi` is π.  Not modelled: the parser, floating-point evaluation.
-/

set_option autoImplicit false

namespace Verif.TestData

open Real

/-! ## `src/gsBiharmonicAssembler2.h:28-61` -/

/-- `source`, `gsBiharmonicAssembler2.h:32`. -/
noncomputable def source (x y : ℝ) : ℝ :=
  1 * π * π * π * π * (4 * cos (1 * π * x) * cos (1 * π * y) - cos (1 * π * x) - cos (1 * π * y))

/-- `solution`, `:36`. -/
noncomputable def solution (x y : ℝ) : ℝ := (cos (1 * π * x) - 1) * (cos (1 * π * y) - 1)

/-- `laplace`, `:44`. -/
noncomputable def laplace (x y : ℝ) : ℝ :=
  -1 * π * π * (2 * cos (1 * π * x) * cos (1 * π * y) - cos (1 * π * x) - cos (1 * π * y))

/-- `sol1der`, first component, `:47`. -/
noncomputable def neumann1 (x y : ℝ) : ℝ := -1 * π * (cos (1 * π * y) - 1) * sin (1 * π * x)

/-- `sol1der`, second component, `:48`. -/
noncomputable def neumann2 (x y : ℝ) : ℝ := -1 * π * (cos (1 * π * x) - 1) * sin (1 * π * y)

/-- The conditions put on a boundary side, `:50-54`. -/
inductive Cond where
  | dirichlet (g : ℝ → ℝ → ℝ)
  | laplace (g : ℝ → ℝ → ℝ)
  | neumann (g1 g2 : ℝ → ℝ → ℝ)

/-- The loop over the boundary sides, `:41-55`: every side gets a value and, after the flag, a Laplacian or a gradient. -/
noncomputable def conditions (sides : List (ℕ × ℕ)) (second : Bool) : List ((ℕ × ℕ) × Cond) :=
  sides.flatMap fun s => [(s, .dirichlet solution), (s, if second then .laplace TestData.laplace else .neumann neumann1 neumann2)]

/-! ## `examples/biharmonic_planar_example.cpp:175-201` -/

/-- `source`, `biharmonic_planar_example.cpp:175`. -/
noncomputable def source4 (x y : ℝ) : ℝ :=
  256 * π * π * π * π * (4 * cos (4 * π * x) * cos (4 * π * y) - cos (4 * π * x) - cos (4 * π * y))

/-- `solution`, `:180`. -/
noncomputable def solution4 (x y : ℝ) : ℝ := (cos (4 * π * x) - 1) * (cos (4 * π * y) - 1)

/-- `laplace`, `:189`. -/
noncomputable def laplace4 (x y : ℝ) : ℝ :=
  -16 * π * π * (2 * cos (4 * π * x) * cos (4 * π * y) - cos (4 * π * x) - cos (4 * π * y))

/-- `sol1der`, `:193`. -/
noncomputable def neumann41 (x y : ℝ) : ℝ := -4 * π * (cos (4 * π * y) - 1) * sin (4 * π * x)

/-- `sol1der`, `:194`. -/
noncomputable def neumann42 (x y : ℝ) : ℝ := -4 * π * (cos (4 * π * x) - 1) * sin (4 * π * y)

/-! ## `examples/biharmonic_surface_example.cpp:493-533`

The exact solution is the third coordinate `z`; the surface is read from a file.  The other functions do not contain `z`. -/

/-- `f`, `biharmonic_surface_example.cpp:493`. -/
noncomputable def sourceS (x y : ℝ) : ℝ :=
  (64 * (x - y) * (x + y) * (13 + 64 * x ^ 4 + 12 * y ^ 2 + 64 * y ^ 4 + x ^ 2 * (12 - 768 * y ^ 2))) / (1 + 4 * x ^ 2 + 4 * y ^ 2) ^ 5

/-- `laplace`, `:529`. -/
noncomputable def laplaceS (x y : ℝ) : ℝ := -((8 * (x ^ 2 - y ^ 2)) / (1 + 4 * x ^ 2 + 4 * y ^ 2) ^ 2)

/-- `sol1der`, `:531-533`, the three components. -/
noncomputable def neumannS1 (x y : ℝ) : ℝ := (2 * x) / (1 + 4 * x ^ 2 + 4 * y ^ 2)
noncomputable def neumannS2 (x y : ℝ) : ℝ := -((2 * y) / (1 + 4 * x ^ 2 + 4 * y ^ 2))
noncomputable def neumannS3 (x y : ℝ) : ℝ := -((4 * (x ^ 2 - y ^ 2)) / (1 + 4 * x ^ 2 + 4 * y ^ 2))

end Verif.TestData
