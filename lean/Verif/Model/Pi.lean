import Mathlib.Analysis.SpecialFunctions.Complex.Arg
import Mathlib.Analysis.SpecialFunctions.Trigonometric.Arctan
/-!
# The projection applied at an extraordinary vertex (`gsDPatch::_makePi`)

The scalar type `T` is modelled by `ℝ` (no rounding). Index type is unbounded.
-/
set_option autoImplicit false
noncomputable section
namespace Verif.Pi

/-- `T phi = 2*pi / valence` with `pi = 4*atan(1)` (`gsDPatch.hpp:588-589`). -/
def phi (N : ℕ) : ℝ := 2 * (4 * Real.arctan 1) / N

/-- `beta = Beta * pow(0.5, RefLevel)` (`gsDPatch.hpp:591`). -/
def betaL (beta : ℝ) (level : ℕ) : ℝ := beta * (1 / 2) ^ level

/-- `psi = arg((1 + I*beta*sin(phi)) * exp(-I*phi/2))` (`gsDPatch.hpp:590-592`). -/
def psi (N : ℕ) (b : ℝ) : ℝ :=
  Complex.arg ((1 + Complex.I * b * Real.sin (phi N)) * Complex.exp (-Complex.I * phi N / 2))

/-- The table `P(j,i)` for option `Pi = 0` (`gsDPatch.hpp:593-602`). -/
def tab0 (N : ℕ) (ps : ℝ) (j i : ℕ) : ℝ :=
  if i = 0 ∨ i = 1 ∨ i = 2 ∨ i = 3 ∨ i = 6 then 1 / (3 * N)
  else if i = 4 ∨ i = 8 then 1 / (3 * N) * (1 + 3 * Real.cos (j * phi N))
  else if i = 5 then 1 / (3 * N) * (1 + 3 * Real.cos (2 * ps + j * phi N))
  else if i = 7 then 1 / (3 * N) * (1 + 3 * Real.cos (2 * ps - j * phi N))
  else 0

/-- The table `P(j,i)` for option `Pi = 1` (`gsDPatch.hpp:603-613`). -/
def tab1 (N : ℕ) (ps : ℝ) (j i : ℕ) : ℝ :=
  if i = 0 ∨ i = 3 ∨ i = 6 then 0
  else if i = 1 ∨ i = 2 then 1 / (2 * N)
  else if i = 4 ∨ i = 8 then 1 / (2 * N) * (1 + Real.cos (j * phi N))
  else if i = 5 then 1 / (2 * N) * (1 + Real.cos (2 * ps + j * phi N))
  else if i = 7 then 1 / (2 * N) * (1 + Real.cos (2 * ps - j * phi N))
  else 0

/-- `c = (j-k) % valence; if (c < 0) c += valence;` with the truncated `%` of C++ (`gsDPatch.hpp:626-628`). -/
def cyc (N j k : ℕ) : ℕ :=
  let c := ((j : ℤ) - k).tmod N
  (if c < 0 then c + N else c).toNat

/-- The nine circulant blocks assembled from a table: block `i` is written at rows `(i/3)*N…`, columns `(i%3)*N…`
(`gsDPatch.hpp:617-635`). The entry at row `r = (i/3)*N + j`, column `c = (i%3)*N + k` is read back directly. -/
def blocks (N : ℕ) (tab : ℕ → ℕ → ℝ) (r c : ℕ) : ℝ :=
  tab (cyc N (r % N) (c % N)) (3 * (r / N) + c / N)

/-- `_makePi(valence)` (`gsDPatch.hpp:581-639`); `none` is the `GISMO_ERROR` for any other value of the option.
The result is the `3N × 3N` matrix as a function of row and column. -/
def makePi (opt : ℤ) (beta : ℝ) (level N : ℕ) : Option (ℕ → ℕ → ℝ) :=
  let ps := psi N (betaL beta level)
  if opt = 0 then some (blocks N (tab0 N ps))
  else if opt = 1 then some (blocks N (tab1 N ps))
  else none

end Verif.Pi
end
