import Mathlib.Data.Nat.Notation
import Mathlib.Logic.Function.Basic
/-!
# Common vocabulary

Box sides and box corners as used throughout `/repo/src` (G+Smo conventions:
sides 1 = west (u=0), 2 = east (u=1), 3 = south (v=0), 4 = north (v=1);
corners 1 = south-west, 2 = south-east, 3 = north-west, 4 = north-east).
-/
namespace Verif

/-- `boxSide` in 2D: index 1..4, e.g. `gsApproxC1Edge.hpp:210-222`, `gsDPatchBase.h` (`_sideIndex`). -/
inductive Side | west | east | south | north
deriving DecidableEq, Repr, Inhabited

/-- `boxCorner` in 2D: index 1..4, e.g. `gsApproxC1Vertex.hpp:30-47`. -/
inductive Corner | sw | se | nw | ne
deriving DecidableEq, Repr, Inhabited

namespace Side
/-- Numeric index of a side (`boxSide::index`). -/
def idx : Side → ℕ | west => 1 | east => 2 | south => 3 | north => 4
/-- `boxSide::direction()`: 0 for west/east, 1 for south/north. -/
def dir : Side → Bool | west => false | east => false | south => true | north => true
/-- `boxSide::parameter()`: false at the lower end, true at the upper end. -/
def par : Side → Bool | west => false | east => true | south => false | north => true
/-- The list of the four sides in index order. -/
def all : List Side := [west, east, south, north]
theorem mem_all (s : Side) : s ∈ all := by cases s <;> simp [all]
end Side

namespace Corner
/-- Numeric index of a corner (`boxCorner::m_index`). -/
def idx : Corner → ℕ | sw => 1 | se => 2 | nw => 3 | ne => 4
/-- `parameters()(0)`: is the corner on the east side. -/
def pu : Corner → Bool | sw => false | se => true | nw => false | ne => true
/-- `parameters()(1)`: is the corner on the north side. -/
def pv : Corner → Bool | sw => false | se => false | nw => true | ne => true
/-- The list of the four corners in index order. -/
def all : List Corner := [sw, se, nw, ne]
theorem mem_all (s : Corner) : s ∈ all := by cases s <;> simp [all]
end Corner

end Verif
