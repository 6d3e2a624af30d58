import Verif.Model.VertexFun
/-!
# The scaling factor of the functions at a vertex

`gsApproxC1Vertex::computeSigma` (`gsApproxC1Vertex.hpp:70-103`) and `gsC1SurfVertex::computeSigma` (`gsC1SurfVertex.h:109-133`), over ℝ. `none`: a knot is read that does not exist, or the result is the
quotient of one and zero.
-/
set_option autoImplicit false
namespace Verif.VertexScale

/-- A basis of a patch: degrees and knots in the two directions. -/
structure TB where
  deg : Fin 2 → ℕ
  knots : Fin 2 → List ℝ

/-- `max(degree(0), degree(1))`, `maxDegree()`. -/
def TB.maxDeg (b : TB) : ℕ := max (b.deg 0) (b.deg 1)

/-- `lpNorm<Infinity>()` of the derivatives of a patch at the vertex. -/
def supNorm (l : List ℝ) : ℝ := (l.map fun x => |x|).foldr max 0

/-- The loop over the directions of one patch: `step` is `<` or `>` of the code, `off` the number that is added to the degree for the knot. -/
def turnH (off : ℕ) (better : ℝ → ℝ → ℝ) (b : TB) (p : ℕ) (h : ℝ) : Option ℝ := do
  let h0 ← (b.knots 0)[p + off]?
  let h := better h h0
  let h1 ← (b.knots 1)[p + off]?
  return better h h1

/-- The loop over the patches: degree and mesh size so far. -/
def loopH (off : ℕ) (better : ℝ → ℝ → ℝ) : List TB → ℕ → ℝ → Option (ℕ × ℝ)
  | [], p, h => some (p, h)
  | b :: l, p, h =>
    let p := max p b.maxDeg
    (turnH off better b p h).bind fun h => loopH off better l p h

/-- The last part, common to both functions. -/
noncomputable def finish (derivs : List (List ℝ)) (p : ℕ) (h : ℝ) : Option ℝ :=
  let s := (derivs.map supNorm).sum * (h / (derivs.length * p))
  if s = 0 then none else some (1 / s)

/-- `gsApproxC1Vertex::computeSigma`: `pieces k` are the bases of patch 0 (`m_auxPatches[0]`, not `[i]`) for its corner `k`, `vertexIndices` the numbers of the corners of the patches at the vertex. -/
noncomputable def sigmaApprox (pieces : ℕ → TB) (vertexIndices : List ℕ) (derivs : List (List ℝ)) : Option ℝ := do
  let (p, h) ← loopH 1 (fun h x => if h > x then x else h) (vertexIndices.map pieces) 0 1
  finish derivs p h

/-- `gsC1SurfVertex::computeSigma`: here the bases are those of the patches, the knot is the one after the first inner knot, and the largest one is taken. -/
noncomputable def sigmaSurf (bases : List TB) (derivs : List (List ℝ)) : Option ℝ := do
  let (p, h) ← loopH 2 (fun h x => if h < x then x else h) bases 0 0
  finish derivs p h

end Verif.VertexScale
