import Verif.Model.Smooth
import Mathlib.Data.Fintype.Basic
/-!
# Kind of a vertex and the gluing data of its patches

`gsApproxC1Vertex.h:336-354` and `gsC1SurfVertex::kindOfVertex`, `gsC1SurfVertex.h:80-92`, decide whether a vertex is inside by counting the interfaces between its patches.
`gsC1SurfVertex::selectGD`, `gsC1SurfVertex.h:446-594`, collects the gluing data of a patch.
-/
set_option autoImplicit false
namespace Verif.VertexKind
open Verif Smooth

variable {P : Type} [DecidableEq P]

/-- `m_patchesAroundVertex`, `auxGeom`: the patches of the corners of a vertex. -/
def patches (T : Topo P) (c : PC P) : List P := (T.cl c).map (·.1)

/-- Sides of the given patches that are glued to one of them: what `computeTopology()` of these patches finds, `gsApproxC1Vertex.h:337-340`, `gsC1SurfVertex.h:47-55`. (It compares the geometries;
that the result are the interfaces of the multi-patch between these patches is assumed.) -/
def subSides (T : Topo P) (ps : List P) : List (PS P) :=
  ps.flatMap fun p => (Side.all.filter fun s => match T.nb (p, s) with
    | some t => decide (t.1 ∈ ps)
    | none => false).map fun s => (p, s)

/-- `interfaces().size()`: an interface has two sides. -/
def nInt (T : Topo P) (ps : List P) : ℕ := (subSides T ps).length / 2

/-- The test for an inner vertex, `gsApproxC1Vertex.h:342`. -/
def inside (T : Topo P) (c : PC P) : Bool := (patches T c).length == nInt T (patches T c)

/-- `kindOfVertex`, `gsC1SurfVertex.h:80-92`: -1 for a single patch, 0 for an inner vertex, 1 for the others. -/
def kindOfVertex (T : Topo P) (c : PC P) : ℤ :=
  if (patches T c).length = 1 then -1 else if (patches T c).length = nInt T (patches T c) then 0 else 1

/-! ## Gluing data -/

/-- A side of a patch of the vertex, all patches turned such that the vertex is their first corner: number of the patch, index of the side. -/
abbrev ASide := ℕ × ℕ

/-- An interface of `computeAuxTopology()`. -/
abbrev Ifc := ASide × ASide

/-- `getSol()` and `getSolBeta()` of `gsC1SurfGluingData` for two patches in the given order, `gsC1SurfVertex.h:470-473`. -/
structure GD (R : Type) where
  sol : ℕ → ℕ → Fin 4 → R
  beta : ℕ → ℕ → Fin 4 → R

variable {R : Type} [Zero R] [One R]

/-- `coefs(4,2)`, not initialised: `none`. -/
abbrev Coefs (R : Type) := Fin 4 → Fin 2 → Option R

/-- Column `k` is set. -/
def setCol (k : Fin 2) (v : Fin 4 → R) (c : Coefs R) : Coefs R := fun r l => if l = k then some (v r) else c r l

/-- Values at a boundary side: `1, 1, 0, 0`. -/
def bdyCol : Fin 4 → R := fun r => if r.1 < 2 then 1 else 0

/-- `sol(2,0), sol(3,0), solBeta(2,0), solBeta(3,0)`. -/
def col3 (g : GD R) (a b : ℕ) : Fin 4 → R
  | 0 => g.sol a b 2
  | 1 => g.sol a b 3
  | 2 => g.beta a b 2
  | 3 => g.beta a b 3

/-- `sol(0,0), sol(1,0), solBeta(0,0), solBeta(1,0)`. -/
def col1 (g : GD R) (a b : ℕ) : Fin 4 → R
  | 0 => g.sol a b 0
  | 1 => g.sol a b 1
  | 2 => g.beta a b 0
  | 3 => g.beta a b 1

/-- `(i == iter.first().patch && iter.first().index() == k) || (i == iter.second().patch && iter.second().index() == k)`. -/
def at' (i k : ℕ) (f : Ifc) : Bool := (i == f.1.1 && f.1.2 == k) || (i == f.2.1 && f.2.2 == k)

/-- Order of the two patches in `aux`, `gsC1SurfVertex.h:458-467`. -/
def order (f : Ifc) : ℕ × ℕ := if f.1.2 = 1 then (f.1.1, f.2.1) else (f.2.1, f.1.1)

/-- One turn of the loop over interfaces at an inner vertex, `gsC1SurfVertex.h:540-589`; also at a boundary vertex for patches without boundary side, `gsC1SurfVertex.h:475-492`. -/
def turn0 (g : GD R) (i : ℕ) (c : Coefs R) (f : Ifc) : Coefs R :=
  if i = f.1.1 ∨ i = f.2.1 then
    if at' i 3 f then setCol 0 (col3 g (order f).1 (order f).2) c
    else if at' i 1 f then setCol 1 (col1 g (order f).1 (order f).2) c
    else c
  else c

/-- One turn of the loop at a boundary vertex, for a patch with a boundary side, `gsC1SurfVertex.h:493-521`. -/
def turn1 (g : GD R) (i : ℕ) (c : Coefs R) (f : Ifc) : Coefs R :=
  if i = f.1.1 ∨ i = f.2.1 then
    if at' i 3 f then setCol 1 bdyCol (setCol 0 (col3 g (order f).1 (order f).2) c)
    else if at' i 1 f then setCol 1 (col1 g (order f).1 (order f).2) (setCol 0 bdyCol c)
    else c
  else c

/-- `selectGD(i)`, `gsC1SurfVertex.h:446-594`. `bdy`: one of the two sides at the vertex is a boundary side (`isBdy[i]`). -/
def selectGD (kind : ℤ) (bdy : Bool) (ifs : List Ifc) (g : GD R) (i : ℕ) : Coefs R :=
  if kind = 1 then ifs.foldl (if bdy then turn1 g i else turn0 g i) fun _ _ => none
  else if kind = -1 then setCol 1 bdyCol (setCol 0 bdyCol fun _ _ => none)
  else ifs.foldl (turn0 g i) fun _ _ => none

end Verif.VertexKind
