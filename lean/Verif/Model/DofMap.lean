import Mathlib.Data.Finset.Card
import Mathlib.Data.Real.Basic
import Mathlib.Algebra.BigOperators.Group.Finset.Basic

/-!
# Boundary conditions of the biharmonic solver

`src/gsBiharmonicAssembler2.h` (the functions inside the class) and `examples/biharmonic_surface_example.cpp:347-436` (the variant for a
`gsMultiBasis` whose interfaces are matched).

`gsDofMapper` belongs to the G+Smo core and is not in the repository.  Its behaviour is written out below: a function carries a
tag (`0` free, negative eliminated, positive coupled), and `finalize` numbers the free functions first, then the coupled ones, then the
eliminated ones, every group in the order in which it is first met.  This is the assumed part.
Functions are numbered flatly over all patches; function `i` of patch `k` is number `off k + i`.
-/

set_option autoImplicit false

open Finset

namespace Verif.DofMap

/-- `gsDofMapper` (G+Smo core): number of functions, patches and their offsets, the tags, the next coupling id, the next elimination id. -/
structure DM where
  n : ℕ
  np : ℕ
  off : ℕ → ℕ
  tag : ℕ → ℤ
  ncp : ℤ
  cur : ℤ

/-- `gsDofMapper::setIdentity` (core): one numbering shared by all patches, every offset zero, every function free. -/
def setIdentity (nPatches nDofs : ℕ) : DM :=
  { n := nDofs, np := nPatches, off := fun _ => 0, tag := fun _ => 0, ncp := 1, cur := -1 }

/-- `gsDofMapper::init` (core): the patches one after the other, patch `k` with `sz k` functions, every function free. -/
def init (nPatches : ℕ) (sz : ℕ → ℕ) : DM :=
  { n := ∑ k ∈ range nPatches, sz k, np := nPatches, off := fun k => ∑ l ∈ range k, sz l, tag := fun _ => 0, ncp := 1, cur := -1 }

/-- `gsDofMapper::eliminateDof` (core) for the function with flat number `g`. -/
def eliminate (d : DM) (g : ℕ) : DM :=
  if d.tag g = 0 then { d with tag := Function.update d.tag g d.cur, cur := d.cur - 1 }
  else if 0 < d.tag g then { d with tag := fun h => if d.tag h = d.tag g then d.cur else d.tag h, cur := d.cur - 1 }
  else d

/-- `gsDofMapper::markBoundary(k, indices)` (core). -/
def markBoundary (d : DM) (k : ℕ) (l : List ℕ) : DM :=
  l.foldl (fun d i => eliminate d (d.off k + i)) d

/-- `gsDofMapper::matchDof` (core) for flat numbers. -/
def couple (d : DM) (g h : ℕ) : DM :=
  if d.tag g = 0 ∧ d.tag h = 0 then
    { d with tag := fun i => if i = g ∨ i = h then d.ncp else d.tag i, ncp := d.ncp + 1 }
  else if d.tag g = 0 then { d with tag := Function.update d.tag g (d.tag h) }
  else if d.tag h = 0 then { d with tag := Function.update d.tag h (d.tag g) }
  else { d with tag := fun i => if d.tag i = max (d.tag g) (d.tag h) then min (d.tag g) (d.tag h) else d.tag i }

/-- `gsMultiBasis::matchInterface` (core): the pairs of functions an interface identifies, coupled one after the other. -/
def matchAll (d : DM) (ms : List (ℕ × ℕ)) : DM :=
  ms.foldl (fun d m => couple d m.1 m.2) d

/-! ## `gsDofMapper::finalize` (core) -/

/-- `is_free`: not eliminated. -/
def DM.isFree (d : DM) (g : ℕ) : Bool := decide (0 ≤ d.tag g)

/-- `g` is the first function carrying its tag. -/
def DM.lead (d : DM) (g : ℕ) : Prop := ∀ h < g, d.tag h ≠ d.tag g

instance (d : DM) (g : ℕ) : Decidable (d.lead g) := by unfold DM.lead; infer_instance

/-- The first function carrying the tag of `g`. -/
def DM.first (d : DM) (g : ℕ) : ℕ := Nat.find (p := fun h => d.tag h = d.tag g) ⟨g, rfl⟩

/-- Number of uncoupled free functions. -/
def DM.nUncoupled (d : DM) : ℕ := #{h ∈ range d.n | d.tag h = 0}

/-- Number of groups of coupled free functions. -/
def DM.nCoupled (d : DM) : ℕ := #{h ∈ range d.n | 0 < d.tag h ∧ d.lead h}

/-- `freeSize`. -/
def DM.freeSize (d : DM) : ℕ := d.nUncoupled + d.nCoupled

/-- `boundarySize`. -/
def DM.boundarySize (d : DM) : ℕ := #{h ∈ range d.n | d.tag h < 0 ∧ d.lead h}

/-- `index`. -/
def DM.index (d : DM) (g : ℕ) : ℕ :=
  if d.tag g = 0 then #{h ∈ range g | d.tag h = 0}
  else if 0 < d.tag g then d.nUncoupled + #{h ∈ range (d.first g) | 0 < d.tag h ∧ d.lead h}
  else d.freeSize + #{h ∈ range (d.first g) | d.tag h < 0 ∧ d.lead h}

/-- `bindex`, `global_to_bindex`: position among the eliminated unknowns. -/
def DM.bindex (d : DM) (g : ℕ) : ℕ := d.index g - d.freeSize

/-- `patchSize`: distance to the next offset, for the last patch to the end. -/
def DM.patchSize (d : DM) (k : ℕ) : ℕ := if k + 1 = d.np then d.n - d.off k else d.off (k + 1) - d.off k

/-- `findFree(k)`: the local numbers of the free functions of patch `k`. -/
def DM.findFree (d : DM) (k : ℕ) : List ℕ := (List.range (d.patchSize k)).filter fun i => d.isFree (d.off k + i)

/-! ## The repository code -/

/-- Boundary conditions: the sides with a Dirichlet, a Neumann and a Laplace condition. -/
structure BC where
  dirichlet : List (ℕ × ℕ)
  neumann : List (ℕ × ℕ)
  laplace : List (ℕ × ℕ)

/-- `setMapperForBiharmonic`, `gsBiharmonicAssembler2.h:151-170`.
`bnd k s` and `bnd1 k s` are what `bb2.basis(k).boundary(s)` and `bb2.basis(k).boundaryOffset(s,1)` return. -/
def setMapper (np n : ℕ) (bnd bnd1 : ℕ → ℕ → List ℕ) (bc : BC) : DM :=
  let d := setIdentity np n
  let d := bc.dirichlet.foldl (fun d it => markBoundary d it.1 (bnd it.1 it.2)) d
  bc.neumann.foldl (fun d it => markBoundary d it.1 (bnd1 it.1 it.2)) d

/-- The mapper of the projection, `gsBiharmonicAssembler2.h:178-184`. -/
def bdyMapper (np n : ℕ) (m : DM) : DM :=
  markBoundary (setIdentity np n) 0 (m.findFree (m.np - 1))

/-- Assembling with a mapper: the entry `a g h` of two functions goes to the row and column of their unknowns when both are free, and with the
prescribed value `fix` to the right-hand side when the second is not (G+Smo expression assembler, core). -/
def DM.matrix (d : DM) (a : ℕ → ℕ → ℝ) (r c : ℕ) : ℝ :=
  ∑ g ∈ range d.n, ∑ h ∈ range d.n, if d.isFree g ∧ d.isFree h ∧ d.index g = r ∧ d.index h = c then a g h else 0

/-- Right-hand side of the assembled system. -/
def DM.rhs (d : DM) (a : ℕ → ℕ → ℝ) (l : ℕ → ℝ) (fix : ℕ → ℝ) (r : ℕ) : ℝ :=
  ∑ g ∈ range d.n, if d.isFree g ∧ d.index g = r then
    l g - ∑ h ∈ range d.n, (if d.isFree h then 0 else a g h * fix (d.bindex h)) else 0

/-- The coefficient of a function read off a solution vector and a vector of prescribed values (`gsFeSolution::extract`, core). -/
def DM.coef (d : DM) (x fix : ℕ → ℝ) (g : ℕ) : ℝ := if d.isFree g then x (d.index g) else fix (d.bindex g)

/-- `x` solves the assembled system. -/
def DM.Solves (d : DM) (a : ℕ → ℕ → ℝ) (l fix x : ℕ → ℝ) : Prop :=
  ∀ r < d.freeSize, ∑ c ∈ range d.freeSize, d.matrix a r c * x c = d.rhs a l fix r

/-- `setMapperForBiharmonic` for a `gsMultiBasis`, `examples/biharmonic_surface_example.cpp:347-373`: the interfaces are matched first. -/
def setMapperMB (np : ℕ) (sz : ℕ → ℕ) (ms : List (ℕ × ℕ)) (bnd bnd1 : ℕ → ℕ → List ℕ) (bc : BC) : DM :=
  let d := matchAll (init np sz) ms
  let d := bc.dirichlet.foldl (fun d it => markBoundary d it.1 (bnd it.1 it.2)) d
  bc.neumann.foldl (fun d it => markBoundary d it.1 (bnd1 it.1 it.2)) d

/-- The mapper of the projection for a `gsMultiBasis`, `examples/biharmonic_surface_example.cpp:378-389`. -/
def bdyMapperMB (np : ℕ) (sz : ℕ → ℕ) (ms : List (ℕ × ℕ)) (m : DM) : DM :=
  (List.range np).foldl (fun d k => markBoundary d k (m.findFree k)) (matchAll (init np sz) ms)

/-- Body of the reordering loop for patch `k`, `examples/biharmonic_surface_example.cpp:423-431`; the state is the vector and `sz`. -/
def reorderStep (m b : DM) (temp : ℕ → ℝ) (st : (ℕ → ℝ) × ℕ) (k : ℕ) : (ℕ → ℝ) × ℕ :=
  ((b.findFree k).foldl (fun f i => Function.update f (m.bindex (st.2 + i)) (temp (b.index (st.2 + i)))) st.1,
   st.2 + b.patchSize k)

/-- The reordering loop, `examples/biharmonic_surface_example.cpp:418-433`, from the solution `temp` of the projection. -/
def reorder (m b : DM) (temp : ℕ → ℝ) : ℕ → ℝ :=
  ((List.range b.np).foldl (reorderStep m b temp) (fun _ => 0, 0)).1

end Verif.DofMap
