import Mathlib.Algebra.BigOperators.Group.Finset.Basic
import Mathlib.Algebra.Order.Floor.Ring
import Mathlib.Algebra.Order.Floor.Semiring
import Mathlib.Data.Fintype.Basic
import Mathlib.Algebra.Order.Archimedean.Real.Basic
import Mathlib.LinearAlgebra.LinearIndependent.Defs
import Mathlib.Tactic.Linarith
import Mathlib.Tactic.NormNum
import Mathlib.Tactic.Positivity
/-!
# Functions at a boundary vertex

`gsApproxC1Vertex::computeKernel`, `gsApproxC1Vertex.hpp:115-335`. At a vertex on the boundary the six functions are combined such that the first of them vanish on the boundary.
`gsC1SurfVertex::computeKernel`, `gsC1SurfVertex.h:846-1048`, is the case `second = false`, except that it compares with zero by `math::almostEqual`.

Real numbers stand for floating-point numbers. `gsEigen::FullPivLU` is not part of the repository: its pivots and the columns of its `kernel()` are data here (`LU`).
-/
set_option autoImplicit false
namespace Verif.Kernel

/-- A patch at the vertex, turned such that the vertex is its first corner: sizes of `basis(0).component(0)` and `component(1)` (`gsApproxC1Vertex.hpp:135-138`), and whether sides 3 and 1
are boundary sides of `mp_vertex`. A side is an interface of `mp_vertex` if it is not a boundary side (G+Smo). -/
structure VPatch where
  du : ℕ
  dv : ℕ
  free3 : Bool
  free1 : Bool

/-- `dim_u`, `dim_v`, `side`, `patchID`, `dim_u_iFace`, `patchID_iFace`, `dim_mat`, `gsApproxC1Vertex.hpp:124-126`. `side` is true for side 1 (`side < 3`). -/
structure Coll where
  dimU : List ℕ := []
  dimV : List ℕ := []
  side : List Bool := []
  patchID : List ℕ := []
  dimUI : List ℕ := []
  patchIDI : List ℕ := []
  dimMat : ℕ := 0

/-- `if (mp_vertex.isBoundary(np,3))`, `gsApproxC1Vertex.hpp:131-139`. -/
def coll3 (second : Bool) (c : Coll) (np : ℕ) (p : VPatch) : Coll :=
  if p.free3 then
    { c with side := c.side ++ [false], patchID := c.patchID ++ [np], dimU := c.dimU ++ [p.du], dimV := c.dimV ++ [p.dv],
             dimMat := if second then c.dimMat + p.du else c.dimMat + p.du + p.du }
  else c

/-- `if (mp_vertex.isBoundary(np,1))`, `gsApproxC1Vertex.hpp:155-163`. -/
def coll1 (second : Bool) (c : Coll) (np : ℕ) (p : VPatch) : Coll :=
  if p.free1 then
    { c with side := c.side ++ [true], patchID := c.patchID ++ [np], dimU := c.dimU ++ [p.du], dimV := c.dimV ++ [p.dv],
             dimMat := if second then c.dimMat + p.dv else c.dimMat + p.dv + p.dv }
  else c

/-- Patches between two interfaces, `gsApproxC1Vertex.hpp:177-185`. -/
def collI (second : Bool) (c : Coll) (np : ℕ) (p : VPatch) : Coll :=
  if !p.free1 && !p.free3 then
    { c with dimMat := if second then c.dimMat + 1 else c.dimMat + 4, patchIDI := c.patchIDI ++ [np], dimUI := c.dimUI ++ [p.du] }
  else c

/-- Loop over the patches of the vertex, `gsApproxC1Vertex.hpp:129-187`. -/
def collect (second : Bool) (ps : List VPatch) : Coll :=
  ps.zipIdx.foldl (fun c x => collI second (coll1 second (coll3 second c x.2 x.1) x.2 x.1) x.2 x.1) {}

/-- The coefficient `idx` of the functions on patch `patch` goes to row `row`. -/
structure Write where
  row : ℕ
  patch : ℕ
  idx : ℕ
deriving DecidableEq

/-- Access to `basisVertexResult[patch].patch(j).coef(idx,0)` and to row `row` of `coefs_corner`; `none`: out of range. -/
def wr (ps : List VPatch) (m row patch idx : ℕ) : Option Write :=
  match ps[patch]? with
  | none => none
  | some p => if idx < p.du * p.dv ∧ row < m then some ⟨row, patch, idx⟩ else none

/-- Rows of one boundary side, `gsApproxC1Vertex.hpp:213-256`: for side 1 the coefficients `i*dim_u` and `i*dim_u+1`, for side 3 the coefficients `i` and `i+dim_u`; the second ones only without
option `second`. -/
def bdyRows (second : Bool) (ps : List VPatch) (m shift : ℕ) (isV : Bool) (pid du dv : ℕ) : Option (List Write) := do
  if isV then
    let l ← (List.range dv).mapM fun i => do
      let a ← wr ps m (shift + i) pid (i * du)
      if second then return [a] else do
        let b ← wr ps m (dv + shift + i) pid (i * du + 1)
        return [a, b]
    return l.flatten
  else
    let l ← (List.range du).mapM fun i => do
      let a ← wr ps m (shift + i) pid i
      if second then return [a] else do
        let b ← wr ps m (du + shift + i) pid (i + du)
        return [a, b]
    return l.flatten

/-- Rows of one patch between two interfaces, `gsApproxC1Vertex.hpp:258-286`. With option `second` the code reads `patchID[iFace_index]`, an entry of the list of *boundary* patches. -/
def ifaceRows (second : Bool) (ps : List VPatch) (c : Coll) (m shift k : ℕ) : Option (List Write) := do
  if second then
    let pid ← c.patchID[k]?
    let a ← wr ps m shift pid 0
    return [a]
  else
    let pid ← c.patchIDI[k]?
    let du ← c.dimUI[k]?
    let l ← (List.range 2).mapM fun i => do
      let a ← wr ps m (shift + i) pid i
      let b ← wr ps m (shift + 2 + i) pid (i + du)
      return [a, b]
    return l.flatten

/-- The loop over the boundary sides with `shift_row`, `gsApproxC1Vertex.hpp:209-257`. -/
def bdyLoop (second : Bool) (ps : List VPatch) (c : Coll) : Option (ℕ × List Write) :=
  (List.range c.patchID.length).foldlM (fun st b => do
    let isV ← c.side[b]?
    let pid ← c.patchID[b]?
    let du ← c.dimU[b]?
    let dv ← c.dimV[b]?
    let l ← bdyRows second ps c.dimMat st.1 isV pid du dv
    let d := if isV then dv else du
    return (if second then st.1 + d else st.1 + d + d, st.2 ++ l)) (0, [])

/-- All rows, `gsApproxC1Vertex.hpp:206-286`. -/
def rows (second : Bool) (ps : List VPatch) : Option (List Write) := do
  let c := collect second ps
  let st ← bdyLoop second ps c
  let st ← (List.range c.patchIDI.length).foldlM (fun st k => do
    let l ← ifaceRows second ps c c.dimMat st.1 k
    return (if second then st.1 + 1 else st.1 + 4, st.2 ++ l)) st
  return st.2

noncomputable section
open Classical

/-- Six coefficients. -/
abbrev V := Fin 6 → ℝ

/-- Functions: coefficient `idx` of function `j` on patch `np`. -/
abbrev Funs := ℕ → Fin 6 → ℕ → ℝ

/-- `coefs_corner`: a coefficient is written if its square exceeds `1e-25`, `gsApproxC1Vertex.hpp:203-204, 221-228`. -/
def matrix (F : Funs) (ws : List Write) : ℕ → V :=
  ws.foldl (fun A w r j => if r = w.row ∧ F w.patch j w.idx * F w.patch j w.idx > 1 / 10 ^ 25 then F w.patch j w.idx else A r j) fun _ _ => 0

/-- `dofsCorner`, `gsApproxC1Vertex.hpp:192-202`. `kink`: the test of the determinant. -/
def dofsCorner (second kink : Bool) : ℕ := if kink then (if second then 1 else 0) else (if second then 3 else 1)

/-- Factors of `FullPivLU`: the pivots and, for each threshold, the columns of `kernel()`. -/
structure LU where
  piv : List ℝ
  ker : ℝ → List V

/-- `FullPivLU::rank`: pivots above the threshold times the largest one. -/
def rank (piv : List ℝ) (t : ℝ) : ℕ := (piv.filter fun p => |p| > t * (piv.map (|·|)).foldr max 0).length

/-- `dimensionOfKernel`. -/
def dimKer (piv : List ℝ) (t : ℝ) : ℕ := 6 - rank piv t

theorem le_foldr_max : ∀ {l : List ℝ} {x : ℝ}, x ∈ l → x ≤ l.foldr max 0
  | a :: l, x, h => by
      rcases List.mem_cons.1 h with rfl | h
      · exact le_max_left _ _
      · exact (le_foldr_max h).trans (le_max_right _ _)

theorem foldr_max_nonneg : ∀ l : List ℝ, 0 ≤ l.foldr max 0
  | [] => le_rfl
  | _ :: l => (foldr_max_nonneg l).trans (le_max_right _ _)

theorem rank_one (piv : List ℝ) {t : ℝ} (h : 1 ≤ t) : rank piv t = 0 := by
  unfold rank
  rw [List.length_eq_zero_iff, List.filter_eq_nil_iff]
  intro p hp
  have h1 : |p| ≤ (piv.map (|·|)).foldr max 0 := le_foldr_max (List.mem_map_of_mem hp)
  have h2 := foldr_max_nonneg (piv.map (|·|))
  have h3 : (piv.map (|·|)).foldr max 0 ≤ t * (piv.map (|·|)).foldr max 0 := le_mul_of_one_le_left h2 h
  simp only [decide_eq_true_eq, not_lt, gt_iff_lt]
  linarith

/-- `while (KernelCorner.dimensionOfKernel() < dofsCorner) { threshold += 1e-8; … }`, `gsApproxC1Vertex.hpp:294-297`. -/
def search (piv : List ℝ) (dofs : ℕ) (h6 : dofs ≤ 6) (t : ℝ) : ℝ :=
  if dimKer piv t < dofs then search piv dofs h6 (t + 1 / 10 ^ 8) else t
termination_by ⌈(1 - t) * 10 ^ 8⌉₊
decreasing_by
  rename_i h
  have ht : t < 1 := by
    by_contra hc
    have := rank_one piv (not_lt.1 hc)
    unfold dimKer at h
    omega
  have e : (1 - (t + 1 / 10 ^ 8)) * 10 ^ 8 = (1 - t) * 10 ^ 8 - 1 := by ring
  rw [e, Nat.ceil_sub_one]
  have _h1 : 0 < 1 - t := by linarith
  exact Nat.sub_lt (Nat.ceil_pos.2 (by positivity)) Nat.one_pos

/-- `vertBas.col(count)`. -/
def unit (i : Fin 6) : V := fun j => if j = i then 1 else 0

/-- `ker_temp.dimensionOfKernel() == 0`, `gsApproxC1Vertex.hpp:311-313`: the columns are independent (the code decides this up to a threshold of `1e-6`). -/
def indep (l : List V) : Prop := LinearIndependent ℝ fun i : Fin l.length => l[i]

/-- Completion with unit vectors, `gsApproxC1Vertex.hpp:306-318`. `none`: column `count` of the identity does not exist. -/
def complete (K : List V) (count : ℕ) : Option (List V) :=
  if K.length < 6 then
    if h : count < 6 then complete (if indep (K ++ [unit ⟨count, h⟩]) then K ++ [unit ⟨count, h⟩] else K) (count + 1)
    else none
  else some K
termination_by 6 - count

/-- `kernel`, `gsApproxC1Vertex.hpp:288-321`. -/
def kernel (lu : LU) (dofs : ℕ) (h6 : dofs ≤ 6) : Option (List V) :=
  if dofs > 0 then complete (lu.ker (search lu.piv dofs h6 (1 / 10 ^ 10))) 0
  else some ((List.finRange 6).map unit)

/-- New functions, `gsApproxC1Vertex.hpp:326-341`; entries of the kernel with a square of at most `1e-25` are skipped. -/
def transform (F : Funs) (K : List V) : Funs := fun np j idx =>
  ∑ i : Fin 6, if (K.getD j 0) i * (K.getD j 0) i > 1 / 10 ^ 25 then F np i idx * (K.getD j 0) i else 0

theorem dofs_le (second kink : Bool) : dofsCorner second kink ≤ 6 := by cases second <;> cases kink <;> decide

/-- `computeKernel`, `gsApproxC1Vertex.hpp:115-345`. `lu`: the factors of a matrix. -/
def computeKernel (lu : (ℕ → V) → LU) (second kink : Bool) (ps : List VPatch) (F : Funs) : Option Funs := do
  let ws ← rows second ps
  let K ← kernel (lu (matrix F ws)) (dofsCorner second kink) (dofs_le second kink)
  return transform F K

end
end Verif.Kernel
