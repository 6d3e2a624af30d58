import Verif.Model.DPatchMap
/-!
# Coefficients taken from a surface: `_preCoefficients` of `gsSmoothInterfaces` and `gsDPatch`

`gsSmoothInterfaces.hpp:32-52`, `gsDPatch.hpp:62-138`. The rows of the coefficient matrix are named like the smooth functions (`Model/Smooth.lean`, `Model/DPatchMap.lean`). `gsMatrix<T> coefs(r,c)`
does not initialise its entries: a row that is not written is `none`, and reading it is an error here.
-/
set_option autoImplicit false
namespace Verif.PreCoefs
open Verif Smooth

variable {P : Type} [LinearOrder P] {V : Type}

/-- `m_mapModified.is_free` and `m_mapModified.index` for `gsDPatch`: row of a local function. A corner function of a boundary vertex with three patches is free even if it is not the one that names
the row (`matchDof`). `none`: eliminated. -/
def rowName (T : Topo P) (elim : Dof P → Bool) (d : Dof P) : Option (Dof P) :=
  if elim d then
    match Corner.all.find? fun k => decide (vert T (d.1, k) k.uside 0 0 = d ∧ T.interior (d.1, k) = false ∧ (T.cl (d.1, k)).length = 3) with
    | some k => DPatch.matched T (d.1, k)
    | none => none
  else some d

/-- The first loop of `_preCoefficients`, `gsDPatch.hpp:69-85`, `gsSmoothInterfaces.hpp:41-49`: over the functions of all patches. `row`: the mapper; `x`: control points of the surface (for
`gsDPatch` those in the basis `m_bases0`, `m_tMatrices[p]*coefs`). -/
def fill (row : Dof P → Option (Dof P)) (x : Dof P → V) (dl : List (Dof P)) : Dof P → Option V :=
  dl.foldl (fun f d => match row d with
    | none => f
    | some r => fun q => if q = r then some (x d) else f q) fun _ => none

/-- `gsSmoothInterfaces::_preCoefficients`, `gsSmoothInterfaces.hpp:32-52`. -/
def smoothCoefs (elim : Dof P → Bool) (x : Dof P → V) (dl : List (Dof P)) : Dof P → Option V :=
  fill (fun d => if elim d then none else some d) x dl

/-- Coefficients and `m_vertCheck`. -/
structure PreSt (P V : Type) where
  coef : Dof P → Option V
  vchk : PC P → Bool

/-- The loop over the corners of a vertex, `gsDPatch.hpp:109-127`: `b11b` and `b11i`. -/
def collect (T : Topo P) (elim : Dof P → Bool) (l : List (PC P)) : Option (List (Dof P) × Option (Dof P)) :=
  l.foldlM (fun a d => do
    let r ← rowName T elim (vert T d d.2.uside 1 1)
    if ! isIface T d.1 d.2.uside || ! isIface T d.1 d.2.vside then pure (a.1 ++ [r], a.2)
    else match a.2 with
      | none => pure (a.1, some r)
      | some _ => none) ([], none)

variable [AddCommGroup V]

/-- One turn of the second loop, `gsDPatch.hpp:89-135`. `skip`: the test with `std::count`, `gsDPatch.hpp:99`. -/
def v3Turn (T : Topo P) (elim : Dof P → Bool) (skip : PC P → Bool) (st : PreSt P V) (c : PC P) : Option (PreSt P V) :=
  if st.vchk c then pure st
  else if skip c then pure st
  else if ¬ T.interior c ∧ (T.cl c).length = 3 then do
    let b ← collect T elim (T.cl c)
    let d ← (T.cl c).head?
    let b00 ← rowName T elim (vert T d d.2.uside 0 0)
    let r0 ← b.1[0]?
    let r1 ← b.1[1]?
    let ri ← b.2
    let v0 ← st.coef r0
    let v1 ← st.coef r1
    let vi ← st.coef ri
    pure { coef := fun q => if q = b00 then some (v0 + v1 - vi) else st.coef q, vchk := fun e => decide (e ∈ T.cl c) || st.vchk e }
  else pure { st with vchk := fun e => e = c || st.vchk e }

/-- `gsDPatch::_preCoefficients`, `gsDPatch.hpp:62-138`. -/
def dpatchCoefs (T : Topo P) (elim : Dof P → Bool) (skip : PC P → Bool) (vl : List (PC P)) (x : Dof P → V) (dl : List (Dof P)) : Option (PreSt P V) :=
  vl.foldlM (v3Turn T elim skip) { coef := fill (rowName T elim) x dl, vchk := fun _ => false }

/-- `std::count(m_C0s.begin(), m_C0s.end(), pcorner)`, `gsDPatch.hpp:99`. `m_C0s` is a vector of `bool` with one entry per corner (`gsDPatchBase.h:732`, `gsDPatchBase.hpp:796-800`), not a list of
corners: every entry is compared, as a number, with the number of the corner. (Assumed of G+Smo: a `patchCorner` converts to the number 1, …, 4 of its corner.) So the count is the number of marked
corners if the corner is the south-west one, otherwise zero. -/
def countC0 (T : Topo P) (vl : List (PC P)) (c : PC P) : ℕ :=
  (vl.map T.c0).countP fun b => decide (b.toNat = c.2.idx)

/-- The test of the code. -/
def skipTest (T : Topo P) (vl : List (PC P)) (c : PC P) : Bool := decide (countC0 T vl c ≠ 0)

end Verif.PreCoefs
