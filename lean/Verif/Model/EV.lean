import Verif.Model.Smooth
import Verif.Model.Pi
/-!
# Smoothing around an extraordinary vertex (`gsDPatch::_computeEVs`)

Rows of the matrix are the smooth functions (identified by local functions of `m_bases0` as in `Model/Smooth.lean`), columns are
the local functions of the refined bases `m_bases` (an arbitrary type `Q`; the functions near a corner are addressed by
`at'`). Scalars are real.
-/
set_option autoImplicit false
noncomputable section
namespace Verif.EV
open Verif Verif.Smooth

variable {P Q : Type} [DecidableEq P] [DecidableEq Q]

/-- Addresses of local functions: `at' c s k l` is `m_mapOriginal.index(_indexFromVert(m_bases,k,c,s,l),c.patch)`. -/
structure Fine (P Q : Type) where
  at' : PC P → Side → ℕ → ℕ → Q

/-- Other side at a corner: `if (otherSide==sides[0]) … else if (otherSide==sides[1]) … else GISMO_ERROR`
(`gsDPatch.hpp:414-421`). -/
def otherSide (c : Corner) (s : Side) : Option Side :=
  if s = c.uside then some c.vside else if s = c.vside then some c.uside else none

/-- The search for the corner of the neighbouring patch, `gsDPatch.hpp:398-406`: all corners of the list are tried, a later
match replaces an earlier one, without a match the previous value is kept (`none` is the initial `patchCorner(0,0)`). -/
def findCorner (L : List (PC P)) (prev : Option (PC P)) (os : PS P) : Option (PC P) :=
  L.foldl (fun acc d => if d = (os.1, os.2.corner false) then some (os.1, os.2.corner false)
    else if d = (os.1, os.2.corner true) then some (os.1, os.2.corner true) else acc) prev

/-- The loop that goes around the vertex, `gsDPatch.hpp:387-425`; the list of `corners[i]` with the sides whose interface is stored
in `interfaces[i]`. `none`: a `GISMO_ENSURE`/`GISMO_ERROR` fails. -/
def walk (T : Topo P) (L : List (PC P)) : ℕ → PC P → Side → Option (PC P) → Option (List (PC P × Side))
  | 0, _, _, _ => some []
  | n + 1, c, s, prev => do
    let os ← T.nb (c.1, s)
    let oc ← findCorner L prev os
    let s' ← otherSide oc.2 os.2
    let rest ← walk T L n oc s' (some oc)
    pure ((c, s) :: rest)

/-- The walk starts at `cornerLists[v][0]` and its first side, `gsDPatch.hpp:379-384`. -/
def evWalk (T : Topo P) : List (PC P) → Option (List (PC P × Side))
  | [] => none
  | c :: L => walk T (c :: L) (L.length + 1) c c.2.uside none

/-- `patches[p]`: `std::map::insert` keeps the first value (`gsDPatch.hpp:389`), `operator[]` gives 0 for a missing key. -/
def patchIdx (Wk : List (PC P × Side)) (p : P) : ℕ := (Wk.findIdx? fun x => decide (x.1.1 = p)).getD 0

/-- `getInterface(side,interfaces[i])`: the interface as stored, in one of its two orientations (`ori`). -/
def stored (ori : PS P → Bool) (s t : PS P) : PS P × PS P := if ori s then (s, t) else (t, s)

/-- Lookup of an array entry that has been written (the arrays start as zeros; an entry never written is modelled as `none`). -/
abbrev Arr (α : Type) := ℕ → Option α
/-- Assignment to an array entry. -/
def Arr.set {α : Type} (a : Arr α) (i : ℕ) (x : α) : Arr α := fun j => if j = i then some x else a j

/-- One iteration of the loop filling `cij[0]`, `cij[1]`, `cij[2]`, `gsDPatch.hpp:427-455` (`f` is `_indexFromVert` on `m_bases` for
`cij` and on `m_bases0` for `cijo`). -/
def cijStep {α : Type} (T : Topo P) (ori : PS P → Bool) (f : PC P → Side → ℕ → ℕ → α) (Wk : List (PC P × Side))
    (a : Arr α × Arr α × Arr α) (x : PC P × Side) : Option (Arr α × Arr α × Arr α) := do
  let t ← T.nb (x.1.1, x.2)
  let i := stored ori (x.1.1, x.2) t
  let se := if i.1.1 = x.1.1 then i.1 else i.2
  let so := if i.1.1 = x.1.1 then i.2 else i.1
  let oc ← cross T x.1 se.2
  pure (a.1.set (patchIdx Wk se.1) (f x.1 se.2 1 1),
        a.2.1.set (patchIdx Wk so.1) (f oc so.2 2 1),
        a.2.2.set (patchIdx Wk se.1) (f x.1 se.2 2 1))

/-- The arrays `cij` (or `cijo`) as one function of the position `j + l*N`. -/
def cij {α : Type} (T : Topo P) (ori : PS P → Bool) (f : PC P → Side → ℕ → ℕ → α) (Wk : List (PC P × Side)) :
    Option (ℕ → Option α) :=
  (Wk.foldlM (cijStep T ori f Wk) (fun _ => none, fun _ => none, fun _ => none)).map fun a p =>
    if p < Wk.length then a.1 p else if p < 2 * Wk.length then a.2.1 (p - Wk.length) else a.2.2 (p - 2 * Wk.length)

/-- A position array read completely; `none` if an entry has not been written. -/
def readAll {α : Type} (a : ℕ → Option α) (n : ℕ) : Option (List α) := (List.range n).mapM a

abbrev Mat (P Q : Type) := Dof P → Q → ℝ
abbrev REntry (P Q : Type) := Dof P × Q × ℝ

/-- `_push` (`gsDPatchBase.h:319-328`): assignment. -/
def push1 (M : Mat P Q) (e : REntry P Q) : Mat P Q := fun r c => if r = e.1 ∧ c = e.2.1 then e.2.2 else M r c
def push (M : Mat P Q) (l : List (REntry P Q)) : Mat P Q := l.foldl push1 M

/-- Entries of the projection, `gsDPatch.hpp:479-496`: every row is multiplied by `Pi` (`cols` in the order `j + l*N`;
the code visits the rows in the order corner first, which does not matter as all entries are computed before any is written). -/
def piEntries (M : Mat P Q) (Pi : ℕ → ℕ → ℝ) (rows : List (Dof P)) (cols : List Q) : List (REntry P Q) :=
  rows.flatMap fun r => cols.zipIdx.map fun x =>
    (r, x.1, ((cols.zipIdx.map fun y => Pi x.2 y.2 * M r y.1).sum))

/-- Entries for the functions 0,0 and 1,0 and 0,1 at each corner, `gsDPatch.hpp:503-527`. -/
def ringEntries (F : Fine P Q) (M : Mat P Q) (rows : List (Dof P)) (Wk : List (PC P × Side)) (cols : List Q) :
    List (REntry P Q) :=
  rows.flatMap fun r => (Wk.zip cols).flatMap fun x =>
    let c := x.1.1
    [(r, F.at' c c.2.uside 0 0, M r x.2), (r, F.at' c c.2.uside 1 0, M r x.2), (r, F.at' c c.2.vside 1 0, M r x.2)]

/-- The corner `corners[patches[p]]`. -/
def cornerOf (Wk : List (PC P × Side)) (p : P) : Option (PC P) := (Wk[patchIdx Wk p]?).map (·.1)

/-- Entries of the interface smoothing for one interface, `gsDPatch.hpp:535-572`. -/
def ifaceEntries (T : Topo P) (ori : PS P → Bool) (F : Fine P Q) (M : Mat P Q) (rows : List (Dof P))
    (Wk : List (PC P × Side)) (x : PC P × Side) : Option (List (REntry P Q)) := do
  let t ← T.nb (x.1.1, x.2)
  let i := stored ori (x.1.1, x.2) t
  let c ← cornerOf Wk i.1.1
  let oc ← cornerOf Wk i.2.1
  pure ([2, 3].flatMap fun k => rows.flatMap fun r =>
    let w := 1 / 2 * (M r (F.at' c i.1.2 k 1) + M r (F.at' oc i.2.2 k 1))
    [(r, F.at' c i.1.2 k 0, w), (r, F.at' oc i.2.2 k 0, w)])

/-- One extraordinary vertex with corner list `L` and projection `Pi`, `gsDPatch.hpp:364-575`. `carry` are the entries left in
`entries` by the previous vertex: the vector is not cleared after the last `_push` of the loop body. -/
def evStep (T : Topo P) (ori : PS P → Bool) (F : Fine P Q) (Pi : ℕ → ℕ → ℝ) (L : List (PC P))
    (st : Mat P Q × List (REntry P Q)) : Option (Mat P Q × List (REntry P Q)) := do
  let Wk ← evWalk T L
  let N := L.length
  let ca ← cij T ori F.at' Wk
  let ra ← cij T ori (vert T) Wk
  let cols ← readAll ca (3 * N)
  let rows ← readAll ra (3 * N)
  let M1 := push st.1 (st.2 ++ piEntries st.1 Pi rows cols)
  let M2 := push M1 (ringEntries F M1 rows Wk cols)
  let es ← Wk.mapM (ifaceEntries T ori F M2 rows Wk)
  pure (push M2 es.flatten, es.flatten)

/-- `_computeEVs` (`gsDPatch.hpp:332-578`) over the corner lists `evs` returned by `getEVs`; `base` is `m_matrix * m_tMatrix.transpose()`.
`none`: an assertion fails or the option `Pi` is unknown. -/
def computeEVs (T : Topo P) (ori : PS P → Bool) (F : Fine P Q) (opt : ℤ) (beta : ℝ) (level : ℕ)
    (evs : List (List (PC P))) (base : Mat P Q) : Option (Mat P Q) :=
  (evs.foldlM (fun (st : Mat P Q × List (REntry P Q)) (L : List (PC P)) => do
    let Pi ← Verif.Pi.makePi opt beta level L.length
    evStep T ori F Pi L st) (base, [])).map Prod.fst

/-- `m_matrix * m_tMatrix.transpose()`, `gsDPatch.hpp:348`, over the list of all local functions of `m_bases0`. -/
def mulT (M : Dof P → Dof P → ℝ) (tm : Q → Dof P → ℝ) (dl : List (Dof P)) : Mat P Q :=
  fun r q => (dl.map fun d => M r d * tm q d).sum

end Verif.EV
end
