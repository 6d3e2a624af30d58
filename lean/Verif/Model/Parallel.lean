import Mathlib.Algebra.Group.Basic
import Mathlib.Algebra.BigOperators.Group.List.Basic
/-!
# Parallel assembly

The loop `apply` of `gsC1SurfBasisEdge.h:234-290`, `gsC1SurfBasisVertex.h:203-257`, `gsC1SurfGluingData.h:157-204`, `:206-253` and
`gsC1SurfGluingDataAssembler.h:131-183`. `nt` threads run the same code on a shared sparse system; every thread starts at element `tid` and advances by `nt`
(`domIt += tid; for (; domIt<domItEnd; domIt+=nt)`). A step of the model is one shared or private action of one thread, chosen by an arbitrary schedule.

The system (matrix and right-hand side) is an element of a commutative monoid `M`; `push` adds. Floating-point addition is not associative; the model is
about exact arithmetic. `c e` lists the contributions of the quadrature points of element `e`.
-/
set_option autoImplicit false
namespace Verif.Parallel
variable {M : Type} [AddCommMonoid M]

/-- Where a thread is. -/
inductive Phase
  /-- before the loop condition -/
  | test
  /-- element evaluated and assembled into the private visitor, waiting for the critical section -/
  | ready
  /-- in the critical section, system not read yet -/
  | locked
  /-- in the critical section, system read -/
  | read
  /-- in the critical section, system written -/
  | written
  | done
deriving DecidableEq

structure Thread (M : Type) where
  /-- number of the element `domIt` points to -/
  pos : ℕ
  phase : Phase
  /-- `localMat`, `localRhs` of the private visitor -/
  vis : M
  /-- value of the system read before adding -/
  reg : M

structure St (M : Type) where
  sys : M
  /-- owner of the critical section `localToGlobal` -/
  lock : Option ℕ
  th : ℕ → Thread M

/-- `evaluate`: ends with `localMat.setZero(..)`, `localRhs.setZero(..)` (e.g. `gsC1SurfGluingDataVisitor.h:188-189`, `gsC1SurfVisitorBasisEdge.h:103-104`). -/
def evaluate (_e : ℕ) (_v : M) : M := 0
/-- `assemble`: adds the contribution of every quadrature point (`gsC1SurfGluingDataVisitor.h:266-287`, `gsC1SurfVisitorBasisEdge.h:161-180`). -/
def assemble (c : ℕ → List M) (e : ℕ) (v : M) : M := (c e).foldl (· + ·) v

/-- One action of thread `t`; `none` when it cannot act (it has finished or waits for the critical section). `N` elements. -/
def step (nt N : ℕ) (c : ℕ → List M) (s : St M) (t : ℕ) : Option (St M) :=
  let a := s.th t
  let upd (b : Thread M) : ℕ → Thread M := fun u => if u = t then b else s.th u
  match a.phase with
  | .test =>
    if a.pos < N then some { s with th := upd { a with phase := .ready, vis := assemble c a.pos (evaluate a.pos a.vis) } }
    else some { s with th := upd { a with phase := .done } }
  | .ready => match s.lock with
    | none => some { s with lock := some t, th := upd { a with phase := .locked } }
    | some _ => none
  | .locked => some { s with th := upd { a with phase := .read, reg := s.sys } }
  | .read => some { s with sys := a.reg + a.vis, th := upd { a with phase := .written } }
  | .written => some { s with lock := none, th := upd { a with phase := .test, pos := a.pos + nt } }
  | .done => none

/-- A schedule: the threads that act, in order. `none` if some thread cannot act when scheduled or does not exist. -/
def exec (nt N : ℕ) (c : ℕ → List M) : List ℕ → St M → Option (St M)
  | [], s => some s
  | t :: l, s => if t < nt then (step nt N c s t).bind (exec nt N c l) else none

/-- Start of the parallel region; the visitors are copies of one visitor. -/
def init (sys v : M) : St M := ⟨sys, none, fun t => ⟨t, .test, v, 0⟩⟩

/-- The loop without OpenMP: one visitor, elements in order. -/
def serial (N : ℕ) (c : ℕ → List M) (sys v : M) : M × M :=
  (List.range N).foldl (fun s e => let v := assemble c e (evaluate e s.2); (s.1 + v, v)) (sys, v)

end Verif.Parallel
