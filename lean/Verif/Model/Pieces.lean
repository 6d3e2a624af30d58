import Mathlib.Data.List.Basic
/-!
# Temporary pieces of the functions of the approximate C1 construction

`gsAlpha`, `gsBeta`, `gsTraceBasis`, `gsNormalDerivBasis` and `gsVertexBasis` (`gsApproxC1Utils.h:38-144, 147-228, 231-313, 317-406, 409-804`) all own their last piece through a plain pointer, e.g. for `gsAlpha`:
constructor `_alpha_piece(nullptr)` (line 56-60), destructor `delete _alpha_piece` (line 62), `piece()` `_alpha_piece = new gsAlpha(*this)` (line 72-78), and `clone()` by the implicit copy
constructor (`GISMO_CLONE_FUNCTION`, line 64), which copies the pointer. The data of the function play no role here: an object is its pointer.
-/
set_option autoImplicit false
namespace Verif.Pieces

/-- Objects by address; `none`: no object there; `some p`: an object with pointer `p`. Addresses are not used again after `delete` (in C++ they may be: a second `delete` is an error in both cases). -/
abbrev Heap := ℕ → Option (Option ℕ)

def put (h : Heap) (x : ℕ) (o : Option (Option ℕ)) : Heap := fun y => if y = x then o else h y

/-- Objects, next address, calls of `piece()` that have made their copy but not yet assigned it, and the objects owned by the caller. `own` is not in the program: it tells to which object of the
caller a piece belongs, so that one can say when a reference may still be used. -/
structure St where
  heap : Heap
  next : ℕ
  pend : List (ℕ × ℕ)
  roots : List ℕ
  own : ℕ → ℕ

def St.init : St := { heap := fun _ => none, next := 0, pend := [], roots := [], own := fun _ => 0 }

/-- The destructor, `gsApproxC1Utils.h:62`, then the memory is released. `none`: an object is deleted that does not exist (any more), or the recursion does not end within `fuel` steps. -/
def del : ℕ → Heap → ℕ → Option Heap
  | 0, _, _ => none
  | fuel + 1, h, x => match h x with
    | none => none
    | some none => some (put h x none)
    | some (some q) => match del fuel h q with
      | none => none
      | some h' => match h' x with
        | none => none
        | some _ => some (put h' x none)

/-- What a program can do with such objects. A call of `piece()` has two steps, because threads can call it at the same time: the member is `mutable` and not protected. -/
inductive Op
  | new
  | begin (x : ℕ)
  | finish (x a : ℕ)
  | clone (x : ℕ)
  | destroy (x : ℕ)

/-- Effect of a step. -/
def step (s : St) : Op → Option St
  | .new => some { s with heap := put s.heap s.next (some none), next := s.next + 1, roots := s.next :: s.roots, own := fun y => if y = s.next then s.next else s.own y }
  | .begin x => match s.heap x with
    | none => none
    | some p => some { s with heap := put s.heap s.next (some p), next := s.next + 1, pend := (x, s.next) :: s.pend, own := fun y => if y = s.next then s.own x else s.own y }
  | .finish x a => match s.heap x with
    | none => none
    | some _ => some { s with heap := put s.heap x (some (some a)), pend := s.pend.erase (x, a) }
  | .clone x => match s.heap x with
    | none => none
    | some p => some { s with heap := put s.heap s.next (some p), next := s.next + 1, roots := s.next :: s.roots, own := fun y => if y = s.next then s.next else s.own y }
  | .destroy x => match del s.next s.heap x with
    | none => none
    | some h => some { s with heap := h, roots := s.roots.erase x }

/-- A program. -/
def run (s : St) : List Op → Option St
  | [] => some s
  | o :: l => match step s o with
    | none => none
    | some s' => run s' l

end Verif.Pieces
