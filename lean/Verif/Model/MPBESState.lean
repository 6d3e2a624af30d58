import Verif.Model.Repair
/-!
# State of an MPBES basis: bases, distances, weights and the mapping built from them

`gsMPBESBasis.hpp`, `gsMPBESBSplineBasis.hpp`, `gsMPBESSpline.hpp`. The member `m_mapper` is built by `_setMapping` from the other members; the public functions change these members and are meant to build it again.
-/
set_option autoImplicit false
namespace Verif.MPBESState
open Verif Repair

/-- Corner of a patch: patch and number. -/
abbrev PCorner := ℕ × ℕ

/-- The members that the mapping is built from: knots of the bases, `m_vertices`, `m_distances`, `m_patchSideWeights`, `m_minDist`, `m_incrSmoothnessDegree`. The topology does not change. `V` and `D` stand for
the types of `m_vertices` and `m_distances`. -/
structure Cfg (V D : Type) where
  K : Knots
  verts : V
  dists : D
  weights : List ((ℕ × Side) × ℚ)
  minDist : ℕ
  incr : ℤ

/-- An object; `mapper` is `none` for the null pointer. -/
structure St (V D M : Type) where
  cfg : Cfg V D
  mapper : Option M

/-- What is not modelled here: `makeMapper` (`gsMPBESMapTensor.h`), the new distances in `smoothCornerEdge` (`gsMPBESBasis.hpp:206-219`) and the new marks and distances in `setC0` (`gsMPBESBasis.hpp:332-358`). -/
structure Env (V D M : Type) where
  T : Topo
  eps : ℚ
  make : Cfg V D → M
  smooth : Cfg V D → PCorner → Side → D
  c0 : Cfg V D → PCorner → V × D
  evs : List (PCorner × Side)

variable {V D M : Type}

/-- `updateTopol`, `gsMPBESBasis.h:98-102`; `_setMapping`, `gsMPBESBSplineBasis.hpp:132-139`. -/
def updateTopol (E : Env V D M) (s : St V D M) : St V D M := { s with mapper := some (E.make s.cfg) }

/-- `if(updateBasis) updateTopol();` -/
def upd (E : Env V D M) (b : Bool) (s : St V D M) : St V D M := if b then updateTopol E s else s

/-- Knots inserted by `uniformRefine(numKnots,mul)` (G+Smo) in a knot span: equally spaced, each of them `mul` times. -/
def spanKnots (nk mul : ℕ) (x y : ℚ) : List ℚ :=
  if x < y then (List.range nk).flatMap fun (i : ℕ) => List.replicate mul (x + ((i : ℚ) + 1) * ((y - x) / ((nk : ℚ) + 1))) else []

/-- `uniformRefine(numKnots,mul)` (G+Smo) of a knot vector. -/
def uniformKnots (nk mul : ℕ) : List ℚ → List ℚ
  | x :: y :: l => x :: (spanKnots nk mul x y ++ uniformKnots nk mul (y :: l))
  | l => l

/-- `uniformRefine`, `gsMPBESBasis.hpp:136-148`, and `uniformRefine_withCoefs`, `gsMPBESBasis.hpp:150-178`; without coefficients, for these see `Model/Carry.lean`. -/
def uniformRefine (E : Env V D M) (nk mul : ℕ) (b : Bool) (s : St V D M) : St V D M :=
  upd E b { s with cfg := { s.cfg with K := fun p d => uniformKnots nk mul (s.cfg.K p d) } }

/-- `repairPatches`, `gsMPBESBSplineBasis.hpp:338-367`, at most `turns` turns of its loop; `none`: not finished, or undefined. -/
def repair (E : Env V D M) (turns : ℕ) (start : Option ℕ) (s : St V D M) : Option (St V D M) :=
  match repairPatches E.T E.eps turns s.cfg.K start with
  | .done K => some { s with cfg := { s.cfg with K := K } }
  | _ => none

/-- Knots `ins` are inserted in patch `p`. -/
def insert (p : ℕ) (ins : Bool → List ℚ) (s : St V D M) : St V D M := { s with cfg := { s.cfg with K := insertKnots s.cfg.K p ins } }

/-- `refine`, `gsMPBESBSplineBasis.hpp:180-191`: all patches are repaired. -/
def refine (E : Env V D M) (turns p : ℕ) (ins : Bool → List ℚ) (b : Bool) (s : St V D M) : Option (St V D M) :=
  if b then (repair E turns none (insert p ins s)).map (updateTopol E) else some (insert p ins s)

/-- `refine_withCoefs`, `gsMPBESBSplineBasis.hpp:208-244`: the repair starts from patch `p` only. -/
def refineCoefs (E : Env V D M) (turns p : ℕ) (ins : Bool → List ℚ) (b : Bool) (s : St V D M) : Option (St V D M) :=
  if b then (repair E turns (some p) (insert p ins s)).map (updateTopol E) else some (insert p ins s)

/-- `smoothCornerEdge`, `gsMPBESBasis.hpp:206-219`. -/
def smoothCornerEdge (E : Env V D M) (c : PCorner) (x : Side) (b : Bool) (s : St V D M) : St V D M :=
  upd E b { s with cfg := { s.cfg with dists := E.smooth s.cfg c x } }

/-- `smoothEverything`, `gsMPBESBasis.hpp:221-236`. -/
def smoothEverything (E : Env V D M) (s : St V D M) : St V D M :=
  updateTopol E (E.evs.foldl (fun s x => smoothCornerEdge E x.1 x.2 false s) s)

/-- `setC0`, `gsMPBESBasis.hpp:332-358`. -/
def setC0 (E : Env V D M) (c : PCorner) (s : St V D M) : St V D M :=
  { s with cfg := { s.cfg with verts := (E.c0 s.cfg c).1, dists := (E.c0 s.cfg c).2 } }

/-- `setWeight`, `gsMPBESBasis.hpp:278-296`. The result `found` is not modelled. -/
def setWeight (E : Env V D M) (x : ℕ × Side) (w : ℚ) (s : St V D M) : St V D M :=
  { s with cfg := { s.cfg with weights :=
      if (s.cfg.weights.any fun y => decide (y.1 = x)) = true then s.cfg.weights.map fun y => if y.1 = x then (x, w) else y
      else if (E.T.nb x.1 x.2).isSome then s.cfg.weights ++ [(x, w)]
      else s.cfg.weights } }

/-- Copy constructor, `gsMPBESBSplineBasis.hpp:92-110`: `m_patchSideWeights` is not copied, and the mapping of the other object is dereferenced. -/
def copy (s : St V D M) : Option (St V D M) :=
  s.mapper.map fun m => { cfg := { s.cfg with weights := [] }, mapper := some m }

/-- `operator=`, `gsMPBESBSplineBasis.hpp:113-129`: the mapping becomes the null pointer, the weights of the object stay. -/
def assign (s other : St V D M) : St V D M := { cfg := { other.cfg with weights := s.cfg.weights }, mapper := none }

/-! ## The spline -/

/-- `global_coef_to_local_coef` and `local_coef_to_global_coef` (G+Smo) use the mapping. -/
def useMapper (s : St V D M) : Option (St V D M) := s.mapper.map fun _ => s

/-- `setCornerC0`, `gsMPBESSpline.hpp:85-92`. -/
def setCornerC0 (E : Env V D M) (c : PCorner) (s : St V D M) : Option (St V D M) := (useMapper s).bind fun s => useMapper (setC0 E c s)

/-- `uniformRefine`, `gsMPBESSpline.hpp:112-118`. -/
def splineUniform (E : Env V D M) (nk mul : ℕ) (s : St V D M) : Option (St V D M) := (useMapper s).bind fun s => useMapper (uniformRefine E nk mul true s)

/-- `refine`, `gsMPBESSpline.hpp:121-130`; `refineElements` of one patch, `gsMPBESSpline.hpp:133-139`. -/
def splineRefine (E : Env V D M) (turns p : ℕ) (ins : Bool → List ℚ) (s : St V D M) : Option (St V D M) :=
  (useMapper s).bind fun s => (refineCoefs E turns p ins true s).bind useMapper

/-- `refineElements` of all patches, `gsMPBESSpline.hpp:142-154`: refinement of one patch after the other, one repair of all patches, a new mapping. -/
def splineRefineAll (E : Env V D M) (turns : ℕ) (l : List (ℕ × (Bool → List ℚ))) (s : St V D M) : Option (St V D M) :=
  (useMapper s).bind fun s => ((l.foldlM (fun s x => refineCoefs E turns x.1 x.2 false s) s).bind (repair E turns none)).bind fun s => useMapper (updateTopol E s)

/-- `uniformRefineAndSmooth(numKnots)`, `gsMPBESSpline.hpp:157-164`: `uniformRefine_withCoefs(localCoefs,numKnots,false)`. The third argument is `mul`, so that `false` is the multiplicity 0. -/
def uniformRefineAndSmooth (E : Env V D M) (nk : ℕ) (s : St V D M) : Option (St V D M) :=
  (useMapper s).bind fun s => useMapper (smoothEverything E (uniformRefine E nk 0 true s))

/-- `refineAndSmooth`, `gsMPBESSpline.hpp:167-174`, and `refineElementsAndSmooth`, `gsMPBESSpline.hpp:177-184`. -/
def refineAndSmooth (E : Env V D M) (turns p : ℕ) (ins : Bool → List ℚ) (s : St V D M) : Option (St V D M) :=
  (useMapper s).bind fun s => (refineCoefs E turns p ins false s).bind fun s => useMapper (smoothEverything E s)

end Verif.MPBESState
