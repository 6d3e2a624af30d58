import Mathlib.Data.Real.Basic
import Mathlib.Data.Matrix.Mul
import Mathlib.Data.Fin.VecNotation
/-!
# The systems for the gluing data

`gsC1SurfGluingDataVisitor.h` and `gsC1SurfGluingData.h`: the 7×7 system for `alpha_R`, `alpha_L`, `beta` and the 4×4 system for `beta_R`, `beta_L`.
Over ℝ. Parameters: the quadrature points and weights of the elements, the derivative vectors of the two patches at the points (`FR` is patch 0, `FL` patch 1) and
the penalty `lam` (`:66`, `:218`: a fixed power of ten; here any number).
-/
set_option autoImplicit false
namespace Verif.Gluing

/-- A quadrature point: parameter `md.points`, weight `quWeights[k]` and the columns `DvFL`, `DuFR`, `DvFR` (`gsC1SurfGluingDataVisitor.h:82-84`). -/
structure Pt (ι : Type) where
  t : ℝ
  w : ℝ
  dvFL : ι → ℝ
  duFR : ι → ℝ
  dvFR : ι → ℝ

variable {ι : Type} [Fintype ι]

/-- The six scalar products `gsC1SurfGluingDataVisitor.h:87-93`: `DvFL_DvFL`, `DuFR_DuFR`, `DvFR_DvFR`, `DvFL_DuFR`, `DvFR_DuFR`, `DvFL_DvFR`. -/
def Pt.ll (p : Pt ι) : ℝ := p.dvFL ⬝ᵥ p.dvFL
def Pt.rr (p : Pt ι) : ℝ := p.duFR ⬝ᵥ p.duFR
def Pt.ww (p : Pt ι) : ℝ := p.dvFR ⬝ᵥ p.dvFR
def Pt.lr (p : Pt ι) : ℝ := p.dvFL ⬝ᵥ p.duFR
def Pt.wr (p : Pt ι) : ℝ := p.dvFR ⬝ᵥ p.duFR
def Pt.lw (p : Pt ι) : ℝ := p.dvFL ⬝ᵥ p.dvFR

/-- `basisData.row(r)` at the point (`gsC1SurfGluingDataVisitor.h:100-173`); rows not assigned are zero (`setZero`, `:49`). -/
def basisData (lam : ℝ) (p : Pt ι) : ℕ → ℝ
  | 0 => 2 * (p.t * p.t * (p.ll - lam) - 2 * p.t * (p.ll - lam) + 1 * (p.ll - lam))
  | 1 => 2 * p.t * (1 - p.t) * (p.ll - lam)
  | 7 => 2 * p.t * (1 - p.t) * (p.ll - lam)
  | 2 => 2 * (p.t * p.t * p.lr - 2 * p.t * p.lr + 1 * p.lr)
  | 14 => 2 * (p.t * p.t * p.lr - 2 * p.t * p.lr + 1 * p.lr)
  | 3 => 2 * p.t * (1 - p.t) * p.lr
  | 21 => 2 * p.t * (1 - p.t) * p.lr
  | 4 => 2 * (1 * p.lw - 3 * p.t * p.lw + 3 * p.t * p.t * p.lw - p.t * p.t * p.t * p.lw)
  | 28 => 2 * (1 * p.lw - 3 * p.t * p.lw + 3 * p.t * p.t * p.lw - p.t * p.t * p.t * p.lw)
  | 5 => 4 * p.t * (1 - p.t) * (1 - p.t) * p.lw
  | 35 => 4 * p.t * (1 - p.t) * (1 - p.t) * p.lw
  | 6 => 2 * p.t * p.t * (1 - p.t) * p.lw
  | 42 => 2 * p.t * p.t * (1 - p.t) * p.lw
  | 8 => 2 * p.t * p.t * (p.ll - lam)
  | 9 => 2 * p.t * (1 - p.t) * p.lr
  | 15 => 2 * p.t * (1 - p.t) * p.lr
  | 10 => 2 * p.t * p.t * p.lr
  | 22 => 2 * p.t * p.t * p.lr
  | 11 => 2 * p.t * (1 - p.t) * (1 - p.t) * p.lw
  | 29 => 2 * p.t * (1 - p.t) * (1 - p.t) * p.lw
  | 12 => 4 * p.t * p.t * (1 - p.t) * p.lw
  | 36 => 4 * p.t * p.t * (1 - p.t) * p.lw
  | 13 => 2 * p.t * p.t * p.t * p.lw
  | 43 => 2 * p.t * p.t * p.t * p.lw
  | 16 => 2 * (p.t * p.t * (p.rr - lam) - 2 * p.t * (p.rr - lam) + 1 * (p.rr - lam))
  | 17 => 2 * p.t * (1 - p.t) * (p.rr - lam)
  | 23 => 2 * p.t * (1 - p.t) * (p.rr - lam)
  | 18 => 2 * (1 * p.wr - 3 * p.t * p.wr + 3 * p.t * p.t * p.wr - p.t * p.t * p.t * p.wr)
  | 30 => 2 * (1 * p.wr - 3 * p.t * p.wr + 3 * p.t * p.t * p.wr - p.t * p.t * p.t * p.wr)
  | 19 => 4 * p.t * (1 - p.t) * (1 - p.t) * p.wr
  | 37 => 4 * p.t * (1 - p.t) * (1 - p.t) * p.wr
  | 20 => 2 * p.t * p.t * (1 - p.t) * p.wr
  | 44 => 2 * p.t * p.t * (1 - p.t) * p.wr
  | 24 => 2 * p.t * p.t * (p.rr - lam)
  | 25 => 2 * p.t * (1 - p.t) * (1 - p.t) * p.wr
  | 31 => 2 * p.t * (1 - p.t) * (1 - p.t) * p.wr
  | 26 => 4 * p.t * p.t * (1 - p.t) * p.wr
  | 38 => 4 * p.t * p.t * (1 - p.t) * p.wr
  | 27 => 2 * p.t * p.t * p.t * p.wr
  | 45 => 2 * p.t * p.t * p.t * p.wr
  | 32 => 2 * (1 * p.ww - 4 * p.t * p.ww + 6 * p.t * p.t * p.ww - 4 * p.t * p.t * p.t * p.ww + p.t * p.t * p.t * p.t * p.ww)
  | 33 => 4 * p.t * (1 - p.t) * (1 - p.t) * (1 - p.t) * p.ww
  | 39 => 4 * p.t * (1 - p.t) * (1 - p.t) * (1 - p.t) * p.ww
  | 34 => 2 * p.t * p.t * (1 - p.t) * (1 - p.t) * p.ww
  | 46 => 2 * p.t * p.t * (1 - p.t) * (1 - p.t) * p.ww
  | 40 => 8 * p.t * p.t * (1 - p.t) * (1 - p.t) * p.ww
  | 41 => 4 * p.t * p.t * p.t * (1 - p.t) * p.ww
  | 47 => 4 * p.t * p.t * p.t * (1 - p.t) * p.ww
  | 48 => 2 * p.t * p.t * p.t * p.t * p.ww
  | _ => 0

/-- `rhsVals.row(r)` (`gsC1SurfGluingDataVisitor.h:179-185`). -/
def rhsVals (lam : ℝ) (p : Pt ι) : ℕ → ℝ
  | 0 => -2 * (lam - p.t * lam)
  | 1 => -2 * p.t * lam
  | 2 => -2 * (lam - p.t * lam)
  | 3 => -2 * p.t * lam
  | 4 => 0 * 1
  | 5 => 0 * 1
  | 6 => 0 * 1
  | _ => 0

/-- `alpha_R` of `evaluateBeta` and `evalAlpha_R` (`gsC1SurfGluingDataVisitor.h:208`, `gsC1SurfGluingData.h:48-53`); `s` is `sol`. -/
def alphaR (s : Fin 7 → ℝ) (t : ℝ) : ℝ := s 0 * (1 - t) + s 1 * t
/-- `alpha_L` (`gsC1SurfGluingDataVisitor.h:209`, `gsC1SurfGluingData.h:55-60`). -/
def alphaL (s : Fin 7 → ℝ) (t : ℝ) : ℝ := s 2 * (1 - t) + s 3 * t
/-- `beta` of `evaluateBeta` (`gsC1SurfGluingDataVisitor.h:210`). -/
def betaV (s : Fin 7 → ℝ) (t : ℝ) : ℝ := s 4 * (t * t - 2 * t + 1) + 2 * s 5 * t * (1 - t) + s 6 * t * t
/-- `evalBeta` (`gsC1SurfGluingData.h:78-84`). -/
def evalBeta (s : Fin 7 → ℝ) (t : ℝ) : ℝ := s 4 * (1 - t) * (1 - t) + s 5 * (1 - t) * t + s 6 * t
/-- `evalBeta_R` (`gsC1SurfGluingData.h:62-67`); `y` is `solBeta`. -/
def evalBetaR (y : Fin 4 → ℝ) (t : ℝ) : ℝ := y 0 * (1 - t) + y 1 * t
/-- `evalBeta_L` (`gsC1SurfGluingData.h:69-74`). -/
def evalBetaL (y : Fin 4 → ℝ) (t : ℝ) : ℝ := y 2 * (1 - t) + y 3 * t

/-- `basisDataBeta.row(r)` at the point (`gsC1SurfGluingDataVisitor.h:226-251`); `aR`, `aL` are the values of `alpha_R`, `alpha_L`. -/
def basisDataBeta (lam : ℝ) (p : Pt ι) (aR aL : ℝ) : ℕ → ℝ
  | 0 => 2 * (p.t * p.t * (aL * aL - lam) - 2 * p.t * (aL * aL - lam) + 1 * (aL * aL - lam))
  | 1 => 2 * p.t * (1 - p.t) * (aL * aL - lam)
  | 4 => 2 * p.t * (1 - p.t) * (aL * aL - lam)
  | 2 => 2 * (p.t * p.t * (aR * aL) - 2 * p.t * (aR * aL) + 1 * (aR * aL))
  | 8 => 2 * (p.t * p.t * (aR * aL) - 2 * p.t * (aR * aL) + 1 * (aR * aL))
  | 3 => 2 * p.t * (1 - p.t) * (aR * aL)
  | 12 => 2 * p.t * (1 - p.t) * (aR * aL)
  | 5 => 2 * p.t * p.t * (aL * aL - lam)
  | 6 => 2 * p.t * (1 - p.t) * (aR * aL)
  | 9 => 2 * p.t * (1 - p.t) * (aR * aL)
  | 7 => 2 * p.t * p.t * (aR * aL)
  | 13 => 2 * p.t * p.t * (aR * aL)
  | 10 => 2 * (p.t * p.t * (aR * aR - lam) - 2 * p.t * (aR * aR - lam) + 1 * (aR * aR - lam))
  | 11 => 2 * p.t * (1 - p.t) * (aR * aR - lam)
  | 14 => 2 * p.t * (1 - p.t) * (aR * aR - lam)
  | 15 => 2 * p.t * p.t * (aR * aR - lam)
  | _ => 0

/-- `rhsValsBeta.row(r)` (`gsC1SurfGluingDataVisitor.h:256-259`). -/
def rhsValsBeta (p : Pt ι) (aR aL be : ℝ) : ℕ → ℝ
  | 0 => 2 * be * (1 - p.t) * aL
  | 1 => 2 * be * p.t * aL
  | 2 => 2 * be * (1 - p.t) * aR
  | 3 => 2 * be * p.t * aR
  | _ => 0

/-- Two nested loops that only add: over the elements (`apply`, `localToGlobal`) and over the points of an element (`assemble`). -/
def accumulate (els : List (List (Pt ι))) (f : Pt ι → ℝ) : ℝ :=
  els.foldl (fun sys pts => sys + pts.foldl (fun loc p => loc + p.w * f p) 0) 0

/-- `mSys.matrix()` and `mSys.rhs()` after `apply` (`gsC1SurfGluingDataVisitor.h:266-286`, `gsC1SurfGluingData.h:157-204`). -/
def mat (lam : ℝ) (els : List (List (Pt ι))) : Matrix (Fin 7) (Fin 7) ℝ :=
  fun i j => accumulate els fun p => basisData lam p (i.val * 7 + j.val)
def rhs (lam : ℝ) (els : List (List (Pt ι))) : Fin 7 → ℝ := fun i => accumulate els fun p => rhsVals lam p i.val

/-- `mSysBeta.matrix()` and `mSysBeta.rhs()` after `applyBeta` (`gsC1SurfGluingDataVisitor.h:288-309`); `s` is `sol`. -/
def matBeta (lam : ℝ) (s : Fin 7 → ℝ) (els : List (List (Pt ι))) : Matrix (Fin 4) (Fin 4) ℝ :=
  fun i j => accumulate els fun p => basisDataBeta lam p (alphaR s p.t) (alphaL s p.t) (i.val * 4 + j.val)
def rhsBeta (s : Fin 7 → ℝ) (els : List (List (Pt ι))) : Fin 4 → ℝ :=
  fun i => accumulate els fun p => rhsValsBeta p (alphaR s p.t) (alphaL s p.t) (betaV s p.t) i.val

/-- `setGDEdge` (`gsC1SurfGluingData.h:273-293`): `sol` and `solBeta` of a boundary edge. -/
def solBoundary : Fin 7 → ℝ := ![1, 1, 1, 1, 0, 0, 0]
def solBetaBoundary : Fin 4 → ℝ := ![0, 0, 0, 0]

end Verif.Gluing
