import Verif.Props.SurfaceOp
import Mathlib.MeasureTheory.Integral.IntervalIntegral.IntegrationByParts
import Mathlib.MeasureTheory.Integral.DominatedConvergence
import Mathlib.MeasureTheory.Integral.Prod

/-!
# Green's second identity on a rectangle

Integration by parts twice in each direction.
-/

set_option autoImplicit false

open intervalIntegral Function MeasureTheory

namespace Verif.Biharm

/-- Integration by parts twice, in one variable. -/
theorem parts {w w' w'' v v' v'' : ℝ → ℝ} (hw : ∀ x, HasDerivAt w (w' x) x) (hw' : ∀ x, HasDerivAt w' (w'' x) x)
    (hv : ∀ x, HasDerivAt v (v' x) x) (hv' : ∀ x, HasDerivAt v' (v'' x) x) (cw : Continuous w'') (cv : Continuous v'') (a b : ℝ) :
    ∫ x in a..b, w'' x * v x = (∫ x in a..b, w x * v'' x) + (w' b * v b - w' a * v a) - (w b * v' b - w a * v' a) := by
  have c1 : Continuous w' := continuous_iff_continuousAt.2 fun x => (hw' x).continuousAt
  have c2 : Continuous v' := continuous_iff_continuousAt.2 fun x => (hv' x).continuousAt
  have e1 := integral_mul_deriv_eq_deriv_mul (a := a) (b := b) (fun x _ => hv x) (fun x _ => hw' x) (c2.intervalIntegrable a b) (cw.intervalIntegrable a b)
  have e2 := integral_mul_deriv_eq_deriv_mul (a := a) (b := b) (fun x _ => hw x) (fun x _ => hv' x) (c1.intervalIntegrable a b) (cv.intervalIntegrable a b)
  have e3 : ∫ x in a..b, w'' x * v x = ∫ x in a..b, v x * w'' x := by congr 1; funext x; ring
  have e4 : ∫ x in a..b, v' x * w' x = ∫ x in a..b, w' x * v' x := by congr 1; funext x; ring
  rw [e3, e1, e2, e4]
  ring

/-- A twice continuously differentiable function with its derivatives. -/
structure Smooth (f fu fv fuu fuv fvv : ℝ → ℝ → ℝ) : Prop extends SurfaceOp.Twice f fu fv fuu fuv fvv where
  c0 : Continuous f.uncurry
  cu : Continuous fu.uncurry
  cv : Continuous fv.uncurry
  cuu : Continuous fuu.uncurry
  cvv : Continuous fvv.uncurry

theorem cont_left {f : ℝ → ℝ → ℝ} (h : Continuous f.uncurry) (y : ℝ) : Continuous fun x => f x y :=
  h.comp (by fun_prop : Continuous fun x : ℝ => (x, y))

theorem cont_right {f : ℝ → ℝ → ℝ} (h : Continuous f.uncurry) (x : ℝ) : Continuous fun y => f x y :=
  h.comp (by fun_prop : Continuous fun y : ℝ => (x, y))

theorem cont_int {f : ℝ → ℝ → ℝ} (h : Continuous f.uncurry) (a b : ℝ) : Continuous fun y => ∫ x in a..b, f x y :=
  continuous_parametric_intervalIntegral_of_continuous' (f := fun y x => f x y)
    (h.comp (by fun_prop : Continuous fun p : ℝ × ℝ => (p.2, p.1))) a b

theorem cont_mul {f g : ℝ → ℝ → ℝ} (hf : Continuous f.uncurry) (hg : Continuous g.uncurry) :
    Continuous (fun x y => f x y * g x y).uncurry := by
  have : (fun x y => f x y * g x y).uncurry = fun p => f.uncurry p * g.uncurry p := rfl
  rw [this]; exact hf.mul hg

theorem swap {f : ℝ → ℝ → ℝ} (h : Continuous f.uncurry) (a b c d : ℝ) :
    ∫ x in a..b, ∫ y in c..d, f x y = ∫ y in c..d, ∫ x in a..b, f x y := by
  apply intervalIntegral_intervalIntegral_swap
  refine (h.continuousOn.integrableOn_compact (K := Set.uIcc a b ×ˢ Set.uIcc c d) ?_).mono_set ?_
  · exact isCompact_uIcc.prod isCompact_uIcc
  · exact Set.prod_mono Set.uIoc_subset_uIcc Set.uIoc_subset_uIcc

/-- Splitting a sum under a double integral. -/
theorem split_add {f g : ℝ → ℝ → ℝ} (hf : Continuous f.uncurry) (hg : Continuous g.uncurry) (a b c d : ℝ) :
    ∫ y in c..d, ∫ x in a..b, (f x y + g x y) = (∫ y in c..d, ∫ x in a..b, f x y) + ∫ y in c..d, ∫ x in a..b, g x y := by
  rw [← integral_add ((cont_int hf a b).intervalIntegrable c d) ((cont_int hg a b).intervalIntegrable c d)]
  congr 1
  funext y
  exact integral_add ((cont_left hf y).intervalIntegrable a b) ((cont_left hg y).intervalIntegrable a b)

/-- Green's second identity on the rectangle `[a, b] × [c, d]`. -/
theorem green {w wu wv wuu wuv wvv v vu vv vuu vuv vvv : ℝ → ℝ → ℝ} (hw : Smooth w wu wv wuu wuv wvv) (hv : Smooth v vu vv vuu vuv vvv)
    (a b c d : ℝ) :
    ∫ y in c..d, ∫ x in a..b, (wuu x y + wvv x y) * v x y
      = (∫ y in c..d, ∫ x in a..b, w x y * (vuu x y + vvv x y))
        + ((∫ y in c..d, (wu b y * v b y - wu a y * v a y)) + ∫ x in a..b, (wv x d * v x d - wv x c * v x c))
        - ((∫ y in c..d, (w b y * vu b y - w a y * vu a y)) + ∫ x in a..b, (w x d * vv x d - w x c * vv x c)) := by
  have hu : ∫ y in c..d, ∫ x in a..b, wuu x y * v x y = (∫ y in c..d, ∫ x in a..b, w x y * vuu x y)
      + (∫ y in c..d, (wu b y * v b y - wu a y * v a y)) - ∫ y in c..d, (w b y * vu b y - w a y * vu a y) := by
    have k1 : Continuous fun y => wu b y * v b y - wu a y * v a y :=
      ((cont_right hw.cu b).mul (cont_right hv.c0 b)).sub ((cont_right hw.cu a).mul (cont_right hv.c0 a))
    have k2 : Continuous fun y => w b y * vu b y - w a y * vu a y :=
      ((cont_right hw.c0 b).mul (cont_right hv.cu b)).sub ((cont_right hw.c0 a).mul (cont_right hv.cu a))
    have k3 := cont_int (cont_mul hw.c0 hv.cuu) a b
    rw [← integral_add (k3.intervalIntegrable c d) (k1.intervalIntegrable c d),
      ← integral_sub ((k3.fun_add k1).intervalIntegrable c d) (k2.intervalIntegrable c d)]
    congr 1
    funext y
    exact parts (fun x => hw.u x y) (fun x => hw.uu x y) (fun x => hv.u x y) (fun x => hv.uu x y) (cont_left hw.cuu y) (cont_left hv.cuu y) a b
  have hv' : ∫ y in c..d, ∫ x in a..b, wvv x y * v x y = (∫ y in c..d, ∫ x in a..b, w x y * vvv x y)
      + (∫ x in a..b, (wv x d * v x d - wv x c * v x c)) - ∫ x in a..b, (w x d * vv x d - w x c * vv x c) := by
    rw [← swap (cont_mul hw.cvv hv.c0) a b c d, ← swap (cont_mul hw.c0 hv.cvv) a b c d]
    have k1 : Continuous fun x => wv x d * v x d - wv x c * v x c :=
      ((cont_left hw.cv d).mul (cont_left hv.c0 d)).sub ((cont_left hw.cv c).mul (cont_left hv.c0 c))
    have k2 : Continuous fun x => w x d * vv x d - w x c * vv x c :=
      ((cont_left hw.c0 d).mul (cont_left hv.cv d)).sub ((cont_left hw.c0 c).mul (cont_left hv.cv c))
    have k3 : Continuous fun x => ∫ y in c..d, w x y * vvv x y :=
      continuous_parametric_intervalIntegral_of_continuous' (f := fun x y => w x y * vvv x y) (cont_mul hw.c0 hv.cvv) c d
    rw [← integral_add (k3.intervalIntegrable a b) (k1.intervalIntegrable a b),
      ← integral_sub ((k3.fun_add k1).intervalIntegrable a b) (k2.intervalIntegrable a b)]
    congr 1
    funext x
    exact parts (fun y => hw.v x y) (fun y => hw.vv x y) (fun y => hv.v x y) (fun y => hv.vv x y) (cont_right hw.cvv x) (cont_right hv.cvv x) c d
  have e1 : ∫ y in c..d, ∫ x in a..b, (wuu x y + wvv x y) * v x y
      = (∫ y in c..d, ∫ x in a..b, wuu x y * v x y) + ∫ y in c..d, ∫ x in a..b, wvv x y * v x y := by
    rw [← split_add (cont_mul hw.cuu hv.c0) (cont_mul hw.cvv hv.c0)]
    simp only [add_mul]
  have e2 : ∫ y in c..d, ∫ x in a..b, w x y * (vuu x y + vvv x y)
      = (∫ y in c..d, ∫ x in a..b, w x y * vuu x y) + ∫ y in c..d, ∫ x in a..b, w x y * vvv x y := by
    rw [← split_add (cont_mul hw.c0 hv.cuu) (cont_mul hw.c0 hv.cvv)]
    simp only [mul_add]
  rw [e1, e2, hu, hv']
  ring

end Verif.Biharm
