import Verif.Model.SurfaceOp
import Mathlib.Analysis.Calculus.Deriv.Add
import Mathlib.Analysis.Calculus.Deriv.Inv
import Mathlib.Analysis.SpecialFunctions.Sqrt
import Mathlib.Tactic.FieldSimp
import Mathlib.Tactic.LinearCombination

/-!
# C62: the operator assembled on a surface is the Laplace–Beltrami operator

For a surface `c(s, t)` in space with first fundamental form `E, F, G` and a function `u(s, t)`, the Laplace–Beltrami operator is
`Δu = (∂ₛ ((G uₛ - F uₜ) / √(EG - F²)) + ∂ₜ ((E uₜ - F uₛ) / √(EG - F²))) / √(EG - F²)`.
`var1` computes it (times `√(EG-F²)` for basis functions).  `deriv2` of the other example leaves the terms with first derivatives out.
-/

set_option autoImplicit false

namespace Verif.SurfaceOp

/-- `fu, fv, fuu, fuv, fvv` are the first and second partial derivatives of `f`. -/
structure Twice (f fu fv fuu fuv fvv : ℝ → ℝ → ℝ) : Prop where
  u : ∀ s t, HasDerivAt (fun x => f x t) (fu s t) s
  v : ∀ s t, HasDerivAt (fun y => f s y) (fv s t) t
  uu : ∀ s t, HasDerivAt (fun x => fu x t) (fuu s t) s
  uv : ∀ s t, HasDerivAt (fun y => fu s y) (fuv s t) t
  vu : ∀ s t, HasDerivAt (fun x => fv x t) (fuv s t) s
  vv : ∀ s t, HasDerivAt (fun y => fv s y) (fvv s t) t

/-- A surface in space with the derivatives of its three coordinates. -/
structure Surface where
  c : Fin 3 → ℝ → ℝ → ℝ
  cu : Fin 3 → ℝ → ℝ → ℝ
  cv : Fin 3 → ℝ → ℝ → ℝ
  cuu : Fin 3 → ℝ → ℝ → ℝ
  cuv : Fin 3 → ℝ → ℝ → ℝ
  cvv : Fin 3 → ℝ → ℝ → ℝ
  twice : ∀ k, Twice (c k) (cu k) (cv k) (cuu k) (cuv k) (cvv k)

/-- First fundamental form. -/
noncomputable def Surface.E (S : Surface) (s t : ℝ) : ℝ := ∑ k, S.cu k s t * S.cu k s t
noncomputable def Surface.F (S : Surface) (s t : ℝ) : ℝ := ∑ k, S.cu k s t * S.cv k s t
noncomputable def Surface.G (S : Surface) (s t : ℝ) : ℝ := ∑ k, S.cv k s t * S.cv k s t

/-- `EG - F²`. -/
noncomputable def Surface.det (S : Surface) (s t : ℝ) : ℝ := S.E s t * S.G s t - S.F s t * S.F s t

/-- `b` is the value of the Laplace–Beltrami operator, of the function with first derivatives `fu`, `fv`, at `(s, t)`. -/
def Surface.IsLaplace (S : Surface) (fu fv : ℝ → ℝ → ℝ) (s t b : ℝ) : Prop :=
  ∃ A B, HasDerivAt (fun x => (S.G x t * fu x t - S.F x t * fv x t) / Real.sqrt (S.det x t)) A s ∧
    HasDerivAt (fun y => (S.E s y * fv s y - S.F s y * fu s y) / Real.sqrt (S.det s y)) B t ∧
    b = (A + B) / Real.sqrt (S.det s t)

/-- The columns of derivatives at `(s, t)` as G+Smo lays them out. -/
noncomputable def Surface.d1 (S : Surface) (s t : ℝ) : ℕ → ℝ
  | 0 => S.cu 0 s t | 1 => S.cv 0 s t | 2 => S.cu 1 s t | 3 => S.cv 1 s t | 4 => S.cu 2 s t | 5 => S.cv 2 s t | _ => 0

noncomputable def Surface.d2 (S : Surface) (s t : ℝ) : ℕ → ℝ
  | 0 => S.cuu 0 s t | 1 => S.cvv 0 s t | 2 => S.cuv 0 s t
  | 3 => S.cuu 1 s t | 4 => S.cvv 1 s t | 5 => S.cuv 1 s t
  | 6 => S.cuu 2 s t | 7 => S.cvv 2 s t | 8 => S.cuv 2 s t | _ => 0

section

variable (S : Surface) (s t : ℝ)

private theorem g11_eq : g11 (S.d1 s t) = S.E s t := by
  simp [g11, Surface.d1, Surface.E, Fin.sum_univ_three]
private theorem g12_eq : g12 (S.d1 s t) = S.F s t := by
  simp [g12, Surface.d1, Surface.F, Fin.sum_univ_three]
private theorem g22_eq : g22 (S.d1 s t) = S.G s t := by
  simp [g22, Surface.d1, Surface.G, Fin.sum_univ_three]
private theorem det_eq : detG (S.d1 s t) = S.det s t := by
  simp [detG, g11_eq, g12_eq, g22_eq, Surface.det]

/-- The derivatives of the first fundamental form that the code computes are its derivatives. -/
theorem C62_metric :
    HasDerivAt (fun x => S.E x t) (duG11 (S.d1 s t) (S.d2 s t)) s ∧ HasDerivAt (fun y => S.E s y) (dvG11 (S.d1 s t) (S.d2 s t)) t ∧
    HasDerivAt (fun x => S.F x t) (duG12 (S.d1 s t) (S.d2 s t)) s ∧ HasDerivAt (fun y => S.F s y) (dvG21 (S.d1 s t) (S.d2 s t)) t ∧
    HasDerivAt (fun x => S.G x t) (duG22 (S.d1 s t) (S.d2 s t)) s ∧ HasDerivAt (fun y => S.G s y) (dvG22 (S.d1 s t) (S.d2 s t)) t := by
  have h := fun k => S.twice k
  refine ⟨?_, ?_, ?_, ?_, ?_, ?_⟩
  · refine ((HasDerivAt.fun_sum fun k _ => ((h k).uu s t).fun_mul ((h k).uu s t))).congr_deriv ?_
    simp [duG11, Surface.d1, Surface.d2, Fin.sum_univ_three]; ring
  · refine ((HasDerivAt.fun_sum fun k _ => ((h k).uv s t).fun_mul ((h k).uv s t))).congr_deriv ?_
    simp [dvG11, Surface.d1, Surface.d2, Fin.sum_univ_three]; ring
  · refine ((HasDerivAt.fun_sum fun k _ => ((h k).uu s t).fun_mul ((h k).vu s t))).congr_deriv ?_
    simp [duG12, Surface.d1, Surface.d2, Fin.sum_univ_three]; ring
  · refine ((HasDerivAt.fun_sum fun k _ => ((h k).uv s t).fun_mul ((h k).vv s t))).congr_deriv ?_
    simp [dvG21, Surface.d1, Surface.d2, Fin.sum_univ_three]; ring
  · refine ((HasDerivAt.fun_sum fun k _ => ((h k).vu s t).fun_mul ((h k).vu s t))).congr_deriv ?_
    simp [duG22, Surface.d1, Surface.d2, Fin.sum_univ_three]; ring
  · refine ((HasDerivAt.fun_sum fun k _ => ((h k).vv s t).fun_mul ((h k).vv s t))).congr_deriv ?_
    simp [dvG22, Surface.d1, Surface.d2, Fin.sum_univ_three]; ring

private theorem quot {n d : ℝ → ℝ} {n' d' x : ℝ} (hn : HasDerivAt n n' x) (hd : HasDerivAt d d' x) (h : 0 < d x) :
    HasDerivAt (fun y => n y / Real.sqrt (d y)) ((2 * d x * n' - n x * d') / (2 * d x * Real.sqrt (d x))) x := by
  have hs : 0 < Real.sqrt (d x) := Real.sqrt_pos.2 h
  have h2 : Real.sqrt (d x) ^ 2 = d x := Real.sq_sqrt h.le
  refine (hn.fun_div (hd.sqrt h.ne') hs.ne').congr_deriv ?_
  rw [h2]
  field_simp
  rw [h2]
  ring

variable {f fu fv fuu fuv fvv : ℝ → ℝ → ℝ}

/-- C62: at a regular point of the surface (`0 < EG - F²`), `var1` of a basis function, whose derivatives stand in place `i` of the columns
`b1`, `b2`, is its Laplace–Beltrami operator times the element of area; the version for a solution is the Laplace–Beltrami operator. -/
theorem C62_var1 (hf : Twice f fu fv fuu fuv fvv) (hd : 0 < S.det s t) (b1 b2 : ℕ → ℝ) (i : ℕ)
    (h1 : b1 (i * 2) = fu s t) (h2 : b1 (i * 2 + 1) = fv s t) (h3 : b2 (i * 3) = fuu s t) (h4 : b2 (i * 3 + 1) = fvv s t)
    (h5 : b2 (i * 3 + 2) = fuv s t) :
    S.IsLaplace fu fv s t (var1 (S.d1 s t) (S.d2 s t) b1 b2 i / Real.sqrt (S.det s t)) := by
  obtain ⟨m1, m2, m3, m4, m5, m6⟩ := C62_metric S s t
  have D1 : HasDerivAt (fun x => S.det x t) _ s := (m1.fun_mul m5).fun_sub (m3.fun_mul m3)
  have D2 : HasDerivAt (fun y => S.det s y) _ t := (m2.fun_mul m6).fun_sub (m4.fun_mul m4)
  have N1 := (m5.fun_mul (hf.uu s t)).fun_sub (m3.fun_mul (hf.vu s t))
  have N2 := (m2.fun_mul (hf.vv s t)).fun_sub (m4.fun_mul (hf.uv s t))
  refine ⟨_, _, quot N1 D1 hd, quot N2 D2 hd, ?_⟩
  congr 1
  have hs : 0 < Real.sqrt (S.det s t) := Real.sqrt_pos.2 hd
  have e : S.F s t * S.F s t - S.E s t * S.G s t = - S.det s t := by unfold Surface.det; ring
  unfold var1 sqrtDetGInvDerivative
  rw [h1, h2, h3, h4, h5, det_eq, g11_eq, g12_eq, g22_eq, e, ← add_div, mul_one_div]
  congr 1
  ring

theorem C62_var1_solution (hf : Twice f fu fv fuu fuv fvv) (hd : 0 < S.det s t) (f1 f2 : ℕ → ℝ)
    (h1 : f1 0 = fu s t) (h2 : f1 1 = fv s t) (h3 : f2 0 = fuu s t) (h4 : f2 1 = fvv s t) (h5 : f2 2 = fuv s t) :
    S.IsLaplace fu fv s t (var1Sol (S.d1 s t) (S.d2 s t) f1 f2) := by
  have := C62_var1 S s t hf hd f1 f2 0 h1 h2 h3 h4 h5
  rw [div_eq_mul_one_div, ← det_eq] at this
  exact this

/-- C62: the value of the Laplace–Beltrami operator is determined. -/
theorem C62_laplace_unique {b b' : ℝ} (h : S.IsLaplace fu fv s t b) (h' : S.IsLaplace fu fv s t b') : b = b' := by
  obtain ⟨A, B, hA, hB, rfl⟩ := h
  obtain ⟨A', B', hA', hB', rfl⟩ := h'
  rw [hA.unique hA', hB.unique hB']

/-- C62: the form assembled for two functions is the product of their Laplace–Beltrami operators times the element of area. -/
theorem C62_energy (b1 b2 : ℕ → ℝ) (i j : ℕ) (hd : 0 < S.det s t)
    {fi fui fvi fuui fuvi fvvi fj fuj fvj fuuj fuvj fvvj : ℝ → ℝ → ℝ}
    (hi : Twice fi fui fvi fuui fuvi fvvi) (hj : Twice fj fuj fvj fuuj fuvj fvvj)
    (i1 : b1 (i * 2) = fui s t) (i2 : b1 (i * 2 + 1) = fvi s t) (i3 : b2 (i * 3) = fuui s t) (i4 : b2 (i * 3 + 1) = fvvi s t)
    (i5 : b2 (i * 3 + 2) = fuvi s t)
    (j1 : b1 (j * 2) = fuj s t) (j2 : b1 (j * 2 + 1) = fvj s t) (j3 : b2 (j * 3) = fuuj s t) (j4 : b2 (j * 3 + 1) = fvvj s t)
    (j5 : b2 (j * 3 + 2) = fuvj s t) {Li Lj : ℝ} (hLi : S.IsLaplace fui fvi s t Li) (hLj : S.IsLaplace fuj fvj s t Lj) :
    energy (S.d1 s t) (S.d2 s t) b1 b2 i j = Li * Lj * Real.sqrt (S.det s t) := by
  have hs : 0 < Real.sqrt (S.det s t) := Real.sqrt_pos.2 hd
  rw [C62_laplace_unique S s t hLi (C62_var1 S s t hi hd b1 b2 i i1 i2 i3 i4 i5),
    C62_laplace_unique S s t hLj (C62_var1 S s t hj hd b1 b2 j j1 j2 j3 j4 j5)]
  unfold energy gg
  rw [det_eq]
  field_simp

private theorem deriv2_eq (hd : 0 < S.det s t) (b2 : ℕ → ℝ) (i : ℕ) : deriv2 (S.d1 s t) b2 i =
    (S.G s t * b2 (i * 3) + S.E s t * b2 (i * 3 + 1) - 2 * S.F s t * b2 (i * 3 + 2)) / Real.sqrt (S.det s t) := by
  have hs : 0 < Real.sqrt (S.det s t) := Real.sqrt_pos.2 hd
  have h2 : Real.sqrt (S.det s t) ^ 2 = S.det s t := Real.sq_sqrt hd.le
  unfold deriv2 deriv2dot gg
  simp only [det_eq, g11_eq, g12_eq, g22_eq]
  have : 1 / √(S.det s t) * S.E s t * (1 / √(S.det s t) * S.G s t) - 1 / √(S.det s t) * S.F s t * (1 / √(S.det s t) * S.F s t) = 1 := by
    have : S.E s t * S.G s t - S.F s t * S.F s t = S.det s t := rfl
    field_simp
    rw [h2]; linear_combination this
  rw [this]
  field_simp
  ring

/-- C62, in part: what is missing from `deriv2` are the terms with the first derivatives of the function.  Let `P` and `Q` be the divergences of the
two columns of `√(EG-F²)` times the inverse metric; then the operator times the element of area is `deriv2` plus `P uₛ + Q uₜ`.
Hence `deriv2` is the operator for all functions exactly where `P = Q = 0`, in particular where the metric is constant. -/
theorem C62_deriv2_partial (hf : Twice f fu fv fuu fuv fvv) (hd : 0 < S.det s t) (b2 : ℕ → ℝ) (i : ℕ)
    (h3 : b2 (i * 3) = fuu s t) (h4 : b2 (i * 3 + 1) = fvv s t) (h5 : b2 (i * 3 + 2) = fuv s t) :
    ∃ P₁ P₂ Q₁ Q₂, HasDerivAt (fun x => S.G x t / Real.sqrt (S.det x t)) P₁ s ∧ HasDerivAt (fun y => S.F s y / Real.sqrt (S.det s y)) P₂ t ∧
      HasDerivAt (fun x => S.F x t / Real.sqrt (S.det x t)) Q₁ s ∧ HasDerivAt (fun y => S.E s y / Real.sqrt (S.det s y)) Q₂ t ∧
      S.IsLaplace fu fv s t
        ((deriv2 (S.d1 s t) b2 i + ((P₁ - P₂) * fu s t + (Q₂ - Q₁) * fv s t)) / Real.sqrt (S.det s t)) := by
  obtain ⟨m1, m2, m3, m4, m5, m6⟩ := C62_metric S s t
  have D1 : HasDerivAt (fun x => S.det x t) _ s := (m1.fun_mul m5).fun_sub (m3.fun_mul m3)
  have D2 : HasDerivAt (fun y => S.det s y) _ t := (m2.fun_mul m6).fun_sub (m4.fun_mul m4)
  have A1 := quot m5 D1 hd
  have A2 := quot m4 D2 hd
  have A3 := quot m3 D1 hd
  have A4 := quot m2 D2 hd
  refine ⟨_, _, _, _, A1, A2, A3, A4, ?_⟩
  have X := ((A1.fun_mul (hf.uu s t)).fun_sub (A3.fun_mul (hf.vu s t)))
  have Y := ((A4.fun_mul (hf.vv s t)).fun_sub (A2.fun_mul (hf.uv s t)))
  refine ⟨_, _, X.congr_of_eventuallyEq (Filter.Eventually.of_forall fun x => ?_),
    Y.congr_of_eventuallyEq (Filter.Eventually.of_forall fun y => ?_), ?_⟩
  · simp only; ring
  · simp only; ring
  · congr 1
    rw [deriv2_eq S s t hd, h3, h4, h5]
    have hs : 0 < Real.sqrt (S.det s t) := Real.sqrt_pos.2 hd
    field_simp
    ring

end

end Verif.SurfaceOp
