import Verif.Model.TestData
import Verif.Props.SurfaceOp
import Mathlib.Analysis.SpecialFunctions.Trigonometric.Deriv

/-!
# C63: the data of the built-in problems belong to one exact solution

Source, value, gradient and Laplacian of the planar problems fit together everywhere.  For the problem on the surface `z = x² - y²` source and
Laplacian fit, and so do two of the three components of the gradient; the third does not.
-/

set_option autoImplicit false

namespace Verif.TestData

open Real SurfaceOp

/-- `g` is the gradient of `u`, `l` its Laplacian and `f` the Laplacian of `l`, everywhere in the plane: the data of one problem `Δ²u = f`. -/
structure Fits (u g1 g2 l f : ℝ → ℝ → ℝ) : Prop where
  grad1 : ∀ x y, HasDerivAt (fun t => u t y) (g1 x y) x
  grad2 : ∀ x y, HasDerivAt (fun t => u x t) (g2 x y) y
  lap : ∀ x y, ∃ a b, HasDerivAt (fun t => g1 t y) a x ∧ HasDerivAt (fun t => g2 x t) b y ∧ l x y = a + b
  bilap : ∃ l1 l2 : ℝ → ℝ → ℝ, (∀ x y, HasDerivAt (fun t => l t y) (l1 x y) x) ∧ (∀ x y, HasDerivAt (fun t => l x t) (l2 x y) y) ∧
    ∀ x y, ∃ a b, HasDerivAt (fun t => l1 t y) a x ∧ HasDerivAt (fun t => l2 x t) b y ∧ f x y = a + b

private theorem dcos (k x : ℝ) : HasDerivAt (fun t => cos (k * π * t)) (-(k * π) * sin (k * π * x)) x := by
  have := ((hasDerivAt_id x).const_mul (k * π)).cos
  simpa [mul_comm] using this

private theorem dsin (k x : ℝ) : HasDerivAt (fun t => sin (k * π * t)) (k * π * cos (k * π * x)) x := by
  have := ((hasDerivAt_id x).const_mul (k * π)).sin
  simpa [mul_comm] using this

private theorem fits (k : ℝ) : Fits (fun x y => (cos (k * π * x) - 1) * (cos (k * π * y) - 1))
    (fun x y => -k * π * (cos (k * π * y) - 1) * sin (k * π * x)) (fun x y => -k * π * (cos (k * π * x) - 1) * sin (k * π * y))
    (fun x y => -(k ^ 2) * π * π * (2 * cos (k * π * x) * cos (k * π * y) - cos (k * π * x) - cos (k * π * y)))
    (fun x y => k ^ 4 * π * π * π * π * (4 * cos (k * π * x) * cos (k * π * y) - cos (k * π * x) - cos (k * π * y))) where
  grad1 x y := (((dcos k x).sub_const 1).mul_const _).congr_deriv (by ring)
  grad2 x y := (((dcos k y).sub_const 1).const_mul _).congr_deriv (by ring)
  lap x y := ⟨_, _, (dsin k x).const_mul _, (dsin k y).const_mul _, by ring⟩
  bilap := by
    refine ⟨fun x y => -(k ^ 2) * π * π * (2 * (-(k * π) * sin (k * π * x)) * cos (k * π * y) - -(k * π) * sin (k * π * x)),
      fun x y => -(k ^ 2) * π * π * (2 * cos (k * π * x) * (-(k * π) * sin (k * π * y)) - -(k * π) * sin (k * π * y)),
      fun x y => ?_, fun x y => ?_, fun x y => ?_⟩
    · exact (((((dcos k x).const_mul 2).mul_const _).fun_sub (dcos k x)).sub_const _).const_mul _
    · exact (((((dcos k y).const_mul _).sub_const _).fun_sub (dcos k y)).const_mul _)
    · exact ⟨_, _, ((((((dsin k x).const_mul _).const_mul 2).mul_const _).fun_sub ((dsin k x).const_mul _)).const_mul _),
        (((((dsin k y).const_mul _).const_mul _).fun_sub ((dsin k y).const_mul _)).const_mul _), by ring⟩

/-- C63: the data of the assembler class belong to one solution. -/
theorem C63_assembler : Fits solution neumann1 neumann2 laplace source := by
  have h := fits 1
  constructor
  · exact fun x y => (h.grad1 x y)
  · exact fun x y => (h.grad2 x y)
  · intro x y
    obtain ⟨a, b, h1, h2, h3⟩ := h.lap x y
    exact ⟨a, b, h1, h2, by rw [← h3]; simp [laplace]⟩
  · obtain ⟨l1, l2, h1, h2, h3⟩ := h.bilap
    refine ⟨l1, l2, fun x y => ?_, fun x y => ?_, fun x y => ?_⟩
    · simpa [laplace] using h1 x y
    · simpa [laplace] using h2 x y
    · obtain ⟨a, b, h1, h2, h3⟩ := h3 x y
      exact ⟨a, b, h1, h2, by rw [← h3]; simp [source]⟩

/-- C63: so do the data of the planar example. -/
theorem C63_planar : Fits solution4 neumann41 neumann42 laplace4 source4 := by
  have h := fits 4
  have e1 : (fun x y => -((4 : ℝ) ^ 2) * π * π * (2 * cos (4 * π * x) * cos (4 * π * y) - cos (4 * π * x) - cos (4 * π * y))) = laplace4 := by
    funext x y; unfold laplace4; norm_num
  have e2 : (fun x y => (4 : ℝ) ^ 4 * π * π * π * π * (4 * cos (4 * π * x) * cos (4 * π * y) - cos (4 * π * x) - cos (4 * π * y))) = source4 := by
    funext x y; unfold source4; norm_num
  rw [e1, e2] at h
  exact h

/-- What a boundary condition says about a function `u` with gradient `g1, g2` and Laplacian `l` at a point. -/
def Cond.Holds (u g1 g2 l : ℝ → ℝ → ℝ) (x y : ℝ) : Cond → Prop
  | .dirichlet g => g x y = u x y
  | .laplace g => g x y = l x y
  | .neumann h1 h2 => h1 x y = g1 x y ∧ h2 x y = g2 x y

/-- C63: every condition of the assembler class holds for its exact solution, whatever the domain; every boundary side gets two conditions, of which
one is of the kind the flag asks for, and no other side gets any. -/
theorem C63_conditions (sides : List (ℕ × ℕ)) (second : Bool) :
    (∀ e ∈ conditions sides second, e.1 ∈ sides ∧ ∀ x y, e.2.Holds solution neumann1 neumann2 laplace x y) ∧
    ∀ s ∈ sides, (s, Cond.dirichlet solution) ∈ conditions sides second ∧
      (s, if second then Cond.laplace laplace else Cond.neumann neumann1 neumann2) ∈ conditions sides second := by
  constructor
  · intro e he
    simp only [conditions, List.mem_flatMap, List.mem_cons, List.not_mem_nil, or_false] at he
    obtain ⟨s, hs, rfl | rfl⟩ := he
    · exact ⟨hs, fun x y => rfl⟩
    · refine ⟨hs, fun x y => ?_⟩
      cases second
      · exact ⟨rfl, rfl⟩
      · exact rfl
  · intro s hs
    simp only [conditions, List.mem_flatMap, List.mem_cons, List.not_mem_nil, or_false]
    exact ⟨⟨s, hs, .inl rfl⟩, ⟨s, hs, .inr rfl⟩⟩

/-- The problem is not trivial: the value and the source differ from zero somewhere. -/
example : solution 1 1 = 4 ∧ source 0 0 = 2 * (π * π * π * π) := by
  constructor
  · norm_num [solution]
  · norm_num [source]; ring

/-! ## The surface -/

private theorem pow2 (x : ℝ) : HasDerivAt (fun t : ℝ => t ^ 2) (2 * x) x := by
  simpa using hasDerivAt_pow 2 x

/-- The surface `z = x² - y²` over the plane. -/
noncomputable def saddle : Surface where
  c := ![fun s _ => s, fun _ t => t, fun s t => s ^ 2 - t ^ 2]
  cu := ![fun _ _ => 1, fun _ _ => 0, fun s _ => 2 * s]
  cv := ![fun _ _ => 0, fun _ _ => 1, fun _ t => -(2 * t)]
  cuu := ![fun _ _ => 0, fun _ _ => 0, fun _ _ => 2]
  cuv := ![fun _ _ => 0, fun _ _ => 0, fun _ _ => 0]
  cvv := ![fun _ _ => 0, fun _ _ => 0, fun _ _ => -2]
  twice k := by
    fin_cases k
    · exact ⟨fun s t => hasDerivAt_id s, fun s t => hasDerivAt_const t s, fun s t => hasDerivAt_const s _, fun s t => hasDerivAt_const t _,
        fun s t => hasDerivAt_const s _, fun s t => hasDerivAt_const t _⟩
    · exact ⟨fun s t => hasDerivAt_const s _, fun s t => hasDerivAt_id t, fun s t => hasDerivAt_const s _, fun s t => hasDerivAt_const t _,
        fun s t => hasDerivAt_const s _, fun s t => hasDerivAt_const t _⟩
    · refine ⟨fun s t => ?_, fun s t => ?_, fun s t => ?_, fun s t => ?_, fun s t => ?_, fun s t => ?_⟩
      · exact (pow2 s).sub_const _
      · exact (pow2 t).const_sub _
      · simpa using (hasDerivAt_id s).const_mul 2
      · exact hasDerivAt_const t _
      · exact hasDerivAt_const s _
      · exact ((hasDerivAt_id t).const_mul 2).fun_neg.congr_deriv (by norm_num)

private theorem saddle_det (s t : ℝ) : saddle.det s t = 1 + 4 * s ^ 2 + 4 * t ^ 2 := by
  simp [Surface.det, Surface.E, Surface.F, Surface.G, saddle, Fin.sum_univ_three]; ring

private theorem W_pos (s t : ℝ) : 0 < 1 + 4 * s ^ 2 + 4 * t ^ 2 := by positivity

private theorem var1_saddle (x y : ℝ) (f1 f2 : ℕ → ℝ) : var1Sol (saddle.d1 x y) (saddle.d2 x y) f1 f2 =
    ((1 + 4 * y ^ 2) * f2 0 + 8 * x * y * f2 2 + (1 + 4 * x ^ 2) * f2 1) / (1 + 4 * x ^ 2 + 4 * y ^ 2)
      + 8 * (x ^ 2 - y ^ 2) * (2 * x * f1 0 - 2 * y * f1 1) / (1 + 4 * x ^ 2 + 4 * y ^ 2) ^ 2 := by
  have hW := W_pos x y
  have hdet : detG (saddle.d1 x y) = 1 + 4 * x ^ 2 + 4 * y ^ 2 := by
    simp [detG, g11, g12, g22, Surface.d1, saddle]; ring
  have hq : sqrtDetGInvDerivative (saddle.d1 x y) * (1 / √(detG (saddle.d1 x y))) = 1 / (2 * (1 + 4 * x ^ 2 + 4 * y ^ 2) ^ 2) := by
    unfold sqrtDetGInvDerivative
    rw [hdet]
    generalize 1 + 4 * x ^ 2 + 4 * y ^ 2 = W at hW
    have h2 : √W * √W = W := mul_self_sqrt hW.le
    rw [← mul_div_mul_comm, one_mul, mul_assoc (2 * W), h2]
    ring
  unfold var1Sol
  rw [mul_assoc, hq]
  simp only [g11, g12, g22, duG11, dvG11, duG12, dvG21, duG22, dvG22, Surface.d1, Surface.d2, saddle, Matrix.cons_val]
  field_simp
  ring

/-- C63: the Laplacian prescribed on the surface is the Laplace–Beltrami operator of the third coordinate. -/
theorem C63_surface_laplace (x y : ℝ) : saddle.IsLaplace (saddle.cu 2) (saddle.cv 2) x y (laplaceS x y) := by
  have hd : 0 < saddle.det x y := by rw [saddle_det]; exact W_pos x y
  have := C62_var1_solution saddle x y (saddle.twice 2) hd (fun n => if n = 0 then saddle.cu 2 x y else saddle.cv 2 x y)
    (fun n => if n = 0 then saddle.cuu 2 x y else if n = 1 then saddle.cvv 2 x y else saddle.cuv 2 x y) rfl rfl rfl rfl rfl
  rw [var1_saddle] at this
  convert this using 1
  have hW := W_pos x y
  unfold laplaceS
  simp [saddle]
  field_simp
  ring

private theorem dquot {n d : ℝ → ℝ} {n' d' x : ℝ} (k : ℕ) (hn : HasDerivAt n n' x) (hd : HasDerivAt d d' x) (h : 0 < d x) :
    HasDerivAt (fun y => n y / d y ^ (k + 1)) ((n' * d x - (k + 1) * n x * d') / d x ^ (k + 2)) x := by
  refine (hn.fun_div (hd.fun_pow (k + 1)) (by positivity)).congr_deriv ?_
  simp only [Nat.add_sub_cancel]
  push_cast
  field_simp
  ring

private theorem dWx (x y : ℝ) : HasDerivAt (fun t => 1 + 4 * t ^ 2 + 4 * y ^ 2) (8 * x) x :=
  ((((pow2 x).const_mul 4).const_add 1).add_const _).congr_deriv (by ring)

private theorem dWy (x y : ℝ) : HasDerivAt (fun t => 1 + 4 * x ^ 2 + 4 * t ^ 2) (8 * y) y :=
  (((pow2 y).const_mul 4).const_add _).congr_deriv (by ring)

private theorem lapS_twice : Twice laplaceS
    (fun x y => (-(16 * x) * (1 + 4 * x ^ 2 + 4 * y ^ 2) + 128 * x * (x ^ 2 - y ^ 2)) / (1 + 4 * x ^ 2 + 4 * y ^ 2) ^ 3)
    (fun x y => (16 * y * (1 + 4 * x ^ 2 + 4 * y ^ 2) + 128 * y * (x ^ 2 - y ^ 2)) / (1 + 4 * x ^ 2 + 4 * y ^ 2) ^ 3)
    (fun x y => ((-16 * (1 + 4 * x ^ 2 + 4 * y ^ 2) - 128 * x ^ 2 + 128 * (x ^ 2 - y ^ 2) + 256 * x ^ 2) * (1 + 4 * x ^ 2 + 4 * y ^ 2)
        - 24 * x * (-(16 * x) * (1 + 4 * x ^ 2 + 4 * y ^ 2) + 128 * x * (x ^ 2 - y ^ 2))) / (1 + 4 * x ^ 2 + 4 * y ^ 2) ^ 4)
    (fun x y => ((-(128 * x * y) - 256 * x * y) * (1 + 4 * x ^ 2 + 4 * y ^ 2)
        - 24 * y * (-(16 * x) * (1 + 4 * x ^ 2 + 4 * y ^ 2) + 128 * x * (x ^ 2 - y ^ 2))) / (1 + 4 * x ^ 2 + 4 * y ^ 2) ^ 4)
    (fun x y => ((16 * (1 + 4 * x ^ 2 + 4 * y ^ 2) + 128 * y ^ 2 + 128 * (x ^ 2 - y ^ 2) - 256 * y ^ 2) * (1 + 4 * x ^ 2 + 4 * y ^ 2)
        - 24 * y * (16 * y * (1 + 4 * x ^ 2 + 4 * y ^ 2) + 128 * y * (x ^ 2 - y ^ 2))) / (1 + 4 * x ^ 2 + 4 * y ^ 2) ^ 4) where
  u x y := ((dquot 1 ((((pow2 x).sub_const (y ^ 2)).const_mul 8)) (dWx x y) (W_pos x y)).fun_neg).congr_deriv (by
    have := W_pos x y; field_simp; push_cast; ring)
  v x y := ((dquot 1 ((((pow2 y).const_sub (x ^ 2)).const_mul 8)) (dWy x y) (W_pos x y)).fun_neg).congr_deriv (by
    have := W_pos x y; field_simp; push_cast; ring)
  uu x y := (dquot 2 (((((hasDerivAt_id x).const_mul 16).fun_neg.fun_mul (dWx x y)).fun_add
      (((hasDerivAt_id x).const_mul 128).fun_mul ((pow2 x).sub_const (y ^ 2))))) (dWx x y) (W_pos x y)).congr_deriv (by
    have := W_pos x y; simp only [id]; field_simp; push_cast; ring)
  uv x y := (dquot 2 (((dWy x y).const_mul (-(16 * x))).fun_add (((pow2 y).const_sub (x ^ 2)).const_mul (128 * x)))
      (dWy x y) (W_pos x y)).congr_deriv (by
    have := W_pos x y; field_simp; push_cast; ring)
  vu x y := (dquot 2 (((dWx x y).const_mul (16 * y)).fun_add (((pow2 x).sub_const (y ^ 2)).const_mul (128 * y)))
      (dWx x y) (W_pos x y)).congr_deriv (by
    have := W_pos x y; field_simp; push_cast; ring)
  vv x y := (dquot 2 (((((hasDerivAt_id y).const_mul 16).fun_mul (dWy x y)).fun_add
      (((hasDerivAt_id y).const_mul 128).fun_mul ((pow2 y).const_sub (x ^ 2))))) (dWy x y) (W_pos x y)).congr_deriv (by
    have := W_pos x y; simp only [id]; field_simp; push_cast; ring)

/-- C63: the source on the surface is the Laplace–Beltrami operator of that Laplacian: `Δ² z = f`. -/
theorem C63_surface_source : ∃ lu lv luu luv lvv, Twice laplaceS lu lv luu luv lvv ∧ ∀ x y, saddle.IsLaplace lu lv x y (sourceS x y) := by
  refine ⟨_, _, _, _, _, lapS_twice, fun x y => ?_⟩
  have hd : 0 < saddle.det x y := by rw [saddle_det]; exact W_pos x y
  have := C62_var1_solution saddle x y lapS_twice hd (fun n => if n = 0 then _ else _)
    (fun n => if n = 0 then _ else if n = 1 then _ else _) rfl rfl rfl rfl rfl
  rw [var1_saddle] at this
  convert this using 1
  have hW := W_pos x y
  unfold sourceS
  simp only [if_true, one_ne_zero, if_false, OfNat.ofNat_ne_zero, OfNat.ofNat_ne_one]
  field_simp
  ring

/-- `(a, b, c)` is the surface gradient of the third coordinate at the point over `(x, y)`: it is tangent to the surface, and its product with the
two tangent vectors are the derivatives of the third coordinate. -/
def IsGradZ (x y a b c : ℝ) : Prop :=
  (∃ p q, ∀ k : Fin 3, ![a, b, c] k = p * saddle.cu k x y + q * saddle.cv k x y) ∧
    ∑ k, ![a, b, c] k * saddle.cu k x y = saddle.cu 2 x y ∧ ∑ k, ![a, b, c] k * saddle.cv k x y = saddle.cv 2 x y

/-- C63: the surface gradient of the third coordinate has the first two components that are prescribed; its third is `4 (x² + y²) / (1 + 4x² + 4y²)`. -/
theorem C63_surface_gradient (x y a b c : ℝ) : IsGradZ x y a b c ↔
    a = neumannS1 x y ∧ b = neumannS2 x y ∧ c = 4 * (x ^ 2 + y ^ 2) / (1 + 4 * x ^ 2 + 4 * y ^ 2) := by
  have hW := W_pos x y
  unfold IsGradZ neumannS1 neumannS2
  simp only [Fin.sum_univ_three, saddle, Matrix.cons_val, Fin.forall_fin_succ, Fin.isValue]
  constructor
  · rintro ⟨⟨p, q, h⟩, h1, h2⟩
    simp at h
    obtain ⟨rfl, rfl, rfl⟩ := h
    have e1 : a * (1 + 4 * x ^ 2 + 4 * y ^ 2) = 2 * x := by linear_combination (1 + 4 * y ^ 2) * h1 + 4 * x * y * h2
    have e2 : b * (1 + 4 * x ^ 2 + 4 * y ^ 2) = -(2 * y) := by linear_combination (4 * x * y) * h1 + (1 + 4 * x ^ 2) * h2
    have f1 := (eq_div_iff hW.ne').2 e1
    have f2 := (eq_div_iff hW.ne').2 e2
    refine ⟨f1, by rw [f2]; ring, ?_⟩
    rw [eq_div_iff hW.ne']
    linear_combination 2 * x * e1 - 2 * y * e2
  · rintro ⟨rfl, rfl, rfl⟩
    refine ⟨⟨2 * x / (1 + 4 * x ^ 2 + 4 * y ^ 2), -(2 * y / (1 + 4 * x ^ 2 + 4 * y ^ 2)), ?_⟩, ?_, ?_⟩
    · simp
      field_simp
      ring
    · field_simp; ring
    · field_simp; ring

/-- C63 fails for the third component of the gradient prescribed on the surface: at `(x, y)` it is the one of the solution only if `x = 0`. -/
theorem C63_surface_violated (x y : ℝ) (hx : x ≠ 0) : ¬ IsGradZ x y (neumannS1 x y) (neumannS2 x y) (neumannS3 x y) := by
  rw [C63_surface_gradient]
  rintro ⟨-, -, h⟩
  have hW := W_pos x y
  unfold neumannS3 at h
  field_simp at h
  have : 0 < x ^ 2 := by positivity
  nlinarith

/-- C63 fails for the normal derivative prescribed on the surface.  On a boundary line `x = const` the direction normal to the boundary in the
surface is `G cₛ - F cₜ` (orthogonal to `cₜ`, not normalised).  At every point with `x ≠ 0` the product of the prescribed vector with
it is not that of the gradient. -/
theorem C63_surface_normal_violated (x y a b c : ℝ) (hx : x ≠ 0) (h : IsGradZ x y a b c) :
    ∑ k, (saddle.G x y * saddle.cu k x y - saddle.F x y * saddle.cv k x y) * saddle.cv k x y = 0 ∧
    ∑ k, ![neumannS1 x y, neumannS2 x y, neumannS3 x y] k * (saddle.G x y * saddle.cu k x y - saddle.F x y * saddle.cv k x y)
      ≠ ∑ k, ![a, b, c] k * (saddle.G x y * saddle.cu k x y - saddle.F x y * saddle.cv k x y) := by
  have hW := W_pos x y
  obtain ⟨rfl, rfl, rfl⟩ := (C63_surface_gradient x y a b c).1 h
  have hG : saddle.G x y = 1 + 4 * y ^ 2 := by simp [Surface.G, saddle, Fin.sum_univ_three]; ring
  have hF : saddle.F x y = -(4 * x * y) := by simp [Surface.F, saddle, Fin.sum_univ_three]; ring
  rw [hG, hF]
  simp only [Fin.sum_univ_three, saddle, Matrix.cons_val]
  refine ⟨by ring, fun e => ?_⟩
  have e' : (neumannS3 x y - 4 * (x ^ 2 + y ^ 2) / (1 + 4 * x ^ 2 + 4 * y ^ 2)) * (2 * x) = 0 := by linear_combination e
  unfold neumannS3 at e'
  field_simp at e'
  have : x ^ 3 = 0 := by nlinarith
  exact hx (pow_eq_zero_iff (by norm_num) |>.1 this)

example : IsGradZ 1 0 (2/5) 0 (4/5) := by
  rw [C63_surface_gradient]; norm_num [neumannS1, neumannS2]

/-- C62 fails for `deriv2`: on this surface it is not the operator for the third coordinate at the point over `(1, 0)`. -/
theorem C62_deriv2_violated : 0 < saddle.det 1 0 ∧
    ¬ saddle.IsLaplace (saddle.cu 2) (saddle.cv 2) 1 0
      (deriv2 (saddle.d1 1 0) (fun n => if n = 0 then saddle.cuu 2 1 0 else if n = 1 then saddle.cvv 2 1 0 else saddle.cuv 2 1 0) 0
        / √(saddle.det 1 0)) := by
  have hd : saddle.det 1 0 = 5 := by rw [saddle_det]; norm_num
  refine ⟨by rw [hd]; norm_num, fun h => ?_⟩
  have := C62_laplace_unique saddle 1 0 h (C63_surface_laplace 1 0)
  have hdet : detG (saddle.d1 1 0) = 5 := by
    simp [detG, g11, g12, g22, Surface.d1, saddle]; norm_num
  have h5 : √5 * √5 = (5 : ℝ) := mul_self_sqrt (by norm_num)
  have hs : 0 < √(5 : ℝ) := sqrt_pos.2 (by norm_num)
  unfold deriv2 deriv2dot gg laplaceS at this
  rw [hdet, hd] at this
  simp [g11, g12, g22, Surface.d1, saddle] at this
  field_simp at this
  norm_num at this

end Verif.TestData
