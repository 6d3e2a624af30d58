import Verif.Proofs.Gluing
import Mathlib.Analysis.Calculus.Deriv.Add
import Mathlib.Analysis.Calculus.Deriv.Mul
import Mathlib.Analysis.Calculus.Deriv.Pow
import Mathlib.LinearAlgebra.Matrix.Symmetric
import Mathlib.LinearAlgebra.Matrix.DotProduct
import Mathlib.Tactic.Linarith
/-!
# Property C25: the systems for the gluing data

The polynomials are the ones documented at `gsC1SurfGluingData.h:100-103`. `gluing` is the integrand of the least-squares functional: the squared length of
`alpha_R * DvFL + alpha_L * DuFR + beta * DvFR`. The penalty (`gsC1SurfGluingDataVisitor.h:66`: "to enforce that alphaL and alphaR will be close to 1") enters with factor `mu`:
`mu = lam` is the documented functional, `mu = -lam` is the one whose stationarity system is assembled.
-/
set_option autoImplicit false
set_option linter.unusedSectionVars false
set_option linter.unusedSimpArgs false
namespace Verif.Gluing
variable {ι : Type} [Fintype ι]

/-- Weighted sum over all quadrature points of all elements. -/
def integral (els : List (List (Pt ι))) (f : Pt ι → ℝ) : ℝ := (els.flatten.map fun p => p.w * f p).sum

def linR (x : Fin 7 → ℝ) (t : ℝ) : ℝ := (1 - t) * x 0 + t * x 1
def linL (x : Fin 7 → ℝ) (t : ℝ) : ℝ := (1 - t) * x 2 + t * x 3
def quadB (x : Fin 7 → ℝ) (t : ℝ) : ℝ := (1 - t) ^ 2 * x 4 + 2 * t * (1 - t) * x 5 + t ^ 2 * x 6

/-- The vector that vanishes if the gluing condition holds at the point. -/
def gluing (p : Pt ι) (x : Fin 7 → ℝ) : ι → ℝ := linR x p.t • p.dvFL + linL x p.t • p.duFR + quadB x p.t • p.dvFR

def functional (mu : ℝ) (els : List (List (Pt ι))) (x : Fin 7 → ℝ) : ℝ :=
  integral els fun p => gluing p x ⬝ᵥ gluing p x + mu * ((linR x p.t - 1) ^ 2 + (linL x p.t - 1) ^ 2)

def linBR (y : Fin 4 → ℝ) (t : ℝ) : ℝ := (1 - t) * y 0 + t * y 1
def linBL (y : Fin 4 → ℝ) (t : ℝ) : ℝ := (1 - t) * y 2 + t * y 3

/-- Functional for the splitting `beta = alpha_L * beta_R + alpha_R * beta_L`, with penalty factor `mu` for the size of the parts. -/
def functionalBeta (mu : ℝ) (s : Fin 7 → ℝ) (els : List (List (Pt ι))) (y : Fin 4 → ℝ) : ℝ :=
  integral els fun p => (linL s p.t * linBR y p.t + linR s p.t * linBL y p.t - quadB s p.t) ^ 2 + mu * (linBR y p.t ^ 2 + linBL y p.t ^ 2)

/-- All directional derivatives vanish. -/
def Stationary {n : ℕ} (F : (Fin n → ℝ) → ℝ) (x : Fin n → ℝ) : Prop := ∀ h : Fin n → ℝ, HasDerivAt (fun s : ℝ => F (x + s • h)) 0 0

theorem integral_eq (els : List (List (Pt ι))) (f : Pt ι → ℝ) : integral els f = accumulate els f := (accumulate_eq els f).symm

/-- Second-order expansion of the functional in any direction: the assembled matrix is its Hessian and matrix times vector minus right-hand side its gradient. -/
theorem C25_expansion (lam : ℝ) (els : List (List (Pt ι))) (x h : Fin 7 → ℝ) (s : ℝ) :
    functional (-lam) els (x + s • h) = functional (-lam) els x + s * (h ⬝ᵥ ((mat lam els).mulVec x - rhs lam els))
      + s ^ 2 / 2 * (h ⬝ᵥ (mat lam els).mulVec h) := by
  rw [dotProduct_sub]
  unfold mat rhs
  rw [accumulate_form, accumulate_form, accumulate_lin]
  simp only [functional, integral_eq]
  rw [← accumulate_sub, ← accumulate_mul, ← accumulate_mul, ← accumulate_add, ← accumulate_add]
  refine accumulate_congr _ _ _ fun p _ => ?_
  rw [row_form, row_form, rhs_form]
  have e1 : ∀ y, gluing p y = pR y p.t • p.dvFL + pL y p.t • p.duFR + pB y p.t • p.dvFR := fun _ => rfl
  simp only [e1, sq_expand]
  change _ + -lam * ((pR (x + s • h) p.t - 1) ^ 2 + (pL (x + s • h) p.t - 1) ^ 2) = _ + -lam * ((pR x p.t - 1) ^ 2 + (pL x p.t - 1) ^ 2) + _ + _
  simp only [pR_add, pL_add, pB_add, Pt.ll, Pt.rr, Pt.ww, Pt.lr, Pt.wr, Pt.lw]
  ring

theorem C25_expansion_beta (lam : ℝ) (sol : Fin 7 → ℝ) (els : List (List (Pt ι))) (x h : Fin 4 → ℝ) (s : ℝ) :
    functionalBeta (-lam) sol els (x + s • h) = functionalBeta (-lam) sol els x
      + s * (h ⬝ᵥ ((matBeta lam sol els).mulVec x - rhsBeta sol els)) + s ^ 2 / 2 * (h ⬝ᵥ (matBeta lam sol els).mulVec h) := by
  rw [dotProduct_sub]
  unfold matBeta rhsBeta
  rw [accumulate_form, accumulate_form, accumulate_lin]
  simp only [functionalBeta, integral_eq]
  rw [← accumulate_sub, ← accumulate_mul, ← accumulate_mul, ← accumulate_add, ← accumulate_add]
  refine accumulate_congr _ _ _ fun p _ => ?_
  rw [row_form_beta, row_form_beta, rhs_form_beta]
  have e1 : ∀ y, linBR y p.t = qR y p.t := fun _ => rfl
  have e2 : ∀ y, linBL y p.t = qL y p.t := fun _ => rfl
  simp only [e1, e2, qR_add, qL_add, alphaR, alphaL, betaV, linR, linL, quadB]
  ring

theorem deriv_quadratic (a b c : ℝ) : HasDerivAt (fun s : ℝ => a + s * b + s ^ 2 / 2 * c) b 0 := by
  have h1 : HasDerivAt (fun s : ℝ => a + s * b) b 0 := by
    simpa using ((hasDerivAt_id (0 : ℝ)).mul_const b).const_add a
  have h2 : HasDerivAt (fun s : ℝ => s ^ 2 / 2 * c) 0 0 := by
    have := (((hasDerivAt_pow 2 (0 : ℝ)).div_const 2).mul_const c)
    simpa using this
  have h3 := h1.add h2
  rw [add_zero] at h3
  exact h3

theorem stationary_of_expansion {n : ℕ} (F : (Fin n → ℝ) → ℝ) (M : Matrix (Fin n) (Fin n) ℝ) (r x : Fin n → ℝ)
    (hF : ∀ (h : Fin n → ℝ) (s : ℝ), F (x + s • h) = F x + s * (h ⬝ᵥ (M.mulVec x - r)) + s ^ 2 / 2 * (h ⬝ᵥ M.mulVec h)) :
    Stationary F x ↔ M.mulVec x = r := by
  have key : ∀ h : Fin n → ℝ, HasDerivAt (fun s : ℝ => F (x + s • h)) (h ⬝ᵥ (M.mulVec x - r)) 0 := by
    intro h
    simp only [hF]
    exact deriv_quadratic _ _ _
  constructor
  · intro hs
    have h0 := (key (M.mulVec x - r)).unique (hs _)
    exact sub_eq_zero.1 (dotProduct_self_eq_zero.1 h0)
  · intro he h
    have := key h
    rwa [he, sub_self, dotProduct_zero] at this

/-- The assembled matrices are symmetric. -/
theorem C25_symmetric (lam : ℝ) (sol : Fin 7 → ℝ) (els : List (List (Pt ι))) :
    (mat lam els).IsSymm ∧ (matBeta lam sol els).IsSymm := by
  constructor
  · ext i j
    change accumulate els _ = accumulate els _
    refine accumulate_congr _ _ _ fun p _ => ?_
    fin_cases i <;> fin_cases j <;> rfl
  · ext i j
    change accumulate els _ = accumulate els _
    refine accumulate_congr _ _ _ fun p _ => ?_
    fin_cases i <;> fin_cases j <;> rfl

/-- The solutions of the first system are exactly the stationary points of the least-squares functional from which the penalty is subtracted.
Missing for C25: the same with the penalty added (`mu = lam`), which is false (`C25_stationary_violated`). -/
theorem C25_stationary_partial (lam : ℝ) (els : List (List (Pt ι))) (x : Fin 7 → ℝ) :
    (mat lam els).mulVec x = rhs lam els ↔ Stationary (functional (-lam) els) x :=
  (stationary_of_expansion _ _ _ _ fun h s => C25_expansion lam els x h s).symm

/-- The solutions of the second system are exactly the stationary points of its functional, again with the penalty subtracted. -/
theorem C25_stationary_beta_partial (lam : ℝ) (sol : Fin 7 → ℝ) (els : List (List (Pt ι))) (y : Fin 4 → ℝ) :
    (matBeta lam sol els).mulVec y = rhsBeta sol els ↔ Stationary (functionalBeta (-lam) sol els) y :=
  (stationary_of_expansion _ _ _ _ fun h s => C25_expansion_beta lam sol els y h s).symm

/-- Without penalty the systems are those of the plain least-squares functionals. -/
theorem C25_least_squares (sol : Fin 7 → ℝ) (els : List (List (Pt ι))) (x : Fin 7 → ℝ) (y : Fin 4 → ℝ) :
    ((mat 0 els).mulVec x = rhs 0 els ↔ Stationary (functional 0 els) x) ∧
    ((matBeta 0 sol els).mulVec y = rhsBeta sol els ↔ Stationary (functionalBeta 0 sol els) y) := by
  have h1 := C25_stationary_partial 0 els x
  have h2 := C25_stationary_beta_partial 0 sol els y
  rw [neg_zero] at h1 h2
  exact ⟨h1, h2⟩

/-- Derivative of a functional in its penalty factor. -/
theorem functional_split (mu : ℝ) (els : List (List (Pt ι))) (x : Fin 7 → ℝ) :
    functional mu els x = functional 0 els x + mu * integral els fun p => (linR x p.t - 1) ^ 2 + (linL x p.t - 1) ^ 2 := by
  simp only [functional, integral_eq]
  rw [← accumulate_mul, ← accumulate_add]
  exact accumulate_congr _ _ _ fun p _ => by ring

/-- Exact condition: a solution of the system is stationary for the documented functional only if it is stationary for the least-squares part and
for the penalty separately. -/
theorem C25_documented_iff (lam : ℝ) (hl : lam ≠ 0) (els : List (List (Pt ι))) (x : Fin 7 → ℝ)
    (hx : (mat lam els).mulVec x = rhs lam els) :
    Stationary (functional lam els) x ↔ Stationary (functional 0 els) x ∧
      Stationary (fun x => integral els fun p => (linR x p.t - 1) ^ 2 + (linL x p.t - 1) ^ 2) x := by
  have hm := (C25_stationary_partial lam els x).1 hx
  constructor
  · intro hp
    constructor
    · intro h
      have := (((hm h).add (hp h)).div_const 2)
      refine (this.congr_deriv (by norm_num)).congr_of_eventuallyEq (Filter.Eventually.of_forall fun s => ?_)
      simp only [Pi.add_apply]
      rw [functional_split (-lam), functional_split lam]; ring
    · intro h
      have := (((hp h).sub (hm h)).div_const (2 * lam))
      refine (this.congr_deriv (by norm_num)).congr_of_eventuallyEq (Filter.Eventually.of_forall fun s => ?_)
      simp only [Pi.sub_apply]
      rw [functional_split (-lam), functional_split lam]; field_simp; ring
  · rintro ⟨h0, h1⟩ h
    have := (h0 h).add ((h1 h).const_mul lam)
    refine (this.congr_deriv (by norm_num)).congr_of_eventuallyEq (Filter.Eventually.of_forall fun s => ?_)
    simp only [Pi.add_apply]
    rw [functional_split lam]

/-- If the geometry has exact gluing data `x0` (with `alpha` not zero at all points), the functional of the assembled system is unbounded towards smaller values:
no solution of the system minimises it. -/
theorem C25_no_minimum (lam : ℝ) (hl : 0 < lam) (els : List (List (Pt ι))) (hw : ∀ p ∈ els.flatten, 0 < p.w) (x0 : Fin 7 → ℝ)
    (hx : ∀ p ∈ els.flatten, gluing p x0 = 0) (hne : ∃ p ∈ els.flatten, linR x0 p.t ≠ 0 ∨ linL x0 p.t ≠ 0) (x : Fin 7 → ℝ) :
    ∃ y, functional (-lam) els y < functional (-lam) els x := by
  have hq : x0 ⬝ᵥ (mat lam els).mulVec x0 < 0 := by
    unfold mat
    rw [accumulate_form]
    have : accumulate els (fun p => ∑ i : Fin 7, x0 i * ∑ j : Fin 7, basisData lam p (i.val * 7 + j.val) * x0 j)
        = -(2 * lam) * accumulate els fun p => linR x0 p.t ^ 2 + linL x0 p.t ^ 2 := by
      rw [← accumulate_mul]
      refine accumulate_congr _ _ _ fun p hp => ?_
      rw [row_form]
      have h0 : gluing p x0 ⬝ᵥ gluing p x0 = 0 := by rw [hx p hp, dotProduct_zero]
      have e1 : gluing p x0 = pR x0 p.t • p.dvFL + pL x0 p.t • p.duFR + pB x0 p.t • p.dvFR := rfl
      rw [e1, sq_expand] at h0
      change _ = -(2 * lam) * (pR x0 p.t ^ 2 + pL x0 p.t ^ 2)
      simp only [Pt.ll, Pt.rr, Pt.ww, Pt.lr, Pt.wr, Pt.lw]
      linear_combination 2 * h0
    rw [this]
    have hpos : 0 < accumulate els fun p => linR x0 p.t ^ 2 + linL x0 p.t ^ 2 := by
      rw [accumulate_eq]
      obtain ⟨p, hp, hpne⟩ := hne
      have hnn : ∀ z ∈ els.flatten.map (fun p => p.w * (linR x0 p.t ^ 2 + linL x0 p.t ^ 2)), 0 ≤ z := by
        intro z hz
        obtain ⟨q, hq, rfl⟩ := List.mem_map.1 hz
        exact mul_nonneg (hw q hq).le (by positivity)
      refine lt_of_lt_of_le ?_ (List.single_le_sum hnn _ (List.mem_map.2 ⟨p, hp, rfl⟩))
      refine mul_pos (hw p hp) ?_
      rcases hpne with h | h
      · have := sq_pos_of_ne_zero h; positivity
      · have := sq_pos_of_ne_zero h; positivity
    nlinarith
  rcases le_total (x0 ⬝ᵥ ((mat lam els).mulVec x - rhs lam els)) 0 with hg | hg
  · refine ⟨x + (1 : ℝ) • x0, ?_⟩
    rw [C25_expansion]; nlinarith
  · refine ⟨x + (-1 : ℝ) • x0, ?_⟩
    rw [C25_expansion]; nlinarith

/-- For the second system this happens for all geometries. -/
theorem C25_no_minimum_beta (lam : ℝ) (hl : 0 < lam) (sol : Fin 7 → ℝ) (els : List (List (Pt ι))) (hw : ∀ p ∈ els.flatten, 0 < p.w)
    (hne : ∃ p ∈ els.flatten, linR sol p.t ≠ 0 ∨ linL sol p.t ≠ 0) (y : Fin 4 → ℝ) :
    ∃ z, functionalBeta (-lam) sol els z < functionalBeta (-lam) sol els y := by
  set h0 : Fin 4 → ℝ := ![sol 0, sol 1, -sol 2, -sol 3] with hh0
  have hq : h0 ⬝ᵥ (matBeta lam sol els).mulVec h0 < 0 := by
    unfold matBeta
    rw [accumulate_form]
    have : accumulate els (fun p => ∑ i : Fin 4, h0 i * ∑ j : Fin 4,
          basisDataBeta lam p (alphaR sol p.t) (alphaL sol p.t) (i.val * 4 + j.val) * h0 j)
        = -(2 * lam) * accumulate els fun p => linR sol p.t ^ 2 + linL sol p.t ^ 2 := by
      rw [← accumulate_mul]
      refine accumulate_congr _ _ _ fun p hp => ?_
      rw [row_form_beta]
      simp [hh0, qR, qL, alphaR, alphaL, linR, linL]
      ring
    rw [this]
    have hpos : 0 < accumulate els fun p => linR sol p.t ^ 2 + linL sol p.t ^ 2 := by
      rw [accumulate_eq]
      obtain ⟨p, hp, hpne⟩ := hne
      have hnn : ∀ z ∈ els.flatten.map (fun p => p.w * (linR sol p.t ^ 2 + linL sol p.t ^ 2)), 0 ≤ z := by
        intro z hz
        obtain ⟨q, hq, rfl⟩ := List.mem_map.1 hz
        exact mul_nonneg (hw q hq).le (by positivity)
      refine lt_of_lt_of_le ?_ (List.single_le_sum hnn _ (List.mem_map.2 ⟨p, hp, rfl⟩))
      refine mul_pos (hw p hp) ?_
      rcases hpne with h | h
      · have := sq_pos_of_ne_zero h; positivity
      · have := sq_pos_of_ne_zero h; positivity
    nlinarith
  rcases le_total (h0 ⬝ᵥ ((matBeta lam sol els).mulVec y - rhsBeta sol els)) 0 with hg | hg
  · refine ⟨y + (1 : ℝ) • h0, ?_⟩
    rw [C25_expansion_beta]; nlinarith
  · refine ⟨y + (-1 : ℝ) • h0, ?_⟩
    rw [C25_expansion_beta]; nlinarith

/-- Exact gluing data with `alpha_R = alpha_L = 1` solve the system for every penalty factor. -/
theorem C25_exact (lam : ℝ) (els : List (List (Pt ι))) (b0 b1 b2 : ℝ)
    (hx : ∀ p ∈ els.flatten, p.dvFL + p.duFR + ((1 - p.t) ^ 2 * b0 + 2 * p.t * (1 - p.t) * b1 + p.t ^ 2 * b2) • p.dvFR = 0) :
    (mat lam els).mulVec ![1, 1, 1, 1, b0, b1, b2] = rhs lam els := by
  set x : Fin 7 → ℝ := ![1, 1, 1, 1, b0, b1, b2] with hxd
  have hall : ∀ h : Fin 7 → ℝ, h ⬝ᵥ ((mat lam els).mulVec x - rhs lam els) = 0 := by
    intro h
    rw [dotProduct_sub]
    unfold mat rhs
    rw [accumulate_form, accumulate_lin, ← accumulate_sub]
    have : accumulate els (fun p => (∑ i : Fin 7, h i * ∑ j : Fin 7, basisData lam p (i.val * 7 + j.val) * x j)
        - ∑ i : Fin 7, h i * rhsVals lam p i.val) = accumulate els fun _ => 0 := by
      refine accumulate_congr _ _ _ fun p hp => ?_
      rw [row_form, rhs_form]
      have hR : pR x p.t = 1 := by simp [hxd, pR]
      have hL : pL x p.t = 1 := by simp [hxd, pL]
      have hB : pB x p.t = (1 - p.t) ^ 2 * b0 + 2 * p.t * (1 - p.t) * b1 + p.t ^ 2 * b2 := by simp [hxd, pB]
      have h0 := hx p hp
      rw [← hB] at h0
      have g1 : p.ll + p.lr + pB x p.t * p.lw = 0 := by
        have := congrArg (p.dvFL ⬝ᵥ ·) h0
        simpa [Pt.ll, Pt.lr, Pt.lw, dotProduct_add, dotProduct_smul] using this
      have g2 : p.lr + p.rr + pB x p.t * p.wr = 0 := by
        have := congrArg (p.duFR ⬝ᵥ ·) h0
        simpa [Pt.rr, Pt.lr, Pt.wr, dotProduct_add, dotProduct_smul, dotProduct_comm p.duFR p.dvFL, dotProduct_comm p.duFR p.dvFR] using this
      have g3 : p.lw + p.wr + pB x p.t * p.ww = 0 := by
        have := congrArg (p.dvFR ⬝ᵥ ·) h0
        simpa [Pt.ww, Pt.lw, Pt.wr, dotProduct_add, dotProduct_smul, dotProduct_comm p.dvFR p.dvFL] using this
      rw [hR, hL]
      linear_combination 2 * pR h p.t * g1 + 2 * pL h p.t * g2 + 2 * pB h p.t * g3
    rw [this, accumulate_eq]
    simp only [mul_zero]
    exact List.sum_eq_zero fun a ha => by
      obtain ⟨_, _, rfl⟩ := List.mem_map.1 ha
      rfl
  exact sub_eq_zero.1 (dotProduct_self_eq_zero.1 (hall _))

/-- `evalAlpha_R`, `evalAlpha_L`, `evalBeta_R`, `evalBeta_L` are the polynomials whose coefficients were solved for, and so is the `beta` used in the second system. -/
theorem C25_eval (s : Fin 7 → ℝ) (y : Fin 4 → ℝ) (t : ℝ) :
    alphaR s t = linR s t ∧ alphaL s t = linL s t ∧ betaV s t = quadB s t ∧ evalBetaR y t = linBR y t ∧ evalBetaL y t = linBL y t := by
  refine ⟨?_, ?_, ?_, ?_, ?_⟩
  · simp only [alphaR, linR]; ring
  · simp only [alphaL, linL]; ring
  · simp only [betaV, quadB]; ring
  · simp only [evalBetaR, linBR]; ring
  · simp only [evalBetaL, linBL]; ring

/-- Error of `evalBeta`. -/
theorem C25_evalBeta_error (s : Fin 7 → ℝ) (t : ℝ) : quadB s t - evalBeta s t = t * (1 - t) * (s 5 - s 6) := by
  simp only [quadB, evalBeta]; ring

/-- `evalBeta` is the solved polynomial only if its last two coefficients are equal. -/
theorem C25_evalBeta_iff (s : Fin 7 → ℝ) : (∀ t, evalBeta s t = quadB s t) ↔ s 5 = s 6 := by
  constructor
  · intro h
    have := C25_evalBeta_error s (1 / 2)
    rw [h (1 / 2), sub_self] at this
    linarith
  · intro h t
    have := C25_evalBeta_error s t
    rw [h, sub_self, mul_zero] at this
    linarith

/-- At the end points it agrees. -/
theorem C25_evalBeta_ends (s : Fin 7 → ℝ) : evalBeta s 0 = s 4 ∧ evalBeta s 1 = s 6 := by
  constructor <;> simp [evalBeta]

/-- On boundary edges the gluing data are `alpha = 1`, `beta = 0`. -/
theorem C25_boundary (t : ℝ) : alphaR solBoundary t = 1 ∧ alphaL solBoundary t = 1 ∧ evalBeta solBoundary t = 0 ∧
    evalBetaR solBetaBoundary t = 0 ∧ evalBetaL solBetaBoundary t = 0 := by
  simp [alphaR, alphaL, evalBeta, evalBetaR, evalBetaL, solBoundary, solBetaBoundary]

/-! Concrete cases -/

/-- Two planar patches whose first derivatives across the interface differ by `2t(1-t)` times the derivative along it. -/
def ptA (t w : ℝ) : Pt (Fin 2) := ⟨t, w, ![-(2 * t * (1 - t)), -1], ![0, 1], ![1, 0]⟩
noncomputable def elsA : List (List (Pt (Fin 2))) := [[ptA 0 1, ptA (1 / 2) 2], [ptA 1 1]]

theorem ptA_exact (t w : ℝ) : (ptA t w).dvFL + (ptA t w).duFR
    + ((1 - (ptA t w).t) ^ 2 * 0 + 2 * (ptA t w).t * (1 - (ptA t w).t) * 1 + (ptA t w).t ^ 2 * 0) • (ptA t w).dvFR = 0 := by
  ext i; fin_cases i <;> simp [ptA]

theorem elsA_exact : ∀ p ∈ elsA.flatten, p.dvFL + p.duFR + ((1 - p.t) ^ 2 * 0 + 2 * p.t * (1 - p.t) * 1 + p.t ^ 2 * 0) • p.dvFR = 0 := by
  intro p hp
  simp only [elsA, List.flatten_cons, List.flatten_nil, List.mem_append, List.mem_cons, List.not_mem_nil, or_false] at hp
  rcases hp with (rfl | rfl) | rfl <;> exact ptA_exact _ _

example : (mat (1 / 10) elsA).mulVec ![1, 1, 1, 1, 0, 1, 0] = rhs (1 / 10) elsA := C25_exact _ _ 0 1 0 elsA_exact

/-- A solution of the system, for any penalty factor, for which `evalBeta` is not the solved polynomial. -/
theorem C25_evalBeta_violated (lam : ℝ) : ∃ x : Fin 7 → ℝ, (mat lam elsA).mulVec x = rhs lam elsA ∧ evalBeta x (1 / 2) ≠ quadB x (1 / 2) := by
  refine ⟨![1, 1, 1, 1, 0, 1, 0], C25_exact _ _ 0 1 0 elsA_exact, ?_⟩
  have := C25_evalBeta_error ![1, 1, 1, 1, 0, 1, 0] (1 / 2)
  intro h
  rw [h, sub_self] at this
  norm_num at this
  simp at this

example : ∃ y, functional (-(1 / 10)) elsA y < functional (-(1 / 10)) elsA ![1, 1, 1, 1, 0, 1, 0] := by
  refine C25_no_minimum _ (by norm_num) elsA ?_ ![1, 1, 1, 1, 0, 1, 0] ?_ ?_ _
  · intro p hp
    simp only [elsA, List.flatten_cons, List.flatten_nil, List.mem_append, List.mem_cons, List.not_mem_nil, or_false] at hp
    rcases hp with (rfl | rfl) | rfl <;> norm_num [ptA]
  · intro p hp
    have := elsA_exact p hp
    rw [gluing, ← this]
    simp [linR, linL, quadB]
  · exact ⟨ptA 0 1, by simp [elsA], by simp [ptA, linR]⟩

/-- Surface patches meeting at a right angle. -/
def ptB : Pt (Fin 3) := ⟨0, 1, ![1, 0, 0], ![0, 1, 0], ![0, 0, 1]⟩

/-- Right angle, any penalty factor `0 < lam < 1`: the system gives `alpha = -lam / (1 - lam)`, which is not stationary for the documented functional
(whose stationary point has `alpha = lam / (1 + lam)`). -/
theorem C25_stationary_violated (lam : ℝ) (h0 : 0 < lam) (h1 : lam < 1) :
    ∃ x : Fin 7 → ℝ, (mat lam [[ptB]]).mulVec x = rhs lam [[ptB]] ∧ linR x 0 = -lam / (1 - lam) ∧ linR x 0 < 0 ∧
      ¬ Stationary (functional lam [[ptB]]) x := by
  have h1' : (1 : ℝ) - lam ≠ 0 := by linarith
  set c : ℝ := -lam / (1 - lam) with hc
  have hcneg : c < 0 := div_neg_of_neg_of_pos (by linarith) (by linarith)
  have hc1 : (1 - lam) * c = -lam := by rw [hc]; field_simp
  have hsol : (mat lam [[ptB]]).mulVec ![c, c, c, c, 0, 0, 0] = rhs lam [[ptB]] := by
    have hall : ∀ h : Fin 7 → ℝ, h ⬝ᵥ ((mat lam [[ptB]]).mulVec ![c, c, c, c, 0, 0, 0] - rhs lam [[ptB]]) = 0 := by
      intro h
      rw [dotProduct_sub]
      unfold mat rhs
      rw [accumulate_form, accumulate_lin, accumulate_eq, accumulate_eq]
      simp only [List.flatten_cons, List.flatten_nil, List.append_nil, List.map_cons, List.map_nil, List.sum_cons, List.sum_nil, add_zero]
      rw [row_form, rhs_form]
      simp [ptB, pR, pL, pB, dotProduct, Fin.sum_univ_three, Pt.ll, Pt.rr, Pt.ww, Pt.lr, Pt.wr, Pt.lw]
      linear_combination (2 * h 0 + 2 * h 2) * hc1
    exact sub_eq_zero.1 (dotProduct_self_eq_zero.1 (hall _))
  refine ⟨![c, c, c, c, 0, 0, 0], hsol, by simp [linR], by simpa [linR] using hcneg, ?_⟩
  intro hs
  have hpen := ((C25_documented_iff lam h0.ne' _ _ hsol).1 hs).2 ![1, 0, 0, 0, 0, 0, 0]
  have hval : ∀ s : ℝ, (integral [[ptB]] fun p => (linR (![c, c, c, c, 0, 0, 0] + s • ![1, 0, 0, 0, 0, 0, 0]) p.t - 1) ^ 2
      + (linL (![c, c, c, c, 0, 0, 0] + s • ![1, 0, 0, 0, 0, 0, 0]) p.t - 1) ^ 2)
      = (2 * (c - 1) ^ 2) + s * (2 * (c - 1)) + s ^ 2 / 2 * 2 := by
    intro s
    simp [integral, ptB, linR, linL]
    ring
  simp only [hval] at hpen
  have := hpen.unique (deriv_quadratic _ _ _)
  linarith

example : ∃ z, functionalBeta (-(1 / 10)) solBoundary [[ptB]] z < functionalBeta (-(1 / 10)) solBoundary [[ptB]] ![0, 0, 0, 0] :=
  C25_no_minimum_beta _ (by norm_num) _ _ (by simp [ptB]) ⟨ptB, by simp, by simp [linR, solBoundary, ptB]⟩ _

end Verif.Gluing
