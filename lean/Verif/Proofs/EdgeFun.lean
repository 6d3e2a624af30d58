import Verif.Model.EdgeFun
import Verif.Proofs.BSpline
import Mathlib.Analysis.Calculus.Deriv.Polynomial
import Mathlib.Analysis.Calculus.Deriv.Comp
import Mathlib.Analysis.Calculus.Deriv.Add
import Mathlib.Analysis.Calculus.Deriv.Mul
import Mathlib.LinearAlgebra.Matrix.DotProduct
import Mathlib.Tactic.FieldSimp
import Mathlib.Tactic.LinearCombination
import Mathlib.Tactic.FinCases
/-! # Lemmas for the functions at an interface -/
set_option autoImplicit false
set_option linter.unusedSimpArgs false
namespace Verif.EdgeFun
open Verif.BSpline Polynomial

/-- A function of `(u, v)` in the coordinates along and across the interface. -/
def line {β : Type} (uv : ℕ) (f : ℝ → ℝ → β) (along across : ℝ) : β := if uv = 0 then f along across else f across along

theorem eval_zero0 {b : Comp} (h : Open b.t b.p) (hp : 1 ≤ b.p) : b.eval 0 0 = 1 := (N_jet h hp).1
theorem eval_one0 {b : Comp} (h : Open b.t b.p) (hp : 1 ≤ b.p) : b.eval 1 0 = 0 := (N_jet h hp).2.1
theorem deriv_zero0 {b : Comp} (h : Open b.t b.p) (hp : 1 ≤ b.p) : HasDerivAt (b.eval 0) (-(b.p / b.t (b.p + 1))) 0 := by
  rw [← (N_jet h hp).2.2.1]; exact (N b.t b.p 0).hasDerivAt 0
theorem deriv_one0 {b : Comp} (h : Open b.t b.p) (hp : 1 ≤ b.p) : HasDerivAt (b.eval 1) (b.p / b.t (b.p + 1)) 0 := by
  rw [← (N_jet h hp).2.2.2]; exact (N b.t b.p 1).hasDerivAt 0

theorem line_trace (uv : ℕ) (bd : Bool) (b : Comp) (beta n dn : ℝ → ℝ) (s c : ℝ) :
    line uv (traceBasis uv bd b beta n dn) s c
      = n s * (b.eval 0 c + b.eval 1 c) - (if bd then 0 else beta s) * dn s * b.eval 1 c * b.t (b.p + 1) / b.p := by
  unfold line traceBasis; split <;> simp_all

theorem line_normal (uv : ℕ) (bd : Bool) (b : Comp) (alpha m : ℝ → ℝ) (s c : ℝ) :
    line uv (normalDerivBasis uv bd b alpha m) s c
      = (if uv = 0 then -1 else 1) * (if bd then m s * b.eval 1 c else alpha s * (m s * b.eval 1 c) * b.t (b.p + 1) / b.p) := by
  unfold line normalDerivBasis; split <;> cases bd <;> simp_all <;> ring

theorem line_plus (uv : ℕ) (bd : Bool) (b : Comp) (beta n dn : ℝ → ℝ) (s c : ℝ) :
    line uv (surfPlus uv bd b beta n dn) s c
      = n s * (b.eval 0 c + b.eval 1 c) - (if bd then 0 else beta s) * b.eval 1 c * dn s * b.t (b.p + 2) / b.p := by
  unfold line surfPlus; split <;> simp_all

theorem line_minus (uv : ℕ) (bd : Bool) (b : Comp) (alpha m : ℝ → ℝ) (s c : ℝ) :
    line uv (surfMinus uv bd b alpha m) s c = (if uv = 0 then -1 else 1) * ((if bd then 1 else alpha s) * (m s * b.eval 1 c)) := by
  unfold line surfMinus; split <;> cases bd <;> simp_all

/-- Derivative of a combination of the first two functions across the interface. -/
theorem deriv_comb {b : Comp} (h : Open b.t b.p) (hp : 1 ≤ b.p) (x y : ℝ) :
    HasDerivAt (fun c => x * (b.eval 0 c + b.eval 1 c) + y * b.eval 1 c) (y * (b.p / b.t (b.p + 1))) 0 := by
  have := (((deriv_zero0 h hp).add (deriv_one0 h hp)).const_mul x).add ((deriv_one0 h hp).const_mul y)
  rw [neg_add_cancel, mul_zero, zero_add] at this
  exact this

theorem p_ne {b : Comp} (hp : 1 ≤ b.p) : (b.p : ℝ) ≠ 0 := by exact_mod_cast (by omega : b.p ≠ 0)

/-- Chain rule along a curve. -/
theorem chain {k : ℕ} {φ : (Fin k → ℝ) → ℝ} {L : (Fin k → ℝ) →L[ℝ] ℝ} {S : Set (Fin k → ℝ)} {γ : ℝ → Fin k → ℝ} {γ' : Fin k → ℝ} {s : ℝ} {f : ℝ → ℝ} {f' : ℝ} {W : Set ℝ}
    (hγ : HasDerivAt γ γ' s) (hφ : HasFDerivWithinAt φ L S (γ s)) (hf : HasDerivAt f f' s) (hW : UniqueDiffWithinAt ℝ W s) (hs : s ∈ W) (hm : ∀ r ∈ W, γ r ∈ S)
    (he : ∀ r ∈ W, φ (γ r) = f r) : L γ' = f' := by
  have h1 : HasDerivWithinAt (φ ∘ γ) (L γ') W s := hφ.comp_hasDerivWithinAt s hγ.hasDerivWithinAt hm
  have h2 : HasDerivWithinAt (φ ∘ γ) f' W s := hf.hasDerivWithinAt.congr he (he s hs)
  exact hW.eq_deriv _ h1 h2

theorem det_two (a b : Fin 2 → ℝ) : alphaPlanar a b = a 0 * b 1 - b 0 * a 1 := by
  simp [alphaPlanar, Matrix.det_fin_two]

/-- Two vectors with non-zero determinant span the plane. -/
theorem span_two {a b : Fin 2 → ℝ} (h : alphaPlanar a b ≠ 0) (w : Fin 2 → ℝ) : ∃ x y : ℝ, w = x • a + y • b := by
  rw [det_two] at h
  refine ⟨(w 0 * b 1 - b 0 * w 1) / (a 0 * b 1 - b 0 * a 1), (a 0 * w 1 - w 0 * a 1) / (a 0 * b 1 - b 0 * a 1), ?_⟩
  generalize hd : a 0 * b 1 - b 0 * a 1 = d at h ⊢
  ext i
  fin_cases i <;> simp <;> field_simp <;> rw [← hd] <;> ring

theorem betaGeo_eq {k : ℕ} (uv : ℕ) (du dv : Fin k → ℝ) (T A : Fin k → ℝ) (h : uv = 0 ∧ du = T ∧ dv = A ∨ uv = 1 ∧ du = A ∧ dv = T) :
    betaGeo uv du dv = -((T ⬝ᵥ A) / (T ⬝ᵥ T)) := by
  have hnn : 0 ≤ T ⬝ᵥ T := by
    simp only [dotProduct]; exact Finset.sum_nonneg fun i _ => mul_self_nonneg _
  have hs : ∀ x : ℝ, -1 * (1 / Real.sqrt (T ⬝ᵥ T)) * (1 / Real.sqrt (T ⬝ᵥ T)) * x = -(x / (T ⬝ᵥ T)) := by
    intro x
    have : (1 / Real.sqrt (T ⬝ᵥ T)) * (1 / Real.sqrt (T ⬝ᵥ T)) = 1 / (T ⬝ᵥ T) := by
      rw [div_mul_div_comm, one_mul, Real.mul_self_sqrt hnn]
    rw [mul_assoc (-1), this]; ring
  rcases h with ⟨rfl, rfl, rfl⟩ | ⟨rfl, rfl, rfl⟩
  · simp only [betaGeo, if_pos]; rw [hs, dotProduct_comm]
  · simp only [betaGeo, if_neg one_ne_zero]; rw [hs]

theorem dot3 (a b : Fin 3 → ℝ) : a ⬝ᵥ b = a 0 * b 0 + a 1 * b 1 + a 2 * b 2 := by
  simp [dotProduct, Fin.sum_univ_three]

/-- The determinant in `gsAlpha` is the squared area of the parallelogram. -/
theorem alphaSurface_eq (uv : ℕ) (du dv T A : Fin 3 → ℝ) (h : uv = 0 ∧ du = T ∧ dv = A ∨ uv = 1 ∧ du = A ∧ dv = T) :
    alphaSurface uv du dv = 1 / Real.sqrt (T ⬝ᵥ T) * Real.sqrt ((A ⬝ᵥ A) * (T ⬝ᵥ T) - (A ⬝ᵥ T) ^ 2) := by
  rcases h with ⟨rfl, rfl, rfl⟩ | ⟨rfl, rfl, rfl⟩
  · simp only [alphaSurface, if_pos]
    congr 2
    rw [Matrix.det_fin_three]; simp [dot3]; ring
  · simp only [alphaSurface, if_neg one_ne_zero]
    congr 2
    rw [Matrix.det_fin_three]; simp [dot3]; ring

end Verif.EdgeFun
