import Verif.Model.BSpline
import Mathlib.Algebra.BigOperators.Fin
import Mathlib.Algebra.Polynomial.BigOperators
import Mathlib.Tactic.Ring
import Mathlib.Tactic.FieldSimp
import Mathlib.Tactic.Positivity
import Mathlib.Tactic.Linarith
import Mathlib.Tactic.LinearCombination
/-! # Values and derivatives of the first B-splines at the first knot -/
set_option autoImplicit false
namespace Verif.BSpline
open Polynomial Finset
variable {t : ℕ → ℝ} {p : ℕ}

theorem bs_zero_of_gt {q i : ℕ} (h : p < i) : bs t p q i = 0 := by
  induction q generalizing i with
  | zero => rw [bs, if_neg (by omega)]
  | succ q ih => rw [bs, ih h, ih (by omega)]; simp

theorem bs_zero_of_lt {q i : ℕ} (h : i + q < p) : bs t p q i = 0 := by
  induction q generalizing i with
  | zero => rw [bs, if_neg (by omega)]
  | succ q ih => rw [bs, ih (by omega), ih (by omega)]; simp

theorem Open.pos_of (h : Open t p) {j : ℕ} (hj : p < j) : 0 < t j := lt_of_lt_of_le h.pos (h.mono hj)

/-- The `i`-th function of degree `q` vanishes at zero exactly to order `i + q - p`. -/
theorem bs_order (h : Open t p) (q i : ℕ) (hi : i ≤ p) (hq : p ≤ i + q) :
    ∃ Q : ℝ[X], bs t p q i = X ^ (i + q - p) * Q ∧ 0 < Q.eval 0 := by
  induction q generalizing i with
  | zero => exact ⟨1, by rw [bs, if_pos (by omega), show i + 0 - p = 0 by omega]; simp, by simp⟩
  | succ q ih =>
    have hti : t i = 0 := h.first i hi
    have first : ∃ Q : ℝ[X], C (1 / (t (i + q + 1) - t i)) * (X - C (t i)) * bs t p q i = X ^ (i + (q + 1) - p) * Q
        ∧ 0 ≤ Q.eval 0 ∧ (p ≤ i + q → 0 < Q.eval 0) := by
      by_cases hc : p ≤ i + q
      · have hpos1 : 0 < t (i + q + 1) := h.pos_of (by omega)
        obtain ⟨Q, hQ, hp⟩ := ih i hi hc
        refine ⟨C (1 / t (i + q + 1)) * Q, ?_, ?_, fun _ => ?_⟩
        · rw [hQ, hti, show i + (q + 1) - p = (i + q - p) + 1 by omega, pow_succ]; simp only [sub_zero, map_zero]; ring
        · simp only [eval_mul, eval_C]; positivity
        · simp only [eval_mul, eval_C]; positivity
      · exact ⟨0, by rw [bs_zero_of_lt (by omega)]; simp, by simp, fun hx => absurd hx hc⟩
    have second : ∃ Q : ℝ[X], C (1 / (t (i + q + 2) - t (i + 1))) * (C (t (i + q + 2)) - X) * bs t p q (i + 1) = X ^ (i + (q + 1) - p) * Q
        ∧ 0 ≤ Q.eval 0 ∧ (i < p → 0 < Q.eval 0) := by
      by_cases hc : i < p
      · obtain ⟨Q, hQ, hp⟩ := ih (i + 1) (by omega) (by omega)
        have hpos2 : 0 < t (i + q + 2) := h.pos_of (by omega)
        have e : eval 0 (C (1 / (t (i + q + 2) - t (i + 1))) * (C (t (i + q + 2)) - X) * Q) = Q.eval 0 := by
          simp only [eval_mul, eval_C, eval_sub, eval_X, h.first (i + 1) (by omega)]
          rw [sub_zero, one_div, inv_mul_cancel₀ hpos2.ne', one_mul]
        refine ⟨C (1 / (t (i + q + 2) - t (i + 1))) * (C (t (i + q + 2)) - X) * Q, ?_, ?_, fun _ => ?_⟩
        · rw [hQ, show i + (q + 1) - p = i + 1 + q - p by omega]; ring
        · rw [e]; exact hp.le
        · rw [e]; exact hp
      · exact ⟨0, by rw [bs_zero_of_gt (by omega)]; simp, by simp, fun hx => absurd hx hc⟩
    obtain ⟨Q1, e1, n1, p1⟩ := first
    obtain ⟨Q2, e2, n2, p2⟩ := second
    refine ⟨Q1 + Q2, by rw [bs, e1, e2]; ring, ?_⟩
    rw [eval_add]
    by_cases hc : i < p
    · have := p2 hc; linarith
    · have := p1 (by omega); linarith

/-- Partition of unity. -/
theorem bs_sum (h : Open t p) (q : ℕ) (hq : q ≤ p) : ∑ i ∈ range (p + 1), bs t p q i = 1 := by
  induction q with
  | zero => simp [bs]
  | succ q ih =>
    have ih := ih (by omega)
    have hstep : ∀ i ∈ range (p + 1), bs t p (q + 1) i
        = (C (1 / (t (i + q + 1) - t i)) * (X - C (t i)) * bs t p q i
          - C (1 / (t (i + 1 + q + 1) - t (i + 1))) * (X - C (t (i + 1))) * bs t p q (i + 1)) + bs t p q (i + 1) := by
      intro i hi
      rw [bs]
      by_cases hz : bs t p q (i + 1) = 0
      · rw [hz]; simp
      · have h1 : i + 1 ≤ p := by by_contra hc; exact hz (bs_zero_of_gt (by omega))
        have h2 : p ≤ i + 1 + q := by by_contra hc; exact hz (bs_zero_of_lt (by omega))
        have hpos : 0 < t (i + q + 2) := h.pos_of (by omega)
        rw [show i + 1 + q + 1 = i + q + 2 by omega, h.first (i + 1) h1]
        have hone : C (1 / (t (i + q + 2) - 0)) * C (t (i + q + 2)) = (1 : ℝ[X]) := by
          rw [← C_mul, sub_zero, one_div, inv_mul_cancel₀ hpos.ne', C_1]
        rw [C_0]
        linear_combination hone * bs t p q (i + 1)
    rw [sum_congr rfl hstep, sum_add_distrib, sum_range_sub' (fun i => C (1 / (t (i + q + 1) - t i)) * (X - C (t i)) * bs t p q i),
      bs_zero_of_lt (show 0 + q < p by omega), bs_zero_of_gt (show p < p + 1 by omega), mul_zero, mul_zero, sub_self, zero_add]
    rw [sum_range_succ'] at ih
    rw [bs_zero_of_lt (show 0 + q < p by omega), add_zero] at ih
    rw [sum_range_succ, bs_zero_of_gt (show p < p + 1 by omega), add_zero]
    exact ih

/-- The first function. -/
theorem bs_first (h : Open t p) (q : ℕ) (hq : q ≤ p) : bs t p q (p - q) = (1 - C (1 / t (p + 1)) * X) ^ q := by
  induction q with
  | zero => simp [bs]
  | succ q ih =>
    rw [bs, bs_zero_of_lt (show p - (q + 1) + q < p by omega), mul_zero, zero_add, show p - (q + 1) + 1 = p - q by omega, ih (by omega),
      h.first (p - q) (by omega), show p - (q + 1) + q + 2 = p + 1 by omega, pow_succ]
    have hone : C (1 / (t (p + 1) - 0)) * C (t (p + 1)) = (1 : ℝ[X]) := by
      rw [← C_mul, sub_zero, one_div, inv_mul_cancel₀ h.pos.ne', C_1]
    rw [sub_zero] at hone ⊢
    linear_combination hone * (1 - C (1 / t (p + 1)) * X) ^ q

/-- Vanishing order of the `i`-th function. -/
theorem N_order (h : Open t p) (i : ℕ) (hi : i ≤ p) : ∃ Q : ℝ[X], N t p i = X ^ i * Q ∧ 0 < Q.eval 0 := by
  obtain ⟨Q, hQ, hp⟩ := bs_order h p i hi (by omega)
  exact ⟨Q, by rw [N, hQ, Nat.add_sub_cancel], hp⟩

theorem N_sum (h : Open t p) : ∑ i ∈ range (p + 1), N t p i = 1 := bs_sum h p le_rfl

theorem N_zero (h : Open t p) : N t p 0 = (1 - C (1 / t (p + 1)) * X) ^ p := by
  have := bs_first h p le_rfl
  rwa [Nat.sub_self] at this

/-- A polynomial that vanishes to order `k` has zero derivatives below `k`. -/
theorem jet_X_pow (Q : ℝ[X]) (k : ℕ) : (X ^ (k + 1) * Q).eval 0 = 0 ∧ (derivative (X ^ (k + 2) * Q)).eval 0 = 0 ∧
    (derivative (derivative (X ^ (k + 3) * Q))).eval 0 = 0 := by
  refine ⟨by simp, by simp [derivative_mul], ?_⟩
  simp [derivative_mul]

theorem eval0_X_mul (Q : ℝ[X]) : (derivative (X ^ 1 * Q)).eval 0 = Q.eval 0 := by simp
theorem eval0_X2_mul (Q : ℝ[X]) : (derivative (derivative (X ^ 2 * Q))).eval 0 = 2 * Q.eval 0 := by
  simp [derivative_mul]
  left; norm_num

/-- What is needed of the first functions: values, first and second derivatives at the first knot. -/
theorem N_jet (h : Open t p) (hp : 1 ≤ p) :
    (N t p 0).eval 0 = 1 ∧ (N t p 1).eval 0 = 0 ∧
    (derivative (N t p 0)).eval 0 = -(p / t (p + 1)) ∧ (derivative (N t p 1)).eval 0 = p / t (p + 1) := by
  have h0 := N_zero h
  obtain ⟨Q1, e1, _⟩ := N_order h 1 hp
  have hd0 : (derivative (N t p 0)).eval 0 = -(p / t (p + 1)) := by
    rw [h0, derivative_pow]
    simp
    ring
  refine ⟨by rw [h0]; simp, by rw [e1]; simp, hd0, ?_⟩
  have hs := congrArg (fun P => (derivative P).eval 0) (N_sum h)
  simp only [derivative_one, eval_zero, derivative_sum, eval_finset_sum] at hs
  rw [show p + 1 = (p - 1) + 1 + 1 by omega, sum_range_succ', sum_range_succ'] at hs
  rw [sum_eq_zero (fun i hi => ?_)] at hs
  · simp only [zero_add] at hs; linarith
  · obtain ⟨Q, e, _⟩ := N_order h (i + 1 + 1) (by have := mem_range.1 hi; omega)
    rw [e]; exact (jet_X_pow Q i).2.1

theorem N_jet2 (h : Open t p) (hp : 2 ≤ p) :
    (N t p 2).eval 0 = 0 ∧ (derivative (N t p 2)).eval 0 = 0 ∧ 0 < (derivative (derivative (N t p 2))).eval 0 ∧
    (derivative (derivative (N t p 0 + N t p 1 + N t p 2))).eval 0 = 0 := by
  obtain ⟨Q2, e2, q2⟩ := N_order h 2 hp
  refine ⟨by rw [e2]; simp, by rw [e2]; exact (jet_X_pow Q2 0).2.1, by rw [e2, eval0_X2_mul]; linarith, ?_⟩
  have hs := congrArg (fun P => (derivative (derivative P)).eval 0) (N_sum h)
  simp only [derivative_one, eval_zero, derivative_sum, eval_finset_sum, map_zero] at hs
  rw [show p + 1 = (p - 2) + 1 + 1 + 1 by omega, sum_range_succ', sum_range_succ', sum_range_succ'] at hs
  rw [sum_eq_zero (fun i hi => ?_)] at hs
  · simp only [zero_add] at hs
    simp only [derivative_add, eval_add]; linarith
  · obtain ⟨Q, e, _⟩ := N_order h (i + 1 + 1 + 1) (by have := mem_range.1 hi; omega)
    rw [e]; exact (jet_X_pow Q i).2.2

end Verif.BSpline
