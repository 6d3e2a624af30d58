import Verif.Proofs.Boehm
/-! # B-splines on one element: partition of unity and linear independence -/
set_option autoImplicit false
namespace Verif.Boehm
open Polynomial Finset
open _root_.Verif.BSpline (bs bs_zero_of_gt bs_zero_of_lt)

private theorem by_parts {A : Type} [CommRing A] (a b F : ℕ → A) (n : ℕ) (h0 : F 0 = 0) (h1 : F (n + 1) = 0) :
    ∑ k ∈ range (n + 1), (a k * F k + b k * F (k + 1)) = ∑ k ∈ range n, (a (k + 1) + b k) * F (k + 1) := by
  rw [sum_add_distrib, sum_range_succ', sum_range_succ (fun k => b k * F (k + 1)), h0, h1, mul_zero, mul_zero, add_zero, add_zero, ← sum_add_distrib]
  exact sum_congr rfl fun k _ => by ring

section
variable {t : ℕ → ℝ} {ℓ : ℕ}

private theorem R_lo {q m : ℕ} (h : m + q < ℓ) : R t ℓ q m = 0 := by rw [R, bs_zero_of_lt h, mul_zero]
private theorem R_hi {q m : ℕ} (h : ℓ < m) : R t ℓ q m = 0 := by rw [R, bs_zero_of_gt h, mul_zero]

private theorem gap (hm : Monotone t) (hl : t ℓ < t (ℓ + 1)) {q i : ℕ} (h1 : i ≤ ℓ) (h2 : ℓ ≤ i + q) : t (i + q + 1) - t i ≠ 0 := by
  have a := hm h1
  have b := hm (show ℓ + 1 ≤ i + q + 1 by omega)
  intro e; linarith

/-- The functions of degree `q` that do not vanish on the element `ℓ = m + q` sum to one there. -/
theorem elt_sum (hm : Monotone t) (hl : t ℓ < t (ℓ + 1)) (q m : ℕ) (e : m + q = ℓ) : ∑ k ∈ range (q + 1), bs t ℓ q (m + k) = 1 := by
  induction q generalizing m with
  | zero =>
    have : m = ℓ := by omega
    simp [bs, this]
  | succ q ih =>
    have h := ih (m + 1) (by omega)
    have := by_parts (fun k => X - C (t (m + k))) (fun k => C (t (m + k + q + 2)) - X) (fun k => R t ℓ q (m + k)) (q + 1) (R_lo (by omega)) (R_hi (by omega))
    rw [show ∑ k ∈ range (q + 1 + 1), bs t ℓ (q + 1) (m + k) = _ from (sum_congr rfl fun k _ => by rw [bs_succ]; rfl).trans this, ← h]
    refine sum_congr rfl fun k hk => ?_
    have hk' := mem_range.1 hk
    have g := gap hm hl (q := q) (i := m + (k + 1)) (by omega) (by omega)
    rw [R, show m + k + q + 2 = m + (k + 1) + q + 1 by omega, show m + 1 + k = m + (k + 1) by omega, ← mul_assoc]
    have : (X - C (t (m + (k + 1))) + (C (t (m + (k + 1) + q + 1)) - X)) * C (1 / (t (m + (k + 1) + q + 1) - t (m + (k + 1)))) = 1 := by
      rw [show X - C (t (m + (k + 1))) + (C (t (m + (k + 1) + q + 1)) - X) = C (t (m + (k + 1) + q + 1) - t (m + (k + 1))) by rw [C_sub]; ring, ← C_mul, mul_one_div_cancel g, C_1]
    rw [this, one_mul]

/-- They are linearly independent there. -/
theorem elt_indep (hm : Monotone t) (hl : t ℓ < t (ℓ + 1)) (q m : ℕ) (e : m + q = ℓ) (c : ℕ → ℝ) (h : ∑ k ∈ range (q + 1), C (c k) * bs t ℓ q (m + k) = 0) : ∀ k ≤ q, c k = 0 := by
  induction q generalizing m c with
  | zero =>
    intro k hk
    have hk : k = 0 := by omega
    have : m = ℓ := by omega
    subst hk
    simpa [bs, this] using h
  | succ q ih =>
    have hd := congrArg derivative h
    rw [derivative_sum, derivative_zero] at hd
    have h2 : ∑ k ∈ range (q + 1 + 1), (C (c k) * R t ℓ q (m + k) + -C (c k) * R t ℓ q (m + (k + 1))) = 0 := by
      have hq : (C (q + 1 : ℝ) : ℝ[X]) ≠ 0 := by rw [Ne, C_eq_zero]; positivity
      refine (mul_eq_zero.1 ?_).resolve_left hq
      rw [mul_sum, ← hd]
      refine sum_congr rfl fun k _ => ?_
      rw [derivative_C_mul, bs_derivative hm hl]
      rw [show m + k + 1 = m + (k + 1) by omega]
      ring
    rw [by_parts (fun k => C (c k)) (fun k => -C (c k)) (fun k => R t ℓ q (m + k)) (q + 1) (R_lo (by omega)) (R_hi (by omega))] at h2
    have h3 := ih (m + 1) (by omega) (fun k => (c (k + 1) - c k) * (1 / (t (m + (k + 1) + q + 1) - t (m + (k + 1))))) (by
      rw [← h2]
      refine sum_congr rfl fun k _ => ?_
      rw [R, show m + 1 + k = m + (k + 1) by omega, C_mul, C_sub]
      ring)
    have step : ∀ k ≤ q, c (k + 1) = c k := by
      intro k hk
      rcases mul_eq_zero.1 (h3 k hk) with z | z
      · exact sub_eq_zero.1 z
      · exact absurd z (one_div_ne_zero (gap hm hl (by omega) (by omega)))
    have const : ∀ k ≤ q + 1, c k = c 0 := by
      intro k hk
      induction k with
      | zero => rfl
      | succ k ihk => rw [step k (by omega), ihk (by omega)]
    have h0 : c 0 = 0 := by
      have : ∑ k ∈ range (q + 1 + 1), C (c k) * bs t ℓ (q + 1) (m + k) = C (c 0) * ∑ k ∈ range (q + 1 + 1), bs t ℓ (q + 1) (m + k) := by
        rw [mul_sum]
        exact sum_congr rfl fun k hk => by rw [const k (by have := mem_range.1 hk; omega)]
      rw [h, elt_sum hm hl (q + 1) m e, mul_one] at this
      exact C_eq_zero.1 this.symm
    exact fun k hk => (const k hk).trans h0

end
end Verif.Boehm
