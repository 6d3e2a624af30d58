import Verif.Model.Boehm
import Verif.Proofs.BSpline
/-! # Knot insertion, derivatives and smoothness of B-splines -/
set_option autoImplicit false
namespace Verif.Boehm
open Polynomial Finset
open _root_.Verif.BSpline (bs bs_zero_of_gt bs_zero_of_lt)

/-- The normalised B-spline. -/
noncomputable def R (t : ℕ → ℝ) (ℓ q i : ℕ) : ℝ[X] := C (1 / (t (i + q + 1) - t i)) * bs t ℓ q i

theorem bs_succ (t : ℕ → ℝ) (ℓ q i : ℕ) : bs t ℓ (q + 1) i = (X - C (t i)) * R t ℓ q i + (C (t (i + q + 2)) - X) * R t ℓ q (i + 1) := by
  rw [bs, R, R, show i + 1 + q + 1 = i + q + 2 by omega]; ring

/-- A function whose knots all coincide is zero on an element. -/
theorem bs_degenerate {t : ℕ → ℝ} (hm : Monotone t) {ℓ q i : ℕ} (hl : t ℓ < t (ℓ + 1)) (h : t (i + q + 1) = t i) : bs t ℓ q i = 0 := by
  by_cases h1 : ℓ < i
  · exact bs_zero_of_gt h1
  · by_cases h2 : i + q < ℓ
    · exact bs_zero_of_lt h2
    · have a := hm (show i ≤ ℓ by omega)
      have b := hm (show ℓ + 1 ≤ i + q + 1 by omega)
      linarith

section insertion
variable {t t' : ℕ → ℝ} {s : ℝ} {k : ℕ}

/-- `t'` is `t` with the knot `s = t k < t (k+1)` inserted once more. -/
structure Ins (t t' : ℕ → ℝ) (s : ℝ) (k : ℕ) : Prop where
  mono : Monotone t
  eq : t k = s
  lt : s < t (k + 1)
  lo : ∀ i ≤ k, t' i = t i
  hi : ∀ i, k ≤ i → t' (i + 1) = t i

theorem Ins.mono' (h : Ins t t' s k) : Monotone t' := by
  refine monotone_nat_of_le_succ fun i => ?_
  rcases Nat.lt_or_ge i k with c | c
  · rw [h.lo i (by omega), h.lo (i + 1) (by omega)]; exact h.mono (by omega)
  · rw [h.hi i c]
    rcases Nat.eq_or_lt_of_le c with c | c
    · rw [h.lo i (by omega)]
    · obtain ⟨j, rfl⟩ : ∃ j, i = j + 1 := ⟨i - 1, by omega⟩
      rw [h.hi j (by omega)]; exact h.mono (by omega)

theorem Ins.le (h : Ins t t' s k) {i : ℕ} (hi : i ≤ k) : t i ≤ s := h.eq ▸ h.mono hi
theorem Ins.gt (h : Ins t t' s k) {i : ℕ} (hi : k < i) : s < t i := h.lt.trans_le (h.mono hi)

theorem Ins.ratio_lo (h : Ins t t' s k) {q i : ℕ} (hi : i + q ≤ k) : ratio t q s i = 1 := if_pos (h.le hi)
theorem Ins.ratio_hi (h : Ins t t' s k) {q i : ℕ} (hi : k < i) : ratio t q s i = 0 := by
  rw [ratio, if_neg (not_le.2 (h.gt (by omega))), if_pos (h.gt hi).le]

theorem Ins.ratio_mul (h : Ins t t' s k) {q i : ℕ} (h1 : i ≤ k) (h2 : k ≤ i + q) : ratio t q s i * (t (i + q) - t i) = s - t i := by
  have a := h.le h1
  have b : s ≤ t (i + q) := h.eq ▸ h.mono h2
  unfold ratio
  split_ifs with c1 c2
  · rw [le_antisymm b c1]; ring
  · rw [le_antisymm a c2]; ring
  · exact div_mul_cancel₀ _ (by linarith [not_le.1 c1, not_le.1 c2])

/-- The number of the element in the refined knot vector. -/
def elt (k ℓ : ℕ) : ℕ := if ℓ < k then ℓ else ℓ + 1

theorem Ins.elt_lt (h : Ins t t' s k) {ℓ : ℕ} (hl : t ℓ < t (ℓ + 1)) : t' (elt k ℓ) < t' (elt k ℓ + 1) := by
  unfold elt
  split_ifs with c
  · rw [h.lo ℓ (by omega), h.lo (ℓ + 1) (by omega)]; exact hl
  · rw [h.hi ℓ (by omega), h.hi (ℓ + 1) (by omega)]; exact hl

/-- Boehm's formula for the normalised functions follows from the one for the functions. -/
theorem Ins.norm (h : Ins t t' s k) {ℓ : ℕ} (hl : t ℓ < t (ℓ + 1)) (q i : ℕ)
    (ih : bs t ℓ q i = C (ratio t q s i) * bs t' (elt k ℓ) q i + C (1 - ratio t q s (i + 1)) * bs t' (elt k ℓ) q (i + 1)) :
    R t ℓ q i = C (ratio t (q + 1) s i) * R t' (elt k ℓ) q i + C (1 - ratio t (q + 1) s i) * R t' (elt k ℓ) q (i + 1) := by
  have key : ∀ (a b c d : ℝ) (N : ℝ[X]), (N = 0 ∨ a * b = c * d) → C a * (C b * N) = C c * (C d * N) := by
    intro a b c d N hh
    rcases hh with rfl | hh
    · simp
    · rw [← mul_assoc, ← mul_assoc, ← C_mul, ← C_mul, hh]
  rw [R, ih, mul_add, R, R]
  congr 1
  · apply key
    by_cases c1 : k < i
    · right; rw [h.ratio_hi c1, h.ratio_hi c1]; ring
    by_cases c2 : i + q + 1 ≤ k
    · right; rw [h.ratio_lo (by omega), h.ratio_lo (show i + (q + 1) ≤ k by omega), h.lo _ c2, h.lo i (by omega)]; ring
    by_cases c3 : t (i + q) = t i
    · left; apply bs_degenerate h.mono' (h.elt_lt hl); rw [h.hi _ (by omega), h.lo _ (by omega), c3]
    · right
      have e1 := h.ratio_mul (q := q) (i := i) (by omega) (by omega)
      have e2 := h.ratio_mul (q := q + 1) (i := i) (by omega) (by omega)
      have g1 : t (i + q) - t i ≠ 0 := sub_ne_zero.2 c3
      have g2 : t (i + q + 1) - t i ≠ 0 := by
        have := h.mono (show i ≤ i + q by omega)
        have := h.mono (show i + q ≤ i + q + 1 by omega)
        have := lt_of_le_of_ne ‹t i ≤ t (i + q)› (Ne.symm c3)
        linarith
      rw [h.hi _ (by omega), h.lo i (by omega), ← sub_eq_zero]
      rw [← add_assoc] at e2
      rw [← e1] at e2
      field_simp
      linarith
  · apply key
    by_cases c1 : k ≤ i
    · right; rw [h.ratio_hi (show k < i + 1 by omega), show ratio t (q + 1) s i = 0 by
          rw [ratio, if_neg (not_le.2 (h.gt (by omega))), if_pos (h.eq ▸ h.mono c1)], show i + 1 + q + 1 = (i + q + 1) + 1 by omega, h.hi _ (by omega), h.hi _ c1]; ring
    by_cases c2 : i + q + 1 < k
    · right; rw [h.ratio_lo (show i + 1 + q ≤ k by omega), h.ratio_lo (show i + (q + 1) ≤ k by omega)]; ring
    by_cases c3 : t (i + q + 1) = t (i + 1)
    · left; apply bs_degenerate h.mono' (h.elt_lt hl); rw [show i + 1 + q + 1 = (i + q + 1) + 1 by omega, h.hi _ (by omega), h.lo _ (by omega), c3]
    · right
      have e1 := h.ratio_mul (q := q) (i := i + 1) (by omega) (by omega)
      have e2 := h.ratio_mul (q := q + 1) (i := i) (by omega) (by omega)
      rw [show i + 1 + q = i + q + 1 by omega] at e1
      have g1 : t (i + q + 1) - t (i + 1) ≠ 0 := sub_ne_zero.2 c3
      have g2 : t (i + q + 1) - t i ≠ 0 := by
        have := h.mono (show i ≤ i + 1 by omega)
        have := lt_of_le_of_ne (h.mono (show i + 1 ≤ i + q + 1 by omega)) (Ne.symm c3)
        linarith
      rw [show i + 1 + q + 1 = (i + q + 1) + 1 by omega, h.hi _ (by omega), h.lo (i + 1) (by omega), ← sub_eq_zero]
      rw [← add_assoc] at e2
      field_simp
      linarith

/-- Boehm's formula on every element. -/
theorem Ins.boehm (h : Ins t t' s k) {ℓ : ℕ} (hl : t ℓ < t (ℓ + 1)) (q i : ℕ) :
    bs t ℓ q i = C (ratio t q s i) * bs t' (elt k ℓ) q i + C (1 - ratio t q s (i + 1)) * bs t' (elt k ℓ) q (i + 1) := by
  induction q generalizing i with
  | zero =>
    have r : ∀ i, ratio t 0 s i = if i ≤ k then 1 else 0 := by
      intro i
      split_ifs with c
      · exact h.ratio_lo c
      · exact h.ratio_hi (by omega)
    rw [r, r, bs, bs, bs, elt]
    split_ifs <;> first | omega | simp
  | succ q ih =>
    rw [bs_succ, h.norm hl q i (ih i), h.norm hl q (i + 1) (ih (i + 1)), bs_succ, bs_succ]
    set A := ratio t (q + 1) s i
    set B := ratio t (q + 1) s (i + 1)
    have z1 : A * (t i - t' i) = 0 := by
      by_cases c : i ≤ k
      · rw [h.lo i c]; ring
      · simp only [A]; rw [h.ratio_hi (by omega)]; ring
    have z3 : (1 - B) * (t (i + q + 2) - t' (i + q + 3)) = 0 := by
      by_cases c : k ≤ i + q + 2
      · rw [h.hi _ c]; ring
      · simp only [B]; rw [h.ratio_lo (by omega)]; ring
    have z2 : -t i * (1 - A) + t (i + q + 2) * B - A * t' (i + q + 2) + (1 - B) * t' (i + 1) = 0 := by
      by_cases c1 : i + q + 2 ≤ k
      · have a1 : A = 1 := h.ratio_lo (by omega)
        have b1 : B = 1 := h.ratio_lo (by omega)
        rw [a1, b1, h.lo _ c1]; ring
      · by_cases c2 : k ≤ i
        · have a0 : A = 0 := by
            simp only [A]; rw [ratio, if_neg (not_le.2 (h.gt (by omega))), if_pos (h.eq ▸ h.mono c2)]
          have b0 : B = 0 := h.ratio_hi (by omega)
          rw [a0, b0, h.hi i c2]; ring
        · have e1 := h.ratio_mul (q := q + 1) (i := i) (by omega) (by omega)
          have e2 := h.ratio_mul (q := q + 1) (i := i + 1) (by omega) (by omega)
          rw [show i + 1 + (q + 1) = i + q + 2 by omega] at e2
          rw [show i + q + 2 = (i + q + 1) + 1 by omega, h.hi (i + q + 1) (by omega), h.lo (i + 1) (by omega)]
          rw [← add_assoc] at e1
          rw [show i + q + 2 = (i + q + 1) + 1 by omega] at e2
          change A * _ = _ at e1
          change B * _ = _ at e2
          linarith
    have y1 := congrArg (C : ℝ →+* ℝ[X]) z1
    have y2 := congrArg (C : ℝ →+* ℝ[X]) z2
    have y3 := congrArg (C : ℝ →+* ℝ[X]) z3
    simp only [map_mul, map_sub, map_add, map_neg, map_one, map_zero] at y1 y2 y3 ⊢
    rw [show i + 1 + q + 2 = i + q + 3 by omega, show i + 1 + 1 = i + 2 by omega]
    linear_combination -(R t' (elt k ℓ) q i) * y1 + (R t' (elt k ℓ) q (i + 1)) * y2 + (R t' (elt k ℓ) q (i + 2)) * y3

end insertion

/-! ## Derivatives and smoothness -/

/-- The derivative of a B-spline. -/
theorem bs_derivative {t : ℕ → ℝ} (hm : Monotone t) {ℓ : ℕ} (hl : t ℓ < t (ℓ + 1)) (q i : ℕ) :
    derivative (bs t ℓ (q + 1) i) = C (q + 1 : ℝ) * (R t ℓ q i - R t ℓ q (i + 1)) := by
  induction q generalizing i with
  | zero => rw [bs_succ, R, R, bs, bs]; split_ifs <;> simp; ring
  | succ q ih =>
    have hR : ∀ j, derivative (R t ℓ (q + 1) j) = C (1 / (t (j + (q + 1) + 1) - t j)) * (C (q + 1 : ℝ) * (R t ℓ q j - R t ℓ q (j + 1))) := by
      intro j; rw [R, derivative_C_mul, ih]
    have hz : ∀ j, R t ℓ q j = 0 ∨ t (j + q + 1) - t j ≠ 0 := by
      intro j
      by_cases c : t (j + q + 1) = t j
      · left; rw [R, bs_degenerate hm hl c]; simp
      · exact Or.inr (sub_ne_zero.2 c)
    have hN : ∀ j, R t ℓ (q + 1) j = C (1 / (t (j + (q + 1) + 1) - t j)) * ((X - C (t j)) * R t ℓ q j + (C (t (j + q + 2)) - X) * R t ℓ q (j + 1)) := by
      intro j; rw [R, bs_succ]
    rw [bs_succ]
    simp only [derivative_add, derivative_mul, derivative_sub, derivative_X, derivative_C, hR]
    have key : C (1 / (t (i + (q + 1) + 1) - t i)) * (X - C (t i)) * (R t ℓ q i - R t ℓ q (i + 1)) + C (1 / (t (i + 1 + (q + 1) + 1) - t (i + 1))) * (C (t (i + (q + 1) + 2)) - X) * (R t ℓ q (i + 1) - R t ℓ q (i + 2)) =
        R t ℓ (q + 1) i - R t ℓ (q + 1) (i + 1) := by
      rw [hN i, hN (i + 1), show i + 1 + (q + 1) + 1 = i + q + 3 by omega, show i + (q + 1) + 1 = i + q + 2 by omega, show i + (q + 1) + 2 = i + q + 3 by omega, show i + 1 + q + 2 = i + q + 3 by omega,
        show i + 1 + 1 = i + 2 by omega]
      rcases hz (i + 1) with hz | hz
      · rw [hz]; ring
      · rw [show i + 1 + q + 1 = i + q + 2 by omega] at hz
        have g1 : t (i + q + 2) - t i ≠ 0 := by
          have := lt_of_le_of_ne (hm (show i + 1 ≤ i + q + 2 by omega)) (fun e => hz (by rw [e]; ring))
          have := hm (show i ≤ i + 1 by omega)
          linarith
        have g2 : t (i + q + 3) - t (i + 1) ≠ 0 := by
          have := lt_of_le_of_ne (hm (show i + 1 ≤ i + q + 2 by omega)) (fun e => hz (by rw [e]; ring))
          have := hm (show i + q + 2 ≤ i + q + 3 by omega)
          linarith
        have y1 := congrArg (C : ℝ →+* ℝ[X]) (one_div_mul_cancel g1)
        have y2 := congrArg (C : ℝ →+* ℝ[X]) (one_div_mul_cancel g2)
        simp only [map_mul, map_sub, map_one] at y1 y2
        linear_combination (-(R t ℓ q (i + 1))) * y1 + (R t ℓ q (i + 1)) * y2
    simp only [show i + 1 + 1 = i + 2 by omega] at *
    rw [← sub_eq_zero] at key ⊢
    push_cast
    simp only [map_add, map_one]
    linear_combination (C (q : ℝ) + 1) * key

/-- A knot `s` of multiplicity `m` with number `k` as the last one; the elements `k - m` and `k` meet there. -/
structure Mult (t : ℕ → ℝ) (s : ℝ) (k m : ℕ) : Prop where
  mono : Monotone t
  le : m ≤ k
  eq : ∀ i, k < i + m → i ≤ k → t i = s
  lo : t (k - m) < s
  hi : s < t (k + 1)

section smooth
variable {t : ℕ → ℝ} {s : ℝ} {k m : ℕ}

private theorem Mult.vals (h : Mult t s k m) (q : ℕ) (hq : q ≤ m) (i : ℕ) : (bs t (k - m) q i).eval s = (if i + m = k then 1 else 0) ∧ (bs t k q i).eval s = if i + q = k then 1 else 0 := by
  have hle := h.le
  induction q generalizing i with
  | zero =>
    rw [bs, bs]
    constructor
    · split_ifs <;> first | omega | simp
    · split_ifs <;> first | omega | simp
  | succ q ih =>
    obtain ⟨a1, a2⟩ := ih (by omega) i
    obtain ⟨b1, b2⟩ := ih (by omega) (i + 1)
    rw [bs, bs]
    simp only [eval_add, eval_mul, eval_C, eval_sub, eval_X, a1, a2, b1, b2]
    constructor
    · by_cases c1 : i + m = k
      · rw [if_pos c1, if_neg (by omega), h.eq (i + q + 1) (by omega) (by omega)]
        have := h.lo
        rw [show k - m = i by omega] at this
        rw [mul_zero, add_zero, mul_one, one_div_mul_cancel (by linarith)]
      · rw [if_neg c1]
        by_cases c2 : i + 1 + m = k
        · rw [if_pos c2, h.eq (i + q + 2) (by omega) (by omega)]; ring
        · rw [if_neg c2]; ring
    · by_cases c1 : i + q = k
      · rw [if_pos c1, if_neg (by omega), if_neg (by omega), h.eq i (by omega) (by omega)]; ring
      · rw [if_neg c1]
        by_cases c2 : i + 1 + q = k
        · rw [if_pos c2, if_pos (by omega), h.eq (i + 1) (by omega) (by omega), show i + q + 2 = k + 1 by omega]
          have := h.hi
          rw [mul_zero, zero_add, mul_one, one_div_mul_cancel (by linarith)]
        · rw [if_neg c2, if_neg (by omega)]; ring

/-- Continuity. -/
theorem Mult.cont (h : Mult t s k m) (q : ℕ) (hq : m ≤ q) (i : ℕ) : (bs t (k - m) q i).eval s = (bs t k q i).eval s := by
  obtain ⟨e, rfl⟩ := Nat.exists_eq_add_of_le hq
  clear hq
  induction e generalizing i with
  | zero =>
    obtain ⟨a, b⟩ := h.vals m le_rfl i
    rw [Nat.add_zero, a, b]
  | succ e ih =>
    rw [← Nat.add_assoc, bs, bs]
    simp only [eval_add, eval_mul, ih]

/-- A function of degree `q` has `q - m` continuous derivatives at a knot of multiplicity `m`. -/
theorem Mult.smooth (h : Mult t s k m) (hm : 1 ≤ m) (r q : ℕ) (hq : m + r ≤ q) (i : ℕ) : (derivative^[r] (bs t (k - m) q i)).eval s = (derivative^[r] (bs t k q i)).eval s := by
  have hle := h.le
  have e1 : t (k - m) < t (k - m + 1) := by rw [h.eq (k - m + 1) (by omega) (by omega)]; exact h.lo
  have e2 : t k < t (k + 1) := by rw [h.eq k (by omega) le_rfl]; exact h.hi
  induction r generalizing q i with
  | zero => exact h.cont q (by omega) i
  | succ r ih =>
    obtain ⟨q, rfl⟩ : ∃ q', q = q' + 1 := ⟨q - 1, by omega⟩
    rw [Function.iterate_succ_apply, Function.iterate_succ_apply, bs_derivative h.mono e1, bs_derivative h.mono e2, iterate_derivative_C_mul, iterate_derivative_C_mul,
      iterate_derivative_sub, iterate_derivative_sub, R, R, R, R, iterate_derivative_C_mul, iterate_derivative_C_mul, iterate_derivative_C_mul, iterate_derivative_C_mul]
    simp only [eval_mul, eval_sub, eval_C, ih q (by omega)]

end smooth

/-! ## Locality -/

theorem bs_congr {t u : ℕ → ℝ} (c : ℕ) {ℓ q i : ℕ} (h : ∀ j, i ≤ j → j ≤ i + q + 1 → t j = u (j + c)) : bs t ℓ q i = bs u (ℓ + c) q (i + c) := by
  induction q generalizing i with
  | zero => rw [bs, bs]; split_ifs <;> first | omega | rfl
  | succ q ih =>
    rw [bs, bs, ih fun j h1 h2 => h j h1 (by omega), ih fun j h1 h2 => h j (by omega) (by omega), h i (by omega) (by omega), h (i + 1) (by omega) (by omega), h (i + q + 1) (by omega) (by omega), h (i + q + 2) (by omega) (by omega),
      show i + q + 1 + c = i + c + q + 1 by omega, show i + 1 + c = i + c + 1 by omega, show i + q + 2 + c = i + c + q + 2 by omega]

/-- The last knot plays no role on the first element of the support and before. -/
theorem bs_congr_lo {t u : ℕ → ℝ} {ℓ q i : ℕ} (hl : ℓ ≤ i) (h : ∀ j, i ≤ j → j ≤ i + q → t j = u j) : bs t ℓ q i = bs u ℓ q i := by
  induction q with
  | zero => rw [bs, bs]
  | succ q ih =>
    rw [bs, bs, ih fun j h1 h2 => h j h1 (by omega), bs_zero_of_gt (show ℓ < i + 1 by omega), bs_zero_of_gt (show ℓ < i + 1 by omega), h i (by omega) (by omega), h (i + q + 1) (by omega) (by omega)]
    ring

/-- The first knot plays no role on the last element of the support and behind. -/
theorem bs_congr_hi {t u : ℕ → ℝ} (c : ℕ) {ℓ q i : ℕ} (hl : i + q ≤ ℓ) (h : ∀ j, i < j → j ≤ i + q + 1 → t j = u (j + c)) : bs t ℓ q i = bs u (ℓ + c) q (i + c) := by
  induction q generalizing i with
  | zero => rw [bs, bs]; split_ifs <;> first | omega | rfl
  | succ q ih =>
    have e := ih (i := i + 1) (by omega) fun j h1 h2 => h j (by omega) (by omega)
    rw [bs, bs, bs_zero_of_lt (show i + q < ℓ by omega), bs_zero_of_lt (show i + c + q < ℓ + c by omega), e, h (i + 1) (by omega) (by omega), h (i + q + 2) (by omega) (by omega),
      show i + 1 + c = i + c + 1 by omega, show i + q + 2 + c = i + c + q + 2 by omega]
    ring

/-- B-splines over scaled and shifted knots. -/
theorem bs_affine {t u : ℕ → ℝ} {α β : ℝ} (hα : α ≠ 0) {ℓ q i : ℕ} (h : ∀ j, i ≤ j → j ≤ i + q + 1 → u j = α * t j + β) : (bs u ℓ q i).comp (C α * X + C β) = bs t ℓ q i := by
  induction q generalizing i with
  | zero => rw [bs, bs]; split_ifs <;> simp
  | succ q ih =>
    have inv : ∀ a b : ℝ, 1 / (α * a + β - (α * b + β)) * α = 1 / (a - b) := by
      intro a b
      rw [show α * a + β - (α * b + β) = α * (a - b) by ring, one_div, mul_inv, one_div]
      field_simp
    rw [bs, bs, ← ih fun j h1 h2 => h j h1 (by omega), ← ih fun j h1 h2 => h j (by omega) (by omega), h i (by omega) (by omega), h (i + 1) (by omega) (by omega), h (i + q + 1) (by omega) (by omega), h (i + q + 2) (by omega) (by omega),
      ← inv (t (i + q + 1)) (t i), ← inv (t (i + q + 2)) (t (i + 1))]
    simp only [add_comp, mul_comp, sub_comp, C_comp, X_comp, C_add, C_mul]
    ring

/-- B-splines over mirrored knots. -/
theorem bs_mirror {t u : ℕ → ℝ} {α β : ℝ} (hα : α ≠ 0) {M ℓ ℓ' q i i' : ℕ} (h : ∀ j j', j + j' = M → u j = β - α * t j') (hl : ℓ + ℓ' + 1 = M) (hi : i + i' + q + 1 = M) : (bs u ℓ q i).comp (C β - C α * X) = bs t ℓ' q i' := by
  induction q generalizing i i' with
  | zero => rw [bs, bs]; split_ifs <;> first | omega | simp
  | succ q ih =>
    have inv : ∀ a b : ℝ, 1 / (β - α * a - (β - α * b)) * α = 1 / (b - a) := by
      intro a b
      rw [show β - α * a - (β - α * b) = α * (b - a) by ring, one_div, mul_inv, one_div]
      field_simp
    rw [bs, bs, ← ih (i := i) (i' := i' + 1) (by omega), ← ih (i := i + 1) (i' := i') (by omega), h i (i' + q + 2) (by omega), h (i + 1) (i' + q + 1) (by omega), h (i + q + 1) (i' + 1) (by omega), h (i + q + 2) i' (by omega), ← inv (t (i' + 1)) (t (i' + q + 2)), ← inv (t i') (t (i' + q + 1))]
    simp only [add_comp, mul_comp, sub_comp, C_comp, X_comp, C_sub, C_mul]
    ring

end Verif.Boehm
